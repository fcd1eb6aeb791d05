import Verif.Spec.Prompt
import Verif.Proof.Costs
import Verif.Props.Immediate
/-
C130: a pass of the main loop is short, whatever happens, and therefore everything sent is read, and immediate instructions are begun, soon.
-/
set_option linter.unusedSectionVars false
namespace Mrc.Props
open Mrc Mrc.Prog Mrc.Spec Mrc.Costs
variable {F : Type} [FloatOps F] {cfg : Cfg F} {w0 : World F} {junk : Nat → Byte}

theorem do_act {s t : Sys F} {a : Act F} (h : Sys.Do cfg s (.act a) t) : Prog.Step s.p a t.p := by
  cases h <;> constructor

theorem do_other {s t : Sys F} {e : Ev F} (h : Sys.Do cfg s e t) (h1 : ∀ a, e ≠ .act a) (h2 : e ≠ .next) : t.p = s.p := by
  cases h <;> first | rfl | exact absurd rfl (h1 _) | exact absurd rfl h2

theorem do_next {s t : Sys F} (h : Sys.Do cfg s .next t) : ∃ f, s.p = .ret f ∧ t.p = loopBody cfg f := by
  cases h; exact ⟨_, rfl, rfl⟩

theorem later_run {evs evs' : List (Ev F)} {s t : Sys F} (h : Sys.Run cfg w0 junk evs s) (h' : Later cfg s evs' t) : Sys.Run cfg w0 junk (evs ++ evs') t := by
  induction h' with
  | now => rwa [List.append_nil]
  | step _ hs ih => rw [← List.append_assoc]; exact .step ih hs

theorem acts_snoc (evs : List (Ev F)) (e : Ev F) : acts (evs ++ [e]) = acts evs ++ acts [e] := by simp [acts]

/-- at any moment something is left of the budget of the pass. -/
theorem run_costs {evs : List (Ev F)} {s : Sys F} (h : Sys.Run cfg w0 junk evs s) : ∃ b ≤ PASS, Costs s.p (fun _ a => CondsOk a) b := by
  induction h with
  | init => exact ⟨13, by decide, setup_costs cfg junk⟩
  | @step evs s e t _ hs ih =>
    obtain ⟨b, hb, hc⟩ := ih
    cases e with
    | act a =>
      have := costs_step (do_act hs) hc
      exact ⟨b - 1, by omega, this.2⟩
    | next =>
      obtain ⟨f, e1, e2⟩ := do_next hs
      rw [e1] at hc
      exact ⟨PASS, le_rfl, by rw [e2]; exact loop_pass_costs cfg f hc⟩
    | _ => exact ⟨b, hb, by rw [do_other hs (by rintro a ⟨⟩) (by rintro ⟨⟩)]; exact hc⟩

theorem later_costs {s t : Sys F} {evs : List (Ev F)} {b : ℕ} (hc : Costs s.p (fun _ a => CondsOk a) b) (h : Later cfg s evs t) (hn : .next ∉ evs) :
    ∃ b', (acts evs).length + b' = b ∧ Costs t.p (fun _ a => CondsOk a) b' := by
  induction h with
  | now => exact ⟨b, by simp [acts], hc⟩
  | @step evs t e u _ hs ih =>
    obtain ⟨b', hb', hc'⟩ := ih fun hm => hn (by simp [hm])
    rw [acts_snoc, List.length_append]
    cases e with
    | act a =>
      have := costs_step (do_act hs) hc'
      exact ⟨b' - 1, by have e1 : (acts [.act a]).length = 1 := rfl
                        omega, this.2⟩
    | next => exact absurd (by simp) hn
    | _ => exact ⟨b', by simpa [acts] using hb', by rw [do_other hs (by rintro a ⟨⟩) (by rintro ⟨⟩)]; exact hc'⟩

/-- **C130**: any robot, arithmetic, storage contents, host and history. While no new pass of the main loop begins there are at most 1299 accesses: whatever is received and wherever the arm is, a pass is over after that. -/
theorem C130_pass {evs mid : List (Ev F)} {s t : Sys F} (h : Sys.Run cfg w0 junk evs s) (h' : Later cfg s mid t) (hn : .next ∉ mid) : (acts mid).length ≤ 1299 := by
  obtain ⟨b, hb, hc⟩ := run_costs h
  obtain ⟨b', hb', -⟩ := later_costs hc h' hn
  have : PASS = 1299 := rfl
  omega

/-- **C130**: and at most 13 before the first pass. -/
theorem C130_boot {evs : List (Ev F)} {s : Sys F} (h : Sys.Run cfg w0 junk evs s) (hn : .next ∉ evs) : (acts evs).length ≤ 13 := by
  have h' : Later cfg ⟨w0, setup cfg junk⟩ evs s := by
    clear hn
    induction h with
    | init => exact .now
    | step _ hs ih => exact .step ih hs
  obtain ⟨b', hb', -⟩ := later_costs (setup_costs cfg junk) h' hn
  omega

/-- **C130**: so the number of passes keeps up with the number of accesses. -/
theorem C130_passes {evs : List (Ev F)} {s : Sys F} (h : Sys.Run cfg w0 junk evs s) : (acts evs).length ≤ 13 + 1299 * passes evs := by
  have key : ∃ b, Costs s.p (fun _ a => CondsOk a) b ∧ (acts evs).length + b ≤ 13 + 1299 * passes evs := by
    induction h with
    | init => exact ⟨13, setup_costs cfg junk, by simp [acts, passes]⟩
    | @step evs s e t _ hs ih =>
      obtain ⟨b, hc, hb⟩ := ih
      rw [acts_snoc, List.length_append, passes, List.countP_append, ← passes]
      cases e with
      | act a =>
        have := costs_step (do_act hs) hc
        refine ⟨b - 1, this.2, ?_⟩
        simp only [acts, List.filterMap_cons, List.filterMap_nil, List.length_singleton, List.countP_cons, List.countP_nil] at hb ⊢
        simp
        omega
      | next =>
        obtain ⟨f, e1, e2⟩ := do_next hs
        rw [e1] at hc
        refine ⟨1299, by rw [e2]; exact loop_pass_costs cfg f hc, ?_⟩
        simp only [acts, List.filterMap_cons, List.filterMap_nil, List.length_nil, List.countP_cons, List.countP_nil] at hb ⊢
        simp
        omega
      | _ =>
        refine ⟨b, by rw [do_other hs (by rintro a ⟨⟩) (by rintro ⟨⟩)]; exact hc, ?_⟩
        simpa [acts, List.countP_cons] using hb
  obtain ⟨b, -, hb⟩ := key
  omega

/-! ### what waits on the serial line -/

/-- how many of the bytes that waited are still waitMon. -/
def waitMon : Mon F ℕ where
  upd P a := match a with | .rx (some _) => P - 1 | _ => P
  env P a := a = .rx none → P = 0

theorem waitMon_le (P : ℕ) (a : Act F) : (waitMon (F := F)).upd P a ≤ P := by
  unfold waitMon
  simp only
  split <;> omega

theorem waitMon_any {α : Type} (p : Prog F α) {P X : ℕ} (h : P ≤ X) : p.wp waitMon (fun P' _ => P' ≤ X) P := by
  induction p generalizing P with
  | ret a => exact h
  | fault f => trivial
  | servo i k ih => exact fun v _ => ih v ((waitMon_le _ _).trans h)
  | micro i m k ih => exact ⟨trivial, ih ((waitMon_le _ _).trans h)⟩
  | now k ih => exact fun v _ => ih v ((waitMon_le _ _).trans h)
  | pin p k ih => exact fun v _ => ih v ((waitMon_le _ _).trans h)
  | rx k ih => exact fun v _ => ih v ((waitMon_le _ _).trans h)
  | eeRead k ih => exact fun v _ => ih v ((waitMon_le _ _).trans h)
  | eeWrite a b k ih => exact ⟨trivial, ih ((waitMon_le _ _).trans h)⟩
  | out o k ih => exact ⟨trivial, ih ((waitMon_le _ _).trans h)⟩

theorem serial_waitMon (cfg : Cfg F) (i : ℕ) (s : FW F) (P : ℕ) : (serialProcess cfg i s).wp waitMon (fun P' _ => P' ≤ P - i) P := by
  induction i generalizing s P with
  | zero => exact le_rfl
  | succ i ih =>
    intro b hb
    cases b with
    | none =>
      have : P = 0 := hb rfl
      subst this
      exact Nat.zero_le _
    | some c =>
      show (Prog.bind _ _).wp waitMon _ (P - 1)
      rw [wp_bind]
      refine wp_mono (fun P' s' h => ?_) (waitMon_any (Mrcp.parseChar cfg s c) (le_refl (P - 1)))
      exact wp_mono (fun P'' _ h' => by omega) (ih s' P')

theorem pass_waitMon (cfg : Cfg F) (s : FW F) (P : ℕ) : (loopBody cfg s).wp waitMon (fun P' _ => P' ≤ P - 30) P := by
  show (Prog.bind _ _).wp waitMon _ _
  rw [wp_bind]
  refine wp_mono (fun P1 s h1 => ?_) (waitMon_any (rcProcess cfg s) le_rfl)
  show (Prog.bind _ _).wp waitMon _ _
  rw [wp_bind]
  refine wp_mono (fun P2 s h2 => ?_) (waitMon_any (rcProcess cfg s) le_rfl)
  show (Prog.bind _ _).wp waitMon _ _
  rw [wp_bind]
  refine wp_mono (fun P3 s h3 => ?_) (serial_waitMon cfg SERIAL_BYTES s P2)
  unfold SERIAL_BYTES at h3
  exact waitMon_any _ (by omega)

theorem rx_do {s t : Sys F} {e : Ev F} (h : Sys.Do cfg s e t) : s.w.rxq.length + (arrivals [e]).length = (rxBytes (acts [e])).length + t.w.rxq.length := by
  cases h <;> simp_all [arrivals, acts, rxBytes, World.setServo, World.isr] <;> omega

theorem later_rx {s t : Sys F} {evs : List (Ev F)} (h : Later cfg s evs t) : s.w.rxq.length + (arrivals evs).length = (rxBytes (acts evs)).length + t.w.rxq.length := by
  induction h with
  | now => simp [arrivals, acts, rxBytes]
  | @step evs t e u _ hs ih =>
    have h1 := rx_do hs
    have e1 : arrivals (evs ++ [e]) = arrivals evs ++ arrivals [e] := by simp [arrivals]
    rw [e1, acts_snoc, rxBytes_append, List.length_append, List.length_append]
    omega

theorem reading_key {evs mid : List (Ev F)} {s t : Sys F} (h : Sys.Run cfg w0 junk evs s) (h' : Later cfg s mid t) : s.w.rxq.length ≤ (rxBytes (acts mid)).length ∨
    ∃ b P, Costs t.p (fun _ a => CondsOk a) b ∧ t.p.wp waitMon (fun P' _ => P' ≤ P) (s.w.rxq.length - (rxBytes (acts mid)).length) ∧ (acts mid).length + b + 1299 * ((P + 29) / 30) ≤ reading s.w.rxq.length := by
  have hr : reading s.w.rxq.length = 1299 * (s.w.rxq.length / 30 + 2) := rfl
  induction h' with
  | now =>
    obtain ⟨b, hb, hc⟩ := run_costs h
    have : PASS = 1299 := rfl
    refine .inr ⟨b, s.w.rxq.length, hc, waitMon_any _ (by omega), ?_⟩
    simp only [acts, List.filterMap_nil, List.length_nil]
    omega
  | @step mid t e u hl hs ih =>
    have hq := later_rx hl
    have hqs := rx_do hs
    rw [acts_snoc, rxBytes_append, List.length_append, List.length_append]
    rcases ih with ih | ⟨b, P, hc, hP, hb⟩
    · exact .inl (by omega)
    cases e with
    | act a =>
      have hst := do_act hs
      have h1 := costs_step hst hc
      have h2 := wp_step hst hP (fun hi ea => by
        subst ea
        have : t.w.rxq = [] := by cases hs; assumption
        rw [this] at hq
        simp at hq
        omega)
      right
      refine ⟨b - 1, P, h1.2, ?_, by simp only [acts, List.filterMap_cons, List.filterMap_nil, List.length_singleton] at hb ⊢; omega⟩
      refine cast ?_ h2.2
      congr 1
      simp only [waitMon, acts, List.filterMap_cons, List.filterMap_nil]
      split
      · simp [rxBytes]; omega
      · rename_i hne
        have : rxBytes [a] = [] := by
          cases a with
          | rx b => cases b with
            | none => rfl
            | some c => exact absurd rfl (hne c)
          | _ => rfl
        rw [this]; rfl
    | next =>
      obtain ⟨f, e1, e2⟩ := do_next hs
      rw [e1] at hc hP
      have hP : s.w.rxq.length - (rxBytes (acts mid)).length ≤ P := hP
      have e0 : acts ([.next] : List (Ev F)) = [] := rfl
      rw [e0]
      simp only [rxBytes, List.filterMap_nil, List.length_nil, Nat.add_zero]
      by_cases h0 : s.w.rxq.length ≤ (rxBytes (acts mid)).length
      · exact .inl h0
      · right
        refine ⟨1299, s.w.rxq.length - (rxBytes (acts mid)).length - 30, by rw [e2]; exact loop_pass_costs cfg f hc, by rw [e2]; exact pass_waitMon cfg f _, ?_⟩
        have : ((s.w.rxq.length - (rxBytes (acts mid)).length - 30 + 29) / 30) + 1 ≤ (P + 29) / 30 := by omega
        omega
    | isr => exact .inr ⟨b, P, by rw [do_other hs (by rintro a ⟨⟩) (by rintro ⟨⟩)]; exact hc, by rw [do_other hs (by rintro a ⟨⟩) (by rintro ⟨⟩)]; exact hP, hb⟩
    | clock _ => exact .inr ⟨b, P, by rw [do_other hs (by rintro a ⟨⟩) (by rintro ⟨⟩)]; exact hc, by rw [do_other hs (by rintro a ⟨⟩) (by rintro ⟨⟩)]; exact hP, hb⟩
    | pins _ => exact .inr ⟨b, P, by rw [do_other hs (by rintro a ⟨⟩) (by rintro ⟨⟩)]; exact hc, by rw [do_other hs (by rintro a ⟨⟩) (by rintro ⟨⟩)]; exact hP, hb⟩
    | arrive _ => exact .inr ⟨b, P, by rw [do_other hs (by rintro a ⟨⟩) (by rintro ⟨⟩)]; exact hc, by rw [do_other hs (by rintro a ⟨⟩) (by rintro ⟨⟩)]; exact hP, hb⟩

/-- **C130**: everything that waits on the serial line, `L` bytes, has been read after 1299 · (L/30 + 2) accesses, however much arrives meanwhile. -/
theorem C130_read {evs mid : List (Ev F)} {s t : Sys F} (h : Sys.Run cfg w0 junk evs s) (h' : Later cfg s mid t) (hn : reading s.w.rxq.length < (acts mid).length) :
    s.w.rxq.length ≤ (rxBytes (acts mid)).length := by
  rcases reading_key h h' with h | ⟨b, P, -, -, hb⟩
  · exact h
  · omega

theorem nows_append (r s : List Byte) : ∃ x, nows (r ++ s) = nows r ++ x := by
  rw [nows, decode_append, List.filterMap_append]; exact ⟨_, rfl⟩

theorem later_split {s t : Sys F} {evs : List (Ev F)} (h : Later cfg s evs t) : ∀ n, n ≤ (acts evs).length → ∃ a b u, evs = a ++ b ∧ (acts a).length = n ∧ Later cfg s a u ∧ Later cfg u b t := by
  induction h with
  | now => intro n hn; exact ⟨[], [], s, rfl, by simp [acts] at hn ⊢; omega, .now, .now⟩
  | @step evs t e u hl hs ih =>
    intro n hn
    by_cases hle : n ≤ (acts evs).length
    · obtain ⟨a, b, v, rfl, h1, h2, h3⟩ := ih n hle
      exact ⟨a, b ++ [e], v, by simp, h1, h2, .step h3 hs⟩
    · rw [acts_snoc, List.length_append] at hn
      have : (acts [e]).length ≤ 1 := by cases e <;> simp [acts]
      exact ⟨evs ++ [e], [], u, by simp, by rw [acts_snoc, List.length_append]; omega, .step hl hs, .now⟩

theorem later_next {s t : Sys F} {evs : List (Ev F)} (h : Later cfg s evs t) (hm : .next ∈ evs) : ∃ a b u f, evs = a ++ b ∧ Later cfg s a u ∧ u.p = .ret f ∧ Later cfg u b t := by
  induction h with
  | now => cases hm
  | @step evs t e u hl hs ih =>
    by_cases he : e = .next
    · subst he
      obtain ⟨f, e1, -⟩ := do_next hs
      exact ⟨evs, [.next], t, f, rfl, hl, e1, .step (evs := []) .now hs⟩
    · obtain ⟨a, b, v, f, rfl, h1, h2, h3⟩ := ih (by simpa [Ne.symm he] using hm)
      exact ⟨a, b ++ [e], v, f, by simp, h1, h2, .step h3 hs⟩

theorem nowStarts_append (a b : List (Act F)) : nowStarts (a ++ b) = nowStarts a ++ nowStarts b := by simp [nowStarts]

/-- **C130**: reaction. Every immediate instruction whose line has arrived by now has been begun after 1299 · (L/30 + 3) + 2 accesses, where `L` is the number of bytes now waiting on the line:
whatever the arm does, whatever the controller waits for, and whatever is in queue or storage. -/
theorem C130_reaction {evs mid : List (Ev F)} {s t : Sys F} (h : Sys.Run cfg w0 junk evs s) (h' : Later cfg s mid t) (hn : reading s.w.rxq.length + PASS + 2 ≤ (acts mid).length) :
    nows (w0.rxq ++ arrivals evs) <+: nowStarts (acts (evs ++ mid)) := by
  obtain ⟨a, b, u, rfl, g1, g2, g3⟩ := later_split h' (reading s.w.rxq.length + 1) (by omega)
  have hr := C130_read h g2 (by omega)
  have hnext : .next ∈ b := by
    by_contra hb
    have hl := C130_pass (later_run h g2) g3 hb
    have e : acts (a ++ b) = acts a ++ acts b := by simp [acts]
    rw [e, List.length_append] at hn
    have : PASS = 1299 := rfl
    omega
  obtain ⟨c, d, v, f, rfl, k1, k2, k3⟩ := later_next g3 hnext
  have hrun := later_run (later_run h g2) k1
  have htr := hrun.trace
  rw [k2] at htr
  have hall := C91_all htr
  -- everything waiting was read by then
  have e1 : acts (evs ++ (a ++ (c ++ d))) = acts (evs ++ a ++ c) ++ acts d := by simp [acts]
  rw [e1, nowStarts_append, hall]
  refine List.IsPrefix.trans ?_ (List.prefix_append _ _)
  have hf := h.fifo
  have hf2 := hrun.fifo
  have e2 : arrivals (evs ++ a ++ c) = arrivals evs ++ (arrivals a ++ arrivals c) := by simp [arrivals]
  have e3 : rxBytes (acts (evs ++ a ++ c)) = rxBytes (acts evs) ++ (rxBytes (acts a) ++ rxBytes (acts c)) := by
    have : acts (evs ++ a ++ c) = acts evs ++ (acts a ++ acts c) := by simp [acts]
    rw [this, rxBytes_append, rxBytes_append]
  have hpre : w0.rxq ++ arrivals evs <+: rxBytes (acts (evs ++ a ++ c)) := by
    have p1 : w0.rxq ++ arrivals evs <+: w0.rxq ++ arrivals (evs ++ a ++ c) := by rw [e2, ← List.append_assoc]; exact List.prefix_append _ _
    have p2 : rxBytes (acts (evs ++ a ++ c)) <+: w0.rxq ++ arrivals (evs ++ a ++ c) := by rw [hf2]; exact List.prefix_append _ _
    refine List.prefix_of_prefix_length_le p1 p2 ?_
    rw [hf, e3]
    simp only [List.length_append]
    omega
  obtain ⟨x, hx⟩ := hpre
  obtain ⟨y, hy⟩ := nows_append (w0.rxq ++ arrivals evs) x
  rw [← hx, hy]
  exact List.prefix_append _ _

end Mrc.Props
