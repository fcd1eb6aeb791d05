import Verif.Proof.Pass
import Verif.Proof.Run
import Verif.Spec.Flow
/- Flow control: free-space reports against instructions started. -/
set_option linter.unusedSectionVars false
namespace Mrc
open Mrc.Prog Mrc.Spec
variable {F : Type} [FloatOps F]

/-- a question for the free space has just been read. -/
def asked (d : Dev) (b : Byte) : Bool := b == 13 && !overlong d.line && decide (frame (payload d.line) = .free)

/-- change of (questions read + instructions started from the queue - free-space reports). -/
def delta (d : Dev) : Act F → Int
  | .rx (some b) => if asked d b then 1 else 0
  | .out (.msg (.free _)) => -1
  | .out (.ghost .queue _) => 1
  | _ => 0

/-- the host's view and the tally. -/
def flowMon (k : Bool) : Mon F (Dev × Int) where
  upd s a := (s.1.act a, s.2 + delta s.1 a)
  ok s a := k = true → ∀ n, a = .out (.msg (.free n)) → 1 ≤ s.2

variable {k : Bool}

theorem parse_flow (cfg : Cfg F) (s : Core F) (instr : List Byte) (d : Dev × Int) :
    (Mril.parse cfg s instr).wp (flowMon k) (fun d' _ => d' = d) d := by
  refine wp_mono (fun _ _ h => h.1) (wp_of_only (parse_only cfg s instr) d ?_ (fun _ => trivial))
  intro a ha
  match a, ha with
  | .servo _ _, _ | .micro _ _, _ | .now _, _ | .out (.msg (.n0 _)), _ | .out (.msg (.reply _ _)), _ | .out (.raw .comment), _
  | .out (.pinMode _ _), _ | .out (.digitalWrite _ _), _ => exact ⟨by simp [flowMon, Dev.act, delta], by simp [flowMon]⟩

theorem dispatch_flow (cfg : Cfg F) (s : FW F) (d : Dev) (p : List Byte) (h : d.booted = true) (n : Int) (hn : n = 0) :
    (Mrcp.parseCommand cfg s p).wp (flowMon k) (fun d' _ => d' = (d, 0)) (d, if frame p = .free then n + 1 else n) := by
  subst hn
  cases p with
  | nil => rfl
  | cons c m =>
    simp only [Mrcp.parseCommand, frame]
    by_cases h66 : c = 66
    · simp only [h66, if_true, wp]
      exact ⟨by simp [flowMon], by simp [flowMon, Dev.act, delta, Mrcp.freeMsg]⟩
    · simp only [h66, if_false]
      by_cases h69 : c = 69
      · simp only [h69, if_true, Mrcp.handOver]
        refine ⟨by simp [flowMon], ?_⟩
        rw [wp_bind]
        refine wp_mono (fun d' c' hd => ?_) (parse_flow cfg s.core m _)
        rw [hd]
        simp [wp, flowMon, Dev.act, delta]
      · simp only [h69, if_false]
        by_cases h81 : c = 81
        · simp only [h81, if_true]
          by_cases hm0 : m = [] <;> simp [hm0, wp]
        · simp only [h81, if_false]
          by_cases h87 : c = 87
          · simp only [h87, if_true]
            by_cases hm0 : m = []
            · simp [hm0, wp, flowMon, Dev.act, delta]
            · simp only [hm0, if_false]
              intro mem _
              have hgo : ((eeWrites (EE.appendWrites mem m) : Prog F Unit).bind fun _ => .ret { s with mode := .eeprom }).wp (flowMon k)
                  (fun d' _ => d' = (d, 0)) (d, 0) := by
                rw [wp_bind]
                exact eeWrites_wp _ _ (fun a b => ⟨by simp [flowMon, Dev.act, delta], by simp [flowMon]⟩) rfl
              have hd' : (flowMon (F := F) k).upd (d, if Frame.store m = .free then 0 + 1 else 0) (.eeRead mem) = (d, 0) := by
                simp [flowMon, Dev.act, delta, h]
              rw [hd']
              show Prog.wp (flowMon k) (if _ then _ else _) _ (d, 0)
              split
              · exact ⟨by simp [flowMon], by simpa [flowMon, Dev.act, delta] using hgo⟩
              · exact hgo
          · simp only [h87, if_false]
            simp [wp]

theorem frame_booted (d : Dev) (f : Frame) : (d.frame f).booted = d.booted := by
  cases f <;> simp only [Dev.frame]; split <;> rfl

theorem recv_booted (d : Dev) (b : Byte) : (d.recv b).booted = d.booted := by
  unfold Dev.recv
  split
  · split
    · rfl
    · rw [frame_booted]
  · rfl

theorem parseChar_flow (cfg : Cfg F) (s : FW F) (d : Dev) (b : Byte) (hl : s.framer.At d.line) (hb : d.booted = true) :
    (Mrcp.parseChar cfg s b).wp (flowMon k) (fun d' _ => d' = (d.recv b, 0)) (d.recv b, 0 + delta (F := F) d (.rx (some b))) := by
  simp only [Mrcp.parseChar]
  by_cases hb13 : b = 13
  · subst hb13
    obtain ⟨h1, h2⟩ := Framer.at_cr hl
    rw [h2]
    simp only [delta, asked]
    by_cases hl : (payload d.line).length + 1 ≥ 80
    · rw [if_pos hl]; trivial
    · rw [if_neg hl]
      by_cases ho : overlong d.line = true
      · simp [ho, Mrcp.events, wp]
      · simp only [ho]
        simp only [List.nil_append, Bool.false_eq_true, if_false, Mrcp.events]
        rw [bind_ret]
        have := dispatch_flow (k := k) cfg { s with framer := (s.framer.step 13).1 } (d.recv 13) (payload d.line) ((recv_booted d 13).trans hb) 0 rfl
        simpa using this
  · obtain ⟨h1, h2⟩ := Framer.at_step hl b hb13
    refine events_oob_wp (fun _ => trivial) cfg _ _ _ h2 (fun _ => ?_)
    simp [delta, asked, hb13]

/-- one combined invariant: view and tally. -/
def Even (σ : Dev × Int) (s : FW F) : Prop := Agrees s σ.1 ∧ σ.2 = 0

/-- two monitors at once. -/
theorem wp_both {σ τ α : Type} {M : Mon F σ} {N : Mon F τ} {p : Prog F α} {Q : σ → α → Prop} {R : τ → α → Prop} (f : τ → σ)
    (hf : ∀ t a, f (N.upd t a) = M.upd (f t) a) (he : ∀ t a, N.env t a → M.env (f t) a) {t : τ} (h1 : p.wp M Q (f t)) (h2 : p.wp N R t) :
    p.wp N (fun t a => Q (f t) a ∧ R t a) t := by
  induction p generalizing t with
  | ret a => exact ⟨h1, h2⟩
  | fault e => exact h2
  | servo i k ih => exact fun v hv => ih v (by rw [hf]; exact h1 v (he _ _ hv)) (h2 v hv)
  | micro i m k ih => exact ⟨h2.1, ih (by rw [hf]; exact h1.2) h2.2⟩
  | now k ih => exact fun v hv => ih v (by rw [hf]; exact h1 v (he _ _ hv)) (h2 v hv)
  | pin p k ih => exact fun v hv => ih v (by rw [hf]; exact h1 v (he _ _ hv)) (h2 v hv)
  | rx k ih => exact fun v hv => ih v (by rw [hf]; exact h1 v (he _ _ hv)) (h2 v hv)
  | eeRead k ih => exact fun v hv => ih v (by rw [hf]; exact h1 v (he _ _ hv)) (h2 v hv)
  | eeWrite a b k ih => exact ⟨h2.1, ih (by rw [hf]; exact h1.2) h2.2⟩
  | out o k ih => exact ⟨h2.1, ih (by rw [hf]; exact h1.2) h2.2⟩

theorem both {α : Type} {p : Prog F α} {Q : Dev → α → Prop} {R : Dev × Int → α → Prop} {t : Dev × Int} (h1 : p.wp devMon Q t.1) (h2 : p.wp (flowMon k) R t) :
    p.wp (flowMon k) (fun t a => Q t.1 a ∧ R t a) t :=
  wp_both Prod.fst (fun _ _ => rfl) (fun _ _ _ => trivial) h1 h2

theorem serial_flow (cfg : Cfg F) (n : Nat) (s : FW F) (d : Dev × Int) (h : Even d s) :
    (serialProcess cfg n s).wp (flowMon k) (fun d' s' => Even d' s') d := by
  obtain ⟨d, z⟩ := d
  obtain ⟨h, hz⟩ := h
  simp only at h hz
  subst hz
  induction n generalizing s d with
  | zero => exact ⟨h, rfl⟩
  | succ n ih =>
    intro b _
    cases b with
    | none => exact ⟨h, by simp [flowMon, delta]⟩
    | some c =>
      simp only
      rw [wp_bind]
      refine wp_mono (fun d' s' h' => ?_) (both (t := (d.recv c, 0 + delta (F := F) d (.rx (some c)))) (parseChar_dev cfg s d c h) (parseChar_flow cfg s d c h.line h.booted))
      obtain ⟨⟨_, h1⟩, h2⟩ := h'
      subst h2
      exact ih s' _ h1

theorem rc_flow_inert (d : Dev × Int) : ∀ a : Act F, rcAct a → (flowMon (F := F) k).upd d a = d ∧ (flowMon (F := F) k).ok d a := by
  intro a ha
  match a, ha with
  | .servo _ _, _ | .micro _ _, _ | .out (.raw _), _ => exact ⟨by simp [flowMon, Dev.act, delta], by simp [flowMon]⟩

theorem check_flow_inert (d : Dev × Int) : ∀ a : Act F, checkAct a → (flowMon (F := F) k).upd d a = d ∧ (flowMon (F := F) k).ok d a := by
  intro a ha
  match a, ha with
  | .pin _ _, _ | .now _, _ | .out (.msg (.n1 _)), _ => exact ⟨by simp [flowMon, Dev.act, delta], by simp [flowMon]⟩

theorem rcProcess_flow (cfg : Cfg F) (s : FW F) (d : Dev × Int) (h : Even d s) :
    (rcProcess cfg s).wp (flowMon k) (fun d' s' => Even d' s') d := by
  rw [rcProcess, wp_bind]
  refine wp_mono (fun d' r hr => ?_) (wp_of_only (RC.process_only cfg.toRCfg s.core.rc) d (rc_flow_inert d) (fun _ => trivial))
  simp only [wp]
  rw [hr.1]; exact ⟨h.1.core _, h.2⟩

theorem firstPhases_flow (cfg : Cfg F) (s : FW F) (d : Dev × Int) (h : Even d s) :
    (firstPhases cfg s).wp (flowMon k) (fun d' s' => Even d' s') d := by
  rw [firstPhases, wp_bind]
  refine wp_mono (fun d s h => ?_) (rcProcess_flow cfg s d h)
  rw [wp_bind]
  refine wp_mono (fun d s h => ?_) (rcProcess_flow cfg s d h)
  exact serial_flow cfg _ s d h

theorem process_flow (cfg : Cfg F) (s : FW F) (d : Dev × Int) (h : Even d s) :
    (Mrcp.process cfg s).wp (flowMon false) (fun d' s' => Even d' s') d := by
  refine wp_mono (fun _ _ h => h) (both (k := false) (t := d) (R := fun t _ => t.2 = 0) (process_dev cfg s d.1 h.1) ?_)
  obtain ⟨h, hz⟩ := h
  simp only [Mrcp.process, if_neg h.sel.2.2]
  split
  · split
    · split
      · refine ⟨by simp [flowMon], ?_⟩
        split
        · trivial
        · simp only [Mrcp.handOver]
          refine ⟨by simp [flowMon], ?_⟩
          rw [wp_bind]
          refine wp_mono (fun d' c' hd' => ?_) (parse_flow cfg _ _ _)
          simp only [wp]
          rw [hd']
          simp [flowMon, delta, hz, Mrcp.freeMsg]
      · exact hz
    · intro mem _
      have hdm : (flowMon (F := F) false).upd d (.eeRead mem) = d := by simp [flowMon, Dev.act, delta, h.booted]
      rw [hdm]
      simp only
      split
      · trivial
      · split
        · simp only [Mrcp.handOver]
          refine ⟨by simp [flowMon], ?_⟩
          rw [wp_bind]
          refine wp_mono (fun d' c' hd' => ?_) (parse_flow cfg _ _ _)
          simp only [wp]
          rw [hd']
          simp [flowMon, delta, hz]
        · exact hz
    · exact hz
  · exact hz

theorem loop_flow (cfg : Cfg F) (s : FW F) (d : Dev × Int) (h : Even d s) :
    (loopBody cfg s).wp (flowMon false) (fun d' s' => Even d' s') d := by
  rw [loopBody_eq, wp_bind]
  refine wp_mono (fun d s h => ?_) (firstPhases_flow cfg s d h)
  rw [wp_bind]
  refine wp_mono (fun d' c hc => ?_) (wp_of_only (mrilProcess_only s.core) d (check_flow_inert d) (fun _ => trivial))
  rw [hc.1]
  exact process_flow cfg _ _ ⟨h.1.core c, h.2⟩

theorem setup_flow (cfg : Cfg F) (junk : Nat → Byte) : (setup cfg junk).wp (flowMon false) (fun d' s' => Even d' s') ({}, 0) := by
  refine wp_mono (fun _ _ h => h) (both (k := false) (t := ({}, 0)) (R := fun t _ => t.2 = 0) (setup_dev cfg junk) ?_)
  simp only [setup, RC.new, RC.getCurrentPose, RC.getCurrentLogicalAngles, RC.readAngles, readServo, bind_def, pure_def, Prog.bind, wp]
  intros
  simp [flowMon, delta]

/-- the tally of a history. -/
def tally (tr : List (Act F)) : Int := (tr.foldl (flowMon (F := F) false).upd ({}, 0)).2

theorem foldl_flow (k k' : Bool) (tr : List (Act F)) (d) : tr.foldl (flowMon (F := F) k).upd d = tr.foldl (flowMon k').upd d := rfl

theorem foldl_flow_fst (tr : List (Act F)) (d : Dev × Int) : (tr.foldl (flowMon (F := F) k).upd d).1 = tr.foldl Dev.act d.1 := by
  induction tr generalizing d with
  | nil => rfl
  | cons a tr ih => exact ih _

theorem trace_flow {cfg : Cfg F} {junk : Nat → Byte} {tr : List (Act F)} {s : FW F} (h : Trace cfg junk tr (.ret s)) :
    Even (tr.foldl (flowMon (F := F) false).upd ({}, 0)) s :=
  (Trace.sound (flowMon false) (fun d s => Even d s) ({}, 0) (setup_flow cfg junk) (fun d s h => loop_flow cfg s d h) h (fun _ _ _ _ _ => trivial)).2

/-- a history consists of the setup, or of complete passes and part of one. -/
theorem trace_last {cfg : Cfg F} {junk : Nat → Byte} {tr : List (Act F)} {p : Prog F (FW F)} (h : Trace cfg junk tr p) :
    Exec (setup cfg junk) tr p ∨ ∃ t0 s t, tr = t0 ++ t ∧ Trace cfg junk t0 (.ret s) ∧ Exec (loopBody cfg s) t p := by
  induction h with
  | init => exact .inl (.nil _)
  | @next tr s h _ => exact .inr ⟨tr, s, [], by simp, h, .nil _⟩
  | @step tr p a q _ hs ih =>
    rcases ih with h | ⟨t0, s, t, rfl, h1, h2⟩
    · exact .inl (exec_append h (.cons hs (.nil _)))
    · exact .inr ⟨t0, s, t ++ [a], by simp, h1, exec_append h2 (.cons hs (.nil _))⟩

theorem tally_nonneg {t : List (Act F)} {d : Dev × Int} (hd : 0 ≤ d.2)
    (h : ∀ pre a post, t = pre ++ a :: post → a.isInput = false → (flowMon (F := F) true).ok (pre.foldl (flowMon true).upd d) a) :
    0 ≤ (t.foldl (flowMon (F := F) true).upd d).2 := by
  generalize hl : t.length = l at *
  induction l generalizing t with
  | zero => rw [List.length_eq_zero_iff] at hl; subst hl; exact hd
  | succ l ih =>
    obtain ⟨t, a, rfl⟩ : ∃ u a, t = u ++ [a] := by
      rcases List.eq_nil_or_concat t with rfl | ⟨u, a, rfl⟩
      · cases hl
      · exact ⟨u, a, by simp⟩
    have i := ih (t := t) (fun pre b post e hb => h pre b (post ++ [a]) (by rw [e]; simp) hb) (by simpa using hl)
    have g := h t a [] rfl
    rw [List.foldl_append]
    show 0 ≤ (t.foldl (flowMon (F := F) true).upd d).2 + delta (t.foldl (flowMon (F := F) true).upd d).1 a
    match a, g with
    | .out (.msg (.free n)), g =>
      have := g rfl rfl n rfl
      simp only [delta]; omega
    | .rx (some b), _ => simp only [delta]; split <;> omega
    | .out (.ghost .queue _), _ => simp only [delta]; omega
    | .out (.ghost .immediate _), _ | .out (.ghost .eeprom _), _ | .rx none, _ | .servo _ _, _ | .micro _ _, _ | .now _, _ | .pin _ _, _ | .eeRead _, _ | .eeWrite _ _, _
    | .out (.msg (.n0 _)), _ | .out (.msg (.n1 _)), _ | .out (.msg (.reply _ _)), _ | .out (.raw _), _ | .out (.pinMode _ _), _ | .out (.digitalWrite _ _), _ => simp only [delta]; omega

/-- whenever a byte is read, every report was preceded by a question or a start. -/
theorem tally_rx {cfg : Cfg F} {junk : Nat → Byte} {tr : List (Act F)} {c : Option Byte → Prog F (FW F)} (h : Trace cfg junk tr (.rx c)) : 0 ≤ tally tr := by
  rcases trace_last h with h | ⟨t0, s, t, rfl, h1, h2⟩
  · exfalso
    have ho : (setup cfg junk).only (fun a : Act F => isRx a = false) (fun _ => True) := by
      simp only [setup, RC.new, RC.getCurrentPose, RC.getCurrentLogicalAngles, RC.readAngles, readServo, bind_def, pure_def, Prog.bind, Prog.only]
      simp [isRx]
    have := (only_exec (exec_append h (.cons (.rx c (some 0)) (.nil _))) ho).1 (.rx (some 0)) (by simp)
    cases this
  · have hev := trace_flow h1
    have hlast : ∀ (x y : List (Act F)), t ++ [.rx (some 0)] = x ++ y → (∀ a ∈ y, isRx a = false) → y = [] := by
      intro x y e hy
      rcases List.eq_nil_or_concat y with rfl | ⟨y', c, rfl⟩
      · rfl
      · rw [List.concat_eq_append, ← List.append_assoc] at e
        obtain ⟨_, e2⟩ := List.append_inj' e rfl
        simp at e2; subst e2
        have := hy (.rx (some 0)) (by simp)
        cases this
    have hex : ∃ p', Exec (firstPhases cfg s) (t ++ [.rx (some 0)]) p' := by
      rcases pass_cases (exec_append h2 (.cons (.rx c (some 0)) (.nil _))) with ⟨p', h⟩ | ⟨s2, t1, t2, p', e, h3, h4⟩ | ⟨s2, t1, t2, c, t3, e, h3, h4, h5⟩
      · exact ⟨p', h⟩
      · have := hlast _ _ e fun a ha => (check_none h4 a ha).2
        subst this
        rw [List.append_nil] at e
        exact ⟨_, e ▸ h3⟩
      · have := hlast _ _ e fun a ha => by
          rcases List.mem_append.1 ha with ha | ha
          · exact (check_none h4 a ha).2
          · exact (process_start cfg _ _ _ h5).2 a ha
        rw [this, List.append_nil] at e
        exact ⟨_, e ▸ h3⟩
    obtain ⟨p', hex⟩ := hex
    have hw := (wp_exec hex (firstPhases_flow (k := true) cfg s _ hev) fun _ _ _ _ _ => trivial).1
    have := tally_nonneg (t := t) (d := t0.foldl (flowMon (F := F) false).upd ({}, 0)) (by rw [hev.2]; exact Int.le_refl 0) fun pre a post e ha => hw pre a (post ++ [.rx (some 0)]) (by rw [e]; simp) ha
    rw [tally, List.foldl_append]
    exact this

end Mrc
