import Verif.Props.Immediate
import Verif.Props.Progress
import Verif.Props.LivenessDemo
import Verif.Props.Host
/-
C90: everything sent by a host that counts is executed.
-/
set_option linter.unusedSectionVars false
namespace Mrc.Props
open Mrc Mrc.Prog Mrc.Spec
variable {F : Type} [FloatOps F] {cfg : Cfg F} {w0 : World F} {junk : Nat → Byte} {σ : ℕ → Sys F} {ev : ℕ → Ev F}

/-- every complete pass of the main loop looks at the serial line. -/
theorem pass_reads {s s' : FW F} {tr : List (Act F)} (h : Exec (loopBody cfg s) tr (.ret s')) : ∃ x, .rx x ∈ tr := by
  rw [loopBody_eq] at h
  obtain ⟨s2, t, u, rfl, h, _⟩ := exec_bind_ret h
  rw [firstPhases] at h
  obtain ⟨s3, t1, u1, rfl, _, h⟩ := exec_bind_ret h
  obtain ⟨s4, t2, u2, rfl, _, h⟩ := exec_bind_ret h
  rw [SERIAL_BYTES, serialProcess] at h
  cases h with
  | cons hs _ =>
    cases hs
    exact ⟨_, List.mem_append_left _ (List.mem_append_right _ (List.mem_append_right _ List.mem_cons_self))⟩

theorem sent_mono (r0 : List Byte) {n m : ℕ} (h : n ≤ m) : ∃ x, sent r0 (sofar ev m) = sent r0 (sofar ev n) ++ x := by
  induction m, h using Nat.le_induction with
  | base => exact ⟨[], by simp⟩
  | succ m _ ih =>
    obtain ⟨x, hx⟩ := ih
    refine ⟨x ++ arrivals [ev m], ?_⟩
    have e : sent r0 (sofar ev (m + 1)) = sent r0 (sofar ev m) ++ arrivals [ev m] := by rw [sofar_succ, sent, arrivals_append, ← List.append_assoc]; rfl
    rw [e, hx, List.append_assoc]

/-- every byte sent is read. -/
theorem all_read (h : Endless cfg w0 junk σ ev) (n : ℕ) : ∃ m, n ≤ m ∧ ∃ x, rxBytes (acts (sofar ev m)) = sent w0.rxq (sofar ev n) ++ x := by
  have fifo : ∀ k, sent w0.rxq (sofar ev k) = rxBytes (acts (sofar ev k)) ++ (σ k).w.rxq := fun k => (h.run k).fifo
  have grow : ∀ l, l ≤ (sent w0.rxq (sofar ev n)).length → ∃ m, n ≤ m ∧ l ≤ (rxBytes (acts (sofar ev m))).length := by
    intro l
    induction l with
    | zero => intro _; exact ⟨n, Nat.le_refl _, Nat.zero_le _⟩
    | succ l ih =>
      intro hl
      obtain ⟨m, h1, h2⟩ := ih (by omega)
      obtain ⟨a, ha, hna⟩ := h.loops m
      obtain ⟨s, hp⟩ := h.pass hna
      obtain ⟨s', _, he⟩ := h.pass_exec hp
      obtain ⟨x, hx⟩ := pass_reads he
      rw [acts_mem, mem_span] at hx
      obtain ⟨k, k1, _, k3⟩ := hx
      have mono : (rxBytes (acts (sofar ev m))).length ≤ (rxBytes (acts (sofar ev k))).length := by
        have : ∀ k, m ≤ k → (rxBytes (acts (sofar ev m))).length ≤ (rxBytes (acts (sofar ev k))).length := by
          intro k hk
          induction k, hk using Nat.le_induction with
          | base => exact Nat.le_refl _
          | succ k _ ih => rw [sofar_succ, acts_append, rxBytes_append, List.length_append]; omega
        exact this k (by omega)
      cases x with
      | none =>
        refine ⟨k, by omega, ?_⟩
        have hd := h.step k
        rw [k3] at hd
        have hq : (σ k).w.rxq = [] := by
          generalize σ k = y at hd; generalize σ (k + 1) = z at hd
          cases hd; assumption
        have := fifo k
        rw [hq, List.append_nil] at this
        rw [← this]
        obtain ⟨y, hy⟩ := sent_mono (ev := ev) w0.rxq (show n ≤ k by omega)
        rw [hy, List.length_append]; omega
      | some b =>
        refine ⟨k + 1, by omega, ?_⟩
        rw [sofar_succ, acts_append, rxBytes_append, k3, List.length_append]
        show l + 1 ≤ _ + 1
        omega
  obtain ⟨m, h1, h2⟩ := grow _ (Nat.le_refl _)
  refine ⟨m, h1, ?_⟩
  obtain ⟨y, hy⟩ := sent_mono (ev := ev) w0.rxq h1
  have e := fifo m
  rw [hy] at e
  rcases List.append_eq_append_iff.1 e with ⟨z, h3, h4⟩ | ⟨z, h3, h4⟩
  · exact ⟨z, h3⟩
  · rw [h3, List.length_append] at h2
    have : z = [] := List.length_eq_zero_iff.1 (by omega)
    subst this
    exact ⟨[], by rw [h3]; simp⟩

/-- nothing is read before the storage has been looked at. -/
theorem unread {tr : List (Act F)} {p : Prog F (FW F)} (h : Trace cfg junk tr p) (hb : (Dev.after tr).booted = false) : rxBytes tr = [] := by
  rcases trace_last h with h | ⟨t0, s, t, rfl, h1, _⟩
  · have ho : (setup cfg junk).only (fun a : Act F => isRx a = false) (fun _ => True) := by
      simp only [setup, RC.new, RC.getCurrentPose, RC.getCurrentLogicalAngles, RC.readAngles, readServo, bind_def, pure_def, Prog.bind, Prog.only]
      simp [isRx]
    have := (only_exec h ho).1
    rw [rxBytes, List.filterMap_eq_nil_iff]
    intro a ha
    have := this a ha
    match a, this with
    | .rx none, _ | .eeRead m, _ | .out _, _ | .servo _ _, _ | .micro _ _, _ | .now _, _ | .pin _ _, _ | .eeWrite _ _, _ => rfl
  · exfalso
    have hbt : (Dev.after t0).booted = true := (trace_dev h1).2.booted
    have stay : ∀ (t : List (Act F)) (d : Dev), d.booted = true → (t.foldl Dev.act d).booted = true := by
      intro t
      induction t with
      | nil => exact fun _ h => h
      | cons a t ih =>
        intro d hd
        refine ih _ ?_
        match a with
        | .rx (some b) => exact (recv_booted d b).trans hd
        | .eeRead m => show (if d.booted = true then d else _).booted = true; rw [if_pos hd]; exact hd
        | .out (.ghost .queue m) => exact hd
        | .out (.ghost .immediate m) | .out (.ghost .eeprom m) | .rx none | .servo _ _ | .micro _ _ | .now _ | .pin _ _ | .eeWrite _ _ | .out (.msg _) | .out (.raw _)
        | .out (.pinMode _ _) | .out (.digitalWrite _ _) => exact hd
    have := stay t _ hbt
    rw [Dev.after, List.foldl_append] at hb
    rw [Dev.after] at this
    rw [this] at hb; cases hb

/-- the controller takes instructions from the queue as soon as one has been accepted. -/
theorem takes_queue {tr : List (Act F)} {p : Prog F (FW F)} (h : Trace cfg junk tr p) (hs : ∀ p ∈ decode (rxBytes tr), ∀ m, frame p ≠ .store m) (ha : (Dev.after tr).accepted ≠ []) :
    (Dev.after tr).sel = .queue := by
  induction h with
  | init => exact absurd rfl ha
  | next _ ih => exact ih hs ha
  | @step t p a q ht _ ih =>
    rw [rxBytes_append] at hs
    have i := ih fun p hp => hs p (by rw [decode_append]; exact List.mem_append_left _ hp)
    rw [after_snoc] at ha ⊢
    match a, hs, ha with
    | .rx (some b), hs, ha =>
      have hs : ∀ p ∈ decode (rxBytes t ++ [b]), ∀ m, frame p ≠ .store m := hs
      have ha : ((Dev.after t).recv b).accepted ≠ [] := ha
      show ((Dev.after t).recv b).sel = .queue
      unfold Dev.recv at ha ⊢
      by_cases hb : b = 13
      · rw [if_pos hb] at ha ⊢
        cases ho : overlong (Dev.after t).line
        · have := hs (payload (Dev.after t).line) (by
            rw [decode_snoc, completed, ← after_line, if_pos ⟨hb, ho⟩]; simp)
          rw [ho] at ha
          simp only [Bool.false_eq_true, if_false] at ha ⊢
          generalize hf : frame (payload (Dev.after t).line) = f at *
          cases f with
          | put m => simp only [Dev.frame]; split <;> rfl
          | store m => exact absurd rfl (this m)
          | clear => rfl
          | free => exact i ha
          | now m => exact i ha
          | erase => exact i ha
          | empty => exact i ha
        · rw [ho] at ha; exact i ha
      · rw [if_neg hb] at ha ⊢; exact i ha
    | .eeRead m, _, ha =>
      show (if (Dev.after t).booted then _ else _ : Dev).sel = .queue
      have ha : (if (Dev.after t).booted then _ else _ : Dev).accepted ≠ [] := ha
      cases hb : (Dev.after t).booted
      · exfalso
        rw [hb] at ha
        have ha : (Dev.after t).accepted ≠ [] := ha
        refine ha ?_
        have hr := unread ht hb
        have : ∀ (t : List (Act F)) (d : Dev), rxBytes t = [] → d.accepted = [] → (t.foldl Dev.act d).accepted = [] := by
          intro t
          induction t with
          | nil => exact fun _ _ h => h
          | cons a t ih =>
            intro d hr hd
            match a, hr with
            | .rx (some b), hr => cases hr
            | .eeRead m, hr =>
              refine ih _ hr ?_
              show (if d.booted then _ else _ : Dev).accepted = []
              split <;> exact hd
            | .out (.ghost .queue m), hr => exact ih _ hr hd
            | .out (.ghost .immediate m), hr | .out (.ghost .eeprom m), hr | .rx none, hr | .servo _ _, hr | .micro _ _, hr | .now _, hr | .pin _ _, hr | .eeWrite _ _, hr
            | .out (.msg _), hr | .out (.raw _), hr | .out (.pinMode _ _), hr | .out (.digitalWrite _ _), hr => exact ih _ hr hd
        exact this t {} hr rfl
      · rw [hb] at ha; exact i ha
    | .out (.ghost .queue m), _, ha => exact i ha
    | .out (.ghost .immediate m), _, ha | .out (.ghost .eeprom m), _, ha | .rx none, _, ha | .servo _ _, _, ha | .micro _ _, _, ha | .now _, _, ha | .pin _ _, _, ha
    | .eeWrite _ _, _, ha | .out (.msg _), _, ha | .out (.raw _), _, ha | .out (.pinMode _ _), _, ha | .out (.digitalWrite _ _), _, ha => exact i ha

/-- **C90**: everything is executed.  The host counts (C89) and sends only instructions for the queue, questions (for the free space, or immediate ones), erase and empty frames; servos left alone would
arrive (C77); again and again there is a pass during which all inputs waited for have the required level and the waiting time is over. Then for every time `n` there is a time at which
all instructions for the queue sent up to `n` have been started, in the order sent, each once, before any other. -/
theorem C90_executed (h : Endless cfg w0 junk σ ev) (hP : Parts F) (hf : Fair σ ev) (hc : ∀ n, CountingHost w0.rxq (sofar ev n)) (hq : ∀ n, QueueOnly (sent w0.rxq (sofar ev n)))
    (hs : ∀ n s, Between σ n s → ∀ i, Settles ((σ n).w.servos (armServo i))) (n : ℕ) :
    ∃ m, n ≤ m ∧ puts (sent w0.rxq (sofar ev n)) <+: (view ev m).started := by
  have hno : ∀ n, ∀ p ∈ decode (sent w0.rxq (sofar ev n)), frame p ≠ .clear := fun n p hp => by
    rcases hq n p hp with e | e | e | ⟨m, e⟩ | ⟨m, e, -⟩ <;> rw [e] <;> simp
  have hread : ∀ n, ∀ p ∈ decode (rxBytes (acts (sofar ev n))), p ∈ decode (sent w0.rxq (sofar ev n)) := fun n p hp => by
    rw [sent, (h.run n).fifo, decode_append]; exact List.mem_append_left _ hp
  have hi : OnlyAsksNow ev 0 := by
    intro k _ m0 e
    have := (C91_at_once (h.run (k + 1)).trace (pre := acts (sofar ev k)) (post := []) (a := .out (.ghost .immediate m0)) (by rw [sofar_succ, acts_append, e]; rfl) rfl).1 m0 rfl
    have hm : m0 ∈ nows (rxBytes (acts (sofar ev k))) := by rw [this]; simp
    rw [nows, List.mem_filterMap] at hm
    obtain ⟨p, hp, hp'⟩ := hm
    rcases hq k p (hread k p hp) with e | e | e | ⟨m, e⟩ | ⟨m, e, ha⟩ <;> rw [e] at hp' <;> simp at hp'
    exact hp' ▸ ha
  have hk : KeepsQueue ev 0 := by
    intro k _ e ho
    have hp : payload (view ev k).line ∈ decode (rxBytes (acts (sofar ev (k + 1)))) := by
      rw [sofar_succ, acts_append, rxBytes_append, e]
      show _ ∈ decode (_ ++ [13])
      rw [decode_snoc, completed, ← after_line]
      rw [if_pos ⟨rfl, ho⟩]
      exact List.mem_append_right _ (by simp [view])
    rcases hq _ _ (hread _ _ hp) with e | e | e | ⟨m, e⟩ | ⟨m, e, -⟩ <;> rw [e] <;> simp
  obtain ⟨m, h1, x, h2⟩ := all_read h n
  obtain ⟨a, ha, hna⟩ := h.loops m
  have h89 := C89_nothing_lost (h.run (a + 1)) (hc _) (hno _)
  have hpre : ∃ y, puts (rxBytes (acts (sofar ev (a + 1)))) = puts (sent w0.rxq (sofar ev n)) ++ y := by
    have : ∀ k, m ≤ k → ∃ y, rxBytes (acts (sofar ev k)) = sent w0.rxq (sofar ev n) ++ y := by
      intro k hk
      induction k, hk using Nat.le_induction with
      | base => exact ⟨x, h2⟩
      | succ k _ ih =>
        obtain ⟨y, hy⟩ := ih
        exact ⟨y ++ rxBytes (acts [ev k]), by rw [sofar_succ, acts_append, rxBytes_append, hy, List.append_assoc]⟩
    obtain ⟨y, hy⟩ := this (a + 1) (by omega)
    rw [hy]; exact puts_append _ _
  obtain ⟨y, hy⟩ := hpre
  by_cases hz : (Dev.after (acts (sofar ev (a + 1)))).started ++ (Dev.after (acts (sofar ev (a + 1)))).queue = []
  · refine ⟨a + 1, by omega, ?_⟩
    rw [← h89, hz] at hy
    rw [List.append_eq_nil_iff.1 hy.symm |>.1]
    exact List.nil_prefix
  · have hcl : (Dev.after (acts (sofar ev (a + 1)))).cleared = false := cleared_iff _ fun p hp => hno _ p (hread _ p hp)
    have hsel := takes_queue (h.run (a + 1)).trace (fun p hp m => by
      rcases hq _ _ (hread _ _ hp) with e | e | e | ⟨m, e⟩ | ⟨m, e, -⟩ <;> rw [e] <;> simp) (by rw [C61_order (h.run (a + 1)).trace hcl]; exact hz)
    obtain ⟨m', h3, h4⟩ := C79_drained h hP hf (view ev (a + 1)).queue (n0 := a + 1) ⟨a, by omega, hna⟩ hsel ⟨[], by simp⟩ (fun k _ => hk k (Nat.zero_le _)) (fun k _ => hi k (Nat.zero_le _))
      (fun k s _ => hs k s)
    refine ⟨m', by omega, ?_⟩
    rw [h4]
    show _ <+: (Dev.after (acts (sofar ev (a + 1)))).started ++ (Dev.after (acts (sofar ev (a + 1)))).queue
    rw [h89, hy]
    exact List.prefix_append _ _

section
variable {w0 : World XR} {junk : Nat → Byte} {σ : ℕ → Sys XR} {ev : ℕ → Ev XR}

/-- **C90** for the robot kit: a careful host (C81) that counts. -/
theorem C90_kit (hw : w0.servos = Kit.servos) (h : Endless Kit.cfg w0 junk σ ev) (hmem : CarefulStorage w0.ee) (hws : ∀ n, WellSent (w0.rxq ++ arrivals (sofar ev n)))
    (hv : ∀ n i x, ev n = .act (.micro (armServo i) (.setVel (.fin x))) → x ≤ 0 ∨ 1/1000 ≤ x) (hf : Fair σ ev)
    (hc : ∀ n, CountingHost w0.rxq (sofar ev n)) (hq : ∀ n, QueueOnly (sent w0.rxq (sofar ev n))) (n : ℕ) :
    ∃ m, n ≤ m ∧ puts (sent w0.rxq (sofar ev n)) <+: (view ev m).started := by
  have hfin : ∀ n i m, ev n = .act (.micro i m) → MicroFin m := fun n i m e => by
    refine (C81_kit hw hmem (h.run (n + 1)) (hws _)).2.2.1 i m ?_
    rw [acts_mem]
    exact List.mem_map.2 ⟨n, List.mem_range.2 (Nat.lt_succ_self n), e⟩
  refine C90_executed h parts_XR hf hc hq (fun n s _ i => settles_kit hw h (fun n i => ?_) hv n i) n
  refine ⟨fun e => ?_, fun e => ?_⟩
  · obtain ⟨t, e⟩ := hfin _ _ _ e; cases e
  · obtain ⟨t, e⟩ := hfin _ _ _ e; cases e
end

end Mrc.Props
