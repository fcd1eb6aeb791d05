import Verif.Props.BriskDemo
/-
C100: why the servo interrupt must not divide the command of a slow servo. An immediate instruction arrives while servo 0 is moving; the interrupt comes after the servo has been read for
its speed and before it has been read for its start. The speed no longer fits the way, the time counter of the servo overflows before it arrives, and the arm never comes to rest.
-/
set_option maxRecDepth 100000
set_option linter.unusedSimpArgs false
namespace Mrc.Props
open Mrc Mrc.Prog Mrc.Spec Mrc.Demo

def raceBytes : List Byte := str ":QM0V60R030\r:EM0V0.001R01.206R160\r"

theorem race_sent : BrisklySent raceBytes := by
  have e : decode raceBytes = [str "QM0V60R030", str "EM0V0.001R01.206R160"] := by decide +kernel
  have hb : ∀ p ∈ decode raceBytes, BriskFrame (frame p) := by
    rw [e]
    intro p hp
    simp only [List.mem_cons, List.not_mem_nil, or_false] at hp
    rcases hp with rfl | rfl
    · refine ⟨[⟨77, str "0"⟩, ⟨86, Dec.text ⟨false, [6, 0], none⟩⟩, ⟨82, digitChar 0 :: Dec.text ⟨false, [3, 0], none⟩⟩], by decide +kernel, ?_, by decide +kernel⟩
      intro c hc
      simp only [List.mem_cons, List.not_mem_nil, or_false] at hc
      rcases hc with rfl | rfl | rfl
      · exact ⟨careful_plain _ _ ⟨by decide, by decide, by decide⟩ (by decide), brisk_other _ (by decide)⟩
      · exact ⟨careful_number _ _ ⟨by decide, by decide, by decide⟩ (.inl (by decide)) (by decide) (by decide +kernel), fun _ => .inr ⟨_, .inl (by decide), rfl, by decide +kernel⟩⟩
      · exact ⟨careful_axis 0 (by decide) _ ⟨by decide, by decide, by decide⟩ (.inl (by decide)), brisk_other _ (by decide)⟩
    · refine ⟨[⟨77, str "0"⟩, ⟨86, Dec.text ⟨false, [0], some [0, 0, 1]⟩⟩, ⟨82, digitChar 0 :: Dec.text ⟨false, [1], some [2, 0, 6]⟩⟩,
        ⟨82, digitChar 1 :: Dec.text ⟨false, [6, 0], none⟩⟩], by decide +kernel, ?_, by decide +kernel⟩
      intro c hc
      simp only [List.mem_cons, List.not_mem_nil, or_false] at hc
      rcases hc with rfl | rfl | rfl | rfl
      · exact ⟨careful_plain _ _ ⟨by decide, by decide, by decide⟩ (by decide), brisk_other _ (by decide)⟩
      · exact ⟨careful_number _ _ ⟨by decide, by decide, by decide⟩ (.inl (by decide)) (by decide) (by decide +kernel), fun _ => .inr ⟨_, .inl (by decide), rfl, by decide +kernel⟩⟩
      · exact ⟨careful_axis 0 (by decide) _ ⟨by decide, by decide, by decide⟩ (.inl (by decide)), brisk_other _ (by decide)⟩
      · exact ⟨careful_axis 1 (by decide) _ ⟨by decide, by decide, by decide⟩ (.inl (by decide)), brisk_other _ (by decide)⟩
  exact ⟨⟨by decide +kernel, by decide +kernel, fun p hp => careful_of_frame (hb p hp)⟩, hb⟩

section
local instance : FloatOps Rat := toyFloat

def raceWorld : World Rat := { servos := Kit.servos, now := 1, pins := fun _ => false, rxq := raceBytes, ee := fun _ => 0, outs := [] }
def race0 : Sys Rat := ⟨raceWorld, setup Kit.cfg fun _ => 0⟩
/-- one interrupt before every pass, and one between the two readings of servo 0 in the pass that carries out the immediate instruction. -/
def raceStep (n : ℕ) (x : Sys Rat × Bool) : Ev Rat × (Sys Rat × Bool) := if n = 155 then (.isr, (⟨x.1.w.isr, x.1.p⟩, x.2)) else sched Kit.cfg x
def raceAfter : ℕ → Sys Rat × Bool
  | 0 => (race0, false)
  | n + 1 => (raceStep n (raceAfter n)).2
def raceEv (n : ℕ) : Ev Rat := (raceStep n (raceAfter n)).1

theorem raceStep_do (n : ℕ) (x : Sys Rat × Bool) : Sys.Do Kit.cfg x.1 (raceStep n x).1 (raceStep n x).2.1 := by
  unfold raceStep
  split
  · obtain ⟨⟨w, p⟩, b⟩ := x; exact .isr
  · exact sched_do _ _

theorem race_silent (n : ℕ) : arrivals (sofar raceEv n) = [] := by
  induction n with
  | zero => rfl
  | succ n ih =>
    rw [sofar_succ, arrivals_append, ih, List.nil_append]
    unfold raceEv raceStep
    split
    · rfl
    · exact sched_silent Kit.cfg _

/-- servo 0 after the race. -/
def Slow (s : Servo Rat) : Prop := s.start = 1/25 ∧ s.target = 201/10000 ∧ s.vel = 1/600000000 ∧ 3/100 ≤ s.cur

theorem Slow.tick {s : Servo Rat} (h : Slow s) (d : ℕ) : Slow (s.tick d) := by
  obtain ⟨h1, h2, h3, h4⟩ := h
  have hlt : u32 (s.elapsed + d) < 4294967296 := Nat.mod_lt _ (by decide)
  have hq : ((u32 (s.elapsed + d) : ℕ) : Rat) < 4294967296 := by exact_mod_cast hlt
  have h0 : (0 : Rat) ≤ ((u32 (s.elapsed + d) : ℕ) : Rat) := Nat.cast_nonneg _
  have hd0 : (0 : Rat) ≤ 1/600000000 * ((u32 (s.elapsed + d) : ℕ) : Rat) / 1000 := by positivity
  have hd1 : (1/600000000 * ((u32 (s.elapsed + d) : ℕ) : Rat) / 1000) < 8/1000 := by
    rw [div_lt_iff₀ (by norm_num)]; linarith
  unfold Servo.tick
  simp only [h1, h2, h3]
  have e1 : fgt (FloatOps.abs (((1/600000000 : Rat)) * Servo.ofNat (u32 (s.elapsed + d)) / lit 1000)) (FloatOps.abs ((201/10000 : Rat) - 1/25)) = false := by
    show decide ((if (201/10000 : Rat) - 1/25 < 0 then -((201/10000 : Rat) - 1/25) else (201/10000 : Rat) - 1/25) <
      (if (1/600000000 * ((u32 (s.elapsed + d) : ℕ) : Rat) / 1000) < 0 then - (1/600000000 * ((u32 (s.elapsed + d) : ℕ) : Rat) / 1000) else (1/600000000 * ((u32 (s.elapsed + d) : ℕ) : Rat) / 1000))) = false
    rw [if_pos (by norm_num), if_neg (not_lt.2 hd0), decide_eq_false_iff_not, not_lt]
    refine hd1.le.trans (by norm_num)
  have e2 : fgt (201/10000 : Rat) (1/25) = false := by
    show decide ((1/25 : Rat) < 201/10000) = false
    rw [decide_eq_false_iff_not]; norm_num
  rw [e1, e2]
  refine ⟨rfl, rfl, rfl, ?_⟩
  show (3/100 : Rat) ≤ 1/25 - 1/600000000 * ((u32 (s.elapsed + d) : ℕ) : Rat) / 1000
  linarith

theorem Slow.away {s : Servo Rat} (h : Slow s) : s.atTarget = false := by
  obtain ⟨_, h2, _, h4⟩ := h
  show decide ((if s.cur - s.target < 0 then -(s.cur - s.target) else s.cur - s.target) < (1/1000000 : Rat)) = false
  rw [h2, if_neg (by linarith), decide_eq_false_iff_not, not_lt]
  linarith

/-- servo 0 away from its target: nothing ever begins, nothing is stored. -/
def sMon : Mon Rat Unit where
  upd _ _ := ()
  env _ a := (∀ b, a ≠ .rx (some b)) ∧ ∀ s, a = .servo 0 s → s.atTarget = false
  ok _ a := (∀ i m, a ≠ .micro i m) ∧ (∀ src m, a ≠ .out (.ghost src m)) ∧ ∀ x b, a ≠ .eeWrite x b
  flt _ := False

def Locked (s : FW Rat) : Prop := s.core.rc.state = .moving ∧ s.core.conds = []

theorem locked_rc {α : Type} (s : FW Rat) (h : Locked s) (k : FW Rat → Prog Rat α) (Q : Unit → α → Prop) (hk : (k s).wp sMon Q ()) :
    ((rcProcess Kit.cfg s).bind k).wp sMon Q () := by
  unfold rcProcess
  simp only [RC.process, h.1, RC.moving, RC.allAtTarget, readServo, bind_def, pure_def, Prog.bind, List.finRange_succ, List.finRange_zero, List.map_cons, List.map_nil]
  intro s0 e0 s1 _ s2 _ s3 _ s4 _ s5 _
  have : s0.atTarget = false := e0.2 s0 rfl
  simp only [this, Bool.and_false, Bool.false_and, Bool.false_eq_true, if_false, Prog.bind]
  exact hk

theorem locked_loop (s : FW Rat) (h : Locked s) : (loopBody Kit.cfg s).wp sMon (fun _ s' => Locked s') () := by
  unfold loopBody
  simp only [bind_def]
  refine locked_rc s h _ _ (locked_rc s h _ _ ?_)
  show (Prog.bind (serialProcess Kit.cfg (29 + 1) s) _).wp sMon _ ()
  intro b hb
  cases b with
  | some b => exact absurd rfl (hb.1 b)
  | none =>
    have hmv : s.core.rc.isMoving = true := by simp [RC.isMoving, h.1]
    have e : Mril.process s.core = .ret { s.core with done := false } := by
      simp [Mril.process, IOL.isDone, h.2, IOL.check, Prog.bind, hmv]
    show (Prog.bind (Mril.process s.core) _).wp sMon _ ()
    rw [e]
    have e2 : Mrcp.process Kit.cfg { s with core := { s.core with done := false } } = .ret { s with core := { s.core with done := false } } := by
      simp [Mrcp.process]
    show (Mrcp.process Kit.cfg { s with core := { s.core with done := false } }).wp sMon _ ()
    rw [e2]
    exact h

structure StaysLocked (x : Sys Rat × Bool) : Prop where
  rx : x.1.w.rxq = []
  slow : Slow (x.1.w.servos 0)
  prog : x.1.p.wp sMon (fun _ s => Locked s) ()

theorem locked_sched (x : Sys Rat × Bool) (h : StaysLocked x) :
    StaysLocked (sched Kit.cfg x).2 ∧ (∀ src m, (sched Kit.cfg x).1 ≠ .act (.out (.ghost src m))) := by
  obtain ⟨⟨w, p⟩, b⟩ := x
  obtain ⟨h1, hs, h2⟩ := h
  simp only at h1 hs h2
  cases p with
  | ret s =>
    cases b with
    | false => exact ⟨⟨h1, hs.tick 20, h2⟩, by simp [sched]⟩
    | true => exact ⟨⟨h1, hs, locked_loop s h2⟩, by simp [sched, mainEv]⟩
  | fault f => exact absurd h2 id
  | servo i k =>
    refine ⟨⟨h1, hs, h2 _ ⟨by simp, fun s e => ?_⟩⟩, by simp [sched, mainEv]⟩
    injection e with e1 e2
    subst e1; subst e2; exact hs.away
  | micro i m k => exact absurd rfl (h2.1.1 i m)
  | now k => exact ⟨⟨h1, hs, h2 _ (by simp [sMon])⟩, by simp [sched, mainEv]⟩
  | pin p k => exact ⟨⟨h1, hs, h2 _ (by simp [sMon])⟩, by simp [sched, mainEv]⟩
  | rx k =>
    have e : sched Kit.cfg (⟨w, .rx k⟩, b) = (.act (.rx none), (⟨w, k none⟩, false)) := by simp [sched, mainEv, h1]
    rw [e]
    exact ⟨⟨h1, hs, h2 none (by simp [sMon])⟩, by simp⟩
  | eeRead k => exact ⟨⟨h1, hs, h2 _ (by simp [sMon])⟩, by simp [sched, mainEv]⟩
  | eeWrite a c k => exact absurd rfl (h2.1.2.2 a c)
  | out o k =>
    refine ⟨⟨h1, hs, h2.2⟩, ?_⟩
    intro src m e
    have : o = .ghost src m := by simpa [sched, mainEv] using e
    exact h2.1.2.1 src m (by rw [this])

def slow? (s : Servo Rat) : Bool := decide (s.start = 1/25) && decide (s.target = 201/10000) && decide (s.vel = 1/600000000) && decide (3/100 ≤ s.cur)
def locked? (x : Sys Rat × Bool) : Bool :=
  match x.1.p with
  | .ret s => decide (s.core.rc.state = .moving) && s.core.conds.isEmpty && x.1.w.rxq.isEmpty && slow? (x.1.w.servos 0)
  | _ => false

theorem race_locked (h : locked? (raceAfter 198) = true) : StaysLocked (raceAfter 198) := by
  generalize raceAfter 198 = x at h
  obtain ⟨⟨w, p⟩, b⟩ := x
  cases p with
  | ret s =>
    simp only [locked?, slow?, Bool.and_eq_true, decide_eq_true_eq, List.isEmpty_iff] at h
    exact ⟨h.1.2, ⟨h.2.1.1.1, h.2.1.1.2, h.2.1.2, h.2.2⟩, h.1.1⟩
  | _ => cases h

theorem race_stays (n : ℕ) (hn : 198 ≤ n) : StaysLocked (raceAfter n) := by
  induction n, hn using Nat.le_induction with
  | base => exact race_locked (by decide +kernel)
  | succ n hn ih =>
    show StaysLocked (raceStep n (raceAfter n)).2
    rw [raceStep, if_neg (by omega)]
    exact (locked_sched _ ih).1

theorem race_iter (d k : ℕ) (hd : 198 ≤ d) : raceAfter (d + k) = (fun x => (sched Kit.cfg x).2)^[k] (raceAfter d) := by
  induction k with
  | zero => rfl
  | succ k ih =>
    rw [Function.iterate_succ_apply', ← ih, ← Nat.add_assoc]
    show (raceStep (d + k) (raceAfter (d + k))).2 = _
    rw [raceStep, if_neg (by omega)]

theorem race_idle (n : ℕ) : ∃ m, n ≤ m ∧ 198 ≤ m ∧ ∃ w s, raceAfter m = (⟨w, .ret s⟩, false) := by
  have go : ∀ d w p b, raceAfter d = (⟨w, p⟩, b) → n ≤ d → 198 ≤ d → (∀ s, p = .ret s → b = false) → ∃ m, n ≤ m ∧ 198 ≤ m ∧ ∃ w s, raceAfter m = (⟨w, .ret s⟩, false) := by
    intro d w p b hd hnd h198 hb
    obtain ⟨k, w', q, h1, h2⟩ := Demo.ends Kit.cfg p w b hb
    have e : raceAfter (d + k) = (⟨w', q⟩, false) := by rw [race_iter d k h198, hd, h1]
    rcases h2 with ⟨s, rfl⟩ | ⟨f, rfl⟩
    · exact ⟨d + k, by omega, by omega, w', s, e⟩
    · have := (race_stays (d + k) (by omega)).prog
      rw [e] at this
      exact absurd this id
  rcases hx : raceAfter (n + 198) with ⟨⟨w, p⟩, b⟩
  by_cases hb : ∀ s, p = .ret s → b = false
  · exact go (n + 198) w p b hx (by omega) (by omega) hb
  · simp only [not_forall, Bool.not_eq_false] at hb
    obtain ⟨s, rfl, rfl⟩ := hb
    refine go (n + 198 + 1) w (loopBody Kit.cfg s) false ?_ (by omega) (by omega) (fun _ _ => rfl)
    show (raceStep (n + 198) (raceAfter (n + 198))).2 = _
    rw [raceStep, if_neg (by omega), hx]; rfl

theorem race_endless : Endless Kit.cfg raceWorld (fun _ => 0) (fun n => (raceAfter n).1) raceEv := by
  refine ⟨rfl, fun n => raceStep_do n _, fun n => ?_, fun n => ?_⟩
  · obtain ⟨m, h1, h2, w, s, e⟩ := race_idle n
    refine ⟨m + 1, by omega, ?_⟩
    have e' : raceAfter (m + 1) = (⟨w.isr, .ret s⟩, true) := by
      show (raceStep m (raceAfter m)).2 = _
      rw [raceStep, if_neg (by omega), e]; rfl
    show (raceStep (m + 1) (raceAfter (m + 1))).1 = _
    rw [raceStep, if_neg (by omega), e']; rfl
  · obtain ⟨m, h1, h2, w, s, e⟩ := race_idle n
    refine ⟨m, h1, ?_⟩
    show (raceStep m (raceAfter m)).1 = _
    rw [raceStep, if_neg (by omega), e]; rfl
end

/-- **C100** needs the condition about interrupts: with the kit, a careful host that tells no speed below 1/1000 and an empty storage there is an endless history in which from some time
on no instruction begins and yet the arm never comes to rest: servo 0 is never at its target, and the controller waits for it for ever. (Rational arithmetic.) -/
theorem C100_race_false : ∃ (w0 : World Rat) (σ : ℕ → Sys Rat) (ev : ℕ → Ev Rat), w0.servos = @Kit.servos Rat toyFloat ∧ @Endless Rat toyFloat (@Kit.cfg Rat toyFloat) w0 (fun _ => 0) σ ev ∧
    BriskStorage w0.ee ∧ (∀ n, BrisklySent (w0.rxq ++ arrivals (sofar ev n))) ∧ ∃ n0, (∀ n, n0 ≤ n → ¬ Begins ev n) ∧
      ∀ n, n0 ≤ n → @Servo.atTarget Rat toyFloat ((σ n).w.servos 0) = false ∧ ∀ s, Between σ n s → s.core.rc.isMoving = true := by
  let _ := toyFloat
  refine ⟨raceWorld, _, _, rfl, race_endless, brisk_empty _ rfl, fun n => ?_, 198, fun n hn => ?_, fun n hn => ⟨(race_stays n hn).slow.away, fun s hs => ?_⟩⟩
  · rw [race_silent, List.append_nil]; exact race_sent
  · rintro ⟨src, m, e⟩
    have e : (raceStep n (raceAfter n)).1 = _ := e
    rw [raceStep, if_neg (by omega)] at e
    exact (locked_sched _ (race_stays n hn)).2 src m e
  · have h := (race_stays n hn).prog
    rw [show (raceAfter n).1.p = .ret s from hs] at h
    have : s.core.rc.state = .moving := h.1
    simp [RC.isMoving, this]

end Mrc.Props
