import Verif.Proof.MrilWp
/- Which accesses a piece of the firmware can make, and what it leaves alone. -/
set_option linter.unusedSectionVars false
namespace Mrc
open Mrc.Prog
variable {F : Type} {α β σ : Type}

/-- every access `p` can make satisfies `K`, every result `R`. -/
def Prog.only (K : Act F → Prop) (R : α → Prop) : Prog F α → Prop
  | .ret a => R a
  | .fault _ => True
  | .servo i k => ∀ v, K (.servo i v) ∧ (k v).only K R
  | .micro i m k => K (.micro i m) ∧ k.only K R
  | .now k => ∀ v, K (.now v) ∧ (k v).only K R
  | .pin p k => ∀ v, K (.pin p v) ∧ (k v).only K R
  | .rx k => ∀ v, K (.rx v) ∧ (k v).only K R
  | .eeRead k => ∀ v, K (.eeRead v) ∧ (k v).only K R
  | .eeWrite a b k => K (.eeWrite a b) ∧ k.only K R
  | .out o k => K (.out o) ∧ k.only K R

namespace Prog

theorem only_mono {K K' : Act F → Prop} {R R' : α → Prop} (hK : ∀ a, K a → K' a) (hR : ∀ a, R a → R' a) {p : Prog F α}
    (h : p.only K R) : p.only K' R' := by
  induction p with
  | ret a => exact hR _ h
  | fault f => trivial
  | servo i k ih => exact fun v => ⟨hK _ (h v).1, ih v (h v).2⟩
  | micro i m k ih => exact ⟨hK _ h.1, ih h.2⟩
  | now k ih => exact fun v => ⟨hK _ (h v).1, ih v (h v).2⟩
  | pin p k ih => exact fun v => ⟨hK _ (h v).1, ih v (h v).2⟩
  | rx k ih => exact fun v => ⟨hK _ (h v).1, ih v (h v).2⟩
  | eeRead k ih => exact fun v => ⟨hK _ (h v).1, ih v (h v).2⟩
  | eeWrite a b k ih => exact ⟨hK _ h.1, ih h.2⟩
  | out o k ih => exact ⟨hK _ h.1, ih h.2⟩

theorem only_bind {K : Act F → Prop} {R : β → Prop} {p : Prog F α} {f : α → Prog F β} :
    (p.bind f).only K R ↔ p.only K (fun a => (f a).only K R) := by
  induction p with
  | ret a => exact Iff.rfl
  | fault f => exact Iff.rfl
  | servo i k ih => simp only [bind, only, ih]
  | micro i m k ih => simp only [bind, only, ih]
  | now k ih => simp only [bind, only, ih]
  | pin p k ih => simp only [bind, only, ih]
  | rx k ih => simp only [bind, only, ih]
  | eeRead k ih => simp only [bind, only, ih]
  | eeWrite a b k ih => simp only [bind, only, ih]
  | out o k ih => simp only [bind, only, ih]

/-- a monitor that does not react to the accesses in `K` is not affected. -/
theorem wp_of_only {M : Mon F σ} {K : Act F → Prop} {R : α → Prop} {p : Prog F α} (h : p.only K R) (s : σ)
    (hK : ∀ a, K a → M.upd s a = s ∧ M.ok s a) (hf : ∀ f, M.flt f) : p.wp M (fun s' a => s' = s ∧ R a) s := by
  induction p with
  | ret a => exact ⟨rfl, h⟩
  | fault f => exact hf f
  | servo i k ih => intro v _; rw [(hK _ (h v).1).1]; exact ih v (h v).2
  | micro i m k ih => refine ⟨(hK _ h.1).2, ?_⟩; rw [(hK _ h.1).1]; exact ih h.2
  | now k ih => intro v _; rw [(hK _ (h v).1).1]; exact ih v (h v).2
  | pin p k ih => intro v _; rw [(hK _ (h v).1).1]; exact ih v (h v).2
  | rx k ih => intro v _; rw [(hK _ (h v).1).1]; exact ih v (h v).2
  | eeRead k ih => intro v _; rw [(hK _ (h v).1).1]; exact ih v (h v).2
  | eeWrite a b k ih => refine ⟨(hK _ h.1).2, ?_⟩; rw [(hK _ h.1).1]; exact ih h.2
  | out o k ih => refine ⟨(hK _ h.1).2, ?_⟩; rw [(hK _ h.1).1]; exact ih h.2

/-- the accesses of an execution satisfy `K`, and the result `R`. -/
theorem only_exec {K : Act F → Prop} {R : α → Prop} {p q : Prog F α} {tr : List (Act F)} (h : Exec p tr q)
    (hp : p.only K R) : (∀ a ∈ tr, K a) ∧ q.only K R := by
  induction h with
  | nil p => exact ⟨by simp, hp⟩
  | @cons p a q tr r hs _ ih =>
    have : K a ∧ q.only K R := by
      cases hs
      case servo => exact hp _
      case micro => exact hp
      case now => exact hp _
      case pin => exact hp _
      case rx => exact hp _
      case eeRead => exact hp _
      case eeWrite => exact hp
      case out => exact hp
    have ⟨h1, h2⟩ := ih this.2
    refine ⟨?_, h2⟩
    intro a ha
    rcases List.mem_cons.1 ha with rfl | ha
    · exact this.1
    · exact h1 a ha

end Prog

variable [FloatOps F]

/-! ### the motion controller -/

/-- accesses of the motion controller: reading servos, commanding arm servos, raw text output. -/
def rcAct : Act F → Prop
  | .servo _ _ => True
  | .micro i _ => i.val < 6
  | .out (.raw _) => True
  | _ => False

/-- settings the controller does not change by itself. -/
def RC.SameSettings (r r' : RC F) : Prop :=
  r'.inTransaction = r.inTransaction ∧ r'.method = r.method ∧ r'.maxVelocity = r.maxVelocity

namespace RC

theorem readAngles_only : (readAngles : Prog F (Six F)).only rcAct (fun _ => True) := by
  simp [readAngles, readServo, Prog.bind, only, rcAct]

theorem reject_only (cfg : RCfg F) (r : RC F) : (reject cfg r).only rcAct (SameSettings r) := by
  simp [reject, getCurrentPose, getCurrentLogicalAngles, readAngles, readServo, Prog.bind, only, rcAct, SameSettings]

theorem violatesPhysical_only (t : Six F) (is : List (Fin 6)) : (violatesPhysical t is).only rcAct (fun _ => True) := by
  induction is with
  | nil => trivial
  | cons i is ih =>
    simp only [violatesPhysical, readServo, bind_def, Prog.bind, only, rcAct, true_and]
    intro v
    split
    · trivial
    · exact ih

theorem minTime_only (t : Six F) (is : List (Fin 6)) (acc : F) : (minTime t is acc).only rcAct (fun _ => True) := by
  induction is generalizing acc with
  | nil => trivial
  | cons i is ih =>
    simp only [minTime, readServo, bind_def, Prog.bind, only, rcAct, true_and]
    exact fun v => ih _

theorem apply_only (t : Six F) (time : F) (is : List (Fin 6)) : (apply t time is).only rcAct (fun _ => True) := by
  induction is with
  | nil => trivial
  | cons i is ih =>
    have : (armServo i).val < 6 := i.isLt
    simp only [apply, readServo, doMicro, bind_def, Prog.bind, only, rcAct, true_and, this]
    exact fun v v' => ih

theorem command_only (cfg : RCfg F) (r : RC F) (t : Six F) (time : F) : (command cfg r t time).only rcAct (SameSettings r) := by
  unfold command
  split
  · exact reject_only cfg r
  · simp only [bind_def, only_bind]
    refine only_mono (fun _ h => h) (fun b _ => ?_) (violatesPhysical_only _ _)
    split
    · exact reject_only cfg r
    · rw [only_bind]
      refine only_mono (fun _ h => h) (fun b _ => ?_) (minTime_only _ _ _)
      split
      · exact ⟨rfl, rfl, rfl⟩
      · rw [only_bind]
        refine only_mono (fun _ h => h) (fun b _ => ?_) (apply_only _ _ _)
        exact ⟨rfl, rfl, rfl⟩

theorem startMove_only (cfg : RCfg F) (r : RC F) : (startMove cfg r).only rcAct (SameSettings r) := by
  have hs : ∀ r', SameSettings { r with step := r.step + 1 } r' → SameSettings r r' := fun r' h => ⟨h.1, h.2.1, h.2.2⟩
  have hc : ∀ t time, (command cfg { r with step := r.step + 1 } t time).only rcAct (SameSettings r) := fun t time =>
    only_mono (fun _ h => h) hs (command_only cfg _ t time)
  have hr : (reject cfg { r with step := r.step + 1 }).only rcAct (SameSettings r) := only_mono (fun _ h => h) hs (reject_only cfg _)
  unfold startMove
  simp only [bind_def, emit, readServo, Prog.bind]
  split
  · exact ⟨trivial, hc _ _⟩
  · split
    · exact hr
    · split
      · exact fun v => ⟨trivial, fun v => ⟨trivial, hc _ _⟩⟩
      · exact hc _ _
  · exact ⟨trivial, trivial⟩

theorem sync_same (cfg : RCfg F) (r : RC F) : SameSettings r (sync cfg r) := by
  unfold sync
  split
  · exact ⟨rfl, rfl, rfl⟩
  · split
    · split <;> exact ⟨rfl, rfl, rfl⟩
    · exact ⟨rfl, rfl, rfl⟩

theorem prepare_only (cfg : RCfg F) (r : RC F) : (prepare cfg r).only rcAct (SameSettings r) := by
  have hs := sync_same cfg r
  unfold prepare
  simp only [bind_def, emit, Prog.bind, pure_def]
  split
  · exact ⟨rfl, rfl, rfl⟩
  · have key : ∀ p, p.only rcAct (SameSettings r) →
      (if (!r.anglesChanged && !r.poseChanged) = true then
        (out (.raw (.error "nothing changed, still PREPARE MOVE")) p : Prog F (RC F)) else p).only rcAct (SameSettings r) := by
      intro p hp; split
      · exact ⟨trivial, hp⟩
      · exact hp
    apply key
    split
    · exact ⟨trivial, hs⟩
    · simp only [getCurrentPose, getCurrentLogicalAngles, readAngles, readServo, bind_def, pure_def, Prog.bind, only, rcAct, true_and]
      intros
      split
      · exact hs
      · split
        · exact only_mono (fun _ h => h) (fun _ h => ⟨h.1.trans hs.1, h.2.1.trans hs.2.1, h.2.2.trans hs.2.2⟩) (startMove_only cfg _)
        · split
          · trivial
          · exact only_mono (fun _ h => h) (fun _ h => ⟨h.1.trans hs.1, h.2.1.trans hs.2.1, h.2.2.trans hs.2.2⟩) (startMove_only cfg _)
        · exact only_mono (fun _ h => h) (fun _ h => ⟨h.1.trans hs.1, h.2.1.trans hs.2.1, h.2.2.trans hs.2.2⟩) (startMove_only cfg _)

theorem allAtTarget_only (is : List (Fin 6)) (acc : Bool) : (allAtTarget is acc : Prog F Bool).only rcAct (fun _ => True) := by
  induction is generalizing acc with
  | nil => trivial
  | cons i is ih =>
    simp only [allAtTarget, readServo, bind_def, Prog.bind, only, rcAct, true_and]
    exact fun v => ih _

theorem moving_only (cfg : RCfg F) (r : RC F) : (moving cfg r).only rcAct (SameSettings r) := by
  unfold moving
  rw [bind_def, only_bind]
  refine only_mono (fun _ h => h) (fun b _ => ?_) (allAtTarget_only _ _)
  split
  · split
    · exact ⟨rfl, rfl, rfl⟩
    · exact only_mono (fun _ h => h) (fun _ h => h) (startMove_only cfg _)
  · exact ⟨rfl, rfl, rfl⟩

/-- one call of the motion controller only reads servos, commands arm servos, and prints; it keeps the settings. -/
theorem process_only (cfg : RCfg F) (r : RC F) : (process cfg r).only rcAct (SameSettings r) := by
  unfold process
  split
  · exact ⟨rfl, rfl, rfl⟩
  · exact moving_only cfg r
  · exact prepare_only cfg r
  · exact startMove_only cfg r

end RC

/-! ### the instruction parser -/

/-- accesses of the instruction parser. -/
def mrilAct : Act F → Prop
  | .servo _ _ => True
  | .micro i _ => 6 ≤ i.val
  | .now _ => True
  | .out (.msg (.n0 _)) => True
  | .out (.msg (.reply _ _)) => True
  | .out (.raw .comment) => True
  | .out (.pinMode _ _) => True
  | .out (.digitalWrite _ _) => True
  | _ => False

theorem exec_only (cfg : Cfg F) (s : Core F) (l : Loc F) (tok : List Byte) :
    (Mril.exec cfg s l tok).only mrilAct (fun r => r.1.done = s.done ∧ r.1.commandNumber = s.commandNumber) := by
  exec_leaves
  all_goals simp [Prog.bind, only, mrilAct]
  all_goals first
    | decide
    | (intro v; rename_i h; exact axisServo_ge h)

theorem loop_only (cfg : Cfg F) (cs : List Byte) (s : Core F) (l : Loc F) (tok : List Byte) :
    (Mril.loop cfg cs s l tok).only mrilAct (fun r => r.1.done = s.done ∧ r.1.commandNumber = s.commandNumber) := by
  induction cs generalizing s l tok with
  | nil => exact ⟨rfl, rfl⟩
  | cons c cs ih =>
    simp only [Mril.loop]
    split
    · exact ⟨trivial, rfl, rfl⟩
    · split
      · split
        · trivial
        · split
          · split
            · trivial
            · rw [only_bind]
              refine only_mono (fun _ h => h) (fun r hr => ?_) (exec_only cfg s l _)
              refine only_mono (fun _ h => h) (fun r' hr' => ?_) (ih r.1 r.2 [])
              exact ⟨hr'.1.trans hr.1, hr'.2.trans hr.2⟩
          · exact ih _ _ _
      · exact ih _ _ _

/-- executing an instruction never touches storage, pins are only driven, serial input is not read, no completion notice, free
space report or start of another instruction is produced; `done` keeps its value. -/
theorem parse_only (cfg : Cfg F) (s : Core F) (instr : List Byte) :
    (Mril.parse cfg s instr).only mrilAct (fun s' => s'.done = s.done) := by
  unfold Mril.parse
  split
  · exact rfl
  · rw [only_bind]
    refine only_mono (fun _ h => h) (fun r hr => ?_) (loop_only cfg instr _ _ _)
    unfold Mril.finish
    simp only [send, bind_def, Prog.bind]
    split
    · exact ⟨trivial, hr.1⟩
    · exact hr.1
    · exact hr.1

/-- accesses of the completion check. -/
def checkAct : Act F → Prop
  | .pin _ _ => True
  | .now _ => True
  | .out (.msg (.n1 n)) => 0 < n
  | _ => False

theorem check_only (c : Conds) : (IOL.check c : Prog F Bool).only checkAct (fun _ => True) := by
  induction c with
  | nil => trivial
  | cons x c ih =>
    simp only [IOL.check]
    split
    · intro b; refine ⟨trivial, ?_⟩; cases b <;> first | exact ih | trivial
    · split
      · intro b; refine ⟨trivial, ?_⟩; cases b <;> first | exact ih | trivial
      · exact ih

theorem mrilProcess_only (s : Core F) : (Mril.process s).only checkAct (fun s' => s'.rc = s.rc ∧ s'.waitUntil = s.waitUntil) := by
  unfold Mril.process IOL.isDone
  rw [only_bind, only_bind]
  refine only_mono (fun _ h => h) (fun b _ => ?_) (check_only _)
  have key : ∀ (b : Bool) (c : Conds), Prog.only (F := F) checkAct (fun s' : Core F => s'.rc = s.rc ∧ s'.waitUntil = s.waitUntil)
      (if b && !s.rc.isMoving then
        .now fun t =>
          if Wait.isDone t s.waitUntil then
            if 0 < s.commandNumber then
              .out (.msg (.n1 s.commandNumber)) (.ret { s with conds := c, commandNumber := -1, done := true })
            else .ret { s with conds := c, done := true }
          else .ret { s with conds := c, done := false }
      else .ret { s with conds := c, done := false }) := by
    intro b c
    split
    · intro t
      refine ⟨trivial, ?_⟩
      by_cases h1 : Wait.isDone t s.waitUntil = true
      · by_cases h2 : 0 < s.commandNumber
        · simp only [h1, h2, if_true]; exact ⟨h2, rfl, rfl⟩
        · simp only [h1, h2, if_true, if_false]; exact ⟨rfl, rfl⟩
      · simp only [h1]; exact ⟨rfl, rfl⟩
    · exact ⟨rfl, rfl⟩
  simp only [only]
  exact key _ _

end Mrc
