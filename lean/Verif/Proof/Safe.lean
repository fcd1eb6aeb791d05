import Verif.Proof.Controller
/- What every prefix of a process() call may do to the servos. -/
set_option linter.unusedSectionVars false
namespace Mrc
open Mrc.Prog Mrc.Spec
variable {F : Type} [FloatOps F]

/-- the obligations under which a process() call is accepted by a monitor without state. -/
structure SafeMon (cfg : RCfg F) (L U : Six F) (C : Fin 6 → F → Prop) (M : Mon F Unit) : Prop where
  env : ∀ i s, M.env () (.servo (armServo i) s) → s.minA = L i ∧ s.maxA = U i ∧ C i s.cur
  vel : ∀ i v, M.ok () (.micro (armServo i) (.setVel v))
  start : ∀ i x, C i x → M.ok () (.micro (armServo i) (.setStart x))
  zero : ∀ i, M.ok () (.micro (armServo i) .zeroElapsed)
  target : ∀ i t, Fits cfg L U t → M.ok () (.micro (armServo i) (.setTarget (cfg.l2p t i)))
  raw : ∀ x, M.ok () (.out (.raw x))

/-- the faults a process() call may end in. -/
structure FaultOK (cfg : RCfg F) (M : Mon F Unit) (r : RC F) : Prop where
  circular : r.method = .circular → M.flt .uninit
  conv : r.method = .linear → r.state = .prepareMove → ∀ a, (∀ i, ∃ s, M.env () (.servo (armServo i) s) ∧ a i = s.cur) →
    RC.linearSteps (cfg.fwd (cfg.p2l a)) (RC.sync cfg r).targetPose = none → M.flt .badConv

namespace RC
variable {cfg : RCfg F} {L U : Six F} {C : Fin 6 → F → Prop} {M : Mon F Unit}

theorem readAngles_safe : (readAngles : Prog F (Six F)).wp M (fun _ a => ∀ i, ∃ s, M.env () (.servo (armServo i) s) ∧ a i = s.cur) () := by
  simp only [readAngles, readServo, bind_def, pure_def, Prog.bind, wp]
  intro v0 e0 v1 e1 v2 e2 v3 e3 v4 e4 v5 e5 i
  match i with
  | 0 => exact ⟨v0, e0, rfl⟩
  | 1 => exact ⟨v1, e1, rfl⟩
  | 2 => exact ⟨v2, e2, rfl⟩
  | 3 => exact ⟨v3, e3, rfl⟩
  | 4 => exact ⟨v4, e4, rfl⟩
  | 5 => exact ⟨v5, e5, rfl⟩

theorem reject_safe (r : RC F) : (reject cfg r).wp M (fun _ _ => True) () := by
  simp only [reject, getCurrentPose, getCurrentLogicalAngles, bind_def, wp_bind, pure_def, wp]
  refine wp_mono (fun _ _ _ => ?_) readAngles_safe
  exact wp_mono (fun _ _ _ => trivial) readAngles_safe

theorem violatesPhysical_safe (H : SafeMon cfg L U C M) (t : Six F) (is : List (Fin 6)) :
    (violatesPhysical t is).wp M (fun _ b => b = false → ∀ i ∈ is, flt (t i) (L i) = false ∧ fgt (t i) (U i) = false) () := by
  induction is with
  | nil => intro _ i hi; cases hi
  | cons i is ih =>
    simp only [violatesPhysical, readServo, bind_def, Prog.bind, wp]
    intro x hx
    have el := H.env i x hx
    show Prog.wp _ (if _ then _ else _) _ _
    rw [el.1, el.2.1]
    split
    · intro h; cases h
    · rename_i hc
      simp only [Bool.or_eq_true, not_or, Bool.not_eq_true] at hc
      refine wp_mono (fun _ b hb hf j hj => ?_) ih
      rcases List.mem_cons.1 hj with rfl | hj
      · exact hc
      · exact hb hf j hj

theorem minTime_safe (t : Six F) (is : List (Fin 6)) (acc : F) : (minTime t is acc).wp M (fun _ _ => True) () := by
  induction is generalizing acc with
  | nil => trivial
  | cons i is ih =>
    simp only [minTime, readServo, bind_def, Prog.bind, wp]
    intro x _
    exact ih _

theorem apply_safe (H : SafeMon cfg L U C M) (t : Six F) (hf : Fits cfg L U t) (time : F) (is : List (Fin 6)) :
    (apply (cfg.l2p t) time is).wp M (fun _ _ => True) () := by
  induction is with
  | nil => trivial
  | cons i is ih =>
    simp only [apply, readServo, doMicro, bind_def, Prog.bind, wp]
    intro x _
    refine ⟨H.vel _ _, fun y hy => ⟨H.start _ _ (H.env _ _ hy).2.2, H.zero _, H.target _ _ hf, ih⟩⟩

theorem command_safe (H : SafeMon cfg L U C M) (r : RC F) (t : Six F) (mt : F) : (command cfg r t mt).wp M (fun _ _ => True) () := by
  unfold command
  split
  · exact reject_safe r
  · rename_i hv
    have hl : ∀ i, flt (t i) (cfg.lo i) = false ∧ fgt (t i) (cfg.hi i) = false := by
      intro i
      simp only [violatesLogical, List.any_eq_true, not_exists, not_and, Bool.or_eq_true, not_or, Bool.not_eq_true] at hv
      exact hv i (List.mem_finRange i)
    rw [bind_def, wp_bind]
    refine wp_mono (fun _ b hb => ?_) (violatesPhysical_safe H _ _)
    split
    · exact reject_safe r
    · rename_i hbf
      have hf : Fits cfg L U t := ⟨hl, fun i => hb (by simpa using hbf) i (List.mem_finRange i)⟩
      rw [bind_def, wp_bind]
      refine wp_mono (fun _ time _ => ?_) (minTime_safe _ _ _)
      split
      · trivial
      · rw [bind_def, wp_bind]
        exact wp_mono (fun _ _ _ => trivial) (apply_safe H t hf _ _)

theorem startMove_safe (H : SafeMon cfg L U C M) (r : RC F) (hF : r.method = .circular → M.flt .uninit) : (startMove cfg r).wp M (fun _ _ => True) () := by
  unfold startMove
  simp only [bind_def, emit, readServo, Prog.bind]
  split
  · exact ⟨H.raw _, command_safe H _ _ _⟩
  · split
    · exact reject_safe _
    · split
      · exact fun _ _ _ _ => command_safe H _ _ _
      · exact command_safe H _ _ _
  · rename_i hm; exact ⟨H.raw _, hF hm⟩

theorem allAtTarget_safe (is : List (Fin 6)) (acc : Bool) : (allAtTarget is acc : Prog F Bool).wp M (fun _ _ => True) () := by
  induction is generalizing acc with
  | nil => trivial
  | cons i is ih =>
    simp only [allAtTarget, readServo, bind_def, Prog.bind, wp]
    exact fun x _ => ih _

theorem prepare_safe (H : SafeMon cfg L U C M) (r : RC F) (hF : FaultOK cfg M r) (hst : r.state = .prepareMove) : (prepare cfg r).wp M (fun _ _ => True) () := by
  unfold prepare
  simp only [bind_def, emit, Prog.bind, pure_def]
  split
  · trivial
  · have key : ∀ p : Prog F (RC F), p.wp M (fun _ _ => True) () →
      (if (!r.anglesChanged && !r.poseChanged) = true then
        (out (.raw (.error "nothing changed, still PREPARE MOVE")) p : Prog F (RC F)) else p).wp M (fun _ _ => True) () := by
      intro p hp; split
      · exact ⟨H.raw _, hp⟩
      · exact hp
    apply key
    split
    · exact ⟨H.raw _, trivial⟩
    · simp only [getCurrentPose, getCurrentLogicalAngles, bind_def, pure_def, wp_bind]
      have hm := (sync_same cfg r).2.1
      refine wp_mono (fun _ a ha => ?_) readAngles_safe
      simp only [wp]
      refine wp_mono (fun _ _ _ => ?_) readAngles_safe
      have hc : (sync cfg r).method = .circular → M.flt .uninit := fun h => hF.circular (hm.symm.trans h)
      split
      · trivial
      · split
        · exact startMove_safe H _ hc
        · rename_i hl
          split
          · rename_i hn; exact hF.conv (hm.symm.trans hl) hst a ha hn
          · exact startMove_safe H _ hc
        · exact startMove_safe H _ hc

theorem process_safe (H : SafeMon cfg L U C M) (r : RC F) (hF : FaultOK cfg M r) : (process cfg r).wp M (fun _ _ => True) () := by
  unfold process
  split
  · trivial
  · unfold moving
    rw [bind_def, wp_bind]
    refine wp_mono (fun _ b _ => ?_) (allAtTarget_safe _ _)
    split
    · split
      · trivial
      · exact startMove_safe H _ hF.circular
    · trivial
  · rename_i hst; exact prepare_safe H r hF hst
  · exact startMove_safe H r hF.circular

end RC
end Mrc
