import Verif.Proof.ToldSeen
/- What a finished point to point move means, in any arithmetic (C84-C87, C105). -/
set_option linter.unusedSectionVars false
set_option linter.unusedSimpArgs false
namespace Mrc.Told
open Mrc Mrc.Prog Mrc.Spec Mrc.Props
variable {F : Type} [FloatOps F] {cfg : Cfg F} {w0 : World F} {junk : Nat → Byte} {evs : List (Ev F)} {s : Sys F}

/-- when every servo was sent to `p` and has arrived, it was seen with that target, at that target, and has not been touched since. -/
theorem went_seen (h : Sys.Run cfg w0 junk evs s) {p0 mid rest : List (Act F)} (e : acts evs = p0 ++ (mid ++ rest)) {p : Six F} (h2 : armTargets mid = six6 p) (h3 : Spec.Arrived mid) (i : Fin 6) :
    ∃ p1 sv p2, mid = p1 ++ .servo (armServo i) sv :: p2 ∧ (∀ m, .micro (armServo i) m ∉ p2) ∧ sv.target = p i ∧ sv.atTarget = true := by
  obtain ⟨q1, q2, e1, hq⟩ := sent_split h2 i
  have hex : ∃ a ∈ Act.micro (armServo i) (.setTarget (p i)) :: q2, ∃ m, a = .micro (armServo i) m := ⟨.micro (armServo i) (.setTarget (p i)), List.mem_cons_self, _, rfl⟩
  obtain ⟨r1, a, r2, e2, ⟨m, rfl⟩, hr⟩ := last_split hex
  obtain ⟨sv, hs1, hs2⟩ := h3 i (q1 ++ r1) m r2 (by rw [e1, e2, List.append_assoc])
  have hs3 : .servo (armServo i) sv ∈ q2 := by
    cases r1 with
    | nil => simp only [List.nil_append, List.cons.injEq] at e2; rw [e2.2]; exact hs1
    | cons y r1 => simp only [List.cons_append, List.cons.injEq] at e2; rw [e2.2]; simp [hs1]
  obtain ⟨u1, u2, e3⟩ := List.append_of_mem hs1
  have hacts : acts evs = (p0 ++ q1) ++ .micro (armServo i) (.setTarget (p i)) :: (q2 ++ rest) := by rw [e, e1]; simp
  have htar : sv.target = p i := by
    obtain ⟨v1, v2, e4⟩ := List.append_of_mem hs3
    obtain ⟨evs1, evs2, e5, e6⟩ : ∃ evs1 evs2, evs = evs1 ++ evs2 ∧ acts evs1 = (p0 ++ q1) ++ .micro (armServo i) (.setTarget (p i)) :: (v1 ++ [.servo (armServo i) sv]) := by
      have : acts evs = ((p0 ++ q1) ++ .micro (armServo i) (.setTarget (p i)) :: (v1 ++ [.servo (armServo i) sv])) ++ (v2 ++ rest) := by rw [hacts, e4]; simp
      exact acts_split this
    obtain ⟨s1, hr1⟩ := run_prefix (e5 ▸ h)
    exact (run_target hr1 e6 fun y hy => hq y (by
      rw [e4]
      rcases List.mem_append.1 hy with hy | hy
      · simp [hy]
      · simp at hy)).2 sv (by simp)
  refine ⟨q1 ++ r1 ++ .micro (armServo i) m :: u1, sv, u2, ?_, fun m' hm' => ?_, htar, hs2⟩
  · rw [e1, e2, e3]; simp
  · exact hr _ (by rw [e3]; simp [hm']) ⟨m', rfl⟩

/-- an arm that was left alone: every reading stays valid. -/
theorem still_seen {mid : List (Act F)} (hs : ArmStill mid) {i : Fin 6} {sv : Servo F} (hv : .servo (armServo i) sv ∈ mid) :
    ∃ p1 p2, mid = p1 ++ .servo (armServo i) sv :: p2 ∧ ∀ m, .micro (armServo i) m ∉ p2 := by
  obtain ⟨p1, p2, rfl⟩ := List.append_of_mem hv
  exact ⟨p1, p2, rfl, fun m hm => hs i m (by simp [hm])⟩

/-- the time is zero only if no servo needs a positive time. -/
theorem timeFor_le {p : Six F} {v : Fin 6 → Servo F} {mt : F} {Z : F → Prop}
    (hgt : ∀ x acc : F, fgt x acc = true → Z x → Z acc) (hng : ∀ i acc, Z acc → fgt (FloatOps.div (FloatOps.abs (FloatOps.sub (p i) (v i).cur)) (v i).maxVel) acc = false →
      Z (FloatOps.div (FloatOps.abs (FloatOps.sub (p i) (v i).cur)) (v i).maxVel))
    (h : Z (timeFor p v mt)) (i : Fin 6) : Z (FloatOps.div (FloatOps.abs (FloatOps.sub (p i) (v i).cur)) (v i).maxVel) := by
  have key : ∀ (l : List (Fin 6)) (acc : F), Z (l.foldl (fun acc i => let x := FloatOps.div (FloatOps.abs (FloatOps.sub (p i) (v i).cur)) (v i).maxVel; if fgt x acc then x else acc) acc) →
      (∀ i ∈ l, Z (FloatOps.div (FloatOps.abs (FloatOps.sub (p i) (v i).cur)) (v i).maxVel)) ∧ Z acc := by
    intro l
    induction l with
    | nil => intro acc h; exact ⟨by simp, h⟩
    | cons j l ih =>
      intro acc h
      rw [List.foldl_cons] at h
      obtain ⟨h1, h2⟩ := ih _ h
      simp only at h2
      split at h2
      · rename_i hg
        refine ⟨fun k hk => ?_, hgt _ _ hg h2⟩
        rcases List.mem_cons.1 hk with rfl | hk
        · exact h2
        · exact h1 k hk
      · rename_i hg
        refine ⟨fun k hk => ?_, h2⟩
        rcases List.mem_cons.1 hk with rfl | hk
        · exact hng _ _ h2 (by simpa using hg)
        · exact h1 k hk
  exact (key _ _ h).1 i (List.mem_finRange i)

end Mrc.Told
