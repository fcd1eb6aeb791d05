import Verif.Spec.Joints
import Verif.Proof.Legible
/- A host that never selects the line: the controller stays in the joint interpolation. -/
set_option linter.unusedSectionVars false
namespace Mrc.Tok
open Mrc Mrc.Prog Mrc.Spec
variable {F : Type} [FloatOps F]

theorem exec_p2p (cfg : Cfg F) (s : Core F) (l : Loc F) (tok : List Byte) (g : Unit) (hs : s.rc.method = .p2p) (hn : tok.headD 0 ≠ 77) :
    (Mril.exec cfg s l tok).wp any (fun _ r => r.1.rc.method = .p2p) g := by
  exec_leaves
  all_goals first
    | exact absurd ‹_› hn
    | simp [any, Prog.bind, wp, RC.setMovementMethod, RC.setMaxVelocity, RC.setTargetPoseAt, RC.setTargetLogicalAngle, hs]

theorem quiet_pose {tok : List Byte} (hn : ¬ Moves tok) {i : Fin 6} (h : poseIdx (tok.headD 0) = some i) : tok.length = 1 ∧ tok.headD 0 ≠ 78 := by
  rcases tok with _ | ⟨c, t⟩
  · simp [poseIdx] at h
  · have hc : c = 88 ∨ c = 89 ∨ c = 90 ∨ c = 65 ∨ c = 66 ∨ c = 67 := by
      by_contra hh
      simp only [not_or] at hh
      simp [poseIdx, hh] at h
    have h78 : c ≠ 78 := by rintro rfl; revert hc; decide
    refine ⟨?_, h78⟩
    cases t with
    | nil => rfl
    | cons d t =>
      refine absurd (Or.inl ⟨?_, by simp⟩) hn
      rcases hc with rfl | rfl | rfl | rfl | rfl | rfl <;> simp

theorem quiet_R {tok : List Byte} (hn : ¬ Moves tok) (h : tok.headD 0 = 82) : tok.length = 1 ∨ tok.length = 2 := by
  rcases tok with _ | ⟨c, t⟩
  · cases h
  · have : ¬ 2 < (c :: t).length := fun hl => hn (.inr ⟨by rw [← h]; rfl, hl⟩)
    simp only [List.length_cons] at this ⊢
    omega

set_option maxHeartbeats 2000000 in
theorem exec_idle (cfg : Cfg F) (s : Core F) (l : Loc F) (tok : List Byte) (g : Unit) (hs : s.rc.state = .idle) (hn : ¬ Moves tok) :
    (Mril.exec cfg s l tok).wp any (fun _ r => r.1.rc.state = .idle) g := by
  have hp : ∀ i, poseIdx (tok.headD 0) = some i → tok.length = 1 ∧ tok.headD 0 ≠ 78 := fun i h => quiet_pose hn h
  have hR := quiet_R hn
  exec_leaves
  all_goals try (simp [any, Prog.bind, wp, RC.setMovementMethod, RC.setMaxVelocity, RC.setTargetPoseAt, RC.setTargetLogicalAngle, hs]; done)
  all_goals exfalso
  all_goals first
    | exact (hp _ ‹_›).2 ‹_›
    | exact ‹¬ tok.length = 1› (hp _ ‹_›).1
    | exact ‹¬ CmdType.read = CmdType.read› rfl
    | (have e1 : tok.headD 0 = 82 := by assumption
       have e2 : tok.headD 0 = 78 := by assumption
       rw [e1] at e2
       exact absurd e2 (by decide))
    | (have e1 : ¬ (decide (CmdType.read = CmdType.read) || decide (tok.length = 2)) = true := by assumption
       exact e1 (by simp))
    | (have e1 : ¬ (decide (CmdType.write = CmdType.read) || decide (tok.length = 2)) = true := by assumption
       have e2 : ¬ tok.length = 1 := by assumption
       have e3 := hR (by assumption)
       simp at e1
       omega)

theorem any_true {α : Type} (p : Prog F α) (g : Unit) : p.wp any (fun _ _ => True) g := by
  induction p generalizing g with
  | ret a => trivial
  | fault f => trivial
  | servo i k ih => exact fun v _ => ih v _
  | micro i m k ih => exact ⟨trivial, ih _⟩
  | now k ih => exact fun v _ => ih v _
  | pin p k ih => exact fun v _ => ih v _
  | rx k ih => exact fun v _ => ih v _
  | eeRead k ih => exact fun v _ => ih v _
  | eeWrite a b k ih => exact ⟨trivial, ih _⟩
  | out o k ih => exact ⟨trivial, ih _⟩

theorem execToks_inv (cfg : Cfg F) (J : Core F → Prop) (ts : List (List Byte)) (s : Core F) (l : Loc F) (hs : J s)
    (h : ∀ t ∈ ts, ∀ s l g, J s → (Mril.exec cfg s l t).wp any (fun _ r => J r.1) g) (g : Unit) :
    (execToks cfg ts s l).wp any (fun _ r => J r.1) g := by
  induction ts generalizing s l g with
  | nil => exact hs
  | cons t ts ih =>
    rw [execToks, wp_bind]
    refine wp_mono (fun g r hr => ?_) (h t (by simp) s l g hs)
    exact ih r.1 r.2 hr (fun u hu => h u (by simp [hu])) g

theorem execToks_wp_any (cfg : Cfg F) (ts : List (List Byte)) (s : Core F) (l : Loc F) (g : Unit) :
    (execToks cfg ts s l).wp any (fun _ _ => True) g :=
  execToks_inv cfg (fun _ => True) ts s l trivial (fun t _ s l g _ => any_true _ g) g

theorem execToks_append (cfg : Cfg F) (ts us : List (List Byte)) (s : Core F) (l : Loc F) :
    execToks cfg (ts ++ us) s l = (execToks cfg ts s l).bind fun r => execToks cfg us r.1 r.2 := by
  induction ts generalizing s l with
  | nil => rfl
  | cons t ts ih =>
    rw [List.cons_append, execToks, execToks, Prog.bind_assoc]
    congr 1
    funext r
    exact ih r.1 r.2

theorem exec_M {cfg : Cfg F} {t : List Byte} (h : t.head? = some 77 → t = [77, 48] ∨ t = [77]) (s : Core F) (l : Loc F) (g : Unit)
    (hs : s.rc.method = .p2p) : (Mril.exec cfg s l t).wp any (fun _ r => r.1.rc.method = .p2p) g := by
  by_cases h77 : t.headD 0 = 77
  · rcases t with _ | ⟨c, t⟩
    · cases h77
    · have : c = 77 := h77
      subst this
      rcases h rfl with e | e
      · rw [e]; exact (rfl : Method.p2p = .p2p)
      · rw [e]; exact hs
  · exact exec_p2p cfg s l t g hs h77

/-- either the joint interpolation is selected or the arm has not been told anything. -/
def Jointly (c : Core F) : Prop := c.rc.method = .p2p ∨ c.rc.state = .idle

theorem execToks_joint (cfg : Cfg F) (ts : List (List Byte)) (s : Core F) (l : Loc F) (g : Unit)
    (h1 : ∀ t ∈ ts, t.head? = some 77 → t = [77, 48] ∨ t = [77]) (h2 : (∃ t ∈ ts, Moves t) → [77, 48] ∈ ts) (hs : Jointly s) :
    (execToks cfg ts s l).wp any (fun _ r => Jointly r.1) g := by
  by_cases hm : [77, 48] ∈ ts
  · obtain ⟨a, b, rfl⟩ := List.append_of_mem hm
    rw [execToks_append, wp_bind]
    refine wp_mono (fun g r _ => ?_) (execToks_wp_any cfg a s l g)
    rw [execToks, wp_bind]
    show (execToks cfg b _ _).wp any _ _
    exact wp_mono (fun _ _ h => .inl h) (execToks_inv cfg (fun c => c.rc.method = .p2p) b _ _ rfl
      (fun t ht s l g hs => exec_M (h1 t (by simp [ht])) s l g hs) g)
  · have hq : ∀ t ∈ ts, ¬ Moves t := fun t ht hmv => hm (h2 ⟨t, ht, hmv⟩)
    rcases hs with hs | hs
    · exact wp_mono (fun _ _ h => .inl h) (execToks_inv cfg (fun c => c.rc.method = .p2p) ts s l hs
        (fun t ht s l g hs => exec_M (h1 t ht) s l g hs) g)
    · exact wp_mono (fun _ _ h => .inr h) (execToks_inv cfg (fun c => c.rc.state = .idle) ts s l hs
        (fun t ht s l g hs => exec_idle cfg s l t g hs (hq t ht)) g)

theorem parse_joint (cfg : Cfg F) (s : Core F) (n : Nat) (m : List Byte) (hj : Joints m) (ht : SafeText n m) (h : Jointly s) :
    (Mril.parse cfg s m).wp any (fun _ c => Jointly c) () := by
  rw [Mril.parse]
  split
  · exact h
  · rw [wp_bind, loop_toks cfg m _ _ _ (fun t h => (ht.each t h).1) ht.rest, wp_bind]
    refine wp_mono (fun g r hr => ?_) (execToks_joint cfg _ { s with rc := s.rc.startTransaction } {} () hj.lines hj.told h)
    have : (Mril.finish { r.1 with rc := r.1.rc.endTransaction } r.2).wp any (fun _ c => Jointly c) g := by
      simp only [Mril.finish]
      split <;> simpa [send, Prog.bind, wp, any, RC.endTransaction, Jointly] using hr
    unfold note
    split
    · exact ⟨trivial, this⟩
    · exact this

/-- the invariant. -/
def JointOK (c : Core F) : Prop := c.conds.length ≤ 10 ∧ Jointly c

theorem joint_tame (cfg : Cfg F) (hm : cfg.pinMap.length = 10) (L U : Six F) :
    Tame cfg (seen L U) (fun _ => True) JointOK (fun m => SafeText 10 m ∧ Joints m) (fun m => SafeText 0 m ∧ Joints m) where
  rc c h := by
    have H : SafeMon cfg.toRCfg L U (fun _ _ => True) (lmon (seen L U) (fun _ => True) : Mon F Unit) :=
      ⟨fun i s hs => ⟨(hs i s rfl).1, (hs i s rfl).2, trivial⟩, fun _ _ => trivial, fun _ _ _ => trivial, fun _ => trivial, fun _ _ _ => trivial,
        fun _ => trivial⟩
    rcases h.2 with hj | hj
    · refine wp_mono (fun _ r hr => ?_) (with_only (RC.process_safe H c.rc ⟨fun e => ?_, fun e => ?_⟩) (RC.process_only cfg.toRCfg c.rc))
      · refine ⟨h.1, .inl ?_⟩
        show r.method = _
        rw [hr.2.2.1]; exact hj
      · rw [hj] at e; cases e
      · rw [hj] at e; cases e
    · unfold RC.process
      rw [hj]
      exact ⟨h.1, .inr hj⟩
  now c m hs h := by
    have hs' : SafeText c.conds.length m := safeText_mono hs.1 h.1
    refine wp_mono (fun _ c' hc => ?_) (join (fun _ => trivial) (parse_good cfg hm c m hs') (parse_joint cfg c _ m hs.2 hs' h.2))
    refine ⟨?_, hc.2⟩
    rw [hc.1]
    have := hs'.room
    have := h.1
    omega
  instr c m hs h hc := by
    have hs' : SafeText c.conds.length m := by rw [hc]; exact hs.1
    refine wp_mono (fun _ c' hc' => ?_) (join (fun _ => trivial) (parse_good cfg hm c m hs') (parse_joint cfg c _ m hs.2 hs' h.2))
    refine ⟨?_, hc'.2⟩
    rw [hc'.1]
    have := hs'.room
    have := h.1
    omega
  check c h := by
    unfold Mril.process IOL.isDone
    rw [wp_bind, wp_bind]
    refine ioCheck_wp (M := lmon _ _ _) _ _ (fun _ _ => rfl) fun b => ?_
    cases b with
    | false => exact ⟨h, fun hh => by simp at hh⟩
    | true =>
      have hc : JointOK { c with conds := [] } := ⟨by simp, h.2⟩
      show Prog.wp _ (if (true && !c.rc.isMoving) = true then _ else _) _ _
      split
      · intro t _
        show Prog.wp _ (if Wait.isDone t c.waitUntil = true then _ else _) _ _
        split
        · show Prog.wp _ (if 0 < c.commandNumber then _ else _) _ _
          split
          · exact ⟨trivial, hc, fun _ => rfl⟩
          · exact ⟨hc, fun _ => rfl⟩
        · exact ⟨hc, fun _ => rfl⟩
      · exact ⟨hc, fun _ => rfl⟩
  disp a h := trivial
  boot v u hv hu := ⟨by simp [CoreInv.boot], .inr rfl⟩

theorem clean_of_joint {r : List Byte} (h : LegiblySent r) (hj : ∀ p ∈ decode r, JointsFrame (frame p)) :
    Clean (FrameOK (fun m => SafeText 10 m ∧ Joints m) (fun m => SafeText 0 m ∧ Joints m)) r := by
  refine ⟨(clean_of_legible h).1, fun p hp => ?_⟩
  have hd : p ∈ decode r := by
    rw [← nrun_decode r.length r (Nat.le_refl _)]
    exact List.mem_filterMap.2 ⟨_, hp, rfl⟩
  obtain ⟨h1, h2, h3⟩ := (clean_of_legible h).2 p hp
  have h4 := hj p hd
  refine ⟨h1, h2, ?_⟩
  cases hf : frame p with
  | now m => rw [hf] at h3 h4; exact ⟨h3, h4⟩
  | put m => rw [hf] at h3 h4; exact ⟨h3, h4⟩
  | store m => rw [hf] at h3 h4; exact ⟨h3, h4⟩
  | _ => trivial

end Mrc.Tok
