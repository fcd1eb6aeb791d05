import Verif.Spec.Controller
import Verif.Proof.Only
/- Exact description of the accesses of RobotController::process. -/
set_option linter.unusedSectionVars false
namespace Mrc
open Mrc.Prog Mrc.Spec
variable {F : Type} [FloatOps F] {α β : Type}

/-- monitor that records everything; the servo records read satisfy `E`. -/
def tmon (E : Fin 6 → Servo F → Prop) : Mon F (List (Act F)) where
  upd g a := g ++ [a]
  env _ a := ∀ i s, a = .servo (armServo i) s → E i s

theorem foldl_tmon (E : Fin 6 → Servo F → Prop) (tr g : List (Act F)) : tr.foldl (tmon E).upd g = g ++ tr := by
  induction tr generalizing g with
  | nil => simp
  | cons a tr ih => simp only [List.foldl, ih]; simp [tmon]

theorem exec_of_wp {E : Fin 6 → Servo F → Prop} {p : Prog F α} {tr : List (Act F)} {a : α} {Q : List (Act F) → α → Prop}
    (h : Exec p tr (.ret a)) (hp : p.wp (tmon E) Q []) (hE : ∀ i s, .servo (armServo i) s ∈ tr → E i s) : Q tr a := by
  have := (wp_exec h hp (fun pre b post e _ i s hb => hE i s (by rw [e, hb]; simp))).2
  rw [foldl_tmon] at this
  simpa [wp] using this

theorem armServo_inj {i j : Fin 6} (h : armServo i = armServo j) : i = j := by
  simp only [armServo, Fin.mk.injEq] at h; exact Fin.ext h

theorem env_servo {E : Fin 6 → Servo F → Prop} {g : List (Act F)} {i : Fin 6} {v : Servo F} (h : (tmon E).env g (.servo (armServo i) v)) : E i v :=
  h i v rfl

/-- reading the servos `is`. -/
def readT (v : Fin 6 → Servo F) (is : List (Fin 6)) : List (Act F) := is.map fun i => .servo (armServo i) (v i)
/-- reading all six. -/
def readAll (v : Fin 6 → Servo F) : List (Act F) := readT v (List.finRange 6)
/-- the angles read. -/
def curs (v : Fin 6 → Servo F) : Six F := fun i => (v i).cur

/-- only readings. -/
def Reads (l : List (Act F)) : Prop := ∀ a ∈ l, ∃ i s, a = .servo (armServo i) s

/-- commanding the servos `is`. -/
def applyT (t : Six F) (time : F) (v u : Fin 6 → Servo F) (is : List (Fin 6)) : List (Act F) :=
  is.flatMap fun i => [.servo (armServo i) (v i), .micro (armServo i) (.setVel (FloatOps.div (FloatOps.abs (FloatOps.sub (t i) (v i).cur)) time)),
    .servo (armServo i) (u i), .micro (armServo i) (.setStart (u i).cur), .micro (armServo i) .zeroElapsed, .micro (armServo i) (.setTarget (t i))]

/-- the time the slowest servo needs. -/
def slowest (t : Six F) (v : Fin 6 → Servo F) (is : List (Fin 6)) (acc : F) : F :=
  is.foldl (fun acc i => let mt := FloatOps.div (FloatOps.abs (FloatOps.sub (t i) (v i).cur)) (v i).maxVel; if fgt mt acc then mt else acc) acc

/-- put a record in front. -/
def ups (i : Fin 6) (x : Servo F) (v : Fin 6 → Servo F) : Fin 6 → Servo F := fun j => if j = i then x else v j
theorem ups_self (i : Fin 6) (x : Servo F) (v : Fin 6 → Servo F) : ups i x v i = x := by simp [ups]
theorem ups_ne {i j : Fin 6} (x : Servo F) (v : Fin 6 → Servo F) (h : j ≠ i) : ups i x v j = v j := by simp [ups, h]
theorem ups_mem {i j : Fin 6} {is : List (Fin 6)} (x : Servo F) (v : Fin 6 → Servo F) (h : i ∉ is) (hj : j ∈ is) : ups i x v j = v j :=
  ups_ne x v (fun e => h (e ▸ hj))

theorem readT_ups {i : Fin 6} {is : List (Fin 6)} (x : Servo F) (v : Fin 6 → Servo F) (h : i ∉ is) : readT (ups i x v) (i :: is) = .servo (armServo i) x :: readT v is := by
  simp only [readT, List.map_cons, ups_self]
  congr 1
  exact List.map_congr_left fun j hj => by rw [ups_mem x v h hj]

theorem foldl_congr {γ : Type} (f g : γ → β → γ) (l : List β) (h : ∀ a b, b ∈ l → f a b = g a b) (x : γ) : l.foldl f x = l.foldl g x := by
  induction l generalizing x with
  | nil => rfl
  | cons b l ih =>
    rw [List.foldl_cons, List.foldl_cons, h x b List.mem_cons_self]
    exact ih (fun a c hc => h a c (List.mem_cons_of_mem _ hc)) _

namespace RC
variable {E : Fin 6 → Servo F → Prop}

theorem readAngles_wp {Q : List (Act F) → Six F → Prop} {g : List (Act F)}
    (h : ∀ v, (∀ i, E i (v i)) → Q (g ++ readAll v) (curs v)) : (readAngles : Prog F (Six F)).wp (tmon E) Q g := by
  simp only [readAngles, readServo, bind_def, pure_def, Prog.bind, wp]
  intro v0 e0 v1 e1 v2 e2 v3 e3 v4 e4 v5 e5
  have := h (fun i => match i with | 0 => v0 | 1 => v1 | 2 => v2 | 3 => v3 | 4 => v4 | 5 => v5)
    (fun i => match i with | 0 => e0 0 _ rfl | 1 => e1 1 _ rfl | 2 => e2 2 _ rfl | 3 => e3 3 _ rfl | 4 => e4 4 _ rfl | 5 => e5 5 _ rfl)
  have e1 : curs (fun i : Fin 6 => match i with | 0 => v0 | 1 => v1 | 2 => v2 | 3 => v3 | 4 => v4 | 5 => v5) =
      six v0.cur v1.cur v2.cur v3.cur v4.cur v5.cur := by
    funext i; match i with | 0 | 1 | 2 | 3 | 4 | 5 => rfl
  rw [e1] at this
  simp only [tmon, List.append_assoc]
  exact this

theorem reject_wp (cfg : RCfg F) (r : RC F) {Q : List (Act F) → RC F → Prop} {g : List (Act F)}
    (h : ∀ v u, (∀ i, E i (v i)) → (∀ i, E i (u i)) → Q (g ++ readAll v ++ readAll u) { r with targetPose := cfg.fwd (cfg.p2l (curs v)), targetAngles := cfg.p2l (curs u), state := .idle }) :
    (reject cfg r).wp (tmon E) Q g := by
  simp only [reject, getCurrentPose, getCurrentLogicalAngles, bind_def, wp_bind]
  refine readAngles_wp fun v hv => ?_
  simp only [pure_def, wp, wp_bind]
  exact readAngles_wp fun u hu => h v u hv hu

theorem violatesPhysical_wp {L U : Six F} (hE : ∀ i s, E i s → s.minA = L i ∧ s.maxA = U i) (t : Six F) (is : List (Fin 6)) (hn : is.Nodup) {g : List (Act F)}
    {Q : List (Act F) → Bool → Prop}
    (h1 : ∀ v, (∀ i ∈ is, E i (v i)) → (∀ i ∈ is, flt (t i) (L i) = false ∧ fgt (t i) (U i) = false) → Q (g ++ readT v is) false)
    (h2 : ∀ l, (∃ i ∈ is, (flt (t i) (L i) || fgt (t i) (U i)) = true) → Reads l → Q (g ++ l) true) :
    (violatesPhysical t is).wp (tmon E) Q g := by
  induction is generalizing g Q with
  | nil =>
    have := h1 (fun _ => ⟨0, t 0, 0, 0, 0, t 0, t 0, t 0, t 0, t 0, t 0, t 0⟩) (by simp) (by simp)
    rw [readT, List.map_nil, List.append_nil] at this
    exact this
  | cons i is ih =>
    obtain ⟨hi, hn'⟩ := List.nodup_cons.1 hn
    simp only [violatesPhysical, readServo, bind_def, Prog.bind, wp]
    intro x hx
    have ex := env_servo hx
    have el := hE i x ex
    show Prog.wp _ (if _ then _ else _) _ _
    rw [el.1, el.2]
    split
    · rename_i hc
      exact h2 [_] ⟨i, List.mem_cons_self, hc⟩ (by intro a ha; simp at ha; exact ⟨_, _, ha⟩)
    · rename_i hc
      simp only [Bool.or_eq_true, not_or, Bool.not_eq_true] at hc
      refine ih hn' ?_ ?_
      · intro v hv hf
        have := h1 (ups i x v) ?_ ?_
        · rw [readT_ups x v hi] at this
          simpa [tmon] using this
        · intro j hj
          rcases List.mem_cons.1 hj with rfl | hj
          · rw [ups_self]; exact ex
          · rw [ups_mem x v hi hj]; exact hv j hj
        · intro j hj
          rcases List.mem_cons.1 hj with rfl | hj
          · exact hc
          · exact hf j hj
      · intro l hb hl
        obtain ⟨k, hk, hb⟩ := hb
        have := h2 (.servo (armServo i) x :: l) ⟨k, List.mem_cons_of_mem _ hk, hb⟩ (by
          intro a ha
          rcases List.mem_cons.1 ha with rfl | ha
          · exact ⟨_, _, rfl⟩
          · exact hl a ha)
        simpa [tmon] using this

theorem minTime_wp (t : Six F) (is : List (Fin 6)) (hn : is.Nodup) {acc : F} {g : List (Act F)} {Q : List (Act F) → F → Prop}
    (h : ∀ v, (∀ i ∈ is, E i (v i)) → Q (g ++ readT v is) (slowest t v is acc)) : (minTime t is acc).wp (tmon E) Q g := by
  induction is generalizing g acc with
  | nil =>
    have := h (fun _ => ⟨0, t 0, 0, 0, 0, t 0, t 0, t 0, t 0, t 0, t 0, t 0⟩) (by simp)
    rw [readT, List.map_nil, List.append_nil] at this
    exact this
  | cons i is ih =>
    obtain ⟨hi, hn'⟩ := List.nodup_cons.1 hn
    simp only [minTime, readServo, bind_def, Prog.bind, wp]
    intro x hx
    refine ih hn' fun v hv => ?_
    have := h (ups i x v) ?_
    · rw [readT_ups x v hi] at this
      have e : slowest t (ups i x v) (i :: is) acc = slowest t v is (let mt := FloatOps.div (FloatOps.abs (FloatOps.sub (t i) x.cur)) x.maxVel; if fgt mt acc then mt else acc) := by
        simp only [slowest, List.foldl_cons, ups_self]
        refine foldl_congr _ _ _ (fun a j hj => ?_) _
        rw [ups_mem x v hi hj]
      rw [e] at this
      simp only [tmon, List.append_assoc, List.singleton_append]
      exact this
    · intro j hj
      rcases List.mem_cons.1 hj with rfl | hj
      · rw [ups_self]; exact env_servo hx
      · rw [ups_mem x v hi hj]; exact hv j hj

theorem apply_wp (t : Six F) (time : F) (is : List (Fin 6)) (hn : is.Nodup) {g : List (Act F)} {Q : List (Act F) → Unit → Prop}
    (h : ∀ v u, (∀ i ∈ is, E i (v i)) → (∀ i ∈ is, E i (u i)) → Q (g ++ applyT t time v u is) ()) : (apply t time is).wp (tmon E) Q g := by
  induction is generalizing g with
  | nil =>
    have := h (fun _ => ⟨0, t 0, 0, 0, 0, t 0, t 0, t 0, t 0, t 0, t 0, t 0⟩) (fun _ => ⟨0, t 0, 0, 0, 0, t 0, t 0, t 0, t 0, t 0, t 0, t 0⟩) (by simp) (by simp)
    rw [applyT, List.flatMap_nil, List.append_nil] at this
    exact this
  | cons i is ih =>
    obtain ⟨hi, hn'⟩ := List.nodup_cons.1 hn
    simp only [apply, readServo, doMicro, bind_def, Prog.bind, wp]
    intro x hx
    refine ⟨trivial, fun y hy => ⟨trivial, trivial, trivial, ?_⟩⟩
    refine ih hn' fun v u hv hu => ?_
    have := h (ups i x v) (ups i y u) ?_ ?_
    · have e : applyT t time (ups i x v) (ups i y u) (i :: is) = [.servo (armServo i) x, .micro (armServo i) (.setVel (FloatOps.div (FloatOps.abs (FloatOps.sub (t i) x.cur)) time)),
          .servo (armServo i) y, .micro (armServo i) (.setStart y.cur), .micro (armServo i) .zeroElapsed, .micro (armServo i) (.setTarget (t i))] ++ applyT t time v u is := by
        simp only [applyT, List.flatMap_cons, ups_self]
        congr 1
        rw [List.flatMap_def, List.flatMap_def]
        congr 1
        refine List.map_congr_left fun j hj => ?_
        rw [ups_mem x v hi hj, ups_mem y u hi hj]
      rw [e] at this
      simp only [tmon, List.append_assoc, List.cons_append, List.nil_append] at this ⊢
      exact this
    · intro j hj
      rcases List.mem_cons.1 hj with rfl | hj
      · rw [ups_self]; exact env_servo hx
      · rw [ups_mem x v hi hj]; exact hv j hj
    · intro j hj
      rcases List.mem_cons.1 hj with rfl | hj
      · rw [ups_self]; exact env_servo hy
      · rw [ups_mem y u hi hj]; exact hu j hj

/-- everything that can happen in lines 687-755 (`command`). -/
inductive Cmd (cfg : RCfg F) (L U : Six F) (r : RC F) (t : Six F) (mt : F) : List (Act F) → RC F → Prop
  | refused (l v u) : ¬ Fits cfg L U t → Reads l →
      Cmd cfg L U r t mt (l ++ readAll v ++ readAll u) { r with targetPose := cfg.fwd (cfg.p2l (curs v)), targetAngles := cfg.p2l (curs u), state := .idle }
  | zero (v m) : Fits cfg L U t → feq (slowest (cfg.l2p t) m (List.finRange 6) mt) (lit 0) = true →
      Cmd cfg L U r t mt (readAll v ++ readAll m) { r with state := .moving }
  | moved (v m x y) : Fits cfg L U t → feq (slowest (cfg.l2p t) m (List.finRange 6) mt) (lit 0) = false →
      Cmd cfg L U r t mt (readAll v ++ readAll m ++ applyT (cfg.l2p t) (slowest (cfg.l2p t) m (List.finRange 6) mt) x y (List.finRange 6)) { r with state := .moving }

theorem nodup6 : (List.finRange 6).Nodup := by decide

theorem command_wp {L U : Six F} (hE : ∀ i s, E i s → s.minA = L i ∧ s.maxA = U i) (cfg : RCfg F) (r : RC F) (t : Six F) (mt : F)
    {Q : List (Act F) → RC F → Prop} {g : List (Act F)} (h : ∀ tr r', Cmd cfg L U r t mt tr r' → Q (g ++ tr) r') :
    (command cfg r t mt).wp (tmon E) Q g := by
  unfold command
  split
  · rename_i hv
    refine reject_wp cfg r fun v u hv' hu => ?_
    have := h _ _ (.refused [] v u ?_ (by intro a ha; cases ha))
    · rwa [List.nil_append, ← List.append_assoc] at this
    · rintro ⟨hl, _⟩
      simp only [violatesLogical, List.any_eq_true] at hv
      obtain ⟨i, _, hi⟩ := hv
      have := hl i
      rw [Bool.or_eq_true] at hi
      rcases hi with hi | hi
      · rw [this.1] at hi; cases hi
      · rw [this.2] at hi; cases hi
  · rename_i hv
    have hl : ∀ i, flt (t i) (cfg.lo i) = false ∧ fgt (t i) (cfg.hi i) = false := by
      intro i
      simp only [violatesLogical, List.any_eq_true, not_exists, not_and, Bool.or_eq_true, not_or, Bool.not_eq_true] at hv
      exact hv i (List.mem_finRange i)
    rw [bind_def, wp_bind]
    refine violatesPhysical_wp hE _ _ nodup6 ?_ ?_
    · intro v _ hp
      have hf : Fits cfg L U t := ⟨hl, fun i => hp i (List.mem_finRange i)⟩
      show Prog.wp _ (Prog.bind _ _) _ _
      rw [wp_bind]
      refine minTime_wp _ _ nodup6 fun m _ => ?_
      show Prog.wp _ (if _ then _ else _) _ _
      split
      · rename_i hz
        have := h _ _ (.zero v m hf hz)
        rw [List.append_assoc]; exact this
      · rename_i hz
        rw [bind_def, wp_bind]
        refine apply_wp _ _ _ nodup6 fun x y _ _ => ?_
        have := h _ _ (.moved v m x y hf (by simpa using hz))
        rw [← List.append_assoc, ← List.append_assoc] at this
        exact this
    · intro l hb hl'
      refine reject_wp cfg r fun v u hv' hu => ?_
      have := h _ _ (.refused l v u ?_ hl')
      · simpa only [List.append_assoc] using this
      · rintro ⟨_, hp⟩
        obtain ⟨i, _, hi⟩ := hb
        rw [Bool.or_eq_true] at hi
        rcases hi with hi | hi
        · rw [(hp i).1] at hi; cases hi
        · rw [(hp i).2] at hi; cases hi

/-- everything that can happen in case START_MOVE (lines 552-756). -/
inductive Start (cfg : RCfg F) (L U : Six F) (r : RC F) : List (Act F) → RC F → Prop
  | p2p {tr r'} : r.method = .p2p →
      Cmd cfg L U { r with step := r.step + 1 } r.targetAngles (FloatOps.mul (FloatOps.div r.maxAngleChange r.maxVelocity) radToDeg) tr r' →
      Start cfg L U r (.out (.raw (.moveInTime (FloatOps.mul (FloatOps.div r.maxAngleChange r.maxVelocity) radToDeg))) :: tr) r'
  | unreachable (v u) : r.method = .linear → cfg.inv (waypoint { r with step := r.step + 1 }) = none →
      Start cfg L U r (readAll v ++ readAll u)
        { r with step := r.step + 1, targetPose := cfg.fwd (cfg.p2l (curs v)), targetAngles := cfg.p2l (curs u), state := .idle }
  | linear {t tr r'} : r.method = .linear → cfg.inv (waypoint { r with step := r.step + 1 }) = some t →
      flt (FloatOps.abs (FloatOps.sub (t 4) (FloatOps.div FloatOps.pi (lit 2)))) (lit (5/100)) = false →
      Cmd cfg L U { r with step := r.step + 1 } t (FloatOps.div (FloatOps.div (distance r.startPose r.targetPose) (Servo.ofNat r.total)) r.maxVelocity) tr r' →
      Start cfg L U r tr r'
  | singular {t s3 s5 tr r'} : r.method = .linear → cfg.inv (waypoint { r with step := r.step + 1 }) = some t →
      flt (FloatOps.abs (FloatOps.sub (t 4) (FloatOps.div FloatOps.pi (lit 2)))) (lit (5/100)) = true →
      Cmd cfg L U { r with step := r.step + 1 } (upd (upd t 3 s3.cur) 5 s5.cur)
        (FloatOps.div (FloatOps.div (distance r.startPose r.targetPose) (Servo.ofNat r.total)) r.maxVelocity) tr r' →
      Start cfg L U r (.servo 3 s3 :: .servo 5 s5 :: tr) r'

theorem startMove_wp {L U : Six F} (hE : ∀ i s, E i s → s.minA = L i ∧ s.maxA = U i) (cfg : RCfg F) (r : RC F)
    {Q : List (Act F) → RC F → Prop} {g : List (Act F)} (h : ∀ tr r', Start cfg L U r tr r' → Q (g ++ tr) r') :
    (startMove cfg r).wp (tmon E) Q g := by
  unfold startMove
  simp only [bind_def, emit, readServo, Prog.bind]
  split
  · rename_i hm
    refine ⟨trivial, command_wp hE cfg _ _ _ fun tr r' hc => ?_⟩
    have := h _ _ (.p2p hm hc)
    rw [List.append_cons] at this
    exact this
  · rename_i hm
    split
    · rename_i hi
      refine reject_wp cfg _ fun v u _ _ => ?_
      have := h _ _ (.unreachable v u hm hi)
      rw [← List.append_assoc] at this
      exact this
    · rename_i t hi
      split
      · rename_i hs
        intro s3 _ s5 _
        refine command_wp hE cfg _ _ _ fun tr r' hc => ?_
        have := h _ _ (.singular (s3 := s3) (s5 := s5) hm hi hs hc)
        simpa [tmon] using this
      · rename_i hs
        exact command_wp hE cfg _ _ _ fun tr r' hc => h _ _ (.linear hm hi (Bool.eq_false_iff.2 hs) hc)
  · exact ⟨trivial, trivial⟩

theorem allAtTarget_wp (is : List (Fin 6)) (hn : is.Nodup) {acc : Bool} {g : List (Act F)} {Q : List (Act F) → Bool → Prop}
    (h : ∀ v, (∀ i ∈ is, E i (v i)) → Q (g ++ readT v is) (acc && is.all fun i => (v i).atTarget)) : (allAtTarget is acc : Prog F Bool).wp (tmon E) Q g := by
  induction is generalizing g acc with
  | nil =>
    let z : F := lit 0
    have := h (fun _ => ⟨0, z, 0, 0, 0, z, z, z, z, z, z, z⟩) (by simp)
    rw [readT, List.map_nil, List.append_nil, List.all_nil, Bool.and_true] at this
    exact this
  | cons i is ih =>
    obtain ⟨hi, hn'⟩ := List.nodup_cons.1 hn
    simp only [allAtTarget, readServo, bind_def, Prog.bind, wp]
    intro x hx
    refine ih hn' fun v hv => ?_
    have := h (ups i x v) ?_
    · rw [readT_ups x v hi] at this
      have e : ((i :: is).all fun j => (ups i x v j).atTarget) = (x.atTarget && is.all fun j => (v j).atTarget) := by
        simp only [List.all_cons, ups_self]
        congr 1
        rw [Bool.eq_iff_iff]
        simp only [List.all_eq_true]
        constructor
        · intro hh j hj; rw [← ups_mem x v hi hj]; exact hh j hj
        · intro hh j hj; rw [ups_mem x v hi hj]; exact hh j hj
      rw [e, ← Bool.and_assoc] at this
      simpa [tmon] using this
    · intro j hj
      rcases List.mem_cons.1 hj with rfl | hj
      · rw [ups_self]; exact env_servo hx
      · rw [ups_mem x v hi hj]; exact hv j hj

/-- everything that can happen in case MOVING (lines 366-399). -/
inductive Mov (cfg : RCfg F) (L U : Six F) (r : RC F) : List (Act F) → RC F → Prop
  | wait (v) : (∃ i, (v i).atTarget = false) → Mov cfg L U r (readAll v) r
  | finish (v) : (∀ i, (v i).atTarget = true) → r.step = r.total → Mov cfg L U r (readAll v) { r with state := .idle }
  | next (v) {tr r'} : (∀ i, (v i).atTarget = true) → r.step ≠ r.total → Start cfg L U { r with state := .startMove } tr r' → Mov cfg L U r (readAll v ++ tr) r'

theorem moving_wp {L U : Six F} (hE : ∀ i s, E i s → s.minA = L i ∧ s.maxA = U i) (cfg : RCfg F) (r : RC F)
    {Q : List (Act F) → RC F → Prop} {g : List (Act F)} (h : ∀ tr r', Mov cfg L U r tr r' → Q (g ++ tr) r') :
    (moving cfg r).wp (tmon E) Q g := by
  unfold moving
  rw [bind_def, wp_bind]
  refine allAtTarget_wp _ nodup6 fun v _ => ?_
  split
  · rename_i hb
    have hb' : ∀ i, (v i).atTarget = true := by simpa using hb
    split
    · rename_i he
      exact h _ _ (.finish v hb' he)
    · rename_i he
      refine startMove_wp hE cfg _ fun tr r' hs => ?_
      have := h _ _ (.next v hb' he hs)
      rw [List.append_assoc]; exact this
  · rename_i hb
    refine h _ _ (.wait v ?_)
    simpa using hb

/-- everything that can happen in case PREPARE_MOVE (lines 401-550); conflicting and empty changes report an error first. -/
inductive Prep (cfg : RCfg F) (L U : Six F) (r : RC F) : List (Act F) → RC F → Prop
  | transaction : r.inTransaction = true → Prep cfg L U r [] r
  | both : r.inTransaction = false → r.poseChanged = true → r.anglesChanged = true →
      Prep cfg L U r [.out (.raw (.error "Do not change pose and angles in one transaction!"))]
        { sync cfg r with anglesChanged := false, poseChanged := false, state := .idle }
  | same (e v u) : r.inTransaction = false → ¬ (r.poseChanged = true ∧ r.anglesChanged = true) → (∀ a ∈ e, ∃ t, a = .out (.raw t)) →
      anglesEqual (cfg.p2l (curs u)) (sync cfg r).targetAngles = true →
      Prep cfg L U r (e ++ readAll v ++ readAll u)
        { sync cfg r with anglesChanged := false, poseChanged := false, startPose := cfg.fwd (cfg.p2l (curs v)), startAngles := cfg.p2l (curs u), state := .idle }
  | start (e v u) {n tr r'} : r.inTransaction = false → ¬ (r.poseChanged = true ∧ r.anglesChanged = true) → (∀ a ∈ e, ∃ t, a = .out (.raw t)) →
      anglesEqual (cfg.p2l (curs u)) (sync cfg r).targetAngles = false →
      (r.method = .p2p ∧ n = 1 ∨ r.method = .linear ∧ linearSteps (cfg.fwd (cfg.p2l (curs v))) (sync cfg r).targetPose = some n) →
      Start cfg L U { sync cfg r with anglesChanged := false, poseChanged := false, startPose := cfg.fwd (cfg.p2l (curs v)), startAngles := cfg.p2l (curs u), step := 0, total := n, state := .startMove } tr r' →
      Prep cfg L U r (e ++ readAll v ++ readAll u ++ tr) r'

theorem prepare_wp {L U : Six F} (hE : ∀ i s, E i s → s.minA = L i ∧ s.maxA = U i) (cfg : RCfg F) (r : RC F)
    {Q : List (Act F) → RC F → Prop} {g : List (Act F)} (h : ∀ tr r', Prep cfg L U r tr r' → Q (g ++ tr) r') :
    (prepare cfg r).wp (tmon E) Q g := by
  have hm := (sync_same cfg r).2.1
  have hc : (sync cfg r).poseChanged = r.poseChanged ∧ (sync cfg r).anglesChanged = r.anglesChanged := by
    unfold sync; split
    · exact ⟨rfl, rfl⟩
    · split
      · split <;> exact ⟨rfl, rfl⟩
      · exact ⟨rfl, rfl⟩
  unfold prepare
  split
  · rename_i ht
    have := h _ _ (.transaction ht)
    rwa [List.append_nil] at this
  · rename_i ht
    have ht : r.inTransaction = false := by simpa using ht
    have key : ∀ e : List (Act F), (∀ a ∈ e, ∃ t, a = .out (.raw t)) → (r.poseChanged = true ∧ r.anglesChanged = true → e = []) →
        (show Prog F (RC F) from (if (sync cfg r).poseChanged && (sync cfg r).anglesChanged then
          Prog.out (.raw (.error "Do not change pose and angles in one transaction!")) (.ret { sync cfg r with anglesChanged := false, poseChanged := false, state := .idle })
        else
          (getCurrentPose cfg).bind fun sp => (getCurrentLogicalAngles cfg).bind fun sa =>
            if anglesEqual sa (sync cfg r).targetAngles then
              .ret { sync cfg r with anglesChanged := false, poseChanged := false, startPose := sp, startAngles := sa, state := .idle }
            else match (sync cfg r).method with
              | .p2p => startMove cfg { sync cfg r with anglesChanged := false, poseChanged := false, startPose := sp, startAngles := sa, step := 0, total := 1, state := .startMove }
              | .linear => match linearSteps sp (sync cfg r).targetPose with
                | none => .fault .badConv
                | some n => startMove cfg { sync cfg r with anglesChanged := false, poseChanged := false, startPose := sp, startAngles := sa, step := 0, total := n, state := .startMove }
              | .circular => startMove cfg { sync cfg r with anglesChanged := false, poseChanged := false, startPose := sp, startAngles := sa, step := 0, state := .startMove })).wp
          (tmon E) Q (g ++ e) := by
      intro e he hb
      rw [hc.1, hc.2]
      split
      · rename_i hpa
        rw [Bool.and_eq_true] at hpa
        refine ⟨trivial, ?_⟩
        have := h _ _ (.both ht hpa.1 hpa.2)
        rw [hb hpa, List.append_nil]
        exact this
      · rename_i hpa
        rw [Bool.and_eq_true] at hpa
        rw [wp_bind]
        simp only [getCurrentPose, getCurrentLogicalAngles, bind_def, pure_def, wp_bind]
        refine readAngles_wp fun v hv => ?_
        simp only [wp]
        refine readAngles_wp fun u hu => ?_
        show Prog.wp _ (if _ then _ else _) _ _
        split
        · rename_i hq
          have := h _ _ (.same e v u ht hpa he hq)
          rw [← List.append_assoc, ← List.append_assoc] at this
          exact this
        · rename_i hq
          have hq : anglesEqual (cfg.p2l (curs u)) (sync cfg r).targetAngles = false := by simpa using hq
          split
          · rename_i hmm
            refine startMove_wp hE cfg _ fun tr r' hs => ?_
            have := h _ _ (.start e v u ht hpa he hq (.inl ⟨hm.symm.trans hmm, rfl⟩) hs)
            simpa only [List.append_assoc] using this
          · rename_i hmm
            split
            · trivial
            · rename_i n hl
              refine startMove_wp hE cfg _ fun tr r' hs => ?_
              have := h _ _ (.start e v u ht hpa he hq (.inr ⟨hm.symm.trans hmm, hl⟩) hs)
              simpa only [List.append_assoc] using this
          · rename_i hmm
            refine startMove_wp hE cfg _ fun tr r' hs => ?_
            cases hs with
            | p2p h1 => simp only [hmm] at h1; cases h1
            | unreachable _ _ h1 => simp only [hmm] at h1; cases h1
            | linear h1 => simp only [hmm] at h1; cases h1
            | singular h1 => simp only [hmm] at h1; cases h1
    simp only [bind_def, emit, Prog.bind, pure_def]
    split
    · rename_i hn
      have := key [.out (.raw (.error "nothing changed, still PREPARE MOVE"))] (by intro a ha; simp at ha; exact ⟨_, ha⟩) (by
        rintro ⟨h1, h2⟩; simp [h1, h2] at hn)
      exact ⟨trivial, this⟩
    · have := key [] (by intro a ha; cases ha) (fun _ => rfl)
      rw [List.append_nil] at this
      exact this

/-- everything a call of process() can do. -/
inductive Pro (cfg : RCfg F) (L U : Six F) (r : RC F) : List (Act F) → RC F → Prop
  | idle : r.state = .idle → Pro cfg L U r [] r
  | moving {tr r'} : r.state = .moving → Mov cfg L U r tr r' → Pro cfg L U r tr r'
  | prepare {tr r'} : r.state = .prepareMove → Prep cfg L U r tr r' → Pro cfg L U r tr r'
  | start {tr r'} : r.state = .startMove → Start cfg L U r tr r' → Pro cfg L U r tr r'

theorem process_exec {L U : Six F} {cfg : RCfg F} {r r' : RC F} {tr : List (Act F)} (h : Exec (process cfg r) tr (.ret r'))
    (hl : Limits L U tr) : Pro cfg L U r tr r' := by
  refine exec_of_wp (E := fun i s => s.minA = L i ∧ s.maxA = U i) (Q := fun tr r' => Pro cfg L U r tr r') h ?_ hl
  have hE : ∀ (i : Fin 6) (s : Servo F), (s.minA = L i ∧ s.maxA = U i) → s.minA = L i ∧ s.maxA = U i := fun _ _ h => h
  unfold process
  split
  · rename_i hs; exact .idle hs
  · rename_i hs; exact moving_wp hE cfg r fun tr r' h => .moving hs h
  · rename_i hs; exact prepare_wp hE cfg r fun tr r' h => .prepare hs h
  · rename_i hs; exact startMove_wp hE cfg r fun tr r' h => .start hs h

end RC
end Mrc
