import Verif.Proof.Pass
/- Invariants of the part of the firmware state an instruction works on (`Core`), lifted to whole histories. -/
set_option linter.unusedSectionVars false
namespace Mrc
open Mrc.Prog Mrc.Spec
variable {F : Type} [FloatOps F] {σ : Type}

/-- accesses of the dispatcher itself (not of the instructions, and not handing over an instruction). -/
def dispAct : Act F → Prop
  | .rx _ => True
  | .eeRead _ => True
  | .eeWrite _ _ => True
  | .out (.msg (.free _)) => True
  | .out (.raw (.error _)) => True
  | _ => False

/-- what has to be shown of a monitor `M`, an invariant `I` and what holds in addition between the completion check and the dispatcher (`J`). -/
structure CoreInv (cfg : Cfg F) (M : Mon F σ) (I J : σ → Core F → Prop) : Prop where
  flt : ∀ f, M.flt f
  weak : ∀ g c, J g c → I g c
  disp : ∀ g c a, I g c → dispAct a → M.ok g a ∧ I (M.upd g a) c
  dispJ : ∀ g c a, J g c → dispAct a → M.ok g a ∧ J (M.upd g a) c
  rc : ∀ g c, I g c → (RC.process cfg.toRCfg c.rc).wp M (fun g r => I g { c with rc := r }) g
  parse : ∀ g c m src, (if src = Src.immediate then I g c else J g c ∧ c.done = true) →
    M.ok g (.out (.ghost src m)) ∧ (Mril.parse cfg c m).wp M I (M.upd g (.out (.ghost src m)))
  check : ∀ g c, I g c → (Mril.process c).wp M J g

namespace CoreInv
variable {cfg : Cfg F} {M : Mon F σ} {I J : σ → Core F → Prop}

theorem eeWrites_wp (H : CoreInv cfg M I J) (ws : List (Nat × Byte)) {g : σ} {c : Core F} (h : I g c) :
    (eeWrites ws : Prog F Unit).wp M (fun g _ => I g c) g := by
  induction ws generalizing g with
  | nil => exact h
  | cons w ws ih => have := H.disp g c (.eeWrite w.1 w.2) h trivial; exact ⟨this.1, ih this.2⟩

theorem handOver_wp (H : CoreInv cfg M I J) (src : Src) (s : FW F) (m : List Byte) {g : σ}
    (h : if src = Src.immediate then I g s.core else J g s.core ∧ s.core.done = true) :
    (Mrcp.handOver cfg src s m).wp M (fun g s => I g s.core) g := by
  have := H.parse g s.core m src h
  refine ⟨this.1, ?_⟩
  rw [wp_bind]
  exact wp_mono (fun g c hc => hc) this.2

theorem parseCommand_wp (H : CoreInv cfg M I J) (s : FW F) (p : List Byte) {g : σ} (h : I g s.core) :
    (Mrcp.parseCommand cfg s p).wp M (fun g s => I g s.core) g := by
  cases p with
  | nil => exact h
  | cons c m =>
    simp only [Mrcp.parseCommand]
    split
    · exact H.disp g s.core _ h trivial
    · split
      · exact H.handOver_wp _ _ _ h
      · split
        · split <;> exact h
        · split
          · split
            · exact H.disp g s.core _ h trivial
            · intro mem _
              have h1 := (H.disp g s.core (.eeRead mem) h trivial).2
              have hgo : ∀ g, I g s.core → ((eeWrites (EE.appendWrites mem m) : Prog F Unit).bind fun _ => .ret { s with mode := .eeprom }).wp M
                  (fun g s => I g s.core) g := by
                intro g hg
                rw [wp_bind]
                exact wp_mono (fun g _ h => h) (H.eeWrites_wp _ hg)
              show Prog.wp M (if _ then _ else _) _ _
              split
              · have h2 := H.disp _ s.core (.out (.raw (.error "access out of EEProm max size"))) h1 trivial
                exact ⟨h2.1, hgo _ h2.2⟩
              · exact hgo _ h1
          · exact h

theorem events_wp (H : CoreInv cfg M I J) (es : List FEv) (s : FW F) {g : σ} (h : I g s.core) :
    (Mrcp.events cfg s es).wp M (fun g s => I g s.core) g := by
  induction es generalizing s g with
  | nil => exact h
  | cons e es ih =>
    cases e with
    | oob => exact H.flt _
    | cmd p =>
      simp only [Mrcp.events, wp_bind]
      exact wp_mono (fun g s h => ih s h) (H.parseCommand_wp s p h)

theorem serial_wp (H : CoreInv cfg M I J) (n : Nat) (s : FW F) {g : σ} (h : I g s.core) :
    (serialProcess cfg n s).wp M (fun g s => I g s.core) g := by
  induction n generalizing s g with
  | zero => exact h
  | succ n ih =>
    intro b _
    have h1 := (H.disp g s.core (.rx b) h trivial).2
    cases b with
    | none => exact h1
    | some c =>
      show Prog.wp M ((Mrcp.parseChar cfg s c).bind (serialProcess cfg n)) _ _
      rw [wp_bind]
      refine wp_mono (fun g s h => ih s h) ?_
      exact H.events_wp _ { s with framer := _ } h1

theorem rcProcess_wp (H : CoreInv cfg M I J) (s : FW F) {g : σ} (h : I g s.core) :
    (rcProcess cfg s).wp M (fun g s => I g s.core) g := by
  rw [rcProcess, wp_bind]
  exact wp_mono (fun g r h => h) (H.rc g s.core h)

theorem process_wp (H : CoreInv cfg M I J) (s : FW F) {g : σ} (h : J g s.core) :
    (Mrcp.process cfg s).wp M (fun g s => I g s.core) g := by
  have hI := H.weak g s.core h
  simp only [Mrcp.process]
  split
  · exact hI
  · split
    · rename_i hd
      split
      · split
        · have h1 := H.dispJ g s.core (.out (.msg (Mrcp.freeMsg s.rb))) h trivial
          refine ⟨h1.1, ?_⟩
          show Prog.wp M (if _ then _ else _) _ _
          split
          · exact H.flt _
          · exact H.handOver_wp _ { s with rb := _ } _ ⟨h1.2, hd⟩
        · exact hI
      · intro mem _
        have h1 := (H.dispJ g s.core (.eeRead mem) h trivial).2
        show Prog.wp M (if _ then _ else _) _ _
        split
        · exact H.flt _
        · split
          · exact H.handOver_wp _ { s with eePtr := _ } _ ⟨h1, hd⟩
          · exact H.weak _ _ h1
      · exact hI
    · exact hI

theorem loop_wp (H : CoreInv cfg M I J) (s : FW F) {g : σ} (h : I g s.core) : (loopBody cfg s).wp M (fun g s => I g s.core) g := by
  rw [loopBody_eq, firstPhases, wp_bind, wp_bind]
  refine wp_mono (fun g s h => ?_) (H.rcProcess_wp s h)
  rw [wp_bind]
  refine wp_mono (fun g s h => ?_) (H.rcProcess_wp s h)
  refine wp_mono (fun g s h => ?_) (H.serial_wp _ s h)
  rw [wp_bind]
  refine wp_mono (fun g c h => ?_) (H.check g s.core h)
  exact H.process_wp { s with core := c } h

/-- the core state setup builds from the servo readings `a` (for the pose) and `b` (for the angles). -/
def boot (cfg : Cfg F) (a b : Six F) : Core F :=
  { rc := { startAngles := fun _ => lit 0, targetAngles := cfg.p2l b, targetPose := cfg.fwd (cfg.p2l a), startPose := fun _ => lit 0
            anglesChanged := false, poseChanged := false, inTransaction := false, state := .idle
            maxVelocity := lit 10, method := .linear, step := 0, total := 0 }
    conds := [], waitUntil := 0, done := false, commandNumber := 0 }

/-- every history keeps the invariant and the obligations of the monitor; `g0` must be insensitive to the readings of setup. -/
theorem sound (H : CoreInv cfg M I J) (g0 : σ) (junk : Nat → Byte)
    (h0 : ∀ (v : Fin 6 → Servo F) (u : Fin 6 → Servo F) (m : EMem), (∀ i, M.env g0 (.servo (armServo i) (v i))) → (∀ i, M.env g0 (.servo (armServo i) (u i))) →
      I g0 (boot cfg (fun i => (v i).cur) (fun i => (u i).cur)))
    (hs : ∀ i v, M.upd g0 (.servo i v) = g0) (hm : ∀ m, M.upd g0 (.eeRead m) = g0)
    {tr : List (Act F)} {p : Prog F (FW F)} (h : Trace cfg junk tr p)
    (henv : ∀ pre a post, tr = pre ++ a :: post → a.isInput = true → M.env (pre.foldl M.upd g0) a) :
    (∀ pre a post, tr = pre ++ a :: post → a.isInput = false → M.ok (pre.foldl M.upd g0) a) ∧
    p.wp M (fun g s => I g s.core) (tr.foldl M.upd g0) := by
  refine Trace.sound M (fun g s => I g s.core) g0 ?_ (fun g s h => H.loop_wp s h) h henv
  simp only [setup, RC.new, RC.getCurrentPose, RC.getCurrentLogicalAngles, RC.readAngles, readServo, bind_def, pure_def, Prog.bind, wp]
  intro v0 e0; rw [hs] at *
  intro v1 e1; rw [hs] at *
  intro v2 e2; rw [hs] at *
  intro v3 e3; rw [hs] at *
  intro v4 e4; rw [hs] at *
  intro v5 e5; rw [hs] at *
  intro u0 f0; rw [hs] at *
  intro u1 f1; rw [hs] at *
  intro u2 f2; rw [hs] at *
  intro u3 f3; rw [hs] at *
  intro u4 f4; rw [hs] at *
  intro u5 f5; rw [hs] at *
  intro m _; rw [hm]
  have := h0 (fun i => match i with | 0 => v0 | 1 => v1 | 2 => v2 | 3 => v3 | 4 => v4 | 5 => v5)
    (fun i => match i with | 0 => u0 | 1 => u1 | 2 => u2 | 3 => u3 | 4 => u4 | 5 => u5) m ?_ ?_
  · have e1 : (fun i : Fin 6 => (match i with | 0 => v0 | 1 => v1 | 2 => v2 | 3 => v3 | 4 => v4 | 5 => v5 : Servo F).cur) =
        six v0.cur v1.cur v2.cur v3.cur v4.cur v5.cur := by
      funext i; match i with | 0 | 1 | 2 | 3 | 4 | 5 => rfl
    have e2 : (fun i : Fin 6 => (match i with | 0 => u0 | 1 => u1 | 2 => u2 | 3 => u3 | 4 => u4 | 5 => u5 : Servo F).cur) =
        six u0.cur u1.cur u2.cur u3.cur u4.cur u5.cur := by
      funext i; match i with | 0 | 1 | 2 | 3 | 4 | 5 => rfl
    rw [e1, e2] at this
    exact this
  · intro i; match i with | 0 => exact e0 | 1 => exact e1 | 2 => exact e2 | 3 => exact e3 | 4 => exact e4 | 5 => exact e5
  · intro i; match i with | 0 => exact f0 | 1 => exact f1 | 2 => exact f2 | 3 => exact f3 | 4 => exact f4 | 5 => exact f5

end CoreInv
end Mrc
