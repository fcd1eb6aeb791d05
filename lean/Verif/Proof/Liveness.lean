import Verif.Spec.Liveness
import Verif.Proof.CoreWp
import Verif.Proof.ControllerSeg
import Verif.Proof.Run
/- Endless histories: passes, the progress measure of the motion controller. -/
set_option linter.unusedSectionVars false
namespace Mrc
open Mrc.Prog Mrc.Spec
variable {F : Type} [FloatOps F] {α : Type}

/-! ### programs: results of all executions -/

/-- the monitor that only restricts the servo records read. -/
def eMon (E : Fin 6 → Servo F → Prop) : Mon F Unit where
  upd g _ := g
  env _ a := ∀ i s, a = .servo (armServo i) s → E i s

theorem wp_of_exec {E : Fin 6 → Servo F → Prop} {p : Prog F α} {R : α → Prop}
    (h : ∀ tr a, Exec p tr (.ret a) → (∀ i s, .servo (armServo i) s ∈ tr → E i s) → R a) : p.wp (eMon E) (fun _ a => R a) () := by
  induction p with
  | ret a => exact h [] a (.nil _) (by simp)
  | fault f => trivial
  | servo i k ih =>
    intro v hv
    refine ih v fun tr a he hE => h (.servo i v :: tr) a (.cons (.servo _ _ _) he) fun j s hs => ?_
    rcases List.mem_cons.1 hs with hs | hs
    · exact hv j s hs.symm
    · exact hE j s hs
  | micro i m k ih => exact ⟨trivial, ih fun tr a he hE => h (_ :: tr) a (.cons (.micro _ _ _) he) fun j s hs => hE j s (by simpa using hs)⟩
  | now k ih => exact fun v _ => ih v fun tr a he hE => h (_ :: tr) a (.cons (.now _ _) he) fun j s hs => hE j s (by simpa using hs)
  | pin p k ih => exact fun v _ => ih v fun tr a he hE => h (_ :: tr) a (.cons (.pin _ _ _) he) fun j s hs => hE j s (by simpa using hs)
  | rx k ih => exact fun v _ => ih v fun tr a he hE => h (_ :: tr) a (.cons (.rx _ _) he) fun j s hs => hE j s (by simpa using hs)
  | eeRead k ih => exact fun v _ => ih v fun tr a he hE => h (_ :: tr) a (.cons (.eeRead _ _) he) fun j s hs => hE j s (by simpa using hs)
  | eeWrite x b k ih => exact ⟨trivial, ih fun tr a he hE => h (_ :: tr) a (.cons (.eeWrite _ _ _) he) fun j s hs => hE j s (by simpa using hs)⟩
  | out o k ih => exact ⟨trivial, ih fun tr a he hE => h (_ :: tr) a (.cons (.out _ _) he) fun j s hs => hE j s (by simpa using hs)⟩

/-! ### the controller between passes -/

/-- between two passes: no transaction is open; a move in progress has parts left or is at its last part. -/
structure RC.Sane (r : RC F) : Prop where
  closed : r.inTransaction = false
  notStart : r.state ≠ .startMove
  parts : r.state = .moving → r.step ≤ r.total

/-- every linear move has at least one part. -/
def Parts (F : Type) [FloatOps F] : Prop := ∀ (p q : Six F) (n : ℕ), RC.linearSteps p q = some n → 1 ≤ n

namespace RC
variable {cfg : RCfg F} {L U : Six F}

theorem cmd_next {r r' : RC F} {t : Six F} {mt : F} {tr : List (Act F)} (h : Cmd cfg L U r t mt tr r') :
    (r'.state = .idle ∧ r'.inTransaction = r.inTransaction) ∨ r' = { r with state := .moving } := by
  cases h with
  | refused => exact .inl ⟨rfl, rfl⟩
  | zero => exact .inr rfl
  | moved => exact .inr rfl

theorem start_next {r r' : RC F} {tr : List (Act F)} (h : Start cfg L U r tr r') :
    (r'.state = .idle ∧ r'.inTransaction = r.inTransaction) ∨ r' = { r with state := .moving, step := r.step + 1 } := by
  cases h with
  | p2p _ hc => exact cmd_next hc
  | unreachable => exact .inl ⟨rfl, rfl⟩
  | linear _ _ _ hc => exact cmd_next hc
  | singular _ _ _ hc => exact cmd_next hc

/-- what one call of the controller can achieve: nothing to do; waiting for the servos; progress. -/
inductive Prog1 (r : RC F) (tr : List (Act F)) (r' : RC F) : Prop
  | idle : r.state = .idle → r' = r → tr = [] → Prog1 r tr r'
  | wait : r.state = .moving → r' = r → Still tr → (∃ i s, .servo (armServo i) s ∈ tr ∧ s.atTarget = false) → Prog1 r tr r'
  | done : r.state ≠ .idle → r'.state = .idle → Prog1 r tr r'
  | on : r.state = .moving → r'.state = .moving → r'.total = r.total → r'.step = r.step + 1 → r'.step ≤ r'.total → Prog1 r tr r'
  | first : r.state = .prepareMove → r'.state = .moving → Prog1 r tr r'

theorem process_next (hP : Parts F) {r r' : RC F} {tr : List (Act F)} (h : Exec (process cfg r) tr (.ret r')) (hl : Limits L U tr) (hr : r.Sane) :
    r'.Sane ∧ Prog1 r tr r' := by
  cases process_exec h hl with
  | idle hs => exact ⟨hr, .idle hs rfl rfl⟩
  | start hs => exact absurd hs hr.notStart
  | moving hs hm =>
    cases hm with
    | wait v hv =>
      obtain ⟨i, hi⟩ := hv
      exact ⟨hr, .wait hs rfl (still_readAll v) ⟨i, v i, List.mem_map.2 ⟨i, List.mem_finRange i, rfl⟩, hi⟩⟩
    | finish v _ _ => exact ⟨⟨hr.closed, by simp, by simp⟩, .done (by simp [hs]) rfl⟩
    | next v hv hne hst =>
      have hle := hr.parts hs
      rcases start_next hst with ⟨h1, h2⟩ | h1
      · exact ⟨⟨h2.trans hr.closed, by simp [h1], by simp [h1]⟩, .done (by simp [hs]) h1⟩
      · subst h1
        have : r.step + 1 ≤ r.total := by omega
        exact ⟨⟨hr.closed, by simp, fun _ => this⟩, .on hs rfl rfl rfl this⟩
  | prepare hs hp =>
    have hsync : ∀ r : RC F, (sync cfg r).inTransaction = r.inTransaction := fun r => (sync_same cfg r).1
    cases hp with
    | transaction ht => rw [hr.closed] at ht; cases ht
    | both _ _ _ => exact ⟨⟨(hsync r).trans hr.closed, by simp, by simp⟩, .done (by simp [hs]) rfl⟩
    | same _ _ _ _ _ _ _ => exact ⟨⟨(hsync r).trans hr.closed, by simp, by simp⟩, .done (by simp [hs]) rfl⟩
    | @start e v u n tr2 _ _ _ _ _ hn hst =>
      have hn1 : 1 ≤ n := by
        rcases hn with ⟨_, rfl⟩ | ⟨_, hn⟩
        · exact Nat.le_refl _
        · exact hP _ _ _ hn
      rcases start_next hst with ⟨h1, h2⟩ | h1
      · exact ⟨⟨h2.trans ((hsync r).trans hr.closed), by simp [h1], by simp [h1]⟩, .done (by simp [hs]) h1⟩
      · subst h1
        exact ⟨⟨(hsync r).trans hr.closed, by simp, fun _ => by simpa using hn1⟩, .first hs rfl⟩

end RC

theorem exec_sane (cfg : Cfg F) (c : Core F) (l : Loc F) (tok : List Byte) (hI : c.rc.state ≠ .startMove ∧ (c.rc.state = .moving → c.rc.step ≤ c.rc.total)) :
    (Mril.exec cfg c l tok).only (fun _ => True) (fun r => r.1.rc.state ≠ .startMove ∧ (r.1.rc.state = .moving → r.1.rc.step ≤ r.1.rc.total)) := by
  have h1 : ∀ (i : Fin 6) (v : F), (c.rc.setTargetPoseAt i v).state = .prepareMove := fun _ _ => rfl
  have h2 : ∀ (i : Fin 6) (v : F), (c.rc.setTargetLogicalAngle i v).state = .prepareMove := fun _ _ => rfl
  exec_leaves
  all_goals simp only [Prog.bind, only, true_and, forall_const]
  all_goals first
    | exact hI
    | exact fun _ => hI
    | exact fun _ _ _ _ _ _ => hI
    | (simp only [h1, h2]; exact ⟨by decide, fun h => by cases h⟩)

theorem parse_sane (E : Fin 6 → Servo F → Prop) (cfg : Cfg F) (c : Core F) (m : List Byte) (h : c.rc.Sane) :
    (Mril.parse cfg c m).wp (eMon E) (fun _ c => c.rc.Sane) () := by
  refine parse_wp (eMon E) cfg (fun _ c _ => c.rc.state ≠ .startMove ∧ (c.rc.state = .moving → c.rc.step ≤ c.rc.total)) (fun _ c => c.rc.Sane) trivial
    ?_ (fun _ _ _ h => ⟨trivial, h⟩) m () c (fun _ => h) (fun _ => ⟨h.notStart, h.parts⟩) ?_
  · intro g s l tok hI
    exact wp_mono (fun _ _ h => h.2) (wp_of_only (exec_sane cfg s l tok hI) () (fun _ _ => ⟨rfl, trivial⟩) (fun _ => trivial))
  · intro g s l hI
    unfold Mril.finish
    simp only [send, bind_def, Prog.bind]
    split
    · exact ⟨trivial, rfl, hI.1, hI.2⟩
    · exact ⟨rfl, hI.1, hI.2⟩
    · exact ⟨rfl, hI.1, hI.2⟩

theorem sane_core (hP : Parts F) (cfg : Cfg F) (L U : Six F) :
    CoreInv cfg (eMon fun i s => s.minA = L i ∧ s.maxA = U i) (fun _ c => c.rc.Sane) (fun _ c => c.rc.Sane) where
  flt _ := trivial
  weak _ _ h := h
  disp _ _ _ h _ := ⟨trivial, h⟩
  dispJ _ _ _ h _ := ⟨trivial, h⟩
  rc g c h := wp_of_exec (p := RC.process cfg.toRCfg c.rc) (R := fun r => r.Sane) fun tr r he hl => (RC.process_next hP he hl h).1
  parse g c m src h := by
    refine ⟨trivial, parse_sane _ cfg c m ?_⟩
    split at h
    · exact h
    · exact h.1
  check g c h := by
    refine wp_mono ?_ (wp_of_only (mrilProcess_only c) () (fun _ _ => ⟨rfl, trivial⟩) (fun _ => trivial))
    rintro _ c' ⟨_, e, _⟩
    rw [e]; exact h

end Mrc
