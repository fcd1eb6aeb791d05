import Verif.Spec.Legible
import Verif.Proof.Tokens
import Verif.Proof.Host
import Verif.Proof.Safe
import Verif.Proof.Notice
/- A host that sends legible texts only: the firmware never leaves its memory. -/
set_option linter.unusedSectionVars false
namespace Mrc.Tok
open Mrc Mrc.Prog Mrc.Spec
variable {F : Type} [FloatOps F]

/-- the only fault left. -/
def convOnly (f : Fault) : Prop := f = .badConv

theorem join {α : Type} {p : Prog F α} {E O : Act F → Prop} {B : Fault → Prop} {Q R : α → Prop} (hO : ∀ a, O a) (h : p.wp calm (fun _ a => Q a) ())
    (h' : p.wp any (fun _ a => R a) ()) : p.wp (lmon E O B) (fun _ a => Q a ∧ R a) () := by
  induction p with
  | ret a => exact ⟨h, h'⟩
  | fault f => exact h.elim
  | servo i k ih => exact fun v _ => ih v (h v trivial) (h' v trivial)
  | micro i m k ih => exact ⟨hO _, ih h.2 h'.2⟩
  | now k ih => exact fun v _ => ih v (h v trivial) (h' v trivial)
  | pin p k ih => exact fun v _ => ih v (h v trivial) (h' v trivial)
  | rx k ih => exact fun v _ => ih v (h v trivial) (h' v trivial)
  | eeRead k ih => exact fun v _ => ih v (h v trivial) (h' v trivial)
  | eeWrite a b k ih => exact ⟨hO _, ih h.2 h'.2⟩
  | out o k ih => exact ⟨hO _, ih h.2 h'.2⟩

theorem with_only {α : Type} {p : Prog F α} {M : Mon F Unit} {K : Act F → Prop} {Q R : α → Prop} (h : p.wp M (fun _ a => Q a) ())
    (h' : p.only K R) : p.wp M (fun _ a => Q a ∧ R a) () := by
  induction p with
  | ret a => exact ⟨h, h'⟩
  | fault f => exact h
  | servo i k ih => exact fun v hv => ih v (h v hv) (h' v).2
  | micro i m k ih => exact ⟨h.1, ih h.2 h'.2⟩
  | now k ih => exact fun v hv => ih v (h v hv) (h' v).2
  | pin p k ih => exact fun v hv => ih v (h v hv) (h' v).2
  | rx k ih => exact fun v hv => ih v (h v hv) (h' v).2
  | eeRead k ih => exact fun v hv => ih v (h v hv) (h' v).2
  | eeWrite a b k ih => exact ⟨h.1, ih h.2 h'.2⟩
  | out o k ih => exact ⟨h.1, ih h.2 h'.2⟩

theorem exec_method (cfg : Cfg F) (s : Core F) (l : Loc F) (tok : List Byte) (g : Unit) (hs : s.rc.method ≠ .circular) :
    (Mril.exec cfg s l tok).wp any (fun _ r => r.1.rc.method ≠ .circular) g := by
  exec_leaves
  all_goals simp [any, Prog.bind, wp, RC.setMovementMethod, RC.setMaxVelocity, RC.setTargetPoseAt, RC.setTargetLogicalAngle, hs]

theorem parse_method (cfg : Cfg F) (s : Core F) (m : List Byte) (h : s.rc.method ≠ .circular) :
    (Mril.parse cfg s m).wp any (fun _ c => c.rc.method ≠ .circular) () := by
  refine parse_wp any cfg (fun _ s _ => s.rc.method ≠ .circular) _ trivial ?_ ?_ m () s (fun _ => h) (fun _ => h) ?_
  · intro g s l tok hs
    exact exec_method cfg s l tok g hs
  · intro g s l hs; exact ⟨trivial, hs⟩
  · intro g s l hs
    simp only [Mril.finish]
    split <;> simpa [send, Prog.bind, wp, any, RC.endTransaction] using hs

/-- what is known of the readings: the limits of the arm servos. -/
def seen (L U : Six F) (a : Act F) : Prop := ∀ i s, a = .servo (armServo i) s → s.minA = L i ∧ s.maxA = U i

/-- the invariant. -/
def CoreOK (c : Core F) : Prop := c.conds.length ≤ 10 ∧ c.rc.method ≠ .circular

theorem safeText_mono {n k : Nat} {m : List Byte} (h : SafeText n m) (hk : k ≤ n) : SafeText k m :=
  ⟨h.each, h.rest, by have := h.room; omega⟩

theorem legible_tame (cfg : Cfg F) (hm : cfg.pinMap.length = 10) (L U : Six F) :
    Tame cfg (seen L U) (fun _ => True) CoreOK (SafeText 10) (SafeText 0) convOnly where
  rc c h := by
    have H : SafeMon cfg.toRCfg L U (fun _ _ => True) (lmon (seen L U) (fun _ => True) convOnly : Mon F Unit) :=
      ⟨fun i s hs => ⟨(hs i s rfl).1, (hs i s rfl).2, trivial⟩, fun _ _ => trivial, fun _ _ _ => trivial, fun _ => trivial, fun _ _ _ => trivial,
        fun _ => trivial⟩
    refine wp_mono (fun _ r hr => ?_) (with_only (RC.process_safe H c.rc ⟨fun e => absurd e h.2, fun _ _ _ _ _ => rfl⟩) (RC.process_only cfg.toRCfg c.rc))
    refine ⟨h.1, ?_⟩
    show r.method ≠ _
    rw [hr.2.2.1]; exact h.2
  now c m hs h := by
    have hs' : SafeText c.conds.length m := safeText_mono hs h.1
    refine wp_mono (fun _ c' hc => ?_) (join (fun _ => trivial) (parse_good cfg hm c m hs') (parse_method cfg c m h.2))
    refine ⟨?_, hc.2⟩
    rw [hc.1]
    have := hs'.room
    have := h.1
    omega
  instr c m hs h hc := by
    have hs' : SafeText c.conds.length m := by rw [hc]; exact hs
    refine wp_mono (fun _ c' hc' => ?_) (join (fun _ => trivial) (parse_good cfg hm c m hs') (parse_method cfg c m h.2))
    refine ⟨?_, hc'.2⟩
    rw [hc'.1]
    have := hs'.room
    have := h.1
    omega
  check c h := by
    unfold Mril.process IOL.isDone
    rw [wp_bind, wp_bind]
    refine ioCheck_wp (M := lmon _ _ _) _ _ (fun _ _ => rfl) fun b => ?_
    cases b with
    | false => exact ⟨h, fun hh => by simp at hh⟩
    | true =>
      have hc : ([] : Conds).length ≤ 10 ∧ c.rc.method ≠ .circular := ⟨by simp, h.2⟩
      show Prog.wp _ (if (true && !c.rc.isMoving) = true then _ else _) _ _
      split
      · intro t _
        show Prog.wp _ (if Wait.isDone t c.waitUntil = true then _ else _) _ _
        split
        · show Prog.wp _ (if 0 < c.commandNumber then _ else _) _ _
          split
          · exact ⟨trivial, hc, fun _ => rfl⟩
          · exact ⟨hc, fun _ => rfl⟩
        · exact ⟨hc, fun _ => rfl⟩
      · exact ⟨hc, fun _ => rfl⟩
  disp a h := trivial
  boot v u hv hu := ⟨by simp [CoreInv.boot], by simp [CoreInv.boot]⟩

/-- the limits of the servos never change. -/
theorem tame_limits {cfg : Cfg F} {I : Core F → Prop} {Now Instr : List Byte → Prop} {B : Fault → Prop} {w0 : World F}
    (ht : Tame cfg (seen (fun i => (w0.servos (armServo i)).minA) (fun i => (w0.servos (armServo i)).maxA)) (fun _ => True) I Now Instr B)
    {junk : Nat → Byte} (hp : Program Instr w0.ee) {evs : List (Ev F)} {s : Sys F} (h : Sys.Run cfg w0 junk evs s)
    (hc : Clean (FrameOK Now Instr) (w0.rxq ++ arrivals evs)) {f : Fault} (e : s.p = .fault f) : B f := by
  let L : Six F := fun i => (w0.servos (armServo i)).minA
  let U : Six F := fun i => (w0.servos (armServo i)).maxA
  have lim : ∀ (s : Servo F) (m : Servo.Micro F), (s.micro m).minA = s.minA ∧ (s.micro m).maxA = s.maxA := by
    intro s m; cases m <;> exact ⟨rfl, rfl⟩
  have limT : ∀ (s : Servo F) (d : Nat), (s.tick d).minA = s.minA ∧ (s.tick d).maxA = s.maxA := by
    intro s d
    simp only [Servo.tick]
    repeat' split
    all_goals exact ⟨rfl, rfl⟩
  have h2 := (ht.run
    (W := fun w => ∀ i, (w.servos (armServo i)).minA = L i ∧ (w.servos (armServo i)).maxA = U i) (fun i => ⟨rfl, rfl⟩)
    (fun w i hw j s e => by
      injection e with e1 e2
      rw [← e2, e1]; exact hw j)
    (fun a ha i s e => absurd e (ha _ _))
    (fun w i m hw _ j => by
      simp only [World.setServo]
      split
      · rename_i e
        rw [← e, (lim _ _).1, (lim _ _).2]; exact hw j
      · exact hw j)
    (fun w hw i => by
      simp only [World.isr]
      rw [(limT _ _).1, (limT _ _).2]; exact hw i)
    (fun w w' e hw i => by rw [← e]; exact hw i) hp h hc).2.1
  rw [e] at h2
  exact h2

theorem clean_of_legible {r : List Byte} (h : LegiblySent r) : Clean (FrameOK (SafeText 10) (SafeText 0)) r := by
  constructor
  · intro ho
    rcases (nrun_oob r.length r (Nat.le_refl _)).1 ho with ⟨l, hl, h1⟩ | ⟨l, hl, p, hp, h1⟩
    · have := h.frames l hl; omega
    · have := h.pieces l hl p hp; omega
  · intro p hp
    have hd : p ∈ decode r := by
      rw [← nrun_decode r.length r (Nat.le_refl _)]
      exact List.mem_filterMap.2 ⟨_, hp, rfl⟩
    have hc := h.legible p hd
    obtain ⟨l, hl, rfl⟩ := List.mem_map.1 hd
    refine ⟨h.frames l (List.mem_filter.1 hl).1, payload_noEnd l, ?_⟩
    cases hf : frame (payload l) with
    | now m => rw [hf] at hc; exact hc
    | put m => rw [hf] at hc; exact hc
    | store m => rw [hf] at hc; exact hc
    | _ => trivial

/-! ### illegible texts -/

/-- watches for the start of an illegible instruction. -/
def doom : Mon F Prop where
  upd g a := g ∨ ∃ src m, a = .out (.ghost src m) ∧ ¬ SafeText 0 m
  ok g a := ∀ src m, a = .out (.ghost src m) → ¬ g

theorem doom_plain {α : Type} {p : Prog F α} {R : α → Prop} (h : p.only (fun a => ∀ src m, a ≠ .out (.ghost src m)) R) :
    p.wp doom (fun g a => ¬ g ∧ R a) False := by
  have key : ∀ a : Act F, (∀ src m, a ≠ .out (.ghost src m)) → doom.upd False a = False := by
    intro a ha
    simp only [doom, false_or, eq_iff_iff, iff_false]
    rintro ⟨src, m, e, _⟩
    exact ha src m e
  induction p with
  | ret a => exact ⟨fun h => h, h⟩
  | fault f => trivial
  | servo i k ih => intro v _; rw [key _ (h v).1]; exact ih v (h v).2
  | micro i m k ih => refine ⟨fun _ _ _ h => h, ?_⟩; rw [key _ h.1]; exact ih h.2
  | now k ih => intro v _; rw [key _ (h v).1]; exact ih v (h v).2
  | pin p k ih => intro v _; rw [key _ (h v).1]; exact ih v (h v).2
  | rx k ih => intro v _; rw [key _ (h v).1]; exact ih v (h v).2
  | eeRead k ih => intro v _; rw [key _ (h v).1]; exact ih v (h v).2
  | eeWrite a b k ih => refine ⟨fun _ _ _ h => h, ?_⟩; rw [key _ h.1]; exact ih h.2
  | out o k ih => refine ⟨fun _ _ _ h => h, ?_⟩; rw [key _ h.1]; exact ih h.2

/-- a program without starts that never ends. -/
theorem doom_never {α : Type} {p : Prog F α} {R : α → Prop} {Q : Prop → α → Prop} (h : p.only (fun a => ∀ src m, a ≠ .out (.ghost src m)) R)
    (h' : p.wp any (fun _ _ => False) ()) (g : Prop) : p.wp doom Q g := by
  induction p generalizing g with
  | ret a => exact h'.elim
  | fault f => trivial
  | servo i k ih => exact fun v _ => ih v (h v).2 (h' v trivial) _
  | micro i m k ih => exact ⟨fun _ _ e => absurd e (h.1 _ _), ih h.2 h'.2 _⟩
  | now k ih => exact fun v _ => ih v (h v).2 (h' v trivial) _
  | pin p k ih => exact fun v _ => ih v (h v).2 (h' v trivial) _
  | rx k ih => exact fun v _ => ih v (h v).2 (h' v trivial) _
  | eeRead k ih => exact fun v _ => ih v (h v).2 (h' v trivial) _
  | eeWrite a b k ih => exact ⟨fun _ _ e => absurd e (h.1 _ _), ih h.2 h'.2 _⟩
  | out o k ih => exact ⟨fun _ _ e => absurd e (h.1 _ _), ih h.2 h'.2 _⟩

theorem doom_inv (cfg : Cfg F) (hm : cfg.pinMap.length = 10) : CoreInv cfg doom (fun g (_ : Core F) => ¬ g) (fun g _ => ¬ g) where
  flt _ := trivial
  weak _ _ h := h
  disp g c a h ha := by
    refine ⟨fun src m e => h, ?_⟩
    rintro (hg | ⟨src, m, rfl, _⟩)
    · exact h hg
    · exact ha
  dispJ g c a h ha := by
    refine ⟨fun src m e => h, ?_⟩
    rintro (hg | ⟨src, m, rfl, _⟩)
    · exact h hg
    · exact ha
  rc g c h := by
    have : g = False := eq_false h
    subst this
    refine wp_mono (fun _ _ h => h.1) (doom_plain (only_mono (fun a ha => ?_) (fun _ h => h) (RC.process_only cfg.toRCfg c.rc)))
    rintro src m rfl; exact ha
  parse g c m src h := by
    have hg : ¬ g := by
      split at h
      · exact h
      · exact h.1
    have hgf : g = False := eq_false hg
    subst hgf
    refine ⟨fun _ _ _ => hg, ?_⟩
    have hpl : (Mril.parse cfg c m).only (fun a => ∀ src m, a ≠ .out (.ghost src m)) (fun _ => True) := by
      refine only_mono (fun a ha => ?_) (fun _ _ => trivial) (parse_only cfg c m)
      rintro src m rfl; exact ha
    by_cases hs : SafeText c.conds.length m
    · have : doom.upd False (.out (.ghost src m) : Act F) = False := by
        simp only [doom, false_or, eq_iff_iff, iff_false]
        rintro ⟨src', m', e, h'⟩
        injection e with e; injection e with e1 e2
        subst e2
        exact h' (safeText_mono hs (Nat.zero_le _))
      rw [this]
      exact wp_mono (fun _ _ h => h.1) (doom_plain hpl)
    · exact doom_never hpl (parse_bad cfg hm c m hs) _
  check g c h := by
    have : g = False := eq_false h
    subst this
    refine wp_mono (fun _ _ h => h.1) (doom_plain (only_mono (fun a ha => ?_) (fun _ h => h) (mrilProcess_only c)))
    rintro src m rfl; exact ha

end Mrc.Tok
