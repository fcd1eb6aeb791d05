import Verif.Spec.Gripper
import Verif.Proof.Does
import Verif.Props.Axes
import Mathlib.Tactic.Linarith
/-
C129: an additional axis goes where it is told, and stays there.
-/
set_option linter.unusedSectionVars false
set_option linter.unusedSimpArgs false
namespace Mrc.Props
open Mrc Mrc.Prog Mrc.Spec Mrc.Rest XR
open scoped Mrc.Num

/-- what is done to an additional axis. -/
inductive GripOp where
  | start (j : Fin 2)
  | zero (j : Fin 2)
  | to (j : Fin 2) (x : XR)
  | speed (j : Fin 2) (v : XR)

def gripKind (j : Fin 2) : Servo.Micro XR → GripOp
  | .setStart _ => .start j
  | .zeroElapsed => .zero j
  | .setTarget x => .to j x
  | .setVel v => .speed j v

def gripOp : Act XR → Option GripOp
  | .micro i m => if i = 6 then some (gripKind 0 m) else if i = 7 then some (gripKind 1 m) else none
  | _ => none

/-- the angle of a text. -/
noncomputable def gripAngle (t : List Byte) : XR := atof t / lit 180 * FloatOps.pi

/-- what is done for a command. -/
noncomputable def gripOf (c : Cmd) : List GripOp :=
  if c.letter = 86 then if c.arg = [] then [] else [.speed 0 (atof c.arg), .speed 1 (atof c.arg)]
  else if c.letter = 82 then
    match optionAt c.text 1 with
    | none => []
    | some o =>
      if c.text.length ≤ 2 then []
      else if o = 6 then [.start 0, .zero 0, .to 0 (gripAngle (c.arg.drop 1))]
      else if o = 7 then [.start 1, .zero 1, .to 1 (gripAngle (c.arg.drop 1))]
      else []
  else []

theorem gripOp_axis (j : Fin 2) (m : Servo.Micro XR) : gripOp (.micro (axisNo j) m) = some (gripKind j m) := by
  match j with
  | 0 => rfl
  | 1 => rfl

set_option maxHeartbeats 1000000 in
theorem exec_gripless (cfg : Cfg XR) (s : Core XR) (l : Loc XR) (tok : List Byte) (h1 : tok.headD 0 = 82 → tok.length ≤ 2) (h2 : tok.headD 0 ≠ 86) : (Mril.exec cfg s l tok).only (fun a => ¬ BeginsI a ∧ gripOp a = none) (fun _ => True) := by
  exec_leaves
  all_goals first
    | exact absurd ‹_› h2
    | (simp [Prog.bind, Prog.only, BeginsI, gripOp]; done)
    | (exfalso; have hl := h1 (by assumption); rcases tok with _ | ⟨x, _ | ⟨y, _ | ⟨z, t⟩⟩⟩ <;> simp_all; done)

theorem setAxis_grip {j : Fin 2} {x : XR} {todo : List GripOp} {g : Does.St GripOp} {α : Type} (k : Unit → Prog XR α) (Q : Does.St GripOp → α → Prop)
    (h : Does.Left gripOf (.start j :: .zero j :: .to j x :: todo) g) (hk : ∀ g', Does.Left gripOf todo g' → (k ()).wp (Does.mon gripOp gripOf) Q g') :
    ((Mril.setAxis (axisNo j) x).bind k).wp (Does.mon gripOp gripOf) Q g := by
  simp only [Mril.setAxis, readServo, doMicro, bind_def, Prog.bind]
  intro s _
  have hu : Does.upd gripOp g (.servo (axisNo j) s : Act XR) = g := Does.upd_other (by rintro ⟨_, _, e⟩; cases e) rfl
  show Prog.wp _ _ _ (Does.upd gripOp g (.servo (axisNo j) s : Act XR))
  rw [hu]
  have nb : ∀ m, ¬ BeginsI (.micro (axisNo j) m : Act XR) := by rintro m ⟨_, _, e⟩; cases e
  have h1 := h.does (nb (.setStart s.cur)) (gripOp_axis j _)
  refine ⟨h1.1, ?_⟩
  have h2 := h1.2.does (nb .zeroElapsed) (gripOp_axis j _)
  refine ⟨h2.1, ?_⟩
  have h3 := h2.2.does (nb (.setTarget x)) (gripOp_axis j _)
  exact ⟨h3.1, hk _ h3.2⟩

theorem exec_grip (cfg : Cfg XR) (s : Core XR) (l : Loc XR) (c : Cmd) (todo : List GripOp) (g : Does.St GripOp) (h : Does.Left gripOf (gripOf c ++ todo) g) :
    (Mril.exec cfg s l c.text).wp (Does.mon gripOp gripOf) (fun g' _ => Does.Left gripOf todo g') g := by
  obtain ⟨letter, arg⟩ := c
  by_cases h8 : letter = 86
  · subst h8
    simp only [gripOf, if_true] at h
    simp only [Mril.exec, Cmd.text, List.headD_cons]
    cases arg with
    | nil => simpa [poseIdx, wp] using h
    | cons b arg =>
      simp only [List.cons_ne_nil, if_false, List.cons_append, List.nil_append] at h
      have nb : ∀ i m, ¬ BeginsI (.micro i m : Act XR) := by rintro i m ⟨_, _, e⟩; cases e
      have h1 := h.does (nb 6 (.setVel (atof (b :: arg)))) (gripOp_axis 0 _)
      have h2 := h1.2.does (nb 7 (.setVel (atof (b :: arg)))) (gripOp_axis 1 _)
      simp [doMicro, bind_def, Prog.bind]
      exact ⟨h1.1, h2.1, h2.2⟩
  · by_cases h2 : letter = 82
    · subst h2
      by_cases hlen : arg.length ≤ 1
      · refine wp_mono ?_ (Does.keep (exec_gripless cfg s l (Cmd.text ⟨82, arg⟩) (fun _ => by simpa [Cmd.text] using hlen) (by simp [Cmd.text])) g)
        rintro g' _ rfl
        have : gripOf ⟨82, arg⟩ = [] := by
          simp only [gripOf, Cmd.text]
          rw [if_neg (by decide), if_pos trivial]
          split
          · rfl
          · rw [if_pos (by simpa using hlen)]
        simpa [this] using h
      · simp only [gripOf, if_true] at h
        simp only [Mril.exec, Cmd.text, List.headD_cons] at h ⊢
        simp [poseIdx] at h ⊢
        cases ho : optionAt (82 :: arg) 1 with
        | none => simp [wp, Does.mon]
        | some o =>
          rw [ho] at h
          dsimp only at h ⊢
          rw [if_neg hlen] at h
          rw [if_neg (by rintro (rfl | e); · simp at hlen
                         · omega)]
          by_cases h6 : o = 6
          · subst h6
            exact setAxis_grip (j := 0) _ _ h fun g' hg => hg
          · by_cases h7 : o = 7
            · subst h7
              exact setAxis_grip (j := 1) _ _ h fun g' hg => hg
            · rw [if_neg h6, if_neg h7] at h
              by_cases hge : 6 ≤ o
              · simp [hge, axisServo, h6, h7, wp, Does.mon]
              · simp only [hge, if_false, armAxis]
                rw [dif_pos (by omega)]
                exact h
    · refine wp_mono ?_ (Does.keep (exec_gripless cfg s l (Cmd.text ⟨letter, arg⟩) (fun e => absurd e h2) h8) g)
      rintro g' _ rfl
      simpa [gripOf, h2, h8] using h


theorem grip_kind (cfg : Cfg XR) : Does.Kind gripOp gripOf cfg where
  begins _ _ := rfl
  msg _ := rfl
  input a o h := by
    cases a with
    | micro i m => rfl
    | _ => exact absurd h (by simp [gripOp])
  disp a ha := by
    cases a with
    | micro i m => exact ha.elim
    | _ => rfl
  rc a ha := by
    cases a with
    | micro i m =>
      have : i.val < 6 := ha
      have e6 : i ≠ 6 := by rintro rfl; simp at this
      have e7 : i ≠ 7 := by rintro rfl; simp at this
      simp [gripOp, e6, e7]
    | _ => rfl
  check a ha := by
    cases a with
    | micro i m => exact ha.elim
    | _ => rfl
  exec s l c todo g _ h := exec_grip cfg s l c todo g h


/-! ### the servo -/

/-- positions of at most 7 radians, speed of at least a thousandth. -/
def GripOk (s : Servo XR) : Prop := ∃ a c t v m : ℝ, s.start = fin a ∧ s.cur = fin c ∧ s.target = fin t ∧ s.vel = fin v ∧ s.maxVel = fin m ∧ |a| ≤ 7 ∧ |c| ≤ 7 ∧ |t| ≤ 7 ∧ 1/1000 ≤ v ∧ 1/1000 ≤ m

theorem GripOk.tick {s : Servo XR} (h : GripOk s) : GripOk (s.tick 20) := by
  obtain ⟨a, c, t, v, m, h1, h2, h3, h4, h5, ha, hc, ht, hv, hm⟩ := h
  rw [tick_fin s a t v 20 h1 h3 h4]
  have hv0 : 0 ≤ v * (u32 (s.elapsed + 20) : ℕ) / 1000 := by positivity
  generalize v * (u32 (s.elapsed + 20) : ℕ) / 1000 = δ at hv0
  refine ⟨_, _, t, v, m, rfl, rfl, h3, h4, h5, ?_, ?_, ht, hv, hm⟩
  · split
    · exact ht
    · exact ha
  · rw [abs_of_nonneg hv0]
    split
    · exact ht
    · rename_i hd
      rw [not_lt] at hd
      rw [abs_le] at ha ht ⊢
      split
      · rename_i hl
        rw [abs_of_pos (by linarith)] at hd
        constructor <;> linarith
      · rename_i hl
        rw [not_lt] at hl
        rw [abs_of_nonpos (by linarith)] at hd
        constructor <;> linarith

/-- stores that keep it so. -/
def gripGood : Servo.Micro XR → Prop
  | .setStart x => ∃ a : ℝ, x = fin a ∧ |a| ≤ 7
  | .zeroElapsed => True
  | .setTarget x => ∃ a : ℝ, x = fin a ∧ |a| ≤ 7
  | .setVel x => ∃ v : ℝ, x = fin v ∧ (v ≤ 0 ∨ 1/1000 ≤ v)

theorem GripOk.micro {s : Servo XR} (h : GripOk s) {m : Servo.Micro XR} (hm : gripGood m) : GripOk (s.micro m) := by
  obtain ⟨a, c, t, v, w, h1, h2, h3, h4, h5, ha, hc, ht, hv, hw⟩ := h
  cases m with
  | setStart x => obtain ⟨y, rfl, hy⟩ := hm; exact ⟨y, c, t, v, w, rfl, h2, h3, h4, h5, hy, hc, ht, hv, hw⟩
  | zeroElapsed => exact ⟨a, c, t, v, w, h1, h2, h3, h4, h5, ha, hc, ht, hv, hw⟩
  | setTarget x => obtain ⟨y, rfl, hy⟩ := hm; exact ⟨a, c, y, v, w, h1, h2, rfl, h4, h5, ha, hc, hy, hv, hw⟩
  | setVel x =>
    obtain ⟨y, rfl, hy⟩ := hm
    refine ⟨a, c, t, if w < y then w else if y ≤ 0 then 1 / 10 else y, w, h1, h2, h3, ?_, h5, ha, hc, ht, ?_, hw⟩
    · show Servo.clampVel s.maxVel _ = _
      rw [h5]; exact clampVel_fin w y
    · split
      · exact hw
      · split
        · norm_num
        · rcases hy with hy | hy
          · contradiction
          · exact hy

theorem gripAngle_dec {d : Dec} (hd : d.Ok) : gripAngle d.text = fin ((d.val : ℝ) / 180 * Real.pi) := by
  have e180 : ((180 : Rat) : ℝ) ≠ 0 := by norm_num
  unfold gripAngle
  rw [C27_decimal d hd]
  simp only [lit, ops_lit, ops_div, fin_div _ _ e180, ops_pi, ops_mul, fin_mul]
  norm_num

theorem turn_bound {v : ℚ} (h1 : -360 ≤ v) (h2 : v ≤ 360) : |(v : ℝ) / 180 * Real.pi| ≤ 7 := by
  have h1' : (-360 : ℝ) ≤ v := by exact_mod_cast h1
  have h2' : (v : ℝ) ≤ 360 := by exact_mod_cast h2
  have p1 := Real.pi_pos
  have p2 := Real.pi_lt_d2
  rw [abs_le]
  constructor <;> nlinarith

theorem option_axis {b : Byte} {arg : List Byte} {j : Fin 2} (h : optionAt (82 :: b :: arg) 1 = some (6 + j.val)) : b = axisDigit j := by
  have e : optionAt (82 :: b :: arg) 1 = some (u32OfInt ((b.toNat : Int) - 48)) := by simp [optionAt]
  rw [e] at h
  have h' := Option.some.inj h
  have hb : b.toNat < 256 := b.toNat_lt
  unfold u32OfInt at h'
  have hj : (axisDigit j).toNat = 54 + j.val := by
    have : ∀ j : Fin 2, (axisDigit j).toNat = 54 + j.val := by decide
    exact this j
  apply UInt8.toNat_inj.1
  rw [hj]
  omega

theorem axis_option (j : Fin 2) (arg : List Byte) : optionAt (82 :: axisDigit j :: arg) 1 = some (6 + j.val) :=
  optionAt_digit _ 1 (6 + j.val) (by omega) rfl

/-- what is done for a command, seen from its text. -/
theorem gripOf_cases {c : Cmd} {o : GripOp} (ho : o ∈ gripOf c) :
    (c.letter = 86 ∧ c.arg ≠ [] ∧ ∃ j, o = .speed j (atof c.arg)) ∨
    ∃ j rest, c.letter = 82 ∧ c.arg = axisDigit j :: rest ∧ rest ≠ [] ∧ (o = .start j ∨ o = .zero j ∨ o = .to j (gripAngle rest)) := by
  obtain ⟨letter, arg⟩ := c
  unfold gripOf at ho
  split at ho
  · rename_i h8
    split at ho
    · cases ho
    · rename_i hne
      refine .inl ⟨h8, hne, ?_⟩
      simp only [List.mem_cons, List.not_mem_nil, or_false] at ho
      rcases ho with rfl | rfl
      · exact ⟨0, rfl⟩
      · exact ⟨1, rfl⟩
  · split at ho
    · rename_i h2
      dsimp only at h2; subst h2
      split at ho
      · cases ho
      · rename_i o' ho'
        split at ho
        · cases ho
        · rename_i hl
          rcases arg with _ | ⟨b, _ | ⟨b', rest⟩⟩
          · exact absurd (by simp [Cmd.text]) hl
          · exact absurd (by simp [Cmd.text]) hl
          · split at ho
            · rename_i h6
              subst h6
              refine .inr ⟨0, b' :: rest, rfl, by rw [option_axis (j := 0) ho'], by simp, ?_⟩
              simpa using ho
            · split at ho
              · rename_i h7
                subst h7
                refine .inr ⟨1, b' :: rest, rfl, by rw [option_axis (j := 1) ho'], by simp, ?_⟩
                simpa using ho
              · cases ho
    · cases ho

theorem gripOf_sends {j : Fin 2} {d : Dec} {c : Cmd} (h : SendsAxis j d c) (hne : d.text ≠ []) : gripOf c = [.start j, .zero j, .to j (fin ((d.val : ℝ) / 180 * Real.pi))] := by
  obtain ⟨letter, arg⟩ := c
  obtain ⟨rfl, rfl, hd⟩ := h
  have hl : ¬ (82 :: axisDigit j :: d.text).length ≤ 2 := by
    rcases hd' : d.text with _ | ⟨b, t⟩
    · exact absurd hd' hne
    · simp
  unfold gripOf
  rw [if_neg (by decide : ¬ (82 : Byte) = 86), if_pos rfl]
  simp only [Cmd.text, axis_option, if_neg hl, List.drop_succ_cons, List.drop_zero, gripAngle_dec hd]
  match j with
  | 0 => rfl
  | 1 => rfl

theorem fine_grip {c : Cmd} (hc : AxisFine c) {o : GripOp} (ho : o ∈ gripOf c) :
    (∀ j x, o = .to j x → ∃ a : ℝ, x = fin a ∧ |a| ≤ 7) ∧ ∀ j x, o = .speed j x → ∃ v : ℝ, x = fin v ∧ (v ≤ 0 ∨ 1/1000 ≤ v) := by
  rcases gripOf_cases ho with ⟨h1, h2, j', rfl⟩ | ⟨j', rest, h1, h2, h3, h4⟩
  · refine ⟨fun j x e => (by cases e), fun j x e => ?_⟩
    cases e
    rcases hc.speed h1 with e | ⟨d, hd, e, hv⟩
    · exact absurd e h2
    · refine ⟨(d.val : ℝ), by rw [e]; exact C27_decimal d hd, ?_⟩
      rcases hv with hv | hv
      · left; exact_mod_cast hv
      · right
        have : ((1 / 1000 : ℚ) : ℝ) ≤ (d.val : ℝ) := by exact_mod_cast hv
        simpa using this
  · rcases h4 with rfl | rfl | rfl
    · exact ⟨fun j x e => (by cases e), fun j x e => (by cases e)⟩
    · exact ⟨fun j x e => (by cases e), fun j x e => (by cases e)⟩
    · refine ⟨fun j x e => ?_, fun j x e => by cases e⟩
      cases e
      rcases hc.angle j' rest h1 h2 with e | ⟨d, hd, e, hv⟩
      · exact absurd e h3
      · exact ⟨_, by rw [e]; exact gripAngle_dec hd, turn_bound hv.1 hv.2⟩

section
variable {cfg : Cfg XR} {w0 : World XR} {junk : Nat → Byte} {σ : ℕ → Sys XR} {ev : ℕ → Ev XR} (h : Endless cfg w0 junk σ ev)
  (hb : ∀ k src m, ev k = .act (.out (.ghost src m)) → AxisInstr m)
include h hb

/-- all stores are as they should be. -/
theorem store_fine {n : ℕ} {j : Fin 2} {m : Servo.Micro XR} (hn : ev n = .act (.micro (axisNo j) m)) :
    (∀ x, m = .setTarget x → ∃ a : ℝ, x = fin a ∧ |a| ≤ 7) ∧ ∀ x, m = .setVel x → ∃ v : ℝ, x = fin v ∧ (v ≤ 0 ∨ 1/1000 ≤ v) := by
  obtain ⟨q, src, t, -, q2, -, q4⟩ := Does.said (grip_kind cfg) h hn (gripOp_axis j m)
  obtain ⟨cs, rfl, hc⟩ := hb q src t q2
  have := (q4 cs (fun c hm => (hc c hm).ok) rfl).subset (List.mem_append_right _ (List.mem_singleton_self _))
  obtain ⟨c, hcs, ho⟩ := List.mem_flatMap.1 this
  obtain ⟨g1, g2⟩ := fine_grip (hc c hcs) ho
  exact ⟨fun x e => g1 j x (by rw [e]; rfl), fun x e => g2 j x (by rw [e]; rfl)⟩

theorem grip_ok {j : Fin 2} (h0 : GripOk (w0.servos (axisNo j))) (n : ℕ) : GripOk ((σ n).w.servos (axisNo j)) ∧ (σ n).p.wp (axMon j (-7) 7) (fun _ _ => True) () := by
  induction n with
  | zero => rw [h.boot]; exact ⟨h0, setup_ax cfg junk j _ _⟩
  | succ n ih =>
    have hst := h.step n
    have hsf := @store_fine _ _ _ _ _ h hb n j
    obtain ⟨hg, hw⟩ := ih
    generalize σ n = x at *
    generalize σ (n + 1) = y at *
    generalize ev n = e at *
    cases hst with
    | loop => exact ⟨hg, (ax_core cfg j _ _).loop_wp _ trivial⟩
    | servo =>
      refine ⟨hg, hw _ ?_⟩
      intro s e; injection e with e1 e2
      subst e1; subst e2
      obtain ⟨a, c, t, v, w, h1, h2, h3, h4, h5, ha, hc, ht, hv, hw⟩ := hg
      exact ⟨c, h2, (abs_le.1 hc).1, (abs_le.1 hc).2⟩
    | @micro w i m k =>
      refine ⟨?_, hw.2⟩
      by_cases e : i = axisNo j
      · subst e
        have hm : gripGood m := by
          obtain ⟨g1, g2⟩ := hsf rfl
          rcases hw.1 m rfl with ⟨x, rfl⟩ | rfl | h
          · exact g1 x rfl
          · exact g2 _ rfl
          · cases m with
            | setStart x => obtain ⟨t, e, t1, t2⟩ := h; exact ⟨t, e, abs_le.2 ⟨t1, t2⟩⟩
            | zeroElapsed => trivial
            | setTarget x => exact g1 x rfl
            | setVel x => exact g2 x rfl
        simpa [World.setServo] using hg.micro hm
      · have : (w.setServo i ((w.servos i).micro m)).servos (axisNo j) = w.servos (axisNo j) := by
          have e' : axisNo j ≠ i := fun h => e h.symm
          simp [World.setServo, e']
        rw [this]; exact hg
    | now => exact ⟨hg, hw _ (fun s e => by cases e)⟩
    | pin => exact ⟨hg, hw _ (fun s e => by cases e)⟩
    | rxNone h => exact ⟨hg, hw _ (fun s e => by cases e)⟩
    | rxSome h => exact ⟨hg, hw _ (fun s e => by cases e)⟩
    | eeRead => exact ⟨hg, hw _ (fun s e => by cases e)⟩
    | eeWrite => exact ⟨hg, hw.2⟩
    | out => exact ⟨hg, hw.2⟩
    | isr => exact ⟨hg.tick, hw⟩
    | _ => exact ⟨hg, hw⟩

end

/-- the target told last. -/
noncomputable def lastTo (j : Fin 2) (t : XR) : GripOp → XR
  | .to j' x => if j' = j then x else t
  | _ => t

theorem tick_target (s : Servo XR) (d : ℕ) : (s.tick d).target = s.target := by
  unfold Servo.tick
  dsimp only
  split
  · rfl
  · split <;> rfl

theorem target_fold {cfg : Cfg XR} {w0 : World XR} {junk : Nat → Byte} {σ : ℕ → Sys XR} {ev : ℕ → Ev XR} (h : Endless cfg w0 junk σ ev) (j : Fin 2) (n : ℕ) :
    ((σ n).w.servos (axisNo j)).target = (Does.ops gripOp (acts (sofar ev n))).foldl (lastTo j) (w0.servos (axisNo j)).target := by
  induction n with
  | zero => rw [h.boot]; rfl
  | succ n ih =>
    rw [do_servos (h.step n) (axisNo j)]
    have hs : sofar ev (n + 1) = sofar ev n ++ [ev n] := by simp [sofar, List.range_succ]
    rw [hs, acts_append, Does.ops_append, List.foldl_append, ← ih]
    cases e : ev n with
    | isr => simp [evServo, acts, Does.ops, tick_target]
    | act a =>
      cases a with
      | micro i m =>
        simp only [evServo, acts, List.filterMap_cons, List.filterMap_nil, Does.ops_cons]
        by_cases hi : axisNo j = i
        · subst hi
          rw [if_pos rfl, gripOp_axis]
          cases m <;> simp [Servo.micro, gripKind, lastTo, Does.ops]
        · rw [if_neg hi]
          have : ∀ o, gripOp (.micro i m) = some o → ∀ t, lastTo j t o = t := by
            intro o ho t
            have key : ∀ j', i = axisNo j' → lastTo j t (gripKind j' m) = t := by
              intro j' e'
              have hj : j' ≠ j := by rintro rfl; exact hi e'.symm
              cases m <;> simp [gripKind, lastTo, hj]
            unfold gripOp at ho
            dsimp only at ho
            split at ho
            · cases ho; exact key 0 (by assumption)
            · split at ho
              · cases ho; exact key 1 (by assumption)
              · cases ho
          cases hg : gripOp (.micro i m) with
          | none => simp [Does.ops]
          | some o => simp [Does.ops, this o hg]
      | _ => rfl
    | _ => rfl

/-- stores that send the axis elsewhere. -/
def gripMoves (j : Fin 2) : GripOp → Prop
  | .start j' => j' = j
  | .zero j' => j' = j
  | .to j' _ => j' = j
  | .speed _ _ => False

/-- on the way to `x`, `k` ticks ago left alone. -/
def Nearing (x : ℝ) (k : ℕ) (s : Servo XR) : Prop :=
  GripOk s ∧ s.target = fin x ∧ ((s.start = fin x ∧ s.cur = fin x) ∨ k = 0 ∨ (s.elapsed ≤ 20000000 ∧ 20 * (k - 1) ≤ s.elapsed))

theorem Nearing.tick {x : ℝ} {k : ℕ} {s : Servo XR} (h : Nearing x k s) : Nearing x (k + 1) (s.tick 20) := by
  obtain ⟨h1, h2, h3⟩ := h
  refine ⟨h1.tick, by rw [tick_target]; exact h2, ?_⟩
  obtain ⟨a, c, t, v, m, e1, e2, e3, e4, e5, ha, hc, ht, hv, hm⟩ := h1
  rw [h2] at e3; cases e3
  rw [tick_fin s a x v 20 e1 h2 e4]
  by_cases hd : |x - a| < |v * (u32 (s.elapsed + 20) : ℕ) / 1000|
  · left; simp [hd]
  · rcases h3 with ⟨g1, g2⟩ | h3
    · rw [e1] at g1
      have hax : a = x := by injection g1
      subst hax
      left
      have hz : v * (u32 (s.elapsed + 20) : ℕ) / 1000 = 0 := by
        rw [sub_self, abs_zero, not_lt] at hd
        exact abs_nonpos_iff.1 hd
      simp [hz]
    · right; right
      simp only [Nat.add_sub_cancel]
      have hel : (u32 (s.elapsed + 20) : ℕ) ≤ 20000000 := by
        by_contra hgt
        rw [not_le] at hgt
        apply hd
        have h20 : (20000000 : ℝ) < (u32 (s.elapsed + 20) : ℕ) := by exact_mod_cast hgt
        have : 20 < v * (u32 (s.elapsed + 20) : ℕ) / 1000 := by
          rw [lt_div_iff₀ (by norm_num)]
          nlinarith
        have h' := lt_of_lt_of_le this (le_abs_self _)
        rw [abs_le] at ha ht
        refine lt_of_le_of_lt (abs_le.2 ⟨?_, ?_⟩) h' <;> linarith
      refine ⟨hel, ?_⟩
      rcases h3 with rfl | ⟨g1, g2⟩
      · simp
      · rcases k with _ | k
        · simp
        · have : u32 (s.elapsed + 20) = s.elapsed + 20 := by unfold u32; omega
          rw [this]
          simp only [Nat.add_sub_cancel] at g2
          omega

theorem Nearing.speed {x : ℝ} {k : ℕ} {s : Servo XR} (h : Nearing x k s) {v : XR} (hv : gripGood (.setVel v)) : Nearing x k (s.micro (.setVel v)) :=
  ⟨h.1.micro hv, h.2.1, h.2.2⟩

theorem Nearing.there {x : ℝ} {k : ℕ} {s : Servo XR} (h : Nearing x k s) (hk : 1000002 ≤ k) : s.cur = fin x := by
  rcases h.2.2 with ⟨-, e⟩ | e | ⟨e1, e2⟩
  · exact e
  · omega
  · omega

open Classical in
/-- the number of interrupts in the `d` events from `e` on. -/
noncomputable def ticksIn (ev : ℕ → Ev XR) (e : ℕ) : ℕ → ℕ
  | 0 => 0
  | d + 1 => ticksIn ev e d + if ev (e + d) = .isr then 1 else 0

theorem ticksIn_mono (ev : ℕ → Ev XR) (e : ℕ) {d d' : ℕ} (hd : d ≤ d') : ticksIn ev e d ≤ ticksIn ev e d' := by
  induction d', hd using Nat.le_induction with
  | base => exact le_rfl
  | succ d' _ ih => rw [ticksIn]; omega

theorem ticks_exist {cfg : Cfg XR} {w0 : World XR} {junk : Nat → Byte} {σ : ℕ → Sys XR} {ev : ℕ → Ev XR} (h : Endless cfg w0 junk σ ev) (e : ℕ) (K : ℕ) : ∃ d, K ≤ ticksIn ev e d := by
  induction K with
  | zero => exact ⟨0, Nat.zero_le _⟩
  | succ K ih =>
    obtain ⟨d, hd⟩ := ih
    obtain ⟨m, hm, hi⟩ := h.ticks (e + d)
    refine ⟨m - e + 1, ?_⟩
    have := ticksIn_mono ev e (show d ≤ m - e by omega)
    rw [ticksIn, show e + (m - e) = m by omega, if_pos hi]
    omega

theorem foldl_keeps {j : Fin 2} {l : List GripOp} (hl : ∀ o ∈ l, ¬ gripMoves j o) (t : XR) : l.foldl (lastTo j) t = t := by
  induction l generalizing t with
  | nil => rfl
  | cons o l ih =>
    rw [List.foldl_cons, ih fun o' ho => hl o' (by simp [ho])]
    have := hl o (by simp)
    cases o <;> simp_all [lastTo, gripMoves]

theorem leaves_ops {j : Fin 2} {cs : List Cmd} (hc : ∀ c ∈ cs, ¬ MovesAxis j c) : ∀ o ∈ cs.flatMap gripOf, ¬ gripMoves j o := by
  intro o ho hm
  obtain ⟨c, h1, h2⟩ := List.mem_flatMap.1 ho
  rcases gripOf_cases h2 with ⟨-, -, j', rfl⟩ | ⟨j', rest, g1, g2, g3, g4⟩
  · exact hm
  · have : j' = j := by rcases g4 with rfl | rfl | rfl <;> exact hm
    subst this
    exact hc c h1 ⟨g1, rest, g2, g3⟩

theorem dec_text_ne (d : Dec) (hd : d.Ok) : d.text ≠ [] := by
  intro e
  unfold Dec.text at e
  rw [List.append_eq_nil_iff, List.append_eq_nil_iff] at e
  rcases hd with h | ⟨f, h, -⟩
  · exact h (by simpa using e.1.2)
  · rw [h] at e; simp at e

/-- **C129**: every instruction begun is as it should be for the additional axes. An instruction sends axis `j` (R6 or R7) to `d` degrees, and none of its later commands moves this axis. Then there is a time from which
on, as long as no other instruction moves it, it stands exactly there, whatever else is done, in particular to the arm, and whenever the interrupts come. -/
theorem C129_goes {cfg : Cfg XR} {w0 : World XR} {junk : Nat → Byte} {σ : ℕ → Sys XR} {ev : ℕ → Ev XR} (h : Endless cfg w0 junk σ ev) (hb : ∀ k src m, ev k = .act (.out (.ghost src m)) → AxisInstr m)
    {j : Fin 2} {pin : Int} {maxVel home lo hi : ℝ} {f1 f2 : ℕ} (h0 : w0.servos (axisNo j) = Servo.new pin (fin maxVel) f1 f2 (fin lo) (fin hi) (fin home)) (hm : 1/1000 ≤ maxVel) (hh : |home| ≤ 7)
    {k : ℕ} {src : Src} {before after : List Cmd} {c : Cmd} {d : Dec} (hk : ev k = .act (.out (.ghost src (text (before ++ c :: after))))) (hok : ∀ x ∈ before ++ c :: after, x.Ok)
    (hc : SendsAxis j d c) (ha : ∀ x ∈ after, ¬ MovesAxis j x) :
    ∃ e, k < e ∧ ∀ n, e ≤ n → (∀ i s m, k < i → i < n → ev i = .act (.out (.ghost s m)) → LeavesAxis j m) → ((σ n).w.servos (axisNo j)).cur = fin ((d.val : ℝ) / 180 * Real.pi) := by
  have hG : GripOk (w0.servos (axisNo j)) := by
    rw [h0]; exact ⟨home, home, home, maxVel, maxVel, rfl, rfl, rfl, rfl, rfl, hh, hh, hh, hm, hm⟩
  have hok' := grip_ok h hb hG
  obtain ⟨e, e1, e2, e3, e4⟩ := Does.lasts (grip_kind cfg) h hk hok (gripMoves j)
  obtain ⟨D, hD⟩ := ticks_exist h e 1000002
  have ht : ((σ e).w.servos (axisNo j)).target = fin ((d.val : ℝ) / 180 * Real.pi) := by
    rw [target_fold h j e, e3, List.flatMap_append, List.flatMap_cons, gripOf_sends hc (dec_text_ne d hc.2.2), List.foldl_append, List.foldl_append, List.foldl_append, foldl_keeps (leaves_ops ha)]
    simp [lastTo]
  refine ⟨e + D, by omega, fun n hn hl => ?_⟩
  have key : ∀ i, e + i ≤ n → Nearing ((d.val : ℝ) / 180 * Real.pi) (ticksIn ev e i) ((σ (e + i)).w.servos (axisNo j)) := by
    intro i
    induction i with
    | zero => exact fun _ => ⟨(hok' e).1, ht, .inr (.inl rfl)⟩
    | succ i ih =>
      intro hi
      have hp := ih (by omega)
      have hq := e4 (e + i) (by omega) fun j' s m g1 g2 g3 => by
        obtain ⟨cs', rfl, c2⟩ := hl j' s m g1 (by omega) g3
        exact ⟨cs', fun c hc => (c2 c hc).1.ok, rfl, leaves_ops fun c hc => (c2 c hc).2⟩
      rw [← Nat.add_assoc, do_servos (h.step (e + i)) (axisNo j), ticksIn]
      cases he : ev (e + i) with
      | isr => rw [if_pos rfl]; exact hp.tick
      | act a =>
        rw [if_neg (by simp), Nat.add_zero]
        cases a with
        | micro i' m =>
          simp only [evServo]
          split
          · rename_i hi'
            subst hi'
            have hm := hq _ _ he (gripOp_axis j m)
            cases m with
            | setVel v => exact hp.speed ((store_fine h hb he).2 v rfl)
            | _ => exact absurd rfl hm
          · exact hp
        | _ => exact hp
      | _ => rw [if_neg (by simp), Nat.add_zero]; exact hp
  have := (key (n - e) (by omega)).there (le_trans hD (ticksIn_mono ev e (by omega)))
  rwa [show e + (n - e) = n by omega] at this

end Mrc.Props
