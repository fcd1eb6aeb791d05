import Verif.Proof.RestTold
import Verif.Props.Joint32
import Verif.Props.Rest
/-
C108, C109 in binary32: when an instruction is reported as finished the arm is at rest, and where it was told to be, and remains there until it is commanded again.
-/
set_option linter.unusedSimpArgs false
set_option linter.unusedSectionVars false
namespace Mrc.Rest
open Mrc Mrc.Spec Mrc.Prog Mrc.Props Mrc.Host Mrc.Brisk32 XR
open scoped Mrc.Num
variable [L : RX.Libm binary32]

theorem undivided32_of {ev : ℕ → Ev F32} (h : Unbroken ev) : Undivided32 ev := fun i s v x t k m n h1 h2 _ _ _ h5 h6 h7 h8 h9 h10 => h i s v t k m n h1 h2 h5 h6 h7 h8 h9 h10

/-- the position the timer computes. -/
noncomputable def place (a t v : ℝ) (n : ℕ) : ℝ := binary32.rnd (if a < t then a + RX.deltaR binary32 v n else a - RX.deltaR binary32 v n)

/-- on its way, or there, in binary32. -/
def Steady32 (s : Servo F32) : Prop := ∃ a t v c : ℝ, s.start.val = fin a ∧ s.target.val = fin t ∧ s.vel.val = fin v ∧ s.cur.val = fin c ∧ 0 < v ∧ |t| ≤ 4 ∧ |t - a| ≤ 10 ∧
  (|t - a| ≤ 1/10000000 ∨ |t - a| ≤ v * T') ∧
  (a = t ∧ c = t ∨ s.elapsed < 4294967296 ∧ RX.deltaR binary32 v s.elapsed ≤ binary32.rnd |t - a| ∧ c = place a t v s.elapsed)

theorem atTarget32_iff {s : Servo F32} {c t : ℝ} (hc : s.cur.val = fin c) (ht : s.target.val = fin t) (hb : |c - t| ≤ binary32.big) :
    s.atTarget = true ↔ binary32.rnd |c - t| < binary32.rnd (1/1000000) := by
  have hb6 := b32_big
  unfold Servo.atTarget
  change XR.lt (XR.abs (binary32.post (XR.sub s.cur.val s.target.val))) (lit (1/1000000) : F32).val = true ↔ _
  rw [hc, ht, RX.lit_val, show (((1 / 1000000 : Rat)) : ℝ) = (1 / 1000000 : ℝ) by norm_num, RX.sub_fin, binary32.post_fin hb, binary32.post_fin (by rw [abs_of_pos (by norm_num)]; norm_num at hb6 ⊢; linarith)]
  simp only [XR.abs, XR.lt, binary32.abs_rnd, decide_eq_true_eq]

theorem small32 {x : ℝ} (h0 : 0 ≤ x) (h : x ≤ 9/10000000) : binary32.rnd x < binary32.rnd (1/1000000) := by
  have h1 := (b32_bounds h0).2
  have h2 := (b32_bounds (x := 1/1000000) (by norm_num)).1
  norm_num at h1 h2 ⊢
  linarith

theorem delta_mono {v : ℝ} (hv : 0 ≤ v) {m n : ℕ} (h : m ≤ n) : RX.deltaR binary32 v m ≤ RX.deltaR binary32 v n := by
  unfold RX.deltaR
  have h1000 : 0 ≤ binary32.rnd 1000 := binary32.rnd_nonneg (by norm_num)
  refine binary32.mono (div_le_div_of_nonneg_right (binary32.mono (mul_le_mul_of_nonneg_left (binary32.mono ?_) hv)) h1000)
  exact_mod_cast h

theorem delta_zero (v : ℝ) : RX.deltaR binary32 v 0 = 0 := by
  unfold RX.deltaR
  rw [Nat.cast_zero, binary32.rnd_zero, mul_zero, binary32.rnd_zero, zero_div, binary32.rnd_zero]

theorem Steady32.tick {s : Servo F32} (h : Steady32 s) : Steady32 (s.tick 20) := by
  obtain ⟨a, t, v, c, h1, h2, h3, h4, h5, h6, h7, h8, h9⟩ := h
  have hb := b32_big
  have hlt : u32 (s.elapsed + 20) < 4294967296 := Nat.mod_lt _ (by norm_num)
  rcases RX.tick_rx h1 h2 h3 h5.le (by norm_num at hb ⊢; linarith) 20 with ⟨e, _⟩ | ⟨d0, d1, e⟩
  · rw [e]
    exact ⟨t, t, v, t, h2, h2, h3, h2, h5, h6, by rw [sub_self, abs_zero]; norm_num, .inl (by rw [sub_self, abs_zero]; norm_num), .inl ⟨rfl, rfl⟩⟩
  · rw [e]
    refine ⟨a, t, v, _, h1, h2, h3, ?_, h5, h6, h7, h8, .inr ⟨hlt, d1, rfl⟩⟩
    show binary32.post (fin _) = _
    have f1 := (b32_bounds (abs_nonneg (t - a))).2
    have A := abs_le.1 h7
    have B := abs_le.1 h6
    have hz : |if a < t then a + RX.deltaR binary32 v (u32 (s.elapsed + 20)) else a - RX.deltaR binary32 v (u32 (s.elapsed + 20))| ≤ 100 := by
      have : RX.deltaR binary32 v (u32 (s.elapsed + 20)) ≤ 20 := by norm_num at f1 ⊢; linarith
      split <;> rw [abs_le] <;> constructor <;> linarith
    rw [binary32.post_fin (by norm_num at hb ⊢; linarith)]
    rfl

theorem Steady32.stays {s : Servo F32} (h : Steady32 s) (hat : s.atTarget = true) : (s.tick 20).atTarget = true := by
  obtain ⟨a, t, v, c, h1, h2, h3, h4, h5, h6, h7, h8, h9⟩ := h
  by_cases hs : |t - a| ≤ 1/10000000
  · exact (near_tick h1 h2 h3 h5 h6 hs).1
  have h8 := h8.resolve_left hs
  have hb := b32_big
  have hb' : (10000 : ℝ) ≤ binary32.big := by norm_num at hb ⊢; linarith
  rcases h9 with ⟨rfl, _⟩ | ⟨k1, k2, k3⟩
  · exact absurd (by rw [sub_self, abs_zero]; norm_num) hs
  -- the timer does not overflow
  have hno : s.elapsed + 20 < 4294967296 := by
    by_contra hcon
    exact absurd k2 (not_le.2 (timer32 (not_le.1 hs) h8 (by omega)))
  have eu : u32 (s.elapsed + 20) = s.elapsed + 20 := Nat.mod_eq_of_lt hno
  have hmono := delta_mono h5.le (show s.elapsed ≤ s.elapsed + 20 by omega)
  have hd0 : 0 ≤ RX.deltaR binary32 v s.elapsed := by rw [← delta_zero v]; exact delta_mono h5.le (Nat.zero_le _)
  have A := abs_le.1 h7
  have B := abs_le.1 h6
  have f1 := (b32_bounds (abs_nonneg (t - a))).2
  have ferr := b32_err |t - a|
  rcases RX.tick_rx h1 h2 h3 h5.le (by linarith) 20 with ⟨e, _⟩ | ⟨d0, d1, e⟩
  · rw [e]
    exact (atTarget32_iff (s := { s with elapsed := u32 (s.elapsed + 20), cur := s.target, start := s.target }) (c := t) (t := t) h2 h2 (by rw [sub_self, abs_zero]; linarith)).2 (small32 (abs_nonneg _) (by rw [sub_self, abs_zero]; norm_num))
  · rw [eu] at d0 d1 e
    set δ := RX.deltaR binary32 v s.elapsed
    set δ' := RX.deltaR binary32 v (s.elapsed + 20)
    have hδ' : δ' ≤ 20 := by norm_num at f1 ⊢; linarith
    have hz : |if a < t then a + δ' else a - δ'| ≤ 100 := by split <;> rw [abs_le] <;> constructor <;> linarith
    have hcur : (s.tick 20).cur.val = fin (binary32.rnd (if a < t then a + δ' else a - δ')) := by
      rw [e]
      show binary32.post (fin _) = _
      rw [binary32.post_fin (by linarith)]
    have htg : (s.tick 20).target.val = fin t := by rw [e]; exact h2
    have hw : binary32.rnd |t - a| ≤ |t - a| + 6 / 10000000 := by
      have := (abs_le.1 ferr).2
      rw [abs_of_nonneg (abs_nonneg (t - a))] at this
      norm_num at this ⊢
      linarith
    have hk3 : c = binary32.rnd (if a < t then a + δ else a - δ) := k3
    have herr : ∀ z : ℝ, |z| ≤ 41 / 10 → |binary32.rnd z - z| ≤ 28 / 100000000 := fun z hz => (b32_err z).trans (by norm_num at *; linarith)
    rw [atTarget32_iff hcur htg (by
      have hr := abs_le.1 ((b32_err (if a < t then a + δ' else a - δ')).trans (show _ ≤ (1:ℝ) by norm_num at *; linarith))
      have hz := abs_le.1 hz
      exact le_trans (show _ ≤ (200:ℝ) from abs_le.2 ⟨by linarith [hr.1, hz.1], by linarith [hr.2, hz.2]⟩) (by linarith))]
    have hc100 : |c - t| ≤ binary32.big := by
      rw [hk3]
      have hz : |if a < t then a + δ else a - δ| ≤ 100 := by split <;> rw [abs_le] <;> constructor <;> linarith
      have hr := abs_le.1 ((b32_err (if a < t then a + δ else a - δ)).trans (show _ ≤ (1:ℝ) by norm_num at *; linarith))
      have hz := abs_le.1 hz
      exact le_trans (show _ ≤ (200:ℝ) from abs_le.2 ⟨by linarith [hr.1, hz.1], by linarith [hr.2, hz.2]⟩) (by linarith)
    rw [atTarget32_iff h4 h2 hc100] at hat
    by_cases g : a < t
    · rw [if_pos g] at hk3 ⊢
      have m1 : c ≤ binary32.rnd (a + δ') := by rw [hk3]; exact binary32.mono (by linarith)
      rcases le_total (binary32.rnd (a + δ')) t with m2 | m2
      · refine lt_of_le_of_lt (binary32.mono ?_) hat
        rw [abs_of_nonpos (by linarith), abs_of_nonpos (by linarith)]; linarith
      · refine small32 (abs_nonneg _) ?_
        rw [abs_of_nonneg (by linarith)]
        rw [abs_of_pos (by linarith)] at hw d1
        have u1 : binary32.rnd (a + δ') ≤ binary32.rnd (t + 6 / 10000000) := binary32.mono (by linarith)
        have u2 := (abs_le.1 (herr (t + 6 / 10000000) (abs_le.2 ⟨by linarith, by linarith⟩))).2
        linarith
    · rw [if_neg g] at hk3 ⊢
      rw [not_lt] at g
      have m1 : binary32.rnd (a - δ') ≤ c := by rw [hk3]; exact binary32.mono (by linarith)
      rcases le_total t (binary32.rnd (a - δ')) with m2 | m2
      · refine lt_of_le_of_lt (binary32.mono ?_) hat
        rw [abs_of_nonneg (by linarith), abs_of_nonneg (by linarith)]; linarith
      · refine small32 (abs_nonneg _) ?_
        rw [abs_of_nonpos (by linarith)]
        rw [abs_of_nonpos (by linarith)] at hw d1
        have u1 : binary32.rnd (t - 6 / 10000000) ≤ binary32.rnd (a - δ') := binary32.mono (by linarith)
        have u2 := (abs_le.1 (herr (t - 6 / 10000000) (abs_le.2 ⟨by linarith, by linarith⟩))).1
        linarith

variable {cfg : Cfg F32} {w0 : World F32} {junk : Nat → Byte} {σ : ℕ → Sys F32} {ev : ℕ → Ev F32} {lo hi : Fin 6 → F32} {l h : Fin 6 → ℝ}

/-- the commands of a move that fits its time. -/
def Timed32 (x _y : Servo F32) (v t : F32) : Prop := ∃ c tr : ℝ, x.cur.val = fin c ∧ t.val = fin tr ∧ Suits c tr v

theorem blk32_of {l : List (Act F32)} (h : Blocks l) : Blk Timed32 l := by
  induction h with
  | nil => exact .nil
  | plain hp _ ih => exact .plain hp ih
  | command hg _ ih =>
    obtain ⟨i, x, y, c, t, tr, v, h1, h2, h3, rfl⟩ := hg
    exact .command ⟨c, tr, h1, h2, h3⟩ ih

/-- a command that is not broken leaves the servo on its way. -/
theorem steady32_command (hE : Endless cfg w0 junk σ ev) (hS : ∀ n, Servos2 lo hi l h (σ n).w) (C : Compact cfg.toRCfg l h) (hu : Unbroken ev) {i : Fin 6} {x y : Servo F32} {v t : F32}
    {n1 n2 n3 n4 n5 n6 : ℕ} (hq : Timed32 x y v t) (hc : CommandAt ev i x y v t n1 n2 n3 n4 n5 n6) : Steady32 ((σ (n6 + 1)).w.servos (armServo i)) := by
  obtain ⟨c, tr, h1, h2, h3⟩ := hq
  obtain ⟨a, t', u, f1, f2, f3, f4, f5, f6, f7⟩ := fit_command hE hS C (undivided32_of hu) h1 h2 h3 hc.o12 hc.o23 hc.o34 hc.o45 hc.o56 hc.e1 hc.e2 hc.e3 hc.e4 hc.e5 hc.e6 hc.q12 hc.q23 hc.q34 hc.q45 hc.q56 hc.qn
  obtain ⟨hcur, hstart, hel⟩ := command_end hE hc (hc.quiet hu)
  refine ⟨a, t', u, a, f1, f2, f3, by rw [hcur, ← hstart, f1], f4, f5, f6, f7, .inr ⟨by rw [hel]; norm_num, ?_, ?_⟩⟩
  · rw [hel, delta_zero]; exact binary32.rnd_nonneg (abs_nonneg _)
  · rw [hel, place, delta_zero, add_zero, sub_zero, ite_self]
    have := ((σ (n6 + 1)).w.servos (armServo i)).start.grid
    rw [f1] at this
    exact this.1.symm

end Mrc.Rest

namespace Mrc.Props
open Mrc Mrc.Spec Mrc.Prog Mrc.Host Mrc.Brisk32 Mrc.Rest XR
open scoped Mrc.Num
variable [L : RX.Libm binary32]

section
variable {cfg : Cfg F32} {w0 : World F32} {junk : Nat → Byte} {σ : ℕ → Sys F32} {ev : ℕ → Ev F32} (hk : KitAngles cfg) (hw : w0.servos = Kit.servos) (hrun : Endless cfg w0 junk σ ev)
  (hmem : ∃ L, StoredProgram w0.ee L ∧ ∀ m ∈ L, SafeText 0 m ∧ JointText m) (hc : ∀ n, LegiblySent (w0.rxq ++ arrivals (sofar ev n)))
  (hj : ∀ n, ∀ p ∈ decode (w0.rxq ++ arrivals (sofar ev n)), JointFrame (frame p)) (hu : Unbroken ev)

theorem kit_steady32 (hw : w0.servos = Kit.servos) (i : Fin 6) : Steady32 (w0.servos (armServo i)) ∧ (w0.servos (armServo i)).atTarget = true := by
  obtain ⟨v, v0, ev'⟩ := kit_speed
  have hb := b32_big
  rw [hw]
  refine ⟨⟨0, 0, v, 0, zero_val, zero_val, ev' i, zero_val, by linarith, by norm_num, by norm_num, .inl (by norm_num), .inl ⟨rfl, rfl⟩⟩, ?_⟩
  exact (atTarget32_iff (s := Kit.servos (armServo i)) (c := 0) (t := 0) zero_val zero_val (by norm_num at hb ⊢; linarith)).2 (small32 (abs_nonneg _) (by norm_num))

include hk hw hrun hmem hc hj hu

/-- what the general theorem about rest needs. -/
theorem kit_rest32 : (∀ (i : Fin 6) (x y : Servo F32) (v t : F32) (n1 n2 n3 n4 n5 n6 : ℕ), Timed32 x y v t → CommandAt ev i x y v t n1 n2 n3 n4 n5 n6 → Steady32 ((σ (n6 + 1)).w.servos (armServo i))) ∧
    (∀ (a b : ℕ) (s' : FW F32), ev a = .next → a < b → Between σ b s' → (∀ j, a < j → j < b → ev j ≠ .next) → Blk Timed32 (acts (span ev (a + 1) (b - (a + 1))))) ∧
    ∀ n (i : Fin 6), (∃ c, ((σ n).w.servos (armServo i)).cur.val = fin c ∧ |c| ≤ 10) ∧ ∃ t, ((σ n).w.servos (armServo i)).target.val = fin t ∧ |t| ≤ 10 := by
  obtain ⟨l, h, el, eh, hl, hh, l0, h0, _⟩ := kit_numbers
  obtain ⟨v, v0, ev'⟩ := kit_speed
  have hS0 := binary32.slack_nonneg (show (0 : ℝ) ≤ 4 by norm_num)
  have hS4 : binary32.slack 4 ≤ 1 := by have := binary32.slack_le (show (0 : ℝ) ≤ 4 by norm_num); linarith
  have C := kit_compact32 hk el eh hl hh
  have H := kit_angleRobot hk el eh hl hh
  have hs0 : Servos2 (fun i => deg (Kit.minDeg (armServo i))) (fun i => deg (Kit.maxDeg (armServo i))) l h w0 := by
    refine ⟨fun i => ?_, fun i => ?_⟩
    · rw [hw]
      have hz : InRX (l i - binary32.slack 4) (h i + binary32.slack 4) (lit 0 : F32) := ⟨0, zero_val, by linarith [l0 i], by linarith [h0 i]⟩
      exact ⟨⟨el i, eh i, ⟨v, ev' i, by linarith⟩, ⟨v, ev' i, by linarith⟩, hz, hz, 0, zero_val, l0 i, h0 i⟩, rfl, rfl⟩
    · rw [hw]; exact ⟨v, ev' i, v0⟩
  have hR := fun n => brisk_run hk.pins C H el eh hs0 (program_of hmem) (hrun.run n) (clean_of_joint (hc n) (hj n))
  have hS := fun n => (hR n).1
  refine ⟨fun i x y v t n1 n2 n3 n4 n5 n6 hq hcm => steady32_command hrun hS C hu hq hcm, fun a b s' ha hab hb hn => ?_, fun n i => ?_⟩
  · obtain ⟨s0, hb0, hp, _⟩ := hrun.atNext ha
    have hx := hrun.exec (a + 1) (b - (a + 1)) fun j g1 g2 => hn j (by omega) (by omega)
    rw [hp, show a + 1 + (b - (a + 1)) = b by omega, show (σ b).p = .ret s' from hb] at hx
    refine blk32_of (pass_blocks C H el eh hx ((hR a).2 s0 hb0) fun x hx => ?_)
    obtain ⟨j, _, _, e⟩ := mem_span.1 (acts_mem.1 hx)
    cases x with
    | servo i s =>
      have := hrun.read e
      subst this
      exact (hS j).env i
    | _ => exact env_other (fun i s e => by cases e)
  · obtain ⟨c, ec, c1, c2⟩ := ((hS n).good i).1.cur
    obtain ⟨t, et, t1, t2⟩ := ((hS n).good i).1.target
    have a1 := abs_le.1 (C.l i)
    have a2 := abs_le.1 (C.h i)
    exact ⟨⟨c, ec, abs_le.2 ⟨by linarith, by linarith⟩⟩, t, et, abs_le.2 ⟨by linarith, by linarith⟩⟩

variable (hi : CalmImmediates ev)
include hi

/-- **C108**: the robot kit in binary32 (any libm, any kinematics), with a host that moves it by joint angles (C104), never tells a speed between 0 and 1/1000 and gives immediate
instructions that name a place only while the arm is at rest, and interrupts that do not fall into the command of a servo: at the moment an instruction is reported as finished, or the next one from
queue or storage begins, every arm servo is at its target, and it stays there until something is stored into it again. -/
theorem C108_rounded {k : ℕ} (hr : ReportsAt ev k) (i : Fin 6) {n : ℕ} (hkn : k ≤ n) (hn : Untouched ev (armServo i) k n) : ((σ n).w.servos (armServo i)).atTarget = true := by
  obtain ⟨h1, h2, _⟩ := kit_rest32 hk hw hrun hmem hc hj hu
  have h3 := rest_report hrun (fun _ => Steady32.tick) (fun _ => Steady32.stays) h1 h2 (fun i => (kit_steady32 hw i).1) (fun i => (kit_steady32 hw i).2) hi hr i
  exact (stays_there hrun (fun _ => Steady32.tick) (fun _ => Steady32.stays) h1 h2 (fun i => (kit_steady32 hw i).1) hkn hn h3.1 h3.2).2

/-- **C110**: the same setting. Whenever no move is under way, every servo of the arm is at its target. -/
theorem C110_rest_rounded {k : ℕ} (hck : CalmAt ev k) (i : Fin 6) : Steady32 ((σ k).w.servos (armServo i)) ∧ ((σ k).w.servos (armServo i)).atTarget = true := by
  obtain ⟨h1, h2, _⟩ := kit_rest32 hk hw hrun hmem hc hj hu
  exact Calm.rest hrun (fun _ => Steady32.tick) (fun _ => Steady32.stays) h1 h2 (fun i => (kit_steady32 hw i).1) (fun i => (kit_steady32 hw i).2) hi hck i

/-- at rest when an instruction from queue or storage begins, or one at once while no move is under way. -/
theorem rest_begin32 {k : ℕ} {src : Src} {m : List Byte} (hb : ev k = .act (.out (.ghost src m))) (hs : src ≠ .immediate ∨ CalmAt ev k) (i : Fin 6) :
    Steady32 ((σ k).w.servos (armServo i)) ∧ ((σ k).w.servos (armServo i)).atTarget = true := by
  rcases hs with hs | hs
  · obtain ⟨h1, h2, _⟩ := kit_rest32 hk hw hrun hmem hc hj hu
    exact rest_report hrun (fun _ => Steady32.tick) (fun _ => Steady32.stays) h1 h2 (fun i => (kit_steady32 hw i).1) (fun i => (kit_steady32 hw i).2) hi (.inr ⟨src, m, hs, hb⟩) i
  · exact C110_rest_rounded hk hw hrun hmem hc hj hu hi hs i

/-- **C110**: C109_rounded for instructions from queue or storage, and for immediate ones begun while no move is under way. -/
theorem C110_rounded {k0 k : ℕ} {src : Src} {cs : List Cmd} (hb : ev k0 = .act (.out (.ghost src (text cs)))) (hs : src ≠ .immediate ∨ CalmAt ev k0) (ht : TellsAngles cs) (hM : Chooses 48 cs)
    {d : Fin 6 → Dec} (hd : ∀ i, Last NamesAngle cs i (d i)) (hfit : KitFitsBy (1 / 100000) fun i => radians (d i)) (hk0 : k0 < k) (hr : ReportsAt ev k) (hq : ∀ i, k0 < i → i < k → ¬ Directs ev i)
    {n : ℕ} (hkn : k ≤ n) (hn : ∀ i : Fin 6, Untouched ev (armServo i) k n) : ∃ b, ArmAt32 (σ n).w b ∧ ∀ i, |kitLogical b i - radians (d i)| < 13 / 100000 := by
  obtain ⟨y, h1, hy⟩ := reportsAt_iff.1 hr
  have e := acts_between hk0 hb h1
  have hquiet : ∀ x ∈ acts (span ev (k0 + 1) (k - (k0 + 1))), ¬ DirectsI x := by
    rintro x hx ⟨src, m, rfl, hmm⟩
    obtain ⟨j, h1, h2, h3⟩ := mem_span.1 (acts_mem.1 hx)
    exact hq j (by omega) (by omega) ⟨src, m, h3, hmm⟩
  obtain ⟨A, g1, g2⟩ := C110_angles (hrun.run (k + 1)).trace (kit_limits32 hw (hrun.run (k + 1))) ht hM hs e hquiet hy
  obtain ⟨b, hseen, hnear⟩ := (kit_seen32 hk hw (hrun.run (k + 1)) (noNaN32 hk hw (joint_angle_mem hmem) (hrun.run (k + 1)) (hc (k + 1)) fun p hp => joint_angle_frame (hj (k + 1) p hp))
    (p0 := acts (sofar ev k0) ++ [.out (.ghost src (text cs))]) (rest := [y]) (by rw [e]; simp) (fun i => last_ok (fun _ _ _ h => h.1) (hd i)) (fun i => g1 i _ (hd i)) g2).1 hfit
  obtain ⟨g3, g4, hfin⟩ := kit_rest32 hk hw hrun hmem hc hj hu
  have h0 := fun i => rest_begin32 hk hw hrun hmem hc hj hu hi hb hs i
  choose c ec hc10 using fun i => (hfin n i).1
  refine ⟨c, ec, ?_⟩
  have hcb : ∀ i, |c i - b i| ≤ 8 / 1000000 := by
    intro i
    obtain ⟨p1, sv, p2, e1, e2, e3, e4⟩ := hseen i
    obtain ⟨r, r1, r2, r3, r4⟩ := span_at e1
    have hun : Untouched ev (armServo i) r k := fun j k1 k2 m em => by
      rcases Nat.eq_or_lt_of_le k1 with rfl | k1
      · rw [r3] at em; cases em
      · refine e3 m ?_
        rw [← r4]
        exact acts_mem.2 (mem_span.2 ⟨j, by omega, by omega, em⟩)
    have hsv := hrun.read r3
    have hat : sv.atTarget = true := by
      rcases e4 with e4 | e4
      · exact e4
      · rw [hsv]
        refine (stays_there hrun (fun _ => Steady32.tick) (fun _ => Steady32.stays) g3 g4 (fun i => (kit_steady32 hw i).1) (by omega) (fun j g1 g2 m em => ?_) (h0 i).1 (h0 i).2).2
        rcases Nat.eq_or_lt_of_le g1 with rfl | g1
        · rw [hb] at em; cases em
        · exact e4 i m (acts_mem.2 (mem_span.2 ⟨j, by omega, by omega, em⟩))
    obtain ⟨t, et, ht⟩ := (hfin r i).2
    have etn : ((σ n).w.servos (armServo i)).target.val = fin t := by
      rw [← et]
      congr 1
      exact keep_stays (P := fun s => s.target = ((σ r).w.servos (armServo i)).target) hrun (fun s hs => by rw [tick_target]; exact hs) (by omega) (fun j g1 g2 => by
        rcases Nat.lt_or_ge j k with g | g
        · exact hun j g1 g
        · exact hn i j g g2) rfl
    have q1 := atTarget32 (ec i) etn (hc10 i) ht (C108_rounded hk hw hrun hmem hc hj hu hi hr i hkn (hn i))
    obtain ⟨x, ex, hx⟩ := (hfin r i).1
    have q2 := atTarget32 (sv := sv) (c := b i) (t := t) e2 (by rw [hsv]; exact et) (by
      rw [hsv, ex] at e2
      injection e2 with e2
      rw [← e2]; exact hx) ht hat
    have q1 := abs_le.1 q1
    have q2 := abs_le.1 q2
    rw [abs_le]; constructor <;> linarith [q1.1, q1.2, q2.1, q2.2]
  intro i
  have k1 := abs_lt.1 (hnear i)
  have l1 := abs_le.1 (hcb 1)
  have l2 := abs_le.1 (hcb 2)
  have li := abs_le.1 (hcb i)
  rw [abs_lt]
  unfold kitLogical at k1 ⊢
  by_cases hi : i = 2
  · subst hi
    simp only [if_true] at k1 ⊢
    constructor <;> linarith [k1.1, k1.2, l1.1, l1.2, l2.1, l2.2]
  · simp only [if_neg hi] at k1 ⊢
    constructor <;> linarith [k1.1, k1.2, li.1, li.2]

/-- **C109**: the same setting in binary32. An instruction from queue or storage told all six angles, within the ranges by 1e-5 radians, with M0. From the moment it is reported as
finished, or the next one begins (and nothing else was started in between), the arm is at these angles, to 1.3e-4 radians, until a servo is commanded again. -/
theorem C109_rounded {k0 k : ℕ} {src : Src} {cs : List Cmd} (hb : ev k0 = .act (.out (.ghost src (text cs)))) (hs : src ≠ .immediate) (ht : TellsAngles cs) (hM : Chooses 48 cs)
    {d : Fin 6 → Dec} (hd : ∀ i, Last NamesAngle cs i (d i)) (hfit : KitFitsBy (1 / 100000) fun i => radians (d i)) (hk0 : k0 < k) (hr : ReportsAt ev k) (hq : ∀ i, k0 < i → i < k → ¬ Directs ev i)
    {n : ℕ} (hkn : k ≤ n) (hn : ∀ i : Fin 6, Untouched ev (armServo i) k n) : ∃ b, ArmAt32 (σ n).w b ∧ ∀ i, |kitLogical b i - radians (d i)| < 13 / 100000 :=
  C110_rounded hk hw hrun hmem hc hj hu hi hb (.inl hs) ht hM hd hfit hk0 hr hq hkn hn

end

/-- **C109**, total correctness in binary32 (any libm whose square roots are not negative): the host moves the kit by joint angles, asks for no crawling speed, uses the queue only,
counts the free space and never makes the device wait; interrupts that do not fall into the command of a servo; a clock that runs. Every numbered move to six angles within the ranges
that is sent is executed and reported as finished, and from the report on the arm is at these angles until a servo is commanded again. -/
theorem C109_sent_rounded {cfg : Cfg F32} {w0 : World F32} {junk : Nat → Byte} {σ : ℕ → Sys F32} {ev : ℕ → Ev F32} (hk : KitAngles cfg) (hw : w0.servos = Kit.servos) (hrun : Endless cfg w0 junk σ ev)
    (hsq : SqrtNonneg binary32) (hmem : ∃ L, StoredProgram w0.ee L ∧ ∀ m ∈ L, SafeText 0 m ∧ JointText m) (hc : ∀ n, LegiblySent (w0.rxq ++ arrivals (sofar ev n)))
    (hj : ∀ n, ∀ p ∈ decode (w0.rxq ++ arrivals (sofar ev n)), JointFrame (frame p)) (hu : Unbroken ev) (hq0 : QuickStorage w0.ee) (hnw : ∀ n, NeverWaits (w0.rxq ++ arrivals (sofar ev n)))
    (hclk : ClockRuns σ ev) (hh : ∀ n, CountingHost w0.rxq (sofar ev n)) (hq : ∀ n, QueueOnly (sent w0.rxq (sofar ev n))) {t : ℕ} {cs : List Cmd}
    (hm : text cs ∈ puts (sent w0.rxq (sofar ev t))) (ht : TellsAngles cs) (hM : Chooses 48 cs) {n : Int} (hn : Numbered (text cs) n)
    {d : Fin 6 → Dec} (hd : ∀ i, Last NamesAngle cs i (d i)) (hfit : KitFitsBy (1 / 100000) fun i => radians (d i)) :
    ∃ k j, ev k = .act (.out (.ghost .queue (text cs))) ∧ k < j ∧ ev j = .act (.out (.msg (.n1 n))) ∧ (∀ i, k < i → i < j → ¬ Orders ev i) ∧
      ∀ l, j ≤ l → (∀ i : Fin 6, Untouched ev (armServo i) j l) → ∃ b, ArmAt32 (σ l).w b ∧ ∀ i, |kitLogical b i - radians (d i)| < 13 / 100000 := by
  obtain ⟨k, j, h1, h2, h3, h4, _⟩ := C107_sent_angles hk hw hrun hsq hmem hc hj (undivided32_of hu) hq0 hnw hclk hh hq hm ht hM hn hd hfit
  exact ⟨k, j, h1, h2, h3, h4, fun l hl hun => C109_rounded hk hw hrun hmem hc hj hu (fun k m e hm => absurd (Asd.NoPlace.of_aside (Asd.aside_of_asks (queueOnly_noImmediate hrun hq k (Nat.zero_le _) m e))) hm) h1 (by simp) ht hM hd hfit h2
    (.inl ⟨n, h3⟩) (undirected h4) hl hun⟩

end Mrc.Props
