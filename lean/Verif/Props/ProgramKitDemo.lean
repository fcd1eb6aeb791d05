import Verif.Props.ProgramKit
import Verif.Props.ProgramDemo
/-
Runs that satisfy the hypotheses of C95_kit and C96; why storing must not be interrupted.
-/
set_option maxRecDepth 100000
set_option linter.unusedSimpArgs false
namespace Mrc.Props
open Mrc Mrc.Prog Mrc.Spec Mrc.Demo

theorem sendStream_wellSent : WellSent (str ":WX1\r:WN5M0\r:WN6M1\r") := by
  refine ⟨by decide +kernel, by decide +kernel, ?_⟩
  have e : decode (str ":WX1\r:WN5M0\r:WN6M1\r") = [str "WX1", str "WN5M0", str "WN6M1"] := by decide +kernel
  rw [e]
  intro p hp
  simp only [List.mem_cons, List.not_mem_nil, or_false] at hp
  rcases hp with rfl | rfl | rfl
  · refine ⟨[⟨88, Dec.text ⟨false, [1], none⟩⟩], by decide +kernel, ?_, by decide +kernel⟩
    intro c hc
    simp only [List.mem_cons, List.not_mem_nil, or_false] at hc
    subst hc
    exact careful_number _ _ ⟨by decide, by decide, by decide⟩ (.inl (by decide)) (by decide) (by decide +kernel)
  · refine ⟨[⟨78, str "5"⟩, ⟨77, str "0"⟩], by decide +kernel, ?_, by decide +kernel⟩
    intro c hc
    simp only [List.mem_cons, List.not_mem_nil, or_false] at hc
    rcases hc with rfl | rfl
    · exact careful_plain _ _ ⟨by decide, by decide, by decide⟩ (by decide)
    · exact careful_plain _ _ ⟨by decide, by decide, by decide⟩ (by decide)
  · refine ⟨[⟨78, str "6"⟩, ⟨77, str "1"⟩], by decide +kernel, ?_, by decide +kernel⟩
    intro c hc
    simp only [List.mem_cons, List.not_mem_nil, or_false] at hc
    rcases hc with rfl | rfl
    · exact careful_plain _ _ ⟨by decide, by decide, by decide⟩ (by decide)
    · exact careful_plain _ _ ⟨by decide, by decide, by decide⟩ (by decide)

theorem arr_rx : arrivals (send1 98).1 = [] := by decide +kernel

/-- C96: two lives; in the first one three instructions are stored. -/
example : ∃ m, @CarefulLives Rat toyFloat (@Kit.cfg Rat toyFloat) (fun _ => 0) m ∧ CarefulStorage (fun _ => 0) ∧ m 0 = 2 ∧ m 3 = 4 ∧ m 8 = 4 ∧ m 13 = 0 := by
  letI := toyFloat
  refine ⟨_, .on (w0 := sendWorld) .new rfl (send1_run 98) ?_ ?_, careful_empty _ rfl, by decide +kernel, by decide +kernel, by decide +kernel, by decide +kernel⟩
  · rw [arr_rx, List.append_nil]; exact sendStream_wellSent
  · obtain ⟨s, hs⟩ := at_ret (x := (send1 98).2.1) (by decide +kernel)
    exact .inl ⟨s, by rw [hs]⟩

def cutWorld : World Rat := { demoWorld (@Kit.servos Rat toyFloat 0) (str ":WX1\r") with ee := fun k => if k = 0 then 0 else 255 }
def cut0 : Sys Rat × Bool := (⟨cutWorld, @setup Rat toyFloat (@Kit.cfg Rat toyFloat) fun _ => 0⟩, false)
def cut1 (k : ℕ) : List (Ev Rat) × (Sys Rat × Bool) := @steps Rat toyFloat (@Kit.cfg Rat toyFloat) k cut0

theorem cut1_run (k : ℕ) : @Sys.Run Rat toyFloat (@Kit.cfg Rat toyFloat) cutWorld (fun _ => 0) (cut1 k).1 (cut1 k).2.1 := by
  letI := toyFloat
  have := steps_run (cfg := Kit.cfg) k cut0 (Sys.Run.init (cfg := Kit.cfg) (w0 := cutWorld) (junk := fun _ => 0))
  rwa [List.nil_append] at this

/-- the power fails after the first byte has been written; the controller is switched on again, nothing is sent. -/
def brickWorld : World Rat := { demoWorld (@Kit.servos Rat toyFloat 0) [] with ee := (cut1 22).2.1.w.ee }
def brick0 : Sys Rat × Bool := (⟨brickWorld, @setup Rat toyFloat (@Kit.cfg Rat toyFloat) fun _ => 0⟩, false)
def brick1 (k : ℕ) : List (Ev Rat) × (Sys Rat × Bool) := @steps Rat toyFloat (@Kit.cfg Rat toyFloat) k brick0

theorem brick1_run (k : ℕ) : @Sys.Run Rat toyFloat (@Kit.cfg Rat toyFloat) brickWorld (fun _ => 0) (brick1 k).1 (brick1 k).2.1 := by
  letI := toyFloat
  have := steps_run (cfg := Kit.cfg) k brick0 (Sys.Run.init (cfg := Kit.cfg) (w0 := brickWorld) (junk := fun _ => 0))
  rwa [List.nil_append] at this

theorem at_fault {x : Sys Rat} {f : Fault} (h : (match x.p with | .fault g => decide (g = f) | _ => false) = true) : x.p = .fault f := by
  obtain ⟨w, p⟩ := x
  cases p with
  | fault g => rw [of_decide_eq_true h]
  | _ => cases h

/-- **C96** does not hold for power failures while an instruction is being stored: a careful host stores one instruction in an otherwise erased storage, the power fails after the
length has been written; after the next power-up the firmware writes beyond the end of a buffer although nothing is sent. -/
theorem C96_interrupted_false : ∃ (w0 w1 : World Rat) (evs evs' : List (Ev Rat)) (s s' : Sys Rat), CarefulStorage w0.ee ∧
    @Sys.Run Rat toyFloat (@Kit.cfg Rat toyFloat) w0 (fun _ => 0) evs s ∧ WellSent (w0.rxq ++ arrivals evs) ∧ w1.ee = s.w.ee ∧
    @Sys.Run Rat toyFloat (@Kit.cfg Rat toyFloat) w1 (fun _ => 0) evs' s' ∧ w1.rxq ++ arrivals evs' = [] ∧ s'.p = .fault .oobWrite := by
  refine ⟨cutWorld, brickWorld, _, _, _, _, careful_empty _ rfl, cut1_run 22, ?_, rfl, brick1_run 18, by decide +kernel, at_fault (by decide +kernel)⟩
  have e : cutWorld.rxq ++ arrivals (cut1 22).1 = str ":WX1\r" := by decide +kernel
  rw [e]
  refine ⟨by decide +kernel, by decide +kernel, ?_⟩
  have e : decode (str ":WX1\r") = [str "WX1"] := by decide +kernel
  rw [e]
  intro p hp
  rw [List.mem_singleton.1 hp]
  exact sendStream_wellSent.careful (str "WX1") (by decide +kernel)

/-- C96: power failure at a harmless moment, in the middle of the second frame. -/
example : ∃ m, @CarefulLives Rat toyFloat (@Kit.cfg Rat toyFloat) (fun _ => 0) m ∧ CarefulStorage (fun _ => 0) ∧ m 0 = 2 ∧ m 3 = 0 := by
  letI := toyFloat
  refine ⟨_, .on (w0 := sendWorld) .new rfl (send1_run 30) ?_ (.inr ?_), careful_empty _ rfl, by decide +kernel, by decide +kernel⟩
  · have e : sendWorld.rxq ++ arrivals (send1 30).1 = str ":WX1\r:WN5M0\r:WN6M1\r" := by decide +kernel
    rw [e]; exact sendStream_wellSent
  · rintro ⟨r', m, e, _⟩
    have : (rxBytes (acts (send1 30).1)).getLast? ≠ some 13 := by decide +kernel
    rw [e] at this
    simp at this

theorem prog3_careful : ∀ m ∈ prog3, CarefulInstr m := by
  have hN : ∀ k ∈ [str "0", str "1", str "2"], Careful ⟨78, k⟩ ∧ Careful ⟨77, k⟩ := by
    intro k hk
    simp only [List.mem_cons, List.not_mem_nil, or_false] at hk
    rcases hk with rfl | rfl | rfl <;>
      exact ⟨careful_plain _ _ ⟨by decide, by decide, by decide⟩ (by decide), careful_plain _ _ ⟨by decide, by decide, by decide⟩ (by decide)⟩
  intro m hm
  simp only [prog3, List.mem_cons, List.not_mem_nil, or_false] at hm
  rcases hm with rfl | rfl | rfl
  · exact ⟨[⟨77, str "0"⟩], by decide +kernel, fun c hc => by rw [List.mem_singleton.1 hc]; exact (hN _ (by decide)).2, by decide +kernel⟩
  · refine ⟨[⟨78, str "1"⟩, ⟨77, str "0"⟩], by decide +kernel, fun c hc => ?_, by decide +kernel⟩
    simp only [List.mem_cons, List.not_mem_nil, or_false] at hc
    rcases hc with rfl | rfl
    · exact (hN _ (by decide)).1
    · exact (hN _ (by decide)).2
  · refine ⟨[⟨78, str "2"⟩, ⟨77, str "1"⟩], by decide +kernel, fun c hc => ?_, by decide +kernel⟩
    simp only [List.mem_cons, List.not_mem_nil, or_false] at hc
    rcases hc with rfl | rfl
    · exact (hN _ (by decide)).1
    · exact (hN _ (by decide)).2

/-- C95_kit: all hypotheses hold for the kit in exact arithmetic, with these three instructions stored and nothing on the line. -/
example : ∃ (w0 : World XR) (σ : ℕ → Sys XR) (ev : ℕ → Ev XR) (n0 : ℕ), w0.servos = Kit.servos ∧ Endless Kit.cfg w0 (fun _ => 0) σ ev ∧ StoredProgram w0.ee prog3 ∧
    (∀ m ∈ prog3, CarefulInstr m) ∧ (∀ n, WellSent (w0.rxq ++ arrivals (sofar ev n))) ∧ (∀ n i m, ev n ≠ .act (.micro i m)) ∧ Fair σ ev ∧
    (∃ k ≤ n0, ev k = .next) ∧ (view ev n0).sel = .storage ∧ program prog3 (rxBytes (acts (sofar ev n0))) = prog3 ∧ KeepsStorage ev n0 ∧ OnlyAsksNow ev n0 := by
  let w0 : World XR := { servos := Kit.servos, now := 1, pins := fun _ => false, rxq := [], ee := mem3, outs := [] }
  let s0 : Sys XR := ⟨w0, setup Kit.cfg fun _ => 0⟩
  have hc : StaysPlaying (s0, false) := ⟨rfl, rfl, play_setup Kit.cfg fun _ => 0⟩
  have hstay := play_after Kit.cfg s0 hc
  have hs := fun n => (play_sched Kit.cfg _ (hstay n).1).2
  have hE : Endless Kit.cfg w0 (fun _ => 0) (hist Kit.cfg s0) (evs Kit.cfg s0) := by
    refine endless Kit.cfg w0 (fun _ => 0) fun n f hf => ?_
    have := (hstay n).1.prog
    rw [show (after Kit.cfg s0 n).1.p = .fault f from hf] at this
    exact this
  have hrx : ∀ n, rxBytes (acts (sofar (evs Kit.cfg s0) n)) = [] := by
    intro n
    induction n with
    | zero => rfl
    | succ n ih =>
      rw [rx_snoc, ih]
      have := (hs n).2.1
      have : ∀ b, evs Kit.cfg s0 n ≠ .act (.rx (some b)) := this
      generalize evs Kit.cfg s0 n = x at this
      match x, this with
      | .act (.rx (some b)), hb => exact absurd rfl (hb b)
      | .act (.rx none), _ | .act (.eeRead m), _ | .act (.servo _ _), _ | .act (.micro _ _), _ | .act (.now _), _ | .act (.pin _ _), _ | .act (.eeWrite _ _), _
      | .act (.out _), _ | .next, _ | .isr, _ | .clock _, _ | .pins _, _ | .arrive _, _ => rfl
  have harr : ∀ n, w0.rxq ++ arrivals (sofar (evs Kit.cfg s0) n) = [] := fun n => by
    rw [(hE.run n).fifo, hrx]
    exact (hstay n).1.rx
  obtain ⟨n0, _, hn0⟩ := hE.loops 0
  refine ⟨w0, _, _, n0, rfl, hE, ⟨by decide, by decide, has3.image⟩, prog3_careful, fun n => ?_, fun n i m => (hs n).2.2.1 i m, fun n => ?_, ⟨n0, Nat.le_refl _, hn0⟩, ?_,
    by rw [hrx]; rfl, fun k _ e => absurd e ((hs k).2.1 13), fun k _ m e => absurd e ((hs k).1 m)⟩
  · rw [harr]
    exact ⟨by decide, by decide, fun p hp => by cases hp⟩
  · obtain ⟨a, ha, hn⟩ := hE.loops n
    obtain ⟨s, hp⟩ := hE.pass hn
    refine ⟨a, _, s, by omega, hp, fun k hk _ => ?_⟩
    have hcs : Playing s := by
      have := (hstay a).1.prog
      rw [show (after Kit.cfg s0 a).1.p = .ret s from hp.start] at this
      exact this
    refine ⟨fun c hc => absurd (hcs.2.2.1 ▸ hc) (by simp), ?_⟩
    rw [hcs.2.2.2.1, (hstay k).2]; show 0 < 1; decide
  · obtain ⟨s, hb, _⟩ := hE.atNext hn0
    have hmode := (agrees hE hb).mode
    have : Playing s := by
      have := (hstay n0).1.prog
      rw [show (after Kit.cfg s0 n0).1.p = .ret s from hb] at this
      exact this
    have hm := this.2.1
    rw [hm] at hmode
    cases hsel : (view (evs Kit.cfg s0) n0).sel <;> rw [hsel] at hmode <;> first | rfl | cases hmode

end Mrc.Props
