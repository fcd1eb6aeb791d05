import Verif.Proof.AskingRun
import Verif.Props.ProgramDemo
/-
C118: asking does not disturb.
-/
set_option maxRecDepth 100000
namespace Mrc.Props
open Mrc Mrc.Prog Mrc.Spec Mrc.Demo

section
variable {F : Type} [FloatOps F] {cfg : Cfg F} {w0 : World F} {junk : Nat → Byte} {evs : List (Ev F)} {w : World F} {s : FW F}

/-- **C118**: take any history of the system, between two rounds of the main loop, in which a line has been read that only asks
(`E<m>`, `m` a question, or `B`) or says nothing. Then there is a history of the same
system to which this line was never sent: it consists of the same events in the same order (the same readings, stores, messages, starts, interrupts, clock and pins), without those that belong to
the question, which are: its bytes are read, it begins, servos are looked at, and `N0` and the reply (or the
free space) are sent. At the end the controller is in the same state (apart from what is left in the
input buffer after the end of a line), and so are the servos, the clock, the pins and the storage. -/
theorem C118_asif (h : Sys.Run cfg w0 junk evs ⟨w, .ret s⟩) {r1 l r2 : List Byte} (h1 : tail r1 = []) (ha : OnlyAsksLine l) (hu : rxBytes (acts evs) = r1 ++ (l ++ [13]) ++ r2) :
    ∃ evs' w' f' a, Sys.Run cfg { w0 with rxq := [] } junk evs' ⟨w', .ret { s with framer := f' }⟩ ∧ rxBytes (acts evs') = r1 ++ r2 ∧ Reaction l a ∧
      Merge (noted evs') ((((l ++ [13]).map fun b => .rx (some b)) ++ a).map .act) (noted evs) ∧
      w'.servos = w.servos ∧ w'.now = w.now ∧ w'.pins = w.pins ∧ w'.ee = w.ee :=
  Asking.run_asif h h1 ha hu

theorem merge_filter {α : Type} {p : α → Bool} {a v c : List α} (h : Merge a v c) (hv : ∀ x ∈ v, p x = false) : a.filter p = c.filter p := by
  induction h with
  | nil => rfl
  | left _ ih => simp only [List.filter_cons, ih hv]
  | @right x _ _ _ _ ih => rw [List.filter_cons, hv x (by simp)]; simpa using ih fun y hy => hv y (by simp [hy])

/-- **C118/2**: the same for any number of such lines. In particular everything that is not of the kind of a question (stores into servos, reports of completion, outputs,
writing to the storage, starts of other instructions, interrupts, ...) is exactly the same, in the same order. -/
theorem C118_all (h : Sys.Run cfg w0 junk evs ⟨w, .ret s⟩) {r' : List Byte} (hw : Without (rxBytes (acts evs)) r') :
    ∃ w0' evs' w' f' v, w0' = { w0 with rxq := w0'.rxq } ∧ Sys.Run cfg w0' junk evs' ⟨w', .ret { s with framer := f' }⟩ ∧ rxBytes (acts evs') = r' ∧
      (∀ e ∈ v, ∃ a, e = .act a ∧ OfQuestion a) ∧ Merge (noted evs') v (noted evs) ∧
      (∀ p : Ev F → Bool, (∀ a, OfQuestion a → p (.act a) = false) → (noted evs').filter p = (noted evs).filter p) ∧
      w'.servos = w.servos ∧ w'.now = w.now ∧ w'.pins = w.pins ∧ w'.ee = w.ee := by
  obtain ⟨w0', evs', w', f', v, g0, g1, g2, g3, g4, g5⟩ := Asking.run_without hw h rfl
  refine ⟨w0', evs', w', f', v, g0, g1, g2, g3, g4, fun p hp => merge_filter g4 fun e he => ?_, g5⟩
  obtain ⟨a, rfl, ha⟩ := g3 e he
  exact hp a ha

end

/-! a run that meets the hypotheses: a question asked during a move -/

/-- a move to one degree, three speeds, and while the move is under way the question for the angle of the first axis and the forward coordinate. -/
def chatWorld : World Rat := demoWorld (@Kit.servos Rat toyFloat 0) (str ":QN5M0R01\r:QV20\r:QV20\r:QV20\r:ER0X\r:QN6V30\r")
def chat0 : Sys Rat × Bool := (⟨chatWorld, @setup Rat toyFloat (@Kit.cfg Rat toyFloat) fun _ => 0⟩, false)
def chat1 (k : ℕ) : List (Ev Rat) × (Sys Rat × Bool) := @steps Rat toyFloat (@Kit.cfg Rat toyFloat) k chat0
theorem chat1_run (k : ℕ) : @Sys.Run Rat toyFloat (@Kit.cfg Rat toyFloat) chatWorld (fun _ => 0) (chat1 k).1 (chat1 k).2.1 := by
  letI := toyFloat
  have := steps_run (cfg := Kit.cfg) k chat0 (Sys.Run.init (cfg := Kit.cfg) (w0 := chatWorld) (junk := fun _ => 0))
  rwa [List.nil_append] at this

theorem chat_asks : OnlyAsksLine (str ":ER0X") := by
  refine ⟨by decide, .inr (.inr (.inr ⟨str "R0X", by decide, [⟨82, [48]⟩, ⟨88, []⟩], ?_, ?_, by decide⟩))⟩
  · intro c hc
    simp only [List.mem_cons, List.not_mem_nil, or_false] at hc
    rcases hc with rfl | rfl <;> exact ⟨by decide, by decide, by decide⟩
  · intro c hc
    simp only [List.mem_cons, List.not_mem_nil, or_false] at hc
    rcases hc with rfl | rfl
    · exact .inr (.inl ⟨rfl, rfl⟩)
    · exact .inl ⟨by decide, rfl⟩

/-- what of a run is of interest here: 1 the servo of the first axis is sent somewhere, 2 the question begins, 3 a reply is sent, 4 completion of instruction 5 is reported, 5 that of 6. -/
def chatMarks (tr : List (Act Rat)) : List Nat := tr.filterMap fun
  | .micro 0 (.setTarget _) => some 1
  | .out (.ghost .immediate _) => some 2
  | .out (.msg (.reply _ _)) => some 3
  | .out (.msg (.n1 5)) => some 4
  | .out (.msg (.n1 6)) => some 5
  | _ => none

/-- C118: the question is asked and answered after the arm has set out and before the move is reported. -/
example : ∃ evs w s, @Sys.Run Rat toyFloat (@Kit.cfg Rat toyFloat) chatWorld (fun _ => 0) evs ⟨w, .ret s⟩ ∧ tail (str ":QN5M0R01\r:QV20\r:QV20\r:QV20\r") = [] ∧ OnlyAsksLine (str ":ER0X") ∧
    rxBytes (acts evs) = str ":QN5M0R01\r:QV20\r:QV20\r:QV20\r" ++ (str ":ER0X" ++ [13]) ++ str ":QN6V30\r" ∧ chatMarks (acts evs) = [1, 2, 3, 4, 5] := by
  obtain ⟨s, hs⟩ := at_ret (x := (chat1 251).2.1) (by decide +kernel)
  have := chat1_run 251
  rw [hs] at this
  exact ⟨_, _, s, this, by decide, chat_asks, by decide +kernel, by decide +kernel⟩

/-- C118/2: the history without the question, as the theorem gives it, sends the arm on the same way and reports the same. -/
example : ∃ w0' evs' w' s', @Sys.Run Rat toyFloat (@Kit.cfg Rat toyFloat) w0' (fun _ => 0) evs' ⟨w', .ret s'⟩ ∧ rxBytes (acts evs') = str ":QN5M0R01\r:QV20\r:QV20\r:QV20\r:QN6V30\r" ∧
    w'.servos = (chat1 251).2.1.w.servos := by
  letI := toyFloat
  obtain ⟨s, hs⟩ := at_ret (x := (chat1 251).2.1) (by decide +kernel)
  have h := chat1_run 251
  rw [hs] at h
  have e : rxBytes (acts (chat1 251).1) = str ":QN5M0R01\r:QV20\r:QV20\r:QV20\r" ++ (str ":ER0X" ++ [13]) ++ str ":QN6V30\r" := by decide +kernel
  have hw : Without (rxBytes (acts (chat1 251).1)) (str ":QN5M0R01\r:QV20\r:QV20\r:QV20\r:QN6V30\r") := by
    rw [e]; exact .drop (by decide) chat_asks (.refl _)
  obtain ⟨w0', evs', w', f', v, _, g1, g2, _, _, _, g6, _⟩ := C118_all h hw
  exact ⟨w0', evs', w', _, g1, g2, g6⟩

end Mrc.Props
