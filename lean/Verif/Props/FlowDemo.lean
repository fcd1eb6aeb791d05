import Verif.Props.FlowLive
/-
Runs that satisfy the hypotheses of C89 and C90.
-/
set_option maxRecDepth 100000
namespace Mrc.Props
open Mrc Mrc.Prog Mrc.Spec Mrc.Demo

section
variable {F : Type} [FloatOps F]

/-- `k` steps of the fair scheduler. -/
def steps (cfg : Cfg F) : ℕ → Sys F × Bool → List (Ev F) × (Sys F × Bool)
  | 0, x => ([], x)
  | k + 1, x => match sched cfg x with | (e, y) => match steps cfg k y with | (es, z) => (e :: es, z)

theorem steps_run {cfg : Cfg F} {w0 : World F} {junk : Nat → Byte} (k : ℕ) : ∀ {evs : List (Ev F)} (x : Sys F × Bool), Sys.Run cfg w0 junk evs x.1 →
    Sys.Run cfg w0 junk (evs ++ (steps cfg k x).1) (steps cfg k x).2.1 := by
  induction k with
  | zero => intro evs x h; simpa [steps] using h
  | succ k ih =>
    intro evs x h
    have := ih (evs := evs ++ [(sched cfg x).1]) (sched cfg x).2 (h.step (sched_do cfg x))
    rw [List.append_assoc] at this
    exact this

theorem sched_silent (cfg : Cfg F) (x : Sys F × Bool) : arrivals [(sched cfg x).1] = [] := by
  obtain ⟨⟨w, p⟩, b⟩ := x
  cases p with
  | ret s => cases b <;> rfl
  | rx k =>
    simp only [sched, mainEv]
    split <;> rfl
  | _ => rfl

theorem steps_quiet (cfg : Cfg F) (k : ℕ) : ∀ x, arrivals (steps cfg k x).1 = [] := by
  induction k with
  | zero => intro x; rfl
  | succ k ih =>
    intro x
    show arrivals ([(sched cfg x).1] ++ (steps cfg k (sched cfg x).2).1) = []
    rw [arrivals_append, sched_silent, ih]; rfl

/-- a host that sends nothing goes on counting. -/
theorem counting_quiet {r0 : List Byte} {evs more : List (Ev F)} (h : CountingHost r0 evs) (hm : arrivals more = []) : CountingHost r0 (evs ++ more) := by
  intro a b e
  rcases List.append_eq_append_iff.1 e with ⟨z, h1, h2⟩ | ⟨z, h1, h2⟩
  · have hz : arrivals z = [] := by rw [h2, arrivals_append] at hm; exact (List.append_eq_nil_iff.1 hm).1
    have hs : sent r0 a = sent r0 evs := by rw [h1, sent, arrivals_append, hz, List.append_nil]; rfl
    have hf : freeReports (acts a) = freeReports (acts evs) + freeReports (acts z) := by rw [h1, acts_append, freeReports, List.countP_append]; rfl
    rw [hs]
    exact Nat.le_trans (qSize_drop_le (by omega)) (h evs [] (by simp))
  · exact h a z h1

/-- it is enough to check when something is sent. -/
theorem counting_arrive {r0 : List Byte} {evs : List (Ev F)} (h : CountingHost r0 evs) (bs : List Byte)
    (hb : qSize ((puts (sent r0 (evs ++ [.arrive bs]))).drop (freeReports (acts evs) - asks (sent r0 (evs ++ [.arrive bs])))) ≤ QUEUE) : CountingHost r0 (evs ++ [.arrive bs]) := by
  intro a b e
  rcases List.eq_nil_or_concat b with rfl | ⟨b', x, rfl⟩
  · rw [List.append_nil] at e
    subst e
    rw [acts_append]
    simpa [acts] using hb
  · rw [List.concat_eq_append, ← List.append_assoc] at e
    exact h a b' (List.append_inj' e rfl).1
end

/-- an instruction of 74 characters, as a frame. -/
def long (v : String) : List Byte := str ":Q" ++ (List.replicate 24 (str v)).flatten ++ str "V1\r"

/-- the kit, four such instructions on the line: they fill the queue (4 * 75 = 300). -/
def fullWorld : World Rat := demoWorld (@Kit.servos Rat toyFloat 0) (long "V11" ++ long "V12" ++ long "V13" ++ long "V14")
def full0 : Sys Rat × Bool := (⟨fullWorld, @setup Rat toyFloat (@Kit.cfg Rat toyFloat) fun _ => 0⟩, false)
/-- until the first one has been started. -/
def full1 : List (Ev Rat) × (Sys Rat × Bool) := @steps Rat toyFloat (@Kit.cfg Rat toyFloat) 120 full0
/-- then a fifth one is sent. -/
def full2 : Sys Rat × Bool := (⟨{ full1.2.1.w with rxq := full1.2.1.w.rxq ++ long "V15" }, full1.2.1.p⟩, full1.2.2)
def full3 : List (Ev Rat) × (Sys Rat × Bool) := @steps Rat toyFloat (@Kit.cfg Rat toyFloat) 600 full2


theorem counting_full1 : CountingHost fullWorld.rxq full1.1 := by
  have h0 : CountingHost (F := Rat) fullWorld.rxq [] := by
    intro a b e
    obtain ⟨rfl, rfl⟩ := List.append_eq_nil_iff.1 e.symm
    decide +kernel
  have := @counting_quiet Rat toyFloat _ _ _ h0 (@steps_quiet Rat toyFloat (@Kit.cfg Rat toyFloat) 120 full0)
  rwa [List.nil_append] at this

/-- C89: five instructions, more than the queue can hold; the host sends the fifth after the first report. All hypotheses hold, and all five are read. -/
example : ∃ evs s, @Sys.Run Rat toyFloat (@Kit.cfg Rat toyFloat) fullWorld (fun _ => 0) evs s ∧ CountingHost fullWorld.rxq evs ∧
    (∀ p ∈ decode (sent fullWorld.rxq evs), frame p ≠ .clear) ∧ qSize (puts (sent fullWorld.rxq evs)) = 375 ∧ (puts (rxBytes (acts evs))).length = 5 := by
  letI := toyFloat
  have r1 : Sys.Run (Kit.cfg : Cfg Rat) fullWorld (fun _ => 0) full1.1 full1.2.1 := by
    have := steps_run (cfg := Kit.cfg) 120 full0 (Sys.Run.init (cfg := Kit.cfg) (w0 := fullWorld) (junk := fun _ => 0))
    rwa [List.nil_append] at this
  have r2 : Sys.Run (Kit.cfg : Cfg Rat) fullWorld (fun _ => 0) (full1.1 ++ [.arrive (long "V15")]) full2.1 := r1.step (.arrive _)
  have hs : sent fullWorld.rxq (full1.1 ++ [.arrive (long "V15")] ++ full3.1) = fullWorld.rxq ++ long "V15" := by
    rw [sent, arrivals_append, arrivals_append, full1, full3, steps_quiet, steps_quiet]; simp [arrivals]
  have hs' : sent fullWorld.rxq (full1.1 ++ [.arrive (long "V15")]) = fullWorld.rxq ++ long "V15" := by
    rw [sent, arrivals_append, full1, steps_quiet]; simp [arrivals]
  refine ⟨_, _, steps_run 600 full2 r2, counting_quiet (counting_arrive counting_full1 _ ?_) (steps_quiet _ _ _), ?_, ?_, ?_⟩
  · rw [hs']
    have : freeReports (acts full1.1) = 1 := by decide +kernel
    rw [this]
    decide +kernel
  · rw [show (steps Kit.cfg 600 full2).1 = full3.1 from rfl, hs]
    decide +kernel
  · rw [show (steps Kit.cfg 600 full2).1 = full3.1 from rfl, hs]
    decide +kernel
  · decide +kernel

theorem kev_quiet (rx : String) (n : ℕ) : arrivals (sofar (kev rx) n) = [] := by
  induction n with
  | zero => rfl
  | succ n ih => rw [@sofar_succ Rat toyFloat, @arrivals_append Rat toyFloat, ih]; exact @sched_silent Rat toyFloat _ _

/-- C90: the run with two instructions satisfies all hypotheses. -/
example : @Endless Rat toyFloat (@Kit.cfg Rat toyFloat) (demoWorld (@Kit.servos Rat toyFloat 0) (str rx2)) (fun _ => 0) (kσ rx2) (kev rx2) ∧ @Parts Rat toyFloat ∧
    @Fair Rat (kσ rx2) (kev rx2) ∧ (∀ n, CountingHost (str rx2) (sofar (kev rx2) n)) ∧ (∀ n, QueueOnly (sent (str rx2) (sofar (kev rx2) n))) ∧
    (∀ n s, Between (kσ rx2) n s → ∀ i, @Settles Rat toyFloat ((kσ rx2 n).w.servos (armServo i))) ∧
    ∀ n, puts (sent (str rx2) (sofar (kev rx2) n)) = [str "N5M0R01", str "V20"] := by
  obtain ⟨h1, h2, h3, -, -⟩ := rx2_run
  have hs : ∀ n, sent (str rx2) (sofar (kev rx2) n) = str rx2 := fun n => by rw [sent, kev_quiet, List.append_nil]
  have h0 : CountingHost (F := Rat) (str rx2) [] := by
    intro a b e
    obtain ⟨rfl, rfl⟩ := List.append_eq_nil_iff.1 e.symm
    decide +kernel
  refine ⟨h1, parts_toy, h3, fun n => by simpa using @counting_quiet Rat toyFloat _ _ _ h0 (kev_quiet rx2 n), fun n => ?_, fun n s _ i => ?_, fun n => ?_⟩
  · rw [hs n]
    intro p hp
    have : decode (str rx2) = [str "QN5M0R01", str "QV20"] := by decide +kernel
    rw [this] at hp
    simp only [List.mem_cons, List.not_mem_nil, or_false] at hp
    rcases hp with rfl | rfl
    · exact .inr (.inr (.inr (.inl ⟨str "N5M0R01", by decide +kernel⟩)))
    · exact .inr (.inr (.inr (.inl ⟨str "V20", by decide +kernel⟩)))
  · rcases Nat.lt_or_ge n 34 with hn | hn
    · have := allFrom_spec (fun _ x => armsOK x) rx2 34 0 (by decide +kernel) n (by omega) (by omega)
      have := List.all_eq_true.1 this i (List.mem_finRange i)
      simp only [servoOK, Bool.and_eq_true, decide_eq_true_eq] at this
      exact settles_toy this.1 this.2
    · exact h2 n hn i
  · rw [hs n]; decide +kernel

end Mrc.Props
