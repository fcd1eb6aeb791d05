import Verif.Proof.Dialogue
import Verif.Props.Immediate
/-
C133: the whole conversation, immediate instructions included.
-/
set_option maxRecDepth 100000
set_option linter.unusedSectionVars false
namespace Mrc.Props
open Mrc Mrc.Prog Mrc.Spec Mrc.Rest
variable {F : Type} [FloatOps F] {cfg : Cfg F} {junk : Nat → Byte} {tr : List (Act F)} {p : Prog F (FW F)}

theorem heard_fold (tr : List (Act F)) : tr.foldl Dlg.nupd [] = heard tr := by
  induction tr using List.reverseRecOn with
  | nil => rfl
  | append_singleton tr a ih => rw [List.foldl_append, ih, Dlg.heard_snoc]; rfl

theorem dialogue_sound (h : Trace cfg junk tr p) :
    (∀ pre a post, tr = pre ++ a :: post → a.isInput = false → Dlg.nmon.ok (pre.foldl Dlg.nupd []) a) ∧ p.wp Dlg.nmon (fun g s => Dlg.NI g s.core) (tr.foldl Dlg.nupd []) :=
  (Dlg.dialogue_inv cfg).sound [] junk (fun _ _ _ _ _ => by
    intro ts _ h2
    have : ts = [] := by simpa using h2
    subst this
    exact ⟨{}, rfl, rfl, fun _ => rfl, rfl⟩) (fun _ _ => rfl) (fun _ => rfl) h (fun _ _ _ _ _ => trivial)

/-- **C133**: every conversation follows the rules, in every history of instructions whose axes and methods are digits, whatever their sources, and however they interrupt each other. -/
theorem C133_rules (h : Trace cfg junk tr p) {ts : List Turn} (h1 : ∀ t ∈ ts, t.Plain) (h2 : ts.map Turn.heard = heard tr) : ∃ d, dialogue ts = some d := by
  have key : ∀ mid : List (Act F), ∀ post, tr = mid ++ post → ∀ ts : List Turn, (∀ t ∈ ts, t.Plain) → ts.map Turn.heard = heard mid → ∃ d, dialogue ts = some d := by
    intro mid
    induction mid using List.reverseRecOn with
    | nil =>
      intro _ _ ts _ h2
      have : ts = [] := by simpa [heard] using h2
      subst this
      exact ⟨{}, rfl⟩
    | append_singleton mid a ih =>
      intro post e ts h1 h2
      rw [List.append_assoc, List.singleton_append] at e
      rw [Dlg.heard_snoc] at h2
      cases hx : Dlg.heardOf a with
      | none => exact ih _ e ts h1 (by simpa [hx] using h2)
      | some x =>
        have hi : a.isInput = false := by
          match a, hx with
          | .out _, _ => rfl
        have hok := (dialogue_sound h).1 mid a post e hi
        rw [heard_fold] at hok
        exact hok x hx ts h1 (by simpa [hx] using h2)
  exact key tr [] (by simp) ts h1 h2

/-- **C133**: between two passes of the main loop nothing remains to be said, except what is due. -/
theorem C133_pass {s : FW F} (h : Trace cfg junk tr (.ret s)) {ts : List Turn} (h1 : ∀ t ∈ ts, t.Plain) (h2 : ts.map Turn.heard = heard tr) : ∃ d, dialogue ts = some d ∧ d.left = [] := by
  have := (dialogue_sound h).2
  rw [heard_fold] at this
  obtain ⟨d, e1, e2, -⟩ := this ts h1 h2
  exact ⟨d, e1, e2⟩

/-! ### what follows from the rules -/

/-- the instructions begun that end with an order and have the number `n`. -/
def demanded (n : Int) (ts : List Turn) : Nat := ts.countP fun | .begun _ cs => demands cs && numberOf cs == n | .said _ => false

/-- how often N1 was said for `n`. -/
def reported (n : Int) (ts : List Turn) : Nat := ts.countP fun | .said (.finished x) => x == n | _ => false

/-- the instructions begun that end with a question. -/
def posed (ts : List Turn) : Nat := ts.countP fun | .begun _ cs => poses cs | .said _ => false

/-- the answers given. -/
def answered (ts : List Turn) : Nat := ts.countP fun | .said (.answer _ _) => true | _ => false

def isAnswer : Word → Bool
  | .answer _ _ => true
  | _ => false

theorem begins_kind (cs : List Cmd) : ∀ w ∈ begins cs, ∃ n, w = .begun n := by
  intro w hw
  rw [begins, List.mem_filterMap] at hw
  obtain ⟨c, -, hc⟩ := hw
  split at hc
  · cases hc; exact ⟨_, rfl⟩
  · cases hc

/-- what remains to be said is never an N1. -/
theorem left_kind {ts : List Turn} {d : Dialogue} (h : dialogue ts = some d) : ∀ w ∈ d.left, ∀ n, w ≠ .finished n := by
  induction ts using List.reverseRecOn generalizing d with
  | nil => cases h; intro w hw; cases hw
  | append_singleton ts t ih =>
    rw [Dlg.dialogue_snoc] at h
    cases hd : dialogue ts with
    | none => rw [hd] at h; cases h
    | some d0 =>
      rw [hd] at h
      simp only [Option.bind_some] at h
      have i := ih hd
      cases t with
      | begun nw cs =>
        simp only [Dialogue.step] at h
        split at h
        · cases h
          intro w hw n e
          subst e
          rcases List.mem_append.1 hw with hw | hw
          · obtain ⟨m, e⟩ := begins_kind cs _ hw; cases e
          · split at hw
            · simp at hw
            · cases hw
        · cases h
      | said w' =>
        simp only [Dialogue.step] at h
        split at h
        · rename_i x rest e
          split at h
          · cases h
            intro w hw
            exact i w (by rw [e]; exact List.mem_cons_of_mem _ hw)
          · cases h
        · split at h
          · cases h; rename_i e _; intro w hw; simp only [e] at hw; cases hw
          · cases h

/-- **C133**: no number is reported as finished more often than an order with it was begun. -/
theorem C133_reports {ts : List Turn} {d : Dialogue} (h : dialogue ts = some d) (n : Int) (hn : 0 < n) : reported n ts + (if d.due = n then 1 else 0) ≤ demanded n ts := by
  induction ts using List.reverseRecOn generalizing d with
  | nil =>
    cases h
    rw [if_neg (show (0 : Int) ≠ n by omega)]; simp [reported]
  | append_singleton ts t ih =>
    rw [Dlg.dialogue_snoc] at h
    cases hd : dialogue ts with
    | none => rw [hd] at h; cases h
    | some d0 =>
      rw [hd] at h
      simp only [Option.bind_some] at h
      have i := ih hd
      have hk := left_kind hd
      rw [reported, demanded, List.countP_append, List.countP_append]
      rw [reported, demanded] at i
      cases t with
      | begun nw cs =>
        simp only [Dialogue.step] at h
        split at h
        · cases h
          simp only [List.countP_cons, List.countP_nil]
          rcases Bool.eq_false_or_eq_true (demands cs) with hdm | hdm
          · by_cases e : numberOf cs = n
            · simp [hdm, e]; split at i <;> omega
            · simp [hdm, e]; split at i <;> omega
          · simp [hdm]; split at i <;> simp_all
        · cases h
      | said w' =>
        simp only [Dialogue.step] at h
        split at h
        · rename_i x rest e
          split at h
          · cases h
            rename_i e2
            subst e2
            have hnf : ∀ m, w' ≠ .finished m := hk w' (by rw [e]; exact List.mem_cons_self)
            cases w' with
            | finished m => exact absurd rfl (hnf m)
            | begun m => simpa using i
            | answer a b => simpa using i
          · cases h
        · split at h
          · cases h
            rename_i _ e2
            obtain ⟨e2, e3⟩ := e2
            subst e2
            rw [if_neg (show (-1 : Int) ≠ n by omega)]
            by_cases e : d0.due = n
            · simp [e] at i ⊢; omega
            · simp [e] at i ⊢; omega
          · cases h

/-- **C133**: exactly the questions are answered: when nothing remains to be said there were as many answers as instructions that end with a question. -/
theorem C133_answers {ts : List Turn} {d : Dialogue} (h : dialogue ts = some d) : answered ts + d.left.countP isAnswer = posed ts := by
  induction ts using List.reverseRecOn generalizing d with
  | nil => cases h; rfl
  | append_singleton ts t ih =>
    rw [Dlg.dialogue_snoc] at h
    cases hd : dialogue ts with
    | none => rw [hd] at h; cases h
    | some d0 =>
      rw [hd] at h
      simp only [Option.bind_some] at h
      have i := ih hd
      rw [answered, posed, List.countP_append, List.countP_append]
      rw [answered, posed] at i
      cases t with
      | begun nw cs =>
        simp only [Dialogue.step] at h
        split at h
        · cases h
          rename_i e
          rw [e.1] at i
          have hb : (begins cs).countP isAnswer = 0 := by
            rw [List.countP_eq_zero]
            intro w hw
            obtain ⟨m, rfl⟩ := begins_kind cs w hw
            simp [isAnswer]
          simp only [List.countP_cons, List.countP_nil, List.countP_append, hb] at i ⊢
          rcases Bool.eq_false_or_eq_true (poses cs) with hps | hps
          · simp [hps, isAnswer] at i ⊢; omega
          · simp [hps] at i ⊢; omega
        · cases h
      | said w' =>
        simp only [Dialogue.step] at h
        split at h
        · rename_i x rest e
          split at h
          · cases h
            rename_i e2
            subst e2
            rw [e, List.countP_cons] at i
            cases w' <;> simp [isAnswer] at i ⊢ <;> omega
          · cases h
        · split at h
          · cases h
            rename_i e _ e2
            rw [e2.1]
            simpa using i
          · cases h

open Mrc.Demo in
/-- a history to which the rules apply: a move from the queue (N5), a question at once while it is under way (N6), then the next instruction from the queue (N7). -/
theorem C133_demo : ∃ tr s ts, @Trace Rat toyFloat (@Kit.cfg Rat toyFloat) (fun _ => 0) tr (.ret s) ∧ (∀ t ∈ ts, Turn.Plain t) ∧ ts.map Turn.heard = heard tr ∧
    ts = [.begun false [⟨78, str "5"⟩, ⟨82, str "01"⟩], .said (.begun 5), .begun true [⟨78, str "6"⟩, ⟨82, str "0"⟩], .said (.begun 6), .said (.answer (some 6) [(str "R0", none)]), .said (.finished 5),
      .begun false [⟨78, str "7"⟩, ⟨86, str "5"⟩], .said (.begun 7), .said (.finished 7)] := by
  have h := kitT_trace ":QN5R01\r                       :EN6R0\r:QN7V5\r" 6
  have hr : (match (kitT ":QN5R01\r                       :EN6R0\r:QN7V5\r" 6).2.1 with | .ret _ => true | _ => false) = true := by decide +kernel
  split at hr
  · rename_i s hs
    rw [hs] at h
    refine ⟨_, s, _, h, ?_, ?_, rfl⟩
    · intro t ht
      simp only [List.mem_cons, List.not_mem_nil, or_false] at ht
      rcases ht with rfl | rfl | rfl | rfl | rfl | rfl | rfl | rfl | rfl
      all_goals first | trivial | (refine ⟨fun c hc => ?_, fun c hc e => ?_, fun c hc e => ?_⟩ <;> simp only [List.mem_cons, List.not_mem_nil, or_false] at hc <;> rcases hc with rfl | rfl <;> first | (exact ⟨by decide, by decide, by decide⟩) | (exact absurd e (by decide)) | exact ⟨0, str "1", rfl⟩ | exact ⟨0, [], rfl⟩)
    · decide +kernel
  · cases hr

/-! ### conversations that follow the rules, and some that do not -/

def sayN5V : List Cmd := [⟨78, str "5"⟩, ⟨86, str "20"⟩]
def sayN6X : List Cmd := [⟨78, str "6"⟩, ⟨88, []⟩]

/-- a question while a move is under way. -/
example : (dialogue [.begun false sayN5V, .said (.begun 5), .begun true sayN6X, .said (.begun 6), .said (.answer (some 6) [(str "X", none)]), .said (.finished 5)]).isSome = true := by decide +kernel

/-- an order for immediate execution takes the place of one that is under way: its N1 is never said. -/
example : (dialogue [.begun false sayN5V, .said (.begun 5), .begun true [⟨78, str "7"⟩, ⟨86, str "9"⟩], .said (.begun 7), .said (.finished 7)]).map (·.due) = some (-1) := by decide +kernel
example : dialogue [.begun false sayN5V, .said (.begun 5), .begun true [⟨78, str "7"⟩, ⟨86, str "9"⟩], .said (.begun 7), .said (.finished 5)] = none := by decide +kernel

/-- the next instruction from the queue does not begin while an N1 is due. -/
example : dialogue [.begun false sayN5V, .said (.begun 5), .begun false sayN6X] = none := by decide +kernel

/-- nothing is reported twice. -/
example : dialogue [.begun false sayN5V, .said (.begun 5), .said (.finished 5), .said (.finished 5)] = none := by decide +kernel

end Mrc.Props
