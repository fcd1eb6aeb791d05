import Verif.Spec.Asking
import Verif.Proof.Order
import Verif.Proof.Pass
import Verif.Proof.Stream
import Verif.Proof.System
/-
A history with a question is a history without it, plus the question (C118).
-/
namespace Mrc.Asking
open Mrc Mrc.Spec Prog

variable {F : Type} [FloatOps F]

/-! ### merging -/

theorem merge_left {α : Type} (a : List α) : Merge a [] a := by
  induction a with
  | nil => exact .nil
  | cons x a ih => exact .left ih

theorem merge_right {α : Type} (a : List α) : Merge [] a a := by
  induction a with
  | nil => exact .nil
  | cons x a ih => exact .right ih

theorem merge_append {α : Type} {a b c a' b' c' : List α} (h : Merge a b c) (h' : Merge a' b' c') : Merge (a ++ a') (b ++ b') (c ++ c') := by
  induction h with
  | nil => exact h'
  | left _ ih => exact .left ih
  | right _ ih => exact .right ih

/-- the accesses without the looks at the serial line that find nothing. -/
def busyA : Act F → Bool
  | .rx none => false
  | _ => true
def busy (t : List (Act F)) : List (Act F) := t.filter busyA

theorem busy_append (t u : List (Act F)) : busy (t ++ u) = busy t ++ busy u := List.filter_append ..

theorem rxBytes_append (t u : List (Act F)) : rxBytes (t ++ u) = rxBytes t ++ rxBytes u := List.filterMap_append ..

theorem rxBytes_busy (t : List (Act F)) : rxBytes (busy t) = rxBytes t := by
  induction t with
  | nil => rfl
  | cons a t ih =>
    cases a with
    | rx b => cases b with
      | none => exact ih
      | some b => exact congrArg (b :: ·) ih
    | _ => exact ih

/-! ### programs that do not look at the framer -/

/-- the program passes the framer on. -/
def Par (p : FW F → Prog F (FW F)) : Prop := ∀ s f, p { s with framer := f } = (p s).bind fun s1 => .ret { s1 with framer := f }

theorem bind_ret (p : Prog F α) (f : α → β) (g : β → Prog F γ) : (p.bind fun a => .ret (f a)).bind g = p.bind fun a => g (f a) := by
  rw [bind_assoc]; rfl

theorem Par.exec {p : FW F → Prog F (FW F)} (hp : Par p) {s s1 : FW F} {t : List (Act F)} (h : Exec (p s) t (.ret s1)) :
    s1.framer = s.framer ∧ ∀ f, Exec (p { s with framer := f }) t (.ret { s1 with framer := f }) := by
  constructor
  · have e := hp s s.framer
    rw [show ({ s with framer := s.framer } : FW F) = s from rfl] at e
    rw [e] at h
    obtain ⟨s2, t1, u, rfl, _, h2⟩ := exec_bind_ret h
    obtain ⟨_, e2⟩ := exec_ret h2
    injection e2 with e2
    rw [e2]
  · intro f
    rw [hp s f]
    have := exec_bind_intro (f := fun s1 : FW F => .ret { s1 with framer := f }) h (.nil _)
    rwa [List.append_nil] at this

theorem par_rc (cfg : Cfg F) : Par (rcProcess cfg) := fun s f => by
  simp only [rcProcess, bind_assoc]; rfl

theorem par_handOver (cfg : Cfg F) (src : Src) (m : List Byte) : Par (fun s => Mrcp.handOver cfg src s m) := fun s f => by
  simp only [Mrcp.handOver, Prog.bind, bind_assoc]

theorem par_command (cfg : Cfg F) (p : List Byte) : Par (fun s => Mrcp.parseCommand cfg s p) := fun s f => by
  cases p with
  | nil => rfl
  | cons c rest =>
    simp only [Mrcp.parseCommand]
    repeat' split
    · rfl
    · exact par_handOver cfg _ _ s f
    · rfl
    · rfl
    · rfl
    · simp only [Prog.bind]
      congr 1; funext m
      split
      · simp only [Prog.bind, bind_assoc]
      · simp only [Prog.bind, bind_assoc]
    · rfl

theorem par_events (cfg : Cfg F) (es : List FEv) : Par (fun s => Mrcp.events cfg s es) := by
  induction es with
  | nil => exact fun s f => rfl
  | cons e es ih =>
    intro s f
    cases e with
    | oob => rfl
    | cmd p =>
      simp only [Mrcp.events]
      have e := par_command cfg p s f
      simp only at e
      rw [e, bind_assoc, bind_assoc]
      congr 1; funext s1
      exact ih s1 f

theorem par_process (cfg : Cfg F) : Par (Mrcp.process cfg) := fun s f => by
  simp only [Mrcp.process]
  split
  · rfl
  · split
    · split
      · split
        · simp only [Prog.bind]
          split
          · rfl
          · congr 1; exact par_handOver cfg _ _ { s with rb := s.rb.getMessage.2 } f
        · rfl
      · simp only [Prog.bind]
        congr 1; funext mem
        split
        · rfl
        · split
          · exact par_handOver cfg _ _ { s with eePtr := (EE.getNextMessage mem s.eePtr).2 } f
          · rfl
      · rfl
    · rfl

/-! ### questions -/

theorem exec_answering (cfg : Cfg F) (s : Core F) (l : Loc F) (c : Cmd) (hn : OnlyAsks c) : (Mril.exec cfg s l c.text).only Answering (fun _ => True) := by
  obtain ⟨letter, arg⟩ := c
  rcases hn with ⟨hm, h⟩ | ⟨h, h'⟩ | h
  · simp only at hm h
    subst h
    have e : str "XYZABCVM" = [88, 89, 90, 65, 66, 67, 86, 77] := by decide
    rw [e] at hm
    simp only [List.mem_cons, List.not_mem_nil, or_false] at hm
    rcases hm with rfl | rfl | rfl | rfl | rfl | rfl | rfl | rfl <;>
      simp [Cmd.text, Mril.exec, poseIdx, str, RC.getCurrentPose, RC.getCurrentLogicalAngles, RC.readAngles, readServo, Prog.bind, only, Answering]
  · simp only at h h'
    subst h
    obtain ⟨b, rfl⟩ := List.length_eq_one_iff.1 h'
    have hp : poseIdx 82 = none := by decide
    simp only [Cmd.text, Mril.exec, List.headD_cons]
    simp [RC.getCurrentLogicalAngles, RC.readAngles, readServo, Prog.bind]
    repeat' split
    all_goals first
      | (rename_i h _; rw [hp] at h; cases h)
      | (rename_i h; rw [hp] at h; cases h)
      | simp [only, Answering]
  · simp only at h
    subst h
    simp [Cmd.text, Mril.exec, poseIdx, send, Prog.bind, only, Answering]

theorem execAll_answering (cfg : Cfg F) (cs : List Cmd) (hn : ∀ c ∈ cs, OnlyAsks c) (s : Core F) (l : Loc F) : (execAll cfg cs s l).only Answering (fun _ => True) := by
  induction cs generalizing s l with
  | nil => trivial
  | cons c cs ih =>
    simp only [execAll, only_bind]
    exact only_mono (fun _ h => h) (fun r _ => ih (fun c hc => hn c (by simp [hc])) r.1 r.2) (exec_answering cfg s l c (hn c (by simp)))

/-- **answering only looks and sends.** -/
theorem parse_answering (cfg : Cfg F) (c : Core F) {m : List Byte} (hm : Asks m) : (Mril.parse cfg c m).only Answering (fun _ => True) := by
  obtain ⟨cs, ok, hn, rfl⟩ := hm
  by_cases hne : cs = []
  · subst hne; trivial
  · rw [parse_text cfg cs ok hne, only_bind]
    refine only_mono (fun _ h => h) (fun r _ => ?_) (execAll_answering cfg cs hn _ _)
    unfold Mril.finish
    simp only [send, bind_def, Prog.bind]
    split
    · exact ⟨.inr (.inr ⟨_, _, rfl⟩), trivial⟩
    · trivial
    · trivial

theorem exec_read (cfg : Cfg F) (s : Core F) (l : Loc F) (c : Cmd) (hn : OnlyAsks c) : (Mril.exec cfg s l c.text).only (fun _ => True) (fun r => c.letter ≠ 78 → r.2.ctype = .read) := by
  obtain ⟨letter, arg⟩ := c
  rcases hn with ⟨hm, h⟩ | ⟨h, h'⟩ | h
  · simp only at hm h
    subst h
    have e : str "XYZABCVM" = [88, 89, 90, 65, 66, 67, 86, 77] := by decide
    rw [e] at hm
    simp only [List.mem_cons, List.not_mem_nil, or_false] at hm
    rcases hm with rfl | rfl | rfl | rfl | rfl | rfl | rfl | rfl <;>
      simp [Cmd.text, Mril.exec, poseIdx, str, RC.getCurrentPose, RC.getCurrentLogicalAngles, RC.readAngles, readServo, Prog.bind, only]
  · simp only at h h'
    subst h
    obtain ⟨b, rfl⟩ := List.length_eq_one_iff.1 h'
    have hp : poseIdx 82 = none := by decide
    simp only [Cmd.text, Mril.exec, List.headD_cons]
    simp [RC.getCurrentLogicalAngles, RC.readAngles, readServo, Prog.bind]
    repeat' split
    all_goals first
      | (rename_i h _; rw [hp] at h; cases h)
      | (rename_i h; rw [hp] at h; cases h)
      | simp [only]
  · simp only at h
    subst h
    simp [Cmd.text, Mril.exec, poseIdx, send, Prog.bind, only]

theorem execAll_read (cfg : Cfg F) (cs : List Cmd) (hn : ∀ c ∈ cs, OnlyAsks c) (s : Core F) (l : Loc F) {c : Cmd} (hc : cs.getLast? = some c) (h : c.letter ≠ 78) :
    (execAll cfg cs s l).only (fun _ => True) (fun r => r.2.ctype = .read) := by
  induction cs generalizing s l with
  | nil => cases hc
  | cons d cs ih =>
    simp only [execAll, only_bind]
    cases cs with
    | nil =>
      simp only [List.getLast?_singleton, Option.some.injEq] at hc
      subst hc
      exact only_mono (fun _ h => h) (fun r hr => hr h) (exec_read cfg s l d (hn d (by simp)))
    | cons d' cs => exact only_mono (fun _ _ => trivial) (fun r _ => ih (fun c hc => hn c (by simp [hc])) r.1 r.2 (by simpa using hc)) (exec_answering cfg s l d (hn d (by simp)))

theorem parse_answered {cfg : Cfg F} {c c' : Core F} {m : List Byte} (hm : Asks m) {t : List (Act F)} (h : Exec (Mril.parse cfg c m) t (.ret c')) : Answered m t := by
  refine ⟨(only_exec h (parse_answering cfg c hm)).1, ?_⟩
  intro cs d ok e hl hd
  obtain ⟨cs', ok', hn, e'⟩ := hm
  have : cs = cs' := Props.text_inj ok ok' (e.symm.trans e')
  subst this
  have hne : cs ≠ [] := by rintro rfl; cases hl
  rw [e, parse_text cfg cs ok hne] at h
  obtain ⟨r, t1, t2, rfl, h1, h2⟩ := exec_bind_ret h
  have hr : r.2.ctype = .read := (only_exec h1 (execAll_read cfg cs hn _ _ hl hd)).2
  simp only [Mril.finish, hr, send, bind_def, Prog.bind] at h2
  cases h2 with
  | cons hs h2 =>
    cases hs
    obtain ⟨rfl, _⟩ := exec_ret h2
    exact ⟨_, _, by rw [List.getLast?_append]; rfl⟩

/-! ### between instructions no transaction is open -/

def Shut (s : FW F) : Prop := s.core.rc.inTransaction = false

theorem shut_rc {cfg : Cfg F} {s s1 : FW F} {t : List (Act F)} (hs : Shut s) (h : Exec (rcProcess cfg s) t (.ret s1)) : Shut s1 := by
  obtain ⟨r, t1, u, rfl, h1, h2⟩ := exec_bind_ret h
  obtain ⟨_, e⟩ := exec_ret h2
  injection e with e
  rw [e]
  exact ((only_exec h1 (RC.process_only cfg.toRCfg s.core.rc)).2).1.trans hs

theorem shut_handOver {cfg : Cfg F} {src : Src} {m : List Byte} {s s1 : FW F} {t : List (Act F)} (hs : Shut s) (h : Exec (Mrcp.handOver cfg src s m) t (.ret s1)) : Shut s1 := by
  have ho : (Mrcp.handOver cfg src s m).only (fun _ => True) (fun s1 => Shut s1) := by
    refine ⟨trivial, ?_⟩
    rw [only_bind]
    exact only_mono (fun _ _ => trivial) (fun c hc => hc) (Order.parse_closed cfg s.core m hs)
  exact (only_exec h ho).2

theorem eeWrites_only (ws : List (Nat × Byte)) {E : Act F → Prop} {Q : Unit → Prop} (hE : ∀ a b, E (.eeWrite a b)) (hq : Q ()) : (eeWrites ws : Prog F Unit).only E Q := by
  induction ws with
  | nil => exact hq
  | cons w ws ih => exact ⟨hE _ _, ih⟩

theorem command_shut (cfg : Cfg F) (s : FW F) (p : List Byte) (hs : Shut s) : (Mrcp.parseCommand cfg s p).only (fun _ => True) (fun s1 => Shut s1) := by
  cases p with
  | nil => exact hs
  | cons c rest =>
    simp only [Mrcp.parseCommand]
    repeat' split
    · exact ⟨trivial, hs⟩
    · refine ⟨trivial, ?_⟩
      rw [only_bind]
      exact only_mono (fun _ _ => trivial) (fun c hc => hc) (Order.parse_closed cfg s.core rest hs)
    · exact hs
    · exact hs
    · exact ⟨trivial, hs⟩
    · intro m
      refine ⟨trivial, ?_⟩
      have hg : ∀ ws, ((Prog.eeWrites ws).bind fun _ => (.ret { s with mode := .eeprom } : Prog F (FW F))).only (fun _ => True) (fun s1 => Shut s1) := by
        intro ws; rw [only_bind]; exact eeWrites_only ws (fun _ _ => trivial) hs
      by_cases hr : (EE.scan m).2 + rest.length + 1 > EEPROM_SIZE
      · simp only [hr, if_true]; exact ⟨trivial, hg _⟩
      · simp only [hr, if_false]; exact hg _
    · exact hs

theorem events_shut (cfg : Cfg F) (s : FW F) (es : List FEv) (hs : Shut s) : (Mrcp.events cfg s es).only (fun _ => True) (fun s1 => Shut s1) := by
  induction es generalizing s with
  | nil => exact hs
  | cons e es ih =>
    cases e with
    | oob => trivial
    | cmd p =>
      simp only [Mrcp.events, only_bind]
      exact only_mono (fun _ h => h) (fun s1 h => ih s1 h) (command_shut cfg s p hs)

theorem shut_process {cfg : Cfg F} {s s1 : FW F} {t : List (Act F)} (hs : Shut s) (h : Exec (Mrcp.process cfg s) t (.ret s1)) : Shut s1 := by
  have ho : (Mrcp.process cfg s).only (fun _ => True) (fun s1 => Shut s1) := by
    have hh : ∀ src (s' : FW F) m, Shut s' → (Mrcp.handOver cfg src s' m).only (fun _ => True) (fun s1 => Shut s1) := by
      intro src s' m hs'
      refine ⟨trivial, ?_⟩
      rw [only_bind]
      exact only_mono (fun _ _ => trivial) (fun c hc => hc) (Order.parse_closed cfg s'.core m hs')
    simp only [Mrcp.process]
    split
    · exact hs
    · split
      · split
        · split
          · refine ⟨trivial, ?_⟩
            split
            · trivial
            · exact hh _ _ _ hs
          · exact hs
        · intro mem
          refine ⟨trivial, ?_⟩
          by_cases h1 : (EE.getNextMessage mem s.eePtr).1.length > INPUT_BUFFER_SIZE
          · simp only [h1, if_true]; trivial
          · by_cases h2 : (EE.getNextMessage mem s.eePtr).1.length ≠ 0
            · simp only [h1, if_false]; rw [if_pos h2]; exact hh _ _ _ hs
            · simp only [h1, if_false]; rw [if_neg h2]; exact hs
        · exact hs
      · exact hs
  exact (only_exec h ho).2

/-! ### the same bytes mean the same -/

/-- framers after the same unfinished line treat the next byte alike. -/
theorem same_step {f f' : Framer} {l : List Byte} (h : f.At l) (h' : f'.At l) (b : Byte) : (f.step b).2 = (f'.step b).2 := by
  have e1 : (f.step b).2 = (nstep f.norm b).2 := by rw [← step_norm f b]
  have e2 : (f'.step b).2 = (nstep f'.norm b).2 := by rw [← step_norm f' b]
  rw [e1, e2, h.1, h'.1]

theorem at_next {f : Framer} {u : List Byte} (h : f.At (tail u)) (b : Byte) : (f.step b).1.At (tail (u ++ [b])) := by
  rw [tail_snoc]
  split
  · rename_i hb; subst hb; exact (Framer.at_cr h).1
  · rename_i hb; exact (Framer.at_step h b hb).1

/-! ### one byte -/

section
variable (r1 l r2 : List Byte)

/-- where we are: `u` has been read, `u'` of it in the history without the question, and `v` belongs to the question. -/
inductive Pos : List Byte → List Byte → List (Act F) → Prop
  | before {u y} : r1 = u ++ y → y ≠ [] → Pos u u []
  | during {x y} : l ++ [13] = x ++ y → y ≠ [] → Pos (r1 ++ x) r1 (x.map fun b => .rx (some b))
  | after {z w} : Reaction l w → Pos (r1 ++ (l ++ [13]) ++ z) (r1 ++ z) (((l ++ [13]).map fun b => .rx (some b)) ++ w)

/-- the two states. -/
def Rel (u u' : List Byte) (s s' : FW F) : Prop := ∃ f', s' = { s with framer := f' } ∧ s.framer.At (tail u) ∧ f'.At (tail u') ∧ Shut s

theorem pos_start : Pos (F := F) r1 l [] [] [] := by
  cases r1 with
  | nil => exact .during (x := []) (y := l ++ [13]) rfl (by simp)
  | cons a r => exact .before (y := a :: r) rfl (by simp)

variable {r1 l r2}

/-- a byte outside of the question. -/
theorem char_keep {cfg : Cfg F} {u u' : List Byte} {s s' s1 : FW F} {c : Byte} {t : List (Act F)} (hr : Rel u u' s s') (ht : tail u = tail u')
    (h : Exec (Mrcp.parseChar cfg s c) t (.ret s1)) : ∃ s1', Exec (Mrcp.parseChar cfg s' c) t (.ret s1') ∧ Rel (u ++ [c]) (u' ++ [c]) s1 s1' := by
  obtain ⟨f', rfl, h1, h2, h3⟩ := hr
  have hx : Exec (Mrcp.events cfg { s with framer := (s.framer.step c).1 } (s.framer.step c).2) t (.ret s1) := h
  have hp := (par_events cfg (s.framer.step c).2).exec hx
  refine ⟨{ s1 with framer := (f'.step c).1 }, ?_, _, rfl, ?_, at_next h2 c, ?_⟩
  · have := hp.2 (f'.step c).1
    show Exec (Mrcp.events cfg { s with framer := (f'.step c).1 } (f'.step c).2) t _
    rw [← same_step h1 (ht ▸ h2) c]
    exact this
  · rw [hp.1]; exact at_next h1 c
  · exact (only_exec hx (events_shut cfg _ _ h3)).2

/-- a byte of the question, not the last. -/
theorem char_inside {cfg : Cfg F} {u u' : List Byte} {s s' s1 : FW F} {c : Byte} {t : List (Act F)} (hr : Rel u u' s s') (hc : c ≠ 13)
    (h : Exec (Mrcp.parseChar cfg s c) t (.ret s1)) : t = [] ∧ Rel (u ++ [c]) u' s1 s' := by
  obtain ⟨f', rfl, h1, h2, h3⟩ := hr
  have hx : Exec (Mrcp.events cfg { s with framer := (s.framer.step c).1 } (s.framer.step c).2) t (.ret s1) := h
  have he := (Framer.at_step h1 c hc).2
  cases hes : (s.framer.step c).2 with
  | nil =>
    rw [hes] at hx
    obtain ⟨rfl, e⟩ := exec_ret hx
    injection e with e
    subst e
    exact ⟨rfl, f', rfl, at_next h1 c, h2, h3⟩
  | cons e es =>
    have : e = .oob := he e (by rw [hes]; simp)
    rw [hes, this] at hx
    cases hx with
    | cons hs _ => cases hs

theorem command_now {cfg : Cfg F} {p m : List Byte} (hframe : frame p = .now m) (s : FW F) : Mrcp.parseCommand cfg s p = Mrcp.handOver cfg .immediate s m := by
  cases p with
  | nil => cases hframe
  | cons c rest =>
    simp only [frame] at hframe
    simp only [Mrcp.parseCommand]
    by_cases h66 : c = 66
    · rw [if_pos h66] at hframe; cases hframe
    · by_cases h69 : c = 69
      · rw [if_neg h66, if_pos h69] at hframe ⊢
        injection hframe with hframe
        rw [hframe]
      · rw [if_neg h66, if_neg h69] at hframe
        split at hframe
        · split at hframe <;> cases hframe
        · split at hframe
          · split at hframe <;> cases hframe
          · cases hframe

theorem command_free {cfg : Cfg F} {p : List Byte} (hframe : frame p = .free) (s : FW F) : Mrcp.parseCommand cfg s p = .out (.msg (Mrcp.freeMsg s.rb)) (.ret s) := by
  cases p with
  | nil => cases hframe
  | cons c rest =>
    simp only [frame] at hframe
    simp only [Mrcp.parseCommand]
    by_cases h66 : c = 66
    · rw [if_pos h66]
    · rw [if_neg h66] at hframe
      repeat' split at hframe
      all_goals cases hframe

theorem command_empty {cfg : Cfg F} {p : List Byte} (hframe : frame p = .empty) (s : FW F) : Mrcp.parseCommand cfg s p = .ret s := by
  cases p with
  | nil => rfl
  | cons c rest =>
    simp only [frame] at hframe
    repeat' split at hframe
    all_goals cases hframe

/-- the end of the question. -/
theorem char_end {cfg : Cfg F} {u u' : List Byte} {s s' s1 : FW F} {t : List (Act F)} (hr : Rel u u' s s') (ha : OnlyAsksLine (tail u))
    (h : Exec (Mrcp.parseChar cfg s 13) t (.ret s1)) : Reaction (tail u) t ∧ Rel (u ++ [13]) u' s1 s' := by
  obtain ⟨f', rfl, h1, h2, h3⟩ := hr
  have hx : Exec (Mrcp.events cfg { s with framer := (s.framer.step 13).1 } (s.framer.step 13).2) t (.ret s1) := h
  rw [(Framer.at_cr h1).2] at hx
  have hf := at_next h1 13
  generalize s.framer.step 13 = st at hx hf
  by_cases hl : (payload (tail u)).length + 1 ≥ 80
  · rw [if_pos hl] at hx
    cases hx with
    | cons hs _ => cases hs
  · rw [if_neg hl, List.nil_append] at hx
    cases hov : overlong (tail u) with
    | true =>
      rw [hov] at hx
      obtain ⟨rfl, e⟩ := exec_ret hx
      injection e with e
      subst e
      exact ⟨.long hov, f', rfl, hf, h2, h3⟩
    | false =>
      rw [hov, show (if false = true then ([] : List FEv) else [FEv.cmd (payload (tail u))]) = [FEv.cmd (payload (tail u))] from rfl] at hx
      simp only [Mrcp.events] at hx
      obtain ⟨s2, t1, t2, rfl, hx1, hx2⟩ := exec_bind_ret hx
      obtain ⟨rfl, e⟩ := exec_ret hx2
      injection e with e
      subst e
      rw [List.append_nil]
      rcases ha.2 with hframe | hframe | hframe | ⟨m, hframe, hasks⟩
      · rw [hov] at hframe; cases hframe
      · rw [command_empty hframe] at hx1
        obtain ⟨rfl, e⟩ := exec_ret hx1
        injection e with e
        subst e
        exact ⟨.empty hov hframe, f', rfl, hf, h2, h3⟩
      · rw [command_free hframe] at hx1
        cases hx1 with
        | cons hs hx1 =>
          cases hs
          obtain ⟨rfl, e⟩ := exec_ret hx1
          injection e with e
          subst e
          exact ⟨.free hov hframe, f', rfl, hf, h2, h3⟩
      · rw [command_now hframe] at hx1
        simp only [Mrcp.handOver] at hx1
        cases hx1 with
        | @cons _ _ _ tr _ hs hx1 =>
          cases hs
          obtain ⟨c, t3, t4, rfl, hx3, hx4⟩ := exec_bind_ret hx1
          obtain ⟨rfl, e⟩ := exec_ret hx4
          injection e with e
          have e2 : c = s.core := (only_exec hx3 (Asd.parse_asks cfg s.core hasks h3)).2
          subst e2
          refine ⟨.now hov hframe (by rw [List.append_nil]; exact parse_answered hasks hx3), f', ?_, ?_, h2, ?_⟩
          · rw [e]
          · rw [e]; exact hf
          · rw [e]; exact h3

/-- one byte. -/
theorem char_sim {cfg : Cfg F} {u u' : List Byte} {v : List (Act F)} {s s' s1 : FW F} {c : Byte} {t : List (Act F)} {rest : List Byte} (h1 : tail r1 = []) (ha : OnlyAsksLine l)
    (hpos : Pos r1 l u u' v) (hr : Rel u u' s s') (h : Exec (Mrcp.parseChar cfg s c) t (.ret s1)) (hu : u ++ c :: rest = r1 ++ (l ++ [13]) ++ r2) :
    (∃ s1', Exec (Mrcp.parseChar cfg s' c) t (.ret s1') ∧ Rel (u ++ [c]) (u' ++ [c]) s1 s1' ∧ Pos r1 l (u ++ [c]) (u' ++ [c]) v) ∨
    (Rel (u ++ [c]) u' s1 s' ∧ Pos r1 l (u ++ [c]) u' (v ++ .rx (some c) :: t) ∧ busy t = t) := by
  cases hpos with
  | @before _ y hy hne =>
    left
    obtain ⟨s1', h2, h3⟩ := char_keep hr rfl h
    refine ⟨s1', h2, h3, ?_⟩
    rw [hy] at hu
    cases y with
    | nil => exact absurd rfl hne
    | cons b y =>
      have e : u ++ (c :: rest) = u ++ (b :: (y ++ (l ++ [13]) ++ r2)) := by rw [hu]; simp
      have e := List.append_cancel_left e
      injection e with e1 e2
      subst e1
      cases y with
      | nil =>
        have := Pos.during (F := F) (r1 := r1) (l := l) (x := []) (y := l ++ [13]) rfl (by simp)
        rw [← hy]
        simpa using this
      | cons d y => exact .before (y := d :: y) (by rw [hy]; simp) (by simp)
  | @during x y hy hne =>
    right
    have e : r1 ++ (x ++ c :: rest) = r1 ++ (x ++ y ++ r2) := by rw [← hy]; simpa using hu
    have e := List.append_cancel_left (List.append_assoc x y r2 ▸ List.append_cancel_left e)
    cases y with
    | nil => exact absurd rfl hne
    | cons b y =>
      injection e with e1 e2
      subst e1
      rcases List.eq_nil_or_concat y with rfl | ⟨y', d, rfl⟩
      · obtain ⟨e3, e4⟩ := List.append_inj' hy rfl
        subst e3
        injection e4 with e4
        subst e4
        have ht : tail (r1 ++ l) = l := by rw [tail_append, h1, List.nil_append, tail_noCR l ha.1]
        obtain ⟨hw, hr'⟩ := char_end hr (ht.symm ▸ ha) h
        rw [ht] at hw
        refine ⟨hr', ?_, ?_⟩
        · have := Pos.after (F := F) (r1 := r1) (l := l) (z := []) hw
          simpa using this
        · refine List.filter_eq_self.2 fun a ha => ?_
          cases hw with
          | long _ => cases ha
          | empty _ _ => cases ha
          | free _ _ => rw [List.mem_singleton.1 ha]; rfl
          | now _ _ hw =>
            rcases List.mem_cons.1 ha with rfl | ha
            · rfl
            · rcases hw.1 a ha with ⟨_, _, rfl⟩ | ⟨_, rfl⟩ | ⟨_, _, rfl⟩ <;> rfl
      · have hc : c ≠ 13 := by
          rintro rfl
          have : l = x ++ 13 :: y' := by
            have : l ++ [13] = (x ++ 13 :: y') ++ [d] := by rw [hy]; simp
            exact (List.append_inj' this rfl).1
          exact ha.1 (by rw [this]; simp)
        obtain ⟨rfl, hr'⟩ := char_inside hr hc h
        refine ⟨hr', ?_, rfl⟩
        have := Pos.during (F := F) (r1 := r1) (l := l) (x := x ++ [c]) (y := y'.concat d) (by rw [hy]; simp) (by simp)
        simpa using this
  | @after z w hw =>
    left
    have ht : tail (r1 ++ (l ++ [13]) ++ z) = tail (r1 ++ z) := by
      rw [List.append_assoc, tail_append, tail_append r1 z, h1, List.nil_append, List.nil_append, List.append_assoc, List.singleton_append, tail_cons l z ha.1]
    obtain ⟨s1', h2, h3⟩ := char_keep hr ht h
    refine ⟨s1', h2, h3, ?_⟩
    have := Pos.after (F := F) (r1 := r1) (l := l) (z := z ++ [c]) hw
    simpa using this

omit [FloatOps F] in
theorem rxBytes_none {t : List (Act F)} (h : ∀ a ∈ t, isRx a = false) : rxBytes t = [] := by
  induction t with
  | nil => rfl
  | cons a t ih =>
    have := ih fun b hb => h b (by simp [hb])
    have ha := h a (by simp)
    cases a with
    | rx b => cases b with
      | none => exact this
      | some b => cases ha
    | _ => exact this

/-- the serial line. -/
theorem serial_sim {cfg : Cfg F} (h1 : tail r1 = []) (ha : OnlyAsksLine l) (n : Nat) {u u' : List Byte} {v : List (Act F)} {s s' s1 : FW F} {t : List (Act F)} {rest : List Byte}
    (hpos : Pos r1 l u u' v) (hr : Rel u u' s s') (h : Exec (serialProcess cfg n s) t (.ret s1)) (hu : u ++ rxBytes t ++ rest = r1 ++ (l ++ [13]) ++ r2) (n' : Nat) (hn : n ≤ n') :
    ∃ t' v2 s1' u2, Exec (serialProcess cfg n' s') t' (.ret s1') ∧ Rel (u ++ rxBytes t) u2 s1 s1' ∧ Pos r1 l (u ++ rxBytes t) u2 (v ++ v2) ∧ u2 = u' ++ rxBytes t' ∧
      Merge (busy t') v2 (busy t) := by
  induction n generalizing u u' v s s' t n' with
  | zero =>
    obtain ⟨rfl, e⟩ := exec_ret h
    injection e with e
    subst e
    cases n' with
    | zero => exact ⟨[], [], s', u', .nil _, by simpa [rxBytes] using hr, by simpa [rxBytes] using hpos, by simp [rxBytes], .nil⟩
    | succ n' => exact ⟨[.rx none], [], s', u', .cons (.rx _ none) (.nil _), by simpa [rxBytes] using hr, by simpa [rxBytes] using hpos, by simp [rxBytes], .nil⟩
  | succ n ih =>
    obtain ⟨n', rfl⟩ : ∃ k, n' = k + 1 := ⟨n' - 1, by omega⟩
    cases h with
    | @cons _ _ _ t0 _ hs h =>
      cases hs with
      | rx _ b =>
        cases b with
        | none =>
          obtain ⟨rfl, e⟩ := exec_ret h
          injection e with e
          subst e
          exact ⟨[.rx none], [], s', u', .cons (.rx _ none) (.nil _), by simpa [rxBytes] using hr, by simpa [rxBytes] using hpos, by simp [rxBytes], .nil⟩
        | some c =>
          obtain ⟨s2, t1, t2, rfl, hx1, hx2⟩ := exec_bind_ret h
          have hno : rxBytes t1 = [] := rxBytes_none fun a ha => (cmdAct_facts ((only_exec hx1 (parseChar_only cfg s c)).1 a ha)).2
          have hb : rxBytes (.rx (some c) :: (t1 ++ t2)) = c :: rxBytes t2 := by
            show c :: rxBytes (t1 ++ t2) = _
            rw [rxBytes_append, hno]; rfl
          have hu2 : u ++ [c] ++ rxBytes t2 ++ rest = r1 ++ (l ++ [13]) ++ r2 := by rw [← hu, hb]; simp
          have hstep : u ++ c :: (rxBytes t2 ++ rest) = r1 ++ (l ++ [13]) ++ r2 := by rw [← hu2]; simp
          have hbusy : busy (.rx (some c) :: (t1 ++ t2)) = (.rx (some c) :: busy t1) ++ busy t2 := by
            show .rx (some c) :: busy (t1 ++ t2) = _
            rw [busy_append]; rfl
          rw [hb, hbusy, show u ++ c :: rxBytes t2 = u ++ [c] ++ rxBytes t2 by simp]
          rcases char_sim h1 ha hpos hr hx1 hstep with ⟨s2', e1, e2, e3⟩ | ⟨e2, e3, e4⟩
          · obtain ⟨t', v2, s1', u2, g1, g2, g3, g4, g5⟩ := ih e3 e2 hx2 hu2 n' (by omega)
            refine ⟨.rx (some c) :: (t1 ++ t'), v2, s1', u2, .cons (.rx _ _) (exec_bind_intro e1 g1), g2, g3, ?_, ?_⟩
            · rw [g4]
              show _ = u' ++ (c :: rxBytes (t1 ++ t'))
              rw [rxBytes_append, hno]; simp
            · show Merge (.rx (some c) :: busy (t1 ++ t')) _ _
              rw [busy_append]
              exact merge_append (merge_left (.rx (some c) :: busy t1)) g5
          · obtain ⟨t', v2, s1', u2, g1, g2, g3, g4, g5⟩ := ih e3 e2 hx2 hu2 (n' + 1) (by omega)
            refine ⟨t', .rx (some c) :: t1 ++ v2, s1', u2, g1, g2, by simpa using g3, g4, ?_⟩
            rw [e4]
            exact merge_append (merge_right (.rx (some c) :: t1)) g5

/-- a part of a pass that neither looks at the framer nor reads bytes. -/
theorem part_sim {p : FW F → Prog F (FW F)} (hp : Par p) (hsh : ∀ {s s1 : FW F} {t : List (Act F)}, Shut s → Exec (p s) t (.ret s1) → Shut s1) {u u' : List Byte}
    {s s' s1 : FW F} {t : List (Act F)} (hr : Rel u u' s s') (h : Exec (p s) t (.ret s1)) : ∃ s1', Exec (p s') t (.ret s1') ∧ Rel u u' s1 s1' := by
  obtain ⟨f', rfl, h1, h2, h3⟩ := hr
  obtain ⟨e, hx⟩ := hp.exec h
  exact ⟨_, hx f', f', rfl, e ▸ h1, h2, hsh h3 h⟩

/-- the end of a pass. -/
def lastPhases (cfg : Cfg F) (s : FW F) : Prog F (FW F) := (Mril.process s.core).bind fun c => Mrcp.process cfg { s with core := c }

theorem par_last (cfg : Cfg F) : Par (lastPhases cfg) := fun s f => by
  simp only [lastPhases, bind_assoc]
  congr 1; funext c
  exact par_process cfg { s with core := c } f

theorem shut_last {cfg : Cfg F} {s s1 : FW F} {t : List (Act F)} (hs : Shut s) (h : Exec (lastPhases cfg s) t (.ret s1)) : Shut s1 := by
  obtain ⟨c, t1, t2, rfl, h1, h2⟩ := exec_bind_ret h
  refine shut_process ?_ h2
  show c.rc.inTransaction = false
  rw [(only_exec h1 (mrilProcess_only s.core)).2.1]; exact hs

theorem last_noRx {cfg : Cfg F} {s s1 : FW F} {t : List (Act F)} (h : Exec (lastPhases cfg s) t (.ret s1)) : rxBytes t = [] := by
  obtain ⟨c, t1, t2, rfl, h1, h2⟩ := exec_bind_ret h
  rw [rxBytes_append, rxBytes_none fun a ha => (checkAct_facts ((only_exec h1 (mrilProcess_only s.core)).1 a ha)).2, rxBytes_none (process_start cfg _ _ _ h2).2]
  rfl

/-- one pass. -/
theorem pass_sim {cfg : Cfg F} (h1 : tail r1 = []) (ha : OnlyAsksLine l) {u u' : List Byte} {v : List (Act F)} {s s' s1 : FW F} {t : List (Act F)} {rest : List Byte}
    (hpos : Pos r1 l u u' v) (hr : Rel u u' s s') (h : Exec (loopBody cfg s) t (.ret s1)) (hu : u ++ rxBytes t ++ rest = r1 ++ (l ++ [13]) ++ r2) :
    ∃ t' v2 s1' u2, Exec (loopBody cfg s') t' (.ret s1') ∧ Rel (u ++ rxBytes t) u2 s1 s1' ∧ Pos r1 l (u ++ rxBytes t) u2 (v ++ v2) ∧ u2 = u' ++ rxBytes t' ∧
      Merge (busy t') v2 (busy t) := by
  rw [loopBody_eq, firstPhases, bind_assoc] at h
  obtain ⟨sa, ta, t, rfl, x1, h⟩ := exec_bind_ret h
  rw [bind_assoc] at h
  obtain ⟨sb, tb, t, rfl, x2, h⟩ := exec_bind_ret h
  obtain ⟨sc, tc, td, rfl, x3, x4⟩ := exec_bind_ret h
  have na : rxBytes ta = [] := rxBytes_none fun a ha => (rcAct_facts (rcProcess_exec cfg _ _ _ x1 a ha)).2
  have nb : rxBytes tb = [] := rxBytes_none fun a ha => (rcAct_facts (rcProcess_exec cfg _ _ _ x2 a ha)).2
  have nd : rxBytes td = [] := last_noRx x4
  have hb : rxBytes (ta ++ (tb ++ (tc ++ td))) = rxBytes tc := by simp [rxBytes_append, na, nb, nd]
  rw [hb] at hu ⊢
  obtain ⟨sa', y1, ra⟩ := part_sim (par_rc cfg) shut_rc hr x1
  obtain ⟨sb', y2, rb⟩ := part_sim (par_rc cfg) shut_rc ra x2
  obtain ⟨tc', v2, sc', u2, y3, rc, hpos2, e2, hm⟩ := serial_sim h1 ha _ hpos rb x3 hu _ (Nat.le_refl _)
  obtain ⟨s1', y4, rd⟩ := part_sim (par_last cfg) shut_last rc x4
  refine ⟨ta ++ (tb ++ (tc' ++ td)), v2, s1', u2, ?_, rd, hpos2, ?_, ?_⟩
  · rw [loopBody_eq, firstPhases, bind_assoc]
    refine exec_bind_intro y1 ?_
    rw [bind_assoc]
    exact exec_bind_intro y2 (exec_bind_intro y3 y4)
  · rw [e2]; simp [rxBytes_append, na, nb, nd]
  · simp only [busy_append]
    have := merge_append (merge_left (busy ta)) (merge_append (merge_left (busy tb)) (merge_append hm (merge_left (busy td))))
    simpa using this

end

/-! ### whole histories -/

/-- a history that ends with a pass. -/
inductive Passes (cfg : Cfg F) (junk : Nat → Byte) : List (Act F) → FW F → Prop
  | boot {t s} : Exec (setup cfg junk) t (.ret s) → Passes cfg junk t s
  | pass {t0 s0 t s} : Passes cfg junk t0 s0 → Exec (loopBody cfg s0) t (.ret s) → Passes cfg junk (t0 ++ t) s

theorem passes_of_trace {cfg : Cfg F} {junk : Nat → Byte} {tr : List (Act F)} {p : Prog F (FW F)} (h : Trace cfg junk tr p) :
    Exec (setup cfg junk) tr p ∨ ∃ t0 s t, tr = t0 ++ t ∧ Passes cfg junk t0 s ∧ Exec (loopBody cfg s) t p := by
  induction h with
  | init => exact .inl (.nil _)
  | @next tr s h ih =>
    refine .inr ⟨tr, s, [], by simp, ?_, .nil _⟩
    rcases ih with h | ⟨t0, s0, t, rfl, h1, h2⟩
    · exact .boot h
    · exact .pass h1 h2
  | @step tr p a q _ hs ih =>
    rcases ih with h | ⟨t0, s, t, rfl, h1, h2⟩
    · exact .inl (exec_append h (.cons hs (.nil _)))
    · exact .inr ⟨t0, s, t ++ [a], by simp, h1, exec_append h2 (.cons hs (.nil _))⟩

theorem passes {cfg : Cfg F} {junk : Nat → Byte} {tr : List (Act F)} {s : FW F} (h : Trace cfg junk tr (.ret s)) : Passes cfg junk tr s := by
  rcases passes_of_trace h with h | ⟨t0, s0, t, rfl, h1, h2⟩
  · exact .boot h
  · exact .pass h1 h2

theorem trace_exec {cfg : Cfg F} {junk : Nat → Byte} {tr t : List (Act F)} {p q : Prog F (FW F)} (h : Trace cfg junk tr p) (h' : Exec p t q) : Trace cfg junk (tr ++ t) q := by
  induction h' generalizing tr with
  | nil => simpa using h
  | @cons p a q t r hs _ ih =>
    have := ih (.step h hs)
    simpa using this

theorem Passes.trace {cfg : Cfg F} {junk : Nat → Byte} {tr : List (Act F)} {s : FW F} (h : Passes cfg junk tr s) : Trace cfg junk tr (.ret s) := by
  induction h with
  | boot h => simpa using trace_exec .init h
  | pass _ h2 ih => exact trace_exec (.next ih) h2

/-- **a history with a question is one without it, plus the question.** -/
theorem trace_sim {cfg : Cfg F} {junk : Nat → Byte} {r1 l r2 : List Byte} (h1 : tail r1 = []) (ha : OnlyAsksLine l) {tr : List (Act F)} {s : FW F} (h : Passes cfg junk tr s)
    {rest : List Byte} (hu : rxBytes tr ++ rest = r1 ++ (l ++ [13]) ++ r2) :
    ∃ tr' v s', Passes cfg junk tr' s' ∧ Rel (rxBytes tr) (rxBytes tr') s s' ∧ Pos r1 l (rxBytes tr) (rxBytes tr') v ∧ Merge (busy tr') v (busy tr) := by
  induction h generalizing rest with
  | @boot t s h =>
    have hset : (setup cfg junk).only (fun a : Act F => isRx a = false) (fun s => s.framer = {} ∧ Shut s) := by
      simp only [setup, RC.new, RC.getCurrentPose, RC.getCurrentLogicalAngles, RC.readAngles, readServo, bind_def, pure_def, Prog.bind, Prog.only]
      simp [isRx, Shut, RC.setMovementMethod, RC.setMaxVelocity]
    obtain ⟨e1, e2, e3⟩ := only_exec h hset
    have e : rxBytes t = [] := rxBytes_none e1
    refine ⟨t, [], s, .boot h, ?_, ?_, merge_left _⟩
    · refine ⟨s.framer, rfl, ?_, ?_, e3⟩ <;> rw [e, e2] <;> exact Framer.at_init
    · rw [e]; exact pos_start r1 l
  | @pass t0 s0 t s h0 h ih =>
    rw [rxBytes_append] at hu
    obtain ⟨tr', v, s', g1, g2, g3, g4⟩ := ih (rest := rxBytes t ++ rest) (by rw [← hu]; simp)
    obtain ⟨t', v2, s1', u2, k1, k2, k3, k4, k5⟩ := pass_sim h1 ha g3 g2 h hu
    refine ⟨tr' ++ t', v ++ v2, s1', .pass g1 k1, ?_, ?_, ?_⟩
    · rw [rxBytes_append, rxBytes_append, ← k4]; exact k2
    · rw [rxBytes_append, rxBytes_append, ← k4]; exact k3
    · rw [busy_append, busy_append]; exact merge_append g4 k5

/-- the same, when the question has been read completely. -/
theorem trace_asif {cfg : Cfg F} {junk : Nat → Byte} {r1 l r2 : List Byte} (h1 : tail r1 = []) (ha : OnlyAsksLine l) {tr : List (Act F)} {s : FW F} (h : Trace cfg junk tr (.ret s))
    (hu : rxBytes tr = r1 ++ (l ++ [13]) ++ r2) :
    ∃ tr' w f', Trace cfg junk tr' (.ret { s with framer := f' }) ∧ rxBytes tr' = r1 ++ r2 ∧ Reaction l w ∧
      Merge (busy tr') (((l ++ [13]).map fun b => .rx (some b)) ++ w) (busy tr) := by
  obtain ⟨tr', v, s', g1, ⟨f', rfl, _⟩, g3, g4⟩ := trace_sim (r2 := r2) h1 ha (passes h) (rest := []) (by simpa using hu)
  rw [hu] at g3
  generalize hx : r1 ++ (l ++ [13]) ++ r2 = x at g3
  generalize hy : rxBytes tr' = y at g3
  cases g3 with
  | @before u z e hne =>
    exfalso
    have := congrArg List.length hx
    rw [e] at this
    simp only [List.length_append] at this
    exact hne (List.length_eq_zero_iff.1 (by omega))
  | @during z y e hne =>
    exfalso
    have e2 := congrArg List.length hx
    have e3 := congrArg List.length e
    have : 0 < y.length := List.length_pos_iff.2 hne
    simp only [List.length_append] at e2 e3
    omega
  | @after z w hw =>
    have e : r2 = z := List.append_cancel_left hx
    subst e
    exact ⟨tr', w, f', g1.trace, hy, hw, g4⟩

end Mrc.Asking
