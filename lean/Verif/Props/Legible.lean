import Verif.Proof.Legible
import Verif.Props.Tokens
import Verif.Props.FlowDemo
/-
C101, C102: the memory of the running device, whatever numbers are sent and whatever the arithmetic.
-/
set_option maxRecDepth 100000
namespace Mrc.Props
open Mrc Mrc.Prog Mrc.Spec Mrc.Demo
variable {F : Type} [FloatOps F]

/-- **C101**: as long as every frame fits and every instruction falls into executable commands, nothing the host sends — any
numbers or none, blanks, comments, unknown letters, unreachable poses, speed zero — and no timing, input or interrupt makes the
firmware leave its arrays or use an uninitialised variable; the only thing that can go wrong is the conversion of the number of
parts of a line (in any arithmetic, for any robot). -/
theorem C101_memory {cfg : Cfg F} (hm : cfg.pinMap.length = 10) {w0 : World F} {junk : Nat → Byte} (hmem : LegibleStorage w0.ee)
    {evs : List (Ev F)} {s : Sys F} (h : Sys.Run cfg w0 junk evs s) (hc : LegiblySent (w0.rxq ++ arrivals evs)) :
    ∀ f, s.p = .fault f → f = .badConv := by
  intro f e
  exact Tok.tame_limits (Tok.legible_tame cfg hm _ _) (program_of hmem) h (Tok.clean_of_legible hc) e

private theorem run_before {cfg : Cfg F} {w0 : World F} {junk : Nat → Byte} {evs : List (Ev F)} {s : Sys F} (h : Sys.Run cfg w0 junk evs s) :
    ∀ a e b, evs = a ++ e :: b → ∃ t u, Sys.Run cfg w0 junk a t ∧ Sys.Do cfg t e u := by
  induction h with
  | init => intro a e b h; simp at h
  | @step evs s e' t h hd ih =>
    intro a e b hab
    rcases List.eq_nil_or_concat b with rfl | ⟨b', x, rfl⟩
    · obtain ⟨rfl, h2⟩ := List.append_inj' hab rfl
      injection h2 with h2 _
      subst h2
      exact ⟨_, _, h, hd⟩
    · rw [List.concat_eq_append, ← List.cons_append, ← List.append_assoc] at hab
      exact ih a e b' (List.append_inj' hab rfl).1

/-- **C102**: once the device has started an instruction that does not fall into executable commands, it is lost: the main loop
never begins another pass and no other instruction is started — in every environment. -/
theorem C102_lost {cfg : Cfg F} (hm : cfg.pinMap.length = 10) {w0 : World F} {junk : Nat → Byte} {evs : List (Ev F)} {s : Sys F}
    (h : Sys.Run cfg w0 junk evs s) (src : Src) (m : List Byte) (pre post : List (Ev F))
    (he : evs = pre ++ .act (.out (.ghost src m)) :: post) (hs : ¬ SafeText 0 m) :
    .next ∉ post ∧ ∀ src' m', Ev.act (.out (.ghost src' m')) ∉ post := by
  have key : ∀ {a : List (Ev F)} {t : Sys F}, Sys.Run cfg w0 junk a t →
      (∀ x y z, acts a = x ++ y :: z → y.isInput = false → (Tok.doom (F := F)).ok (x.foldl Tok.doom.upd False) y) ∧
      t.p.wp Tok.doom (fun g _ => ¬ g) ((acts a).foldl Tok.doom.upd False) := by
    intro a t ha
    have upd0 : ∀ x : Act F, (∀ src m, x ≠ .out (.ghost src m)) → (Tok.doom (F := F)).upd False x = False := by
      intro x hx
      simp only [Tok.doom, false_or, eq_iff_iff, iff_false]
      rintro ⟨src, m, e, _⟩
      exact hx src m e
    exact (Tok.doom_inv cfg hm).sound False junk (fun _ _ _ _ _ h => h) (fun i v => upd0 _ (by intros; simp))
      (fun m => upd0 _ (by intros; simp)) ha.trace (fun _ _ _ _ _ => trivial)
  have stays : ∀ (l : List (Act F)) (g : Prop), g → l.foldl Tok.doom.upd g := by
    intro l
    induction l with
    | nil => exact fun g hg => hg
    | cons a l ih => exact fun g hg => ih _ (.inl hg)
  have dooms : ∀ p1, (acts (pre ++ .act (.out (.ghost src m)) :: p1)).foldl Tok.doom.upd False := by
    intro p1
    rw [acts_append, List.foldl_append]
    exact stays (acts p1) _ (show _ ∨ _ from Or.inr ⟨src, m, rfl, hs⟩)
  constructor
  · intro hn
    obtain ⟨p1, p2, rfl⟩ := List.append_of_mem hn
    obtain ⟨t, u, ht, hd⟩ := run_before h (pre ++ .act (.out (.ghost src m)) :: p1) .next p2 (by rw [he]; simp)
    have h2 := (key ht).2
    cases hd with
    | loop => exact h2 (dooms p1)
  · intro src' m' hn
    obtain ⟨p1, p2, rfl⟩ := List.append_of_mem hn
    refine (key h).1 (acts (pre ++ .act (.out (.ghost src m)) :: p1)) (.out (.ghost src' m')) (acts p2) ?_ rfl src' m' rfl (dooms p1)
    rw [he, ← List.cons_append, ← List.append_assoc, acts_append]
    rfl

/-! A stream that is legible but far from careful: no speed, words for numbers, commas, comments, an unknown letter. -/

def roughStream : List Byte := str ":QN5V0X10, Y20\r:QR0-R1N,A,NS7#X\r:QM1X99999999999Y+I31(ab\r:EO05R7.\r:Q"

theorem roughStream_sent : LegiblySent roughStream := by
  have e : decode roughStream = [str "QN5V0X10,Y20", str "QR0-R1N,A,NS7", str "QM1X99999999999Y+I31", str "EO05R7."] := by decide +kernel
  have e1 : frame (str "QN5V0X10,Y20") = .put (str "N5V0X10,Y20") := by decide +kernel
  have e2 : frame (str "QR0-R1N,A,NS7") = .put (str "R0-R1N,A,NS7") := by decide +kernel
  have e3 : frame (str "QM1X99999999999Y+I31") = .put (str "M1X99999999999Y+I31") := by decide +kernel
  have e4 : frame (str "EO05R7.") = .now (str "O05R7.") := by decide +kernel
  have h1 : SafeText 0 (str "N5V0X10,Y20") := by decide +kernel
  have h2 : SafeText 0 (str "R0-R1N,A,NS7") := by decide +kernel
  have h3 : SafeText 0 (str "M1X99999999999Y+I31") := by decide +kernel
  have h4 : SafeText 10 (str "O05R7.") := by decide +kernel
  refine ⟨by decide +kernel, by decide +kernel, ?_⟩
  rw [e]
  intro p hp
  simp only [List.mem_cons, List.not_mem_nil, or_false] at hp
  rcases hp with rfl | rfl | rfl | rfl
  · rw [e1]; exact h1
  · rw [e2]; exact h2
  · rw [e3]; exact h3
  · rw [e4]; exact h4

/-! any robot in any arithmetic with this stream waiting: after any number of steps of the scheduler. -/

example (cfg : Cfg F) (hm : cfg.pinMap.length = 10) (w0 : World F) (hw : w0.rxq = roughStream) (hee : w0.ee = fun _ => 0) (junk : Nat → Byte) (k : ℕ) :
    ∀ f, (steps cfg k (⟨w0, setup cfg junk⟩, false)).2.1.p = .fault f → f = .badConv := by
  refine C101_memory hm (w0 := w0) (junk := junk) ⟨[], ⟨by simp, by decide, ?_⟩, by simp⟩ (steps_run k (evs := []) _ .init) ?_
  · intro k b _ hb
    rw [hee]
    cases k with
    | zero => simpa using hb
    | succ k => simp at hb
  · rw [List.nil_append, steps_quiet, List.append_nil, hw]
    exact roughStream_sent

/-! The kit with ":QV20\r:QR8\rQV30\r" waiting: R8 is started and that is the end. -/
section
local instance lostRat : FloatOps Rat := toyFloat

def lostWorld : World Rat := { servos := Kit.servos, now := 1, pins := fun _ => false, rxq := str ":QV20\r:QR8\rQV30\r", ee := fun _ => 0, outs := [] }

def startsB (m : List Byte) (e : Ev Rat) : Bool := match e with | .act (.out (.ghost .queue m')) => m' == m | _ => false

example : ∃ (s : Sys Rat) (pre post : List (Ev Rat)), Sys.Run Kit.cfg lostWorld (fun _ => 0)
    (pre ++ .act (.out (.ghost .queue (str "R8"))) :: post) s ∧ ¬ SafeText 0 (str "R8") := by
  have h := steps_run 100 (evs := []) (cfg := Kit.cfg) (w0 := lostWorld) (junk := fun _ => 0) (⟨lostWorld, setup Kit.cfg fun _ => 0⟩, false) .init
  have hs : (steps Kit.cfg 100 (⟨lostWorld, setup Kit.cfg fun _ => 0⟩, false)).1.any (startsB (str "R8")) = true := by decide +kernel
  obtain ⟨e, he, hx⟩ := List.any_eq_true.1 hs
  have : e = .act (.out (.ghost .queue (str "R8"))) := by
    unfold startsB at hx
    split at hx
    · rw [beq_iff_eq] at hx; rw [hx]
    · cases hx
  subst this
  obtain ⟨pre, post, e⟩ := List.append_of_mem he
  rw [List.nil_append, e] at h
  exact ⟨_, pre, post, h, by decide +kernel⟩

end

end Mrc.Props
