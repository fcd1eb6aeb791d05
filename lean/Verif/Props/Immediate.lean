import Verif.Proof.Now
import Verif.Props.Flow
/-
C91: immediate instructions are executed at once, each once, in the order sent.
-/
set_option linter.unusedSectionVars false
namespace Mrc.Props
open Mrc Mrc.Prog Mrc.Spec Mrc.Demo
variable {F : Type} [FloatOps F] {cfg : Cfg F} {junk : Nat → Byte}

/-- **C91** (at once): consider any effect of the controller (a message, a pin, a servo, the storage, the start of an instruction). If it is the start of an immediate instruction
then this is the instruction of the last frame E... read, and it had not been started before. Otherwise all immediate instructions read so far have been started. In both cases: in
the order sent, each once. -/
theorem C91_at_once {tr : List (Act F)} {p : Prog F (FW F)} (h : Trace cfg junk tr p) {pre post : List (Act F)} {a : Act F} (e : tr = pre ++ a :: post) (ha : a.isInput = false) :
    (∀ m, a = .out (.ghost .immediate m) → nows (rxBytes pre) = nowStarts pre ++ [m]) ∧ ((∀ m, a ≠ .out (.ghost .immediate m)) → nows (rxBytes pre) = nowStarts pre) := by
  have hok := (trace_now h).1
  have hp := pend_eq pre fun x b y e' hb => hok x b (y ++ a :: post) (by rw [e, e']; simp) hb
  have := hok pre a post e ha
  exact ⟨fun m hm => by rw [← hp, this.1 m hm], fun hm => by rw [← hp, this.2 hm, List.append_nil]⟩

/-- **C91** (none missing): between two passes of the main loop all immediate instructions read have been started, in order, each once. -/
theorem C91_all {tr : List (Act F)} {s : FW F} (h : Trace cfg junk tr (.ret s)) : nowStarts tr = nows (rxBytes tr) := by
  have := pend_eq tr (trace_now h).1
  rwa [(trace_now h).2 s rfl, List.append_nil] at this

/-- **C91** (none invented): at any time the immediate instructions started are the first of those read. -/
theorem C91_prefix {tr : List (Act F)} {p : Prog F (FW F)} (h : Trace cfg junk tr p) : nowStarts tr <+: nows (rxBytes tr) := by
  rw [← pend_eq tr (trace_now h).1]
  exact List.prefix_append _ _

/-- a question, then two immediate instructions, then a queued one: at the end both have been started; `C91_at_once` applies to what was done in between. -/
example : ∃ tr s, @Trace Rat toyFloat (@Kit.cfg Rat toyFloat) (fun _ => 0) tr (.ret s) ∧ nows (rxBytes tr) = [str "V20", str "L"] ∧ nowStarts tr = [str "V20", str "L"] ∧
    ∃ pre post, tr = pre ++ .out (.ghost .immediate (str "L")) :: post ∧ nowStarts pre = [str "V20"] := by
  have h := kitT_trace ":B\r:EV20\r:EL\r:QN5R01\r" 3
  have hr : (match (kitT ":B\r:EV20\r:EL\r:QN5R01\r" 3).2.1 with | .ret _ => true | _ => false) = true := by decide +kernel
  have hn : nowStarts (kitT ":B\r:EV20\r:EL\r:QN5R01\r" 3).1 = [str "V20"] ++ [str "L"] := by decide +kernel
  split at hr
  · rename_i s hs
    rw [hs] at h
    refine ⟨_, s, h, by decide +kernel, hn, ?_⟩
    obtain ⟨x, y, e, hx, hy⟩ := List.filterMap_eq_append_iff.1 hn
    obtain ⟨u, a, v, e2, hu, ha, -⟩ := List.filterMap_eq_cons_iff.1 hy
    have : a = .out (.ghost .immediate (str "L")) := by
      split at ha
      · injection ha with ha; rw [ha]
      · cases ha
    subst this
    refine ⟨x ++ u, v, by rw [e, e2, List.append_assoc], ?_⟩
    rw [nowStarts, List.filterMap_append, hx, List.filterMap_eq_nil_iff.2 hu, List.append_nil]
  · cases hr

end Mrc.Props
