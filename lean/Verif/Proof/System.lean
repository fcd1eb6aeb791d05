import Verif.Proof.Only
import Verif.Proof.Framing
import Verif.Proof.RingBuffer
import Verif.Spec.Device
/- The firmware as a whole against the host's view (`Spec.Dev`). -/
set_option linter.unusedSectionVars false
namespace Mrc
open Mrc.Prog Mrc.Spec
variable {F : Type} {α β σ : Type}

/-! ### the ring buffer holds a list of messages -/

def RB.enc (q : List (List Byte)) : List Byte := q.flatMap (· ++ [RB.END])

theorem RB.enc_length (q) : (RB.enc q).length = qSize q := by
  induction q with
  | nil => simp [RB.enc, qSize]
  | cons m q ih =>
    simp only [RB.enc, qSize, List.flatMap_cons, List.length_append, List.map_cons, List.sum_cons] at *
    simp at *; try omega

/-- the ring buffer of capacity `cap` holds exactly the messages `q`. -/
structure RB.Models (cap : Nat) (r : RB) (q : List (List Byte)) : Prop where
  wf : r.WF
  cap : r.capacity = cap
  abs : r.abs = RB.enc q
  sep : ∀ m ∈ q, RB.END ∉ m

namespace RB.Models
variable {cap : Nat} {r : RB} {q : List (List Byte)}

theorem size (h : RB.Models cap r q) : r.getSize = qSize q := by
  rw [RB.getSize, RB.length_abs, h.abs, RB.enc_length]

theorem put (h : RB.Models cap r q) (m : List Byte) (hs : RB.END ∉ m) (hm : m.length < 2147483648) :
    RB.Models cap (r.putBytes m).1 (if qSize q + (m.length + 1) ≤ cap then q ++ [m] else q) := by
  have hlen : r.length = qSize q := h.size
  have := RB.putBytes_spec h.wf m hm
  rw [h.cap, hlen, Nat.add_assoc] at this
  by_cases hfit : qSize q + (m.length + 1) ≤ cap
  · rw [if_pos hfit] at this ⊢
    refine ⟨this.2.2.1, by rw [this.2.2.2], ?_, ?_⟩
    · rw [this.2.1, h.abs]; simp [RB.enc]
    · intro x hx
      simp at hx
      rcases hx with hx | hx
      · exact h.sep x hx
      · subst hx; exact hs
  · rw [if_neg hfit] at this ⊢
    rw [this]; exact h

theorem get {m : List Byte} (h : RB.Models cap r (m :: q)) : r.getMessage.1 = m ∧ RB.Models cap r.getMessage.2 q := by
  have ⟨a, b, c, d⟩ := RB.getMessage_spec h.wf m (RB.enc q) (h.sep m (by simp)) (by rw [h.abs]; simp [RB.enc])
  exact ⟨a, c, by rw [d, h.cap], b, fun x hx => h.sep x (by simp [hx])⟩

theorem clear (h : RB.Models cap r q) : RB.Models cap r.clear [] :=
  ⟨RB.WF_clear h.wf, h.cap, by rw [RB.abs_clear]; rfl, by simp⟩

end RB.Models

theorem RB.models_new (cap : Nat) (hc : 0 < cap) (hc2 : cap ≤ 2147483648) (junk) : RB.Models cap (RB.new cap junk) [] :=
  ⟨RB.WF_new cap junk hc hc2, rfl, by rw [RB.abs_new]; rfl, by simp⟩

/-! ### frames -/

theorem payload_counts (l : List Byte) : ∀ b ∈ payload l, counts b = true := by
  intro b hb
  simp only [payload] at hb
  split at hb
  · simp at hb
  · exact (List.mem_filter.1 hb).2

theorem counts_ne_end (b : Byte) (h : counts b = true) : b ≠ 33 := by
  rintro rfl; revert h; decide

theorem payload_noEnd (l : List Byte) : RB.END ∉ payload l := fun h => counts_ne_end _ (payload_counts l _ h) rfl

/-- the framer is in the state after the unfinished line `l`. -/
def Framer.At (f : Framer) (l : List Byte) : Prop := f.norm = (payload l, overlong l, l.any isComment) ∧ (13 : Byte) ∉ l

theorem Framer.at_init : Framer.At {} [] := ⟨by decide, by simp⟩

theorem Framer.at_nrun {f : Framer} {l : List Byte} (h : f.At l) : f.norm = (nrun ([], false, false) l).1 := by
  rw [nrun_state l.length l (Nat.le_refl _), tail_noCR l h.2]; exact h.1

theorem Framer.at_step {f : Framer} {l : List Byte} (h : f.At l) (b : Byte) (hb : b ≠ 13) :
    (f.step b).1.At (l ++ [b]) ∧ ∀ e ∈ (f.step b).2, e = FEv.oob := by
  have hs := step_norm f b
  have hl : (13 : Byte) ∉ l ++ [b] := by simp [h.2, Ne.symm hb]
  refine ⟨⟨?_, hl⟩, ?_⟩
  · have : (nrun ([], false, false) (l ++ [b])).1 = (nstep f.norm b).1 := by
      rw [nrun_append, Framer.at_nrun h]; rfl
    rw [← hs, nrun_state _ _ (Nat.le_refl _), tail_noCR _ hl] at this
    exact this.symm
  · have : (f.step b).2 = (nstep f.norm b).2 := by rw [← hs]
    rw [this]
    intro e he
    have hu : upper b ≠ 13 := by rw [Ne, (upper_special b).1]; exact hb
    simp only [nstep, hu, if_false] at he
    split at he
    · simp at he
    · split at he
      · split at he
        · simp at he; try exact he.2
        · simp at he; try exact he.2
      · simp at he

theorem Framer.at_cr {f : Framer} {l : List Byte} (h : f.At l) :
    (f.step 13).1.At [] ∧ (f.step 13).2 =
      (if (payload l).length + 1 ≥ 80 then [FEv.oob] else []) ++ if overlong l then [] else [.cmd (payload l)] := by
  have hs := step_norm f 13
  have h1 : (f.step 13).2 = (nstep f.norm 13).2 := by rw [← hs]
  have h2 : (f.step 13).1.norm = (nstep f.norm 13).1 := by rw [← hs]
  have hu : upper 13 = 13 := by decide
  have e : nstep f.norm 13 = (([], false, false),
      (if (payload l).length + 1 ≥ 80 then [FEv.oob] else []) ++ if overlong l then [] else [.cmd (payload l)]) := by
    rw [h.1]; simp [nstep, hu]
  refine ⟨⟨?_, by simp⟩, ?_⟩
  · rw [h2, e]; simp only; decide
  · rw [h1, e]

variable [FloatOps F]

/-! ### dispatch -/

/-- the firmware state agrees with the host's view. -/
structure Agrees (s : FW F) (d : Dev) : Prop where
  line : s.framer.At d.line
  queue : RB.Models QUEUE s.rb d.queue
  booted : d.booted = true
  mode : s.mode = match d.sel with | .immediate => .execute | .queue => .queue | .storage => .eeprom

/-- the system monitor: host view, and what must hold when the controller starts an instruction or reports free space. -/
def devMon : Mon F Dev where
  upd := Dev.act
  ok := fun d a =>
    (∀ m, a = .out (.ghost .queue m) → d.queue.head? = some m ∧ d.sel = .queue) ∧
    (∀ m, a = .out (.ghost .eeprom m) → d.sel = .storage) ∧
    (∀ n, a = .out (.msg (.free n)) → n = (QUEUE : Int) - qSize d.queue)

theorem parse_dev (cfg : Cfg F) (s : Core F) (instr : List Byte) (d : Dev) :
    (Mril.parse cfg s instr).wp devMon (fun d' c => d' = d ∧ c.done = s.done) d := by
  refine wp_of_only (parse_only cfg s instr) d ?_ (fun _ => trivial)
  intro a ha
  match a, ha with
  | .servo _ _, _ | .micro _ _, _ | .now _, _ | .out (.msg (.n0 _)), _ | .out (.msg (.reply _ _)), _ | .out (.raw .comment), _
  | .out (.pinMode _ _), _ | .out (.digitalWrite _ _), _ => exact ⟨rfl, by simp [devMon]⟩

theorem Agrees.core {s : FW F} {d : Dev} (h : Agrees s d) (c : Core F) : Agrees { s with core := c } d :=
  ⟨h.line, h.queue, h.booted, h.mode⟩

theorem Agrees.sel {s : FW F} {d : Dev} (h : Agrees s d) :
    (s.mode = .queue → d.sel = .queue) ∧ (s.mode = .eeprom → d.sel = .storage) ∧ s.mode ≠ .halt := by
  have := h.mode
  cases hd : d.sel <;> rw [hd] at this <;> simp [this]

theorem eeWrites_wp {M : Mon F σ} {Q : σ → Unit → Prop} (ws : List (Nat × Byte)) (s : σ)
    (h : ∀ a b, M.upd s (.eeWrite a b) = s ∧ M.ok s (.eeWrite a b)) (hq : Q s ()) : (eeWrites ws : Prog F Unit).wp M Q s := by
  induction ws with
  | nil => exact hq
  | cons w ws ih => refine ⟨(h _ _).2, ?_⟩; rw [(h _ _).1]; exact ih

/-- dispatching a payload does what the host expects of the frame (the host's view is updated when the CR is read). -/
theorem dispatch_dev (cfg : Cfg F) (s : FW F) (d : Dev) (p : List Byte) (h : Agrees s d) (hp : p.length < 79) (hs : RB.END ∉ p) :
    (Mrcp.parseCommand cfg s p).wp devMon (fun d' s' => d' = d.frame (frame p) ∧ Agrees s' d') (d.frame (frame p)) := by
  cases p with
  | nil => exact ⟨rfl, h⟩
  | cons c m =>
    have hm : RB.END ∉ m := fun hh => hs (by simp [hh])
    have hml : m.length < 79 := by simp at hp; omega
    have hput : ∀ x : List Byte, RB.END ∉ x → x.length < 79 →
        Agrees { s with mode := .queue, rb := (s.rb.putBytes x).1 } (d.frame (.put x)) := by
      intro x hx hxl
      have := h.queue.put x hx (by omega)
      refine ⟨?_, ?_, ?_, ?_⟩
      rotate_left 2
      · simp only [Dev.frame]; split <;> exact h.booted
      rotate_left 1
      · simp only [Dev.frame]; split <;> exact h.line
      · simp only [Dev.frame]; split
        · rename_i hf; rw [if_pos hf] at this; exact this
        · rename_i hf; rw [if_neg hf] at this; exact this
      · simp only [Dev.frame]
        by_cases hf : qSize d.queue + (x.length + 1) ≤ QUEUE
        · simp only [if_pos hf]
        · simp only [if_neg hf]
    simp only [Mrcp.parseCommand, frame]
    by_cases h66 : c = 66
    · simp only [h66, if_true, wp]
      refine ⟨⟨by simp, by simp, ?_⟩, rfl, h⟩
      intro n hn
      simp [Mrcp.freeMsg] at hn
      rw [← hn, RB.getCapacity, h.queue.cap, h.queue.size]; rfl
    · simp only [h66, if_false]
      by_cases h69 : c = 69
      · simp only [h69, if_true, Mrcp.handOver]
        refine ⟨by simp [devMon], ?_⟩
        rw [wp_bind]
        refine wp_mono (fun d' c' hd => ?_) (parse_dev cfg s.core m _)
        exact ⟨hd.1, by rw [hd.1]; exact h.core c'⟩
      · simp only [h69, if_false]
        by_cases h81 : c = 81
        · simp only [h81, if_true]
          by_cases hm0 : m = []
          · simp only [hm0, if_true]
            exact ⟨rfl, ⟨h.line, h.queue.clear, h.booted, by simp [Dev.frame]⟩⟩
          · simp only [hm0, if_false]
            exact ⟨rfl, hput m hm hml⟩
        · simp only [h81, if_false]
          by_cases h87 : c = 87
          · simp only [h87, if_true]
            by_cases hm0 : m = []
            · simp only [hm0, if_true]
              exact ⟨by simp [devMon], rfl, ⟨h.line, h.queue, h.booted, h.mode⟩⟩
            · simp only [hm0, if_false]
              intro mem _
              have hgo : ((eeWrites (EE.appendWrites mem m) : Prog F Unit).bind fun _ => .ret { s with mode := .eeprom }).wp devMon
                  (fun d' s' => d' = d.frame (.store m) ∧ Agrees s' d') (d.frame (.store m)) := by
                rw [wp_bind]
                refine eeWrites_wp _ _ (fun a b => ⟨rfl, by simp [devMon]⟩) ?_
                exact ⟨rfl, ⟨h.line, h.queue, h.booted, by simp [Dev.frame]⟩⟩
              have hd' : (devMon (F := F)).upd (d.frame (.store m)) (.eeRead mem) = d.frame (.store m) := by
                simp [devMon, Dev.act, Dev.frame, h.booted]
              rw [hd']
              show Prog.wp devMon (if _ then _ else _) _ (d.frame (.store m))
              split
              · exact ⟨by simp [devMon], hgo⟩
              · exact hgo
          · simp only [h87, if_false]
            exact ⟨rfl, hput (c :: m) hs hp⟩

theorem events_oob_wp {M : Mon F σ} {Q : σ → FW F → Prop} (hf : ∀ f, M.flt f) (cfg : Cfg F) (s : FW F) (d : σ) (es : List FEv) (he : ∀ e ∈ es, e = FEv.oob)
    (hq : es = [] → Q d s) : (Mrcp.events cfg s es).wp M Q d := by
  cases es with
  | nil => exact hq rfl
  | cons e es =>
    have := he e (by simp); subst this
    exact hf _

theorem parseChar_dev (cfg : Cfg F) (s : FW F) (d : Dev) (b : Byte) (h : Agrees s d) :
    (Mrcp.parseChar cfg s b).wp devMon (fun d' s' => d' = d.recv b ∧ Agrees s' d') (d.recv b) := by
  simp only [Mrcp.parseChar]
  by_cases hb : b = 13
  · subst hb
    obtain ⟨h1, h2⟩ := Framer.at_cr h.line
    have hA : Agrees { s with framer := (s.framer.step 13).1 } { d with line := [] } := ⟨h1, h.queue, h.booted, h.mode⟩
    rw [h2]
    simp only [Dev.recv, if_true]
    by_cases hl : (payload d.line).length + 1 ≥ 80
    · rw [if_pos hl]; trivial
    · rw [if_neg hl]
      by_cases ho : overlong d.line = true
      · simp only [ho, if_true]; exact ⟨rfl, hA⟩
      · simp only [ho]
        simp only [List.nil_append, Bool.false_eq_true, if_false, Mrcp.events]
        rw [bind_ret]
        exact dispatch_dev cfg _ { d with line := [] } _ hA (by omega) (payload_noEnd _)
  · obtain ⟨h1, h2⟩ := Framer.at_step h.line b hb
    refine events_oob_wp (fun _ => trivial) cfg _ _ _ h2 (fun _ => ?_)
    simp only [Dev.recv, hb, if_false]
    exact ⟨trivial, ⟨h1, h.queue, h.booted, h.mode⟩⟩

theorem serial_dev (cfg : Cfg F) (n : Nat) (s : FW F) (d : Dev) (h : Agrees s d) :
    (serialProcess cfg n s).wp devMon (fun d' s' => Agrees s' d') d := by
  induction n generalizing s d with
  | zero => exact h
  | succ n ih =>
    intro b _
    cases b with
    | none => exact h
    | some c =>
      simp only
      rw [wp_bind]
      exact wp_mono (fun d' s' h' => ih s' d' h'.2) (parseChar_dev cfg s d c h)

theorem process_dev (cfg : Cfg F) (s : FW F) (d : Dev) (h : Agrees s d) :
    (Mrcp.process cfg s).wp devMon (fun d' s' => Agrees s' d') d := by
  simp only [Mrcp.process, if_neg h.sel.2.2]
  split
  · split
    · rename_i hm
      split
      · rename_i hsz
        refine ⟨⟨by simp, by simp, ?_⟩, ?_⟩
        · intro n hn
          simp [Mrcp.freeMsg] at hn
          rw [← hn, RB.getCapacity, h.queue.cap, h.queue.size]
        · have hq := h.queue
          cases hd : d.queue with
          | nil =>
            exfalso
            have := hq.size
            rw [hd] at this
            rw [this] at hsz; exact absurd hsz (by decide)
          | cons m q =>
            rw [hd] at hq
            obtain ⟨g1, g2⟩ := hq.get
            split
            · trivial
            · simp only [Mrcp.handOver]
              refine ⟨⟨?_, by simp, by simp⟩, ?_⟩
              · intro m' hm'
                simp at hm'
                refine ⟨?_, h.sel.1 hm⟩
                show d.queue.head? = some m'
                rw [hd, ← hm', g1]; rfl
              · rw [wp_bind]
                refine wp_mono (fun d' c' hd' => ?_) (parse_dev cfg _ _ _)
                simp only [wp]
                rw [hd'.1]
                refine ⟨h.line, ?_, h.booted, h.mode⟩
                show RB.Models QUEUE _ d.queue.tail
                rw [hd]; exact g2
      · exact h
    · rename_i hm
      intro mem _
      have hdm : (devMon (F := F)).upd d (.eeRead mem) = d := by simp [devMon, Dev.act, h.booted]
      rw [hdm]
      simp only
      split
      · trivial
      · split
        · simp only [Mrcp.handOver]
          refine ⟨⟨by simp, ?_, by simp⟩, ?_⟩
          · intro m' hm'
            exact h.sel.2.1 hm
          · rw [wp_bind]
            refine wp_mono (fun d' c' hd' => ?_) (parse_dev cfg _ _ _)
            simp only [wp]
            rw [hd'.1]
            exact ⟨h.line, h.queue, h.booted, h.mode⟩
        · exact ⟨h.line, h.queue, h.booted, h.mode⟩
    · exact h
  · exact h

theorem rc_inert (d : Dev) : ∀ a : Act F, rcAct a → (devMon (F := F)).upd d a = d ∧ (devMon (F := F)).ok d a := by
  intro a ha
  match a, ha with
  | .servo _ _, _ | .micro _ _, _ | .out (.raw _), _ => exact ⟨rfl, by simp [devMon]⟩

theorem check_inert (d : Dev) : ∀ a : Act F, checkAct a → (devMon (F := F)).upd d a = d ∧ (devMon (F := F)).ok d a := by
  intro a ha
  match a, ha with
  | .pin _ _, _ | .now _, _ | .out (.msg (.n1 _)), _ => exact ⟨rfl, by simp [devMon]⟩

theorem rcProcess_dev (cfg : Cfg F) (s : FW F) (d : Dev) (h : Agrees s d) :
    (rcProcess cfg s).wp devMon (fun d' s' => Agrees s' d') d := by
  rw [rcProcess, wp_bind]
  refine wp_mono (fun d' r hr => ?_) (wp_of_only (RC.process_only cfg.toRCfg s.core.rc) d (rc_inert d) (fun _ => trivial))
  simp only [wp]
  rw [hr.1]; exact h.core _

theorem loop_dev (cfg : Cfg F) (s : FW F) (d : Dev) (h : Agrees s d) :
    (loopBody cfg s).wp devMon (fun d' s' => Agrees s' d') d := by
  simp only [loopBody, bind_def]
  rw [wp_bind]
  refine wp_mono (fun d s h => ?_) (rcProcess_dev cfg s d h)
  rw [wp_bind]
  refine wp_mono (fun d s h => ?_) (rcProcess_dev cfg s d h)
  rw [wp_bind]
  refine wp_mono (fun d s h => ?_) (serial_dev cfg SERIAL_BYTES s d h)
  rw [wp_bind]
  refine wp_mono (fun d' c hc => ?_) (wp_of_only (mrilProcess_only s.core) d (check_inert d) (fun _ => trivial))
  rw [hc.1]
  exact process_dev cfg _ _ (h.core c)

theorem numMsgs_pos (m : EMem) : (EE.getNumberOfMessages m > 0) = (m 0 ≠ 0) := by
  have h0 : EE.read m 0 = m 0 := by simp [EE.read, EEPROM_SIZE]
  have : ∀ n, ((EE.scanFrom m (n + 1) 0).1 > 0) = (m 0 ≠ 0) := by
    intro n
    rw [EE.scanFrom, h0]
    by_cases hm : m 0 = 0
    · simp [hm]
    · simp [hm]
  exact this EEPROM_SIZE

theorem setup_dev (cfg : Cfg F) (junk : Nat → Byte) : (setup cfg junk).wp devMon (fun d' s' => Agrees s' d') {} := by
  simp only [setup, RC.new, RC.getCurrentPose, RC.getCurrentLogicalAngles, RC.readAngles, readServo, bind_def, pure_def, Prog.bind, wp]
  intros
  refine ⟨Framer.at_init, RB.models_new 300 (by decide) (by decide) junk, rfl, ?_⟩
  simp only [devMon, Dev.act, numMsgs_pos]
  rename_i m _
  by_cases hm : m 0 = 0 <;> simp [hm]

/-- the whole firmware keeps to the host's view, in every environment. -/
theorem trace_dev {cfg : Cfg F} {junk : Nat → Byte} {tr : List (Act F)} {p : Prog F (FW F)} (h : Trace cfg junk tr p) :
    (∀ pre a post, tr = pre ++ a :: post → a.isInput = false → (devMon (F := F)).ok (Dev.after pre) a) ∧
    p.wp devMon (fun d' s' => Agrees s' d') (Dev.after tr) :=
  Trace.sound devMon (fun d s => Agrees s d) {} (setup_dev cfg junk) (fun d s h => loop_dev cfg s d h) h (fun _ _ _ _ _ => trivial)

end Mrc
