import Verif.Proof.System
import Verif.Proof.Pass
import Verif.Proof.Eeprom
import Verif.Proof.CoreWp
import Verif.Proof.Run
import Verif.Spec.Host
/- A firmware that only receives well formed frames: the dispatcher never leaves its buffers and only hands over the instructions the host meant. -/
set_option linter.unusedSectionVars false
namespace Mrc
open Mrc.Prog Mrc.Spec
variable {F : Type} [FloatOps F] {α : Type}

/-- accesses are judged one by one; only faults in `B` are accepted (by default none). -/
def lmon (E O : Act F → Prop) (B : Fault → Prop := fun _ => False) : Mon F Unit where
  upd _ _ := ()
  env _ a := E a
  ok _ a := O a
  flt f := B f

/-- the framer's reactions to a stream. -/
def reactions (r : List Byte) : List FEv := (nrun ([], false, false) r).2

/-- the stream produced only frames that satisfy `G`. -/
def Clean (G : List Byte → Prop) (r : List Byte) : Prop := FEv.oob ∉ reactions r ∧ ∀ p, FEv.cmd p ∈ reactions r → G p

theorem Clean.prefix {G : List Byte → Prop} {r t : List Byte} (h : Clean G (r ++ t)) : Clean G r := by
  have e : reactions (r ++ t) = reactions r ++ (nrun (nrun ([], false, false) r).1 t).2 := by rw [reactions, nrun_append]; rfl
  rw [Clean, e] at h
  exact ⟨fun hh => h.1 (List.mem_append_left _ hh), fun p hp => h.2 p (List.mem_append_left _ hp)⟩

/-- as `lmon`, and in addition: bytes received so far and contents of the storage. -/
def hostMon (E O : Act F → Prop) (G : List Byte → Prop) (B : Fault → Prop := fun _ => False) : Mon F (List Byte × EMem) where
  upd g a := match a with
    | .rx (some b) => (g.1 ++ [b], g.2)
    | .eeWrite a b => (g.1, EE.write g.2 a b)
    | _ => g
  env g a := E a ∧ (∀ b, a = .rx (some b) → Clean G (g.1 ++ [b])) ∧ ∀ m, a = .eeRead m → m = g.2
  ok _ a := O a
  flt f := B f

/-- accesses that are neither serial input nor storage. -/
def plainAct : Act F → Prop
  | .rx _ | .eeRead _ | .eeWrite _ _ => False
  | _ => True

theorem wp_host {E O : Act F → Prop} {G : List Byte → Prop} {B : Fault → Prop} {p : Prog F α} {Q R : α → Prop} (ho : p.only plainAct R)
    (h : p.wp (lmon E O B) (fun _ a => Q a) ()) (g : List Byte × EMem) : p.wp (hostMon E O G B) (fun g' a => g' = g ∧ Q a) g := by
  induction p with
  | ret a => exact ⟨rfl, h⟩
  | fault f => exact h
  | servo i k ih => exact fun v hv => ih v (ho v).2 (h v hv.1)
  | micro i m k ih => exact ⟨h.1, ih ho.2 h.2⟩
  | now k ih => exact fun v hv => ih v (ho v).2 (h v hv.1)
  | pin p k ih => exact fun v hv => ih v (ho v).2 (h v hv.1)
  | rx k ih => exact absurd (ho none).1 (by simp [plainAct])
  | eeRead k ih => exact absurd (ho fun _ => 0).1 (by simp [plainAct])
  | eeWrite a b k ih => exact absurd ho.1 (by simp [plainAct])
  | out o k ih => exact ⟨h.1, ih ho.2 h.2⟩

/-- what has to be shown of the code behind the dispatcher: `I` is kept by the controller and by the instructions; `Now`, `Instr`: the immediate and the
other instructions the host sends. -/
structure Tame (cfg : Cfg F) (E O : Act F → Prop) (I : Core F → Prop) (Now Instr : List Byte → Prop)
    (B : Fault → Prop := fun _ => False) : Prop where
  rc : ∀ c, I c → (RC.process cfg.toRCfg c.rc).wp (lmon E O B) (fun _ r => I { c with rc := r }) ()
  now : ∀ c m, Now m → I c → (Mril.parse cfg c m).wp (lmon E O B) (fun _ c => I c) ()
  instr : ∀ c m, Instr m → I c → c.conds = [] → (Mril.parse cfg c m).wp (lmon E O B) (fun _ c => I c) ()
  check : ∀ c, I c → (Mril.process c).wp (lmon E O B) (fun _ c => I c ∧ (c.done = true → c.conds = [])) ()
  disp : ∀ a, (∃ s m, a = .out (.ghost s m)) ∨ (∃ n, a = .out (.msg (.free n))) ∨ (∃ t, a = .out (.raw (.error t))) ∨ (∃ x y, a = .eeWrite x y) → O a
  boot : ∀ v u : Fin 6 → Servo F, (∀ i, E (.servo (armServo i) (v i))) → (∀ i, E (.servo (armServo i) (u i))) →
    I (CoreInv.boot cfg (fun i => (v i).cur) (fun i => (u i).cur))

/-- the meaning of a frame is acceptable. -/
def FrameOK (Now Instr : List Byte → Prop) (p : List Byte) : Prop :=
  p.length ≤ 78 ∧ RB.END ∉ p ∧ match frame p with
    | .now m => Now m
    | .put m => Instr m
    | .store m => Instr m
    | _ => True

/-- the storage holds instructions that satisfy `Instr`. -/
def Program (Instr : List Byte → Prop) (mem : EMem) : Prop := ∃ L, EE.Stored mem L ∧ ∀ m ∈ L, m.length ≤ 80 ∧ Instr m

/-- the state between two steps of the dispatcher. -/
structure Tidy (I : Core F → Prop) (Now Instr : List Byte → Prop) (g : List Byte × EMem) (s : FW F) : Prop where
  core : I s.core
  framer : s.framer.norm = (nrun ([], false, false) g.1).1
  queue : ∃ q, RB.Models 300 s.rb q ∧ ∀ m ∈ q, m.length ≤ 78 ∧ Instr m
  store : Program Instr g.2

namespace Tame
variable {cfg : Cfg F} {E O : Act F → Prop} {I : Core F → Prop} {Now Instr : List Byte → Prop} {B : Fault → Prop}

local notation "HM" => hostMon E O (FrameOK Now Instr) B

theorem rcProcess_wp (H : Tame cfg E O I Now Instr B) {g} {s : FW F} (h : Tidy I Now Instr g s) :
    (rcProcess cfg s).wp HM (fun g' s' => Tidy I Now Instr g' s') g := by
  rw [rcProcess, wp_bind]
  refine wp_mono (fun g' r hr => ?_) (wp_host (only_mono (fun a ha => ?_) (fun _ h => h) (RC.process_only cfg.toRCfg s.core.rc)) (H.rc s.core h.core) g)
  · rw [hr.1]; exact ⟨hr.2, h.framer, h.queue, h.store⟩
  · match a, ha with
    | .servo _ _, _ | .micro _ _, _ | .out (.raw _), _ => trivial

theorem parse_plain (cfg : Cfg F) (c : Core F) (m : List Byte) : (Mril.parse cfg c m).only plainAct (fun _ => True) := by
  refine only_mono (fun a ha => ?_) (fun _ _ => trivial) (parse_only cfg c m)
  match a, ha with
  | .servo _ _, _ | .micro _ _, _ | .now _, _ | .out (.msg (.n0 _)), _ | .out (.msg (.reply _ _)), _ | .out (.raw .comment), _
  | .out (.pinMode _ _), _ | .out (.digitalWrite _ _), _ => trivial

theorem handOver_wp (H : Tame cfg E O I Now Instr B) (src : Src) {g} {s : FW F} (m : List Byte) (h : Tidy I Now Instr g s)
    (hm : Now m ∨ (Instr m ∧ s.core.conds = [])) : (Mrcp.handOver cfg src s m).wp HM (fun g' s' => g' = g ∧ Tidy I Now Instr g' s') g := by
  refine ⟨H.disp _ (.inl ⟨_, _, rfl⟩), ?_⟩
  rw [wp_bind]
  have : (Mril.parse cfg s.core m).wp (lmon E O B) (fun _ c => I c) () := by
    rcases hm with hm | ⟨hm, hc⟩
    · exact H.now _ _ hm h.core
    · exact H.instr _ _ hm h.core hc
  refine wp_mono (fun g' c hc => ?_) (wp_host (parse_plain cfg s.core m) this _)
  obtain ⟨rfl, hc⟩ := hc
  exact ⟨rfl, hc, h.framer, h.queue, h.store⟩

theorem eeWrites_wp (H : Tame cfg E O I Now Instr B) (ws : List (Nat × Byte)) (g : List Byte × EMem) :
    (eeWrites ws : Prog F Unit).wp HM (fun g' _ => g' = (g.1, EE.writes g.2 ws)) g := by
  induction ws generalizing g with
  | nil => rfl
  | cons w ws ih =>
    refine ⟨H.disp _ (.inr (.inr (.inr ⟨_, _, rfl⟩))), ?_⟩
    refine wp_mono (fun g' _ h => ?_) (ih _)
    rw [h]; rfl

theorem parseCommand_wp (H : Tame cfg E O I Now Instr B) {g} {s : FW F} (p : List Byte) (h : Tidy I Now Instr g s) (hp : FrameOK Now Instr p) :
    (Mrcp.parseCommand cfg s p).wp HM (fun g' s' => Tidy I Now Instr g' s') g := by
  cases p with
  | nil => exact h
  | cons c m =>
    obtain ⟨hlen, hend, hf⟩ := hp
    have hmend : RB.END ∉ m := fun hh => hend (List.mem_cons_of_mem _ hh)
    have hmlen : m.length ≤ 78 := by simp at hlen; omega
    have hput : ∀ x : List Byte, RB.END ∉ x → x.length ≤ 78 → Instr x → Tidy I Now Instr g { s with mode := .queue, rb := (s.rb.putBytes x).1 } := by
      intro x hx hxl hxi
      obtain ⟨q, hq, hqi⟩ := h.queue
      refine ⟨h.core, h.framer, ⟨_, hq.put x hx (by omega), ?_⟩, h.store⟩
      intro y hy
      split at hy
      · rcases List.mem_append.1 hy with hy | hy
        · exact hqi y hy
        · rw [List.mem_singleton.1 hy]; exact ⟨hxl, hxi⟩
      · exact hqi y hy
    simp only [Mrcp.parseCommand]
    simp only [frame] at hf
    by_cases h66 : c = 66
    · simp only [h66, if_true]
      exact ⟨H.disp _ (.inr (.inl ⟨_, rfl⟩)), h⟩
    · simp only [h66, if_false] at hf ⊢
      by_cases h69 : c = 69
      · simp only [h69, if_true] at hf ⊢
        exact wp_mono (fun _ _ h => h.2) (H.handOver_wp _ m h (.inl hf))
      · simp only [h69, if_false] at hf ⊢
        by_cases h81 : c = 81
        · simp only [h81, if_true] at hf ⊢
          by_cases hm0 : m = []
          · simp only [hm0, if_true]
            obtain ⟨q, hq, _⟩ := h.queue
            exact ⟨h.core, h.framer, ⟨[], hq.clear, by simp⟩, h.store⟩
          · simp only [hm0, if_false] at hf ⊢
            exact hput m hmend hmlen hf
        · simp only [h81, if_false] at hf ⊢
          by_cases h87 : c = 87
          · simp only [h87, if_true] at hf ⊢
            by_cases hm0 : m = []
            · simp only [hm0, if_true]
              refine ⟨H.disp _ (.inr (.inr (.inr ⟨_, _, rfl⟩))), h.core, h.framer, h.queue, ⟨[], EE.clear_stored g.2, by simp⟩⟩
            · simp only [hm0, if_false] at hf ⊢
              intro mem hmem
              have hmem2 : mem = g.2 := hmem.2.2 mem rfl
              subst hmem2
              have hgo : ((eeWrites (EE.appendWrites g.2 m) : Prog F Unit).bind fun _ => .ret { s with mode := .eeprom }).wp HM
                  (fun g' s' => Tidy I Now Instr g' s') g := by
                rw [wp_bind]
                refine wp_mono (fun g' _ e => ?_) (H.eeWrites_wp _ g)
                rw [e]
                refine ⟨h.core, h.framer, h.queue, ?_⟩
                obtain ⟨L, hL, hLi⟩ := h.store
                refine ⟨_, EE.append_stored hL m ⟨hm0, by omega⟩, ?_⟩
                intro x hx
                simp only [eStep] at hx
                split at hx
                · rcases List.mem_append.1 hx with hx | hx
                  · exact hLi x hx
                  · rw [List.mem_singleton.1 hx]; exact ⟨by omega, hf⟩
                · exact hLi x hx
              show Prog.wp HM (if _ then _ else _) _ g
              split
              · exact ⟨H.disp _ (.inr (.inr (.inl ⟨_, rfl⟩))), hgo⟩
              · exact hgo
          · simp only [h87, if_false] at hf ⊢
            exact hput (c :: m) hend hlen hf

theorem events_wp (H : Tame cfg E O I Now Instr B) {g} (es : List FEv) {s : FW F} (h : Tidy I Now Instr g s) (h1 : FEv.oob ∉ es)
    (h2 : ∀ p, FEv.cmd p ∈ es → FrameOK Now Instr p) : (Mrcp.events cfg s es).wp HM (fun g' s' => Tidy I Now Instr g' s') g := by
  induction es generalizing s g with
  | nil => exact h
  | cons e es ih =>
    cases e with
    | oob => exact absurd List.mem_cons_self h1
    | cmd p =>
      simp only [Mrcp.events, wp_bind]
      refine wp_mono (fun g' s' h' => ?_) (H.parseCommand_wp p h (h2 p List.mem_cons_self))
      exact ih h' (fun hh => h1 (List.mem_cons_of_mem _ hh)) (fun p hp => h2 p (List.mem_cons_of_mem _ hp))

theorem serial_wp (H : Tame cfg E O I Now Instr B) (n : Nat) {g} {s : FW F} (h : Tidy I Now Instr g s) :
    (serialProcess cfg n s).wp HM (fun g' s' => Tidy I Now Instr g' s') g := by
  induction n generalizing s g with
  | zero => exact h
  | succ n ih =>
    intro b hb
    cases b with
    | none => exact h
    | some c =>
      show Prog.wp HM ((Mrcp.parseChar cfg s c).bind (serialProcess cfg n)) _ _
      rw [wp_bind]
      refine wp_mono (fun g s h => ih h) ?_
      have hc := hb.2.1 c rfl
      have er : reactions (g.1 ++ [c]) = reactions g.1 ++ (s.framer.step c).2 := by
        have e2 : (s.framer.step c).2 = (nstep s.framer.norm c).2 := by rw [← step_norm]
        rw [reactions, nrun_append, e2, h.framer]
        simp [nrun, reactions]
      have en : (s.framer.step c).1.norm = (nrun ([], false, false) (g.1 ++ [c])).1 := by
        have e2 : (s.framer.step c).1.norm = (nstep s.framer.norm c).1 := by rw [← step_norm]
        rw [e2, nrun_append, h.framer]; rfl
      rw [Clean, er] at hc
      simp only [Mrcp.parseChar]
      refine H.events_wp _ ⟨h.core, en, h.queue, h.store⟩ (fun hh => hc.1 (List.mem_append_right _ hh)) (fun p hp => hc.2 p (List.mem_append_right _ hp))

theorem process_wp (H : Tame cfg E O I Now Instr B) {g} {s : FW F} (h : Tidy I Now Instr g s) (hd : s.core.done = true → s.core.conds = []) :
    (Mrcp.process cfg s).wp HM (fun g' s' => Tidy I Now Instr g' s') g := by
  simp only [Mrcp.process]
  split
  · exact h
  · split
    · rename_i hdone
      split
      · split
        · rename_i hsz
          refine ⟨H.disp _ (.inr (.inl ⟨_, rfl⟩)), ?_⟩
          obtain ⟨q, hq, hqi⟩ := h.queue
          cases q with
          | nil =>
            exfalso
            have := hq.size
            rw [this] at hsz; exact absurd hsz (by decide)
          | cons m q =>
            obtain ⟨g1, g2⟩ := hq.get
            have hm := hqi m List.mem_cons_self
            rw [if_neg (by rw [g1]; show ¬ (_ > 80); omega)]
            refine wp_mono (fun _ _ h => h.2) (H.handOver_wp _ _ ⟨h.core, h.framer, ⟨q, g2, fun x hx => hqi x (List.mem_cons_of_mem _ hx)⟩, h.store⟩ (.inr ⟨?_, hd hdone⟩))
            rw [g1]; exact hm.2
        · exact h
      · intro mem hmem
        have hmem2 : mem = g.2 := hmem.2.2 mem rfl
        subst hmem2
        obtain ⟨L, hL, hLi⟩ := h.store
        have hmsg : ∀ ptr, (EE.getNextMessage g.2 ptr).1 = [] ∨ (EE.getNextMessage g.2 ptr).1 ∈ L := by
          intro ptr
          simp only [EE.getNextMessage, EE.getMessage_stored hL, List.getD_eq_getElem?_getD]
          generalize (if EE.getNumberOfMessages g.2 ≤ ptr then 1 else ptr) = k
          cases hk : L[k]? with
          | none => exact .inl rfl
          | some x => exact .inr (List.mem_of_getElem? hk)
        show Prog.wp HM (if _ then _ else _) _ g
        rcases hmsg s.eePtr with e | e
        · rw [if_neg (by rw [e]; show ¬ (0 > 80); omega), if_neg (by rw [e]; simp)]
          exact ⟨h.core, h.framer, h.queue, h.store⟩
        · have hm := hLi _ e
          rw [if_neg (by show ¬ (_ > 80); omega)]
          split
          · exact wp_mono (fun _ _ h => h.2) (H.handOver_wp _ _ ⟨h.core, h.framer, h.queue, h.store⟩ (.inr ⟨hm.2, hd hdone⟩))
          · exact ⟨h.core, h.framer, h.queue, h.store⟩
      · exact h
    · exact h

theorem loop_wp (H : Tame cfg E O I Now Instr B) {g} {s : FW F} (h : Tidy I Now Instr g s) :
    (loopBody cfg s).wp HM (fun g' s' => Tidy I Now Instr g' s') g := by
  simp only [loopBody, bind_def]
  rw [wp_bind]
  refine wp_mono (fun g s h => ?_) (H.rcProcess_wp h)
  rw [wp_bind]
  refine wp_mono (fun g s h => ?_) (H.rcProcess_wp h)
  rw [wp_bind]
  refine wp_mono (fun g s h => ?_) (H.serial_wp SERIAL_BYTES h)
  rw [wp_bind]
  have hpl : (Mril.process s.core).only plainAct (fun _ => True) := by
    refine only_mono (fun a ha => ?_) (fun _ _ => trivial) (mrilProcess_only s.core)
    match a, ha with
    | .pin _ _, _ | .now _, _ | .out (.msg (.n1 _)), _ => trivial
  refine wp_mono (fun g' c hc => ?_) (wp_host hpl (H.check s.core h.core) g)
  obtain ⟨rfl, hc⟩ := hc
  exact H.process_wp (s := { s with core := c }) ⟨hc.1, h.framer, h.queue, h.store⟩ hc.2

theorem setup_wp (H : Tame cfg E O I Now Instr B) (junk : Nat → Byte) (mem : EMem) (hmem : Program Instr mem) :
    (setup cfg junk).wp HM (fun g' s' => Tidy I Now Instr g' s') ([], mem) := by
  simp only [setup, RC.new, RC.getCurrentPose, RC.getCurrentLogicalAngles, RC.readAngles, readServo, bind_def, pure_def, Prog.bind, wp]
  intro v0 e0 v1 e1 v2 e2 v3 e3 v4 e4 v5 e5 u0 f0 u1 f1 u2 f2 u3 f3 u4 f4 u5 f5 m _
  refine ⟨?_, rfl, ⟨[], RB.models_new 300 (by decide) (by decide) junk, by simp⟩, hmem⟩
  have := H.boot (fun i => match i with | 0 => v0 | 1 => v1 | 2 => v2 | 3 => v3 | 4 => v4 | 5 => v5)
    (fun i => match i with | 0 => u0 | 1 => u1 | 2 => u2 | 3 => u3 | 4 => u4 | 5 => u5) ?_ ?_
  · have e1 : (fun i : Fin 6 => (match i with | 0 => v0 | 1 => v1 | 2 => v2 | 3 => v3 | 4 => v4 | 5 => v5 : Servo F).cur) =
        six v0.cur v1.cur v2.cur v3.cur v4.cur v5.cur := by
      funext i; match i with | 0 | 1 | 2 | 3 | 4 | 5 => rfl
    have e2 : (fun i : Fin 6 => (match i with | 0 => u0 | 1 => u1 | 2 => u2 | 3 => u3 | 4 => u4 | 5 => u5 : Servo F).cur) =
        six u0.cur u1.cur u2.cur u3.cur u4.cur u5.cur := by
      funext i; match i with | 0 | 1 | 2 | 3 | 4 | 5 => rfl
    rw [e1, e2] at this
    exact this
  · intro i; match i with
    | 0 => exact e0.1
    | 1 => exact e1.1
    | 2 => exact e2.1
    | 3 => exact e3.1
    | 4 => exact e4.1
    | 5 => exact e5.1
  · intro i; match i with
    | 0 => exact f0.1
    | 1 => exact f1.1
    | 2 => exact f2.1
    | 3 => exact f3.1
    | 4 => exact f4.1
    | 5 => exact f5.1

/-- all histories in which the bytes are clean; `W`: what is known of the servos (kept by the interrupt and by the stores the program makes). -/
theorem run (H : Tame cfg E O I Now Instr B) {w0 : World F} {junk : Nat → Byte} {W : World F → Prop} (h0 : W w0)
    (hE : ∀ w i, W w → E (.servo i (w.servos i))) (hE' : ∀ a, (∀ i s, a ≠ .servo i s) → E a)
    (hO : ∀ w i m, W w → O (.micro i m) → W (w.setServo i ((w.servos i).micro m)))
    (hisr : ∀ w, W w → W w.isr) (hw : ∀ w w', w.servos = w'.servos → W w → W w')
    (hmem : Program Instr w0.ee) {evs : List (Ev F)} {s : Sys F} (h : Sys.Run cfg w0 junk evs s)
    (hc : Clean (FrameOK Now Instr) (w0.rxq ++ arrivals evs)) :
    W s.w ∧ s.p.wp HM (fun g' s' => Tidy I Now Instr g' s') (rxBytes (acts evs), s.w.ee) ∧ ∀ a ∈ acts evs, a.isInput = false → O a := by
  induction h with
  | init => exact ⟨h0, H.setup_wp junk w0.ee hmem, by simp [acts]⟩
  | @step evs s e t h hs ih =>
    have hc1 : Clean (FrameOK Now Instr) (w0.rxq ++ arrivals evs) := by
      rw [arrivals_append, ← List.append_assoc] at hc; exact hc.prefix
    obtain ⟨hg, hwp, hO'⟩ := ih hc1
    have hnext := (h.step hs)
    have hff := h.fifo
    rw [acts_append, rxBytes_append]
    have hacts : ∀ a, a ∈ acts evs ++ acts [e] → a.isInput = false → (∀ a, acts [e] = [a] → a.isInput = false → O a) → O a := by
      intro a ha hi hn
      rcases List.mem_append.1 ha with ha | ha
      · exact hO' a ha hi
      · have : acts [e] = [] ∨ ∃ x, acts [e] = [x] := by cases e <;> simp [acts]
        rcases this with h | ⟨x, h⟩
        · rw [h] at ha; cases ha
        · rw [h] at ha; rw [List.mem_singleton.1 ha] at hi ⊢; exact hn x h hi
    cases hs with
    | loop =>
      refine ⟨hg, ?_, fun a ha hi => hacts a ha hi (by simp [acts])⟩
      simp only [acts, List.filterMap_cons_none, List.filterMap_nil, rxBytes, List.append_nil]
      exact H.loop_wp hwp
    | @servo w i k =>
      refine ⟨hg, ?_, fun a ha hi => hacts a ha hi (by intro a h hi; simp [acts] at h; subst h; cases hi)⟩
      simp only [acts, List.filterMap_cons, List.filterMap_nil, rxBytes, List.append_nil]
      exact hwp _ ⟨hE w i hg, (by intro b hb; cases hb), (by intro b hb; cases hb)⟩
    | @micro w i m k =>
      refine ⟨hO _ _ _ hg hwp.1, ?_, fun a ha hi => hacts a ha hi (by intro a h hi; simp [acts] at h; subst h; exact hwp.1)⟩
      simp only [acts, List.filterMap_cons, List.filterMap_nil, rxBytes, List.append_nil]
      exact hwp.2
    | now =>
      refine ⟨hg, ?_, fun a ha hi => hacts a ha hi (by intro a h hi; simp [acts] at h; subst h; cases hi)⟩
      simp only [acts, List.filterMap_cons, List.filterMap_nil, rxBytes, List.append_nil]
      exact hwp _ ⟨hE' _ (by intro i s e; cases e), (by intro b hb; cases hb), (by intro b hb; cases hb)⟩
    | pin =>
      refine ⟨hg, ?_, fun a ha hi => hacts a ha hi (by intro a h hi; simp [acts] at h; subst h; cases hi)⟩
      simp only [acts, List.filterMap_cons, List.filterMap_nil, rxBytes, List.append_nil]
      exact hwp _ ⟨hE' _ (by intro i s e; cases e), (by intro b hb; cases hb), (by intro b hb; cases hb)⟩
    | rxNone hq =>
      refine ⟨hg, ?_, fun a ha hi => hacts a ha hi (by intro a h hi; simp [acts] at h; subst h; cases hi)⟩
      simp only [acts, List.filterMap_cons, List.filterMap_nil, rxBytes, List.append_nil]
      exact hwp _ ⟨hE' _ (by intro i s e; cases e), (by intro b hb; cases hb), (by intro b hb; cases hb)⟩
    | @rxSome w b bs k hq =>
      refine ⟨hw _ _ (by rfl) hg, ?_, fun a ha hi => hacts a ha hi (by intro a h hi; simp [acts] at h; subst h; cases hi)⟩
      simp only [acts, List.filterMap_cons, List.filterMap_nil, rxBytes]
      refine hwp _ ⟨hE' _ (by intro i s e; cases e), ?_, by intro b hb; cases hb⟩
      intro b' hb'
      injection hb' with hb'; injection hb' with hb'
      subst hb'
      rw [hff, hq] at hc1
      have : rxBytes (acts evs) ++ b :: bs = (rxBytes (acts evs) ++ [b]) ++ bs := by simp
      rw [this] at hc1
      exact hc1.prefix
    | eeRead =>
      refine ⟨hg, ?_, fun a ha hi => hacts a ha hi (by intro a h hi; simp [acts] at h; subst h; cases hi)⟩
      simp only [acts, List.filterMap_cons, List.filterMap_nil, rxBytes, List.append_nil]
      exact hwp _ ⟨hE' _ (by intro i s e; cases e), (by intro b hb; cases hb), (by intro m hm; injection hm with hm; exact hm.symm)⟩
    | eeWrite =>
      refine ⟨hw _ _ (by rfl) hg, ?_, fun a ha hi => hacts a ha hi (by intro a h hi; simp [acts] at h; subst h; exact hwp.1)⟩
      simp only [acts, List.filterMap_cons, List.filterMap_nil, rxBytes, List.append_nil]
      exact hwp.2
    | out =>
      refine ⟨hw _ _ (by rfl) hg, ?_, fun a ha hi => hacts a ha hi (by intro a h hi; simp [acts] at h; subst h; exact hwp.1)⟩
      simp only [acts, List.filterMap_cons, List.filterMap_nil, rxBytes, List.append_nil]
      exact hwp.2
    | isr =>
      refine ⟨hisr _ hg, ?_, fun a ha hi => hacts a ha hi (by simp [acts])⟩
      simp only [acts, List.filterMap_cons, List.filterMap_nil, rxBytes, List.append_nil]
      exact hwp
    | clock t ht =>
      refine ⟨hw _ _ (by rfl) hg, ?_, fun a ha hi => hacts a ha hi (by simp [acts])⟩
      simp only [acts, List.filterMap_cons, List.filterMap_nil, rxBytes, List.append_nil]
      exact hwp
    | pins f =>
      refine ⟨hw _ _ (by rfl) hg, ?_, fun a ha hi => hacts a ha hi (by simp [acts])⟩
      simp only [acts, List.filterMap_cons, List.filterMap_nil, rxBytes, List.append_nil]
      exact hwp
    | arrive bs =>
      refine ⟨hw _ _ (by rfl) hg, ?_, fun a ha hi => hacts a ha hi (by simp [acts])⟩
      simp only [acts, List.filterMap_cons, List.filterMap_nil, rxBytes, List.append_nil]
      exact hwp

end Tame

/-- frames are acceptable when the host is careful. -/
theorem clean_of_wellSent {r : List Byte} (h : WellSent r) : Clean (FrameOK CarefulNow CarefulInstr) r := by
  constructor
  · intro ho
    rcases (nrun_oob r.length r (Nat.le_refl _)).1 ho with ⟨l, hl, h1⟩ | ⟨l, hl, p, hp, h1⟩
    · have := h.frames l hl; omega
    · have := h.pieces l hl p hp; omega
  · intro p hp
    have hd : p ∈ decode r := by
      rw [← nrun_decode r.length r (Nat.le_refl _)]
      exact List.mem_filterMap.2 ⟨_, hp, rfl⟩
    have hc := h.careful p hd
    obtain ⟨l, hl, rfl⟩ := List.mem_map.1 hd
    refine ⟨h.frames l (List.mem_filter.1 hl).1, payload_noEnd l, ?_⟩
    cases hf : frame (payload l) with
    | now m => rw [hf] at hc; exact hc
    | put m => rw [hf] at hc; exact hc
    | store m => rw [hf] at hc; exact hc
    | _ => trivial

end Mrc
