import Verif.Proof.Pass
import Verif.Proof.Run
import Verif.Proof.Demo
import Verif.Props.Framing
import Verif.Props.Storage
import Verif.Props.IO
/-
Property theorems C11-C13, C60, C61, C64, C65 (command dispatch, the main loop, end to end).
-/
set_option linter.unusedSectionVars false
namespace Mrc.Props
open Mrc Mrc.Prog Mrc.Spec
variable {F : Type} [FloatOps F]

/-! ### C11 -/

/-- bytes handed to the serial parser one after the other. -/
def feed (cfg : Cfg F) : List Byte → FW F → Prog F (FW F)
  | [], s => .ret s
  | b :: bs, s => (Mrcp.parseChar cfg s b).bind (feed cfg bs)

private theorem feed_line (cfg : Cfg F) (l0 bs : List Byte) (s : FW F) (h0 : s.framer.At l0) (hb : (13 : Byte) ∉ bs)
    (hs : FEv.oob ∉ (nrun s.framer.norm (bs ++ [13])).2) :
    ∃ f, f.At [] ∧ feed cfg (bs ++ [13]) s =
      if overlong (l0 ++ bs) then .ret { s with framer := f } else Mrcp.parseCommand cfg { s with framer := f } (payload (l0 ++ bs)) := by
  induction bs generalizing l0 s with
  | nil =>
    obtain ⟨h1, h2⟩ := Framer.at_cr h0
    refine ⟨_, h1, ?_⟩
    have e : (s.framer.step 13).2 = (nrun s.framer.norm [13]).2 := by
      have := step_norm s.framer 13
      rw [nrun, ← this]; simp [nrun]
    have hno : ¬ (payload l0).length + 1 ≥ 80 := by
      intro hh
      rw [List.nil_append, ← e, h2, if_pos hh] at hs
      simp at hs
    rw [List.nil_append, feed, List.append_nil]
    simp only [Mrcp.parseChar, h2, if_neg hno, List.nil_append]
    split
    · rfl
    · simp only [Mrcp.events, bind_ret]
      exact bind_ret _
  | cons b bs ih =>
    have hb13 : b ≠ 13 := fun e => hb (by simp [e])
    obtain ⟨h1, h2⟩ := Framer.at_step h0 b hb13
    have hn := step_norm s.framer b
    have e2 : (s.framer.step b).2 = (nstep s.framer.norm b).2 := by rw [← hn]
    have e1 : (s.framer.step b).1.norm = (nstep s.framer.norm b).1 := by rw [← hn]
    rw [List.cons_append, nrun, ← e1, ← e2] at hs
    have hnil : (s.framer.step b).2 = [] := by
      cases he : (s.framer.step b).2 with
      | nil => rfl
      | cons x xs =>
        exfalso
        have := h2 x (by rw [he]; simp)
        apply hs; rw [he, this]; simp
    obtain ⟨f, hf, hfe⟩ := ih (l0 ++ [b]) { s with framer := (s.framer.step b).1 } h1 (fun h => hb (by simp [h]))
      (by intro h; apply hs; simp only [List.mem_append]; exact .inr h)
    refine ⟨f, hf, ?_⟩
    rw [List.cons_append, feed]
    simp only [Mrcp.parseChar, hnil, Mrcp.events, Prog.bind]
    rw [hfe, List.append_assoc]
    rfl

/-- **C11** (delivery): the bytes of one line (for which the parser stays inside its buffer) do nothing but hand the payload of
the line to the dispatcher, once — over-long lines nothing. -/
theorem C11_delivery (cfg : Cfg F) (l : List Byte) (s : FW F) (h0 : s.framer.At []) (hl : (13 : Byte) ∉ l)
    (hs : FEv.oob ∉ effects (l ++ [13])) :
    ∃ f : Framer, f.At [] ∧ feed cfg (l ++ [13]) s =
      if overlong l then .ret { s with framer := f } else Mrcp.parseCommand cfg { s with framer := f } (payload l) := by
  rw [effects, run_events] at hs
  have : s.framer.norm = Framer.norm {} := by rw [h0.1]; decide
  exact feed_line cfg [] l s h0 hl (by rw [this]; exact hs)

/-- **C11** B: the answer is the number of free bytes; nothing changes. -/
theorem C11_free (cfg : Cfg F) (s s' : FW F) (q : List (List Byte)) (hq : RB.Models QUEUE s.rb q) (p : List Byte) (hp : frame p = .free)
    (tr : List (Act F)) : Does (Mrcp.parseCommand cfg s p) tr s' ↔ tr = [.out (.msg (.free (300 - qSize q)))] ∧ s' = s := by
  have e : Mrcp.parseCommand cfg s p = .out (.msg (.free (300 - qSize q))) (.ret s) := by
    cases p with
    | nil => simp [frame] at hp
    | cons c m =>
      have hc : c = 66 := by
        simp only [frame] at hp
        split at hp
        · assumption
        · split at hp
          · simp at hp
          · split at hp
            · split at hp <;> simp at hp
            · split at hp
              · split at hp <;> simp at hp
              · simp at hp
      simp only [Mrcp.parseCommand, hc, if_true, Mrcp.freeMsg, RB.getCapacity, hq.cap, hq.size]
      rfl
  rw [e]
  constructor
  · intro h
    cases h with | cons hs h =>
    cases hs
    obtain ⟨rfl, h3⟩ := exec_ret h
    simp at h3
    exact ⟨rfl, h3⟩
  · rintro ⟨rfl, rfl⟩
    exact .cons (.out _ _) (.nil _)

/-- **C11** E: the rest of the payload is executed at once, and only the parts an instruction works on can change: queue, mode,
storage position are as before. -/
theorem C11_execute (cfg : Cfg F) (s s' : FW F) (m : List Byte) (tr : List (Act F)) :
    Does (Mrcp.parseCommand cfg s (69 :: m)) tr s' ↔
      ∃ t c, tr = .out (.ghost .immediate m) :: t ∧ Does (Mril.parse cfg s.core m) t c ∧ s' = { s with core := c } := by
  have e : Mrcp.parseCommand cfg s (69 :: m) = .out (.ghost .immediate m) ((Mril.parse cfg s.core m).bind fun c => .ret { s with core := c }) := by
    simp [Mrcp.parseCommand, Mrcp.handOver]
  rw [e]
  constructor
  · intro h
    cases h with | cons hs h =>
    cases hs
    obtain ⟨c, t, u, rfl, h1, h2⟩ := exec_bind_ret h
    obtain ⟨rfl, h3⟩ := exec_ret h2
    simp at h3
    exact ⟨t, c, by simp, h1, h3⟩
  · rintro ⟨t, c, rfl, h, rfl⟩
    have := exec_bind_intro h (f := fun c => Prog.ret { s with core := c }) (.nil _)
    rw [List.append_nil] at this
    exact .cons (.out _ _) this

/-- **C11** Q<m> / any other letter: the message is appended to the queue if it fits (else refused), queue mode is selected, and
nothing else happens. -/
theorem C11_queue (cfg : Cfg F) (s s' : FW F) (q : List (List Byte)) (hq : RB.Models QUEUE s.rb q) (p m : List Byte) (hp : frame p = .put m)
    (hm : (33 : Byte) ∉ m) (hml : m.length < 2147483648) (tr : List (Act F)) (h : Does (Mrcp.parseCommand cfg s p) tr s') :
    tr = [] ∧ RB.Models QUEUE s'.rb (if qSize q + (m.length + 1) ≤ 300 then q ++ [m] else q) ∧
      s'.mode = .queue ∧ s'.core = s.core ∧ s'.eePtr = s.eePtr ∧ s'.framer = s.framer := by
  have e : Mrcp.parseCommand cfg s p = .ret { s with mode := .queue, rb := (s.rb.putBytes m).1 } := by
    cases p with
    | nil => simp [frame] at hp
    | cons c x =>
      simp only [frame] at hp
      simp only [Mrcp.parseCommand]
      by_cases h66 : c = 66
      · simp [h66] at hp
      by_cases h69 : c = 69
      · simp [h69] at hp
      by_cases h81 : c = 81
      · simp only [h81] at hp ⊢
        by_cases hx : x = []
        · simp [hx] at hp
        · simp [hx] at hp; subst hp; simp [hx]
      by_cases h87 : c = 87
      · simp only [h87] at hp
        by_cases hx : x = [] <;> simp [hx] at hp
      · simp only [h66, h69, h81, h87, if_false] at hp ⊢
        simp at hp; subst hp; rfl
  rw [e] at h
  obtain ⟨rfl, h3⟩ := exec_ret h
  simp at h3; subst h3
  exact ⟨rfl, hq.put m hm hml, rfl, rfl, rfl, rfl⟩

/-- **C11** Q alone: the queue is emptied, queue mode is selected, nothing else. -/
theorem C11_clear (cfg : Cfg F) (s s' : FW F) (q : List (List Byte)) (hq : RB.Models QUEUE s.rb q) (tr : List (Act F))
    (h : Does (Mrcp.parseCommand cfg s [81]) tr s') :
    tr = [] ∧ RB.Models QUEUE s'.rb [] ∧ s'.mode = .queue ∧ s'.core = s.core ∧ s'.eePtr = s.eePtr ∧ s'.framer = s.framer := by
  have e : Mrcp.parseCommand cfg s [81] = .ret { s with mode := .queue, rb := s.rb.clear } := by
    simp [Mrcp.parseCommand]
  rw [e] at h
  obtain ⟨rfl, h3⟩ := exec_ret h
  simp at h3; subst h3
  exact ⟨rfl, hq.clear, rfl, rfl, rfl, rfl⟩

private theorem eeWrites_run (ws : List (Nat × Byte)) (w : World F) :
    (eeWrites ws : Prog F Unit).run w = .ok ((), { w with ee := EE.writes w.ee ws }) := by
  induction ws generalizing w with
  | nil => rfl
  | cons x ws ih => simp only [eeWrites, Prog.run, ih]; rfl

private theorem run_bind {α β : Type} (p : Prog F α) (f : α → Prog F β) (w : World F) :
    (p.bind f).run w = match p.run w with | .ok (a, w') => (f a).run w' | .error e => .error e := by
  induction p generalizing w with
  | ret a => rfl
  | fault e => rfl
  | servo i k ih => simp only [Prog.bind, Prog.run, ih]
  | micro i m k ih => simp only [Prog.bind, Prog.run, ih]
  | now k ih => simp only [Prog.bind, Prog.run, ih]
  | pin p k ih => simp only [Prog.bind, Prog.run, ih]
  | rx k ih => simp only [Prog.bind, Prog.run]; split <;> simp only [ih]
  | eeRead k ih => simp only [Prog.bind, Prog.run, ih]
  | eeWrite a b k ih => simp only [Prog.bind, Prog.run, ih]
  | out o k ih => simp only [Prog.bind, Prog.run, ih]

/-- **C11** W<m>: the message is appended to the stored program if it fits (else an error text is printed and the program stays);
storage mode is selected; nothing else happens. -/
theorem C11_store (cfg : Cfg F) (s : FW F) (w : World F) (L : List (List Byte)) (hL : Holds w.ee L) (m : List Byte)
    (hm : m ≠ [] ∧ m.length ≤ 255) :
    ∃ w', (Mrcp.parseCommand cfg s (87 :: m)).run w = .ok ({ s with mode := .eeprom }, w') ∧
      Holds w'.ee (eStep L (.append m)).1 ∧ w'.servos = w.servos ∧ w'.rxq = w.rxq ∧
      w'.outs = w.outs ++ (if eSize L + m.length + 1 ≤ 2048 then [] else [.raw (.error "access out of EEProm max size")]) := by
  have hH : Holds (EE.appendMessage w.ee m) (eStep L (.append m)).1 := hL.append m hm
  have hsc := hL.scan
  by_cases hf : eSize L + m.length + 1 ≤ 2048
  · refine ⟨{ w with ee := EE.appendMessage w.ee m }, ?_, hH, rfl, rfl, by simp [hf]⟩
    have hn : ¬ (EE.scan w.ee).2 + m.length + 1 > EEPROM_SIZE := by rw [hsc]; simp only [EEPROM_SIZE]; omega
    simp only [Mrcp.parseCommand, hm.1, if_false]
    simp [Prog.run, EE.appendMessage, if_neg hn, run_bind, eeWrites_run]
  · refine ⟨{ w with ee := EE.appendMessage w.ee m, outs := w.outs ++ [.raw (.error "access out of EEProm max size")] }, ?_, hH, rfl, rfl,
      by simp [hf]⟩
    have hn : (EE.scan w.ee).2 + m.length + 1 > EEPROM_SIZE := by rw [hsc]; simp only [EEPROM_SIZE]; omega
    simp only [Mrcp.parseCommand, hm.1, if_false]
    simp [Prog.run, if_pos hn, run_bind, eeWrites_run, EE.appendMessage]

/-- **C11** W alone: the stored program is erased, replay restarts, and the mode stays. -/
theorem C11_erase (cfg : Cfg F) (s : FW F) (w : World F) :
    ∃ w', (Mrcp.parseCommand cfg s [87]).run w = .ok ({ s with eePtr := 1 }, w') ∧ Holds w'.ee [] ∧ w' = { w with ee := w'.ee } :=
  ⟨{ w with ee := EE.clear w.ee }, by simp [Mrcp.parseCommand, Prog.run, EE.clear], ⟨w.ee, [], by simp, rfl, rfl⟩, rfl⟩


/-! ### C12 -/

/-- **C12** (accuracy): in every history, every free-space report (also the unsolicited ones sent when the queue is consumed)
equals 300 minus the bytes used by the instructions accepted and not yet started. -/
theorem C12_report {cfg : Cfg F} {junk : Nat → Byte} {tr : List (Act F)} {p : Prog F (FW F)} (h : Trace cfg junk tr p)
    (pre post : List (Act F)) (n : Int) (ht : tr = pre ++ .out (.msg (.free n)) :: post) :
    n = 300 - qSize (Dev.after pre).queue :=
  ((trace_dev h).1 pre _ post ht rfl).2.2 n rfl

/-- accepting makes the queue grow by at most the accepted bytes. -/
private theorem act_grow (d : Dev) (a : Act F) :
    qSize (d.act a).queue + qSize d.accepted ≤ qSize d.queue + qSize (d.act a).accepted := by
  have hf : ∀ (d : Dev) (f : Frame), qSize (d.frame f).queue + qSize d.accepted ≤ qSize d.queue + qSize (d.frame f).accepted := by
    intro d f
    cases f <;> simp only [Dev.frame] <;> try omega
    · simp [qSize]
    · split
      · simp [qSize]; omega
      · simp
  have ht : ∀ q : List (List Byte), qSize q.tail ≤ qSize q := by
    intro q; cases q <;> simp [qSize]
  cases a with
  | rx b =>
    cases b with
    | none => exact Nat.le_refl _
    | some b =>
      simp only [Dev.act, Dev.recv]
      split
      · split
        · exact Nat.le_refl _
        · exact hf { d with line := [] } _
      · exact Nat.le_refl _
  | eeRead m => simp only [Dev.act]; split <;> exact Nat.le_refl _
  | out o =>
    cases o with
    | ghost src m =>
      cases src <;> first | exact Nat.le_refl _ | (simp only [Dev.act]; have := ht d.queue; omega)
    | _ => exact Nat.le_refl _
  | _ => exact Nat.le_refl _

private theorem after_grow (tr : List (Act F)) (d : Dev) :
    qSize (tr.foldl Dev.act d).queue + qSize d.accepted ≤ qSize d.queue + qSize (tr.foldl Dev.act d).accepted := by
  induction tr generalizing d with
  | nil => exact Nat.le_refl _
  | cons a tr ih =>
    have h1 := act_grow d a
    have h2 := ih (d.act a)
    simp only [List.foldl_cons]; omega

/-- **C12** (acceptance): `n` is a reported number, and no instruction has been accepted since.  Then any message shorter than `n`
is appended to the queue. -/
theorem C12_accepts {cfg : Cfg F} {junk : Nat → Byte} (pre mid : List (Act F)) (s : FW F) (n : Int)
    (h : Trace cfg junk (pre ++ .out (.msg (.free n)) :: mid) (.ret s))
    (hacc : (Dev.after (pre ++ .out (.msg (.free n)) :: mid)).accepted = (Dev.after pre).accepted)
    (p m : List Byte) (hp : frame p = .put m) (hm : (33 : Byte) ∉ m) (hn : (m.length : Int) < n)
    (tr : List (Act F)) (s' : FW F) (hd : Does (Mrcp.parseCommand cfg s p) tr s') :
    RB.Models QUEUE s'.rb ((Dev.after (pre ++ .out (.msg (.free n)) :: mid)).queue ++ [m]) := by
  have hq : RB.Models QUEUE s.rb _ := ((trace_dev h).2 : Agrees s _).queue
  have hr := C12_report h pre mid n rfl
  have hg : qSize (Dev.after (pre ++ .out (.msg (.free n)) :: mid)).queue ≤ qSize (Dev.after pre).queue := by
    have := after_grow (.out (.msg (.free n)) :: mid) (Dev.after pre)
    have e : (.out (.msg (.free n)) :: mid : List (Act F)).foldl Dev.act (Dev.after pre) = Dev.after (pre ++ .out (.msg (.free n)) :: mid) := by
      rw [Dev.after, Dev.after, List.foldl_append]
    rw [e, hacc] at this; omega
  have := (C11_queue cfg s s' _ hq p m hp hm (by omega) tr hd).2.1
  rwa [if_pos (by omega)] at this

/-- **C12** (refusal): if moreover the queue is as it was at the report, a message of at least `n` bytes is refused. -/
theorem C12_refuses {cfg : Cfg F} {junk : Nat → Byte} (pre mid : List (Act F)) (s : FW F) (n : Int)
    (h : Trace cfg junk (pre ++ .out (.msg (.free n)) :: mid) (.ret s))
    (hsame : (Dev.after (pre ++ .out (.msg (.free n)) :: mid)).queue = (Dev.after pre).queue)
    (p m : List Byte) (hp : frame p = .put m) (hm : (33 : Byte) ∉ m) (hml : m.length < 2147483648) (hn : n ≤ m.length)
    (tr : List (Act F)) (s' : FW F) (hd : Does (Mrcp.parseCommand cfg s p) tr s') :
    RB.Models QUEUE s'.rb (Dev.after (pre ++ .out (.msg (.free n)) :: mid)).queue := by
  have hq : RB.Models QUEUE s.rb _ := ((trace_dev h).2 : Agrees s _).queue
  have hr := C12_report h pre mid n rfl
  have := (C11_queue cfg s s' _ hq p m hp hm hml tr hd).2.1
  rwa [if_neg (by rw [hsame]; omega)] at this

/-! ### C13, C60, C61 -/

/-- the events that count as starting an instruction: it is taken from the queue or from the storage. -/
def Starts (a : Act F) : Prop := ∃ src m, src ≠ Src.immediate ∧ a = .out (.ghost src m)

private theorem isStart_iff (a : Act F) : isStart a = true ↔ Starts a := by
  constructor
  · intro h
    match a, h with
    | .out (.ghost .queue m), _ => exact ⟨.queue, m, by decide, rfl⟩
    | .out (.ghost .eeprom m), _ => exact ⟨.eeprom, m, by decide, rfl⟩
  · rintro ⟨src, m, h, rfl⟩
    cases src <;> first | rfl | exact absurd rfl h

/-- **C13** (busy): while the previous instruction is not reported done, the dispatcher does nothing at all. -/
theorem C13_busy (cfg : Cfg F) (s s' : FW F) (tr : List (Act F)) (hd : s.core.done = false) (h : Does (Mrcp.process cfg s) tr s') :
    tr = [] ∧ s' = s := by
  have e : Mrcp.process cfg s = .ret s := by simp [Mrcp.process, hd]
  rw [e] at h
  obtain ⟨rfl, h3⟩ := exec_ret h
  simp at h3
  exact ⟨rfl, h3⟩

/-- **C13** (progress): if the previous instruction is reported done, queue mode is selected and the queue holds an instruction
(of a length the framing can deliver), its oldest one is taken. -/
theorem C13_takes (cfg : Cfg F) (s : FW F) (m : List Byte) (q : List (List Byte)) (hd : s.core.done = true) (hm : s.mode = .queue)
    (hq : RB.Models QUEUE s.rb (m :: q)) (hl : m.length < 80) :
    ∃ rb', RB.Models QUEUE rb' q ∧ Mrcp.process cfg s = .out (.msg (.free (300 - qSize (m :: q)))) (.out (.ghost .queue m)
      ((Mril.parse cfg s.core m).bind fun c => .ret { s with core := c, rb := rb' })) := by
  obtain ⟨h1, h2⟩ := hq.get
  refine ⟨s.rb.getMessage.2, h2, ?_⟩
  have hz := hq.size
  have : s.rb.getSize > 0 := by rw [hz]; simp [qSize]; omega
  have this' : qSize (m :: q) > 0 := hz ▸ this
  simp only [Mrcp.process, hm, hd, h1, INPUT_BUFFER_SIZE, Mrcp.freeMsg, Mrcp.handOver, RB.getCapacity, hq.cap, hz]
  rw [if_neg (by simp), if_pos trivial, if_pos this', if_neg (by omega)]
  rfl

/-- **C13** (one per pass): a pass of the main loop, or any beginning of one, starts at most one instruction. -/
theorem C13_one_per_pass (cfg : Cfg F) (s : FW F) (tr : List (Act F)) (q : Prog F (FW F)) (h : Exec (loopBody cfg s) tr q)
    (i j : Nat) (a b : Act F) (hi : tr[i]? = some a) (hj : tr[j]? = some b) (ha : Starts a) (hb : Starts b) : i = j := by
  have hc : tr.countP isStart ≤ 1 := by
    rcases pass_cases h with ⟨p', h1⟩ | ⟨s2, t1, t2, p', rfl, h1, h2⟩ | ⟨s2, t1, t2, c, t3, rfl, h1, h2, h3⟩
    · rw [count_false (firstPhases_exec cfg s _ _ h1).2]; omega
    · rw [List.countP_append, count_false (firstPhases_exec cfg s _ _ h1).2, count_false fun a ha => (check_none h2 a ha).1]; omega
    · rw [List.countP_append, List.countP_append, count_false (firstPhases_exec cfg s _ _ h1).2,
        count_false fun a ha => (check_none h2 a ha).1]
      have := (process_start cfg _ _ _ h3).1
      omega
  have ha' := (isStart_iff a).2 ha
  have hb' := (isStart_iff b).2 hb
  clear h ha hb
  induction tr generalizing i j with
  | nil => simp at hi
  | cons x tr ih =>
    rw [List.countP_cons] at hc
    have zero : isStart x = true → ∀ (k : Nat) (c : Act F), tr[k]? = some c → isStart c = false := by
      intro hx k c hk
      rw [hx, if_pos rfl] at hc
      have : tr.countP isStart = 0 := by omega
      rw [List.countP_eq_zero] at this
      have := this c (List.mem_of_getElem? hk)
      simpa using this
    cases i with
    | zero =>
      cases j with
      | zero => rfl
      | succ j =>
        simp at hi hj; subst hi
        have := zero ha' j b hj
        rw [this] at hb'; cases hb'
    | succ i =>
      cases j with
      | zero =>
        simp at hi hj; subst hj
        have := zero hb' i a hi
        rw [this] at ha'; cases ha'
      | succ j =>
        simp at hi hj
        rw [ih i j hi hj (by omega)]

/-- **C13** (mode): in every history, an instruction is taken from the queue only while queue mode is selected, from the storage only
while storage mode is selected — so never in immediate mode. -/
theorem C13_mode {cfg : Cfg F} {junk : Nat → Byte} {tr : List (Act F)} {p : Prog F (FW F)} (h : Trace cfg junk tr p)
    (pre post : List (Act F)) (src : Src) (m : List Byte) (ht : tr = pre ++ .out (.ghost src m) :: post) (hs : src ≠ .immediate) :
    (Dev.after pre).sel = if src = .queue then .queue else .storage := by
  have := (trace_dev h).1 pre _ post ht rfl
  cases src with
  | immediate => exact absurd rfl hs
  | queue => exact (this.1 m rfl).2
  | eeprom => exact this.2.1 m rfl

/-- **C60**: if a loop pass starts an instruction, then in this very pass, after the controller and the serial input were served, the
completion check saw: no movement, every pending input condition at its required level, and the time of a wait passed. -/
theorem C60_sequencing (cfg : Cfg F) (s : FW F) (tr pre post : List (Act F)) (q : Prog F (FW F)) (h : Exec (loopBody cfg s) tr q)
    (a : Act F) (ha : Starts a) (ht : tr = pre ++ a :: post) :
    ∃ (s2 : FW F) (t1 t2 t3 : List (Act F)) (c : Core F) (t : Nat), pre = t1 ++ t2 ++ t3 ∧
      Does (firstPhases cfg s) t1 s2 ∧ Does (Mril.process s2.core) t2 c ∧
      s2.core.rc.isMoving = false ∧ (∀ x ∈ effective s2.core.conds, metRead x ∈ t2) ∧
      .now t ∈ t2 ∧ s2.core.waitUntil < t := by
  have ha' := (isStart_iff a).2 ha
  have nostart : ∀ l : List (Act F), (∀ x ∈ l, isStart x = false) → a ∉ l := by
    intro l hl hm
    have := hl a hm
    rw [this] at ha'; cases ha'
  rcases pass_cases h with ⟨p', h1⟩ | ⟨s2, t1, t2, p', e, h1, h2⟩ | ⟨s2, t1, t2, c, t3, e, h1, h2, h3⟩
  · exact absurd (by rw [ht]; simp) (nostart tr (firstPhases_exec cfg s _ _ h1).2)
  · refine absurd (by rw [ht]; simp) (nostart tr ?_)
    intro x hx
    rw [e] at hx
    rcases List.mem_append.1 hx with hx | hx
    · exact (firstPhases_exec cfg s _ _ h1).2 x hx
    · exact (check_none h2 x hx).1
  · have n1 := nostart t1 (firstPhases_exec cfg s _ _ h1).2
    have n2 := nostart t2 fun x hx => (check_none h2 x hx).1
    have e' : (t1 ++ t2) ++ t3 = pre ++ a :: post := by rw [← ht, e, List.append_assoc]
    rcases List.append_eq_append_iff.1 e' with ⟨l, hl, h3e⟩ | ⟨l, hl, h3e⟩
    · have hne : t3 ≠ [] := by rw [h3e]; simp
      have hd := done_of_dispatch cfg s2 c t3 q h3 hne
      have key : s2.core.rc.isMoving = false ∧ (∀ x ∈ effective s2.core.conds, metRead x ∈ t2) ∧ ∃ t, .now t ∈ t2 ∧ s2.core.waitUntil < t := by
        rcases process_spec _ _ _ h2 with ⟨c1, x, c2, _, _, rfl⟩ | ⟨_, _, rfl⟩ | ⟨hmv, t, ⟨_, _, rfl⟩ | ⟨hw, _, rfl, rfl⟩ | ⟨hw, _, rfl, rfl⟩⟩
        · simp at hd
        · simp at hd
        · simp at hd
        · exact ⟨hmv, fun x hx => by simp only [List.mem_append, List.mem_map]; exact .inl ⟨x, hx, rfl⟩, t, by simp, hw⟩
        · exact ⟨hmv, fun x hx => by simp only [List.mem_append, List.mem_map]; exact .inl ⟨x, hx, rfl⟩, t, by simp, hw⟩
      obtain ⟨k1, k2, t, k3, k4⟩ := key
      exact ⟨s2, t1, t2, l, c, t, hl, h1, h2, k1, k2, k3, k4⟩
    · exfalso
      cases l with
      | nil =>
        -- the start is the first access of the dispatcher
        rw [List.nil_append] at h3e
        cases t3 with
        | nil => simp at h3e
        | cons x t3 =>
          simp at h3e
          obtain ⟨rfl, rfl⟩ := h3e
          simp only [Mrcp.process] at h3
          have nocons : ∀ {s' : FW F} {y : Act F} {t : List (Act F)}, ¬ Exec (.ret s') (y :: t) q := by
            intro s' y t hh; exact absurd (exec_ret hh).1 (by simp)
          split at h3
          · exact nocons h3
          · split at h3
            · split at h3
              · split at h3
                · cases h3 with | cons hs _ => cases hs; simp [isStart] at ha'
                · exact nocons h3
              · cases h3 with | cons hs _ => cases hs; simp [isStart] at ha'
              · exact nocons h3
            · exact nocons h3
      | cons x l =>
        simp at h3e
        obtain ⟨rfl, _⟩ := h3e
        have : a ∈ t1 ++ t2 := by rw [hl]; simp
        rcases List.mem_append.1 this with h | h
        · exact n1 h
        · exact n2 h

/-- the host's bookkeeping of accepted and started instructions. -/
private theorem order_aux {cfg : Cfg F} {junk : Nat → Byte} {tr : List (Act F)} {p : Prog F (FW F)} (h : Trace cfg junk tr p) :
    ((Dev.after tr).started ++ (Dev.after tr).queue).Sublist (Dev.after tr).accepted ∧
    ((Dev.after tr).cleared = false → (Dev.after tr).accepted = (Dev.after tr).started ++ (Dev.after tr).queue) := by
  have hok := (trace_dev h).1
  clear h
  have hfr : ∀ (d : Dev) (f : Frame),
      ((d.started ++ d.queue).Sublist d.accepted ∧ (d.cleared = false → d.accepted = d.started ++ d.queue)) →
      (((d.frame f).started ++ (d.frame f).queue).Sublist (d.frame f).accepted ∧
        ((d.frame f).cleared = false → (d.frame f).accepted = (d.frame f).started ++ (d.frame f).queue)) := by
    intro d f ⟨h1, h2⟩
    cases f with
    | put m =>
      simp only [Dev.frame]
      split
      · refine ⟨?_, ?_⟩
        · simp only [← List.append_assoc]
          exact List.Sublist.append h1 (List.Sublist.refl _)
        · intro hc; simp only [← List.append_assoc]; rw [h2 hc]
      · exact ⟨h1, h2⟩
    | clear =>
      refine ⟨?_, by simp [Dev.frame]⟩
      simp only [Dev.frame, List.append_nil]
      exact (List.sublist_append_left _ _).trans h1
    | _ => exact ⟨h1, h2⟩
  suffices hg : ∀ (l : List (Act F)) (pre : List (Act F)), tr = pre ++ l →
      ((((Dev.after pre).started ++ (Dev.after pre).queue).Sublist (Dev.after pre).accepted ∧
        ((Dev.after pre).cleared = false → (Dev.after pre).accepted = (Dev.after pre).started ++ (Dev.after pre).queue)) →
       (((Dev.after tr).started ++ (Dev.after tr).queue).Sublist (Dev.after tr).accepted ∧
        ((Dev.after tr).cleared = false → (Dev.after tr).accepted = (Dev.after tr).started ++ (Dev.after tr).queue))) from
    hg tr [] rfl ⟨List.nil_sublist _, fun _ => rfl⟩
  intro l
  induction l with
  | nil => intro pre e h; rw [e, List.append_nil]; exact h
  | cons a l ih =>
    intro pre e hp
    refine ih (pre ++ [a]) (by rw [e]; simp) ?_
    have ea : Dev.after (pre ++ [a]) = (Dev.after pre).act a := by simp [Dev.after]
    rw [ea]
    generalize hd : Dev.after pre = d at hp
    cases a with
    | rx b =>
      cases b with
      | none => exact hp
      | some b =>
        simp only [Dev.act, Dev.recv]
        split
        · split
          · exact hp
          · exact hfr { d with line := [] } _ hp
        · exact hp
    | eeRead m => simp only [Dev.act]; split <;> exact hp
    | out o =>
      cases o with
      | ghost src m =>
        cases src with
        | queue =>
          have := (hok pre _ l e rfl).1 m rfl
          rw [hd] at this
          cases hq : d.queue with
          | nil => rw [hq] at this; simp at this
          | cons x q =>
            rw [hq] at this hp
            simp at this
            obtain ⟨rfl, _⟩ := this
            simp only [Dev.act, hq, List.tail_cons, List.append_assoc, List.singleton_append]
            exact hp
        | _ => exact hp
      | _ => exact hp
    | _ => exact hp

/-- **C61** (each start): whatever is started from the queue is the oldest instruction accepted and not yet started. -/
theorem C61_head {cfg : Cfg F} {junk : Nat → Byte} {tr : List (Act F)} {p : Prog F (FW F)} (h : Trace cfg junk tr p)
    (pre post : List (Act F)) (m : List Byte) (ht : tr = pre ++ .out (.ghost .queue m) :: post) :
    (Dev.after pre).queue.head? = some m :=
  (((trace_dev h).1 pre _ post ht rfl).1 m rfl).1

/-- **C61** (whole history): unless the queue was cleared, the instructions accepted so far are exactly those started so far, in the
same order and each once, followed by those still queued. -/
theorem C61_order {cfg : Cfg F} {junk : Nat → Byte} {tr : List (Act F)} {p : Prog F (FW F)} (h : Trace cfg junk tr p)
    (hc : (Dev.after tr).cleared = false) :
    (Dev.after tr).accepted = (Dev.after tr).started ++ (Dev.after tr).queue :=
  (order_aux h).2 hc

/-- **C61** (with clearing): in any case the started instructions are a subsequence of the accepted ones: none is started twice, none is
invented, and the order is kept. -/
theorem C61_subsequence {cfg : Cfg F} {junk : Nat → Byte} {tr : List (Act F)} {p : Prog F (FW F)} (h : Trace cfg junk tr p) :
    (Dev.after tr).started.Sublist (Dev.after tr).accepted :=
  (List.sublist_append_left _ _).trans (order_aux h).1

/-! ### C64, C65 -/

/-- **C64** (pacing): one pass reads at most 30 serial bytes. -/
theorem C64_at_most_30 (cfg : Cfg F) (s : FW F) (tr : List (Act F)) (q : Prog F (FW F)) (h : Exec (loopBody cfg s) tr q) :
    (rxBytes tr).length ≤ 30 := by
  have e : ∀ l : List (Act F), (rxBytes l).length = l.countP isRx := by
    intro l
    induction l with
    | nil => rfl
    | cons a l ih =>
      rw [List.countP_cons, ← ih]
      cases a with
      | rx b => cases b <;> simp [rxBytes, isRx]
      | _ => simp [rxBytes, isRx]
  rw [e]
  rcases pass_cases h with ⟨p', h1⟩ | ⟨s2, t1, t2, p', rfl, h1, h2⟩ | ⟨s2, t1, t2, c, t3, rfl, h1, h2, h3⟩
  · exact (firstPhases_exec cfg s _ _ h1).1
  · have := (firstPhases_exec cfg s _ _ h1).1
    rw [List.countP_append, count_false (tr := t2) fun a ha => (check_none h2 a ha).2]; omega
  · have := (firstPhases_exec cfg s _ _ h1).1
    rw [List.countP_append, List.countP_append, count_false (tr := t2) fun a ha => (check_none h2 a ha).2,
      count_false (process_start cfg _ _ _ h3).2]
    omega

/-- **C64** (in order, none lost or duplicated): in every history, the bytes that arrived are those consumed, followed by those still
unread. -/
theorem C64_fifo {cfg : Cfg F} {w0 : World F} {junk : Nat → Byte} {evs : List (Ev F)} {s : Sys F} (h : Sys.Run cfg w0 junk evs s) :
    w0.rxq ++ arrivals evs = rxBytes (acts evs) ++ s.w.rxq :=
  h.fifo

/-- **C65**: dispatching E<m> leaves mode, queue, storage position and input decoding exactly as they were and never writes the storage;
all it changes is what the instruction itself works on. -/
theorem C65_immediate (cfg : Cfg F) (s s' : FW F) (m : List Byte) (tr : List (Act F)) (h : Does (Mrcp.parseCommand cfg s (69 :: m)) tr s') :
    s'.mode = s.mode ∧ s'.rb = s.rb ∧ s'.eePtr = s.eePtr ∧ s'.framer = s.framer ∧ ∀ a b, Act.eeWrite a b ∉ tr := by
  obtain ⟨t, c, rfl, h1, rfl⟩ := (C11_execute cfg s s' m tr).1 h
  refine ⟨rfl, rfl, rfl, rfl, ?_⟩
  intro a b hm
  have := (only_exec h1 (parse_only cfg s.core m)).1 (.eeWrite a b) (by simpa using hm)
  exact this


/-! ### concrete histories for C11-C13, C60-C65 -/

section
open Mrc.Demo

-- "QX10" is accepted and started in the first pass, "QY20" accepted and still waiting; nothing was cleared (C61, C13, C60)
example : (Dev.after (kit ":QX10\x0d:QY20\x0d" 1).1).accepted = [str "X10", str "Y20"] ∧
    (Dev.after (kit ":QX10\x0d:QY20\x0d" 1).1).started = [str "X10"] ∧ (Dev.after (kit ":QX10\x0d:QY20\x0d" 1).1).queue = [str "Y20"] ∧
    (Dev.after (kit ":QX10\x0d:QY20\x0d" 1).1).cleared = false ∧ (Dev.after (kit ":QX10\x0d:QY20\x0d" 1).1).sel = .queue := by
  decide +kernel

-- free-space reports occur: for the B frame after one queued instruction, and unsolicited when it is taken (C12)
example : (kit ":QX10\x0d:B\x0d" 1).1.filterMap (fun | .out (.msg (.free n)) => some n | _ => none) = [296, 296] := by
  decide +kernel

-- the state between the report and the next frame is reachable with a finished pass (C12_accepts/refuses)
example : ((kit ":B\x0d" 1).1.filterMap (fun | .out (.msg (.free n)) => some n | _ => none) = [300]) ∧
    (Dev.after (kit ":B\x0d" 1).1).accepted = [] ∧ (match (kit ":B\x0d" 1).2.1 with | .ret _ => true | _ => false) = true := by
  decide +kernel

-- one pass of 30 of 40 bytes (C64)
example : (rxBytes (kit ":(0123456789012345678901234567890123456\x0d" 1).1).length = 30 := by decide +kernel

-- an instruction executed at once leaves the waiting one alone (C65)
example : (Dev.after (kit ":QX10\x0d:QY20\x0d:EX3\x0d" 1).1).queue = [str "X10", str "Y20"] := by decide +kernel
end

end Mrc.Props
