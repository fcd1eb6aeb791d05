import Verif.Props.ProgramLive
import Verif.Props.FlowDemo
/-
Runs that satisfy the hypotheses of C92-C95.
-/
set_option maxRecDepth 100000
set_option linter.unusedSimpArgs false
namespace Mrc.Props
open Mrc Mrc.Prog Mrc.Spec Mrc.Demo

section
variable {F : Type} [FloatOps F]

/-- a stored program. -/
def prog3 : List (List Byte) := [str "M0", str "N1M0", str "N2M1"]
/-- a storage with it, the rest erased. -/
def mem3 : Nat → Byte := fun k => (image prog3 ++ [0]).getD k 255

theorem has3 : HasProgram mem3 prog3 := by
  refine ⟨by decide, by decide, fun k b _ hb => ?_⟩
  rw [mem3, List.getD_eq_getElem?_getD, hb]; rfl

theorem mem3_count : EE.getNumberOfMessages mem3 = 3 := by decide +kernel
theorem mem3_next (p : Nat) (hp : p = 1 ∨ p = 2 ∨ p = 3) : EE.getNextMessage mem3 p = (str "N1M0", 2) ∨ EE.getNextMessage mem3 p = (str "N2M1", 3) := by
  rcases hp with rfl | rfl | rfl
  · exact .inl (by decide +kernel)
  · exact .inr (by decide +kernel)
  · exact .inl (by decide +kernel)

/-- the arm rests and the stored program is being replayed. -/
def Playing (s : FW F) : Prop := s.core.rc.state = .idle ∧ s.mode = .eeprom ∧ s.core.conds = [] ∧ s.core.waitUntil = 0 ∧ (s.eePtr = 1 ∨ s.eePtr = 2 ∨ s.eePtr = 3)

/-- no input, the storage is `mem3`; no fault, no store into a servo or the storage, no instruction except from the storage. -/
def pMon : Mon F Unit where
  upd _ _ := ()
  env _ a := (∀ b, a ≠ .rx (some b)) ∧ ∀ m, a = .eeRead m → m = mem3
  ok _ a := (∀ i m, a ≠ .micro i m) ∧ (∀ src m, a = .out (.ghost src m) → src = .eeprom) ∧ ∀ x b, a ≠ .eeWrite x b
  flt _ := False

theorem parse1 (cfg : Cfg F) (c : Core F) : Mril.parse cfg c (str "N1M0") = .out (.msg (.n0 1)) (.ret { c with rc := ((c.rc.startTransaction).setMovementMethod .p2p).endTransaction, commandNumber := 1 }) := rfl
theorem parse2 (cfg : Cfg F) (c : Core F) : Mril.parse cfg c (str "N2M1") = .out (.msg (.n0 2)) (.ret { c with rc := ((c.rc.startTransaction).setMovementMethod .linear).endTransaction, commandNumber := 2 }) := rfl

theorem play_loop (cfg : Cfg F) (s : FW F) (h : Playing s) : (loopBody cfg s).wp pMon (fun _ s' => Playing s') () := by
  obtain ⟨h1, h2, h3, h4, h5⟩ := h
  have hrc : RC.process cfg.toRCfg s.core.rc = .ret s.core.rc := by simp only [RC.process, h1]; rfl
  have e1 : rcProcess cfg s = .ret s := by rw [rcProcess, hrc]; rfl
  unfold loopBody
  simp only [bind_def, e1, Prog.bind]
  show (Prog.bind (serialProcess cfg (29 + 1) s) _).wp pMon _ ()
  intro b hb
  cases b with
  | some b => exact absurd rfl (hb.1 b)
  | none =>
    show (Prog.bind (Mril.process s.core) _).wp pMon _ ()
    have key : ∀ c : Core F, c.rc = s.core.rc → c.conds = [] → c.waitUntil = 0 → (Mrcp.process cfg { s with core := c }).wp pMon (fun _ s' => Playing s') () := by
      intro c c1 c2 c3
      have hp : Playing { s with core := c } := ⟨by show c.rc.state = _; rw [c1]; exact h1, h2, c2, c3, h5⟩
      by_cases hd : c.done = true
      · have e : Mrcp.process cfg { s with core := c } = .eeRead fun mem => match EE.getNextMessage mem s.eePtr with
          | (m, ptr) => if m.length > INPUT_BUFFER_SIZE then .fault .oobWrite else if m.length ≠ 0 then Mrcp.handOver cfg .eeprom { s with core := c, eePtr := ptr } m
            else .ret { s with core := c, eePtr := ptr } := by
          rw [Mrcp.process, if_neg (by show s.mode ≠ _; rw [h2]; simp), if_pos hd]
          simp only [h2]
        rw [e]
        intro m hm
        obtain rfl := hm.2 m rfl
        have hst : ∀ (n : Int) (mm : Method), ({ c with rc := ((c.rc.startTransaction).setMovementMethod mm).endTransaction, commandNumber := n } : Core F).rc.state = .idle := by
          intro n mm; show c.rc.state = _; rw [c1]; exact h1
        rcases mem3_next s.eePtr h5 with e | e
        · simp only [e]
          show Prog.wp _ (Mrcp.handOver cfg .eeprom { s with core := c, eePtr := 2 } (str "N1M0")) _ _
          rw [Mrcp.handOver, parse1]
          exact ⟨by simp [pMon], by simp [pMon], hst 1 .p2p, h2, c2, c3, .inr (.inl rfl)⟩
        · simp only [e]
          show Prog.wp _ (Mrcp.handOver cfg .eeprom { s with core := c, eePtr := 3 } (str "N2M1")) _ _
          rw [Mrcp.handOver, parse2]
          exact ⟨by simp [pMon], by simp [pMon], hst 2 .linear, h2, c2, c3, .inr (.inr rfl)⟩
      · rw [Mrcp.process, if_neg (by show s.mode ≠ _; rw [h2]; simp), if_neg hd]
        exact hp
    have hmv : s.core.rc.isMoving = false := by simp [RC.isMoving, h1]
    simp only [Mril.process, IOL.isDone, h3, IOL.check, Prog.bind, hmv, if_true, Bool.not_false, Bool.and_self]
    intro t _
    show Prog.wp _ (Prog.bind (if _ then _ else _) _) _ _
    split
    · split
      · exact ⟨by simp [pMon], key _ rfl rfl h4⟩
      · exact key _ rfl rfl h4
    · exact key _ rfl rfl h4

structure StaysPlaying (x : Sys F × Bool) : Prop where
  rx : x.1.w.rxq = []
  ee : x.1.w.ee = mem3
  prog : x.1.p.wp pMon (fun _ s => Playing s) ()

theorem play_sched (cfg : Cfg F) (x : Sys F × Bool) (h : StaysPlaying x) :
    StaysPlaying (sched cfg x).2 ∧ (∀ m, (sched cfg x).1 ≠ .act (.out (.ghost .immediate m))) ∧ (∀ b, (sched cfg x).1 ≠ .act (.rx (some b))) ∧ (∀ i m, (sched cfg x).1 ≠ .act (.micro i m)) ∧
      (sched cfg x).2.1.w.now = x.1.w.now := by
  obtain ⟨⟨w, p⟩, b⟩ := x
  obtain ⟨h1, he, h2⟩ := h
  simp only at h1 he h2
  cases p with
  | ret s =>
    cases b with
    | false => exact ⟨⟨h1, he, h2⟩, by simp [sched], by simp [sched], by simp [sched], rfl⟩
    | true => exact ⟨⟨h1, he, play_loop cfg s h2⟩, by simp [sched, mainEv], by simp [sched, mainEv], by simp [sched, mainEv], rfl⟩
  | fault f => exact absurd h2 id
  | servo i k => exact ⟨⟨h1, he, h2 _ (by simp [pMon, he])⟩, by simp [sched, mainEv], by simp [sched, mainEv], by simp [sched, mainEv], rfl⟩
  | micro i m k => exact absurd rfl (h2.1.1 i m)
  | now k => exact ⟨⟨h1, he, h2 _ (by simp [pMon, he])⟩, by simp [sched, mainEv], by simp [sched, mainEv], by simp [sched, mainEv], rfl⟩
  | pin p k => exact ⟨⟨h1, he, h2 _ (by simp [pMon, he])⟩, by simp [sched, mainEv], by simp [sched, mainEv], by simp [sched, mainEv], rfl⟩
  | rx k =>
    have e : sched cfg (⟨w, .rx k⟩, b) = (.act (.rx none), (⟨w, k none⟩, false)) := by simp [sched, mainEv, h1]
    rw [e]
    exact ⟨⟨h1, he, h2 none (by simp [pMon])⟩, by simp, by simp, by simp, rfl⟩
  | eeRead k => exact ⟨⟨h1, he, h2 _ (by simp [pMon, he])⟩, by simp [sched, mainEv], by simp [sched, mainEv], by simp [sched, mainEv], rfl⟩
  | eeWrite a c k => exact absurd rfl (h2.1.2.2 a c)
  | out o k =>
    refine ⟨⟨h1, he, h2.2⟩, ?_, by simp [sched, mainEv], by simp [sched, mainEv], rfl⟩
    intro m e
    have : o = .ghost .immediate m := by simpa [sched, mainEv] using e
    have := h2.1.2.1 _ m (by rw [this])
    cases this

theorem play_after (cfg : Cfg F) (s0 : Sys F) (h : StaysPlaying (s0, false)) (n : ℕ) :
    StaysPlaying (after cfg s0 n) ∧ (hist cfg s0 n).w.now = s0.w.now := by
  induction n with
  | zero => exact ⟨h, rfl⟩
  | succ n ih =>
    have := play_sched cfg _ ih.1
    rw [hist, after_succ]
    exact ⟨this.1, this.2.2.2.2.trans ih.2⟩

theorem play_setup (cfg : Cfg F) (junk : Nat → Byte) : (setup cfg junk).wp pMon (fun _ s => Playing s) () := by
  have hsix : ∀ {α : Type} (k : Six F → Prog F α) (Q : Unit → α → Prop), (∀ a, (k a).wp pMon Q ()) → ((RC.getCurrentLogicalAngles cfg.toRCfg).bind k).wp pMon Q () := by
    intro α k Q hk _ _ _ _ _ _ _ _ _ _ _ _
    exact hk _
  show ((RC.new cfg.toRCfg).bind _).wp pMon _ ()
  unfold RC.new
  rw [wp_bind]
  intro _ _ _ _ _ _ _ _ _ _ _ _
  refine hsix _ _ fun a => ?_
  intro m hm
  obtain rfl := hm.2 m rfl
  simp only [mem3_count, gt_iff_lt, Nat.zero_lt_succ, if_true]
  exact ⟨rfl, rfl, rfl, rfl, .inl rfl⟩

end

/-- the kit with this program in its storage, nothing on the line. -/
def playWorld : World Rat := { demoWorld (@Kit.servos Rat toyFloat 0) [] with ee := mem3 }

/-- C95: all hypotheses hold for the kit, with three instructions stored, from some time on. -/
example : ∃ (σ : ℕ → Sys Rat) (ev : ℕ → Ev Rat) (n0 : ℕ), @Endless Rat toyFloat (@Kit.cfg Rat toyFloat) playWorld (fun _ => 0) σ ev ∧ @Parts Rat toyFloat ∧ HasProgram playWorld.ee prog3 ∧
    (∃ k ≤ n0, ev k = .next) ∧ (view ev n0).sel = .storage ∧ program prog3 (rxBytes (acts (sofar ev n0))) = prog3 ∧ KeepsStorage ev n0 ∧ OnlyAsksNow ev n0 ∧ @Fair Rat σ ev ∧
    ∀ n s, n0 ≤ n → Between σ n s → ∀ i, @Settles Rat toyFloat ((σ n).w.servos (armServo i)) := by
  letI := toyFloat
  let s0 : Sys Rat := ⟨playWorld, setup Kit.cfg fun _ => 0⟩
  have hc : StaysPlaying (s0, false) := ⟨rfl, rfl, play_setup Kit.cfg fun _ => 0⟩
  have hstay := play_after Kit.cfg s0 hc
  have hs := fun n => (play_sched Kit.cfg _ (hstay n).1).2
  have hE : Endless Kit.cfg playWorld (fun _ => 0) (hist Kit.cfg s0) (evs Kit.cfg s0) := by
    refine endless Kit.cfg playWorld (fun _ => 0) fun n f hf => ?_
    have := (hstay n).1.prog
    rw [show (after Kit.cfg s0 n).1.p = .fault f from hf] at this
    exact this
  have hrx : ∀ n, rxBytes (acts (sofar (evs Kit.cfg s0) n)) = [] := by
    intro n
    induction n with
    | zero => rfl
    | succ n ih =>
      rw [rx_snoc, ih]
      have := (hs n).2.1
      have : ∀ b, evs Kit.cfg s0 n ≠ .act (.rx (some b)) := this
      generalize evs Kit.cfg s0 n = x at this
      match x, this with
      | .act (.rx (some b)), hb => exact absurd rfl (hb b)
      | .act (.rx none), _ | .act (.eeRead m), _ | .act (.servo _ _), _ | .act (.micro _ _), _ | .act (.now _), _ | .act (.pin _ _), _ | .act (.eeWrite _ _), _
      | .act (.out _), _ | .next, _ | .isr, _ | .clock _, _ | .pins _, _ | .arrive _, _ => rfl
  obtain ⟨n0, _, hn0⟩ := hE.loops 0
  have hset : ∀ n i, Settles ((hist Kit.cfg s0 n).w.servos (armServo i)) := by
    intro n i
    induction n with
    | zero =>
      have : @servoOK (playWorld.servos (armServo i)) = true := by revert i; decide +kernel
      simp only [servoOK, Bool.and_eq_true, decide_eq_true_eq] at this
      exact settles_toy this.1 this.2
    | succ n ih =>
      rw [do_servos (hE.step n) (armServo i)]
      have hm : ∀ j m, evs Kit.cfg s0 n ≠ .act (.micro j m) := (hs n).2.2.1
      generalize evs Kit.cfg s0 n = e at hm
      match e, hm with
      | .isr, _ => exact settles_tick ih
      | .act (.micro j m), hm => exact absurd rfl (hm j m)
      | .act (.servo _ _), _ | .act (.now _), _ | .act (.pin _ _), _ | .act (.rx _), _ | .act (.eeRead _), _ | .act (.eeWrite _ _), _
      | .act (.out _), _ | .next, _ | .clock _, _ | .pins _, _ | .arrive _, _ => exact ih
  refine ⟨_, _, n0, hE, parts_toy, has3, ⟨n0, Nat.le_refl _, hn0⟩, ?_, by rw [hrx]; rfl, fun k _ e => absurd e ((hs k).2.1 13), fun k _ m e => absurd e ((hs k).1 m), fun n => ?_, fun n s _ _ => hset n⟩
  · obtain ⟨s, hb, _⟩ := hE.atNext hn0
    have hmode := (agrees hE hb).mode
    have : Playing s := by
      have := (hstay n0).1.prog
      rw [show (after Kit.cfg s0 n0).1.p = .ret s from hb] at this
      exact this
    have hm := this.2.1
    rw [hm] at hmode
    cases hsel : (view (evs Kit.cfg s0) n0).sel <;> rw [hsel] at hmode <;> first | rfl | cases hmode
  · obtain ⟨a, ha, hn⟩ := hE.loops n
    obtain ⟨s, hp⟩ := hE.pass hn
    refine ⟨a, _, s, by omega, hp, fun k hk _ => ?_⟩
    have hcs : Playing s := by
      have := (hstay a).1.prog
      rw [show (after Kit.cfg s0 a).1.p = .ret s from hp.start] at this
      exact this
    refine ⟨fun c hc => absurd (hcs.2.2.1 ▸ hc) (by simp), ?_⟩
    rw [hcs.2.2.2.1, (hstay k).2]; decide

/-- the kit, erased storage (a zero), a program of two instructions on the line. -/
def sendWorld : World Rat := demoWorld (@Kit.servos Rat toyFloat 0) (str ":WX1\r:WN5M0\r:WN6M1\r")
def send0 : Sys Rat × Bool := (⟨sendWorld, @setup Rat toyFloat (@Kit.cfg Rat toyFloat) fun _ => 0⟩, false)
def send1 (k : ℕ) : List (Ev Rat) × (Sys Rat × Bool) := @steps Rat toyFloat (@Kit.cfg Rat toyFloat) k send0

theorem send1_run (k : ℕ) : @Sys.Run Rat toyFloat (@Kit.cfg Rat toyFloat) sendWorld (fun _ => 0) (send1 k).1 (send1 k).2.1 := by
  letI := toyFloat
  have := steps_run (cfg := Kit.cfg) k send0 (Sys.Run.init (cfg := Kit.cfg) (w0 := sendWorld) (junk := fun _ => 0))
  rwa [List.nil_append] at this

theorem has0 : HasProgram (fun _ => 0) [] := ⟨by simp, by decide, fun k b _ hb => by
  have : b = 0 := by
    obtain ⟨h1, h2⟩ := List.getElem?_eq_some_iff.1 hb
    simp only [image, List.flatMap_nil, List.nil_append, List.length_cons, List.length_nil] at h1
    have : k = 0 := by omega
    subst this
    exact h2.symm
  rw [this]⟩


theorem at_ret {x : Sys Rat} (h : (match x.p with | .ret _ => true | _ => false) = true) : ∃ s, x = ⟨x.w, .ret s⟩ := by
  obtain ⟨w, p⟩ := x
  cases p with
  | ret s => exact ⟨s, rfl⟩
  | _ => cases h

/-- C92: between two passes the three instructions are in the storage. -/
example : ∃ evs w s, @Sys.Run Rat toyFloat (@Kit.cfg Rat toyFloat) sendWorld (fun _ => 0) evs ⟨w, .ret s⟩ ∧ HasProgram sendWorld.ee [] ∧
    program [] (rxBytes (acts evs)) = [str "X1", str "N5M0", str "N6M1"] := by
  obtain ⟨s, hs⟩ := at_ret (x := (send1 98).2.1) (by decide +kernel)
  have := send1_run 98
  rw [hs] at this
  exact ⟨_, _, s, this, has0, by decide +kernel⟩

/-- C92 (power cut): while the second one is being written. -/
example : ∃ evs s, @Sys.Run Rat toyFloat (@Kit.cfg Rat toyFloat) sendWorld (fun _ => 0) evs s ∧ HasProgram sendWorld.ee [] ∧ s.w.ee 3 = 4 ∧ s.w.ee 5 = 0 :=
  ⟨_, _, send1_run 35, has0, by decide +kernel, by decide +kernel⟩

/-- C93: after the program has been sent, five instructions are started and no W frame arrives. -/
example : ∃ evs evs' s, @Sys.Run Rat toyFloat (@Kit.cfg Rat toyFloat) sendWorld (fun _ => 0) (evs ++ evs') s ∧ HasProgram sendWorld.ee [] ∧
    storeOps (rxBytes (acts (evs ++ evs'))) = storeOps (rxBytes (acts evs)) ∧ program [] (rxBytes (acts evs)) = [str "X1", str "N5M0", str "N6M1"] ∧
    storeStarts (acts evs') = [str "N6M1", str "N5M0", str "N6M1", str "N5M0", str "N6M1"] := by
  letI := toyFloat
  refine ⟨_, _, _, steps_run 40 (send1 59).2 (send1_run 59), has0, ?_, by decide +kernel, by decide +kernel⟩
  have e : rxBytes (acts (steps Kit.cfg 40 (send1 59).2).1) = [] := by decide +kernel
  rw [acts_append, rxBytes_append, e, List.append_nil]

/-- the controller is switched off after that, and on again. -/
def againWorld : World Rat := { demoWorld (@Kit.servos Rat toyFloat 0) [] with ee := (send1 98).2.1.w.ee }
def again0 : Sys Rat × Bool := (⟨againWorld, @setup Rat toyFloat (@Kit.cfg Rat toyFloat) fun _ => 0⟩, false)
def again1 (k : ℕ) : List (Ev Rat) × (Sys Rat × Bool) := @steps Rat toyFloat (@Kit.cfg Rat toyFloat) k again0

theorem again1_run (k : ℕ) : @Sys.Run Rat toyFloat (@Kit.cfg Rat toyFloat) againWorld (fun _ => 0) (again1 k).1 (again1 k).2.1 := by
  letI := toyFloat
  have := steps_run (cfg := Kit.cfg) k again0 (Sys.Run.init (cfg := Kit.cfg) (w0 := againWorld) (junk := fun _ => 0))
  rwa [List.nil_append] at this

/-- C93, C94: the second life. -/
example : ∃ rs m w0 evs s, @Lives Rat toyFloat (@Kit.cfg Rat toyFloat) (fun _ => 0) rs m ∧ HasProgram (fun _ => 0) [] ∧ rs.foldl program [] = [str "X1", str "N5M0", str "N6M1"] ∧
    w0.ee = m ∧ @Sys.Run Rat toyFloat (@Kit.cfg Rat toyFloat) w0 (fun _ => 0) evs s ∧ storeOps (rxBytes (acts evs)) = [] ∧ storeStarts (acts evs) = [str "N5M0", str "N6M1", str "N5M0", str "N6M1"] := by
  letI := toyFloat
  obtain ⟨s, hs⟩ := at_ret (x := (send1 98).2.1) (by decide +kernel)
  have h1 := send1_run 98
  rw [hs] at h1
  exact ⟨[] ++ [_], _, againWorld, _, _, .on (w0 := sendWorld) .new rfl h1, has0, by decide +kernel, rfl, again1_run 44, by decide +kernel, by decide +kernel⟩

end Mrc.Props
