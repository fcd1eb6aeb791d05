import Verif.Spec.Unattended
import Verif.Props.TalkKit
import Verif.Props.Waiting
import Verif.Props.ProgramKit
import Verif.Props.Accuracy
/-
C132: what an unattended controller does.
-/
set_option maxRecDepth 100000
set_option linter.unusedSectionVars false
namespace Mrc.Props
open Mrc Mrc.Prog Mrc.Spec Mrc.Rest

section
variable {F : Type} [FloatOps F] {cfg : Cfg F} {junk : Nat → Byte}

theorem begun_split : ∀ {tr : List (Act F)} {l : List (List Byte)} {m : List Byte}, begunTexts tr = l ++ [m] →
    ∃ pre s mid, tr = pre ++ .out (.ghost s m) :: mid ∧ begunTexts pre = l ∧ ∀ a ∈ mid, ¬ BeginsI a := by
  intro tr
  induction tr using List.reverseRecOn with
  | nil => intro l m h; simp [begunTexts] at h
  | append_singleton tr a ih =>
    intro l m h
    rw [begunTexts_append] at h
    by_cases hb : BeginsI a
    · obtain ⟨s, m', rfl⟩ := hb
      have e : begunTexts [(Act.out (Out.ghost s m') : Act F)] = [m'] := rfl
      rw [e] at h
      obtain ⟨h1, h2⟩ := List.append_inj' h rfl
      cases h2
      exact ⟨tr, s, [], rfl, h1, by simp⟩
    · have e : begunTexts [a] = [] := by
        match a, hb with
        | .out (.ghost s m), hb => exact absurd ⟨s, m, rfl⟩ hb
        | .out (.msg _), _ | .out (.raw _), _ | .out (.pinMode _ _), _ | .out (.digitalWrite _ _), _ => rfl
        | .servo .., _ | .micro .., _ | .now _, _ | .pin .., _ | .rx _, _ | .eeRead _, _ | .eeWrite .., _ => rfl
      rw [e, List.append_nil] at h
      obtain ⟨pre, s, mid, rfl, h1, h2⟩ := ih h
      exact ⟨pre, s, mid ++ [a], by simp, h1, fun x hx => by
        rcases List.mem_append.1 hx with hx | hx
        · exact h2 x hx
        · simp at hx; subst hx; exact hb⟩

theorem begunTexts_none {tr : List (Act F)} (h : begunTexts tr = []) : ∀ a ∈ tr, ¬ BeginsI a := by
  rintro a ha ⟨s, m, rfl⟩
  have : m ∈ begunTexts tr := List.mem_filterMap.2 ⟨_, ha, rfl⟩
  rw [h] at this; cases this

/-- **C126** from power-up, from whatever source: when the next instruction begins, exactly that was done to the pins which the instructions begun so far say. -/
theorem pins_begun : ∀ (ps : List (List Cmd)) {tr : List (Act F)} {p : Prog F (FW F)} (_ : Trace cfg junk tr p) {pre post : List (Act F)} {src : Src} {m : List Byte}
    (_ : tr = pre ++ .out (.ghost src m) :: post) (_ : begunTexts pre = ps.map text) (_ : ∀ x ∈ ps, PinsOk x) {ops : List PinOp} (_ : PinsTold cfg.pinMap ps.flatten ops), pinOps pre = ops := by
  intro ps
  induction ps using List.reverseRecOn with
  | nil =>
    intro tr p h pre post src m e hb _ ops ht
    cases ht
    exact C126_before h e (begunTexts_none hb)
  | append_singleton ps cs ih =>
    intro tr p h pre post src m e hb hok ops ht
    rw [List.flatten_append, List.flatten_singleton] at ht
    obtain ⟨x, y, rfl, hx, hy⟩ := pinsTold_split ht
    rw [List.map_append] at hb
    obtain ⟨pre', s, mid, rfl, h1, h2⟩ := begun_split hb
    have e1 := ih h (post := mid ++ .out (.ghost src m) :: post) (by rw [e, List.append_assoc]; rfl) h1 (fun c hc => hok c (by simp [hc])) hx
    have e2 := C126_exact h (pre := pre') (mid := mid) (post := post) (by rw [e]) h2 (hok cs (by simp)) hy
    rw [pinOps_append, pinOps_cons, e1, show opOf (Act.out (Out.ghost s (text cs)) : Act F) = none from rfl, e2]
    rfl

/-- at any time: a beginning of that. -/
theorem pins_begun_only {ps : List (List Cmd)} {tr : List (Act F)} {p : Prog F (FW F)} (h : Trace cfg junk tr p) (hb : begunTexts tr = ps.map text) (hok : ∀ x ∈ ps, PinsOk x) {ops : List PinOp}
    (ht : PinsTold cfg.pinMap ps.flatten ops) : pinOps tr <+: ops := by
  rcases List.eq_nil_or_concat ps with rfl | ⟨ps, cs, rfl⟩
  · cases ht
    rw [C126_before h (post := []) (List.append_nil _).symm (begunTexts_none hb)]
  rw [List.concat_eq_append] at *
  rw [List.flatten_append, List.flatten_singleton] at ht
  obtain ⟨x, y, rfl, hx, hy⟩ := pinsTold_split ht
  rw [List.map_append] at hb
  obtain ⟨pre', s, mid, rfl, h1, h2⟩ := begun_split hb
  have e1 := pins_begun ps h (post := mid) rfl h1 (fun c hc => hok c (by simp [hc])) hx
  have e2 := C126_only h (pre := pre') (src := s) (mid := mid) (post := []) (List.append_nil _).symm h2 (hok cs (by simp)) hy
  rw [pinOps_append, pinOps_cons, e1, show opOf (Act.out (Out.ghost s (text cs)) : Act F) = none from rfl]
  exact (List.prefix_append_right_inj _).2 e2

/-! ### nobody sends anything -/

theorem unattended_left {a b : List Byte} (h : Unattended (a ++ b)) : Unattended a := fun p hp => h p (by rw [decode_append]; exact List.mem_append_left _ hp)

theorem unattended_ops {r : List Byte} (h : Unattended r) : storeOps r = [] := by
  rw [storeOps, List.filterMap_eq_nil_iff]
  intro p hp
  rcases h p hp with e | e <;> rw [e]

theorem unattended_nows {r : List Byte} (h : Unattended r) : nows r = [] := by
  rw [nows, List.filterMap_eq_nil_iff]
  intro p hp
  rcases h p hp with e | e <;> rw [e]

/-- the controller takes its instructions from the storage. -/
theorem unattended_sel {m0 : EMem} (h0 : m0 0 ≠ 0) {tr : List (Act F)} (h : ∃ p, Trace cfg junk tr p) (hr : ReadsTrue m0 tr) (hs : Unattended (rxBytes tr)) :
    ((Dev.after tr).booted = true → (Dev.after tr).sel = .storage) ∧ (Dev.after tr).sel ≠ .queue := by
  induction tr using List.reverseRecOn with
  | nil => exact ⟨fun h => (by cases h), (by simp [Dev.after])⟩
  | append_singleton t a ih =>
    obtain ⟨p, h⟩ := h
    have i := ih (h.take rfl) (fun pre m post e => hr pre m (post ++ [a]) (by rw [e]; simp)) (unattended_left (by rw [← rxBytes_append]; exact hs))
    rw [after_snoc]
    match a, h, hr, hs with
    | .rx (some b), _, _, hs =>
      have hs : Unattended (rxBytes t ++ [b]) := by rw [rxBytes_append] at hs; exact hs
      show (((Dev.after t).recv b).booted = true → ((Dev.after t).recv b).sel = .storage) ∧ ((Dev.after t).recv b).sel ≠ .queue
      unfold Dev.recv
      by_cases hb : b = 13
      · rw [if_pos hb]
        cases ho : overlong (Dev.after t).line
        · have := hs (payload (Dev.after t).line) (by
            rw [decode_snoc, completed, ← after_line, if_pos ⟨hb, ho⟩]; simp)
          simp only [Bool.false_eq_true, if_false] at *
          rcases this with e | e <;> rw [e] <;> exact i
        · exact i
      · rw [if_neg hb]; exact i
    | .eeRead m, h, hr, _ =>
      show ((if (Dev.after t).booted then _ else _ : Dev).booted = true → (if (Dev.after t).booted then _ else _ : Dev).sel = .storage) ∧ (if (Dev.after t).booted then _ else _ : Dev).sel ≠ .queue
      cases hb : (Dev.after t).booted
      · obtain ⟨p', h'⟩ := h.take (pre := t) (post := [.eeRead m]) rfl
        have e1 := hr t m [] rfl
        have e2 : memAfter m0 t = m0 := by rw [memAfter, Turns.unwritten h' hb]; rfl
        have : m 0 ≠ 0 := by rw [e1, e2]; exact h0
        simp [this]
      · exact ⟨fun _ => i.1 hb, i.2⟩
    | .out (.ghost .queue m), _, _, _ => exact i
    | .out (.ghost .immediate m), _, _, _ | .out (.ghost .eeprom m), _, _, _ | .rx none, _, _, _ | .servo _ _, _, _, _ | .micro _ _, _, _, _ | .now _, _, _, _ | .pin _ _, _, _, _
    | .eeWrite _ _, _, _, _ | .out (.msg _), _, _, _ | .out (.raw _), _, _, _ | .out (.pinMode _ _), _, _, _ | .out (.digitalWrite _ _), _, _, _ => exact i

theorem program_first {mem : Nat → Byte} {L : List (List Byte)} (h0 : HasProgram mem L) (hL : L ≠ []) : mem 0 ≠ 0 := by
  obtain ⟨m, L', rfl⟩ := List.exists_cons_of_ne_nil hL
  have h1 := h0.messages m (by simp)
  rw [h0.image 0 (UInt8.ofNat m.length) (by omega) (by simp [image])]
  have : 0 < m.length := List.length_pos_of_ne_nil h1.1
  intro e
  have := congrArg UInt8.toNat e
  rw [UInt8.toNat_ofNat'] at this
  simp at this
  omega

variable {w0 : World F}

/-- only instructions from the storage are begun. -/
theorem unattended_begun {evs : List (Ev F)} {s : Sys F} {L : List (List Byte)} (h : Sys.Run cfg w0 junk evs s) (h0 : HasProgram w0.ee L) (hL : L ≠ []) (hu : Unattended (rxBytes (acts evs))) :
    begunTexts (acts evs) = storeStarts (acts evs) ∧ NoNow (acts evs) := by
  have hf := program_first h0 hL
  have hno : NoNow (acts evs) := by
    intro m hm
    obtain ⟨a, b, e⟩ := List.append_of_mem hm
    have h5 := (C91_at_once h.trace e rfl).1 m rfl
    have h6 : m ∈ nows (rxBytes a) := by rw [h5]; simp
    rw [unattended_nows (unattended_left (by rw [← rxBytes_append, ← e]; exact hu))] at h6
    cases h6
  refine ⟨?_, hno⟩
  rw [begunTexts, storeStarts]
  refine List.filterMap_congr fun a ha => ?_
  match a with
  | .out (.ghost .eeprom m) => rfl
  | .out (.ghost .immediate m) => exact absurd ha (hno m)
  | .out (.ghost .queue m) =>
    obtain ⟨x, y, e⟩ := List.append_of_mem ha
    have h1 := ((trace_dev h.trace).1 x _ y e rfl).1 m rfl
    have h2 := unattended_sel hf (h.trace.take e) (fun pre mm post e' => h.mem.2 pre mm (post ++ .out (.ghost .queue m) :: y) (by rw [e, e']; simp))
      (unattended_left (by rw [← rxBytes_append, ← e]; exact hu))
    exact absurd h1.2 h2.2
  | .out (.msg _) | .out (.raw _) | .out (.pinMode _ _) | .out (.digitalWrite _ _) => rfl
  | .servo .. | .micro .. | .now _ | .pin .. | .rx _ | .eeRead _ | .eeWrite .. => rfl

theorem cyc_rounds (qs : List (List Cmd)) (hq : qs ≠ []) (k : Nat) : cyc (qs.map text) 0 k = (rounds qs k).map text := by
  rw [cyc, rounds, List.map_map]
  refine List.map_congr_left fun i _ => ?_
  have : i % qs.length < qs.length := Nat.mod_lt _ (List.length_pos_of_ne_nil hq)
  simp [List.getD_eq_getElem?_getD, this]

theorem rounds_mem {qs : List (List Cmd)} {k : Nat} {x : List Cmd} (hq : qs ≠ []) (hx : x ∈ rounds qs k) : x ∈ qs := by
  rw [rounds, List.mem_map] at hx
  obtain ⟨i, -, rfl⟩ := hx
  have : i % qs.length < qs.length := Nat.mod_lt _ (List.length_pos_of_ne_nil hq)
  rw [List.getD_eq_getElem?_getD, List.getElem?_eq_getElem this]
  exact List.getElem_mem this

theorem rounds_prefix (qs : List (List Cmd)) {k k' : Nat} (h : k ≤ k') : ∃ x, rounds qs k' = rounds qs k ++ x := by
  obtain ⟨d, rfl⟩ := Nat.exists_eq_add_of_le h
  exact ⟨_, by rw [rounds, List.range_add, List.map_append]; rfl⟩

/-- **C132**: what an unattended controller begins: the stored instructions except the first, in order, again and again. -/
theorem C132_order {evs : List (Ev F)} {s : Sys F} {m : List Byte} {qs : List (List Cmd)} (h : Sys.Run cfg w0 junk evs s) (h0 : HasProgram w0.ee (m :: qs.map text)) (hq : qs ≠ [])
    (hu : Unattended (rxBytes (acts evs))) : ∃ k, begunTexts (acts evs) = (rounds qs k).map text := by
  obtain ⟨k, hk, -⟩ := C93_replay h h0 (unattended_ops hu)
  exact ⟨k, by rw [(unattended_begun h h0 (by simp) hu).1, hk, List.tail_cons, cyc_rounds qs hq]⟩

/-- **C132**: at any time it has said a beginning of the conversation about some rounds, and done a beginning of what they say to the pins. -/
theorem C132_only {evs : List (Ev F)} {s : Sys F} {m : List Byte} {qs : List (List Cmd)} (h : Sys.Run cfg w0 junk evs s) (h0 : HasProgram w0.ee (m :: qs.map text)) (hq : qs ≠ [])
    (hS : ∀ x ∈ qs, Simple x) (hu : Unattended (rxBytes (acts evs))) :
    ∃ k, begunTexts (acts evs) = (rounds qs k).map text ∧ words (acts evs) <+: talk 1 (rounds qs k) ∧
      ((∀ x ∈ qs, PinsOk x) → ∀ ops, PinsTold cfg.pinMap (rounds qs k).flatten ops → pinOps (acts evs) <+: ops) := by
  obtain ⟨k, hk⟩ := C132_order h h0 hq hu
  exact ⟨k, hk, C131_only h.trace (unattended_begun h h0 (by simp) hu).2 (fun x hx => hS x (rounds_mem hq hx)) hk,
    fun hP ops ht => pins_begun_only h.trace hk (fun x hx => hP x (rounds_mem hq hx)) ht⟩

/-- **C132**: timing does not matter. Of two controllers with the same stored program, at any two times, one has said the beginning of what the other has said. -/
theorem C132_same {w0 w1 : World F} {junk junk' : Nat → Byte} {evs evs' : List (Ev F)} {s s' : Sys F} {m : List Byte} {qs : List (List Cmd)} (h : Sys.Run cfg w0 junk evs s) (h' : Sys.Run cfg w1 junk' evs' s')
    (h0 : HasProgram w0.ee (m :: qs.map text)) (h1 : HasProgram w1.ee (m :: qs.map text)) (hq : qs ≠ []) (hS : ∀ x ∈ qs, Simple x) (hu : Unattended (rxBytes (acts evs))) (hu' : Unattended (rxBytes (acts evs'))) :
    words (acts evs) <+: words (acts evs') ∨ words (acts evs') <+: words (acts evs) := by
  obtain ⟨k, -, e, -⟩ := C132_only h h0 hq hS hu
  obtain ⟨k', -, e', -⟩ := C132_only h' h1 hq hS hu'
  rcases Nat.le_total k k' with g | g
  · obtain ⟨x, hx⟩ := rounds_prefix qs g
    exact List.prefix_or_prefix_of_prefix (e.trans (by rw [hx]; exact talk_prefix)) e'
  · obtain ⟨x, hx⟩ := rounds_prefix qs g
    exact List.prefix_or_prefix_of_prefix e (e'.trans (by rw [hx]; exact talk_prefix))
end

section
variable {w0 : World XR} (hw : w0.servos = Kit.servos) {junk : Nat → Byte} {σ : ℕ → Sys XR} {ev : ℕ → Ev XR} (h : Endless Kit.cfg w0 junk σ ev) {m0 : List Byte} {qs : List (List Cmd)}
  (h0 : StoredProgram w0.ee (m0 :: qs.map text)) (hbr : ∀ m ∈ m0 :: qs.map text, BriskInstr m) (hwt : ∀ m ∈ m0 :: qs.map text, NoWaiting m) (hq : qs ≠ [])
  (hc : ∀ n, WellSent (w0.rxq ++ arrivals (sofar ev n))) (hun : ∀ n, Unattended (w0.rxq ++ arrivals (sofar ev n))) (hu : Unbroken ev) (hclk : ClockRuns σ ev)
include hw h h0 hbr hwt hq hc hun hu hclk

omit hw h0 hbr hwt hq hc hu hclk in
theorem unattended_read (n : ℕ) : Unattended (rxBytes (acts (sofar ev n))) := by
  refine unattended_left (b := (σ n).w.rxq) ?_
  rw [← (h.run n).fifo]; exact hun n

omit hw hbr hwt hc hu hclk hq in
theorem unattended_selects {k n : ℕ} (hk : ev k = .next) (hn : k ≤ n) : (view ev n).sel = .storage := by
  refine (unattended_sel (program_first (storedProgram_has h0) (by simp)) ⟨_, (h.run n).trace⟩ (h.run n).mem.2 (unattended_read h hun n)).1 (booted h hk hn)

omit hw h0 hbr hwt hc hu hclk hq in
theorem unattended_keeps (n0 : ℕ) : KeepsStorage ev n0 := by
  intro k _ hk ho
  have h1 := unattended_read h hun (k + 1)
  rw [rx_snoc, hk] at h1
  have h2 := h1 (payload (view ev k).line) (by
    rw [show rxBytes (acts [(Ev.act (.rx (some 13)) : Ev XR)]) = [13] from rfl, decode_snoc, completed, ← view_line, if_pos ⟨rfl, ho⟩]; simp)
  rcases h2 with e | e
  · exact .inl e
  · exact .inr (.inl e)

omit hw hbr hwt hq hc hu hclk in
theorem unattended_asks (n : ℕ) : OnlyAsksNow ev n :=
  fun k _ m e => absurd (by rw [sofar_succ, acts_append, e]; simp [acts]) ((unattended_begun (h.run (k + 1)) (storedProgram_has h0) (by simp) (unattended_read h hun _)).2 m)

omit hw h h0 hbr hwt hq hu hclk in
theorem unattended_brisk (n : ℕ) : BrisklySent (w0.rxq ++ arrivals (sofar ev n)) :=
  ⟨hc n, fun p hp => by rcases hun n p hp with e | e <;> rw [e] <;> trivial⟩

omit hw hbr hq hu in
theorem unattended_fair : Fair σ ev :=
  C106_ready h ⟨_, h0, hwt⟩ (fun n => ⟨(hc n).frames, (hc n).pieces, fun p hp => by rcases hun n p hp with e | e <;> rw [e] <;> trivial⟩) hclk

/-- **C132**: every stored instruction but the first begins again and again. -/
theorem C132_again {m : List Byte} (hm : m ∈ qs.map text) (n1 : ℕ) : ∃ n, n1 ≤ n ∧ ev n = .act (.out (.ghost .eeprom m)) := by
  have hqt : qs.map text ≠ [] := by simpa using hq
  obtain ⟨a0, -, ha0⟩ := h.loops 0
  have hpr : program (m0 :: qs.map text) (rxBytes (acts (sofar ev a0))) = m0 :: qs.map text := by
    rw [program, unattended_ops (unattended_read h hun a0)]; rfl
  exact C100_again hw h ⟨_, h0, hbr⟩ (unattended_brisk hc hun) (undivided_of hu) (unattended_fair h h0 hwt hc hun hclk) h0 (n0 := a0) ⟨a0, le_rfl, ha0⟩ (unattended_selects h h0 hun ha0 le_rfl)
    (by rw [hpr]; have := List.length_pos_of_ne_nil hqt; simp at this ⊢; omega) (unattended_keeps h hun a0) (unattended_asks h h0 hun a0) (m := m) (by rw [hpr]; exact hm) n1

/-- **C132**: again and again every numbered instruction of the program begins and is reported as finished before anything else begins. -/
theorem C132_reported {cs : List Cmd} (hm : cs ∈ qs) {n : Int} (hn : Numbered (text cs) n) (n1 : ℕ) :
    ∃ k j, n1 ≤ k ∧ ev k = .act (.out (.ghost .eeprom (text cs))) ∧ k < j ∧ ev j = .act (.out (.msg (.n1 n))) ∧ ∀ i, k < i → i < j → ¬ Orders ev i := by
  obtain ⟨k, h1, hk⟩ := C132_again hw h h0 hbr hwt hq hc hun hu hclk (List.mem_map_of_mem hm) n1
  obtain ⟨j, h2, h3, h4⟩ := C100_reported hw h ⟨_, h0, hbr⟩ (unattended_brisk hc hun) (undivided_of hu) (unattended_fair h h0 hwt hc hun hclk) hk (by simp) hn (unattended_asks h h0 hun _)
  exact ⟨k, j, h1, hk, h2, h3, h4⟩

omit hw hbr hwt hq hc hu hclk in
theorem unattended_calm : CalmImmediates ev :=
  calm_of_none (unattended_asks h h0 hun 0)

/-- **C132**: again and again every numbered move to six angles (M0) in the program begins and is reported as finished before anything else begins; and then the arm is at these angles, until a servo is commanded again. -/
theorem C132_moves {cs : List Cmd} (hm : cs ∈ qs) (ht : TellsAngles cs) (hM : Chooses 48 cs) {n : Int} (hn : Numbered (text cs) n) {d : Fin 6 → Dec} (hd : ∀ i, Last NamesAngle cs i (d i))
    (hfit : KitFits fun i => radians (d i)) (n1 : ℕ) :
    ∃ k j, n1 ≤ k ∧ ev k = .act (.out (.ghost .eeprom (text cs))) ∧ k < j ∧ ev j = .act (.out (.msg (.n1 n))) ∧ (∀ i, k < i → i < j → ¬ Orders ev i) ∧
      ∀ l, j ≤ l → (∀ i : Fin 6, Untouched ev (armServo i) j l) → ∃ b, ArmAt (σ l).w b ∧ ∀ i, |kitLogical b i - radians (d i)| < 11 / 100000 := by
  obtain ⟨k, j, h1, hk, h2, h3, h4⟩ := C132_reported hw h h0 hbr hwt hq hc hun hu hclk hm hn n1
  exact ⟨k, j, h1, hk, h2, h3, h4, fun l hl hun' => C110_told hw h ⟨_, h0, hbr⟩ (unattended_brisk hc hun) hu (unattended_calm h h0 hun) hk (.inl (by simp)) ht hM hd hfit h2 (.inl ⟨n, h3⟩) (undirected h4) hl hun'⟩

/-- **C132**: again and again every numbered move (M0) in the program to a pose the kit can take begins and is reported as finished before anything else begins; and then the tool is there, until a servo is commanded again. -/
theorem C132_poses {cs : List Cmd} (hm : cs ∈ qs) (ht : TellsPose cs) (hM : Chooses 48 cs) {n : Int} (hn : Numbered (text cs) n) {d : Fin 6 → Dec} (hd : ∀ i, Last NamesPose cs i (d i))
    {A : Fin 6 → ℝ} (hA : KitTakes kitG (poseOfDec d) A) (n1 : ℕ) :
    ∃ k j, n1 ≤ k ∧ ev k = .act (.out (.ghost .eeprom (text cs))) ∧ k < j ∧ ev j = .act (.out (.msg (.n1 n))) ∧ (∀ i, k < i → i < j → ¬ Orders ev i) ∧
      ∀ l, j ≤ l → (∀ i : Fin 6, Untouched ev (armServo i) j l) → ∃ b, ArmAt (σ l).w b ∧ ToolAt kitG (113 / 10000) (7 / 10000) (kitLogical b) (poseOfDec d) := by
  obtain ⟨k, j, h1, hk, h2, h3, h4⟩ := C132_reported hw h h0 hbr hwt hq hc hun hu hclk hm hn n1
  refine ⟨k, j, h1, hk, h2, h3, h4, fun l hl hun' => ?_⟩
  obtain ⟨b, g1, -, g2⟩ := C113_pose hw h ⟨_, h0, hbr⟩ (unattended_brisk hc hun) hu (unattended_calm h h0 hun) hk (.inl (by simp)) ht hM hd hA h2 (.inl ⟨n, h3⟩) (undirected h4) hl hun'
  exact ⟨b, g1, g2⟩

/-- **C132**: again and again every numbered straight move in the program begins, is reported as finished before anything else begins, and by then the arm has gone the straight way to its pose. -/
theorem C132_lines {cs : List Cmd} (hm : cs ∈ qs) (ht : TellsPose cs) (hM : Chooses 49 cs) {n : Int} (hn : Numbered (text cs) n) {d : Fin 6 → Dec} (hd : ∀ i, Last NamesPose cs i (d i)) (n1 : ℕ) :
    ∃ k j, n1 ≤ k ∧ ev k = .act (.out (.ghost .eeprom (text cs))) ∧ k < j ∧ ev j = .act (.out (.msg (.n1 n))) ∧ (∀ i, k < i → i < j → ¬ Orders ev i) ∧
      KitLineMoved kitG (poseOfDec d) (acts ((sofar ev j).drop (k + 1))) := by
  obtain ⟨k, h1, hk⟩ := C132_again hw h h0 hbr hwt hq hc hun hu hclk (List.mem_map_of_mem hm) n1
  obtain ⟨j, h2, h3, h4, h5⟩ := C88_line hw h ⟨_, h0, hbr⟩ (unattended_brisk hc hun) (undivided_of hu) (unattended_fair h h0 hwt hc hun hclk) hk (by simp) ht hM hn hd (unattended_asks h h0 hun _)
  exact ⟨k, j, h1, hk, h2, h3, h4, h5⟩

/-- **C132**, for the kit: it never stops: after the first `k` of the rounds the next instruction begins, and at that moment all of them have been worked off: everything that had to be said was said, everything that had
to be done to the pins was done, and nothing else. -/
theorem C132_kit (hS : ∀ x ∈ qs, Simple x) (hP : ∀ x ∈ qs, PinsOk x) (k : ℕ) {ops : List PinOp} (ht : PinsTold Kit.pinMap (rounds qs k).flatten ops) :
    ∃ n cs, ev n = .act (.out (.ghost .eeprom (text cs))) ∧ rounds qs (k + 1) = rounds qs k ++ [cs] ∧ begunTexts (acts (sofar ev n)) = (rounds qs k).map text ∧
      words (acts (sofar ev n)) = talk 1 (rounds qs k) ∧ pinOps (acts (sofar ev n)) = ops := by
  have hne : m0 :: qs.map text ≠ [] := by simp
  have hp := storedProgram_has h0
  have hqt : qs.map text ≠ [] := by simpa using hq
  -- it never stops
  have many : ∀ k, ∃ n, k ≤ (begunTexts (acts (sofar ev n))).length := by
    intro k
    induction k with
    | zero => exact ⟨0, Nat.zero_le _⟩
    | succ k ih =>
      obtain ⟨n, hn⟩ := ih
      obtain ⟨m, hm⟩ := List.exists_mem_of_ne_nil _ hqt
      obtain ⟨n', g1, g2⟩ := C132_again hw h h0 hbr hwt hq hc hun hu hclk hm n
      refine ⟨n' + 1, ?_⟩
      rw [begunTexts_act g2, List.length_append, sofar_split ev g1, acts_append, begunTexts_append, List.length_append]
      simp; omega
  obtain ⟨N, hN⟩ := many (k + 1)
  obtain ⟨K, hK⟩ := C132_order (h.run N) hp hq (unattended_read h hun N)
  have hKk : k + 1 ≤ K := by rw [hK] at hN; simpa [rounds] using hN
  obtain ⟨x, hx⟩ := rounds_prefix qs hKk
  obtain ⟨cs, hcs⟩ : ∃ cs, rounds qs (k + 1) = rounds qs k ++ [cs] := ⟨_, by rw [rounds, List.range_succ, List.map_append]; rfl⟩
  -- the moment
  have find : ∀ n, (rounds qs (k + 1)).map text <+: begunTexts (acts (sofar ev n)) → ∃ i s, ev i = .act (.out (.ghost s (text cs))) ∧ begunTexts (acts (sofar ev i)) = (rounds qs k).map text := by
    intro n
    induction n with
    | zero =>
      intro hpre
      have := hpre.length_le
      simp [rounds, sofar, acts, begunTexts] at this
    | succ n ih =>
      intro hpre
      by_cases hb : Begins ev n
      · obtain ⟨s, m, e⟩ := hb
        rw [begunTexts_act e] at hpre
        rcases List.prefix_concat_iff.1 hpre with g | g
        · rw [hcs, List.map_append] at g
          obtain ⟨g1, g2⟩ := List.append_inj' g rfl
          injection g2 with g2
          exact ⟨n, s, by rw [e, g2], g1.symm⟩
        · exact ih g
      · have : begunTexts (acts [ev n]) = [] := by
          match e : ev n with
          | .act (.out (.ghost s m)) => exact absurd ⟨s, m, e⟩ hb
          | .act (.out (.msg _)) | .act (.out (.raw _)) | .act (.out (.pinMode _ _)) | .act (.out (.digitalWrite _ _)) => rfl
          | .act (.servo ..) | .act (.micro ..) | .act (.now _) | .act (.pin ..) | .act (.rx _) | .act (.eeRead _) | .act (.eeWrite ..) => rfl
          | .next | .isr | .clock _ | .pins _ | .arrive _ => rfl
        rw [sofar_succ, acts_append, begunTexts_append, this, List.append_nil] at hpre
        exact ih hpre
  obtain ⟨n, s, e, hb⟩ := find N (by rw [hK, hx, List.map_append]; exact List.prefix_append _ _)
  have hno := fun n => (unattended_begun (h.run n) hp hne (unattended_read h hun n))
  have hs : s = .eeprom := by
    have g1 := (hno (n + 1)).1
    rw [begunTexts_act e, (hno n).1, sofar_succ, acts_append, storeStarts_append, e] at g1
    have g1 := List.append_cancel_left g1
    cases s with
    | eeprom => rfl
    | queue => cases g1
    | immediate => cases g1
  subst hs
  have htr : acts (sofar ev (n + 1)) = acts (sofar ev n) ++ .out (.ghost .eeprom (text cs)) :: [] := by rw [sofar_succ, acts_append, e]; rfl
  exact ⟨n, cs, e, hcs, hb, C131_next (h.run (n + 1)).trace htr (by decide) (hno n).2 (fun x hx => hS x (rounds_mem hq hx)) hb,
    pins_begun _ (h.run (n + 1)).trace htr hb (fun x hx => hP x (rounds_mem hq hx)) ht⟩
end

end Mrc.Props
