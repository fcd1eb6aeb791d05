import Verif.Props.Program
import Verif.Props.Progress
/-
C95: the stored program is executed again and again.
-/
set_option linter.unusedSectionVars false
namespace Mrc.Props
open Mrc Mrc.Prog Mrc.Spec
variable {F : Type} [FloatOps F] {cfg : Cfg F} {w0 : World F} {junk : Nat → Byte} {σ : ℕ → Sys F} {ev : ℕ → Ev F}

/-- the dispatcher starts the next stored instruction. -/
theorem dispatch_storage {s s' : FW F} {t : List (Act F)} (h : Exec (Mrcp.process cfg s) t (.ret s')) (hd : s.core.done = true) (hm : s.mode = .eeprom) :
    ∃ mem t', t = .eeRead mem :: t' ∧ ((EE.getNextMessage mem s.eePtr).1 ≠ [] → ∃ m, .out (.ghost .eeprom m) ∈ t) := by
  have h' : Exec (.eeRead fun mem => match EE.getNextMessage mem s.eePtr with
      | (m, ptr) => if m.length > INPUT_BUFFER_SIZE then .fault .oobWrite else if m.length ≠ 0 then Mrcp.handOver cfg .eeprom { s with eePtr := ptr } m else .ret { s with eePtr := ptr }) t (.ret s') := by
    have e : Mrcp.process cfg s = .eeRead fun mem => match EE.getNextMessage mem s.eePtr with
      | (m, ptr) => if m.length > INPUT_BUFFER_SIZE then .fault .oobWrite else if m.length ≠ 0 then Mrcp.handOver cfg .eeprom { s with eePtr := ptr } m else .ret { s with eePtr := ptr } := by
      rw [Mrcp.process, if_neg (by rw [hm]; simp), if_pos hd, hm]
    rw [e] at h; exact h
  cases h' with
  | @cons _ _ _ t _ hs h =>
    cases hs with
    | eeRead k mem =>
    refine ⟨mem, t, rfl, fun hne => ?_⟩
    simp only at h
    split at h
    · cases h with | cons hs _ => cases hs
    · rw [if_pos (by intro e; exact hne (List.length_eq_zero_iff.1 e))] at h
      cases h with
      | cons hs h => cases hs; exact ⟨_, List.mem_cons_of_mem _ List.mem_cons_self⟩

theorem rx_snoc (ev : ℕ → Ev F) (n : ℕ) : rxBytes (acts (sofar ev (n + 1))) = rxBytes (acts (sofar ev n)) ++ rxBytes (acts [ev n]) := by rw [sofar_succ, acts_append, rxBytes_append]

theorem view_line (ev : ℕ → Ev F) (n : ℕ) : (view ev n).line = tail (rxBytes (acts (sofar ev n))) := after_line _

theorem keeps_ops {n0 : ℕ} (hk : KeepsStorage ev n0) (n : ℕ) (hn : n0 ≤ n) : storeOps (rxBytes (acts (sofar ev n))) = storeOps (rxBytes (acts (sofar ev n0))) := by
  induction n, hn using Nat.le_induction with
  | base => rfl
  | succ n hn ih =>
    rw [rx_snoc]
    by_cases hb : ∃ b, ev n = .act (.rx (some b))
    · obtain ⟨b, he⟩ := hb
      have e : rxBytes (acts [ev n]) = [b] := by rw [he]; rfl
      rw [e, storeOps_snoc, ih]
      have : byteOps (tail (rxBytes (acts (sofar ev n)))) b = [] := by
        rw [byteOps]
        split
        · rename_i hc
          have hk := hk n hn (by rw [he, hc.1]) (by rw [view_line]; exact hc.2)
          rw [view_line] at hk
          rcases hk with h | h | ⟨m, h⟩ <;> rw [h]
        · rfl
      rw [this, List.append_nil]
    · have e : rxBytes (acts [ev n]) = [] := by
        generalize ev n = x at hb
        match x, hb with
        | .act (.rx (some b)), hb => exact absurd ⟨b, rfl⟩ hb
        | .act (.rx none), _ | .act (.eeRead m), _ | .act (.servo _ _), _ | .act (.micro _ _), _ | .act (.now _), _ | .act (.pin _ _), _ | .act (.eeWrite _ _), _
        | .act (.out _), _ | .next, _ | .isr, _ | .clock _, _ | .pins _, _ | .arrive _, _ => rfl
      rw [e, List.append_nil, ih]

/-- the selection does not change. -/
theorem keeps_sel {n0 : ℕ} (hboot : (view ev n0).booted = true) (hs : (view ev n0).sel = .storage) (hk : KeepsStorage ev n0) (n : ℕ) (hn : n0 ≤ n) :
    (view ev n).booted = true ∧ (view ev n).sel = .storage := by
  induction n, hn using Nat.le_induction with
  | base => exact ⟨hboot, hs⟩
  | succ n hn ih =>
    have e := view_succ ev n
    have hkn := hk n hn
    generalize ev n = x at *
    match x with
    | .act (.rx (some b)) =>
      have e : view ev (n + 1) = (view ev n).recv b := e
      rw [e]
      unfold Dev.recv
      by_cases hb13 : b = 13
      · subst hb13
        simp only [if_true]
        cases ho : overlong (view ev n).line with
        | true => exact ih
        | false =>
          simp only [Bool.false_eq_true, if_false]
          rcases hkn rfl ho with h | h | ⟨m, h⟩ <;> rw [h] <;> exact ih
      · simp only [hb13, if_false]; exact ih
    | .act (.eeRead m) =>
      have e : view ev (n + 1) = if (view ev n).booted = true then view ev n else _ := e
      rw [e, if_pos ih.1]; exact ih
    | .act (.out (.ghost .queue m)) => rw [e]; exact ih
    | .act (.out (.ghost .immediate m)) | .act (.out (.ghost .eeprom m)) | .act (.rx none) | .act (.servo _ _) | .act (.micro _ _) | .act (.now _)
    | .act (.pin _ _) | .act (.eeWrite _ _) | .act (.out (.msg _)) | .act (.out (.raw _)) | .act (.out (.pinMode _ _)) | .act (.out (.digitalWrite _ _))
    | .next | .isr | .clock _ | .pins _ | .arrive _ => rw [e]; exact ih

theorem sofar_split (ev : ℕ → Ev F) {a b : ℕ} (h : a ≤ b) : sofar ev b = sofar ev a ++ span ev a (b - a) := by
  obtain ⟨d, rfl⟩ := Nat.exists_eq_add_of_le h
  rw [Nat.add_sub_cancel_left]
  induction d with
  | zero => simp [span]
  | succ d ih => rw [← Nat.add_assoc, sofar_succ, ih (by omega), span_succ]; simp

/-- an idle pass in storage mode, with everything there and at least two stored instructions, starts one. -/
theorem served_storage (h : Endless cfg w0 junk σ ev) (hP : Parts F) {L : List (List Byte)} (h0 : HasProgram w0.ee L) {a b : ℕ} {s : FW F} (hp : PassAt σ ev a b s) (hq : ∀ n, a ≤ n → n < b → ¬ Orders ev n)
    (hrel : ∀ k, a ≤ k → k < b → Released s (σ k).w) {s' : FW F} (hb : Between σ b s') (hm : s'.core.rc.isMoving = false) (hsel : s'.mode = .eeprom) :
    (program L (rxBytes (acts (sofar ev b)))).length ≤ 1 := by
  have hlt := hp.lt
  have hdone := (h.served hP hp hq hrel hb hm).1
  obtain ⟨s1, hs1, hx⟩ := h.pass_exec hp
  have e1 : s1 = s' := by have := hs1.symm.trans hb; injection this
  subst e1
  have hgh : ∀ x ∈ acts (span ev (a + 1) (b - (a + 1))), ¬ OrdersI x := by
    rintro x hx ⟨src, m, rfl, ho⟩
    rw [acts_mem, mem_span] at hx
    obtain ⟨n, h1, h2, h3⟩ := hx
    exact hq n (by omega) (by omega) ⟨src, m, h3, ho⟩
  have hspl : acts (sofar ev b) = acts (sofar ev a) ++ acts (span ev (a + 1) (b - (a + 1))) := by
    rw [sofar_split ev (show a + 1 ≤ b from hlt), acts_append, sofar_succ, acts_append, hp.here]
    simp [acts]
  have hmark : Mark cfg junk (acts (sofar ev a)) s := by
    have := (h.run a).trace
    rw [hp.start] at this
    exact this.mark
  have hrd := (h.run b).mem.2
  rw [hspl] at hrd ⊢
  generalize acts (span ev (a + 1) (b - (a + 1))) = tr at *
  generalize acts (sofar ev a) = t0 at *
  rw [loopBody_eq] at hx
  obtain ⟨s2, t, u, rfl, x1, x2⟩ := exec_bind_ret hx
  rw [firstPhases] at x1
  obtain ⟨s3, t1, u1, rfl, x3, x1⟩ := exec_bind_ret x1
  obtain ⟨s4, t2, u2, rfl, x4, x1⟩ := exec_bind_ret x1
  obtain ⟨c, t5, u5, rfl, x5, x6⟩ := exec_bind_ret x2
  have hm5 := (serial_mark _ ((hmark.rc x3).rc x4) x1).check x5
  have hg := gMon_exec x6 (process_g cfg _ _) (fun x hx => hgh x (by simp [hx]))
  obtain ⟨mem, u6, rfl, hne⟩ := dispatch_storage x6 (by rw [← hg.1]; exact hdone) (by rw [← hg.2.1]; exact hsel)
  have hst := hm5.stored ((stored_iff _ _).1 h0) (by
    have : ReadsTrue w0.ee ((t0 ++ t1 ++ t2 ++ u2 ++ t5) ++ .eeRead mem :: u6) := by simpa using hrd
    exact this.left)
  have hpos := hm5.pos ((stored_iff _ _).1 h0) (by
    have : ReadsTrue w0.ee ((t0 ++ t1 ++ t2 ++ u2 ++ t5) ++ .eeRead mem :: u6) := by simpa using hrd
    exact this.left)
  have hmem : mem = memAfter w0.ee (t0 ++ t1 ++ t2 ++ u2 ++ t5) := hrd _ mem u6 (by simp)
  have hrx : rxBytes (t0 ++ (t1 ++ (t2 ++ u2) ++ (t5 ++ .eeRead mem :: u6))) = rxBytes (t0 ++ t1 ++ t2 ++ u2 ++ t5) := by
    have := (proc_w x6).2
    rw [show t0 ++ (t1 ++ (t2 ++ u2) ++ (t5 ++ .eeRead mem :: u6)) = (t0 ++ t1 ++ t2 ++ u2 ++ t5) ++ .eeRead mem :: u6 by simp, rxBytes_append, this, List.append_nil]
  rw [hrx]
  generalize hL : program L (rxBytes (t0 ++ t1 ++ t2 ++ u2 ++ t5)) = K at *
  by_contra hlen
  have hx : (EE.getNextMessage mem s2.eePtr).1 = K.getD (nextIx K s2.eePtr) [] := by
    rw [hmem]
    simp only [EE.getNextMessage, EE.getNumberOfMessages, EE.scan_stored hst, EE.getMessage_stored hst]; rfl
  obtain ⟨m, hm⟩ := hne (by show (EE.getNextMessage mem s2.eePtr).1 ≠ []; rw [hx]; exact getD_ne hst.ok (by omega) _)
  exact hgh (.out (.ghost .eeprom m)) (List.mem_append_right _ (List.mem_append_right _ hm)) ⟨_, _, rfl, by simp⟩

/-- **C95** (it goes on): the main loop runs and takes instructions from the storage, in which there are at least two. From now on the host sends no frame that
concerns queue or storage and no immediate instruction that does more than ask begins; servos left alone would arrive, and again and again there is a pass during which all inputs waited for have the required level and
the waiting time is over. Then another stored instruction is started, and nothing else before it. -/
theorem C95_next (h : Endless cfg w0 junk σ ev) (hP : Parts F) {L : List (List Byte)} (h0 : HasProgram w0.ee L) {n0 : ℕ} (hrun : ∃ k ≤ n0, ev k = .next) (hsel : (view ev n0).sel = .storage)
    (hL : 2 ≤ (program L (rxBytes (acts (sofar ev n0)))).length) (hk : KeepsStorage ev n0) (hi : OnlyAsksNow ev n0) (hf : Fair σ ev)
    (hs : ∀ n s, n0 ≤ n → Between σ n s → ∀ i, Settles ((σ n).w.servos (armServo i))) (n1 : ℕ) (h1 : n0 ≤ n1) :
    ∃ n m, n1 ≤ n ∧ ev n = .act (.out (.ghost .eeprom m)) ∧ ∀ k, n1 ≤ k → k < n → ¬ Orders ev k := by
  obtain ⟨k0, hk0, hk0'⟩ := hrun
  have hboot := booted h hk0' hk0
  have hex : ∃ n, n1 ≤ n ∧ Orders ev n := by
    by_contra hno
    have hno : ∀ n, n1 ≤ n → ¬ Orders ev n := fun n hn hb => hno ⟨n, hn, hb⟩
    obtain ⟨n2, h2, hrest⟩ := C77_rest h hP n1 hno (fun n s hn => hs n s (by omega))
    obtain ⟨a, b, s, ha, hp, hrel⟩ := hf n2
    have hlt := hp.lt
    obtain ⟨s', hb', _⟩ := h.atNext hp.stop
    have hag := agrees h hb'
    have hmode := hag.mode
    rw [(keeps_sel hboot hsel hk b (by omega)).2] at hmode
    have := served_storage h hP h0 hp (fun n hn _ => hno n (by omega)) hrel hb' ((hrest b (by omega)).2.2 s' hb') hmode
    rw [program_congr L (keeps_ops hk b (by omega))] at this
    omega
  classical
  have hsp := Nat.find_spec hex
  have hmin : ∀ k, n1 ≤ k → k < Nat.find hex → ¬ Orders ev k := fun k h1 h2 hb => Nat.find_min hex h2 ⟨h1, hb⟩
  generalize Nat.find hex = n at *
  obtain ⟨hn, src, m, he, ho⟩ := hsp
  have hok : (devMon (F := F)).ok (view ev n) (.out (.ghost src m)) := by
    have htr := (h.run (n + 1)).trace
    refine (trace_dev htr).1 (acts (sofar ev n)) _ [] ?_ rfl
    rw [sofar_succ, acts_append, he]; rfl
  have hsel' := (keeps_sel hboot hsel hk n (by omega)).2
  cases src with
  | immediate => exact absurd ⟨rfl, hi n (by omega) m he⟩ ho
  | queue => have := (hok.1 m rfl).2; rw [hsel'] at this; cases this
  | eeprom => exact ⟨n, m, hn, he, hmin⟩

/-- **C95** (all of it): then every stored instruction except the first is started again and again. -/
theorem C95_again (h : Endless cfg w0 junk σ ev) (hP : Parts F) {L : List (List Byte)} (h0 : HasProgram w0.ee L) {n0 : ℕ} (hrun : ∃ k ≤ n0, ev k = .next) (hsel : (view ev n0).sel = .storage)
    (hL : 2 ≤ (program L (rxBytes (acts (sofar ev n0)))).length) (hk : KeepsStorage ev n0) (hi : OnlyAsksNow ev n0) (hf : Fair σ ev)
    (hs : ∀ n s, n0 ≤ n → Between σ n s → ∀ i, Settles ((σ n).w.servos (armServo i))) {m : List Byte} (hm : m ∈ (program L (rxBytes (acts (sofar ev n0)))).tail) (n1 : ℕ) :
    ∃ n, n1 ≤ n ∧ ev n = .act (.out (.ghost .eeprom m)) := by
  -- it suffices to look after `n0`
  obtain ⟨n2, h2, h3⟩ : ∃ n2, n0 ≤ n2 ∧ n1 ≤ n2 := ⟨max n0 n1, by omega, by omega⟩
  have hops := keeps_ops hk n2 h2
  have hprog := program_congr L hops
  generalize hT : (program L (rxBytes (acts (sofar ev n0)))).tail = T at *
  have hTpos : 0 < T.length := List.length_pos_of_mem hm
  -- arbitrarily many starts
  have many : ∀ k, ∃ n, n2 ≤ n ∧ k ≤ (storeStarts (acts (span ev n2 (n - n2)))).length := by
    intro k
    induction k with
    | zero => exact ⟨n2, Nat.le_refl _, Nat.zero_le _⟩
    | succ k ih =>
      obtain ⟨n, g1, g2⟩ := ih
      obtain ⟨n', m', g3, g4, _⟩ := C95_next h hP h0 hrun hsel hL hk hi hf hs n (by omega)
      refine ⟨n' + 1, by omega, ?_⟩
      have e : span ev n2 (n' + 1 - n2) = span ev n2 (n - n2) ++ span ev n (n' - n) ++ [ev n'] := by
        have e1 := sofar_split ev (show n2 ≤ n' + 1 by omega)
        rw [sofar_succ, sofar_split ev g3, sofar_split ev g1, List.append_assoc, List.append_assoc] at e1
        rw [List.append_assoc]
        exact (List.append_cancel_left e1).symm
      rw [e, acts_append, acts_append, storeStarts_append, storeStarts_append, g4, List.length_append, List.length_append]
      show k + 1 ≤ _ + 1
      omega
  obtain ⟨n, g1, g2⟩ := many T.length
  have hr := h.run n
  have hn : sofar ev n = sofar ev n2 ++ span ev n2 (n - n2) := sofar_split ev g1
  rw [hn] at hr
  obtain ⟨j, k, c1, c2⟩ := C93_since hr h0 (by rw [← hn, keeps_ops hk n (by omega), hops])
  rw [hprog, hT] at c1
  have hkl : T.length ≤ k := by
    rw [c1] at g2; simpa [cyc] using g2
  -- `m` is among them
  obtain ⟨i, hi', hmi⟩ := List.getElem_of_mem hm
  have hin : m ∈ storeStarts (acts (span ev n2 (n - n2))) := by
    rw [c1, cyc, List.mem_map]
    refine ⟨(i + (T.length - j % T.length)) % T.length, List.mem_range.2 (Nat.lt_of_lt_of_le (Nat.mod_lt _ hTpos) hkl), ?_⟩
    have hj : j % T.length < T.length := Nat.mod_lt _ hTpos
    have : (j + (i + (T.length - j % T.length)) % T.length) % T.length = i := by
      rw [Nat.add_mod_mod, ← Nat.mod_add_mod, show j % T.length + (i + (T.length - j % T.length)) = i + T.length by omega, Nat.add_mod_right, Nat.mod_eq_of_lt hi']
    rw [this, List.getD_eq_getElem?_getD, List.getElem?_eq_getElem hi', hmi]; rfl
  simp only [storeStarts, List.mem_filterMap] at hin
  obtain ⟨x, hx, hx'⟩ := hin
  have : x = .out (.ghost .eeprom m) := by
    split at hx'
    · injection hx' with e; rw [e]
    · cases hx'
  subst this
  rw [acts_mem, mem_span] at hx
  obtain ⟨q, q1, _, q3⟩ := hx
  exact ⟨q, by omega, q3⟩

end Mrc.Props
