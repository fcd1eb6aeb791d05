import Verif.Proof.Mark
import Verif.Proof.Stream
import Verif.Proof.Eeprom
import Verif.Spec.Program
/- The stored program of the running system. -/
set_option linter.unusedSectionVars false
namespace Mrc
open Mrc.Prog Mrc.Spec
variable {F : Type} [FloatOps F] {cfg : Cfg F} {junk : Nat → Byte}

/-! ### the two descriptions of a stored program -/

theorem holds_iff (mem : EMem) (bs : List Byte) (p : Nat) : EE.Holds mem p bs ↔ ∀ k b, bs[k]? = some b → mem (p + k) = b := by
  induction bs generalizing p with
  | nil => simp [EE.Holds]
  | cons x bs ih =>
    simp only [EE.Holds, ih]
    constructor
    · rintro ⟨h1, h2⟩ k b hk
      cases k with
      | zero => simp at hk; rw [Nat.add_zero, h1, hk]
      | succ k =>
        have := h2 k b (by simpa using hk)
        rw [← this]; congr 1; omega
    · intro h
      refine ⟨h 0 x rfl, fun k b hk => ?_⟩
      have := h (k + 1) b (by simpa using hk)
      rw [← this]; congr 1; omega

theorem keeps_iff (mem : EMem) (L : List (List Byte)) : KeepsMessages mem L ↔ EE.Holds mem 0 (EE.enc L) := by
  rw [holds_iff]; simp [KeepsMessages, image, EE.enc]

theorem stored_iff (mem : EMem) (L : List (List Byte)) : HasProgram mem L ↔ EE.Stored mem L := by
  have hlen : (image L).length = eSize L := EE.enc_length L
  constructor
  · intro h
    refine ⟨h.messages, ?_, h.size, ?_⟩
    · rw [← keeps_iff]
      intro k b hk
      have hk' := (List.getElem?_eq_some_iff.1 hk).1
      have := h.size
      refine h.image k b (by omega) ?_
      rw [List.getElem?_append_left hk']; exact hk
    · rw [EE.read]
      split
      · rename_i hs
        refine h.image (eSize L) 0 hs ?_
        rw [List.getElem?_append_right (by omega), hlen]; simp
      · rfl
  · intro h
    refine ⟨h.ok, h.fits, fun k b hk hb => ?_⟩
    rcases Nat.lt_or_ge k (image L).length with hl | hl
    · rw [List.getElem?_append_left hl] at hb
      exact (keeps_iff mem L).2 h.holds k b hb
    · rw [List.getElem?_append_right hl] at hb
      obtain ⟨h1, h2⟩ := List.getElem?_eq_some_iff.1 hb
      simp only [List.length_cons, List.length_nil] at h1
      have hk' : k = eSize L := by omega
      subst hk'
      have := h.term
      rw [EE.read, if_pos (show eSize L < EEPROM_SIZE from hk)] at this
      rw [this]; simpa using h2

/-! ### writes -/

/-- the writes of a history to the storage. -/
def eeWs (tr : List (Act F)) : List (Nat × Byte) := tr.filterMap fun | .eeWrite a b => some (a, b) | _ => none

theorem eeWs_append (a b : List (Act F)) : eeWs (a ++ b) = eeWs a ++ eeWs b := List.filterMap_append

/-- the contents of the storage after a history. -/
def memAfter (m0 : EMem) (tr : List (Act F)) : EMem := EE.writes m0 (eeWs tr)

theorem memAfter_append (m0 : EMem) (a b : List (Act F)) : memAfter m0 (a ++ b) = memAfter (memAfter m0 a) b := by rw [memAfter, eeWs_append, EE.writes_append]; rfl

/-- the storage is read as it is. -/
def ReadsTrue (m0 : EMem) (tr : List (Act F)) : Prop := ∀ pre m post, tr = pre ++ .eeRead m :: post → m = memAfter m0 pre

theorem ReadsTrue.left {m0 : EMem} {a b : List (Act F)} (h : ReadsTrue m0 (a ++ b)) : ReadsTrue m0 a := fun pre m post e => h pre m (post ++ b) (by rw [e]; simp)
theorem ReadsTrue.right {m0 : EMem} {a b : List (Act F)} (h : ReadsTrue m0 (a ++ b)) : ReadsTrue (memAfter m0 a) b := fun pre m post e => by
  rw [← memAfter_append]; exact h (a ++ pre) m post (by rw [e]; simp)

theorem Sys.Run.mem {w0 : World F} {evs : List (Ev F)} {s : Sys F} (h : Sys.Run cfg w0 junk evs s) : s.w.ee = memAfter w0.ee (acts evs) ∧ ReadsTrue w0.ee (acts evs) := by
  induction h with
  | init => exact ⟨rfl, fun pre m post e => by simp [acts] at e⟩
  | @step evs s e t h hs ih =>
    rw [acts_append, memAfter_append, ← ih.1]
    have keep : (∀ m, acts [e] ≠ [.eeRead m]) → (acts [e]).length ≤ 1 → ReadsTrue w0.ee (acts evs ++ acts [e]) := by
      intro hne hl pre m post he
      rcases List.append_eq_append_iff.1 he with ⟨z, h1, h2⟩ | ⟨z, h1, h2⟩
      · exfalso
        cases z with
        | nil =>
          simp only [List.nil_append] at h2
          rw [h2] at hl
          simp at hl
          subst hl
          exact hne m h2
        | cons y z => rw [h2] at hl; simp at hl
      · cases z with
        | nil =>
          exfalso
          simp only [List.nil_append] at h2
          rw [← h2] at hl
          simp at hl
          subst hl
          exact hne m h2.symm
        | cons y z =>
          injection h2 with h2 h3
          subst h2
          exact ih.2 pre m z h1
    cases hs with
    | @eeRead w k =>
      refine ⟨rfl, ?_⟩
      intro pre m post he
      rcases List.eq_nil_or_concat post with rfl | ⟨post', c, rfl⟩
      · obtain ⟨h1, h2⟩ := List.append_inj' he rfl
        injection h2 with h2 _
        injection h2 with h2
        rw [← h1, ← h2]; exact ih.1
      · rw [List.concat_eq_append, ← List.cons_append, ← List.append_assoc] at he
        obtain ⟨h1, h2⟩ := List.append_inj' he rfl
        exact ih.2 pre m post' h1
    | loop => exact ⟨rfl, keep (by simp [acts]) (by simp [acts])⟩
    | isr => exact ⟨rfl, keep (by simp [acts]) (by simp [acts])⟩
    | clock t ht => exact ⟨rfl, keep (by simp [acts]) (by simp [acts])⟩
    | pins f => exact ⟨rfl, keep (by simp [acts]) (by simp [acts])⟩
    | arrive bs => exact ⟨rfl, keep (by simp [acts]) (by simp [acts])⟩
    | out => exact ⟨rfl, keep (by simp [acts]) (by simp [acts])⟩
    | servo => exact ⟨rfl, keep (by simp [acts]) (by simp [acts])⟩
    | micro => exact ⟨rfl, keep (by simp [acts]) (by simp [acts])⟩
    | now => exact ⟨rfl, keep (by simp [acts]) (by simp [acts])⟩
    | pin => exact ⟨rfl, keep (by simp [acts]) (by simp [acts])⟩
    | rxNone hr => exact ⟨rfl, keep (by simp [acts]) (by simp [acts])⟩
    | rxSome hr => exact ⟨rfl, keep (by simp [acts]) (by simp [acts])⟩
    | eeWrite => exact ⟨rfl, keep (by simp [acts]) (by simp [acts])⟩

/-! ### one byte -/

/-- the writes due to a frame. -/
def frameWrites (m0 : EMem) : Frame → List (Nat × Byte)
  | .store m => EE.appendWrites m0 m
  | .erase => [(0, 0)]
  | _ => []

/-- writes so far; `exp`: the ones to come. -/
def writeMon (m0 : EMem) (exp : List (Nat × Byte)) : Mon F (List (Nat × Byte)) where
  upd ws a := match a with | .eeWrite x b => ws ++ [(x, b)] | _ => ws
  env ws a := ∀ m, a = .eeRead m → m = EE.writes m0 ws
  ok ws a := ∀ x b, a = .eeWrite x b → ws ++ [(x, b)] <+: exp

theorem parse_w (m0 : EMem) (exp ws : List (Nat × Byte)) (cfg : Cfg F) (s : Core F) (instr : List Byte) :
    (Mril.parse cfg s instr).wp (writeMon m0 exp) (fun ws' _ => ws' = ws) ws := by
  refine wp_mono (fun _ _ h => h.1) (wp_of_only (parse_only cfg s instr) ws ?_ (fun _ => trivial))
  intro a ha
  match a, ha with
  | .servo _ _, _ | .micro _ _, _ | .now _, _ | .out (.msg (.n0 _)), _ | .out (.msg (.reply _ _)), _ | .out (.raw .comment), _
  | .out (.pinMode _ _), _ | .out (.digitalWrite _ _), _ => exact ⟨rfl, by simp [writeMon]⟩

theorem eeWrites_w (m0 : EMem) (pre ws : List (Nat × Byte)) : (eeWrites ws : Prog F Unit).wp (writeMon m0 (pre ++ ws)) (fun ws' _ => ws' = pre ++ ws) pre := by
  induction ws generalizing pre with
  | nil => simp [eeWrites, wp]
  | cons w ws ih =>
    refine ⟨?_, ?_⟩
    · intro x b e
      injection e with e1 e2
      subst e1 e2
      exact ⟨ws, by simp⟩
    · have := ih (pre ++ [(w.1, w.2)])
      rw [List.append_assoc] at this
      exact this

theorem parseCommand_w (m0 : EMem) (cfg : Cfg F) (s : FW F) (p : List Byte) :
    (Mrcp.parseCommand cfg s p).wp (writeMon m0 (frameWrites m0 (frame p))) (fun ws _ => ws = frameWrites m0 (frame p)) [] := by
  cases p with
  | nil => rfl
  | cons c m =>
    simp only [Mrcp.parseCommand, frame]
    by_cases h66 : c = 66
    · simp only [h66, if_true, wp]
      exact ⟨by simp [writeMon], by simp [writeMon, frameWrites]⟩
    · simp only [h66, if_false]
      by_cases h69 : c = 69
      · simp only [h69, if_true, Mrcp.handOver]
        refine ⟨by simp [writeMon], ?_⟩
        rw [wp_bind]
        exact wp_mono (fun d' c' hd => hd) (parse_w m0 _ [] cfg s.core m)
      · simp only [h69, if_false]
        by_cases h81 : c = 81
        · simp only [h81, if_true]
          by_cases hm0 : m = [] <;> simp [hm0, wp, frameWrites]
        · simp only [h81, if_false]
          by_cases h87 : c = 87
          · simp only [h87, if_true]
            by_cases hm0 : m = []
            · simp only [hm0, if_true, frameWrites]
              refine ⟨?_, rfl⟩
              intro x b e
              injection e with e1 e2
              subst e1 e2
              exact ⟨[], rfl⟩
            · simp only [hm0, if_false, frameWrites]
              intro mem hmem
              have hmem : mem = m0 := hmem mem rfl
              subst hmem
              have hgo : ((eeWrites (EE.appendWrites mem m) : Prog F Unit).bind fun _ => .ret { s with mode := .eeprom }).wp (writeMon mem (EE.appendWrites mem m))
                  (fun ws _ => ws = EE.appendWrites mem m) [] := by
                rw [wp_bind]
                exact wp_mono (fun _ _ h => h) (eeWrites_w mem [] _)
              show Prog.wp _ (if _ then _ else _) _ []
              split
              · exact ⟨by simp [writeMon], hgo⟩
              · exact hgo
          · simp only [h87, if_false]
            simp [wp, frameWrites]

/-- the writes due to one more byte. -/
def byteWrites (m0 : EMem) (line : List Byte) (b : Byte) : List (Nat × Byte) := if b = 13 ∧ overlong line = false then frameWrites m0 (frame (payload line)) else []

theorem parseChar_w (m0 : EMem) (cfg : Cfg F) (s : FW F) (line : List Byte) (b : Byte) (hl : s.framer.At line) :
    (Mrcp.parseChar cfg s b).wp (writeMon m0 (byteWrites m0 line b)) (fun ws _ => ws = byteWrites m0 line b ∧ (b = 13 → (payload line).length < 79)) [] := by
  simp only [Mrcp.parseChar]
  by_cases hb13 : b = 13
  · subst hb13
    obtain ⟨h1, h2⟩ := Framer.at_cr hl
    rw [h2]
    by_cases hl : (payload line).length + 1 ≥ 80
    · rw [if_pos hl]; trivial
    · rw [if_neg hl]
      by_cases ho : overlong line = true
      · simp only [ho, byteWrites, if_true, List.nil_append, Mrcp.events, wp]
        exact ⟨by simp, by omega⟩
      · simp only [Bool.not_eq_true] at ho
        simp only [ho, byteWrites, and_self, if_true]
        simp only [List.nil_append, Bool.false_eq_true, if_false, Mrcp.events]
        rw [bind_ret]
        exact wp_mono (fun _ _ h => ⟨h, by omega⟩) (parseCommand_w m0 cfg { s with framer := (s.framer.step 13).1 } (payload line))
  · obtain ⟨h1, h2⟩ := Framer.at_step hl b hb13
    refine events_oob_wp (fun _ => trivial) cfg _ _ _ h2 (fun _ => ?_)
    simp [byteWrites, hb13]

theorem foldl_w (m0 : EMem) (exp : List (Nat × Byte)) (tr : List (Act F)) (ws : List (Nat × Byte)) : tr.foldl (writeMon (F := F) m0 exp).upd ws = ws ++ eeWs tr := by
  induction tr generalizing ws with
  | nil => simp [eeWs]
  | cons a tr ih =>
    rw [List.foldl_cons, ih, show a :: tr = [a] ++ tr from rfl, eeWs_append, ← List.append_assoc]
    congr 1
    cases a <;> simp [writeMon, eeWs]

/-- what one byte does to the storage, completely or cut short. -/
theorem char_w {m0 : EMem} {s : FW F} {line : List Byte} {b : Byte} {t : List (Act F)} {p : Prog F (FW F)} (hl : s.framer.At line) (e : Exec (Mrcp.parseChar cfg s b) t p) (hr : ReadsTrue m0 t) :
    eeWs t <+: byteWrites m0 line b ∧ ∀ s', p = .ret s' → eeWs t = byteWrites m0 line b ∧ (b = 13 → (payload line).length < 79) := by
  have hw := wp_exec e (parseChar_w m0 cfg s line b hl) (by
    intro pre a post e' ha m hm
    subst hm
    rw [foldl_w]
    exact hr pre m post e')
  constructor
  · have : ∀ (u v : List (Act F)), t = u ++ v → eeWs u <+: byteWrites m0 line b := by
      intro u
      generalize hl : u.length = l
      induction l generalizing u with
      | zero => intro v _; rw [List.length_eq_zero_iff] at hl; subst hl; exact List.nil_prefix
      | succ l ih =>
        intro v e2
        obtain ⟨u, a, rfl⟩ : ∃ x a, u = x ++ [a] := by
          rcases List.eq_nil_or_concat u with rfl | ⟨x, a, rfl⟩
          · cases hl
          · exact ⟨x, a, by simp⟩
        have i := ih u (by simpa using hl) (a :: v) (by rw [e2]; simp)
        rw [eeWs_append]
        by_cases ha : ∃ x y, a = .eeWrite x y
        · obtain ⟨x, y, rfl⟩ := ha
          have := hw.1 u _ v (by rw [e2]; simp) rfl x y rfl
          rw [foldl_w] at this
          exact this
        · have : eeWs [a] = [] := by
            match a, ha with
            | .eeWrite x y, ha => exact absurd ⟨x, y, rfl⟩ ha
            | .rx _, _ | .eeRead _, _ | .out _, _ | .servo _ _, _ | .micro _ _, _ | .now _, _ | .pin _ _, _ => rfl
          rw [this, List.append_nil]; exact i
    exact this t [] (by simp)
  · rintro s' rfl
    have := hw.2
    rw [foldl_w] at this
    exact this

/-! ### the other phases write nothing -/

theorem no_writes {α : Type} {K : Act F → Prop} {R : α → Prop} {p q : Prog F α} {t : List (Act F)} (e : Exec p t q) (h : p.only K R) (hK : ∀ a, K a → eeWs [a] = []) : eeWs t = [] := by
  have := (only_exec e h).1
  rw [eeWs, List.filterMap_eq_nil_iff]
  intro a ha
  have h1 := hK a (this a ha)
  match a, h1 with
  | .rx _, _ | .eeRead _, _ | .out _, _ | .servo _ _, _ | .micro _ _, _ | .now _, _ | .pin _ _, _ => rfl

theorem proc_w {s : FW F} {t : List (Act F)} {p : Prog F (FW F)} (e : Exec (Mrcp.process cfg s) t p) : eeWs t = [] ∧ rxBytes t = [] := by
  have ho : (Mrcp.process cfg s).only (fun a => eeWs [a] = [] ∧ rxBytes [a] = []) (fun _ => True) := by
    have hand : ∀ (src : Src) (s : FW F) (m : List Byte), (Mrcp.handOver cfg src s m).only (fun a => eeWs [a] = [] ∧ rxBytes [a] = []) (fun _ => True) := by
      intro src s m
      refine ⟨⟨rfl, rfl⟩, ?_⟩
      rw [only_bind]
      refine only_mono ?_ (fun _ _ => trivial) (parse_only cfg s.core m)
      intro a ha
      match a, ha with
      | .servo _ _, _ | .micro _ _, _ | .now _, _ | .out (.msg (.n0 _)), _ | .out (.msg (.reply _ _)), _ | .out (.raw .comment), _
      | .out (.pinMode _ _), _ | .out (.digitalWrite _ _), _ => exact ⟨rfl, rfl⟩
    rw [Mrcp.process]
    split
    · trivial
    · split
      · split
        · split
          · refine ⟨⟨rfl, rfl⟩, ?_⟩
            generalize s.rb.getMessage = x
            obtain ⟨m, rb⟩ := x
            show Prog.only _ _ (if _ then _ else _)
            split
            · trivial
            · exact hand _ _ _
          · trivial
        · intro mem
          show _ ∧ Prog.only _ _ (match EE.getNextMessage mem s.eePtr with | (m, ptr) => if m.length > INPUT_BUFFER_SIZE then .fault .oobWrite else if m.length ≠ 0 then Mrcp.handOver cfg .eeprom { s with eePtr := ptr } m else .ret { s with eePtr := ptr })
          refine ⟨⟨rfl, rfl⟩, ?_⟩
          generalize EE.getNextMessage mem s.eePtr = x
          obtain ⟨m, ptr⟩ := x
          show Prog.only _ _ (if _ then _ else if _ then _ else _)
          split
          · trivial
          · split
            · exact hand _ _ _
            · trivial
        · trivial
      · trivial
  refine ⟨no_writes e ho (fun a ha => ha.1), ?_⟩
  have := (only_exec e ho).1
  rw [rxBytes, List.filterMap_eq_nil_iff]
  intro a ha
  have h1 := (this a ha).2
  match a, h1 with
  | .rx none, _ | .eeRead _, _ | .out _, _ | .servo _ _, _ | .micro _ _, _ | .now _, _ | .pin _ _, _ | .eeWrite _ _, _ => rfl

theorem quiet_w {α : Type} {K : Act F → Prop} {R : α → Prop} {p q : Prog F α} {t : List (Act F)} (e : Exec p t q) (h : p.only K R) (hK : ∀ a, K a → eeWs [a] = [] ∧ rxBytes [a] = []) : eeWs t = [] ∧ rxBytes t = [] := by
  refine ⟨no_writes e h (fun a ha => (hK a ha).1), ?_⟩
  have := (only_exec e h).1
  rw [rxBytes, List.filterMap_eq_nil_iff]
  intro a ha
  have h1 := (hK a (this a ha)).2
  match a, h1 with
  | .rx none, _ | .eeRead _, _ | .out _, _ | .servo _ _, _ | .micro _ _, _ | .now _, _ | .pin _ _, _ | .eeWrite _ _, _ => rfl

theorem rc_w {s : FW F} {t : List (Act F)} {p : Prog F (FW F)} (e : Exec (rcProcess cfg s) t p) : eeWs t = [] ∧ rxBytes t = [] := by
  refine quiet_w (K := rcAct) (R := fun _ => True) e ?_ ?_
  · rw [rcProcess, only_bind]
    exact only_mono (fun _ h => h) (fun _ _ => trivial) (RC.process_only cfg.toRCfg s.core.rc)
  · intro a ha
    match a, ha with
    | .servo _ _, _ | .micro _ _, _ | .out (.raw _), _ => exact ⟨rfl, rfl⟩

theorem check_w {c : Core F} {t : List (Act F)} {p : Prog F (Core F)} (e : Exec (Mril.process c) t p) : eeWs t = [] ∧ rxBytes t = [] := by
  refine quiet_w e (mrilProcess_only c) ?_
  intro a ha
  match a, ha with
  | .pin _ _, _ | .now _, _ | .out (.msg (.n1 _)), _ => exact ⟨rfl, rfl⟩

theorem setup_w {t : List (Act F)} {p : Prog F (FW F)} (e : Exec (setup cfg junk) t p) : eeWs t = [] ∧ rxBytes t = [] := by
  refine quiet_w (K := fun a => eeWs [a] = [] ∧ rxBytes [a] = []) (R := fun _ => True) e ?_ (fun _ h => h)
  simp only [setup, RC.new, RC.getCurrentPose, RC.getCurrentLogicalAngles, RC.readAngles, readServo, bind_def, pure_def, Prog.bind, Prog.only]
  simp [eeWs, rxBytes]

theorem char_rx {s : FW F} {b : Byte} {t : List (Act F)} {p : Prog F (FW F)} (e : Exec (Mrcp.parseChar cfg s b) t p) : rxBytes t = [] := by
  have ho : ∀ es (s : FW F), (Mrcp.events cfg s es).only (fun a => rxBytes [a] = []) (fun _ => True) := by
    intro es
    induction es with
    | nil => intro s; trivial
    | cons x es ih =>
      intro s
      cases x with
      | oob => trivial
      | cmd p =>
        show ((Mrcp.parseCommand cfg s p).bind fun s => Mrcp.events cfg s es).only _ _
        rw [only_bind]
        refine only_mono ?_ (fun s _ => ih s) (parseCommand_only cfg s p)
        rintro a (ha | ⟨n, rfl⟩ | ⟨m, rfl⟩ | ⟨m, rfl⟩ | ⟨x, y, rfl⟩ | ⟨r, rfl⟩) <;> try rfl
        match a, ha with
        | .servo _ _, _ | .micro _ _, _ | .now _, _ | .out (.msg (.n0 _)), _ | .out (.msg (.reply _ _)), _ | .out (.raw .comment), _
        | .out (.pinMode _ _), _ | .out (.digitalWrite _ _), _ => rfl
  have h := ho (s.framer.step b).2 { s with framer := (s.framer.step b).1 }
  have := (only_exec (show Exec (Mrcp.events cfg { s with framer := (s.framer.step b).1 } (s.framer.step b).2) t p from e) h).1
  rw [rxBytes, List.filterMap_eq_nil_iff]
  intro a ha
  have h1 := this a ha
  match a, h1 with
  | .rx none, _ | .eeRead _, _ | .out _, _ | .servo _ _, _ | .micro _ _, _ | .now _, _ | .pin _ _, _ | .eeWrite _ _, _ => rfl

/-! ### the program -/

theorem eRun_append (L : List (List Byte)) (a b : List EOp) : (eRun L (a ++ b)).1 = (eRun (eRun L a).1 b).1 := by
  induction a generalizing L with
  | nil => rfl
  | cons o a ih => simp only [List.cons_append, eRun, ih]

/-- the requests due to one more byte. -/
def byteOps (line : List Byte) (b : Byte) : List EOp :=
  if b = 13 ∧ overlong line = false then (match frame (payload line) with | .store m => [.append m] | .erase => [.clear] | _ => []) else []

theorem storeOps_snoc (r : List Byte) (b : Byte) : storeOps (r ++ [b]) = storeOps r ++ byteOps (tail r) b := by
  rw [storeOps, decode_snoc, List.filterMap_append, ← storeOps, completed, byteOps]
  congr 1
  by_cases h : b = 13 ∧ overlong (tail r) = false
  · rw [if_pos h, if_pos h, List.filterMap_cons]
    cases frame (payload (tail r)) <;> rfl
  · rw [if_neg h, if_neg h]; rfl

theorem program_snoc (L : List (List Byte)) (r : List Byte) (b : Byte) : program L (r ++ [b]) = (eRun (program L r) (byteOps (tail r) b)).1 := by
  rw [program, program, ← eRun_append, storeOps_snoc]

theorem store_len {p m : List Byte} (h : frame p = .store m) : m ≠ [] ∧ m.length + 1 = p.length := by
  cases p with
  | nil => cases h
  | cons c q =>
    simp only [frame] at h
    split at h
    · cases h
    · split at h
      · cases h
      · split at h
        · split at h <;> cases h
        · split at h
          · split at h
            · cases h
            · injection h with h; subst h; exact ⟨by assumption, by simp⟩
          · cases h

/-- one byte. -/
theorem byte_stored {m0 : EMem} {L : List (List Byte)} (h : EE.Stored m0 L) (line : List Byte) (b : Byte) (hl : b = 13 → (payload line).length < 79) :
    EE.Stored (EE.writes m0 (byteWrites m0 line b)) (eRun L (byteOps line b)).1 := by
  rw [byteWrites, byteOps]
  by_cases hb : b = 13 ∧ overlong line = false
  · rw [if_pos hb, if_pos hb]
    have hl := hl hb.1
    cases hf : frame (payload line) with
    | store m =>
      obtain ⟨h1, h2⟩ := store_len hf
      exact EE.append_stored h m ⟨h1, by omega⟩
    | erase => exact EE.clear_stored m0
    | _ => exact h
  · rw [if_neg hb, if_neg hb]; exact h

theorem Mark.stored {m0 : EMem} {L : List (List Byte)} (h0 : EE.Stored m0 L) {tr : List (Act F)} {s : FW F} (h : Mark cfg junk tr s) (hr : ReadsTrue m0 tr) :
    EE.Stored (memAfter m0 tr) (program L (rxBytes tr)) := by
  induction h with
  | setup e => rw [memAfter, (setup_w e).1, (setup_w e).2]; exact h0
  | rc h e ih => rw [memAfter_append, memAfter, rxBytes_append, (rc_w e).1, (rc_w e).2, List.append_nil]; exact ih hr.left
  | none h ih => rw [memAfter_append, rxBytes_append]; have := ih hr.left; simpa [memAfter, eeWs, rxBytes, EE.writes] using this
  | check h e ih => rw [memAfter_append, memAfter, rxBytes_append, (check_w e).1, (check_w e).2, List.append_nil]; exact ih hr.left
  | proc h e ih => rw [memAfter_append, memAfter, rxBytes_append, (proc_w e).1, (proc_w e).2, List.append_nil]; exact ih hr.left
  | @char tr s b t s' h e ih =>
    have hl := h.agrees.line
    rw [after_line] at hl
    have hrt : ReadsTrue (memAfter m0 tr) t := by
      have := hr.right
      rw [show Act.rx (some b) :: t = [.rx (some b)] ++ t from rfl] at this
      exact this.right
    obtain ⟨hw, hlen⟩ := (char_w (m0 := memAfter m0 tr) hl e hrt).2 s' rfl
    have h1 : memAfter m0 (tr ++ .rx (some b) :: t) = EE.writes (memAfter m0 tr) (byteWrites (memAfter m0 tr) (tail (rxBytes tr)) b) := by
      rw [memAfter_append, memAfter, ← hw]; rfl
    have h2 : rxBytes (tr ++ .rx (some b) :: t) = rxBytes tr ++ [b] := by
      rw [rxBytes_append]
      show rxBytes tr ++ b :: rxBytes t = _
      rw [char_rx e]
    rw [h1, h2, program_snoc]
    exact byte_stored (ih hr.left) _ b hlen


/-! ### power cuts -/

theorem appendWrites_ge {m0 : EMem} {L : List (List Byte)} (h : EE.Stored m0 L) (x : List Byte) : ∀ w ∈ EE.appendWrites m0 x, eSize L ≤ w.1 := by
  intro w hw
  simp only [EE.appendWrites, EE.scan_stored h] at hw
  split at hw
  · cases hw
  · simp only [List.mem_append, List.mem_cons, List.mem_map, List.not_mem_nil, or_false] at hw
    rcases hw with (rfl | ⟨⟨b, i⟩, hz, rfl⟩) | rfl
    · exact Nat.le_refl _
    · have := List.le_snd_of_mem_zipIdx hz
      simp only at this ⊢; omega
    · show eSize L ≤ eSize L + 1 + x.length; omega

theorem keeps_prefix {m0 : EMem} {L : List (List Byte)} (h : EE.Stored m0 L) {x : List Byte} {ws : List (Nat × Byte)} (hp : ws <+: EE.appendWrites m0 x) :
    KeepsMessages (EE.writes m0 ws) L := by
  rw [keeps_iff]
  refine EE.holds_congr (fun j _ hj => EE.writes_below (fun w hw => appendWrites_ge h x w (hp.subset hw)) j ?_) h.holds
  simpa [EE.enc_length] using hj

/-- the storage at an arbitrary point. -/
def Intact (mem : EMem) (L : List (List Byte)) (r : List Byte) : Prop :=
  ∃ r', (r' = r ∨ r = r' ++ [13]) ∧ (HasProgram mem (program L r') ∨ (∃ m, storeOps r = storeOps r' ++ [.append m]) ∧ KeepsMessages mem (program L r'))

theorem Cut.intact {m0 : EMem} {L : List (List Byte)} (h0 : EE.Stored m0 L) {tr : List (Act F)} (h : Cut cfg junk tr) (hr : ReadsTrue m0 tr) :
    Intact (memAfter m0 tr) L (rxBytes tr) := by
  have same : ∀ {tr t : List (Act F)}, EE.Stored (memAfter m0 tr) (program L (rxBytes tr)) → eeWs t = [] ∧ rxBytes t = [] → Intact (memAfter m0 (tr ++ t)) L (rxBytes (tr ++ t)) := by
    intro tr t h e
    rw [memAfter_append, memAfter, rxBytes_append, e.1, e.2, List.append_nil]
    exact ⟨_, .inl rfl, .inl ((stored_iff _ _).2 h)⟩
  cases h with
  | setup e => rw [memAfter, (setup_w e).1, (setup_w e).2]; exact ⟨_, .inl rfl, .inl ((stored_iff _ _).2 h0)⟩
  | rc h e => exact same (h.stored h0 hr.left) (rc_w e)
  | here h => exact ⟨_, .inl rfl, .inl ((stored_iff _ _).2 (h.stored h0 hr))⟩
  | check h e => exact same (h.stored h0 hr.left) (check_w e)
  | proc h e => exact same (h.stored h0 hr.left) (proc_w e)
  | @char tr s b t p h e =>
    have hst := h.stored h0 hr.left
    have hl := h.agrees.line
    rw [after_line] at hl
    have hrt : ReadsTrue (memAfter m0 tr) t := by
      have := hr.right
      rw [show Act.rx (some b) :: t = [.rx (some b)] ++ t from rfl] at this
      exact this.right
    have hw := (char_w (m0 := memAfter m0 tr) hl e hrt).1
    have h1 : memAfter m0 (tr ++ .rx (some b) :: t) = EE.writes (memAfter m0 tr) (eeWs t) := by rw [memAfter_append, memAfter]; rfl
    have h2 : rxBytes (tr ++ .rx (some b) :: t) = rxBytes tr ++ [b] := by
      rw [rxBytes_append]
      show rxBytes tr ++ b :: rxBytes t = _
      rw [char_rx e]
    rw [h1, h2]
    by_cases hb : b = 13 ∧ overlong (tail (rxBytes tr)) = false
    · obtain ⟨rfl, ho⟩ := hb
      rw [byteWrites, if_pos ⟨rfl, ho⟩] at hw
      have hops := storeOps_snoc (rxBytes tr) 13
      rw [byteOps, if_pos ⟨rfl, ho⟩] at hops
      have hpr : frame (payload (tail (rxBytes tr))) = .erase → program L (rxBytes tr ++ [13]) = [] := by
        intro hf
        rw [program_snoc, byteOps, if_pos ⟨rfl, ho⟩, hf]; rfl
      cases hf : frame (payload (tail (rxBytes tr))) with
      | store m =>
        rw [hf] at hw hops
        exact ⟨_, .inr rfl, .inr ⟨⟨m, hops⟩, keeps_prefix hst hw⟩⟩
      | erase =>
        rw [hf] at hw
        have hw : eeWs t <+: [(0, 0)] := hw
        rcases List.prefix_cons_iff.1 hw with e' | ⟨u, e', hu⟩
        · rw [e']; exact ⟨_, .inr rfl, .inl ((stored_iff _ _).2 hst)⟩
        · rw [List.prefix_nil] at hu
          subst hu
          rw [e']
          refine ⟨_, .inl rfl, .inl ((stored_iff _ _).2 ?_)⟩
          rw [hpr hf]
          exact EE.clear_stored _
      | _ =>
        rw [hf] at hw
        have hw : eeWs t <+: [] := hw
        rw [List.prefix_nil] at hw
        rw [hw]
        exact ⟨_, .inr rfl, .inl ((stored_iff _ _).2 hst)⟩
    · rw [byteWrites, if_neg hb, List.prefix_nil] at hw
      rw [hw]
      refine ⟨_, .inl rfl, .inl ((stored_iff _ _).2 ?_)⟩
      rw [program_snoc, byteOps, if_neg hb]
      exact hst

end Mrc
