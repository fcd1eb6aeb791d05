import Verif.Spec.ReadOff
import Verif.Props.Reading
import Verif.Props.ReadBack
import Verif.Props.Host
/-
C124: what a host reads in the bytes it receives after a question agrees with what the move told.
-/
set_option linter.unusedSectionVars false
namespace Mrc.Props
open Mrc Mrc.Prog Mrc.Spec Mrc.Rest

/-- after a line the host is outside of frames. -/
theorem skim_line (l : List Byte) : (∃ pre, ∀ rest, skim none (l ++ 13 :: 10 :: rest) = pre ++ skim none rest) ∧ ∀ t, ∃ pre, ∀ rest, skim (some t) (l ++ 13 :: 10 :: rest) = pre ++ skim none rest := by
  induction l with
  | nil =>
    refine ⟨⟨[], fun rest => by simp [skim]⟩, fun t => ⟨[t], fun rest => ?_⟩⟩
    simp [skim]
  | cons b l ih =>
    refine ⟨?_, fun t => ?_⟩
    · by_cases hb : b = 58
      · obtain ⟨pre, h⟩ := ih.2 []
        exact ⟨pre, fun rest => by rw [List.cons_append, skim, if_pos hb, h]⟩
      · obtain ⟨pre, h⟩ := ih.1
        exact ⟨pre, fun rest => by rw [List.cons_append, skim, if_neg hb, h]⟩
    · by_cases hb : b = 10 ∧ t.getLast? = some 13
      · obtain ⟨pre, h⟩ := ih.1
        exact ⟨t.dropLast :: pre, fun rest => by rw [List.cons_append, skim, if_pos hb, h, List.cons_append]⟩
      · obtain ⟨pre, h⟩ := ih.2 (t ++ [b])
        exact ⟨pre, fun rest => by rw [List.cons_append, skim, if_neg hb, h]⟩

section
variable {F : Type} [FloatOps F]

/-- everything sent consists of lines. -/
theorem wire_line (fl : F → List Byte) (o : Out F) : Out.wire fl o = [] ∨ ∃ l, Out.wire fl o = l ++ [13, 10] := by
  cases o with
  | msg m => exact .inr ⟨58 :: m.text fl, rfl⟩
  | raw r => cases r <;> exact .inr ⟨_, rfl⟩
  | _ => exact .inl rfl

theorem skim_outs (fl : F → List Byte) (os : List (Out F)) : ∃ pre, ∀ rest, skim none (os.flatMap (Out.wire fl) ++ rest) = pre ++ skim none rest := by
  induction os with
  | nil => exact ⟨[], fun rest => rfl⟩
  | cons o os ih =>
    obtain ⟨pre, h⟩ := ih
    rcases wire_line fl o with e | ⟨l, e⟩
    · exact ⟨pre, fun rest => by rw [List.flatMap_cons, e, List.nil_append, h]⟩
    · obtain ⟨p1, h1⟩ := (skim_line l).1
      refine ⟨p1 ++ pre, fun rest => ?_⟩
      rw [List.flatMap_cons, e, List.append_assoc, List.append_assoc]
      show skim none (l ++ 13 :: 10 :: (os.flatMap (Out.wire fl) ++ rest)) = _
      rw [h1, h, List.append_assoc]

/-- **C124**: in every history, when a message has been sent, the last frame a host finds is this message. Error texts do not matter, numbers printed in any way without ':' CR LF. -/
theorem C124_last {cfg : Cfg F} {junk : Nat → Byte} {tr : List (Act F)} {m : Msg F} {p : Prog F (FW F)} (h : Trace cfg junk (tr ++ [.out (.msg m)]) p) (fl : F → List Byte)
    (hfl : ∀ x, ∀ b ∈ fl x, b ≠ 58 ∧ b ≠ 13 ∧ b ≠ 10) : (skim none ((outs (tr ++ [.out (.msg m)])).flatMap (Out.wire fl))).getLast? = some (m.text fl) := by
  obtain ⟨pre, hp⟩ := skim_outs fl (outs tr)
  have hg : GoodMsg m := msgs_good h m (by simp [msgs])
  have e : outs (tr ++ [.out (.msg m)]) = outs tr ++ [.msg m] := by simp [outs]
  rw [e, List.flatMap_append, hp]
  have : [Out.msg m].flatMap (Out.wire fl) = 58 :: (m.text fl ++ 13 :: 10 :: []) := by simp [Out.wire, Msg.wire]
  rw [this, skim, if_pos rfl, skim_text _ _ _ (clean_msg fl hfl m hg) (by intro b hb; simp at hb)]
  simp [skim]
end

/-- a printer to two decimals. -/
noncomputable def print2 : XR → List Byte
  | .fin x => (if x < 0 then [45] else []) ++ natStr (⌊|x| * 100 + 1 / 2⌋₊ / 100) ++ [46, digitChar ⟨⌊|x| * 100 + 1 / 2⌋₊ / 10 % 10, by omega⟩, digitChar ⟨⌊|x| * 100 + 1 / 2⌋₊ % 10, by omega⟩]
  | .nan => str "nan"
  | .inf n => if n then str "-inf" else str "inf"

theorem print2_fin (x : ℝ) : ∃ d : Dec, d.ip ≠ [] ∧ (∃ a b, d.fp = some [a, b]) ∧ print2 (.fin x) = d.text ∧ |(d.val : ℝ) - x| ≤ 1 / 200 := by
  classical
  set n := ⌊|x| * 100 + 1 / 2⌋₊ with hn
  obtain ⟨ds, h1, h2, h3⟩ := natStr_digits (n / 100)
  refine ⟨⟨decide (x < 0), ds, some [⟨n / 10 % 10, by omega⟩, ⟨n % 10, by omega⟩]⟩, h1, ⟨_, _, rfl⟩, ?_, ?_⟩
  · show (if x < 0 then [45] else []) ++ natStr (n / 100) ++ [46, digitChar ⟨n / 10 % 10, _⟩, digitChar ⟨n % 10, _⟩] = _
    rw [h2]
    by_cases hx : x < 0 <;> simp [Dec.text, hx]
  · have a1 := Nat.floor_le (show (0 : ℝ) ≤ |x| * 100 + 1 / 2 by positivity)
    have a2 := Nat.lt_floor_add_one (|x| * 100 + 1 / 2)
    rw [← hn] at a1 a2
    have hv : (n / 100 : ℕ) * 100 + (n / 10 % 10) * 10 + n % 10 = n := by omega
    have hr : ((n / 100 : ℕ) : ℝ) + ((n / 10 % 10 : ℕ) * 10 + (n % 10 : ℕ) : ℝ) / 100 = n / 100 := by
      have : (((n / 100 : ℕ) * 100 + (n / 10 % 10) * 10 + n % 10 : ℕ) : ℝ) = n := by rw [hv]
      push_cast at this ⊢
      linarith
    have hd : ((Dec.val ⟨decide (x < 0), ds, some [⟨n / 10 % 10, by omega⟩, ⟨n % 10, by omega⟩]⟩ : ℚ) : ℝ) = if x < 0 then -((n : ℝ) / 100) else (n : ℝ) / 100 := by
      rw [← hr]
      by_cases hx : x < 0
      · simp only [Dec.val, natVal, h3, hx, decide_true, if_true]
        push_cast; norm_num
      · simp only [Dec.val, natVal, h3, hx, decide_false, Bool.false_eq_true, if_false]
        push_cast; norm_num
    rw [hd]
    split
    · rename_i hx
      rw [abs_of_neg hx] at a1 a2
      rw [abs_le]; constructor <;> linarith
    · rename_i hx
      rw [abs_of_nonneg (not_lt.1 hx)] at a1 a2
      rw [abs_le]; constructor <;> linarith

/-- there is such a printer. -/
theorem print2_good : TwoDecimals print2 where
  near x := by
    obtain ⟨d, h1, h2, h3, h4⟩ := print2_fin x
    exact ⟨d.val, ⟨d, h1, h2, h3, rfl⟩, h4⟩
  clean x := by
    cases x with
    | fin x =>
      obtain ⟨d, h1, ⟨a, b, h2⟩, h3, _⟩ := print2_fin x
      rw [h3]
      have hdig : ∀ d : Fin 10, digitChar d ≠ 58 ∧ digitChar d ≠ 13 ∧ digitChar d ≠ 10 := by decide
      intro c hc
      simp only [Dec.text, h2, List.mem_append, List.mem_cons, List.mem_map, List.not_mem_nil, or_false] at hc
      rcases hc with (hc | ⟨k, _, rfl⟩) | rfl | ⟨k, _, rfl⟩
      · split at hc
        · rw [List.mem_singleton.1 hc]; decide
        · cases hc
      · exact hdig k
      · decide
      · exact hdig k
    | nan => have : ∀ b ∈ str "nan", b ≠ 58 ∧ b ≠ 13 ∧ b ≠ 10 := by decide
             exact this
    | inf n => have : ∀ n : Bool, ∀ b ∈ (if n then str "-inf" else str "inf"), b ≠ 58 ∧ b ≠ 13 ∧ b ≠ 10 := by decide
               exact this n

section
variable {w0 : World XR} (hw : w0.servos = Kit.servos) {junk : Nat → Byte} {σ : ℕ → Sys XR} {ev : ℕ → Ev XR} (h : Endless Kit.cfg w0 junk σ ev)
  (hmem : CarefulStorage w0.ee) (hc : ∀ n, WellSent (w0.rxq ++ arrivals (sofar ev n))) {fl : XR → List Byte} (hfl : TwoDecimals fl)
include hw h hmem hc hfl

/-- **C124**: the kit over the exact numbers, a careful host. When an answer has been sent, the host reads it in the bytes received: the names of its parts and their values, to half of the second
decimal. -/
theorem C124_read {j : ℕ} {num : Option Int} {ps : List (Part XR)} (hj : ev j = .act (.out (.msg (.reply num ps)))) :
    ∃ v : XR → ℚ, (∀ x : ℝ, |(v (.fin x) : ℝ) - x| ≤ 1 / 200) ∧ (∀ p ∈ ps, PartFin p) ∧ (∀ p ∈ ps, GoodPart p) ∧
      lastRead (received fl ev (j + 1)) = some (.answer num (ps.map (Part.field v))) := by
  choose r hr1 hr2 using hfl.near
  have e : acts (sofar ev (j + 1)) = acts (sofar ev j) ++ [.out (.msg (.reply num ps))] := by
    simp [sofar, List.range_succ, hj, acts]
  have ht := (h.run (j + 1)).trace
  have hfin := (C81_kit hw hmem (h.run (j + 1)) (hc (j + 1))).2.2.2 num ps (by rw [e]; simp)
  have hg : GoodMsg (.reply num ps) := msgs_good ht _ (by rw [e]; simp [msgs])
  rw [e] at ht
  refine ⟨fun x => match x with | .fin x => r x | _ => 0, fun x => hr2 x, hfin, hg, ?_⟩
  rw [lastRead, received, e, C124_last ht fl hfl.clean]
  refine C97_text fl _ _ hg fun n q eq p hp => ?_
  cases eq
  have := hfin p hp
  cases p with
  | method c => trivial
  | velocity x => obtain ⟨y, rfl⟩ := this; exact hr1 y
  | pose s x => obtain ⟨y, rfl⟩ := this; exact hr1 y
  | angle o x => obtain ⟨y, rfl⟩ := this; exact hr1 y

/-- what was said, read. -/
theorem says_read {j : ℕ} {num : Option Int} {ps : List (Part XR)} (hj : ev j = .act (.out (.msg (.reply num ps)))) {A : Fin 6 → ℝ} {T : Fin 3 → ℝ} {e p : ℝ} (hs : ∀ q ∈ ps, Says A T e p q)
    {names : List (List Byte × Option Nat)} (hn : ps.map Part.tag = names) :
    ∃ vs, lastRead (received fl ev (j + 1)) = some (.answer num vs) ∧ vs.map Prod.fst = names.map Prod.fst ∧ TellsBack A T (e + 1 / 200) (p + 1 / 200) vs := by
  obtain ⟨v, h1, h2, h3, h4⟩ := C124_read hw h hmem hc hfl hj
  have hdig : ∀ (i : Fin 6) (o : Fin 8), UInt8.ofNat (48 + o.val) = digitChar ⟨i.val, by omega⟩ → o.val = i.val := by decide
  have hne : ∀ i : Fin 3, poseLetter ⟨i.val, by omega⟩ ≠ 77 ∧ poseLetter ⟨i.val, by omega⟩ ≠ 86 := by decide
  refine ⟨_, h4, ?_, ?_, ?_⟩
  · rw [← hn, List.map_map, List.map_map]
    refine List.map_congr_left fun q _ => ?_
    cases q <;> rfl
  · intro i x hx
    obtain ⟨q, hq, eq⟩ := List.mem_map.1 hx
    cases q with
    | method c => simp [Part.field] at eq
    | velocity c => simp [Part.field] at eq
    | pose c d => simp [Part.field] at eq
    | angle o y =>
      simp only [Part.field, Prod.mk.injEq, List.cons.injEq, true_and, and_true] at eq
      obtain ⟨e1, rfl⟩ := eq
      obtain ⟨g1, g2⟩ := hs _ hq
      obtain ⟨z, rfl, g3⟩ := g2 i (hdig i ⟨o, g1⟩ e1)
      have := h1 z
      rw [abs_le] at this
      rw [abs_lt] at g3 ⊢
      constructor <;> linarith
  · intro i x hx
    obtain ⟨q, hq, eq⟩ := List.mem_map.1 hx
    cases q with
    | method c => simp only [Part.field, Prod.mk.injEq, List.cons.injEq, and_true] at eq; exact absurd eq.1.symm (hne i).1
    | velocity c => simp only [Part.field, Prod.mk.injEq, List.cons.injEq, and_true] at eq; exact absurd eq.1.symm (hne i).2
    | angle c d => simp [Part.field] at eq
    | pose s y =>
      simp only [Part.field, Prod.mk.injEq, List.cons.injEq, and_true] at eq
      obtain ⟨e1, rfl⟩ := eq
      obtain ⟨z, rfl, g3⟩ := hs _ hq i e1
      have := h1 z
      rw [abs_le] at this
      rw [abs_lt] at g3 ⊢
      constructor <;> linarith
end

section
variable {w0 : World XR} (hw : w0.servos = Kit.servos) {junk : Nat → Byte} {σ : ℕ → Sys XR} {ev : ℕ → Ev XR} (h : Endless Kit.cfg w0 junk σ ev)
  (hmem : BriskStorage w0.ee) (hc : ∀ n, BrisklySent (w0.rxq ++ arrivals (sofar ev n))) (hu : Unbroken ev) (hi : CalmImmediates ev) {fl : XR → List Byte} (hfl : TwoDecimals fl)
include hw h hmem hc hu hi hfl

/-- **C124**, angles told (the setting of C117_told): the host asks after the move and reads the angles told, to 0.012 degrees, and the position where they put the tool, to 0.017 units. -/
theorem C124_told {k0 k q : ℕ} {src : Src} {cs : List Cmd} (hb : ev k0 = .act (.out (.ghost src (text cs)))) (hst : src ≠ .immediate ∨ CalmAt ev k0) (ht : TellsAngles cs) (hM : Chooses 48 cs)
    {d : Fin 6 → Dec} (hd : ∀ i, Last NamesAngle cs i (d i)) (hfit : KitFits fun i => radians (d i)) (hk : k0 < k) (hr : ReportsAt ev k) (hn : ∀ i, k0 < i → i < k → ¬ Directs ev i)
    (hkq : k ≤ q) (ho : OnlyNoPlace ev k (q + 1)) {src' : Src} {qs : List Cmd} (hq : ev q = .act (.out (.ghost src' (text qs)))) (hs : Simple qs)
    (hl : ∃ c, qs.getLast? = some c ∧ Question c) {mk : ℕ} (hm : MethodIs (acts (sofar ev q)) mk) :
    ∃ j num vs, q < j ∧ lastRead (received fl ev (j + 1)) = some (.answer num vs) ∧ vs.map Prod.fst = (Spec.asked mk qs).map Prod.fst ∧
      TellsBack (fun i => radians (d i)) (jointPos kitG (fun i => radians (d i)) 5) (12 / 1000) (17 / 1000) vs := by
  obtain ⟨j, num, ps, h1, h2, h3, h4⟩ := C117_told hw h hmem hc hu hi hb hst ht hM hd hfit hk hr hn hkq ho hq hs hl hm
  obtain ⟨vs, g1, g2, g3⟩ := says_read hw h (careful_of_briskStorage hmem) (fun n => (hc n).well) hfl h2 h4 h3
  exact ⟨j, num, vs, h1, g1, g2, by norm_num at g3 ⊢; exact g3⟩

/-- **C124**, a pose told (the setting of C117_pose): the host reads the position told, to 0.017 units. -/
theorem C124_pose {k0 k q : ℕ} {src : Src} {cs : List Cmd} (hb : ev k0 = .act (.out (.ghost src (text cs)))) (hst : src ≠ .immediate ∨ CalmAt ev k0) (ht : TellsPose cs) (hM : Chooses 48 cs)
    {d : Fin 6 → Dec} (hd : ∀ i, Last NamesPose cs i (d i)) {A : Fin 6 → ℝ} (hA : KitTakes kitG (poseOfDec d) A) (hk : k0 < k) (hr : ReportsAt ev k) (hn : ∀ i, k0 < i → i < k → ¬ Directs ev i)
    (hkq : k ≤ q) (ho : OnlyNoPlace ev k (q + 1)) {src' : Src} {qs : List Cmd} (hq : ev q = .act (.out (.ghost src' (text qs)))) (hs : Simple qs)
    (hl : ∃ c, qs.getLast? = some c ∧ Question c) {mk : ℕ} (hm : MethodIs (acts (sofar ev q)) mk) :
    ∃ j num vs, q < j ∧ lastRead (received fl ev (j + 1)) = some (.answer num vs) ∧ vs.map Prod.fst = (Spec.asked mk qs).map Prod.fst ∧
      TellsBack A (fun i => (d ⟨i.val, by omega⟩).val) (12 / 1000) (17 / 1000) vs := by
  obtain ⟨j, num, ps, h1, h2, h3, h4⟩ := C117_pose hw h hmem hc hu hi hb hst ht hM hd hA hk hr hn hkq ho hq hs hl hm
  obtain ⟨vs, g1, g2, g3⟩ := says_read hw h (careful_of_briskStorage hmem) (fun n => (hc n).well) hfl h2 h4 h3
  exact ⟨j, num, vs, h1, g1, g2, by norm_num at g3 ⊢; exact g3⟩

/-- **C124**, a straight move on a free way (the setting of C117_free). -/
theorem C124_free {k0 k q : ℕ} {src : Src} {cs : List Cmd} (hb : ev k0 = .act (.out (.ghost src (text cs)))) (hst : src ≠ .immediate ∨ CalmAt ev k0) (ht : TellsPose cs) (hM : Chooses 49 cs)
    {d : Fin 6 → Dec} (hd : ∀ i, Last NamesPose cs i (d i)) (hk : k0 < k) (hr : ReportsAt ev k) (hn : ∀ i, k0 < i → i < k → ¬ Directs ev i)
    (hfree : ∀ a, Nearer (σ k0).w a → KitFree kitG (jointPos kitG (kitLogical a) 5) (poseOfDec d))
    (hkq : k ≤ q) (ho : OnlyNoPlace ev k (q + 1)) {src' : Src} {qs : List Cmd} (hq : ev q = .act (.out (.ghost src' (text qs)))) (hs : Simple qs)
    (hl : ∃ c, qs.getLast? = some c ∧ Question c) {mk : ℕ} (hm : MethodIs (acts (sofar ev q)) mk) :
    ∃ A, ToolAt kitG (113 / 10000) (7 / 10000) A (poseOfDec d) ∧ ∃ j num vs, q < j ∧ lastRead (received fl ev (j + 1)) = some (.answer num vs) ∧
      vs.map Prod.fst = (Spec.asked mk qs).map Prod.fst ∧ TellsBack A (fun i => (d ⟨i.val, by omega⟩).val) (6 / 1000) (17 / 1000) vs := by
  obtain ⟨A, hA, j, num, ps, h1, h2, h3, h4⟩ := C117_free hw h hmem hc hu hi hb hst ht hM hd hk hr hn hfree hkq ho hq hs hl hm
  obtain ⟨vs, g1, g2, g3⟩ := says_read hw h (careful_of_briskStorage hmem) (fun n => (hc n).well) hfl h2 h4 h3
  exact ⟨A, hA, j, num, vs, h1, g1, g2, by norm_num at g3 ⊢; exact g3⟩
end

section
variable {w0 : World XR} (hw : w0.servos = Kit.servos) {junk : Nat → Byte} {σ : ℕ → Sys XR} {ev : ℕ → Ev XR} (h : Endless Kit.cfg w0 junk σ ev) (h0 : w0.ee 0 = 0)
  (hc : ∀ n, BrisklySent (w0.rxq ++ arrivals (sofar ev n))) (hnw : ∀ n, NeverWaits (w0.rxq ++ arrivals (sofar ev n))) (hu : Unbroken ev) (hclk : ClockRuns σ ev)
  (hh : ∀ n, CountingHost w0.rxq (sofar ev n)) (hq : ∀ n, QueueOnly (sent w0.rxq (sofar ev n)))
  (hsim : ∀ n, ∀ m, m ∈ puts (sent w0.rxq (sofar ev n)) ∨ m ∈ nows (sent w0.rxq (sofar ev n)) → ∃ cs, Simple cs ∧ m = text cs) {fl : XR → List Byte} (hfl : TwoDecimals fl)
include hw h h0 hc hnw hu hclk hh hq hsim hfl

/-- **C124**, total correctness for the queue (C117_queue_told): from the bytes sent to the bytes received. The host sends a move to six angles and then a question; it reads the angles it told, to
0.012 degrees, and the position of the tool, to 0.017 units. -/
theorem C124_queue_told {t : ℕ} {x y : List (List Byte)} {cs qs : List Cmd} (hm : puts (sent w0.rxq (sofar ev t)) = x ++ text cs :: text qs :: y) (ht : TellsAngles cs) (hM : Chooses 48 cs)
    {d : Fin 6 → Dec} (hd : ∀ i, Last NamesAngle cs i (d i)) (hfit : KitFits fun i => radians (d i)) (hs : Simple qs) (hp : ∀ c ∈ qs, NamesNoPlace c) (hl : ∃ c, qs.getLast? = some c ∧ Question c) :
    ∃ mk n num vs, lastRead (received fl ev n) = some (.answer num vs) ∧ vs.map Prod.fst = (Spec.asked mk qs).map Prod.fst ∧
      TellsBack (fun i => radians (d i)) (jointPos kitG (fun i => radians (d i)) 5) (12 / 1000) (17 / 1000) vs := by
  obtain ⟨mk, q, j, num, ps, _, _, h2, _, h3, h4⟩ := C117_queue_told hw h h0 hc hnw hu hclk hh hq hsim hm ht hM hd hfit hs hp hl
  obtain ⟨vs, g1, g2, g3⟩ := says_read hw h (careful_of_briskStorage (brisk_empty _ h0)) (fun n => (hc n).well) hfl h2 h4 h3
  exact ⟨mk, _, num, vs, g1, g2, by norm_num at g3 ⊢; exact g3⟩

/-- **C124**, the same for a pose the kit can take. -/
theorem C124_queue_pose {t : ℕ} {x y : List (List Byte)} {cs qs : List Cmd} (hm : puts (sent w0.rxq (sofar ev t)) = x ++ text cs :: text qs :: y) (ht : TellsPose cs) (hM : Chooses 48 cs)
    {d : Fin 6 → Dec} (hd : ∀ i, Last NamesPose cs i (d i)) {A : Fin 6 → ℝ} (hA : KitTakes kitG (poseOfDec d) A) (hs : Simple qs) (hp : ∀ c ∈ qs, NamesNoPlace c)
    (hl : ∃ c, qs.getLast? = some c ∧ Question c) :
    ∃ mk n num vs, lastRead (received fl ev n) = some (.answer num vs) ∧ vs.map Prod.fst = (Spec.asked mk qs).map Prod.fst ∧
      TellsBack A (fun i => (d ⟨i.val, by omega⟩).val) (12 / 1000) (17 / 1000) vs := by
  obtain ⟨mk, q, j, num, ps, _, _, h2, _, h3, h4⟩ := C117_queue_pose hw h h0 hc hnw hu hclk hh hq hsim hm ht hM hd hA hs hp hl
  obtain ⟨vs, g1, g2, g3⟩ := says_read hw h (careful_of_briskStorage (brisk_empty _ h0)) (fun n => (hc n).well) hfl h2 h4 h3
  exact ⟨mk, _, num, vs, g1, g2, by norm_num at g3 ⊢; exact g3⟩
end

end Mrc.Props
