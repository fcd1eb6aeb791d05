import Verif.Proof.Framing
/-
Property theorems C05-C10 (serial framing).
-/
namespace Mrc.Props
open Mrc Mrc.Spec

/-- fresh serial parser fed with `s`: everything it hands to the command dispatcher, in order. -/
def delivered (s : List Byte) : List (List Byte) := cmds (Framer.run {} s).2

/-- everything the serial parser does to the outside: deliveries and stores outside its input buffer. -/
def effects (s : List Byte) : List FEv := (Framer.run {} s).2

/-- **C05**: for every byte stream exactly the payloads of its frames are delivered, in order. -/
theorem C05_decode (s : List Byte) : delivered s = decode s := by
  rw [delivered, run_events]
  exact nrun_decode s.length s (Nat.le_refl _)

example : decode (str ":qx10.5\r\n:E x20#c\rY1\r") = [str "QX10.5", str "EX20", str "Y1"] := by decide
example : decode (str "ab:12:3 4") = [] := by decide

/-- frames are delivered as soon as complete and independently: concatenating complete lines concatenates. -/
theorem C05_concat (s t : List Byte) : decode (s ++ 13 :: t) = decode (s ++ [13]) ++ decode t := by
  suffices h : ∀ n (s : List Byte), s.length ≤ n → decode (s ++ 13 :: t) = decode (s ++ [13]) ++ decode t from
    h _ s (Nat.le_refl _)
  intro n
  induction n with
  | zero =>
    intro s hs
    have : s = [] := List.eq_nil_of_length_eq_zero (by omega)
    subst this
    rw [decode_cons [] t (by simp), decode_cons [] [] (by simp)]
    simp [decode_tail]
  | succ n ih =>
    intro s hs
    rcases stream_cases s with h | ⟨a, b, h1, rfl⟩
    · rw [decode_cons s t h, decode_cons s [] h]; simp [decode_tail]
    · rw [List.append_assoc, List.append_assoc, List.cons_append, List.cons_append, decode_cons a _ h1, decode_cons a _ h1,
        ih b (by simp at hs; omega), List.append_assoc]

/-- **C06**: deleting (hence also inserting) meaningless bytes anywhere changes no effect. -/
theorem C06_noise (s t : List Byte) (h : s.filter (fun c => !isNoise c) = t.filter (fun c => !isNoise c)) :
    effects s = effects t := by
  rw [effects, effects, run_events, run_events, ← nrun_noise _ s, h, nrun_noise]

example : effects (str ":Q X1\n0\r") = effects (str ":QX10\r") ∧ effects (str ":QX10\r") = [.cmd (str "QX10")] := by
  exact ⟨C06_noise _ _ (by decide), by decide⟩

/-- **C07**: streams that differ only in the case of letters have the same effect. -/
theorem C07_case (s t : List Byte) (h : s.map upper = t.map upper) : effects s = effects t := by
  rw [effects, effects, run_events, run_events, ← nrun_upper _ s, h, nrun_upper]

example : effects (str ":qX10\r") = effects (str ":Qx10\r") := C07_case _ _ (by decide)

/-- **C08** fails as stated: a ':' inside a comment discards the command before it. -/
theorem C08_comment_false :
    ¬ ∀ (a c c' b : List Byte), (13 : Byte) ∉ c → (13 : Byte) ∉ c' →
        delivered (a ++ 35 :: c ++ 13 :: b) = delivered (a ++ 35 :: c' ++ 13 :: b) := by
  intro h
  have := h (str ":QX10") (str "a:b") (str "ab") [] (by decide) (by decide)
  exact absurd this (by decide)

/-- **C08** (partial): comment text without ':' has no influence, for both comment starters, whatever precedes and
follows.  Missing: comments containing ':' (there the property is false, `C08_comment_false`). -/
theorem C08_comment_partial (a c c' b : List Byte) (o : Byte) (ho : o = 35 ∨ o = 40)
    (h : (13 : Byte) ∉ c ∧ (58 : Byte) ∉ c) (h' : (13 : Byte) ∉ c' ∧ (58 : Byte) ∉ c') :
    effects (a ++ o :: c ++ 13 :: b) = effects (a ++ o :: c' ++ 13 :: b) := by
  have key : ∀ c : List Byte, (13 : Byte) ∉ c ∧ (58 : Byte) ∉ c → ∀ n, nrun n (o :: c) = (((n.1, n.2.1, true) : List Byte × Bool × Bool), []) := by
    intro c h n
    have hu : upper o ≠ 13 ∧ upper o ≠ 58 ∧ isComment (upper o) = true := by rcases ho with rfl | rfl <;> decide
    have e : nstep n o = ((n.1, n.2.1, true), []) := by simp [nstep, hu]
    have hm : (58 : Byte) ∉ c.map upper := by
      intro hm
      rw [List.mem_map] at hm
      obtain ⟨x, hx, hx'⟩ := hm
      rw [(upper_special x).2.1] at hx'
      exact h.2 (hx' ▸ hx)
    rw [nrun, e, nrun_comment _ _ _ h.1, if_neg hm]; rfl
  rw [effects, effects, run_events, run_events]
  simp only [List.append_assoc, nrun_append, key c h, key c' h']

example : effects (str ":QX10" ++ 35 :: str "hello" ++ 13 :: []) = [.cmd (str "QX10")] := by decide

/-- **C09** fails: 79 counting characters in one frame are enough to make the parser write behind its buffer. -/
theorem C09_memory_safe_false : ¬ ∀ s : List Byte, FEv.oob ∉ effects s := by
  intro h
  exact h (List.replicate 79 65 ++ [13]) (by decide +kernel)

/-- **C09** (exact characterisation; partial because C09 itself is false): the parser writes outside its buffer iff some
complete frame has a payload of at least 79 characters, or some ':'-separated piece of a (possibly unfinished) frame
has more than 80 counting characters before its comment. -/
theorem C09_memory_partial (s : List Byte) :
    FEv.oob ∈ effects s ↔
      (∃ l ∈ lines s, 79 ≤ (payload l).length) ∨
      ∃ l ∈ lines s ++ [tail s], ∃ p ∈ split 58 (code l), 81 ≤ (p.filter counts).length := by
  rw [effects, run_events]
  exact nrun_oob s.length s (Nat.le_refl _)

/-- every delivered payload fits with its terminator into the buffer, if no store went outside. -/
theorem C09_payload_bound (s p : List Byte) (h : FEv.oob ∉ effects s) (hp : p ∈ delivered s) : p.length ≤ 78 := by
  rw [C05_decode, decode, List.mem_map] at hp
  obtain ⟨l, hl, rfl⟩ := hp
  rw [List.mem_filter] at hl
  rw [C09_memory_partial] at h
  apply Nat.le_of_not_lt
  intro h2
  exact h (.inl ⟨l, hl.1, h2⟩)

example : FEv.oob ∉ effects (str ":QX10\r:E\r") := by decide

/-- **C10** fails as stated: garbage ending in an open comment swallows the next frame (the comment flag is not reset by
':'). -/
theorem C10_resync_false :
    ¬ ∀ (g s : List Byte), delivered (g ++ 58 :: s) = delivered g ++ delivered (58 :: s) := by
  intro h
  exact absurd (h (str "#") (str "QX1\r")) (by decide)

/-- **C10** (partial): after any garbage whose unfinished last line has neither a comment starter nor ≥ 80 counting
characters in one piece, ':' starts a fresh frame: all later effects are those of a fresh parser.  Missing: the two
excluded cases, in which the property is false until the next CR. -/
theorem C10_resync_partial (g s : List Byte) (h : (tail g).any isComment = false) (ho : overlong (tail g) = false) :
    effects (g ++ 58 :: s) = effects g ++ effects (58 :: s) := by
  have hs := nrun_state g.length g (Nat.le_refl _)
  rw [h, ho] at hs
  have e : ∀ b : List Byte, nstep (b, false, false) 58 = (([], false, false), []) := by
    intro b
    have : upper 58 = 58 := by decide
    simp [nstep, this, isComment, counts]
  simp only [effects, run_events, nrun_append]
  rw [show Framer.norm {} = ([], false, false) from rfl, hs, nrun, nrun, e, e]

/-- after any garbage and a CR everything is as for a fresh parser. -/
theorem C10_resync_cr (g s : List Byte) : effects (g ++ 13 :: s) = effects (g ++ [13]) ++ effects s := by
  simp only [effects, run_events, nrun_append, List.append_assoc]
  rw [show Framer.norm {} = ([], false, false) from rfl, nrun_state g.length g (Nat.le_refl _), nrun, nrun_cr, nrun, nrun_cr]
  simp [nrun]

example : (tail (str ":Q1\r:GARB")).any isComment = false ∧ overlong (tail (str ":Q1\r:GARB")) = false ∧
    effects (str ":Q1\r:GARB" ++ 58 :: str "QX1\r") = [.cmd (str "Q1"), .cmd (str "QX1")] := by decide

end Mrc.Props
