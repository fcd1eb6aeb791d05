import Verif.Proof.Area
import Verif.Props.LineEnd
/-
C115: a session in the working area.
-/
set_option maxRecDepth 100000
set_option linter.unusedSectionVars false
set_option linter.unusedSimpArgs false
namespace Mrc.Props
open Mrc Mrc.Prog Mrc.Spec Mrc.Demo Mrc.Rest Mrc.Kine Mrc.Lip Matrix

/-- started and waiting instructions were sent for the queue. -/
theorem started_sent {F : Type} [FloatOps F] {cfg : Cfg F} {junk : Nat → Byte} {tr : List (Act F)} (h : ∃ p, Trace cfg junk tr p) {m : List Byte} (hm : m ∈ (Dev.after tr).queue) : m ∈ puts (rxBytes tr) := by
  generalize hl : tr.length = l
  induction l generalizing tr with
  | zero => rw [List.length_eq_zero_iff] at hl; subst hl; simp [Dev.after] at hm
  | succ l ih =>
    obtain ⟨t, a, rfl⟩ := Turns.snoc (tr := tr) (by rintro rfl; cases hl)
    obtain ⟨p, h⟩ := h
    have i := fun hm => ih (h.take rfl) hm (by simpa using hl)
    rw [after_snoc] at hm
    rw [rxBytes_append]
    match a, h, hm with
    | .rx (some b), h, hm =>
      change m ∈ ((Dev.after t).recv b).queue at hm
      show m ∈ puts (rxBytes t ++ [b])
      rw [puts, decode_snoc, List.filterMap_append, ← puts, completed, ← after_line, List.mem_append]
      unfold Dev.recv at hm
      by_cases hb : b = 13
      · rw [if_pos hb] at hm
        cases ho : overlong (Dev.after t).line
        · rw [if_pos (And.intro hb rfl)]
          rw [ho] at hm
          simp only [Bool.false_eq_true, if_false] at hm
          rw [List.filterMap_cons]
          generalize frame (payload (Dev.after t).line) = f at *
          cases f with
          | put m' =>
            simp only [Dev.frame] at hm
            split at hm
            · simp only [List.mem_append, List.mem_singleton] at hm
              rcases hm with hm | rfl
              · exact .inl (i hm)
              · exact .inr (by simp)
            · exact .inl (i hm)
          | clear => simp [Dev.frame] at hm
          | store m' => exact .inl (i hm)
          | free => exact .inl (i hm)
          | now m' => exact .inl (i hm)
          | erase => exact .inl (i hm)
          | empty => exact .inl (i hm)
        · rw [ho] at hm
          exact .inl (i hm)
      · rw [if_neg hb] at hm; exact .inl (i hm)
    | .out (.ghost .queue m'), h, hm =>
      change m ∈ (Dev.after t).queue.tail at hm
      show m ∈ puts (rxBytes t ++ [])
      rw [List.append_nil]; exact i (List.mem_of_mem_tail hm)
    | .eeRead m', _, hm =>
      change m ∈ (if (Dev.after t).booted then _ else _ : Dev).queue at hm
      show m ∈ puts (rxBytes t ++ [])
      rw [List.append_nil]
      split at hm <;> exact i hm
    | .out (.ghost .immediate m'), _, hm | .out (.ghost .eeprom m'), _, hm | .rx none, _, hm | .servo _ _, _, hm | .micro _ _, _, hm | .now _, _, hm | .pin _ _, _, hm | .eeWrite _ _, _, hm
    | .out (.msg _), _, hm | .out (.raw _), _, hm | .out (.pinMode _ _), _, hm | .out (.digitalWrite _ _), _, hm =>
      show m ∈ puts (rxBytes t ++ [])
      rw [List.append_nil]; exact i hm

/-- the points of a straight way between points of the area are in the area. -/
theorem area_free {S : Vec3} {P : Fin 6 → ℝ} (hS : InArea (1 / 20) (S 0) (S 1) (S 2)) (hP : InArea 0 (P 0) (P 1) (P 2)) (hd : Down P) : KitFree kitG S P := by
  intro s h0 h1
  refine Area.takes ?_ ⟨?_, ?_, ?_⟩
  · obtain ⟨a1, a2, a3, a4, a5, a6⟩ := hS
    obtain ⟨b1, b2, b3, b4, b5, b6⟩ := hP
    have mid : ∀ {x y l u : ℝ}, l ≤ x → x ≤ u → l ≤ y → y ≤ u → l ≤ x + (y - x) * s ∧ x + (y - x) * s ≤ u := by
      intro x y l u g1 g2 g3 g4
      constructor <;> nlinarith
    have m0 := mid a1 a2 (by linarith : _ ≤ P 0) (by linarith)
    have m1 := mid a3 a4 (by linarith : _ ≤ P 1) (by linarith)
    have m2 := mid a5 a6 (by linarith : _ ≤ P 2) (by linarith)
    exact ⟨m0.1, m0.2, m1.1, m1.2, m2.1, m2.2⟩
  · exact hd.a
  · exact hd.b
  · exact hd.c

/-- a tool that is at a point of the area up to 0.02. -/
def ToolIn (w : World XR) : Prop := ∃ b, ArmAt w b ∧ InArea (1 / 50) (jointPos kitG (kitLogical b) 5 0) (jointPos kitG (kitLogical b) 5 1) (jointPos kitG (kitLogical b) 5 2)

theorem tool_in {w : World XR} {b P : Fin 6 → ℝ} (hb : ArmAt w b) (ht : ToolAt kitG (113 / 10000) (7 / 10000) (kitLogical b) P) (hP : InArea 0 (P 0) (P 1) (P 2)) : ToolIn w := by
  refine ⟨b, hb, ?_⟩
  have h1 := ht.1
  generalize jointPos kitG (kitLogical b) 5 = q at *
  have c0 := abs_le.1 ((coord_le _ 0).trans h1.le)
  have c1 := abs_le.1 ((coord_le _ 1).trans h1.le)
  have c2 := abs_le.1 ((coord_le _ 2).trans h1.le)
  simp at c0 c1 c2
  obtain ⟨b1, b2, b3, b4, b5, b6⟩ := hP
  constructor <;> linarith

/-- angles within 2e-6 of those of a tool in the area put it into the area, too. -/
theorem area_near {a b : Fin 6 → ℝ} (h : ∀ i, |a i - b i| < 2 / 1000000) (hb : InArea (1 / 50) (jointPos kitG (kitLogical b) 5 0) (jointPos kitG (kitLogical b) 5 1) (jointPos kitG (kitLogical b) 5 2)) :
    InArea (1 / 20) (jointPos kitG (kitLogical a) 5 0) (jointPos kitG (kitLogical a) 5 1) (jointPos kitG (kitLogical a) 5 2) := by
  have hl : ∀ i, |kitLogical a i - kitLogical b i| ≤ 4 / 1000000 := by
    intro i
    have h1 := abs_lt.1 (h 1)
    have h2 := abs_lt.1 (h 2)
    have hi := abs_lt.1 (h i)
    rw [abs_le]
    unfold kitLogical
    split <;> constructor <;> linarith
  have h1 := (near_tool kitG hl).trans (mul_le_mul_of_nonneg_right kit_weight (by norm_num))
  generalize jointPos kitG (kitLogical a) 5 = p at *
  generalize jointPos kitG (kitLogical b) 5 = q at *
  have c0 := abs_le.1 ((coord_le _ 0).trans h1)
  have c1 := abs_le.1 ((coord_le _ 1).trans h1)
  have c2 := abs_le.1 ((coord_le _ 2).trans h1)
  simp at c0 c1 c2
  obtain ⟨b1, b2, b3, b4, b5, b6⟩ := hb
  constructor <;> linarith

/-- where the tool is at power-up. -/
theorem home_in {w0 : World XR} (hw : w0.servos = Kit.servos) {w : World XR} (h : ∀ i : Fin 6, (w.servos (armServo i)).cur = (w0.servos (armServo i)).cur) : ToolIn w := by
  refine ⟨fun _ => 0, fun i => ?_, ?_⟩
  · rw [h, hw]
    fin_cases i <;> simp [Kit.servos, armServo, Servo.new]
  · have : jointPos kitG (kitLogical fun _ => 0) 5 = ![71/4, 0, 181/10] := by
      ext i
      fin_cases i <;> simp [kitLogical, jointPos, linkFrame, jointRot, kitG, rotX, rotY, rotZ, Fin.sum_univ_succ, Matrix.mul_apply, Matrix.mulVec, dotProduct] <;> norm_num
    rw [this]
    constructor <;> simp <;> norm_num

section
variable {w0 : World XR} (hw : w0.servos = Kit.servos) {junk : Nat → Byte} {σ : ℕ → Sys XR} {ev : ℕ → Ev XR} (h : Endless Kit.cfg w0 junk σ ev)
  (h0 : w0.ee 0 = 0) (hc : ∀ n, BrisklySent (w0.rxq ++ arrivals (sofar ev n))) (hu : Unbroken ev) (hs : CalmStarts ev) (ha : ∀ n, AreaOnly (sent w0.rxq (sofar ev n)))
include hw h h0 hc hu hs ha

/-- everything begun leaves the arm alone or is a move in the area. -/
theorem area_begun {k : ℕ} {src : Src} {m : List Byte} (hk : ev k = .act (.out (.ghost src m))) : Aside m ∨ ∃ cs d, m = text cs ∧ AreaMove cs d := by
  have hin : ∀ m, (m ∈ puts (rxBytes (acts (sofar ev k))) ∨ m ∈ nows (rxBytes (acts (sofar ev k)))) → Aside m ∨ ∃ cs d, m = text cs ∧ AreaMove cs d := by
    intro m hm
    have hsub : ∀ p ∈ decode (rxBytes (acts (sofar ev k))), p ∈ decode (sent w0.rxq (sofar ev k)) := fun p hp => by
      rw [sent, (h.run k).fifo, decode_append]; exact List.mem_append_left _ hp
    rcases hm with hm | hm
    · rw [puts, List.mem_filterMap] at hm
      obtain ⟨p, hp, hp'⟩ := hm
      refine (ha k).moves p (hsub p hp) m (.inl ?_)
      split at hp'
      · rename_i x; injection hp' with hp'; rw [x, hp']
      · cases hp'
    · rw [nows, List.mem_filterMap] at hm
      obtain ⟨p, hp, hp'⟩ := hm
      refine (ha k).moves p (hsub p hp) m (.inr ?_)
      split at hp'
      · rename_i x; injection hp' with hp'; rw [x, hp']
      · cases hp'
  have e : acts (sofar ev (k + 1)) = acts (sofar ev k) ++ [.out (.ghost src m)] := by rw [sofar_succ, acts_append, hk]; rfl
  cases src with
  | eeprom => exact absurd (by rw [e]; simp) (Turns.no_storage h h0 (fun n => (ha n).stores) (k + 1) m)
  | immediate =>
    have := (C91_at_once (h.run (k + 1)).trace e rfl).1 m rfl
    exact hin m (.inr (by rw [this]; simp))
  | queue =>
    have htr := (h.run (k + 1)).trace
    have := ((trace_dev htr).1 _ _ [] e rfl).1 m rfl
    exact hin m (.inl (started_sent ⟨_, (h.run k).trace⟩ (List.mem_of_mem_head? this.1)))

/-- one move: from a tool in the area. -/
theorem area_step {k0 k : ℕ} {src : Src} {cs : List Cmd} {d : Fin 6 → Dec} (hb : ev k0 = .act (.out (.ghost src (text cs)))) (hm : AreaMove cs d) (hin : ToolIn (σ k0).w)
    (hk : k0 < k) (hr : ReportsAt ev k) (hq : ∀ i, k0 < i → i < k → ¬ Directs ev i) {n : ℕ} (hkn : k ≤ n) (hn : ∀ i : Fin 6, Untouched ev (armServo i) k n) :
    ∃ b, ArmAt (σ n).w b ∧ ToolAt kitG (113 / 10000) (7 / 10000) (kitLogical b) (poseOfDec d) := by
  have hi := Calm.immediates h hs
  have hs' : src ≠ .immediate ∨ CalmAt ev k0 := by
    by_cases e : src = .immediate
    · subst e; exact .inr (hs k0 _ hb (pose_directs hm.tells))
    · exact .inl e
  rcases hm.mode with h48 | h49
  · obtain ⟨A, hA⟩ := Area.takes (P := poseOfDec d) (by
      obtain ⟨b1, b2, b3, b4, b5, b6⟩ := hm.area
      constructor <;> linarith) hm.down
    obtain ⟨b, g1, _, g2⟩ := C113_pose hw h (brisk_empty _ h0) hc hu hi hb hs' hm.tells h48 hm.last hA hk hr hq hkn hn
    exact ⟨b, g1, g2⟩
  · refine C114_free hw h (brisk_empty _ h0) hc hu hi hb hs' hm.tells h49 hm.last hk hr hq (fun a ha => ?_) hkn hn
    obtain ⟨b, hb1, hb2⟩ := hin
    refine area_free (area_near (fun i => ?_) hb2) hm.area hm.down
    obtain ⟨c, t, e1, e2, e3⟩ := ha i
    have hcb : c = b i := by have := hb1 i; rw [e1] at this; injection this
    have hat := (Rest.atTarget_iff e1 e2).1 (rest_begin hw h (brisk_empty _ h0) hc hu hi hb hs' i).2
    have k1 := abs_lt.1 hat
    have k2 := abs_le.1 (e3.trans hat.le)
    rw [← hcb, abs_lt]
    constructor <;> linarith

/-- whenever an instruction begins that concerns the arm, the tool is in the area. -/
theorem area_begin (k : ℕ) : Directs ev k → ToolIn (σ k).w := by
  induction k using Nat.strong_induction_on with
  | _ k ih =>
  intro ⟨src, m, hk, hm0⟩
  have hpl : ∀ j, Places ev j → Directs ev j := fun j ⟨s, m, e, hm⟩ => ⟨s, m, e, fun ha => hm (Asd.NoPlace.of_aside ha)⟩
  have hlp : ∀ j, Directs ev j → Places ev j := fun j ⟨s, m, e, hm⟩ => by
    rcases area_begun hw h h0 hc hu hs ha e with h' | ⟨cs, d, rfl, hd⟩
    · exact absurd h' hm
    · exact ⟨s, _, e, pose_place hd.tells⟩
  have stay : ∀ {r : ℕ} {n : Int}, ev r = .act (.out (.msg (.n1 n))) → r < k → (∀ j, r < j → j < k → ¬ Places ev j) → ∀ i : Fin 6, Untouched ev (armServo i) r k := by
    intro r n g2 g1 g3 i j k1 k2
    rcases Nat.eq_or_lt_of_le k1 with rfl | k1
    · intro m e; rw [g2] at e; cases e
    · exact Calm.untouched h (a := r + 1) (k := k) (fun j' l1 l2 => Calm.of_last (.inr ⟨r, n, by omega, g2, fun j'' m1 m2 => g3 j'' m1 (by omega)⟩)) i j k1 k2
  by_cases hp : ∀ j, j < k → ¬ Directs ev j
  · refine home_in hw fun i => ?_
    have hun : Untouched ev (armServo i) 0 k := Calm.untouched h (fun j _ g2 => Calm.of_last (.inl fun j' g hb => hp j' (by omega) (hpl _ hb))) i
    have e0 : (σ 0).w = w0 := by rw [h.boot]
    obtain ⟨c, t, c', g1, g2, g3, g4, g5⟩ := nearer_later hw h (brisk_empty _ h0) hc hu (Calm.immediates h hs) (Nat.zero_le k) hun (by rw [e0]; exact (kit_steady hw i).1)
    rw [e0] at g1 g2
    have hct : c = t := by
      have : (w0.servos (armServo i)).cur = (w0.servos (armServo i)).target := by rw [hw]; rfl
      rw [g1, g2] at this; injection this
    subst hct
    rw [sub_self, abs_zero] at g5
    have : c' = c := by have := abs_nonpos_iff.1 g5; linarith
    rw [g3, g1, this]
  · push Not at hp
    -- the last move begun before
    obtain ⟨k', h1, h2, h3⟩ : ∃ k' < k, Directs ev k' ∧ ∀ j, k' < j → j < k → ¬ Directs ev j := by
      classical
      obtain ⟨j, hj1, hj2⟩ := hp
      let k' := Nat.findGreatest (fun j => j < k ∧ Directs ev j) k
      have hk' : k' < k ∧ Directs ev k' := Nat.findGreatest_spec (P := fun j => j < k ∧ Directs ev j) hj1.le ⟨hj1, hj2⟩
      exact ⟨k', hk'.1, hk'.2, fun j g1 g2 g3 => Nat.findGreatest_is_greatest g1 g2.le ⟨g2, g3⟩⟩
    have hin := ih k' h1 h2
    have h2p := hlp k' h2
    obtain ⟨src', m', hk', hm'⟩ := h2
    obtain ⟨cs, d, rfl, hd⟩ := (area_begun hw h h0 hc hu hs ha hk').resolve_left hm'
    by_cases hsrc : src = .immediate
    · subst hsrc
      rcases Calm.last (hs k m hk hm0) with g | ⟨r, n, g1, g2, g3⟩
      · exact absurd h2p (g k' h1)
      · have hkr : k' < r := by
          rcases Nat.lt_trichotomy k' r with g | g | g
          · exact g
          · subst g; rw [hk'] at g2; cases g2
          · exact absurd h2p (g3 k' g h1)
        obtain ⟨b, b1, b2⟩ := area_step hw h h0 hc hu hs ha hk' hd hin hkr (.inl ⟨n, g2⟩) (fun i i1 i2 => h3 i i1 (by omega)) g1.le (stay g2 g1 g3)
        exact tool_in b1 b2 hd.area
    · obtain ⟨b, b1, b2⟩ := area_step hw h h0 hc hu hs ha hk' hd hin h1 (.inr ⟨src, m, hsrc, hk⟩) h3 (le_refl k) (fun i j j1 j2 => by omega)
      exact tool_in b1 b2 hd.area

/-- **C115**: in a session of moves in the working area (and of instructions that leave the arm alone), from the moment any of the moves is reported as finished (or the next instruction from the
queue begins), if no other move was begun in between, until a servo is commanded again, the tool is where that move told it to be, to 0.0113 units, and points in the directions told, to 7e-4
in every coordinate. -/
theorem C115_told {k0 k : ℕ} {src : Src} {m : List Byte} (hb : ev k0 = .act (.out (.ghost src m))) (hm : ¬ Aside m) (hk : k0 < k) (hr : ReportsAt ev k)
    (hq : ∀ i, k0 < i → i < k → ¬ Directs ev i) :
    ∃ cs d, m = text cs ∧ AreaMove cs d ∧ ∀ n, k ≤ n → (∀ i : Fin 6, Untouched ev (armServo i) k n) →
      ∃ b, ArmAt (σ n).w b ∧ ToolAt kitG (113 / 10000) (7 / 10000) (kitLogical b) (poseOfDec d) := by
  obtain ⟨cs, d, rfl, hd⟩ := (area_begun hw h h0 hc hu hs ha hb).resolve_left hm
  exact ⟨cs, d, rfl, hd, fun n hkn hn => area_step hw h h0 hc hu hs ha hb hd (area_begin hw h h0 hc hu hs ha k0 ⟨_, _, hb, hm⟩) hk hr hq hkn hn⟩
end

section
variable {w0 : World XR} (hw : w0.servos = Kit.servos) {junk : Nat → Byte} {σ : ℕ → Sys XR} {ev : ℕ → Ev XR} (h : Endless Kit.cfg w0 junk σ ev)
  (h0 : w0.ee 0 = 0) (hc : ∀ n, BrisklySent (w0.rxq ++ arrivals (sofar ev n))) (hnw : ∀ n, NeverWaits (w0.rxq ++ arrivals (sofar ev n)))
  (hu : Unbroken ev) (hclk : ClockRuns σ ev) (ha : ∀ n, AreaOnly (sent w0.rxq (sofar ev n)))
include hw h h0 hc hnw hu hclk ha

/-- **C115**, total correctness, a host that takes turns (C112): every immediate move sent is executed, reported as finished, and then the tool is at the pose told, exactly as its text says. -/
theorem C115_sent (htt : TakesTurns w0.rxq ev) {t : ℕ} {cs : List Cmd} (hm : text cs ∈ nows (sent w0.rxq (sofar ev t))) {d : Fin 6 → Dec} (hd : AreaMove cs d) {n : Int} (hn : Numbered (text cs) n) :
    ∃ k j, ev k = .act (.out (.ghost .immediate (text cs))) ∧ k < j ∧ ev j = .act (.out (.msg (.n1 n))) ∧ (∀ i, k < i → i < j → ¬ Orders ev i) ∧
      ∀ l, j ≤ l → (∀ i : Fin 6, Untouched ev (armServo i) j l) → ∃ b, ArmAt (σ l).w b ∧ ToolAt kitG (113 / 10000) (7 / 10000) (kitLogical b) (poseOfDec d) := by
  obtain ⟨k, j, h1, h2, h3, h4, h5⟩ := C112_sent hw h h0 hc hnw (fun n => (ha n).stores) htt hu hclk hm hn
  have hs := done_calm (C112_calm h h0 (fun n => (ha n).stores) htt)
  exact ⟨k, j, h1, h3, h4, h5, fun l hl hun => area_step hw h h0 hc hu hs ha h1 hd (area_begin hw h h0 hc hu hs ha k ⟨_, _, h1, pose_directs hd.tells⟩) h3 (.inl ⟨n, h4⟩) (undirected h5) hl hun⟩

/-- **C115**, total correctness, a host that counts the free space of the queue (C106). -/
theorem C115_queue (hh : ∀ n, CountingHost w0.rxq (sofar ev n)) (hq : ∀ n, QueueOnly (sent w0.rxq (sofar ev n)))
    {t : ℕ} {cs : List Cmd} (hm : text cs ∈ puts (sent w0.rxq (sofar ev t))) {d : Fin 6 → Dec} (hd : AreaMove cs d) {n : Int} (hn : Numbered (text cs) n) :
    ∃ k j, ev k = .act (.out (.ghost .queue (text cs))) ∧ k < j ∧ ev j = .act (.out (.msg (.n1 n))) ∧ (∀ i, k < i → i < j → ¬ Orders ev i) ∧
      ∀ l, j ≤ l → (∀ i : Fin 6, Untouched ev (armServo i) j l) → ∃ b, ArmAt (σ l).w b ∧ ToolAt kitG (113 / 10000) (7 / 10000) (kitLogical b) (poseOfDec d) := by
  obtain ⟨k, j, h1, h2, h3, h4⟩ := C106_sent hw h (brisk_empty _ h0) (quick_empty _ h0) hc hnw (undivided_of hu) hclk hh hq hm hn
  have hs : CalmStarts ev := fun k m e hm => absurd (Asd.aside_of_asks (queueOnly_noImmediate h hq k (Nat.zero_le _) m e)) hm
  exact ⟨k, j, h1, h2, h3, h4, fun l hl hun => area_step hw h h0 hc hu hs ha h1 hd (area_begin hw h h0 hc hu hs ha k ⟨_, _, h1, pose_directs hd.tells⟩) h2 (.inl ⟨n, h3⟩) (undirected h4) hl hun⟩
end

end Mrc.Props
