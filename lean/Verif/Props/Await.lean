import Verif.Spec.Await
import Verif.Props.Pins
/-
C127: an instruction that waits holds up everything until what it waits for has happened.
-/
set_option linter.unusedSectionVars false
set_option linter.unusedSimpArgs false
namespace Mrc.Props
open Mrc Mrc.Prog Mrc.Spec Mrc.Rest

section
variable {F : Type} [FloatOps F]

/-- conditions added by a command. -/
def condsOf (map : List ℕ) (c : Cmd) : Conds :=
  if c.letter = 73 then
    match optionAt c.text 1, optionAt c.text 2 with
    | some p, some s => match map[p]? with
      | none => []
      | some x => [(x, s)]
    | _, _ => []
  else []

/-- what is read when the conditions are met. -/
def levels (c : Conds) : List (ℕ × Bool) := (effective c).map fun x => (x.1, x.2 == 1)

theorem levels_append (a b : Conds) : levels (a ++ b) = levels a ++ levels b := by simp [levels, effective]

theorem awaits_levels {map : List ℕ} (hmap : 10 ≤ map.length) {cs : List Cmd} {l : List (ℕ × Bool)} (h : Awaits map cs l) : levels (cs.flatMap (condsOf map)) = l := by
  have ho : ∀ (l : Byte) (p s : Fin 10) (rest : List Byte), optionAt (l :: digitChar p :: digitChar s :: rest) 1 = some p.val ∧ optionAt (l :: digitChar p :: digitChar s :: rest) 2 = some s.val :=
    fun l p s rest => ⟨optionAt_digit _ 1 p.val p.isLt rfl, optionAt_digit _ 2 s.val s.isLt rfl⟩
  induction h with
  | nil => rfl
  | @input p b x c cs l h hx _ ih =>
    rw [List.flatMap_cons, levels_append, ih]
    obtain ⟨letter, arg⟩ := c
    obtain ⟨rfl, rest, e⟩ := h
    dsimp only at e; subst e
    cases b <;> simp [condsOf, Cmd.text, ho, hx, levels, effective]
  | @odd p s c cs l h hs _ ih =>
    rw [List.flatMap_cons, levels_append, ih]
    obtain ⟨letter, arg⟩ := c
    obtain ⟨rfl, rest, e⟩ := h
    dsimp only at e; subst e
    have hx : map[p.val]? = some map[p.val] := List.getElem?_eq_getElem (show p.val < map.length by omega)
    simp [condsOf, Cmd.text, ho, hx, levels, effective, show s.val ≠ 1 by omega, show s.val ≠ 0 by omega]
  | other h _ ih => rw [List.flatMap_cons, levels_append, ih]; simp [condsOf, h, levels, effective]

theorem delay_atol {ms : ℕ} {c : Cmd} (h : NamesDelay ms c) : u32OfInt (atol c.arg) = ms := by
  obtain ⟨-, ds, hne, e, hv, hb⟩ := h
  have hd : ∀ d : Fin 10, isDigit (digitChar d) = true ∧ digitVal (digitChar d) = d.val ∧ digitChar d ≠ 45 := by decide
  have h1 : digitsVal (ds.map digitChar) = natVal ds := by
    have : ∀ (ds : List (Fin 10)) (a : ℕ), (ds.map digitChar).foldl (fun a d => 10 * a + digitVal d) a = a * 10 ^ ds.length + natVal ds := by
      intro ds
      induction ds with
      | nil => intro a; simp [natVal]
      | cons d ds ih => intro a; rw [List.map_cons, List.foldl_cons, ih, (hd d).2.1, natVal, List.length_cons]; ring
    simpa [digitsVal] using this ds 0
  have h2 : (ds.map digitChar).takeWhile isDigit = ds.map digitChar := by
    have : ∀ ds : List (Fin 10), (ds.map digitChar).takeWhile isDigit = ds.map digitChar := by
      intro ds
      induction ds with
      | nil => rfl
      | cons d ds ih => simp [(hd d).1, ih]
    exact this ds
  have h3 : takeSign (ds.map digitChar) = (false, ds.map digitChar) := by
    cases ds with
    | nil => exact absurd rfl hne
    | cons d ds => simp [takeSign, (hd d).2.2]
  rw [e, atol, h3]
  simp only [h2, h1, hv, satLong, u32OfInt]
  simp
  split <;> omega

/-! ### the monitor: the last instruction from queue or storage, and everything since -/

abbrev StA (F : Type) := Option (List Byte) × List (Act F)

def awUpd (g : StA F) (a : Act F) : StA F :=
  match a with
  | .out (.ghost src m) => if src = .immediate then (g.1, g.2 ++ [.out (.ghost src m)]) else (some m, [])
  | a => (g.1, g.2 ++ [a])

def HoldsUp (map : List ℕ) (g : StA F) (conds : Conds) (wu : ℕ) : Prop :=
  ∀ cs, PinsOk cs → g.1 = some (text cs) → OnlyBrief g.2 → (∀ l, Awaits map cs l → levels conds = l ∨ conds = [] ∧ SeenTogether g.2 l) ∧ ∀ ms, Delays ms cs → ∃ t, .now t ∈ g.2 ∧ wu = u32 (t + ms)

def EndedWait (map : List ℕ) (g : StA F) : Prop :=
  ∀ cs, PinsOk cs → g.1 = some (text cs) → OnlyBrief g.2 → (∀ l, Awaits map cs l → SeenTogether g.2 l) ∧ ∀ ms, Delays ms cs → TimePassed g.2 ms

def awMon (map : List ℕ) : Mon F (StA F) where
  upd := awUpd
  ok g a := Proceeds a → EndedWait map g

theorem awUpd_other {g : StA F} {a : Act F} (h : ¬ BeginsI a) : awUpd g a = (g.1, g.2 ++ [a]) := by
  unfold awUpd
  split
  · exact absurd ⟨_, _, rfl⟩ h
  · rfl

theorem onlyBrief_left {x y : List (Act F)} (h : OnlyBrief (x ++ y)) : OnlyBrief x := fun s m hm => h s m (by simp [hm])
theorem seen_more {x y : List (Act F)} {l : List (ℕ × Bool)} (h : SeenTogether x l) : SeenTogether (x ++ y) l := by
  obtain ⟨u, v, rfl⟩ := h; exact ⟨u, v ++ y, by simp⟩
theorem passed_more {x y : List (Act F)} {ms : ℕ} (h : TimePassed x ms) : TimePassed (x ++ y) ms := by
  obtain ⟨t, t', u, v, w, rfl, h⟩ := h; exact ⟨t, t', u, v, w ++ y, by simp, h⟩

theorem HoldsUp.more {map : List ℕ} {m : Option (List Byte)} {x y : List (Act F)} {conds : Conds} {wu : ℕ} (h : HoldsUp map (m, x) conds wu) : HoldsUp map (m, x ++ y) conds wu := by
  intro cs h1 h2 h3
  obtain ⟨k1, k2⟩ := h cs h1 h2 (onlyBrief_left h3)
  exact ⟨fun l hl => (k1 l hl).imp id fun h => ⟨h.1, seen_more h.2⟩, fun ms hms => (k2 ms hms).imp fun t ht => ⟨by simp [ht.1], ht.2⟩⟩

theorem EndedWait.more {map : List ℕ} {m : Option (List Byte)} {x y : List (Act F)} (h : EndedWait map (m, x)) : EndedWait map (m, x ++ y) := by
  intro cs h1 h2 h3
  obtain ⟨k1, k2⟩ := h cs h1 h2 (onlyBrief_left h3)
  exact ⟨fun l hl => seen_more (k1 l hl), fun ms hms => passed_more (k2 ms hms)⟩

theorem HoldsUp.act {map : List ℕ} {g : StA F} {a : Act F} {conds : Conds} {wu : ℕ} (h : HoldsUp map g conds wu) (ha : ¬ BeginsI a) : HoldsUp map (awUpd g a) conds wu := by
  rw [awUpd_other ha]; exact HoldsUp.more h
theorem EndedWait.act {map : List ℕ} {g : StA F} {a : Act F} (h : EndedWait map g) (ha : ¬ BeginsI a) : EndedWait map (awUpd g a) := by
  rw [awUpd_other ha]; exact EndedWait.more h

/-- accesses that neither begin nor report. -/
def tamely (a : Act F) : Prop := ¬ BeginsI a ∧ ¬ Proceeds a

theorem mrilAct_tamely {a : Act F} (h : mrilAct a) : tamely a := by
  refine ⟨mrilAct_noBegin h, fun hp => ?_⟩
  unfold Proceeds at hp
  split at hp
  · exact h
  · exact h
  · exact hp

set_option maxHeartbeats 1000000 in
/-- a command changes the conditions only if it is I, the waiting time only if it is D. -/
theorem exec_still (cfg : Cfg F) (s : Core F) (l : Loc F) (tok : List Byte) :
    (Mril.exec cfg s l tok).only (fun _ => True) (fun r => (tok.headD 0 ≠ 73 → r.1.conds = s.conds) ∧ (tok.headD 0 ≠ 68 → r.1.waitUntil = s.waitUntil)) := by
  exec_leaves
  all_goals first
    | exact ⟨fun h => absurd ‹_› h, fun _ => rfl⟩
    | (intro t; exact ⟨trivial, fun _ => rfl, fun h => absurd ‹_› h⟩)
    | simp_all [Prog.bind, only, mrilAct]

theorem only_both {α : Type} {p : Prog F α} {K : Act F → Prop} {R R' : α → Prop} (h : p.only K R) (h' : p.only (fun _ => True) R') : p.only K (fun a => R a ∧ R' a) := by
  induction p with
  | ret a => exact ⟨h, h'⟩
  | fault f => trivial
  | servo i k ih => exact fun v => ⟨(h v).1, ih v (h v).2 (h' v).2⟩
  | now k ih => exact fun v => ⟨(h v).1, ih v (h v).2 (h' v).2⟩
  | pin p k ih => exact fun v => ⟨(h v).1, ih v (h v).2 (h' v).2⟩
  | rx k ih => exact fun v => ⟨(h v).1, ih v (h v).2 (h' v).2⟩
  | eeRead k ih => exact fun v => ⟨(h v).1, ih v (h v).2 (h' v).2⟩
  | micro i m k ih => exact ⟨h.1, ih h.2 h'.2⟩
  | eeWrite a b k ih => exact ⟨h.1, ih h.2 h'.2⟩
  | out o k ih => exact ⟨h.1, ih h.2 h'.2⟩

/-- an immediate instruction that does not wait changes neither. -/
theorem parse_still (cfg : Cfg F) (s : Core F) {m : List Byte} (hm : WaitsNot m) : (Mril.parse cfg s m).only mrilAct (fun r => r.conds = s.conds ∧ r.waitUntil = s.waitUntil) := by
  refine only_mono (fun _ h => h) (fun _ h => h.2) (only_both (parse_only cfg s m) ?_)
  obtain ⟨cs, hok, rfl, hc⟩ := hm
  by_cases hne : cs = []
  · subst hne; exact ⟨rfl, rfl⟩
  have key : ∀ (s0 s : Core F) (l : Loc F), s.conds = s0.conds ∧ s.waitUntil = s0.waitUntil → (execAll cfg cs s l).only (fun _ => True) (fun r => r.1.conds = s0.conds ∧ r.1.waitUntil = s0.waitUntil) := by
    clear hok hne
    induction cs with
    | nil => exact fun s0 s l h => h
    | cons c cs ih =>
      intro s0 s l h
      simp only [execAll]
      rw [only_bind]
      refine only_mono (fun _ h => h) (fun r hr => ih (fun c hx => hc c (by simp [hx])) s0 r.1 r.2 ?_) (exec_still cfg s l c.text)
      have := hc c (by simp)
      exact ⟨(hr.1 this.1).trans h.1, (hr.2 this.2).trans h.2⟩
  rw [parse_text cfg cs hok hne, only_bind]
  refine only_mono (fun _ h => h) (fun r hr => ?_) (key s _ _ ⟨rfl, rfl⟩)
  unfold Mril.finish
  simp only [send, bind_def, Prog.bind]
  split
  · exact ⟨trivial, hr⟩
  · exact hr
  · exact hr

/-- while the commands of an instruction are executed. -/
structure Midway (map : List ℕ) (did : List Cmd) (m : List Byte) (g : StA F) (s : Core F) : Prop where
  text : g.1 = some m
  brief : OnlyBrief g.2
  conds : s.conds = did.flatMap (condsOf map)
  wait : ∀ ms, Delays ms did → ∃ t, .now t ∈ g.2 ∧ s.waitUntil = u32 (t + ms)

theorem onlyBrief_snoc {x : List (Act F)} {a : Act F} (h : OnlyBrief x) (ha : ¬ BeginsI a) : OnlyBrief (x ++ [a]) := by
  intro s m hm
  rcases List.mem_append.1 hm with hm | hm
  · exact h s m hm
  · exact absurd ⟨_, _, (List.mem_singleton.1 hm).symm⟩ ha

theorem exec_midway (cfg : Cfg F) (s : Core F) (l : Loc F) (c : Cmd) {did : List Cmd} {m : List Byte} {g : StA F} (h : Midway cfg.pinMap did m g s) :
    (Mril.exec cfg s l c.text).wp (awMon cfg.pinMap) (fun g' r => Midway cfg.pinMap (did ++ [c]) m g' r.1) g := by
  have rest : c.letter ≠ 68 → ∀ ms, Delays ms (did ++ [c]) → Delays ms did := by
    rintro h8 ms ⟨a, d, b, e, h1, h2⟩
    rcases List.eq_nil_or_concat b with rfl | ⟨b, x, rfl⟩
    · have := (List.append_inj' e rfl).2
      cases this; exact absurd h1.1 h8
    · rw [List.concat_eq_append] at e h2
      rw [← List.cons_append, ← List.append_assoc] at e
      have e' := List.append_inj' e rfl
      exact ⟨a, d, b, e'.1, h1, fun y hy => h2 y (by simp [hy])⟩
  by_cases h7 : c.letter = 73
  · obtain ⟨letter, arg⟩ := c
    dsimp only at h7; subst h7
    have hr := rest (show (73 : Byte) ≠ 68 by decide)
    simp only [Mril.exec, Cmd.text, List.headD_cons]
    simp [poseIdx]
    split
    · rename_i p st hp hs
      simp only [bind_def, IOL.addCondition]
      cases hx : cfg.pinMap[p]? with
      | none => simp [Prog.bind, wp, awMon]
      | some x =>
        simp only [Prog.bind]
        have hb : ¬ BeginsI (.out (.pinMode x (if st = 1 then .input_pulldown else .input_pullup)) : Act F) := by rintro ⟨_, _, e⟩; cases e
        refine ⟨fun hp => hp.elim, ?_⟩
        split
        · trivial
        · show Midway cfg.pinMap (did ++ [⟨73, arg⟩]) m (awUpd g (.out (.pinMode x (if st = 1 then .input_pulldown else .input_pullup)))) { s with conds := s.conds ++ [(x, st)] }
          rw [awUpd_other hb]
          refine ⟨h.text, onlyBrief_snoc h.brief hb, ?_, fun ms hms => ?_⟩
          · rw [List.flatMap_append, ← h.conds]
            simp [condsOf, Cmd.text, hp, hs, hx]
          · obtain ⟨t, h1, h2⟩ := h.wait ms (hr ms hms)
            exact ⟨t, by simp [h1], h2⟩
    · simp [wp, awMon]
  · by_cases h8 : c.letter = 68
    · obtain ⟨letter, arg⟩ := c
      dsimp only at h8; subst h8
      simp only [Mril.exec, Cmd.text, List.headD_cons]
      simp [poseIdx]
      intro t _
      show Midway cfg.pinMap (did ++ [⟨68, arg⟩]) m (awUpd g (.now t)) { s with waitUntil := Wait.waitMs t (u32OfInt (atol arg)) }
      have hb : ¬ BeginsI (.now t : Act F) := by rintro ⟨_, _, e⟩; cases e
      rw [awUpd_other hb]
      refine ⟨h.text, onlyBrief_snoc h.brief hb, ?_, ?_⟩
      · rw [List.flatMap_append, ← h.conds]; simp [condsOf]
      · rintro ms ⟨a, d, b, e, h1, h2⟩
        rcases List.eq_nil_or_concat b with rfl | ⟨b, x, rfl⟩
        · have := (List.append_inj' e rfl).2
          cases this
          refine ⟨t, by simp, ?_⟩
          show Wait.waitMs t (u32OfInt (atol arg)) = _
          rw [show u32OfInt (atol arg) = ms from delay_atol h1]; rfl
        · rw [List.concat_eq_append] at e h2
          rw [← List.cons_append, ← List.append_assoc] at e
          have e' := (List.append_inj' e rfl).2
          cases e'
          exact absurd rfl (h2 ⟨68, arg⟩ (List.mem_append_right _ (List.mem_singleton.2 rfl)))
    · refine wp_mono ?_ (ans_keep (only_both (exec_only cfg s l c.text) (exec_still cfg s l c.text)) (fun g' => g'.1 = some m ∧ OnlyBrief g'.2 ∧ ∃ x, g'.2 = g.2 ++ x) g ⟨h.text, h.brief, [], by simp⟩ ?_ (fun _ => trivial))
      · rintro g' r ⟨⟨k1, k2, x, k3⟩, -, k4, k5⟩
        refine ⟨k1, k2, ?_, fun ms hms => ?_⟩
        · rw [k4 h7, h.conds]; simp [condsOf, h7]
        · obtain ⟨t, h1, h2⟩ := h.wait ms (rest h8 ms hms)
          exact ⟨t, by rw [k3]; simp [h1], (k5 h8).trans h2⟩
      · rintro g' a ⟨k1, k2, x, k3⟩ ha
        have hb := mrilAct_tamely ha
        refine ⟨fun hp => absurd hp hb.2, ?_⟩
        show (awUpd g' a).1 = _ ∧ OnlyBrief (awUpd g' a).2 ∧ ∃ x, (awUpd g' a).2 = _
        rw [awUpd_other hb.1]
        exact ⟨k1, onlyBrief_snoc k2 hb.1, x ++ [a], by simp [k3]⟩

theorem execAll_midway (cfg : Cfg F) (cs : List Cmd) (s : Core F) (l : Loc F) {did : List Cmd} {m : List Byte} {g : StA F} (h : Midway cfg.pinMap did m g s) :
    (execAll cfg cs s l).wp (awMon cfg.pinMap) (fun g' r => Midway cfg.pinMap (did ++ cs) m g' r.1) g := by
  induction cs generalizing s l g did with
  | nil => rw [List.append_nil]; exact h
  | cons c cs ih =>
    simp only [execAll]
    rw [wp_bind]
    refine wp_mono (fun g' r hr => ?_) (exec_midway cfg s l c h)
    have := ih r.1 r.2 hr
    rwa [List.append_assoc] at this

theorem check_wait (map : List ℕ) (c : Conds) (g : StA F) :
    (IOL.check c : Prog F Bool).wp (awMon map) (fun g' b => g'.1 = g.1 ∧ ∃ tr, g'.2 = g.2 ++ tr ∧ (b = true → tr = (levels c).map fun x => Act.pin x.1 x.2)) g := by
  induction c generalizing g with
  | nil => exact ⟨rfl, [], by simp, fun _ => rfl⟩
  | cons x c ih =>
    obtain ⟨p, s⟩ := x
    simp only [IOL.check]
    have up : ∀ b, (awMon map).upd g (.pin p b) = (g.1, g.2 ++ [.pin p b]) := fun b => rfl
    split
    · rename_i h1
      intro b _
      rw [up]
      cases b with
      | false => exact ⟨rfl, [.pin p false], rfl, fun e => (by cases e)⟩
      | true =>
        show (IOL.check c : Prog F Bool).wp _ _ _
        refine wp_mono ?_ (ih (g.1, g.2 ++ [.pin p true]))
        rintro g' b ⟨k1, tr, k2, k3⟩
        refine ⟨k1, .pin p true :: tr, by simp [k2], fun hb => ?_⟩
        rw [k3 hb]; simp [levels, effective, h1]
    · split
      · rename_i h1 h0
        intro b _
        rw [up]
        cases b with
        | true => exact ⟨rfl, [.pin p true], rfl, fun e => (by cases e)⟩
        | false =>
          show (IOL.check c : Prog F Bool).wp _ _ _
          refine wp_mono ?_ (ih (g.1, g.2 ++ [.pin p false]))
          rintro g' b ⟨k1, tr, k2, k3⟩
          refine ⟨k1, .pin p false :: tr, by simp [k2], fun hb => ?_⟩
          rw [k3 hb]; simp [levels, effective, h0]
      · rename_i h1 h0
        refine wp_mono ?_ (ih g)
        rintro g' b ⟨k1, tr, k2, k3⟩
        refine ⟨k1, tr, k2, fun hb => ?_⟩
        rw [k3 hb]; simp [levels, effective, h1, h0]

theorem process_wait (map : List ℕ) (c : Core F) (g : StA F) (h : HoldsUp map g c.conds c.waitUntil) :
    (Mril.process c).wp (awMon map) (fun g c => HoldsUp map g c.conds c.waitUntil ∧ (c.done = true → c.conds = [] ∧ EndedWait map g)) g := by
  unfold Mril.process IOL.isDone
  rw [wp_bind, wp_bind]
  refine wp_mono ?_ (check_wait map c.conds g)
  rintro g1 b ⟨k1, tr, k2, k3⟩
  obtain ⟨g11, g12⟩ := g1
  dsimp only at k1 k2
  subst k1 k2
  cases b with
  | false => exact ⟨HoldsUp.more h, fun e => (by cases e)⟩
  | true =>
    have h1 : ∀ cs, PinsOk cs → g.1 = some (text cs) → OnlyBrief (g.2 ++ tr) → (∀ l, Awaits map cs l → SeenTogether (g.2 ++ tr) l) ∧ ∀ ms, Delays ms cs → ∃ t, .now t ∈ g.2 ++ tr ∧ c.waitUntil = u32 (t + ms) := by
      intro cs p1 p2 p3
      obtain ⟨q1, q2⟩ := h cs p1 p2 (onlyBrief_left p3)
      refine ⟨fun l hl => ?_, fun ms hms => (q2 ms hms).imp fun t ht => ⟨by simp [ht.1], ht.2⟩⟩
      rcases q1 l hl with e | ⟨-, e⟩
      · exact ⟨g.2, [], by rw [k3 rfl, e]; simp⟩
      · exact seen_more e
    have h2 : HoldsUp map (g.1, g.2 ++ tr) [] c.waitUntil := fun cs p1 p2 p3 => ⟨fun l hl => .inr ⟨rfl, (h1 cs p1 p2 p3).1 l hl⟩, (h1 cs p1 p2 p3).2⟩
    show Prog.wp (awMon map) (if true && !c.rc.isMoving then _ else _) _ _
    split
    · intro t _
      show Prog.wp (awMon map) (if Wait.isDone t c.waitUntil then _ else _) _ (g.1, g.2 ++ tr ++ [.now t])
      split
      · rename_i hd
        have h3 : EndedWait map (g.1, g.2 ++ tr ++ [.now t]) := by
          intro cs p1 p2 p3
          obtain ⟨q1, q2⟩ := h1 cs p1 p2 (onlyBrief_left p3)
          refine ⟨fun l hl => seen_more (q1 l hl), fun ms hms => ?_⟩
          obtain ⟨t0, w1, w2⟩ := q2 ms hms
          obtain ⟨u, v, e⟩ := List.append_of_mem w1
          refine ⟨t0, t, u, v, [], by rw [e], fun hlt => ?_⟩
          simp only [Wait.isDone, decide_eq_true_eq] at hd
          rw [w2, u32, Nat.mod_eq_of_lt hlt] at hd
          exact hd
        show Prog.wp (awMon map) (if 0 < c.commandNumber then _ else _) _ _
        split
        · refine ⟨fun _ => h3, ?_⟩
          have hb : ¬ BeginsI (.out (.msg (.n1 c.commandNumber)) : Act F) := by rintro ⟨_, _, e⟩; cases e
          exact ⟨HoldsUp.act (HoldsUp.more h2) hb, fun _ => ⟨rfl, h3.act hb⟩⟩
        · exact ⟨HoldsUp.more h2, fun _ => ⟨rfl, h3⟩⟩
      · exact ⟨HoldsUp.more h2, fun e => (by cases e)⟩
    · exact ⟨h2, fun e => (by cases e)⟩

theorem wait_inv (cfg : Cfg F) (hmap : 10 ≤ cfg.pinMap.length) :
    CoreInv cfg (awMon (F := F) cfg.pinMap) (fun g c => HoldsUp cfg.pinMap g c.conds c.waitUntil) (fun g c => HoldsUp cfg.pinMap g c.conds c.waitUntil ∧ (c.done = true → c.conds = [] ∧ EndedWait cfg.pinMap g)) where
  flt _ := trivial
  weak _ _ h := h.1
  disp g c a h ha := by
    have hb : tamely a := by
      refine ⟨by rintro ⟨_, _, rfl⟩; exact ha, fun hp => ?_⟩
      unfold Proceeds at hp
      split at hp <;> first | exact ha | exact hp
    exact ⟨fun hp => absurd hp hb.2, h.act hb.1⟩
  dispJ g c a h ha := by
    have hb : tamely a := by
      refine ⟨by rintro ⟨_, _, rfl⟩; exact ha, fun hp => ?_⟩
      unfold Proceeds at hp
      split at hp <;> first | exact ha | exact hp
    exact ⟨fun hp => absurd hp hb.2, h.1.act hb.1, fun hd => ⟨(h.2 hd).1, (h.2 hd).2.act hb.1⟩⟩
  rc g c h := by
    refine wp_mono ?_ (ans_keep (RC.process_only cfg.toRCfg c.rc) (fun g' => HoldsUp cfg.pinMap g' c.conds c.waitUntil) g h ?_ (fun _ => trivial))
    · rintro g' r hr; exact hr.1
    · intro g' a hg ha
      have hb : tamely a := by
        refine ⟨by rintro ⟨_, _, rfl⟩; exact ha, fun hp => ?_⟩
        unfold Proceeds at hp
        split at hp <;> first | exact ha | exact hp
      exact ⟨fun hp => absurd hp hb.2, hg.act hb.1⟩
  check g c h := process_wait _ c g h
  parse g c m src h := by
    by_cases hi : src = .immediate
    · subst hi
      simp only [if_true] at h
      refine ⟨fun hp => absurd rfl hp, ?_⟩
      show Prog.wp (awMon cfg.pinMap) _ _ (g.1, g.2 ++ [.out (.ghost .immediate m)])
      by_cases hm : WaitsNot m
      · refine wp_mono ?_ (ans_keep (parse_still cfg c hm) (fun g' => HoldsUp cfg.pinMap g' c.conds c.waitUntil) _ (HoldsUp.more h) ?_ (fun _ => trivial))
        · rintro g' r ⟨h1, h2, h3⟩; rw [h2, h3]; exact h1
        · intro g' a hg ha
          have hb := mrilAct_tamely ha
          exact ⟨fun hp => absurd hp hb.2, hg.act hb.1⟩
      · refine wp_mono ?_ (ans_keep (parse_only cfg c m) (fun g' => .out (.ghost .immediate m) ∈ g'.2) _ (by simp) ?_ (fun _ => trivial))
        · rintro g' r ⟨h1, -⟩
          exact fun cs _ _ hb => absurd (hb _ _ h1).2 hm
        · intro g' a hg ha
          have hb := mrilAct_tamely ha
          refine ⟨fun hp => absurd hp hb.2, ?_⟩
          show _ ∈ (awUpd g' a).2
          rw [awUpd_other hb.1]; simp [hg]
    · rw [if_neg hi] at h
      obtain ⟨⟨h1, h2⟩, hd⟩ := h
      obtain ⟨h2, h3⟩ := h2 hd
      refine ⟨fun _ => h3, ?_⟩
      have e : (awMon cfg.pinMap).upd g (.out (.ghost src m)) = (some m, []) := by show awUpd g (.out (.ghost src m)) = _; simp [awUpd, hi]
      rw [e]
      by_cases hcs : ∃ cs, (∀ c ∈ cs, c.Ok) ∧ m = text cs
      · obtain ⟨cs, hs, rfl⟩ := hcs
        have fin : ∀ (g' : StA F) (c' : Core F), Midway cfg.pinMap cs (text cs) g' c' → HoldsUp cfg.pinMap g' c'.conds c'.waitUntil := by
          intro g' c' hm cs' p1 p2 p3
          have : cs = cs' := text_inj hs p1.ok (Option.some.inj (hm.text.symm.trans p2))
          subst this
          exact ⟨fun l hl => .inl (by rw [hm.conds]; exact awaits_levels hmap hl), hm.wait⟩
        have h0 : ∀ rc, Midway cfg.pinMap [] (text cs) ((some (text cs), []) : StA F) { c with rc := rc } :=
          fun rc => ⟨rfl, fun _ _ h => (by cases h), h2, fun ms ⟨a, d, b, e, _⟩ => (by simp at e)⟩
        by_cases hne : cs = []
        · subst hne; exact fin _ c (h0 c.rc)
        · rw [parse_text cfg cs hs hne, wp_bind]
          refine wp_mono ?_ (execAll_midway cfg cs _ _ (h0 _))
          rintro g' ⟨s, l⟩ hg
          have hg := fin _ _ hg
          unfold Mril.finish
          simp only [send, bind_def, Prog.bind]
          split
          · exact ⟨fun hp => hp.elim, HoldsUp.act hg (by rintro ⟨_, _, h⟩; cases h)⟩
          · exact hg
          · exact hg
      · refine wp_mono ?_ (ans_keep (parse_only cfg c m) (fun g' => g'.1 = some m) _ rfl ?_ (fun _ => trivial))
        · rintro g' c' ⟨hg, -⟩ cs p1 p2 _
          exact absurd ⟨cs, p1.ok, Option.some.inj (hg.symm.trans p2)⟩ hcs
        · intro g' a hg ha
          have hb := mrilAct_tamely ha
          refine ⟨fun hp => absurd hp hb.2, ?_⟩
          show (awUpd g' a).1 = _
          rw [awUpd_other hb.1]; exact hg

theorem wait_sound {cfg : Cfg F} (hmap : 10 ≤ cfg.pinMap.length) {junk : Nat → Byte} {tr : List (Act F)} {p : Prog F (FW F)} (h : Trace cfg junk tr p) :
    (∀ pre a post, tr = pre ++ a :: post → a.isInput = false → (awMon cfg.pinMap).ok (pre.foldl awUpd (some [], [])) a) ∧
    p.wp (awMon cfg.pinMap) (fun g s => HoldsUp cfg.pinMap g s.core.conds s.core.waitUntil) (tr.foldl awUpd (some [], [])) := by
  refine Trace.sound (awMon cfg.pinMap) (fun g s => HoldsUp cfg.pinMap g s.core.conds s.core.waitUntil) (some [], []) ?_ (fun g s h => (wait_inv cfg hmap).loop_wp s h) h (fun _ _ _ _ _ => trivial)
  refine wp_mono (fun g s hs => ?_) (ans_keep (K := tamely) (R := fun s => s.core.conds = [] ∧ s.core.waitUntil = 0) (p := setup cfg junk) ?_ (fun g : StA F => g.1 = some []) (some [], []) rfl (fun g a hg ha => ⟨fun hp => absurd hp ha.2, ?_⟩) (fun _ => trivial))
  · intro cs h1 h2 _
    have : cs = [] := by
      have e := Option.some.inj (hs.1.symm.trans h2)
      cases cs with
      | nil => rfl
      | cons c cs => simp [text, Cmd.text] at e
    subst this
    refine ⟨fun l hl => .inl ?_, fun ms hms => ?_⟩
    · cases hl; rw [hs.2.1]; rfl
    · obtain ⟨x, y, z, e, -⟩ := hms
      simp at e
  · simp only [setup, RC.new, RC.getCurrentPose, RC.getCurrentLogicalAngles, RC.readAngles, readServo, bind_def, pure_def, Prog.bind, only, tamely, BeginsI, Proceeds]
    simp
  · show (awUpd g a).1 = some []
    rw [awUpd_other ha.1]; exact hg

theorem awUpd_since (pre mid : List (Act F)) {src : Src} (hs : src ≠ .immediate) (m : List Byte) (hm : OnlyBrief mid) (g : StA F) : (pre ++ .out (.ghost src m) :: mid).foldl awUpd g = (some m, mid) := by
  rw [List.foldl_append, List.foldl_cons]
  have e : ∀ g : StA F, awUpd g (.out (.ghost src m)) = (some m, []) := fun g => by simp [awUpd, hs]
  rw [e]
  have key : ∀ x : List (Act F), mid.foldl awUpd (some m, x) = (some m, x ++ mid) := by
    induction mid with
    | nil => intro x; simp
    | cons a mid ih =>
      intro x
      rw [List.foldl_cons]
      have : awUpd (some m, x) a = (some m, x ++ [a]) := by
        by_cases hb : BeginsI a
        · obtain ⟨s, m', rfl⟩ := hb
          obtain ⟨rfl, -⟩ := hm s m' List.mem_cons_self
          rfl
        · exact awUpd_other hb
      rw [this, ih fun s m h => hm s m (by simp [h])]
      simp
  simpa using key []

/-- **C127**: in every history: an instruction from queue or storage has begun, since then at most immediate instructions that do not wait. When it is reported as finished, or the next one begins, then all
the inputs it waits for have been seen together with their levels, and its waiting time has passed. -/
theorem C127_waits {cfg : Cfg F} (hmap : 10 ≤ cfg.pinMap.length) {junk : Nat → Byte} {tr : List (Act F)} {p : Prog F (FW F)} (h : Trace cfg junk tr p) {pre mid post : List (Act F)} {src : Src} (hs : src ≠ .immediate)
    {cs : List Cmd} (hcs : PinsOk cs) {a : Act F} (e : tr = pre ++ .out (.ghost src (text cs)) :: mid ++ a :: post) (hm : OnlyBrief mid) (ha : Proceeds a) :
    (∀ l, Awaits cfg.pinMap cs l → SeenTogether mid l) ∧ ∀ ms, Delays ms cs → TimePassed mid ms := by
  have hi : a.isInput = false := by
    unfold Proceeds at ha
    split at ha
    · rfl
    · rfl
    · exact ha.elim
  have := (wait_sound hmap h).1 _ _ _ e hi ha
  rw [awUpd_since pre mid hs _ hm] at this
  exact this cs hcs rfl hm

/-- **C127**, as it happens: at times `k` and `j` an instruction from queue or storage begins, and is reported as finished (or the next one begins); in between at most immediate instructions that do not wait
begin. Every input it waits for had its level at a time in between; and if the clock does not go back in between (it does so after 49 days), more than the named milliseconds have passed. -/
theorem C127_time {cfg : Cfg F} (hmap : 10 ≤ cfg.pinMap.length) {w0 : World F} {junk : Nat → Byte} {σ : ℕ → Sys F} {ev : ℕ → Ev F} (h : Endless cfg w0 junk σ ev) {k j : ℕ} {src : Src} (hs : src ≠ .immediate)
    {cs : List Cmd} (hcs : PinsOk cs) (hk : ev k = .act (.out (.ghost src (text cs)))) (hkj : k < j) {a : Act F} (hj : ev j = .act a) (ha : Proceeds a)
    (hb : ∀ i s m, k < i → i < j → ev i = .act (.out (.ghost s m)) → s = .immediate ∧ WaitsNot m) :
    (∀ l, Awaits cfg.pinMap cs l → ∀ x ∈ l, ∃ i, k < i ∧ i < j ∧ (σ i).w.pins x.1 = x.2) ∧
    ∀ ms, Delays ms cs → (∀ i i', k ≤ i → i ≤ i' → i' ≤ j → (σ i).w.now ≤ (σ i').w.now) → (σ j).w.now + ms < 4294967296 → (σ k).w.now + ms < (σ j).w.now := by
  have split : acts (sofar ev (j + 1)) = acts (sofar ev k) ++ .out (.ghost src (text cs)) :: acts (span ev (k + 1) (j - (k + 1))) ++ a :: [] := by
    have : acts (sofar ev (j + 1)) = acts (sofar ev j) ++ [a] := by simp [sofar, List.range_succ, hj, acts]
    rw [this, sofar_span, span_split (c := k) (Nat.zero_le _) (by omega) hk]
    simp [sofar_span]
  have hmid : OnlyBrief (acts (span ev (k + 1) (j - (k + 1)))) := by
    intro s m hm
    obtain ⟨i, g1, g2, g3⟩ := mem_span.1 (acts_mem.1 hm)
    exact hb i s m (by omega) (by omega) g3
  obtain ⟨h1, h2⟩ := C127_waits hmap (h.run (j + 1)).trace hs hcs split hmid ha
  have hnow : ∀ i t, ev i = .act (.now t) → (σ i).w.now = t := by
    intro i t e
    have hd := h.step i
    rw [e] at hd
    generalize σ i = x at hd ⊢
    generalize σ (i + 1) = y at hd
    cases hd with
    | now => rfl
  have hpin : ∀ i p b, ev i = .act (.pin p b) → (σ i).w.pins p = b := by
    intro i p b e
    have hd := h.step i
    rw [e] at hd
    generalize σ i = x at hd ⊢
    generalize σ (i + 1) = y at hd
    cases hd with
    | pin => rfl
  refine ⟨fun l hl x hx => ?_, fun ms hms hm hw => ?_⟩
  · obtain ⟨u, v, e⟩ := h1 l hl
    have hin : Act.pin x.1 x.2 ∈ acts (span ev (k + 1) (j - (k + 1))) := by
      rw [e]
      exact List.mem_append_left _ (List.mem_append_right _ (List.mem_map.2 ⟨x, hx, rfl⟩))
    obtain ⟨i, g1, g2, g3⟩ := mem_span.1 (acts_mem.1 hin)
    refine ⟨i, by omega, by omega, ?_⟩
    exact hpin i _ _ g3
  · obtain ⟨t, t', u, v, w, e, ht⟩ := h2 ms hms
    rw [List.append_assoc, List.cons_append] at e
    obtain ⟨i, g1, g2, g3, g4⟩ := span_at e
    obtain ⟨i', g5, g6, g7, -⟩ := span_at g4
    have e1 := hnow i t g3
    have e2 := hnow i' t' g7
    have m1 := hm k i (by omega) (by omega) (by omega)
    have m2 := hm i i' (by omega) (by omega) (by omega)
    have m3 := hm i' j (by omega) (by omega) (by omega)
    have := ht (by omega)
    omega

end
end Mrc.Props
