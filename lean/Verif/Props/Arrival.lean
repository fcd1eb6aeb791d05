import Verif.Proof.CoreWp
import Verif.Proof.Aside
import Verif.Proof.Notice
import Verif.Proof.Demo
import Verif.Props.System
import Mathlib.Tactic.ByContra
import Mathlib.Data.List.Induction
/-
C76: what is reported as finished has arrived.
-/
set_option linter.unusedSectionVars false
set_option linter.unusedSimpArgs false
namespace Mrc.Props
open Mrc Mrc.Prog Mrc.Spec
variable {F : Type} [FloatOps F]

/-- every arm servo was, after the last store into it, seen at its target. -/
def SeenArrived (tr : List (Act F)) : Prop :=
  ∀ (i : Fin 6) p1 m p2, tr = p1 ++ .micro (armServo i) m :: p2 → ∃ s, .servo (armServo i) s ∈ p2 ∧ s.atTarget = true

/-- monitor: which servos were seen at the target since the last store; was an immediate instruction that names a place started while one was not. -/
abbrev Seen := (Fin 8 → Bool) × Bool

def Seen.all (g : Seen) : Bool := (List.finRange 6).all fun i => g.1 (armServo i)

open Classical in
noncomputable def seenUpd (g : Seen) : Act F → Seen
  | .servo i s => (fun j => if j = i then g.1 j || s.atTarget else g.1 j, g.2)
  | .micro i _ => (fun j => if j = i then false else g.1 j, g.2)
  | .out (.ghost .immediate m) => (g.1, g.2 || (!g.all && !decide (NoPlace m)))
  | _ => g

/-- arrived, or an immediate instruction interfered. -/
def Seen.fine (g : Seen) : Prop := g.2 = true ∨ ∀ i : Fin 6, g.1 (armServo i) = true

/-- the reports: finished, next instruction started. -/
def reports : Act F → Prop
  | .out (.msg (.n1 _)) => True
  | .out (.ghost .immediate _) => False
  | .out (.ghost _ _) => True
  | _ => False

noncomputable def seenMon : Mon F Seen where
  upd := seenUpd
  ok g a := reports a → g.fine

theorem wp_keep {σ α : Type} {M : Mon F σ} {K : Act F → Prop} {R : α → Prop} (P : σ → Prop) {p : Prog F α} (h : p.only K R) {g : σ} (hg : P g)
    (hK : ∀ g a, P g → K a → M.ok g a ∧ P (M.upd g a)) (hf : ∀ f, M.flt f) : p.wp M (fun g a => P g ∧ R a) g := by
  induction p generalizing g with
  | ret a => exact ⟨hg, h⟩
  | fault f => exact hf f
  | servo i k ih => intro v _; exact ih v (h v).2 (hK _ _ hg (h v).1).2
  | micro i m k ih => exact ⟨(hK _ _ hg h.1).1, ih h.2 (hK _ _ hg h.1).2⟩
  | now k ih => intro v _; exact ih v (h v).2 (hK _ _ hg (h v).1).2
  | pin p k ih => intro v _; exact ih v (h v).2 (hK _ _ hg (h v).1).2
  | rx k ih => intro v _; exact ih v (h v).2 (hK _ _ hg (h v).1).2
  | eeRead k ih => intro v _; exact ih v (h v).2 (hK _ _ hg (h v).1).2
  | eeWrite a b k ih => exact ⟨(hK _ _ hg h.1).1, ih h.2 (hK _ _ hg h.1).2⟩
  | out o k ih => exact ⟨(hK _ _ hg h.1).1, ih h.2 (hK _ _ hg h.1).2⟩

/-- looking at servos. -/
def lookAct : Act F → Prop
  | .servo _ _ => True
  | _ => False

theorem fine_look {g : Seen} {i : Fin 8} {s : Servo F} (h : g.fine) : (seenUpd g (.servo i s)).fine := by
  rcases h with h | h
  · exact .inl h
  · right; intro j; simp only [seenUpd]; split <;> simp [h j]

theorem keep_look {α : Type} {R : α → Prop} {p : Prog F α} (h : p.only lookAct R) {g : Seen} (hg : g.fine) : p.wp seenMon (fun g a => g.fine ∧ R a) g := by
  refine wp_keep _ h hg (fun g a hg ha => ?_) (fun _ => trivial)
  cases a with
  | servo i s => exact ⟨fun h => h.elim, fine_look hg⟩
  | _ => exact ha.elim

theorem any_rc {α : Type} {R : α → Prop} {p : Prog F α} (h : p.only rcAct R) (g : Seen) : p.wp seenMon (fun _ a => R a) g := by
  refine wp_mono (fun _ _ h => h.2) (wp_keep (fun _ => True) h (g := g) trivial (fun g a _ ha => ⟨fun h => ?_, trivial⟩) (fun _ => trivial))
  match a, ha, h with
  | .out (.raw _), _, h => exact h.elim

namespace Arr
open RC

theorem look_readAngles : (readAngles : Prog F (Six F)).only lookAct (fun _ => True) := by
  simp only [readAngles, readServo, bind_def, pure_def, Prog.bind, only, lookAct]
  exact fun _ => ⟨trivial, fun _ => ⟨trivial, fun _ => ⟨trivial, fun _ => ⟨trivial, fun _ => ⟨trivial, fun _ => ⟨trivial, trivial⟩⟩⟩⟩⟩⟩
theorem look_reject (cfg : RCfg F) (r : RC F) : (reject cfg r).only lookAct (fun _ => True) := by
  simp only [reject, getCurrentPose, getCurrentLogicalAngles, bind_def, only_bind, pure_def]
  refine only_mono (fun _ h => h) (fun _ _ => ?_) look_readAngles
  exact only_mono (fun _ h => h) (fun _ _ => trivial) look_readAngles
theorem look_violates (t : Six F) (is : List (Fin 6)) : (violatesPhysical t is).only lookAct (fun _ => True) := by
  induction is with
  | nil => trivial
  | cons i is ih =>
    simp only [violatesPhysical, readServo, bind_def, Prog.bind, only]
    intro s; refine ⟨trivial, ?_⟩
    split
    · trivial
    · exact ih
theorem look_minTime (t : Six F) (is : List (Fin 6)) (acc : F) : (minTime t is acc).only lookAct (fun _ => True) := by
  induction is generalizing acc with
  | nil => trivial
  | cons i is ih => simp only [minTime, readServo, bind_def, Prog.bind, only]; exact fun s => ⟨trivial, ih _⟩

/-- what holds of a controller state: unless moving, everything has arrived. -/
def Rest (g : Seen) (r : RC F) : Prop := r.state = .moving ∨ g.fine

theorem command_rest (cfg : RCfg F) (r : RC F) (t : Six F) (mt : F) {g : Seen} (hg : g.fine) : (command cfg r t mt).wp seenMon Rest g := by
  unfold command
  split
  · exact wp_mono (fun _ _ h => .inr h.1) (keep_look (look_reject cfg r) hg)
  · rw [bind_def, wp_bind]
    refine wp_mono (fun g b hb => ?_) (keep_look (look_violates _ _) hg)
    split
    · exact wp_mono (fun _ _ h => .inr h.1) (keep_look (look_reject cfg r) hb.1)
    · rw [bind_def, wp_bind]
      refine wp_mono (fun g time ht => ?_) (keep_look (look_minTime _ _ _) hb.1)
      split
      · exact .inl rfl
      · rw [bind_def, wp_bind]
        exact wp_mono (fun _ _ _ => .inl rfl) (any_rc (apply_only _ _ _) g)

theorem raw_fine {g : Seen} {x : Raw F} (hg : g.fine) : (seenMon (F := F)).ok g (.out (.raw x)) ∧ (seenMon (F := F)).upd g (.out (.raw x)) = g := ⟨fun _ => hg, rfl⟩

theorem startMove_rest (cfg : RCfg F) (r : RC F) {g : Seen} (hg : g.fine) : (startMove cfg r).wp seenMon Rest g := by
  unfold startMove
  simp only [bind_def, emit, readServo, Prog.bind]
  split
  · exact ⟨fun _ => hg, command_rest cfg _ _ _ hg⟩
  · split
    · exact wp_mono (fun _ _ h => .inr h.1) (keep_look (look_reject cfg _) hg)
    · split
      · exact fun _ _ _ _ => command_rest cfg _ _ _ (fine_look (fine_look hg))
      · exact command_rest cfg _ _ _ hg
  · exact ⟨fun _ => hg, trivial⟩

theorem prepare_rest (cfg : RCfg F) (r : RC F) {g : Seen} (hg : g.fine) : (prepare cfg r).wp seenMon Rest g := by
  unfold prepare
  simp only [bind_def, emit, Prog.bind, pure_def]
  split
  · exact .inr hg
  · have key : ∀ p : Prog F (RC F), p.wp seenMon Rest g →
      (if (!r.anglesChanged && !r.poseChanged) = true then
        (out (.raw (.error "nothing changed, still PREPARE MOVE")) p : Prog F (RC F)) else p).wp seenMon Rest g := by
      intro p hp; split
      · exact ⟨fun _ => hg, hp⟩
      · exact hp
    apply key
    split
    · exact ⟨fun _ => hg, .inr hg⟩
    · simp only [getCurrentPose, getCurrentLogicalAngles, bind_def, pure_def, wp_bind]
      refine wp_mono (fun g a ha => ?_) (keep_look look_readAngles hg)
      simp only [wp]
      refine wp_mono (fun g _ hb => ?_) (keep_look look_readAngles ha.1)
      split
      · exact .inr hb.1
      · split
        · exact startMove_rest cfg _ hb.1
        · split
          · trivial
          · exact startMove_rest cfg _ hb.1
        · exact startMove_rest cfg _ hb.1

theorem allAtTarget_seen (is : List (Fin 6)) (acc : Bool) (g : Seen) :
    (allAtTarget is acc : Prog F Bool).wp seenMon (fun g' b => (∀ j, g.1 j = true → g'.1 j = true) ∧ (b = true → acc = true ∧ ∀ i ∈ is, g'.1 (armServo i) = true)) g := by
  induction is generalizing acc g with
  | nil => exact ⟨fun _ h => h, fun h => ⟨h, fun i hi => by cases hi⟩⟩
  | cons i is ih =>
    simp only [allAtTarget, readServo, bind_def, Prog.bind, wp]
    intro s _
    refine wp_mono (fun g' b hb => ⟨fun j hj => ?_, fun hbt => ?_⟩) (ih _ _)
    · apply hb.1; simp only [seenMon, seenUpd]; split <;> simp [hj]
    · obtain ⟨h1, h2⟩ := hb.2 hbt
      simp only [Bool.and_eq_true] at h1
      refine ⟨h1.1, fun j hj => ?_⟩
      rcases List.mem_cons.1 hj with rfl | hj
      · apply hb.1; simp [seenMon, seenUpd, h1.2]
      · exact h2 j hj

theorem process_rest (cfg : RCfg F) (r : RC F) {g : Seen} (h : Rest g r) : (process cfg r).wp seenMon Rest g := by
  unfold process
  split
  · exact h
  · unfold moving
    rw [bind_def, wp_bind]
    refine wp_mono (fun g' b hb => ?_) (allAtTarget_seen _ _ g)
    split
    · rename_i hbt
      have hf : g'.fine := .inr fun i => (hb.2 hbt).2 i (List.mem_finRange i)
      split
      · exact .inr hf
      · exact startMove_rest cfg _ hf
    · rename_i hs _; exact .inl hs
  · rename_i hs
    exact prepare_rest cfg r (h.resolve_left (by rw [hs]; simp))
  · rename_i hs
    exact startMove_rest cfg r (h.resolve_left (by rw [hs]; simp))

theorem core (cfg : Cfg F) : CoreInv cfg seenMon (fun g c => Rest g c.rc) (fun g c => Rest g c.rc ∧ (c.done = true → g.fine)) where
  flt _ := trivial
  weak _ _ h := h.1
  disp g c a h ha := by
    match a, ha with
    | .rx _, _ => exact ⟨fun h => h.elim, h⟩
    | .eeRead _, _ => exact ⟨fun h => h.elim, h⟩
    | .eeWrite _ _, _ => exact ⟨fun h => h.elim, h⟩
    | .out (.msg (.free _)), _ => exact ⟨fun h => h.elim, h⟩
    | .out (.raw (.error _)), _ => exact ⟨fun h => h.elim, h⟩
  dispJ g c a h ha := by
    match a, ha with
    | .rx _, _ => exact ⟨fun h => h.elim, h⟩
    | .eeRead _, _ => exact ⟨fun h => h.elim, h⟩
    | .eeWrite _ _, _ => exact ⟨fun h => h.elim, h⟩
    | .out (.msg (.free _)), _ => exact ⟨fun h => h.elim, h⟩
    | .out (.raw (.error _)), _ => exact ⟨fun h => h.elim, h⟩
  rc g c h := process_rest cfg.toRCfg c.rc h
  parse g c m src h := by
    have h6 : ∀ (P : Seen → Prop), (∀ g i (s : Servo F), P g → P (seenUpd g (.servo i s))) → (∀ g i (x : Servo.Micro F), 6 ≤ i.val → P g → P (seenUpd g (.micro i x))) →
        ∀ g (a : Act F), P g → mrilAct a → seenMon.ok g a ∧ P (seenMon.upd g a) := by
      intro P h1 h2 g a hg ha
      match a, ha with
      | .servo i s, _ => exact ⟨fun h => h.elim, h1 g i s hg⟩
      | .micro i x, (h6 : 6 ≤ i.val) => exact ⟨fun h => h.elim, h2 g i x h6 hg⟩
      | .now _, _ => exact ⟨fun h => h.elim, hg⟩
      | .out (.msg (.n0 _)), _ => exact ⟨fun h => h.elim, hg⟩
      | .out (.msg (.reply _ _)), _ => exact ⟨fun h => h.elim, hg⟩
      | .out (.raw .comment), _ => exact ⟨fun h => h.elim, hg⟩
      | .out (.pinMode _ _), _ => exact ⟨fun h => h.elim, hg⟩
      | .out (.digitalWrite _ _), _ => exact ⟨fun h => h.elim, hg⟩
    have hfine : (seenUpd g (.out (.ghost src m) : Act F)).fine ∨ NoPlace m ∧ c.rc.state = .moving := by
      cases src with
      | immediate =>
        by_cases hall : g.all = true
        · left; right; intro i
          exact (List.all_eq_true.1 hall) i (List.mem_finRange i)
        · by_cases hp : NoPlace m
          · rcases h with hm | hf
            · exact .inr ⟨hp, hm⟩
            · rcases hf with hf | hf
              · left; left
                show (g.2 || _) = true
                rw [hf]; rfl
              · exact .inl (.inr hf)
          · left; left
            show (g.2 || (!g.all && !@decide (NoPlace m) (Classical.propDecidable _))) = true
            simp [hall, hp]
      | queue => exact .inl (h.1.2 h.2)
      | eeprom => exact .inl (h.1.2 h.2)
    refine ⟨fun hr => ?_, ?_⟩
    · cases src with
      | immediate => exact hr.elim
      | queue => exact h.1.2 h.2
      | eeprom => exact h.1.2 h.2
    · rcases hfine with hfine | ⟨hp, hmv⟩
      · refine wp_mono (fun g r hr => .inr hr.1) (wp_keep Seen.fine (parse_only cfg c m) hfine (h6 _ (fun _ _ _ hg => fine_look hg) fun g i x h6 hg => ?_) (fun _ => trivial))
        rcases hg with hg | hg
        · exact .inl hg
        · right; intro j
          simp only [seenMon, seenUpd]
          rw [if_neg]
          · exact hg j
          · rintro rfl; exact absurd h6 (by simp [armServo])
      · refine wp_mono (fun g r hr => .inl (hr.2.trans hmv)) (wp_keep (fun _ => True) (Asd.parse_state cfg c hp) trivial (h6 _ (fun _ _ _ _ => trivial) fun _ _ _ _ _ => trivial) (fun _ => trivial))
  check g c h := by
    unfold Mril.process IOL.isDone
    rw [wp_bind, wp_bind]
    refine ioCheck_wp _ _ (fun _ _ => rfl) fun b => ?_
    have key : ∀ (b : Bool) (cs : Conds), Prog.wp (seenMon (F := F))
        (if b && !c.rc.isMoving then
          .now fun t =>
            if Wait.isDone t c.waitUntil then
              if 0 < c.commandNumber then
                .out (.msg (.n1 c.commandNumber)) (.ret { c with conds := cs, commandNumber := -1, done := true })
              else .ret { c with conds := cs, done := true }
            else .ret { c with conds := cs, done := false }
        else .ret { c with conds := cs, done := false }) (fun (g : Seen) (c : Core F) => Rest g c.rc ∧ (c.done = true → g.fine)) g := by
      intro b cs
      split
      · rename_i hb
        simp only [Bool.and_eq_true, Bool.not_eq_true', RC.isMoving, bne_eq_false_iff_eq] at hb
        have hf : g.fine := h.resolve_left (by rw [hb.2]; simp)
        intro t _
        show Prog.wp _ (if _ then _ else _) _ _
        split
        · split
          · exact ⟨fun _ => hf, h, fun _ => hf⟩
          · exact ⟨h, fun _ => hf⟩
        · exact ⟨h, fun hd => (by cases hd)⟩
      · exact ⟨h, fun hd => (by cases hd)⟩
    cases b
    · exact key false _
    · exact key true []

theorem seen_iff (tr : List (Act F)) (i : Fin 6) : (tr.foldl seenUpd ((fun _ => true, false) : Seen)).1 (armServo i) = true ↔
    ∀ p1 m p2, tr = p1 ++ .micro (armServo i) m :: p2 → ∃ s, .servo (armServo i) s ∈ p2 ∧ s.atTarget = true := by
  induction tr using List.reverseRecOn with
  | nil => simp
  | append_singleton tr a ih =>
    rw [List.foldl_append]
    generalize tr.foldl seenUpd ((fun _ => true, false) : Seen) = g at *
    have other : (∀ s, a = .servo (armServo i) s → s.atTarget = false) → (∀ m, a ≠ .micro (armServo i) m) →
        ((∀ p1 m p2, tr = p1 ++ .micro (armServo i) m :: p2 → ∃ s, .servo (armServo i) s ∈ p2 ∧ s.atTarget = true) ↔
        ∀ p1 m p2, tr ++ [a] = p1 ++ .micro (armServo i) m :: p2 → ∃ s, .servo (armServo i) s ∈ p2 ∧ s.atTarget = true) := by
      intro h1 h2
      constructor
      · intro h p1 m p2 e
        rcases List.eq_nil_or_concat p2 with rfl | ⟨p3, b, rfl⟩
        · have := (List.append_inj' e rfl).2; simp at this; exact absurd this (h2 m)
        · have e' : tr ++ [a] = (p1 ++ .micro (armServo i) m :: p3) ++ [b] := by rw [e]; simp
          obtain ⟨e1, e2⟩ := List.append_inj' e' rfl
          obtain ⟨s, hs, ht⟩ := h p1 m p3 e1
          exact ⟨s, by simp [hs], ht⟩
      · intro h p1 m p2 e
        obtain ⟨s, hs, ht⟩ := h p1 m (p2 ++ [a]) (by rw [e]; simp)
        rcases List.mem_append.1 hs with hs | hs
        · exact ⟨s, hs, ht⟩
        · have := List.mem_singleton.1 hs
          rw [h1 s this.symm] at ht; cases ht
    have same : (∀ s, a = .servo (armServo i) s → s.atTarget = false) → (∀ m, a ≠ .micro (armServo i) m) → (seenUpd g a).1 (armServo i) = g.1 (armServo i) := by
      intro h1 h2
      match a with
      | .servo j s =>
        simp only [seenUpd]; split
        · rename_i e; subst e; simp [h1 s rfl]
        · rfl
      | .micro j m =>
        simp only [seenUpd]; rw [if_neg]; rintro rfl; exact h2 m rfl
      | .now _ | .pin _ _ | .rx _ | .eeRead _ | .eeWrite _ _ => rfl
      | .out o => cases o with
        | ghost src m => cases src <;> rfl
        | _ => rfl
    by_cases h1 : ∃ s, a = .servo (armServo i) s ∧ s.atTarget = true
    · obtain ⟨s, rfl, hs⟩ := h1
      simp only [List.foldl_cons, List.foldl_nil, seenUpd, if_true, hs, Bool.or_true, true_iff]
      intro p1 m p2 e
      rcases List.eq_nil_or_concat p2 with rfl | ⟨p3, b, rfl⟩
      · have := (List.append_inj' e rfl).2; simp at this
      · have e' : tr ++ [.servo (armServo i) s] = (p1 ++ .micro (armServo i) m :: p3) ++ [b] := by rw [e]; simp
        obtain ⟨_, e2⟩ := List.append_inj' e' rfl
        simp at e2; subst e2
        exact ⟨s, by simp, hs⟩
    · have h1' : ∀ s, a = .servo (armServo i) s → s.atTarget = false := fun s e => by
        by_contra h; exact h1 ⟨s, e, by simpa using h⟩
      by_cases h2 : ∃ m, a = .micro (armServo i) m
      · obtain ⟨m, rfl⟩ := h2
        simp only [List.foldl_cons, List.foldl_nil, seenUpd, if_true, Bool.false_eq_true, false_iff]
        intro h
        obtain ⟨s, hs, _⟩ := h tr m [] rfl
        cases hs
      · have h2' : ∀ m, a ≠ .micro (armServo i) m := fun m e => h2 ⟨m, e⟩
        simp only [List.foldl_cons, List.foldl_nil]
        rw [same h1' h2', ih, other h1' h2']

theorem seenArrived_iff (tr : List (Act F)) : SeenArrived tr ↔ ∀ i : Fin 6, (tr.foldl seenUpd ((fun _ => true, false) : Seen)).1 (armServo i) = true := by
  simp only [seen_iff]; rfl

theorem flag_false (tr : List (Act F)) (h : ∀ p1 m p2, tr = p1 ++ .out (.ghost .immediate m) :: p2 → ¬ NoPlace m → SeenArrived p1) :
    (tr.foldl seenUpd ((fun _ => true, false) : Seen)).2 = false := by
  induction tr using List.reverseRecOn with
  | nil => rfl
  | append_singleton tr a ih =>
    have ih := ih (fun p1 m p2 e => h p1 m (p2 ++ [a]) (by rw [e]; simp))
    have hs := fun e : ∃ m, a = .out (.ghost .immediate m) ∧ ¬ NoPlace m => (seenArrived_iff tr).1 (by obtain ⟨m, rfl, hm⟩ := e; exact h tr m [] rfl hm)
    rw [List.foldl_append]
    generalize tr.foldl seenUpd ((fun _ => true, false) : Seen) = g at *
    match a, hs with
    | .servo _ _, _ | .micro _ _, _ | .now _, _ | .pin _ _, _ | .rx _, _ | .eeRead _, _ | .eeWrite _ _, _ => exact ih
    | .out o, hs => cases o with
      | ghost src m => cases src with
        | immediate =>
          show (g.2 || (!g.all && !@decide (NoPlace m) (Classical.propDecidable _))) = false
          rw [ih]
          by_cases hp : NoPlace m
          · simp [hp]
          · have : g.all = true := List.all_eq_true.2 fun i _ => hs ⟨m, rfl, hp⟩ i
            simp [this]
        | _ => exact ih
      | _ => exact ih

end Arr

/-- **C76**: in every history in which immediate instructions that name a place were only given while the arm was at rest (others may be given at any time): when an instruction is reported as finished (N1), or the next one from
the queue or the storage is started, then every arm servo has been seen at its target since it was last commanded. -/
theorem C76_arrived_partial {cfg : Cfg F} {junk : Nat → Byte} {tr : List (Act F)} {p : Prog F (FW F)} (h : Trace cfg junk tr p)
    (hi : ∀ p1 m p2, tr = p1 ++ .out (.ghost .immediate m) :: p2 → ¬ NoPlace m → SeenArrived p1)
    {pre post : List (Act F)} {a : Act F} (ha : (∃ n, a = .out (.msg (.n1 n))) ∨ Starts a) (ht : tr = pre ++ a :: post) : SeenArrived pre := by
  -- setup only looks: all servos stay marked
  have hsound := Trace.sound (cfg := cfg) (junk := junk) (seenMon (F := F)) (fun g s => Arr.Rest g s.core.rc) (fun _ => true, false) ?_
    (fun g s hs => (Arr.core cfg).loop_wp s hs) h (fun _ _ _ _ _ => trivial)
  · have hr : reports a := by
      rcases ha with ⟨n, rfl⟩ | ⟨src, m, hs, rfl⟩
      · trivial
      · cases src <;> first | trivial | exact absurd rfl hs
    have hin : a.isInput = false := by
      rcases ha with ⟨n, rfl⟩ | ⟨src, m, hs, rfl⟩ <;> rfl
    have := hsound.1 pre a post ht hin hr
    rw [Arr.seenArrived_iff]
    rcases this with h2 | h2
    · change (pre.foldl seenUpd ((fun _ => true, false) : Seen)).2 = true at h2
      rw [Arr.flag_false pre (fun p1 m p2 e => hi p1 m (p2 ++ a :: post) (by rw [ht, e]; simp))] at h2; cases h2
    · exact h2
  · simp only [setup, RC.new, RC.getCurrentPose, RC.getCurrentLogicalAngles, RC.readAngles, readServo, bind_def, pure_def, Prog.bind, wp]
    intros
    right
    iterate 12 refine fine_look ?_
    exact .inr fun _ => rfl

section
open Mrc.Demo
/-- is it N1? -/
private def isN1 : Act Rat → Bool
  | .out (.msg (.n1 _)) => true
  | _ => false

-- a queued move of axis 0 runs to its end and is reported with N1 5: the hypotheses are met (no immediate instruction), and there are stores before the report
example : ((kitT ":QM0V70N5R01\x0d:QN6\x0d" 12).1.all fun | .out (.ghost .immediate _) => false | _ => true) = true ∧
    ((kitT ":QM0V70N5R01\x0d:QN6\x0d" 12).1.filterMap fun | .out (.msg (.n1 n)) => some n | _ => none) = [5] ∧
    (((kitT ":QM0V70N5R01\x0d:QN6\x0d" 12).1.takeWhile fun a => !isN1 a).filterMap fun | .micro 0 (.setTarget x) => some x | _ => none) = [1/60] := by
  decide +kernel

/-- **C76/2**, why immediate instructions are excepted: while the queued move to 45° is under way, an immediate instruction that is refused ("EN6X1R01" names both a pose and an
angle) stops the supervision: it is reported as finished (N1 6) although axis 0 has not been seen at its target. -/
theorem C76_immediate_false : ∃ (tr pre post : List (Act Rat)) (p : Prog Rat (FW Rat)), @Trace Rat toyFloat (@Kit.cfg Rat toyFloat) (fun _ => 0) tr p ∧
    tr = pre ++ .out (.msg (.n1 6)) :: post ∧ ¬ @SeenArrived Rat toyFloat pre := by
  let rx := ":QM0R045\x0dxxxxxxxxxxxxxxxxxxxxxxxxxxxxxxxxxxxxxxxxxxxxxxxxxx:EN6X1R01\x0d"
  let tr := (kitT rx 5).1
  have h1 : (match tr.dropWhile (fun a => !isN1 a) with | .out (.msg (.n1 6)) :: _ => true | _ => false) = true := by decide +kernel
  have h2 : (@List.foldl Seen (Act Rat) (@seenUpd Rat toyFloat) ((fun _ => true, false) : Seen) (tr.takeWhile fun a => !isN1 a)).1 0 = false := by decide +kernel
  have h3 := (List.takeWhile_append_dropWhile (p := fun a => !isN1 a) (l := tr)).symm
  generalize hd : tr.dropWhile (fun a => !isN1 a) = d at h1 h3
  match d, h1 with
  | .out (.msg (.n1 6)) :: post, _ =>
    refine ⟨tr, _, post, _, kitT_trace rx 5, h3, fun h => ?_⟩
    have := (@Arr.seenArrived_iff Rat toyFloat _).1 h 0
    rw [show armServo 0 = 0 from rfl, h2] at this; cases this
end

end Mrc.Props
