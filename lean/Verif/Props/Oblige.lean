import Verif.Spec.Oblige
import Verif.Props.Await
import Verif.Props.Waiting
/-
C128: with surroundings that give it what it waits for, the controller never waits for ever.
-/
set_option linter.unusedSectionVars false
set_option linter.unusedSimpArgs false
namespace Mrc.Props
open Mrc Mrc.Prog Mrc.Spec Mrc.Rest

section
variable {F : Type} [FloatOps F]

/-! ### the monitor: the whole history -/

def allMon : Mon F (List (Act F)) where
  upd g a := g ++ [a]
  ok _ _ := True

def LegibleD (tr : List (Act F)) : Prop := ∀ src m, .out (.ghost src m) ∈ tr → ∃ cs, (∀ c ∈ cs, c.Ok) ∧ m = text cs ∧ ∀ c ∈ cs, c.letter = 68 → ∃ ms, NamesDelay ms c

def DueIs (tr : List (Act F)) (T : ℕ) : Prop := (T = 0 ∧ ∀ s m, .out (.ghost s m) ∈ tr → NoDelay m) ∨ DueAt tr T

theorem LegibleD.left {x y : List (Act F)} (h : LegibleD (x ++ y)) : LegibleD x := fun s m hm => h s m (by simp [hm])

theorem DueIs.more {tr : List (Act F)} {T : ℕ} (h : DueIs tr T) {x : List (Act F)} (hx : ∀ s m, .out (.ghost s m) ∈ x → NoDelay m) : DueIs (tr ++ x) T := by
  rcases h with ⟨h1, h2⟩ | ⟨pre, src, cs, u, t, v, ms, rfl, h1, h2, h3, h4, h5⟩
  · exact .inl ⟨h1, fun s m hm => (List.mem_append.1 hm).elim (h2 s m) (hx s m)⟩
  · refine .inr ⟨pre, src, cs, u, t, v ++ x, ms, by simp, h1, h2, h3, fun s m hm => ?_, h5⟩
    rw [← List.append_assoc] at hm
    exact (List.mem_append.1 hm).elim (h4 s m) (hx s m)

theorem DueIs.act {tr : List (Act F)} {T : ℕ} (h : DueIs tr T) {a : Act F} (ha : ¬ BeginsI a) : DueIs (tr ++ [a]) T :=
  h.more fun s m hm => absurd ⟨_, _, (List.mem_singleton.1 hm).symm⟩ ha

/-- while the commands of an instruction are executed. -/
structure DueUnder (pre : List (Act F)) (src : Src) (m : List Byte) (did : List Cmd) (mid : List (Act F)) (wu : ℕ) : Prop where
  brief : ∀ a ∈ mid, ¬ BeginsI a
  count : readings mid = delays did
  none : delays did = 0 → DueIs pre wu
  some : 0 < delays did → (∀ c ∈ did, c.letter = 68 → ∃ ms, NamesDelay ms c) → ∃ ms u t v, Delays ms did ∧ mid = u ++ .now t :: v ∧ readings u + 1 = delays did ∧ wu = u32 (t + ms)

set_option maxHeartbeats 1000000 in
/-- only D reads the clock. -/
theorem exec_noClock (cfg : Cfg F) (s : Core F) (l : Loc F) (tok : List Byte) (h : tok.headD 0 ≠ 68) :
    (Mril.exec cfg s l tok).only (fun a => ∀ t, a ≠ .now t) (fun _ => True) := by
  exec_leaves
  all_goals first
    | exact absurd ‹_› h
    | simp [Prog.bind, only]

theorem readings_snoc {x : List (Act F)} {a : Act F} (h : ∀ t, a ≠ .now t) : readings (x ++ [a]) = readings x := by
  cases a with
  | now t => exact absurd rfl (h t)
  | _ => simp [readings]

theorem only_and2 {α : Type} {p : Prog F α} {K K' : Act F → Prop} {R R' : α → Prop} (h : p.only K R) (h' : p.only K' R') : p.only (fun a => K a ∧ K' a) (fun a => R a ∧ R' a) := by
  induction p with
  | ret a => exact ⟨h, h'⟩
  | fault f => trivial
  | servo i k ih => exact fun v => ⟨⟨(h v).1, (h' v).1⟩, ih v (h v).2 (h' v).2⟩
  | now k ih => exact fun v => ⟨⟨(h v).1, (h' v).1⟩, ih v (h v).2 (h' v).2⟩
  | pin p k ih => exact fun v => ⟨⟨(h v).1, (h' v).1⟩, ih v (h v).2 (h' v).2⟩
  | rx k ih => exact fun v => ⟨⟨(h v).1, (h' v).1⟩, ih v (h v).2 (h' v).2⟩
  | eeRead k ih => exact fun v => ⟨⟨(h v).1, (h' v).1⟩, ih v (h v).2 (h' v).2⟩
  | micro i m k ih => exact ⟨⟨h.1, h'.1⟩, ih h.2 h'.2⟩
  | eeWrite a b k ih => exact ⟨⟨h.1, h'.1⟩, ih h.2 h'.2⟩
  | out o k ih => exact ⟨⟨h.1, h'.1⟩, ih h.2 h'.2⟩

theorem exec_under (cfg : Cfg F) (s : Core F) (l : Loc F) (c : Cmd) {pre : List (Act F)} {src : Src} {m : List Byte} {did : List Cmd} {mid : List (Act F)} (h : DueUnder pre src m did mid s.waitUntil) :
    (Mril.exec cfg s l c.text).wp allMon (fun g' r => ∃ mid', g' = pre ++ .out (.ghost src m) :: mid' ∧ DueUnder pre src m (did ++ [c]) mid' r.1.waitUntil) (pre ++ .out (.ghost src m) :: mid) := by
  by_cases h8 : c.letter = 68
  · obtain ⟨letter, arg⟩ := c
    dsimp only at h8; subst h8
    simp only [Mril.exec, Cmd.text, List.headD_cons]
    simp [poseIdx]
    intro t _
    refine ⟨mid ++ [.now t], by simp [allMon], ?_⟩
    have hd : delays (did ++ [⟨68, arg⟩]) = delays did + 1 := by simp [delays]
    refine ⟨?_, ?_, fun e => (by omega), fun _ hn => ?_⟩
    · intro a ha
      rcases List.mem_append.1 ha with ha | ha
      · exact h.brief a ha
      · rw [List.mem_singleton.1 ha]; rintro ⟨_, _, e⟩; cases e
    · rw [hd, ← h.count]; simp [readings]
    · obtain ⟨ms, hms⟩ := hn ⟨68, arg⟩ (by simp) rfl
      refine ⟨ms, mid, t, [], ⟨did, _, [], rfl, hms, by simp⟩, rfl, by rw [h.count, hd], ?_⟩
      show Wait.waitMs t (u32OfInt (atol arg)) = _
      rw [show u32OfInt (atol arg) = ms from delay_atol hms]; rfl
  · have hd : delays (did ++ [c]) = delays did := by simp [delays, h8]
    refine wp_mono ?_ (ans_keep (only_and2 (only_and2 (exec_only cfg s l c.text) (exec_still cfg s l c.text)) (exec_noClock cfg s l c.text h8))
      (fun g' => ∃ x, g' = pre ++ .out (.ghost src m) :: (mid ++ x) ∧ (∀ a ∈ x, ¬ BeginsI a) ∧ readings (mid ++ x) = delays did) _ ⟨[], by simp, by simp, by simpa using h.count⟩ ?_ (fun _ => trivial))
    · rintro g' r ⟨⟨x, rfl, k2, k3⟩, ⟨-, -, k4⟩, -⟩
      refine ⟨mid ++ x, rfl, fun a ha => (List.mem_append.1 ha).elim (h.brief a) (k2 a), by rw [hd, k3], fun e => ?_, fun e hn => ?_⟩
      · rw [k4 h8]; exact h.none (hd ▸ e)
      · obtain ⟨ms, u, t, v, ⟨p, d, q, e1, e2, e3⟩, rfl, g3, g4⟩ := h.some (hd ▸ e) fun c hc => hn c (by simp [hc])
        refine ⟨ms, u, t, v ++ x, ⟨p, d, q ++ [c], by rw [e1]; simp, e2, fun y hy => ?_⟩, by simp, by rw [hd, g3], by rw [k4 h8, g4]⟩
        rcases List.mem_append.1 hy with hy | hy
        · exact e3 y hy
        · rw [List.mem_singleton.1 hy]; exact h8
    · rintro g' a ⟨x, rfl, k2, k3⟩ ⟨⟨ha, -⟩, hn⟩
      refine ⟨trivial, x ++ [a], by simp [allMon], fun b hb => (List.mem_append.1 hb).elim (k2 b) fun e => ?_, ?_⟩
      · rw [List.mem_singleton.1 e]; exact mrilAct_noBegin ha
      · rw [← List.append_assoc, readings_snoc hn, k3]

theorem execAll_under (cfg : Cfg F) (cs : List Cmd) (s : Core F) (l : Loc F) {pre : List (Act F)} {src : Src} {m : List Byte} {did : List Cmd} {mid : List (Act F)} (h : DueUnder pre src m did mid s.waitUntil) :
    (execAll cfg cs s l).wp allMon (fun g' r => ∃ mid', g' = pre ++ .out (.ghost src m) :: mid' ∧ DueUnder pre src m (did ++ cs) mid' r.1.waitUntil) (pre ++ .out (.ghost src m) :: mid) := by
  induction cs generalizing s l did mid with
  | nil => rw [List.append_nil]; exact ⟨mid, rfl, h⟩
  | cons c cs ih =>
    simp only [execAll]
    rw [wp_bind]
    refine wp_mono (fun g' r hr => ?_) (exec_under cfg s l c h)
    obtain ⟨mid', rfl, hr⟩ := hr
    have := ih r.1 r.2 hr
    rwa [List.append_assoc] at this

theorem due_inv (cfg : Cfg F) : CoreInv cfg (allMon (F := F)) (fun g c => LegibleD g → DueIs g c.waitUntil) (fun g c => LegibleD g → DueIs g c.waitUntil) where
  flt _ := trivial
  weak _ _ h := h
  disp g c a h ha := ⟨trivial, fun hl => (h hl.left).act (by rintro ⟨_, _, rfl⟩; exact ha)⟩
  dispJ g c a h ha := ⟨trivial, fun hl => (h hl.left).act (by rintro ⟨_, _, rfl⟩; exact ha)⟩
  rc g c h := by
    refine wp_mono ?_ (ans_keep (RC.process_only cfg.toRCfg c.rc) (fun g' => LegibleD g' → DueIs g' c.waitUntil) g h ?_ (fun _ => trivial))
    · rintro g' r hr; exact hr.1
    · exact fun g' a hg ha => ⟨trivial, fun hl => (hg hl.left).act (by rintro ⟨_, _, rfl⟩; exact ha)⟩
  check g c h := by
    refine wp_mono ?_ (ans_keep (mrilProcess_only c) (fun g' => LegibleD g' → DueIs g' c.waitUntil) g h ?_ (fun _ => trivial))
    · rintro g' r ⟨h1, -, h2⟩; rw [h2]; exact h1
    · exact fun g' a hg ha => ⟨trivial, fun hl => (hg hl.left).act (by rintro ⟨_, _, rfl⟩; exact ha)⟩
  parse g c m src h := by
    have h : LegibleD g → DueIs g c.waitUntil := by split at h; · exact h
                                                    · exact h.1
    refine ⟨trivial, ?_⟩
    show Prog.wp allMon _ _ (g ++ [.out (.ghost src m)])
    by_cases hcs : LegibleD g ∧ ∃ cs, (∀ c ∈ cs, c.Ok) ∧ m = text cs ∧ ∀ c ∈ cs, c.letter = 68 → ∃ ms, NamesDelay ms c
    · obtain ⟨hlg, cs, hs, rfl, hD⟩ := hcs
      have h0 : DueUnder g src (text cs) [] [] c.waitUntil := ⟨by simp, rfl, fun _ => h hlg, fun e => absurd e (by simp [delays])⟩
      have fin : ∀ mid wu, DueUnder g src (text cs) cs mid wu → DueIs (g ++ .out (.ghost src (text cs)) :: mid) wu := by
        intro mid wu hu
        have hnone : ∀ s m, .out (.ghost s m) ∈ mid → NoDelay m := fun s m hm => absurd ⟨s, m, rfl⟩ (hu.brief _ hm)
        by_cases hz : delays cs = 0
        · refine (hu.none hz).more fun s m hm => ?_
          rcases List.mem_cons.1 hm with e | hm
          · cases e
            refine ⟨cs, hs, rfl, fun c hc e => ?_⟩
            have : c ∈ cs.filter fun c => c.letter == 68 := List.mem_filter.2 ⟨hc, by simpa using e⟩
            rw [List.eq_nil_of_length_eq_zero hz] at this; cases this
          · exact hnone s m hm
        · obtain ⟨ms, u, t, v, g1, rfl, g3, g4⟩ := hu.some (by omega) hD
          exact .inr ⟨g, src, cs, u, t, v, ms, by simp, hs, g1, g3, fun s m hm => hnone s m (by
            rcases List.mem_append.1 hm with h | h
            · simp [h]
            · simp [h]), g4⟩
      by_cases hne : cs = []
      · subst hne
        exact fun _ => fin [] _ h0
      · rw [parse_text cfg cs hs hne, wp_bind]
        refine wp_mono ?_ (execAll_under cfg cs { c with rc := c.rc.startTransaction } {} h0)
        rintro g' ⟨s, l⟩ ⟨mid, rfl, hu⟩
        have hg := fin _ _ hu
        unfold Mril.finish
        simp only [send, bind_def, Prog.bind]
        split
        · exact ⟨trivial, fun _ => hg.act (by rintro ⟨_, _, h⟩; cases h)⟩
        · exact fun _ => hg
        · exact fun _ => hg
    · refine wp_mono ?_ (ans_keep (parse_only cfg c m) (fun g' => ¬ LegibleD g') _ ?_ ?_ (fun _ => trivial))
      · exact fun g' c' hg hl => absurd hl hg.1
      · exact fun hl => hcs ⟨hl.left, hl src m (by simp)⟩
      · exact fun g' a hg ha => ⟨trivial, fun hl => hg hl.left⟩

theorem allMon_fold (tr : List (Act F)) : ∀ x, tr.foldl (allMon (F := F)).upd x = x ++ tr := by
  induction tr with
  | nil => simp
  | cons a tr ih => intro x; rw [List.foldl_cons, ih]; simp [allMon]

theorem setup_quiet (cfg : Cfg F) (junk : Nat → Byte) : (setup cfg junk).only (fun a => tamely a) (fun s => s.core.conds = [] ∧ s.core.waitUntil = 0) := by
  simp only [setup, RC.new, RC.getCurrentPose, RC.getCurrentLogicalAngles, RC.readAngles, readServo, bind_def, pure_def, Prog.bind, only, tamely, BeginsI, Proceeds]
  simp

theorem due_sound {cfg : Cfg F} {junk : Nat → Byte} {tr : List (Act F)} {s : FW F} (h : Trace cfg junk tr (.ret s)) (hl : LegibleD tr) : DueIs tr s.core.waitUntil := by
  have := (Trace.sound allMon (fun g s => LegibleD g → DueIs g s.core.waitUntil) [] ?_ (fun g s h => (due_inv cfg).loop_wp s h) h (fun _ _ _ _ _ => trivial)).2
  · rw [allMon_fold] at this
    exact this hl
  · refine wp_mono (fun g s hs _ => ?_) (ans_keep (setup_quiet cfg junk) (fun g : List (Act F) => ∀ a ∈ g, ¬ BeginsI a) [] (by simp) (fun g a hg ha => ⟨trivial, fun b hb => ?_⟩) (fun _ => trivial))
    · exact .inl ⟨hs.2.2, fun s m hm => absurd ⟨_, _, rfl⟩ (hs.1 _ hm)⟩
    · rcases List.mem_append.1 hb with hb | hb
      · exact hg b hb
      · rw [List.mem_singleton.1 hb]; exact ha.1

theorem awaits_exists {map : List ℕ} (hmap : 10 ≤ map.length) {cs : List Cmd} (h : PinsOk cs) : ∃ l, Awaits map cs l := by
  obtain ⟨-, hp⟩ := h
  induction cs with
  | nil => exact ⟨_, .nil⟩
  | cons c cs ih =>
    obtain ⟨l, hl⟩ := ih fun d hd => hp d (by simp [hd])
    by_cases h7 : c.letter = 73
    · obtain ⟨p, s, rest, e⟩ := hp c (by simp) (.inl h7)
      have hx := List.getElem?_eq_getElem (show p.val < map.length by omega)
      by_cases h0 : s = 0
      · subst h0; exact ⟨_, .input (b := false) ⟨h7, rest, e⟩ hx hl⟩
      · by_cases h1 : s = 1
        · subst h1; exact ⟨_, .input (b := true) ⟨h7, rest, e⟩ hx hl⟩
        · exact ⟨_, .odd (s := s) ⟨h7, rest, e⟩ (by omega) hl⟩
    · exact ⟨_, .other h7 hl⟩

/-- the state of the monitor of C127. -/
theorem aw_fold {tr : List (Act F)} (hi : ∀ m, .out (.ghost .immediate m) ∈ tr → WaitsNot m) :
    ∃ m mid, tr.foldl awUpd (some [], []) = (some m, mid) ∧ OnlyBrief mid ∧ ((m = [] ∧ mid = tr) ∨ ∃ pre src, src ≠ .immediate ∧ tr = pre ++ .out (.ghost src m) :: mid) := by
  induction tr using List.reverseRecOn with
  | nil => exact ⟨[], [], rfl, fun _ _ h => (by cases h), .inl ⟨rfl, rfl⟩⟩
  | append_singleton tr a ih =>
    obtain ⟨m, mid, h1, h2, h3⟩ := ih fun m hm => hi m (by simp [hm])
    rw [List.foldl_append, h1, List.foldl_cons, List.foldl_nil]
    have go : OnlyBrief (mid ++ [a]) → ∃ m' mid', (some m, mid ++ [a]) = (some m', mid') ∧ OnlyBrief mid' ∧ ((m' = [] ∧ mid' = tr ++ [a]) ∨ ∃ pre src, src ≠ .immediate ∧ tr ++ [a] = pre ++ .out (.ghost src m') :: mid') := by
      intro hb
      refine ⟨m, mid ++ [a], rfl, hb, ?_⟩
      rcases h3 with ⟨h3, rfl⟩ | ⟨pre, src, h3, rfl⟩
      · exact .inl ⟨h3, rfl⟩
      · exact .inr ⟨pre, src, h3, by simp⟩
    by_cases hb : BeginsI a
    · obtain ⟨src, m', rfl⟩ := hb
      by_cases hs : src = .immediate
      · subst hs
        refine go fun s x hx => ?_
        rcases List.mem_append.1 hx with hx | hx
        · exact h2 s x hx
        · cases List.mem_singleton.1 hx
          exact ⟨rfl, hi _ (by simp)⟩
      · refine ⟨m', [], by simp [awUpd, hs], fun _ _ h => (by cases h), .inr ⟨tr, src, hs, rfl⟩⟩
    · rw [awUpd_other hb]
      exact go (onlyBrief_snoc h2 hb)

/-- **C128**: in surroundings that oblige, whatever the arithmetic: again and again there is a pass of the main loop in which everything waited for is there (the condition of C78-C80, C88, C90, C95, C100), if
every instruction begun is as it should be and the immediate ones do not wait. -/
theorem C128_ready {cfg : Cfg F} (hmap : 10 ≤ cfg.pinMap.length) {w0 : World F} {junk : Nat → Byte} {σ : ℕ → Sys F} {ev : ℕ → Ev F} (h : Endless cfg w0 junk σ ev)
    (hcl : ∀ k src m, ev k = .act (.out (.ghost src m)) → ClearWaits m) (hnow : ∀ k m, ev k = .act (.out (.ghost .immediate m)) → WaitsNot m) (ho : Obliging cfg.pinMap σ ev) : Fair σ ev := by
  intro n
  obtain ⟨a, b, hn, hab, ha, hb, hone, hw⟩ := ho n
  obtain ⟨s, hp⟩ := h.pass ha
  refine ⟨a, b, s, hn, ⟨hab, hp.start, ha, hb, hone⟩, fun k k1 k2 => ?_⟩
  obtain ⟨w1, w2, w3⟩ := hw k k1 k2
  have hin : ∀ src m, .out (.ghost src m) ∈ acts (sofar ev a) → ∃ i, ev i = .act (.out (.ghost src m)) := by
    intro src m hm
    rw [sofar_span] at hm
    obtain ⟨i, -, -, e⟩ := mem_span.1 (acts_mem.1 hm)
    exact ⟨i, e⟩
  have htr : Trace cfg junk (acts (sofar ev a)) (.ret s) := by
    have := (h.run a).trace
    rwa [show (σ a).p = .ret s from hp.start] at this
  refine ⟨?_, ?_⟩
  · obtain ⟨m, mid, e1, e2, e3⟩ := aw_fold (tr := acts (sofar ev a)) fun m hm => by
      obtain ⟨i, e⟩ := hin _ m hm
      exact hnow i m e
    have hH := (wait_sound hmap htr).2
    rw [e1] at hH
    obtain ⟨cs, l, c1, c2, c3, c4⟩ : ∃ cs l, m = text cs ∧ PinsOk cs ∧ Awaits cfg.pinMap cs l ∧ ∀ x ∈ l, (σ k).w.pins x.1 = x.2 := by
      rcases e3 with ⟨rfl, -⟩ | ⟨pre, src, h1, h2⟩
      · exact ⟨[], [], rfl, ⟨by simp, by simp⟩, .nil, by simp⟩
      · obtain ⟨i, e⟩ := hin src m (by rw [h2]; simp)
        obtain ⟨cs, rfl, c2, -⟩ := hcl i src m e
        obtain ⟨l, hl⟩ := awaits_exists hmap c2
        exact ⟨cs, l, rfl, c2, hl, w1 pre src cs mid l h2 c2.ok h1 e2 hl⟩
    subst c1
    intro c hc
    rcases (hH cs c2 rfl e2).1 l c3 with e | ⟨e, -⟩
    · refine ⟨fun h1 => c4 (c.1, true) ?_, fun h0 => c4 (c.1, false) ?_⟩
      · rw [← e]; exact List.mem_map.2 ⟨c, List.mem_filter.2 ⟨hc, by simp [h1]⟩, by simp [h1]⟩
      · rw [← e]; exact List.mem_map.2 ⟨c, List.mem_filter.2 ⟨hc, by simp [h0]⟩, by simp [h0]⟩
    · rw [e] at hc; cases hc
  · have hd := due_sound htr fun src m hm => by
      obtain ⟨i, e⟩ := hin src m hm
      obtain ⟨cs, rfl, c2, c3⟩ := hcl i src m e
      exact ⟨cs, c2.ok, rfl, c3⟩
    rcases hd with ⟨hd, -⟩ | hd
    · rw [hd]; exact w2
    · exact w3 _ hd

end
end Mrc.Props
