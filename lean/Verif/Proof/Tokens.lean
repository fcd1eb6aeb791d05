import Verif.Spec.Tokens
import Verif.Proof.MrilWp
/- Every instruction text either is read without faults in all environments, or in none. -/
namespace Mrc.Tok
open Mrc Mrc.Prog Mrc.Spec
variable {F : Type} [FloatOps F]

def calm : Mon F Unit where
  upd := fun _ _ => ()
  flt := fun _ => False

def any : Mon F Unit where
  upd := fun _ _ => ()

theorem any_of_calm {α : Type} {p : Prog F α} {Q : Unit → α → Prop} {g : Unit} (h : p.wp calm Q g) : p.wp any Q g := by
  induction p generalizing g with
  | ret a => exact h
  | fault f => exact trivial
  | servo i k ih => exact fun v hv => ih v (h v hv)
  | micro i m k ih => exact ⟨h.1, ih h.2⟩
  | now k ih => exact fun v hv => ih v (h v hv)
  | pin p k ih => exact fun v hv => ih v (h v hv)
  | rx k ih => exact fun v hv => ih v (h v hv)
  | eeRead k ih => exact fun v hv => ih v (h v hv)
  | eeWrite a b k ih => exact ⟨h.1, ih h.2⟩
  | out o k ih => exact ⟨h.1, ih h.2⟩

theorem option_some (t : List Byte) (d : Byte) (h : t[1]? = some d) :
    optionAt t 1 = some (u32OfInt ((d.toNat : Int) - 48)) := by
  have hk : 1 < t.length := by
    rcases Nat.lt_or_ge 1 t.length with h' | h'
    · exact h'
    · simp [List.getElem?_eq_none h'] at h
  simp only [optionAt, hk, if_true, h, Option.map_some]

theorem opt_val : ∀ d : Fin 256, u32OfInt ((d.val : Int) - 48) = if 48 ≤ d.val then d.val - 48 else d.val + 4294967248 := by
  decide +kernel

theorem opt_val' (d : Byte) : u32OfInt ((d.toNat : Int) - 48) = if 48 ≤ d.toNat then d.toNat - 48 else d.toNat + 4294967248 :=
  opt_val ⟨d.toNat, d.toNat_lt⟩

theorem option_none (t : List Byte) (hne : t ≠ []) (h : t[1]? = none) : optionAt t 1 = some 4294967248 := by
  have : t.length = 1 := by
    have := List.getElem?_eq_none_iff.1 h
    have := List.length_pos_iff.2 hne
    omega
  simp [optionAt, this, u32OfInt]

theorem headD_iff (t : List Byte) (hne : t ≠ []) (c : Byte) : t.head? = some c ↔ t.headD 0 = c := by
  cases t with
  | nil => exact absurd rfl hne
  | cons a t => simp

/-- does the command wait for an input. -/
def isI (t : List Byte) : Nat := if t.head? = some 73 then 1 else 0

/-- commands other than R, I, O. -/
theorem exec_other (cfg : Cfg F) (s : Core F) (l : Loc F) (tok : List Byte) (g : Unit)
    (h1 : tok.headD 0 ≠ 73) (h2 : tok.headD 0 ≠ 79) (h3 : tok.headD 0 ≠ 82) :
    (Mril.exec cfg s l tok).wp calm (fun _ r => r.1.conds.length = s.conds.length) g := by
  exec_leaves
  all_goals first
    | contradiction
    | simp [Prog.bind, wp, calm]

theorem exec_R (cfg : Cfg F) (s : Core F) (l : Loc F) (tok : List Byte) (g : Unit) (o : Nat)
    (h : tok.headD 0 = 82) (ho : optionAt tok 1 = some o) (h8 : o < 8) :
    (Mril.exec cfg s l tok).wp calm (fun _ r => r.1.conds.length = s.conds.length) g := by
  have hax : 6 ≤ o → ∃ a, axisServo o = some a := by
    intro h6
    rcases (show o = 6 ∨ o = 7 by omega) with rfl | rfl <;> exact ⟨_, rfl⟩
  have har : ¬ 6 ≤ o → ∃ a, armAxis o = some a := fun h6 => ⟨⟨o, by omega⟩, by simp [armAxis]; omega⟩
  by_cases h6 : 6 ≤ o
  · obtain ⟨a, ha⟩ := hax h6
    simp only [Mril.exec, h, ho, RC.getCurrentPose, RC.getCurrentLogicalAngles, RC.readAngles, Mril.setAxis,
      readServo, doMicro, send, bind_def, pure_def, ha, ge_iff_le, h6, poseIdx]
    simp
    split <;> simp [Prog.bind, wp, calm]
  · obtain ⟨a, ha⟩ := har h6
    simp only [Mril.exec, h, ho, RC.getCurrentPose, RC.getCurrentLogicalAngles, RC.readAngles, Mril.setAxis,
      readServo, doMicro, send, bind_def, pure_def, ha, ge_iff_le, h6, poseIdx]
    simp
    split <;> simp [Prog.bind, wp, calm]

theorem exec_R_bad (cfg : Cfg F) (s : Core F) (l : Loc F) (tok : List Byte) (g : Unit) (o : Nat)
    (h : tok.headD 0 = 82) (ho : optionAt tok 1 = some o) (h8 : 8 ≤ o) :
    (Mril.exec cfg s l tok).wp any (fun _ _ => False) g := by
  have ha : axisServo o = none := by
    simp only [axisServo]; rw [if_neg (by omega), if_neg (by omega)]
  have h6 : 6 ≤ o := by omega
  simp only [Mril.exec, h, ho, ha, ge_iff_le, h6, poseIdx]
  simp
  simp [wp, any]

theorem option2 (tok : List Byte) (h : 1 < tok.length) : ∃ n, optionAt tok 2 = some n := by
  simp only [optionAt]
  by_cases h2 : 2 < tok.length
  · rw [if_pos h2, List.getElem?_eq_getElem h2]; exact ⟨_, rfl⟩
  · rw [if_neg h2, if_pos (by omega)]; exact ⟨_, rfl⟩

theorem exec_In (cfg : Cfg F) (s : Core F) (l : Loc F) (tok : List Byte) (g : Unit) (o st p : Nat)
    (h : tok.headD 0 = 73) (ho : optionAt tok 1 = some o) (h2 : optionAt tok 2 = some st) (hp : cfg.pinMap[o]? = some p)
    (hr : s.conds.length < 10) :
    (Mril.exec cfg s l tok).wp calm (fun _ r => r.1.conds.length = s.conds.length + 1) g := by
  have hn : ¬ s.conds.length ≥ MAX_PINS := by show ¬ (10 ≤ s.conds.length); omega
  simp only [Mril.exec, h, ho, h2, poseIdx]
  simp [IOL.addCondition, hp, hn, Prog.bind, wp, calm]

theorem exec_In_full (cfg : Cfg F) (s : Core F) (l : Loc F) (tok : List Byte) (g : Unit)
    (h : tok.headD 0 = 73) (hr : ¬ s.conds.length < 10) :
    (Mril.exec cfg s l tok).wp any (fun _ _ => False) g := by
  have hn : s.conds.length ≥ MAX_PINS := by show (10 ≤ s.conds.length); omega
  simp only [Mril.exec, h, poseIdx]
  simp only [show ¬ ((73 : Byte) = 77) by decide, show ¬ ((73 : Byte) = 86) by decide, show ¬ ((73 : Byte) = 82) by decide, if_false]
  simp
  split
  · simp only [IOL.addCondition]
    split
    · simp [Prog.bind, wp, any]
    · simp [hn, Prog.bind, wp, any]
  · simp [wp, any]

theorem exec_Out (cfg : Cfg F) (s : Core F) (l : Loc F) (tok : List Byte) (g : Unit) (o st p : Nat)
    (h : tok.headD 0 = 79) (ho : optionAt tok 1 = some o) (h2 : optionAt tok 2 = some st) (hp : cfg.pinMap[o]? = some p) :
    (Mril.exec cfg s l tok).wp calm (fun _ r => r.1.conds.length = s.conds.length) g := by
  simp only [Mril.exec, h, ho, h2, poseIdx]
  simp [IOL.setOutput, hp, Prog.bind, wp, calm]
  split
  · simp [Prog.bind, wp]
  · split <;> simp [Prog.bind, wp]

theorem exec_io_bad (cfg : Cfg F) (s : Core F) (l : Loc F) (tok : List Byte) (g : Unit) (o : Nat)
    (h : tok.headD 0 = 73 ∨ tok.headD 0 = 79) (ho : optionAt tok 1 = some o) (hp : cfg.pinMap[o]? = none) :
    (Mril.exec cfg s l tok).wp any (fun _ _ => False) g := by
  rcases h with h | h
  · simp only [Mril.exec, h, ho, poseIdx]
    simp
    split
    · rename_i e _
      simp at e; subst e
      simp [IOL.addCondition, hp, Prog.bind, wp, any]
    · simp [wp, any]
  · simp only [Mril.exec, h, ho, poseIdx]
    simp
    split
    · rename_i e _
      simp at e; subst e
      simp [IOL.setOutput, hp, Prog.bind, wp, any]
    · simp [wp, any]

/-- an executable command with room for its condition never faults. -/
theorem exec_good (cfg : Cfg F) (hm : cfg.pinMap.length = 10) (s : Core F) (l : Loc F) (tok : List Byte) (g : Unit)
    (hne : tok ≠ []) (he : Executable tok) (hr : tok.head? = some 73 → s.conds.length < 10) :
    (Mril.exec cfg s l tok).wp calm (fun _ r => r.1.conds.length = s.conds.length + isI tok) g := by
  obtain ⟨_, hR, hIO⟩ := he
  simp only [isI]
  have pin : ∀ d : Byte, 48 ≤ d → d ≤ 57 → ∃ p, cfg.pinMap[u32OfInt ((d.toNat : Int) - 48)]? = some p := by
    intro d h1 h2
    have h1' : 48 ≤ d.toNat := h1
    have h2' : d.toNat ≤ 57 := h2
    rw [opt_val', if_pos h1']
    exact ⟨_, List.getElem?_eq_getElem (by omega)⟩
  have len : ∀ d : Byte, tok[1]? = some d → 1 < tok.length := by
    intro d h
    rcases Nat.lt_or_ge 1 tok.length with h' | h'
    · exact h'
    · simp [List.getElem?_eq_none h'] at h
  by_cases h73 : tok.head? = some 73
  · obtain ⟨d, hd, h1, h2⟩ := hIO (.inl h73)
    obtain ⟨p, hp⟩ := pin d h1 h2
    obtain ⟨st, hst⟩ := option2 tok (len d hd)
    rw [if_pos h73]
    exact exec_In cfg s l tok g _ st p ((headD_iff tok hne 73).1 h73) (option_some tok d hd) hst hp (hr h73)
  · rw [if_neg h73]
    by_cases h79 : tok.head? = some 79
    · obtain ⟨d, hd, h1, h2⟩ := hIO (.inr h79)
      obtain ⟨p, hp⟩ := pin d h1 h2
      obtain ⟨st, hst⟩ := option2 tok (len d hd)
      exact exec_Out cfg s l tok g _ st p ((headD_iff tok hne 79).1 h79) (option_some tok d hd) hst hp
    · by_cases h82 : tok.head? = some 82
      · obtain ⟨d, hd, h1, h2⟩ := hR h82
        have h1' : 48 ≤ d.toNat := h1
        have h2' : d.toNat ≤ 55 := h2
        exact exec_R cfg s l tok g _ ((headD_iff tok hne 82).1 h82) (option_some tok d hd) (by rw [opt_val', if_pos h1']; omega)
      · exact exec_other cfg s l tok g (fun e => h73 ((headD_iff tok hne _).2 e)) (fun e => h79 ((headD_iff tok hne _).2 e))
          (fun e => h82 ((headD_iff tok hne _).2 e))

/-- any other command of at most 19 characters ends in a fault in every environment. -/
theorem exec_bad (cfg : Cfg F) (hm : cfg.pinMap.length = 10) (s : Core F) (l : Loc F) (tok : List Byte) (g : Unit)
    (hne : tok ≠ []) (hl : tok.length ≤ 19) (h : ¬ (Executable tok ∧ (tok.head? = some 73 → s.conds.length < 10))) :
    (Mril.exec cfg s l tok).wp any (fun _ _ => False) g := by
  by_cases hroom : tok.head? = some 73 → s.conds.length < 10
  · have he : ¬ Executable tok := fun he => h ⟨he, hroom⟩
    by_cases hR : tok.head? = some 82 → ∃ d, tok[1]? = some d ∧ 48 ≤ d ∧ d ≤ 55
    · have hIO : ¬ (tok.head? = some 73 ∨ tok.head? = some 79 → ∃ d, tok[1]? = some d ∧ 48 ≤ d ∧ d ≤ 57) :=
        fun hIO => he ⟨hl, hR, hIO⟩
      simp only [Classical.not_imp, not_exists] at hIO
      obtain ⟨hs, hd⟩ := hIO
      have hs' : tok.headD 0 = 73 ∨ tok.headD 0 = 79 := by
        rcases hs with hs | hs
        · exact .inl ((headD_iff tok hne _).1 hs)
        · exact .inr ((headD_iff tok hne _).1 hs)
      cases e : tok[1]? with
      | none =>
        exact exec_io_bad cfg s l tok g _ hs' (option_none tok hne e) (List.getElem?_eq_none (by omega))
      | some d =>
        refine exec_io_bad cfg s l tok g _ hs' (option_some tok d e) (List.getElem?_eq_none ?_)
        have hd' := hd d
        rw [opt_val']
        split
        · rename_i h48
          have : ¬ (d.toNat ≤ 57) := fun h57 => hd' ⟨e, h48, h57⟩
          omega
        · omega
    · simp only [Classical.not_imp, not_exists] at hR
      obtain ⟨hs, hd⟩ := hR
      have hs' := (headD_iff tok hne _).1 hs
      cases e : tok[1]? with
      | none => exact exec_R_bad cfg s l tok g _ hs' (option_none tok hne e) (by omega)
      | some d =>
        refine exec_R_bad cfg s l tok g _ hs' (option_some tok d e) ?_
        rw [opt_val']
        split
        · rename_i h48
          have : ¬ (d.toNat ≤ 55) := fun h57 => hd d ⟨e, h48, h57⟩
          omega
        · omega
  · simp only [Classical.not_imp] at hroom
    exact exec_In_full cfg s l tok g ((headD_iff tok hne _).1 hroom.1) hroom.2

/-! ### the loop -/

theorem kept_iff (c : Byte) : Kept c ↔ Mril.tokChar c = true := by
  simp [Kept, Cap, Mril.tokChar, isDigit, isUpper, or_assoc]

theorem boundary_iff (m : List Byte) : Boundary (codePart m) ↔ Mril.finished m = true := by
  cases m with
  | nil => simp [codePart, Boundary, Mril.finished]
  | cons c m =>
    by_cases h : c = 35 ∨ c = 40
    · rcases h with rfl | rfl <;> simp [codePart, Boundary, Mril.finished]
    · have h1 : c ≠ 35 := fun e => h (.inl e)
      have h2 : c ≠ 40 := fun e => h (.inr e)
      simp [codePart, Boundary, Mril.finished, h1, h2, Cap, isUpper]

/-- what is left of the requirement after the characters in `acc`. -/
structure SafeFrom (n : Nat) (acc m : List Byte) : Prop where
  each : ∀ t ∈ (commands acc (codePart m)).1, Executable t
  rest : (commands acc (codePart m)).2.length ≤ 20
  room : n + inputTests (commands acc (codePart m)).1 ≤ 10 ∨ inputTests (commands acc (codePart m)).1 = 0

theorem codePart_stop (c : Byte) (m : List Byte) (h : c = 35 ∨ c = 40) : codePart (c :: m) = [] := by
  rcases h with rfl | rfl <;> simp [codePart]

theorem codePart_go (c : Byte) (m : List Byte) (h : ¬ (c = 35 ∨ c = 40)) : codePart (c :: m) = c :: codePart m := by
  have h1 : c ≠ 35 := fun e => h (.inl e)
  have h2 : c ≠ 40 := fun e => h (.inr e)
  simp [codePart, h1, h2]

theorem commands_long (acc m : List Byte) (h : 20 < acc.length) :
    20 < (commands acc m).2.length ∨ ∃ t ∈ (commands acc m).1, 20 < t.length := by
  induction m generalizing acc with
  | nil => left; simpa [commands]
  | cons c m ih =>
    rw [commands]
    split
    · split
      · right; exact ⟨acc ++ [c], by simp, by simp; omega⟩
      · exact ih _ (by simp; omega)
    · exact ih _ h

theorem safe_short {n : Nat} {acc m : List Byte} (h : SafeFrom n acc m) : acc.length ≤ 20 := by
  rcases Nat.lt_or_ge 20 acc.length with hl | hl
  · rcases commands_long acc (codePart m) hl with h1 | ⟨t, h1, h2⟩
    · have := h.rest; omega
    · have := (h.each t h1).1; omega
  · exact hl

theorem safe_kept {n : Nat} {acc m : List Byte} {c : Byte} (hc : ¬ (c = 35 ∨ c = 40)) (hk : Kept c)
    (hb : ¬ Boundary (codePart m)) : SafeFrom n acc (c :: m) ↔ SafeFrom n (acc ++ [c]) m := by
  constructor
  · rintro ⟨a, b, d⟩
    rw [codePart_go c m hc, commands, if_pos hk, if_neg hb] at a b d
    exact ⟨a, b, d⟩
  · rintro ⟨a, b, d⟩
    refine ⟨?_, ?_, ?_⟩ <;> rw [codePart_go c m hc, commands, if_pos hk, if_neg hb] <;> assumption

theorem safe_skip {n : Nat} {acc m : List Byte} {c : Byte} (hc : ¬ (c = 35 ∨ c = 40)) (hk : ¬ Kept c) :
    SafeFrom n acc (c :: m) ↔ SafeFrom n acc m := by
  constructor
  · rintro ⟨a, b, d⟩
    rw [codePart_go c m hc, commands, if_neg hk] at a b d
    exact ⟨a, b, d⟩
  · rintro ⟨a, b, d⟩
    refine ⟨?_, ?_, ?_⟩ <;> rw [codePart_go c m hc, commands, if_neg hk] <;> assumption

theorem inputTests_cons (t : List Byte) (ts : List (List Byte)) : inputTests (t :: ts) = isI t + inputTests ts := by
  simp only [inputTests, isI, List.filter_cons]
  by_cases h : t.head? = some 73
  · simp [h, Nat.add_comm]
  · simp [h]

theorem safe_fin {n : Nat} {acc m : List Byte} {c : Byte} (hc : ¬ (c = 35 ∨ c = 40)) (hk : Kept c)
    (hb : Boundary (codePart m)) : SafeFrom n acc (c :: m) ↔
      (Executable (acc ++ [c]) ∧ ((acc ++ [c]).head? = some 73 → n < 10)) ∧ SafeFrom (n + isI (acc ++ [c])) [] m := by
  have e : commands acc (codePart (c :: m)) =
      ((acc ++ [c]) :: (commands [] (codePart m)).1, (commands [] (codePart m)).2) := by
    rw [codePart_go c m hc, commands, if_pos hk, if_pos hb]
  have hi : isI (acc ++ [c]) = if (acc ++ [c]).head? = some 73 then 1 else 0 := rfl
  constructor
  · rintro ⟨a, b, d⟩
    rw [e] at a b d
    simp only [inputTests_cons] at d
    refine ⟨⟨a _ (by simp), fun h => ?_⟩, fun t ht => a t (by simp [ht]), b, ?_⟩
    · rw [hi, if_pos h] at d; omega
    · rw [hi] at d ⊢
      by_cases h : (acc ++ [c]).head? = some 73
      · rw [if_pos h] at d ⊢; omega
      · rw [if_neg h] at d ⊢; omega
  · rintro ⟨⟨h1, h2⟩, a, b, d⟩
    refine ⟨?_, ?_, ?_⟩
    · rw [e]; intro t ht
      rcases List.mem_cons.1 ht with rfl | ht
      · exact h1
      · exact a t ht
    · rw [e]; exact b
    · rw [e]
      simp only [inputTests_cons]
      rw [hi] at d ⊢
      by_cases h : (acc ++ [c]).head? = some 73
      · have := h2 h
        rw [if_pos h] at d ⊢; omega
      · rw [if_neg h] at d ⊢; omega

theorem loop_good (cfg : Cfg F) (hm : cfg.pinMap.length = 10) (m : List Byte) (s : Core F) (l : Loc F) (acc : List Byte)
    (h : SafeFrom s.conds.length acc m) (g : Unit) :
    (Mril.loop cfg m s l acc).wp calm (fun _ r => r.1.conds.length = s.conds.length + inputTests (commands acc (codePart m)).1) g := by
  induction m generalizing s l acc g with
  | nil => rfl
  | cons c m ih =>
    rw [Mril.loop]
    by_cases hc : c = 35 ∨ c = 40
    · rw [if_pos (by simpa using hc), codePart_stop c m hc]; exact ⟨trivial, rfl⟩
    · rw [if_neg (by simpa using hc)]
      by_cases hk : Kept c
      · rw [if_pos ((kept_iff c).1 hk)]
        by_cases hb : Boundary (codePart m)
        · obtain ⟨⟨h1, h2⟩, h3⟩ := (safe_fin hc hk hb).1 h
          have hl := h1.1
          simp only [List.length_append, List.length_singleton] at hl
          rw [if_neg (by show ¬ (20 ≤ acc.length); omega)]
          simp only
          rw [if_pos ((boundary_iff m).1 hb), if_neg (by show ¬ (20 ≤ (acc ++ [c]).length); simp; omega), wp_bind]
          refine wp_mono (fun g r hr => ?_) (exec_good cfg hm s l _ g (by simp) h1 h2)
          refine wp_mono (fun _ r' hr' => ?_) (ih r.1 r.2 [] (by rw [hr]; exact h3) g)
          rw [hr', hr, codePart_go c m hc, commands, if_pos hk, if_pos hb, inputTests_cons, Nat.add_assoc]
        · have h1 := (safe_kept hc hk hb).1 h
          have hl := safe_short h1
          simp only [List.length_append, List.length_singleton] at hl
          rw [if_neg (by show ¬ (20 ≤ acc.length); omega)]
          simp only
          rw [if_neg (fun e => hb ((boundary_iff m).2 e)), codePart_go c m hc, commands, if_pos hk, if_neg hb]
          exact ih s l _ h1 g
      · rw [if_neg (fun e => hk ((kept_iff c).2 e)), codePart_go c m hc, commands, if_neg hk]
        exact ih s l acc ((safe_skip hc hk).1 h) g

theorem loop_bad (cfg : Cfg F) (hm : cfg.pinMap.length = 10) (m : List Byte) (s : Core F) (l : Loc F) (acc : List Byte)
    (hacc : acc.length ≤ 20) (h : ¬ SafeFrom s.conds.length acc m) (g : Unit) :
    (Mril.loop cfg m s l acc).wp any (fun _ _ => False) g := by
  induction m generalizing s l acc g with
  | nil => exact absurd ⟨by simp [codePart, commands], by simpa [codePart, commands], by simp [codePart, commands, inputTests]⟩ h
  | cons c m ih =>
    rw [Mril.loop]
    by_cases hc : c = 35 ∨ c = 40
    · exact absurd ⟨by simp [codePart_stop c m hc, commands], by simpa [codePart_stop c m hc, commands],
        by simp [codePart_stop c m hc, commands, inputTests]⟩ h
    · rw [if_neg (by simpa using hc)]
      by_cases hk : Kept c
      · rw [if_pos ((kept_iff c).1 hk)]
        by_cases h20 : acc.length ≥ MRIL_COMMAND_SIZE
        · rw [if_pos h20]; trivial
        · rw [if_neg h20]
          have h20' : acc.length < 20 := by
            have : ¬ (20 ≤ acc.length) := h20
            omega
          simp only
          by_cases hb : Boundary (codePart m)
          · rw [if_pos ((boundary_iff m).1 hb)]
            by_cases h19 : (acc ++ [c]).length ≥ MRIL_COMMAND_SIZE
            · rw [if_pos h19]; trivial
            · rw [if_neg h19, wp_bind]
              have h19' : (acc ++ [c]).length ≤ 19 := by
                have : ¬ (20 ≤ (acc ++ [c]).length) := h19
                omega
              by_cases hg : Executable (acc ++ [c]) ∧ ((acc ++ [c]).head? = some 73 → s.conds.length < 10)
              · have h3 : ¬ SafeFrom (s.conds.length + isI (acc ++ [c])) [] m :=
                  fun h3 => h ((safe_fin hc hk hb).2 ⟨hg, h3⟩)
                refine wp_mono (fun g r hr => ?_) (any_of_calm (exec_good cfg hm s l _ g (by simp) hg.1 hg.2))
                exact ih r.1 r.2 [] (by simp) (by rw [hr]; exact h3) g
              · exact wp_mono (fun _ _ hf => hf.elim) (exec_bad cfg hm s l _ g (by simp) h19' hg)
          · rw [if_neg (fun e => hb ((boundary_iff m).2 e))]
            exact ih s l _ (by simp; omega) (fun h1 => h ((safe_kept hc hk hb).2 h1)) g
      · rw [if_neg (fun e => hk ((kept_iff c).2 e))]
        exact ih s l acc hacc (fun h1 => h ((safe_skip hc hk).2 h1)) g

theorem parse_good (cfg : Cfg F) (hm : cfg.pinMap.length = 10) (s : Core F) (m : List Byte)
    (h : SafeText s.conds.length m) :
    (Mril.parse cfg s m).wp calm (fun _ c => c.conds.length = s.conds.length + inputTests (commands [] (codePart m)).1) () := by
  rw [Mril.parse]
  split
  · rename_i e
    rw [List.eq_nil_of_length_eq_zero e]; rfl
  · rw [wp_bind]
    refine wp_mono (fun g r hr => ?_) (loop_good cfg hm m { s with rc := s.rc.startTransaction } {} [] ⟨h.each, h.rest, h.room⟩ ())
    simp only [Mril.finish]
    split <;> simpa [send, Prog.bind, wp, calm] using hr

theorem parse_bad (cfg : Cfg F) (hm : cfg.pinMap.length = 10) (s : Core F) (m : List Byte)
    (h : ¬ SafeText s.conds.length m) : (Mril.parse cfg s m).wp any (fun _ _ => False) () := by
  rw [Mril.parse]
  split
  · rename_i e
    rw [List.eq_nil_of_length_eq_zero e] at h
    exact absurd ⟨by simp [codePart, commands], by simp [codePart, commands], by simp [codePart, commands, inputTests]⟩ h
  · rw [wp_bind]
    exact wp_mono (fun _ _ hf => hf.elim)
      (loop_bad cfg hm m { s with rc := s.rc.startTransaction } {} [] (by simp) (fun h' => h ⟨h'.each, h'.rest, h'.room⟩) ())

/-! ### what a text does -/

/-- execute commands one after the other. -/
def execToks (cfg : Cfg F) : List (List Byte) → Core F → Loc F → Prog F (Core F × Loc F)
  | [], s, l => .ret (s, l)
  | t :: ts, s, l => (Mril.exec cfg s l t).bind fun r => execToks cfg ts r.1 r.2

/-- the log line written when a comment is met. -/
def note (m : List Byte) (r : Core F × Loc F) : Prog F (Core F × Loc F) :=
  if 35 ∈ m ∨ 40 ∈ m then .out (.raw .comment) (.ret r) else .ret r

theorem note_cons {c : Byte} (m : List Byte) (r : Core F × Loc F) (hc : ¬ (c = 35 ∨ c = 40)) : note (c :: m) r = note m r := by
  have h1 : ¬ (35 = c) := fun e => hc (.inl e.symm)
  have h2 : ¬ (40 = c) := fun e => hc (.inr e.symm)
  simp only [note, List.mem_cons, h1, h2, false_or]

theorem loop_toks (cfg : Cfg F) (m : List Byte) (s : Core F) (l : Loc F) (acc : List Byte)
    (h1 : ∀ t ∈ (commands acc (codePart m)).1, t.length ≤ 19) (h2 : (commands acc (codePart m)).2.length ≤ 20) :
    Mril.loop cfg m s l acc = (execToks cfg (commands acc (codePart m)).1 s l).bind (note m) := by
  induction m generalizing s l acc with
  | nil => rfl
  | cons c m ih =>
    rw [Mril.loop]
    by_cases hc : c = 35 ∨ c = 40
    · rw [if_pos (by simpa using hc), codePart_stop c m hc]
      have : 35 ∈ c :: m ∨ 40 ∈ c :: m := by
        rcases hc with rfl | rfl <;> simp
      simp only [commands, execToks, Prog.bind, note, if_pos this]
    · rw [if_neg (by simpa using hc)]
      rw [codePart_go c m hc, commands] at h1 h2 ⊢
      have hn : note (F := F) (c :: m) = note m := by funext r; exact note_cons m r hc
      rw [hn]
      by_cases hk : Kept c
      · rw [if_pos hk] at h1 h2 ⊢
        rw [if_pos ((kept_iff c).1 hk)]
        by_cases hb : Boundary (codePart m)
        · rw [if_pos hb] at h1 h2 ⊢
          have hl := h1 (acc ++ [c]) (by simp)
          simp only [List.length_append, List.length_singleton] at hl
          rw [if_neg (by show ¬ (20 ≤ acc.length); omega)]
          simp only
          rw [if_pos ((boundary_iff m).1 hb), if_neg (by show ¬ (20 ≤ (acc ++ [c]).length); simp; omega), execToks,
            Prog.bind_assoc]
          congr 1
          funext r
          exact ih r.1 r.2 [] (fun t ht => h1 t (by simp [ht])) h2
        · rw [if_neg hb] at h1 h2 ⊢
          have hl : acc.length < 20 := by
            rcases Nat.lt_or_ge 20 (acc ++ [c]).length with hh | hh
            · rcases commands_long _ (codePart m) hh with h3 | ⟨t, h3, h4⟩
              · omega
              · have := h1 t h3; omega
            · simp at hh; omega
          rw [if_neg (by show ¬ (20 ≤ acc.length); omega)]
          simp only
          rw [if_neg (fun e => hb ((boundary_iff m).2 e))]
          exact ih s l _ h1 h2
      · rw [if_neg hk] at h1 h2 ⊢
        rw [if_neg (fun e => hk ((kept_iff c).2 e))]
        exact ih s l acc h1 h2

end Mrc.Tok
