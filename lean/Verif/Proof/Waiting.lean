import Verif.Proof.Host
import Verif.Proof.MrilWp
import Verif.Proof.Notice
import Verif.Proof.Legible
import Verif.Spec.Waiting
/- Without the letters I and D nothing is ever waited for (C106). -/
set_option linter.unusedSectionVars false
set_option linter.unusedSimpArgs false
namespace Mrc
open Mrc.Prog Mrc.Spec
variable {F : Type} [FloatOps F]

theorem exec_same (cfg : Cfg F) (s : Core F) (l : Loc F) (tok : List Byte) (h1 : tok.headD 0 ≠ 73) (h2 : tok.headD 0 ≠ 68) :
    (Mril.exec cfg s l tok).only (fun _ => True) (fun r => r.1.conds = s.conds ∧ r.1.waitUntil = s.waitUntil) := by
  exec_leaves
  all_goals simp_all [Prog.bind, only]

theorem loop_same (cfg : Cfg F) (cs : List Byte) (s : Core F) (l : Loc F) (tok : List Byte) (hc : NoWaiting cs) (ht : NoWaiting tok) :
    (Mril.loop cfg cs s l tok).only (fun _ => True) (fun r => r.1.conds = s.conds ∧ r.1.waitUntil = s.waitUntil) := by
  induction cs generalizing s l tok with
  | nil => exact ⟨rfl, rfl⟩
  | cons c cs ih =>
    have hcs : NoWaiting cs := ⟨fun h => hc.1 (List.mem_cons_of_mem _ h), fun h => hc.2 (List.mem_cons_of_mem _ h)⟩
    have h1 : c ≠ 73 := fun h => hc.1 (h ▸ List.mem_cons_self)
    have h2 : c ≠ 68 := fun h => hc.2 (h ▸ List.mem_cons_self)
    have ht' : NoWaiting (tok ++ [c]) := by
      refine ⟨?_, ?_⟩ <;> rw [List.mem_append, List.mem_singleton] <;> rintro (h | h)
      · exact ht.1 h
      · exact h1 h.symm
      · exact ht.2 h
      · exact h2 h.symm
    have hh : ∀ x : Byte, x ∉ tok ++ [c] → (tok ++ [c]).headD 0 ≠ x := by
      intro x hx e
      cases tok with
      | nil => exact hx (by simpa using e.symm)
      | cons y t => exact hx (by simp at e; simp [e])
    simp only [Mril.loop]
    split
    · exact ⟨trivial, rfl, rfl⟩
    · split
      · split
        · trivial
        · split
          · split
            · trivial
            · rw [only_bind]
              refine only_mono (fun _ h => h) (fun r hr => ?_) (exec_same cfg s l _ (hh _ ht'.1) (hh _ ht'.2))
              refine only_mono (fun _ h => h) (fun r' hr' => ?_) (ih r.1 r.2 [] hcs ⟨by simp, by simp⟩)
              exact ⟨hr'.1.trans hr.1, hr'.2.trans hr.2⟩
          · exact ih _ _ _ hcs ht'
      · exact ih _ _ _ hcs ht

theorem parse_same (cfg : Cfg F) (s : Core F) (m : List Byte) (h : NoWaiting m) :
    (Mril.parse cfg s m).only (fun _ => True) (fun s' => s'.conds = s.conds ∧ s'.waitUntil = s.waitUntil) := by
  unfold Mril.parse
  split
  · exact ⟨rfl, rfl⟩
  · rw [only_bind]
    refine only_mono (fun _ h => h) (fun r hr => ?_) (loop_same cfg m _ _ _ h ⟨by simp, by simp⟩)
    unfold Mril.finish
    simp only [send, bind_def, Prog.bind]
    split
    · exact ⟨trivial, hr⟩
    · exact hr
    · exact hr

/-- nothing is waited for. -/
def Idle (c : Core F) : Prop := c.conds = [] ∧ c.waitUntil = 0

theorem wp_all {α : Type} {p : Prog F α} {K : Act F → Prop} {R : α → Prop} (h : p.only K R) :
    p.wp (lmon (fun _ => True) (fun _ => True) (fun _ => True)) (fun _ a => R a) () :=
  wp_mono (fun _ _ h => h.2) (wp_of_only h () (fun _ _ => ⟨rfl, trivial⟩) fun _ => trivial)

theorem idle_tame (cfg : Cfg F) : Tame cfg (fun _ => True) (fun _ => True) Idle NoWaiting NoWaiting (fun _ => True) where
  rc c h := wp_mono (fun _ _ _ => h) (wp_all (RC.process_only cfg.toRCfg c.rc))
  now c m hm h := wp_mono (fun _ c' hc => ⟨hc.1.trans h.1, hc.2.trans h.2⟩) (wp_all (parse_same cfg c m hm))
  instr c m hm h _ := wp_mono (fun _ c' hc => ⟨hc.1.trans h.1, hc.2.trans h.2⟩) (wp_all (parse_same cfg c m hm))
  check c h := by
    unfold Mril.process IOL.isDone
    rw [wp_bind, wp_bind]
    refine ioCheck_wp (M := lmon _ _ _) _ _ (fun _ _ => rfl) fun b => ?_
    cases b with
    | false => exact ⟨h, fun _ => h.1⟩
    | true =>
      have hc : ([] : Conds) = [] ∧ c.waitUntil = 0 := ⟨rfl, h.2⟩
      show Prog.wp _ (if (true && !c.rc.isMoving) = true then _ else _) _ _
      split
      · intro t _
        show Prog.wp _ (if Wait.isDone t c.waitUntil = true then _ else _) _ _
        split
        · show Prog.wp _ (if 0 < c.commandNumber then _ else _) _ _
          split
          · exact ⟨trivial, hc, fun _ => rfl⟩
          · exact ⟨hc, fun _ => rfl⟩
        · exact ⟨hc, fun _ => rfl⟩
      · exact ⟨hc, fun _ => rfl⟩
  disp a h := trivial
  boot v u hv hu := ⟨rfl, rfl⟩

theorem clean_of_quick {r : List Byte} (h : NeverWaits r) : Clean (FrameOK NoWaiting NoWaiting) r := by
  constructor
  · intro ho
    rcases (nrun_oob r.length r (Nat.le_refl _)).1 ho with ⟨l, hl, h1⟩ | ⟨l, hl, p, hp, h1⟩
    · have := h.frames l hl; omega
    · have := h.pieces l hl p hp; omega
  · intro p hp
    have hd : p ∈ decode r := by
      rw [← nrun_decode r.length r (Nat.le_refl _)]
      exact List.mem_filterMap.2 ⟨_, hp, rfl⟩
    have hc := h.quick p hd
    obtain ⟨l, hl, rfl⟩ := List.mem_map.1 hd
    refine ⟨h.frames l (List.mem_filter.1 hl).1, payload_noEnd l, ?_⟩
    cases hf : frame (payload l) with
    | now m => rw [hf] at hc; exact hc
    | put m => rw [hf] at hc; exact hc
    | store m => rw [hf] at hc; exact hc
    | _ => trivial

end Mrc
