import Verif.Proof.Aside
import Verif.Spec.ReadBack
import Verif.Proof.CoreWp
import Verif.Proof.Told
import Verif.Proof.Mril
import Verif.Props.Answers
/-
Nothing moves the arm after a report until an instruction names a place for it.
-/
set_option linter.unusedSectionVars false
set_option linter.unusedSimpArgs false
namespace Mrc.Stays
open Mrc Mrc.Prog Mrc.Spec Mrc.Props
variable {F : Type} [FloatOps F]

/-- the arm is at rest: an instruction was reported as finished, and since then nothing has been begun that names a place. -/
def upd (g : Prop) : Act F → Prop
  | .out (.msg (.n1 _)) => True
  | .out (.ghost src m) => (src ≠ .immediate ∨ g) ∧ NoPlace m
  | _ => g

def mon : Mon F Prop where
  upd := upd
  ok g a := g → Told.quiet a

theorem upd_other (g : Prop) {a : Act F} (h1 : ¬ Told.isGhost a) (h2 : ¬ Told.isN1 a) : upd g a = g := by
  unfold upd
  split
  · exact absurd trivial h2
  · exact absurd trivial h1
  · rfl

theorem foldl_calm (g : Prop) {tr : List (Act F)} (h1 : ∀ a ∈ tr, ¬ Told.isGhost a) (h2 : ∀ a ∈ tr, ¬ Told.isN1 a) : tr.foldl upd g = g := by
  induction tr generalizing g with
  | nil => rfl
  | cons a tr ih =>
    rw [List.foldl_cons, upd_other g (h1 a (by simp)) (h2 a (by simp))]
    exact ih g (fun a ha => h1 a (by simp [ha])) (fun a ha => h2 a (by simp [ha]))

def I (g : Prop) (c : Core F) : Prop := g → c.rc.state = .idle
def J (g : Prop) (c : Core F) : Prop := I g c ∧ (c.done = true → c.rc.state = .idle)

theorem parse_stays (cfg : Cfg F) (c : Core F) {m : List Byte} (hm : NoPlace m) (hs : c.rc.state = .idle) : (Mril.parse cfg c m).only mrilAct (fun c' => c'.rc.state = .idle) :=
  only_mono (fun _ h => h) (fun _ h => h.trans hs) (Asd.parse_state cfg c hm)

theorem inv (cfg : Cfg F) : CoreInv cfg (mon : Mon F Prop) I J where
  flt _ := trivial
  weak _ _ h := h.1
  disp g c a h ha := by
    have := Told.disp_not ha
    refine ⟨fun _ => this.2.2, ?_⟩
    show I (upd g a) c
    rw [upd_other g this.1 (Told.isN1_reports this.2.1)]; exact h
  dispJ g c a h ha := by
    have := Told.disp_not ha
    refine ⟨fun _ => this.2.2, ?_⟩
    show J (upd g a) c
    rw [upd_other g this.1 (Told.isN1_reports this.2.1)]; exact h
  rc g c h := by
    by_cases hg : g
    · have hs := h hg
      unfold RC.process
      rw [hs]
      exact h
    · refine wp_mono ?_ (ans_keep (RC.process_only cfg.toRCfg c.rc) (fun g' : Prop => ¬ g') g hg ?_ (fun _ => trivial))
      · rintro g' r ⟨h1, -⟩ h2; exact absurd h2 h1
      · intro g' a hg' ha
        refine ⟨fun h => absurd h hg', ?_⟩
        show ¬ upd g' a
        rw [upd_other g' (Told.rc_not ha).1 (Told.isN1_reports (Told.rc_not ha).2)]; exact hg'
  parse g c m src h := by
    refine ⟨fun _ => trivial, ?_⟩
    have keep : ∀ (g' : Prop) (a : Act F), mrilAct a → (g' → Told.quiet a) ∧ upd g' a = g' := fun g' a ha =>
      ⟨fun _ => (Told.mril_not ha).2.2, upd_other g' (Told.mril_not ha).1 (Told.isN1_reports (Told.mril_not ha).2.1)⟩
    show Prog.wp _ _ _ ((src ≠ .immediate ∨ g) ∧ NoPlace m)
    by_cases hg : (src ≠ .immediate ∨ g) ∧ NoPlace m
    · have hs : c.rc.state = .idle := by
        split at h
        · rename_i e
          exact h (hg.1.resolve_left (fun x => x e))
        · exact h.1.2 h.2
      refine wp_mono ?_ (ans_keep (parse_stays cfg c hg.2 hs) (fun _ => True) _ trivial ?_ (fun _ => trivial))
      · rintro g' c' ⟨_, h'⟩ _; exact h'
      · intro g' a _ ha; exact ⟨(keep g' a ha).1, trivial⟩
    · refine wp_mono ?_ (ans_keep (parse_only cfg c m) (fun g' : Prop => ¬ g') _ hg ?_ (fun _ => trivial))
      · rintro g' c' ⟨h1, -⟩ h2; exact absurd h2 h1
      · intro g' a hg' ha
        refine ⟨(keep g' a ha).1, ?_⟩
        show ¬ upd g' a
        rw [(keep g' a ha).2]; exact hg'
  check g c h := by
    refine wp_exec_intro (E := fun _ => True) (fun _ => trivial) (fun _ _ _ => trivial) ?_ ?_
    · intro tr a q he _ _
      exact (Told.check_not ((only_exec he (mrilProcess_only c)).1 a (by simp))).2
    · intro tr c' he _
      have hk := only_exec he (mrilProcess_only c)
      have hg : ∀ a ∈ tr, ¬ Told.isGhost a := fun a ha => (Told.check_not (hk.1 a ha)).1
      have hrc : c'.rc = c.rc := hk.2.1
      have hcase : c.rc.state = .idle ∨ (∀ a ∈ tr, ¬ Told.isN1 a) ∧ c'.done = false := by
        rcases process_spec _ _ _ he with ⟨_, _, _, _, e1, e2⟩ | ⟨_, e1, e2⟩ | ⟨hm, _⟩
        · refine .inr ⟨fun a ha hn => ?_, by rw [e2]⟩
          match a, hn with
          | .out (.msg (.n1 n)), _ => rw [e1] at ha; simp [metRead, unmetRead] at ha
        · refine .inr ⟨fun a ha hn => ?_, by rw [e2]⟩
          match a, hn with
          | .out (.msg (.n1 n)), _ => rw [e1] at ha; simp [metRead] at ha
        · exact .inl (by simpa [RC.isMoving] using hm)
      refine ⟨fun hu => ?_, fun hd => ?_⟩
      · rw [hrc]
        rcases hcase with hc | ⟨hc, _⟩
        · exact hc
        · exact h (by simpa only [mon, foldl_calm g hg hc] using hu)
      · rw [hrc]
        rcases hcase with hc | ⟨_, hc⟩
        · exact hc
        · rw [hc] at hd; cases hd

end Mrc.Stays
