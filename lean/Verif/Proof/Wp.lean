import Verif.Model.Exec
/- A program logic for `Prog`: monitors and weakest preconditions. -/
namespace Mrc
variable {F : Type} {α β σ : Type}

/-- A monitor: ghost state `σ` updated by every access; `env` is assumed of inputs, `ok` demanded of outputs,
`flt` of faults. -/
structure Mon (F σ : Type) where
  upd : σ → Act F → σ
  env : σ → Act F → Prop := fun _ _ => True
  ok : σ → Act F → Prop := fun _ _ => True
  flt : Fault → Prop := fun _ => True

namespace Prog

def wp (M : Mon F σ) : Prog F α → (σ → α → Prop) → σ → Prop
  | ret a, Q, s => Q s a
  | fault f, _, _ => M.flt f
  | servo i k, Q, s => ∀ v, M.env s (.servo i v) → wp M (k v) Q (M.upd s (.servo i v))
  | micro i m k, Q, s => M.ok s (.micro i m) ∧ wp M k Q (M.upd s (.micro i m))
  | now k, Q, s => ∀ t, M.env s (.now t) → wp M (k t) Q (M.upd s (.now t))
  | pin p k, Q, s => ∀ b, M.env s (.pin p b) → wp M (k b) Q (M.upd s (.pin p b))
  | rx k, Q, s => ∀ b, M.env s (.rx b) → wp M (k b) Q (M.upd s (.rx b))
  | eeRead k, Q, s => ∀ m, M.env s (.eeRead m) → wp M (k m) Q (M.upd s (.eeRead m))
  | eeWrite a b k, Q, s => M.ok s (.eeWrite a b) ∧ wp M k Q (M.upd s (.eeWrite a b))
  | out o k, Q, s => M.ok s (.out o) ∧ wp M k Q (M.upd s (.out o))

theorem wp_mono {M : Mon F σ} {p : Prog F α} {Q R : σ → α → Prop} (h : ∀ s a, Q s a → R s a) {s : σ}
    (hp : p.wp M Q s) : p.wp M R s := by
  induction p generalizing s with
  | ret a => exact h _ _ hp
  | fault f => exact hp
  | servo i k ih => exact fun v hv => ih v (hp v hv)
  | micro i m k ih => exact ⟨hp.1, ih hp.2⟩
  | now k ih => exact fun v hv => ih v (hp v hv)
  | pin p k ih => exact fun v hv => ih v (hp v hv)
  | rx k ih => exact fun v hv => ih v (hp v hv)
  | eeRead k ih => exact fun v hv => ih v (hp v hv)
  | eeWrite a b k ih => exact ⟨hp.1, ih hp.2⟩
  | out o k ih => exact ⟨hp.1, ih hp.2⟩

theorem wp_bind {M : Mon F σ} {p : Prog F α} {f : α → Prog F β} {Q : σ → β → Prop} {s : σ} :
    (p.bind f).wp M Q s ↔ p.wp M (fun s a => (f a).wp M Q s) s := by
  induction p generalizing s with
  | ret a => exact Iff.rfl
  | fault e => exact Iff.rfl
  | servo i k ih => simp only [bind, wp, ih]
  | micro i m k ih => simp only [bind, wp, ih]
  | now k ih => simp only [bind, wp, ih]
  | pin p k ih => simp only [bind, wp, ih]
  | rx k ih => simp only [bind, wp, ih]
  | eeRead k ih => simp only [bind, wp, ih]
  | eeWrite a b k ih => simp only [bind, wp, ih]
  | out o k ih => simp only [bind, wp, ih]

@[simp] theorem bind_def (p : Prog F α) (f : α → Prog F β) : (p >>= f) = p.bind f := rfl
@[simp] theorem pure_def (a : α) : (pure a : Prog F α) = .ret a := rfl

theorem bind_assoc {γ : Type} (p : Prog F α) (f : α → Prog F β) (g : β → Prog F γ) :
    (p.bind f).bind g = p.bind fun a => (f a).bind g := by
  induction p with
  | ret a => rfl
  | fault e => rfl
  | servo i k ih => simp only [bind, ih]
  | micro i m k ih => simp only [bind, ih]
  | now k ih => simp only [bind, ih]
  | pin p k ih => simp only [bind, ih]
  | rx k ih => simp only [bind, ih]
  | eeRead k ih => simp only [bind, ih]
  | eeWrite a b k ih => simp only [bind, ih]
  | out o k ih => simp only [bind, ih]

theorem bind_ret (p : Prog F α) : p.bind .ret = p := by
  induction p with
  | ret a => rfl
  | fault e => rfl
  | servo i k ih => simp only [bind, ih]
  | micro i m k ih => simp only [bind, ih]
  | now k ih => simp only [bind, ih]
  | pin p k ih => simp only [bind, ih]
  | rx k ih => simp only [bind, ih]
  | eeRead k ih => simp only [bind, ih]
  | eeWrite a b k ih => simp only [bind, ih]
  | out o k ih => simp only [bind, ih]

/-- what a monitor says about one access. -/
def _root_.Mrc.Mon.good (M : Mon F σ) (s : σ) (a : Act F) : Prop := if a.isInput then M.env s a else M.ok s a

theorem wp_step {M : Mon F σ} {p q : Prog F α} {a : Act F} {Q : σ → α → Prop} {s : σ} (h : Prog.Step p a q)
    (hp : p.wp M Q s) (henv : a.isInput = true → M.env s a) :
    (a.isInput = false → M.ok s a) ∧ q.wp M Q (M.upd s a) := by
  cases h <;> simp only [wp, Act.isInput, Bool.false_eq_true, false_implies, true_and, forall_const, Bool.true_eq_false] at *
  all_goals first | exact hp _ henv | exact hp

theorem exec_append {p q r : Prog F α} {t u : List (Act F)} (h : Exec p t q) (h' : Exec q u r) : Exec p (t ++ u) r := by
  induction h with
  | nil => exact h'
  | cons s _ ih => exact .cons s (ih h')

/-- soundness for a single program. -/
theorem wp_exec {M : Mon F σ} {p q : Prog F α} {tr : List (Act F)} {Q : σ → α → Prop} {s : σ} (h : Exec p tr q)
    (hp : p.wp M Q s)
    (henv : ∀ pre a post, tr = pre ++ a :: post → a.isInput = true → M.env (pre.foldl M.upd s) a) :
    (∀ pre a post, tr = pre ++ a :: post → a.isInput = false → M.ok (pre.foldl M.upd s) a) ∧
    q.wp M Q (tr.foldl M.upd s) := by
  induction h generalizing s with
  | nil p =>
    refine ⟨?_, hp⟩
    intro pre a post h; simp at h
  | @cons p a q tr r hs _ ih =>
    have h1 := wp_step hs hp (henv [] a tr rfl)
    have h2 := ih h1.2 (fun pre b post e hb => by
      have := henv (a :: pre) b post (by rw [e]; rfl) hb
      simpa using this)
    refine ⟨?_, h2.2⟩
    intro pre b post e hb
    cases pre with
    | nil =>
      simp at e
      obtain ⟨rfl, rfl⟩ := e
      exact h1.1 hb
    | cons x pre =>
      simp at e
      obtain ⟨rfl, rfl⟩ := e
      exact h2.1 pre b post rfl hb

theorem exec_bind {p : Prog F α} {f : α → Prog F β} {tr : List (Act F)} {q : Prog F β} (h : Exec (p.bind f) tr q) :
    (∃ p', Exec p tr p' ∧ q = p'.bind f) ∨
    ∃ a t u, tr = t ++ u ∧ Exec p t (.ret a) ∧ Exec (f a) u q := by
  generalize hb : p.bind f = pb at h
  induction h generalizing p with
  | nil r => exact .inl ⟨p, .nil p, hb.symm⟩
  | @cons r a q' tr r' hs he ih =>
    cases p with
    | ret x =>
      right
      refine ⟨x, [], a :: tr, rfl, .nil _, ?_⟩
      simp only [bind] at hb
      rw [hb]; exact .cons hs he
    | fault e => subst hb; cases hs
    | servo i k =>
      subst hb; cases hs with | servo i k' s =>
      rcases ih rfl with ⟨p', h1, h2⟩ | ⟨x, t, u, h1, h2, h3⟩
      · exact .inl ⟨p', .cons (.servo _ _ _) h1, h2⟩
      · exact .inr ⟨x, _ :: t, u, by rw [h1]; rfl, .cons (.servo _ _ _) h2, h3⟩
    | micro i m k =>
      subst hb; cases hs
      rcases ih rfl with ⟨p', h1, h2⟩ | ⟨x, t, u, h1, h2, h3⟩
      · exact .inl ⟨p', .cons (.micro _ _ _) h1, h2⟩
      · exact .inr ⟨x, _ :: t, u, by rw [h1]; rfl, .cons (.micro _ _ _) h2, h3⟩
    | now k =>
      subst hb; cases hs
      rcases ih rfl with ⟨p', h1, h2⟩ | ⟨x, t, u, h1, h2, h3⟩
      · exact .inl ⟨p', .cons (.now _ _) h1, h2⟩
      · exact .inr ⟨x, _ :: t, u, by rw [h1]; rfl, .cons (.now _ _) h2, h3⟩
    | pin pp k =>
      subst hb; cases hs
      rcases ih rfl with ⟨p', h1, h2⟩ | ⟨x, t, u, h1, h2, h3⟩
      · exact .inl ⟨p', .cons (.pin _ _ _) h1, h2⟩
      · exact .inr ⟨x, _ :: t, u, by rw [h1]; rfl, .cons (.pin _ _ _) h2, h3⟩
    | rx k =>
      subst hb; cases hs
      rcases ih rfl with ⟨p', h1, h2⟩ | ⟨x, t, u, h1, h2, h3⟩
      · exact .inl ⟨p', .cons (.rx _ _) h1, h2⟩
      · exact .inr ⟨x, _ :: t, u, by rw [h1]; rfl, .cons (.rx _ _) h2, h3⟩
    | eeRead k =>
      subst hb; cases hs
      rcases ih rfl with ⟨p', h1, h2⟩ | ⟨x, t, u, h1, h2, h3⟩
      · exact .inl ⟨p', .cons (.eeRead _ _) h1, h2⟩
      · exact .inr ⟨x, _ :: t, u, by rw [h1]; rfl, .cons (.eeRead _ _) h2, h3⟩
    | eeWrite aa b k =>
      subst hb; cases hs
      rcases ih rfl with ⟨p', h1, h2⟩ | ⟨x, t, u, h1, h2, h3⟩
      · exact .inl ⟨p', .cons (.eeWrite _ _ _) h1, h2⟩
      · exact .inr ⟨x, _ :: t, u, by rw [h1]; rfl, .cons (.eeWrite _ _ _) h2, h3⟩
    | out o k =>
      subst hb; cases hs
      rcases ih rfl with ⟨p', h1, h2⟩ | ⟨x, t, u, h1, h2, h3⟩
      · exact .inl ⟨p', .cons (.out _ _) h1, h2⟩
      · exact .inr ⟨x, _ :: t, u, by rw [h1]; rfl, .cons (.out _ _) h2, h3⟩

theorem exec_bind_ret {p : Prog F α} {f : α → Prog F β} {tr : List (Act F)} {b : β} (h : Exec (p.bind f) tr (.ret b)) :
    ∃ a t u, tr = t ++ u ∧ Exec p t (.ret a) ∧ Exec (f a) u (.ret b) := by
  rcases exec_bind h with ⟨p', h1, h2⟩ | h
  · cases p' with
    | ret a => exact ⟨a, tr, [], by simp, h1, by simp only [Prog.bind] at h2; rw [← h2]; exact .nil _⟩
    | _ => simp [Prog.bind] at h2
  · exact h

theorem exec_bind_intro {p : Prog F α} {f : α → Prog F β} {t u : List (Act F)} {a : α} {q : Prog F β}
    (h : Exec p t (.ret a)) (h' : Exec (f a) u q) : Exec (p.bind f) (t ++ u) q := by
  generalize hr : Prog.ret a = r at h
  induction h with
  | nil p => subst hr; exact h'
  | cons hs _ ih =>
    refine .cons ?_ (ih hr)
    cases hs <;> constructor

/-- an uninterrupted run is an execution. -/
theorem run_exec [FloatOps F] {p : Prog F α} {w w' : World F} {a : α} (h : p.run w = .ok (a, w')) :
    ∃ tr, Exec p tr (.ret a) := by
  induction p generalizing w with
  | ret b =>
    simp [run] at h
    exact ⟨[], by rw [h.1]; exact .nil _⟩
  | fault e => simp [run] at h
  | servo i k ih => obtain ⟨t, ht⟩ := ih _ h; exact ⟨_, .cons (.servo _ _ _) ht⟩
  | micro i m k ih => obtain ⟨t, ht⟩ := ih h; exact ⟨_, .cons (.micro _ _ _) ht⟩
  | now k ih => obtain ⟨t, ht⟩ := ih _ h; exact ⟨_, .cons (.now _ _) ht⟩
  | pin p k ih => obtain ⟨t, ht⟩ := ih _ h; exact ⟨_, .cons (.pin _ _ _) ht⟩
  | rx k ih =>
    simp only [run] at h
    split at h
    · obtain ⟨t, ht⟩ := ih _ h; exact ⟨_, .cons (.rx _ _) ht⟩
    · obtain ⟨t, ht⟩ := ih _ h; exact ⟨_, .cons (.rx _ _) ht⟩
  | eeRead k ih => obtain ⟨t, ht⟩ := ih _ h; exact ⟨_, .cons (.eeRead _ _) ht⟩
  | eeWrite a b k ih => obtain ⟨t, ht⟩ := ih h; exact ⟨_, .cons (.eeWrite _ _ _) ht⟩
  | out o k ih => obtain ⟨t, ht⟩ := ih h; exact ⟨_, .cons (.out _ _) ht⟩

/-- the accesses and the rest of an uninterrupted run (a program that stops at `fault` stays there). -/
def play [FloatOps F] : Prog F α → World F → List (Act F) × Prog F α × World F
  | .ret a, w => ([], .ret a, w)
  | .fault f, w => ([], .fault f, w)
  | .servo i k, w => let r := (k (w.servos i)).play w; (.servo i (w.servos i) :: r.1, r.2)
  | .micro i m k, w => let r := k.play (w.setServo i ((w.servos i).micro m)); (.micro i m :: r.1, r.2)
  | .now k, w => let r := (k w.now).play w; (.now w.now :: r.1, r.2)
  | .pin p k, w => let r := (k (w.pins p)).play w; (.pin p (w.pins p) :: r.1, r.2)
  | .rx k, w => match w.rxq with
    | [] => let r := (k none).play w; (.rx none :: r.1, r.2)
    | b :: bs => let r := (k (some b)).play { w with rxq := bs }; (.rx (some b) :: r.1, r.2)
  | .eeRead k, w => let r := (k w.ee).play w; (.eeRead w.ee :: r.1, r.2)
  | .eeWrite a b k, w => let r := k.play { w with ee := EE.write w.ee a b }; (.eeWrite a b :: r.1, r.2)
  | .out o k, w => let r := k.play { w with outs := w.outs ++ [o] }; (.out o :: r.1, r.2)

theorem play_exec [FloatOps F] (p : Prog F α) (w : World F) : Exec p (p.play w).1 (p.play w).2.1 := by
  induction p generalizing w with
  | ret a => exact .nil _
  | fault f => exact .nil _
  | servo i k ih => exact .cons (.servo _ _ _) (ih _ _)
  | micro i m k ih => exact .cons (.micro _ _ _) (ih _)
  | now k ih => exact .cons (.now _ _) (ih _ _)
  | pin p k ih => exact .cons (.pin _ _ _) (ih _ _)
  | rx k ih => simp only [play]; split <;> exact .cons (.rx _ _) (ih _ _)
  | eeRead k ih => exact .cons (.eeRead _ _) (ih _ _)
  | eeWrite a b k ih => exact .cons (.eeWrite _ _ _) (ih _)
  | out o k ih => exact .cons (.out _ _) (ih _)

end Prog

theorem Trace.exec [FloatOps F] {cfg : Cfg F} {junk : Nat → Byte} {tr t : List (Act F)} {p q : Prog F (FW F)} (h : Trace cfg junk tr p)
    (he : Prog.Exec p t q) : Trace cfg junk (tr ++ t) q := by
  induction he generalizing tr with
  | nil => simpa using h
  | @cons p a q t r hs _ ih => have := ih (h.step hs); rwa [List.append_assoc] at this

/-- soundness for runs of the firmware: an invariant `Q` of (monitor state, firmware state) established by setup and
kept by every loop pass gives the obligations of every trace whose inputs meet the assumptions. -/
theorem Trace.sound [FloatOps F] {cfg : Cfg F} {junk : Nat → Byte} (M : Mon F σ) (Q : σ → FW F → Prop) (s0 : σ)
    (h0 : (setup cfg junk).wp M Q s0) (hl : ∀ σ s, Q σ s → (loopBody cfg s).wp M Q σ)
    {tr : List (Act F)} {p : Prog F (FW F)} (h : Trace cfg junk tr p)
    (henv : ∀ pre a post, tr = pre ++ a :: post → a.isInput = true → M.env (pre.foldl M.upd s0) a) :
    (∀ pre a post, tr = pre ++ a :: post → a.isInput = false → M.ok (pre.foldl M.upd s0) a) ∧
    p.wp M Q (tr.foldl M.upd s0) := by
  induction h with
  | init => exact ⟨by intro pre a post h; simp at h, h0⟩
  | next _ ih => exact ⟨(ih henv).1, hl _ _ (ih henv).2⟩
  | @step tr p a q _ hs ih =>
    have i := ih (fun pre b post e hb => henv pre b (post ++ [a]) (by rw [e]; simp) hb)
    have w := Prog.wp_step hs i.2 (henv tr a [] rfl)
    constructor
    · intro pre b post e hb
      rcases List.eq_nil_or_concat post with rfl | ⟨post', c, rfl⟩
      · have e' : tr ++ [a] = pre ++ [b] := e
        obtain ⟨rfl, e2⟩ := List.append_inj' e' rfl
        simp at e2; subst e2
        exact w.1 hb
      · have e' : tr ++ [a] = (pre ++ b :: post') ++ [c] := by rw [e]; simp
        obtain ⟨rfl, _⟩ := List.append_inj' e' rfl
        exact i.1 pre b post' rfl hb
    · rw [List.foldl_append]; exact w.2

end Mrc
