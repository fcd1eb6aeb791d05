import Verif.Props.Liveness
import Verif.Proof.System
/-
What an idle pass of the main loop does when everything waited for is there.
-/
set_option linter.unusedSectionVars false
set_option linter.unusedSimpArgs false
namespace Mrc
open Mrc.Prog Mrc.Spec
variable {F : Type} [FloatOps F] {cfg : Cfg F} {w0 : World F} {junk : Nat → Byte} {σ : ℕ → Sys F} {ev : ℕ → Ev F}

theorem do_pin {s t : Sys F} {p : Nat} {b : Bool} (h : Sys.Do cfg s (.act (.pin p b)) t) : b = s.w.pins p := by cases h; rfl
theorem do_now {s t : Sys F} {n : Nat} (h : Sys.Do cfg s (.act (.now n)) t) : n = s.w.now := by cases h; rfl

/-- without input the serial phase changes nothing. -/
theorem serial_silent {n : ℕ} {s s2 : FW F} {t : List (Act F)} (h : Exec (serialProcess cfg n s) t (.ret s2)) (hr : ∀ b, .rx (some b) ∉ t) : s2 = s ∧ ∀ x ∈ t, x = .rx none := by
  cases n with
  | zero => obtain ⟨rfl, e⟩ := exec_ret h; injection e with e; exact ⟨e, by simp⟩
  | succ n =>
    cases h with
    | cons hs h =>
      cases hs with
      | rx k b =>
        cases b with
        | none => obtain ⟨rfl, e⟩ := exec_ret h; injection e with e; exact ⟨e, by simp⟩
        | some b => exact absurd (List.mem_cons_self) (hr b)

/-- the completion check when everything is there. -/
theorem check_released {c c' : Core F} {t : List (Act F)} (h : Exec (Mril.process c) t (.ret c')) (hm : c.rc.isMoving = false)
    (hp : ∀ p b, .pin p b ∈ t → ∀ x ∈ c.conds, x.1 = p → (x.2 = 1 → b = true) ∧ (x.2 = 0 → b = false)) (hn : ∀ n, .now n ∈ t → c.waitUntil < n) :
    c'.done = true ∧ c'.commandNumber ≤ 0 ∧ (0 < c.commandNumber → .out (.msg (.n1 c.commandNumber)) ∈ t) := by
  rcases process_spec c c' t h with ⟨c1, x, c2, h1, h2, _⟩ | ⟨h1, _⟩ | ⟨_, n, ⟨h1, h2, _⟩ | ⟨h1, h2, h3, h4⟩ | ⟨h1, h2, h3, h4⟩⟩
  · exfalso
    have hx : x ∈ effective c.conds := by rw [h1]; simp
    simp only [effective, List.mem_filter, Bool.or_eq_true, beq_iff_eq] at hx
    have := hp x.1 (x.2 != 1) (by rw [h2]; simp [unmetRead]) x hx.1 rfl
    rcases hx.2 with h | h
    · have := this.2 h; simp [h] at this
    · have := this.1 h; simp [h] at this
  · rw [hm] at h1; cases h1
  · have := hn n (by rw [h2]; simp); omega
  · subst h4; exact ⟨rfl, h2, fun h => by omega⟩
  · subst h4; exact ⟨rfl, by simp, fun _ => by rw [h3]; simp⟩

/-- the dispatcher starts the next queued instruction. -/
theorem dispatch_queue {s s' : FW F} {t : List (Act F)} (h : Exec (Mrcp.process cfg s) t (.ret s')) (hd : s.core.done = true) (hm : s.mode = .queue) (hq : 0 < s.rb.getSize) :
    ∃ m, .out (.ghost .queue m) ∈ t := by
  simp only [Mrcp.process, hm, hd, reduceCtorEq, if_false, if_true, gt_iff_lt, hq] at h
  cases h with
  | cons hs h =>
    cases hs
    split at h
    · cases h with | cons hs _ => cases hs
    · cases h with
      | cons hs h => cases hs; exact ⟨_, List.mem_cons_of_mem _ List.mem_cons_self⟩

namespace Spec.Endless

/-- an idle pass with everything there: the completion check succeeds. -/
theorem served (h : Endless cfg w0 junk σ ev) (hP : Parts F) {a b : ℕ} {s : FW F} (hp : PassAt σ ev a b s) (hq : ∀ n, a ≤ n → n < b → ¬ Orders ev n)
    (hrel : ∀ k, a ≤ k → k < b → Released s (σ k).w) {s' : FW F} (hb : Between σ b s') (hm : s'.core.rc.isMoving = false) :
    s'.core.done = true ∧ s'.core.commandNumber ≤ 0 ∧ (0 < s.core.commandNumber → ∃ n, a ≤ n ∧ n < b ∧ ev n = .act (.out (.msg (.n1 s.core.commandNumber)))) ∧
      (s'.mode = .queue → s'.rb.getSize = 0) := by
  obtain ⟨s1, hs1, hx⟩ := h.pass_exec hp
  have e1 : s1 = s' := by have := hs1.symm.trans hb; injection this
  subst e1
  have hlt := hp.lt
  have hcl := (h.sane hP hp.start).closed
  have hmem : ∀ x, x ∈ acts (span ev (a + 1) (b - (a + 1))) ↔ ∃ n, a + 1 ≤ n ∧ n < b ∧ ev n = .act x := by
    intro x
    rw [acts_mem, mem_span, show a + 1 + (b - (a + 1)) = b by omega]
  have hgh : ∀ x ∈ acts (span ev (a + 1) (b - (a + 1))), ¬ OrdersI x := by
    rintro x hx ⟨src, m, rfl, ho⟩
    obtain ⟨n, h1, h2, h3⟩ := (hmem _).1 hx
    exact hq n (by omega) h2 ⟨src, m, h3, ho⟩
  generalize htr : acts (span ev (a + 1) (b - (a + 1))) = tr at *
  obtain ⟨t1, t2, t3, t4, t5, r1, s2, c3, rfl, k1, k2, k3, e2, k4, e3, k5, e4, e5, e6, -⟩ := quiet_pass hx hcl hgh
  have hdone := check_released k4 (by rw [e2]; exact hm) ?_ ?_
  · refine ⟨by rw [e4]; exact hdone.1, by rw [e4]; exact hdone.2.1, ?_, ?_⟩
    · intro hc
      have hc' : s2.core.commandNumber = s.core.commandNumber := by rw [e2]
      have := hdone.2.2 (by rw [hc']; exact hc)
      rw [hc'] at this
      obtain ⟨n, h1, h2, h3⟩ := (hmem _).1 (List.mem_append_right _ (List.mem_append_right _ (List.mem_append_left _ this)))
      exact ⟨n, by omega, h2, h3⟩
    · intro hmode
      rcases Nat.eq_zero_or_pos s1.rb.getSize with h0 | h0
      · exact h0
      · exfalso
        obtain ⟨m, hm⟩ := dispatch_queue k5 hdone.1 (by rw [← hmode, e5]) (by rw [e6] at h0; exact h0)
        exact hgh (.out (.ghost .queue m)) (List.mem_append_right _ (List.mem_append_right _ (List.mem_append_right _ hm))) ⟨_, _, rfl, by simp⟩
  · intro p x hx y hy he
    obtain ⟨n, h1, h2, h3⟩ := (hmem (.pin p x)).1 (List.mem_append_right _ (List.mem_append_right _ (List.mem_append_left _ hx)))
    have hpin : x = (σ n).w.pins p := by have := h.step n; rw [h3] at this; exact do_pin this
    rw [e2] at hy
    have := (hrel n (by omega) h2).1 y hy
    rw [hpin, ← he]; exact this
  · intro k hk
    obtain ⟨n, h1, h2, h3⟩ := (hmem (.now k)).1 (List.mem_append_right _ (List.mem_append_right _ (List.mem_append_left _ hk)))
    have hnow : k = (σ n).w.now := by have := h.step n; rw [h3] at this; exact do_now this
    rw [hnow, e2]
    exact (hrel n (by omega) h2).2

end Spec.Endless
end Mrc
