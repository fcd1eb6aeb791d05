import Verif.Proof.Flow
import Verif.Proof.Stream
/- Immediate instructions: read and started. -/
set_option linter.unusedSectionVars false
namespace Mrc
open Mrc.Prog Mrc.Spec
variable {F : Type} [FloatOps F]

/-- the immediate instruction completed by one more byte, if any. -/
def nowRead (d : Dev) (b : Byte) : List (List Byte) :=
  if b = 13 ∧ overlong d.line = false then (match frame (payload d.line) with | .now m => [m] | _ => []) else []

/-- immediate instructions read and not yet started. -/
def pending (l : List (List Byte)) (d : Dev) : Act F → List (List Byte)
  | .rx (some b) => l ++ nowRead d b
  | .out (.ghost .immediate _) => l.tail
  | _ => l

/-- the host's view and the immediate instructions pending. -/
def nowMon : Mon F (Dev × List (List Byte)) where
  upd s a := (s.1.act a, pending s.2 s.1 a)
  ok s a := (∀ m, a = .out (.ghost .immediate m) → s.2 = [m]) ∧ ((∀ m, a ≠ .out (.ghost .immediate m)) → s.2 = [])

theorem parse_now (cfg : Cfg F) (s : Core F) (instr : List Byte) (d : Dev) :
    (Mril.parse cfg s instr).wp nowMon (fun d' _ => d' = (d, [])) (d, []) := by
  refine wp_mono (fun _ _ h => h.1) (wp_of_only (parse_only cfg s instr) (d, []) ?_ (fun _ => trivial))
  intro a ha
  match a, ha with
  | .servo _ _, _ | .micro _ _, _ | .now _, _ | .out (.msg (.n0 _)), _ | .out (.msg (.reply _ _)), _ | .out (.raw .comment), _
  | .out (.pinMode _ _), _ | .out (.digitalWrite _ _), _ => exact ⟨rfl, by simp [nowMon]⟩

theorem dispatch_now (cfg : Cfg F) (s : FW F) (d : Dev) (p : List Byte) (h : d.booted = true) :
    (Mrcp.parseCommand cfg s p).wp nowMon (fun d' _ => d' = (d, [])) (d, match frame p with | .now m => [m] | _ => []) := by
  cases p with
  | nil => rfl
  | cons c m =>
    simp only [Mrcp.parseCommand, frame]
    by_cases h66 : c = 66
    · simp only [h66, if_true, wp]
      exact ⟨by simp [nowMon, Mrcp.freeMsg], by simp [nowMon, Dev.act, pending, Mrcp.freeMsg]⟩
    · simp only [h66, if_false]
      by_cases h69 : c = 69
      · simp only [h69, if_true, Mrcp.handOver]
        refine ⟨by simp [nowMon], ?_⟩
        rw [wp_bind]
        refine wp_mono (fun d' c' hd => ?_) (parse_now cfg s.core m d)
        rw [hd]; rfl
      · simp only [h69, if_false]
        by_cases h81 : c = 81
        · simp only [h81, if_true]
          by_cases hm0 : m = [] <;> simp [hm0, wp]
        · simp only [h81, if_false]
          by_cases h87 : c = 87
          · simp only [h87, if_true]
            by_cases hm0 : m = []
            · simp [hm0, wp, nowMon, Dev.act, pending]
            · simp only [hm0, if_false]
              intro mem _
              have hgo : ((eeWrites (EE.appendWrites mem m) : Prog F Unit).bind fun _ => .ret { s with mode := .eeprom }).wp nowMon
                  (fun d' _ => d' = (d, [])) (d, []) := by
                rw [wp_bind]
                exact eeWrites_wp _ _ (fun a b => ⟨by simp [nowMon, Dev.act, pending], by simp [nowMon]⟩) rfl
              have hd' : (nowMon (F := F)).upd (d, []) (.eeRead mem) = (d, []) := by
                simp [nowMon, Dev.act, pending, h]
              rw [hd']
              show Prog.wp nowMon (if _ then _ else _) _ (d, [])
              split
              · exact ⟨by simp [nowMon], by simpa [nowMon, Dev.act, pending] using hgo⟩
              · exact hgo
          · simp only [h87, if_false]
            simp [wp]

theorem parseChar_now (cfg : Cfg F) (s : FW F) (d : Dev) (b : Byte) (hl : s.framer.At d.line) (hb : d.booted = true) :
    (Mrcp.parseChar cfg s b).wp nowMon (fun d' _ => d' = (d.recv b, [])) (d.recv b, nowRead d b) := by
  simp only [Mrcp.parseChar]
  by_cases hb13 : b = 13
  · subst hb13
    obtain ⟨h1, h2⟩ := Framer.at_cr hl
    rw [h2]
    by_cases hl : (payload d.line).length + 1 ≥ 80
    · rw [if_pos hl]; trivial
    · rw [if_neg hl]
      by_cases ho : overlong d.line = true
      · simp [ho, Mrcp.events, wp, nowRead]
      · simp only [Bool.not_eq_true] at ho
        simp only [ho, nowRead, and_self, if_true]
        simp only [List.nil_append, Bool.false_eq_true, if_false, Mrcp.events]
        rw [bind_ret]
        exact dispatch_now cfg { s with framer := (s.framer.step 13).1 } (d.recv 13) (payload d.line) ((recv_booted d 13).trans hb)
  · obtain ⟨h1, h2⟩ := Framer.at_step hl b hb13
    refine events_oob_wp (fun _ => trivial) cfg _ _ _ h2 (fun _ => ?_)
    simp [nowRead, hb13]

/-- nothing is pending. -/
def Served (σ : Dev × List (List Byte)) (s : FW F) : Prop := Agrees s σ.1 ∧ σ.2 = []

theorem bothN {α : Type} {p : Prog F α} {Q : Dev → α → Prop} {R : Dev × List (List Byte) → α → Prop} {t : Dev × List (List Byte)} (h1 : p.wp devMon Q t.1) (h2 : p.wp nowMon R t) :
    p.wp nowMon (fun t a => Q t.1 a ∧ R t a) t :=
  wp_both Prod.fst (fun _ _ => rfl) (fun _ _ _ => trivial) h1 h2

theorem serial_now (cfg : Cfg F) (n : Nat) (s : FW F) (d : Dev × List (List Byte)) (h : Served d s) :
    (serialProcess cfg n s).wp nowMon (fun d' s' => Served d' s') d := by
  obtain ⟨d, z⟩ := d
  obtain ⟨h, hz⟩ := h
  simp only at h hz
  subst hz
  induction n generalizing s d with
  | zero => exact ⟨h, rfl⟩
  | succ n ih =>
    intro b _
    cases b with
    | none => exact ⟨h, rfl⟩
    | some c =>
      simp only
      rw [wp_bind]
      refine wp_mono (fun d' s' h' => ?_) (bothN (t := (d.recv c, nowRead d c)) (parseChar_dev cfg s d c h) (parseChar_now cfg s d c h.line h.booted))
      obtain ⟨⟨_, h1⟩, h2⟩ := h'
      subst h2
      exact ih s' _ h1

theorem rcProcess_now (cfg : Cfg F) (s : FW F) (d : Dev × List (List Byte)) (h : Served d s) :
    (rcProcess cfg s).wp nowMon (fun d' s' => Served d' s') d := by
  obtain ⟨d, z⟩ := d
  obtain ⟨h, hz⟩ := h
  simp only at h hz
  subst hz
  rw [rcProcess, wp_bind]
  refine wp_mono (fun d' r hr => ?_) (wp_of_only (RC.process_only cfg.toRCfg s.core.rc) (d, []) ?_ (fun _ => trivial))
  · simp only [wp]
    rw [hr.1]; exact ⟨h.core _, rfl⟩
  · intro a ha
    match a, ha with
    | .servo _ _, _ | .micro _ _, _ | .out (.raw _), _ => exact ⟨rfl, by simp [nowMon]⟩

theorem process_now (cfg : Cfg F) (s : FW F) (d : Dev × List (List Byte)) (h : Served d s) :
    (Mrcp.process cfg s).wp nowMon (fun d' s' => Served d' s') d := by
  refine wp_mono (fun _ _ h => h) (bothN (t := d) (R := fun t _ => t.2 = []) (process_dev cfg s d.1 h.1) ?_)
  obtain ⟨d, z⟩ := d
  obtain ⟨h, hz⟩ := h
  simp only at h hz
  subst hz
  simp only [Mrcp.process, if_neg h.sel.2.2]
  split
  · split
    · split
      · refine ⟨by simp [nowMon, Mrcp.freeMsg], ?_⟩
        split
        · trivial
        · simp only [Mrcp.handOver]
          refine ⟨by simp [nowMon, pending, Mrcp.freeMsg], ?_⟩
          rw [wp_bind]
          refine wp_mono (fun d' c' hd' => ?_) (parse_now cfg _ _ _)
          simp only [wp]
          rw [hd']
      · rfl
    · intro mem _
      have hdm : (nowMon (F := F)).upd (d, []) (.eeRead mem) = (d, []) := by simp [nowMon, Dev.act, pending, h.booted]
      rw [hdm]
      simp only
      split
      · trivial
      · split
        · simp only [Mrcp.handOver]
          refine ⟨by simp [nowMon], ?_⟩
          rw [wp_bind]
          refine wp_mono (fun d' c' hd' => ?_) (parse_now cfg _ _ _)
          simp only [wp]
          rw [hd']
        · rfl
    · rfl
  · rfl

theorem loop_now (cfg : Cfg F) (s : FW F) (d : Dev × List (List Byte)) (h : Served d s) :
    (loopBody cfg s).wp nowMon (fun d' s' => Served d' s') d := by
  rw [loopBody_eq, firstPhases, bind_assoc, wp_bind]
  refine wp_mono (fun d s h => ?_) (rcProcess_now cfg s d h)
  rw [bind_assoc, wp_bind]
  refine wp_mono (fun d s h => ?_) (rcProcess_now cfg s d h)
  rw [wp_bind]
  refine wp_mono (fun d s h => ?_) (serial_now cfg _ s d h)
  obtain ⟨d, z⟩ := d
  obtain ⟨h, hz⟩ := h
  simp only at h hz
  subst hz
  rw [wp_bind]
  refine wp_mono (fun d' c hc => ?_) (wp_of_only (mrilProcess_only s.core) (d, []) ?_ (fun _ => trivial))
  · rw [hc.1]
    exact process_now cfg _ _ ⟨h.core c, rfl⟩
  · intro a ha
    match a, ha with
    | .pin _ _, _ | .now _, _ | .out (.msg (.n1 _)), _ => exact ⟨rfl, by simp [nowMon]⟩

theorem setup_now (cfg : Cfg F) (junk : Nat → Byte) : (setup cfg junk).wp nowMon (fun d' s' => Served d' s') ({}, []) := by
  refine wp_mono (fun _ _ h => h) (bothN (t := ({}, [])) (R := fun t _ => t.2 = []) (setup_dev cfg junk) ?_)
  simp only [setup, RC.new, RC.getCurrentPose, RC.getCurrentLogicalAngles, RC.readAngles, readServo, bind_def, pure_def, Prog.bind, wp]
  intros
  simp [nowMon, pending]

theorem trace_now {cfg : Cfg F} {junk : Nat → Byte} {tr : List (Act F)} {p : Prog F (FW F)} (h : Trace cfg junk tr p) :
    (∀ pre a post, tr = pre ++ a :: post → a.isInput = false → (nowMon (F := F)).ok (pre.foldl nowMon.upd ({}, [])) a) ∧
      ∀ s, p = .ret s → (tr.foldl (nowMon (F := F)).upd ({}, [])).2 = [] := by
  have := Trace.sound nowMon (fun d s => Served d s) ({}, []) (setup_now cfg junk) (fun d s h => loop_now cfg s d h) h (fun _ _ _ _ _ => trivial)
  refine ⟨this.1, ?_⟩
  rintro s rfl
  exact this.2.2

theorem foldl_now_fst (tr : List (Act F)) (d : Dev × List (List Byte)) : (tr.foldl (nowMon (F := F)).upd d).1 = tr.foldl Dev.act d.1 := by
  induction tr generalizing d with
  | nil => rfl
  | cons a tr ih => exact ih _

theorem nows_snoc (r : List Byte) (b : Byte) {d : Dev} (hd : d.line = tail r) : nows (r ++ [b]) = nows r ++ nowRead d b := by
  rw [nows, decode_snoc, List.filterMap_append, ← nows, completed, nowRead, hd]
  by_cases h1 : b = 13 ∧ overlong (tail r) = false
  · rw [if_pos h1, if_pos h1]
    congr 1
    rw [List.filterMap_cons]
    cases frame (payload (tail r)) <;> rfl
  · rw [if_neg h1, if_neg h1]; rfl

/-- started plus pending are those read. -/
theorem pend_eq (tr : List (Act F)) (h : ∀ pre a post, tr = pre ++ a :: post → a.isInput = false → (nowMon (F := F)).ok (pre.foldl nowMon.upd ({}, [])) a) :
    nowStarts tr ++ (tr.foldl (nowMon (F := F)).upd ({}, [])).2 = nows (rxBytes tr) := by
  generalize hl : tr.length = l
  induction l generalizing tr with
  | zero => rw [List.length_eq_zero_iff] at hl; subst hl; rfl
  | succ l ih =>
    obtain ⟨t, a, rfl⟩ : ∃ u a, tr = u ++ [a] := by
      rcases List.eq_nil_or_concat tr with rfl | ⟨u, a, rfl⟩
      · cases hl
      · exact ⟨u, a, by simp⟩
    have i := ih t (fun pre b post e hb => h pre b (post ++ [a]) (by rw [e]; simp) hb) (by simpa using hl)
    have g := h t a [] rfl
    rw [List.foldl_append, rxBytes_append]
    have e1 : nowStarts (t ++ [a]) = nowStarts t ++ nowStarts [a] := List.filterMap_append
    rw [e1]
    have e2 : ([a].foldl (nowMon (F := F)).upd (t.foldl nowMon.upd ({}, []))).2 = pending (t.foldl (nowMon (F := F)).upd ({}, [])).2 (Dev.after t) a := by
      show pending _ (t.foldl (nowMon (F := F)).upd ({}, [])).1 a = _
      rw [foldl_now_fst]; rfl
    rw [e2]
    match a, g with
    | .rx (some b), _ =>
      show nowStarts t ++ [] ++ (_ ++ nowRead (Dev.after t) b) = nows (rxBytes t ++ [b])
      rw [nows_snoc (rxBytes t) b (after_line t), ← i]; simp
    | .out (.ghost .immediate m), g =>
      have g := (g rfl).1 m rfl
      show nowStarts t ++ [m] ++ List.tail _ = nows (rxBytes t ++ [])
      rw [List.append_nil, ← i, g]; simp
    | .eeRead m, _ | .out (.ghost .queue m), _ | .out (.ghost .eeprom m), _ | .rx none, _ | .servo _ _, _ | .micro _ _, _ | .now _, _ | .pin _ _, _ | .eeWrite _ _, _
    | .out (.msg _), _ | .out (.raw _), _ | .out (.pinMode _ _), _ | .out (.digitalWrite _ _), _ =>
      show nowStarts t ++ [] ++ _ = nows (rxBytes t ++ [])
      rw [List.append_nil, List.append_nil]; exact i

end Mrc
