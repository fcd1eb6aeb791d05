import Verif.Model.Run
/- Histories, traces and reachability. -/
namespace Mrc
variable {F : Type} [FloatOps F] {cfg : Cfg F} {w0 : World F} {junk : Nat → Byte}

theorem Sys.step_iff_do {s t : Sys F} : Sys.Step cfg s t ↔ ∃ e, Sys.Do cfg s e t := by
  constructor
  · intro h
    cases h with
    | loop => exact ⟨_, .loop⟩
    | servo => exact ⟨_, .servo⟩
    | micro => exact ⟨_, .micro⟩
    | now => exact ⟨_, .now⟩
    | pin => exact ⟨_, .pin⟩
    | rxNone h => exact ⟨_, .rxNone h⟩
    | rxSome h => exact ⟨_, .rxSome h⟩
    | eeRead => exact ⟨_, .eeRead⟩
    | eeWrite => exact ⟨_, .eeWrite⟩
    | out => exact ⟨_, .out⟩
    | isr => exact ⟨_, .isr⟩
    | clock t ht => exact ⟨_, .clock t ht⟩
    | pins f => exact ⟨_, .pins f⟩
    | arrive bs => exact ⟨_, .arrive bs⟩
  · rintro ⟨e, h⟩
    cases h with
    | loop => exact .loop
    | servo => exact .servo
    | micro => exact .micro
    | now => exact .now
    | pin => exact .pin
    | rxNone h => exact .rxNone h
    | rxSome h => exact .rxSome h
    | eeRead => exact .eeRead
    | eeWrite => exact .eeWrite
    | out => exact .out
    | isr => exact .isr
    | clock t ht => exact .clock t ht
    | pins f => exact .pins f
    | arrive bs => exact .arrive bs

theorem Sys.reach_iff_run {s : Sys F} : Sys.Reach cfg w0 junk s ↔ ∃ evs, Sys.Run cfg w0 junk evs s := by
  constructor
  · intro h
    induction h with
    | init => exact ⟨[], .init⟩
    | step _ hs ih =>
      obtain ⟨evs, he⟩ := ih
      obtain ⟨e, hd⟩ := Sys.step_iff_do.1 hs
      exact ⟨_, .step he hd⟩
  · rintro ⟨evs, h⟩
    induction h with
    | init => exact .init
    | step _ hs ih => exact .step ih (Sys.step_iff_do.2 ⟨_, hs⟩)

theorem acts_append (a b : List (Ev F)) : acts (a ++ b) = acts a ++ acts b := by simp [acts]
theorem rxBytes_append (a b : List (Act F)) : rxBytes (a ++ b) = rxBytes a ++ rxBytes b := by simp [rxBytes]
theorem arrivals_append (a b : List (Ev F)) : arrivals (a ++ b) = arrivals a ++ arrivals b := by simp [arrivals]

/-- the main program's part of a history is a trace. -/
theorem Sys.Run.trace {evs : List (Ev F)} {s : Sys F} (h : Sys.Run cfg w0 junk evs s) : Trace cfg junk (acts evs) s.p := by
  induction h with
  | init => exact .init
  | @step evs s e t h hs ih =>
    rw [acts_append]
    cases hs with
    | loop => simpa [acts] using ih.next
    | servo => exact ih.step (.servo _ _ _)
    | micro => exact ih.step (.micro _ _ _)
    | now => exact ih.step (.now _ _)
    | pin => exact ih.step (.pin _ _ _)
    | rxNone h => exact ih.step (.rx _ _)
    | rxSome h => exact ih.step (.rx _ _)
    | eeRead => exact ih.step (.eeRead _ _)
    | eeWrite => exact ih.step (.eeWrite _ _ _)
    | out => exact ih.step (.out _ _)
    | isr => simpa [acts] using ih
    | clock t ht => simpa [acts] using ih
    | pins f => simpa [acts] using ih
    | arrive bs => simpa [acts] using ih

/-- every serial byte is consumed in order, none lost or duplicated. -/
theorem Sys.Run.fifo {evs : List (Ev F)} {s : Sys F} (h : Sys.Run cfg w0 junk evs s) :
    w0.rxq ++ arrivals evs = rxBytes (acts evs) ++ s.w.rxq := by
  induction h with
  | init => simp [arrivals, acts, rxBytes]
  | @step evs s e t h hs ih =>
    rw [acts_append, arrivals_append, rxBytes_append, ← List.append_assoc, ih]
    cases hs <;> simp_all [acts, arrivals, rxBytes, World.isr, World.setServo]

/-- what the world shows as output is what the main program sent. -/
theorem Sys.Run.outs {evs : List (Ev F)} {s : Sys F} (h : Sys.Run cfg w0 junk evs s) :
    s.w.outs = w0.outs ++ Mrc.outs (acts evs) := by
  induction h with
  | init => simp [acts, Mrc.outs]
  | @step evs s e t h hs ih =>
    rw [acts_append, Mrc.outs, List.filterMap_append, ← List.append_assoc, ← Mrc.outs, ← ih]
    cases hs <;> simp [acts, World.isr, World.setServo]

end Mrc
