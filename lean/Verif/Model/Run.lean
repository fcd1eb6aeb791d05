import Verif.Model.Exec
/-
Complete histories of the running system (main program, timer interrupt, environment) with labels.
-/
namespace Mrc
variable {F : Type} [FloatOps F]

/-- what can happen next. main.cpp:175-226 and the environment. -/
inductive Ev (F : Type) where
  | act (a : Act F)            -- the main program performs an access
  | next                       -- the next loop pass begins
  | isr                        -- the timer interrupt runs
  | clock (t : Nat)            -- millis() changes
  | pins (f : Nat → Bool)      -- input pins change
  | arrive (bs : List Byte)    -- bytes arrive on the serial line

/-- one labelled step of the system (`Sys.Step` with labels). main.cpp:175-226. -/
inductive Sys.Do (cfg : Cfg F) : Sys F → Ev F → Sys F → Prop
  | loop {w s} : Do cfg ⟨w, .ret s⟩ .next ⟨w, loopBody cfg s⟩
  | servo {w i k} : Do cfg ⟨w, .servo i k⟩ (.act (.servo i (w.servos i))) ⟨w, k (w.servos i)⟩
  | micro {w i m k} : Do cfg ⟨w, .micro i m k⟩ (.act (.micro i m)) ⟨w.setServo i ((w.servos i).micro m), k⟩
  | now {w k} : Do cfg ⟨w, .now k⟩ (.act (.now w.now)) ⟨w, k w.now⟩
  | pin {w p k} : Do cfg ⟨w, .pin p k⟩ (.act (.pin p (w.pins p))) ⟨w, k (w.pins p)⟩
  | rxNone {w k} (h : w.rxq = []) : Do cfg ⟨w, .rx k⟩ (.act (.rx none)) ⟨w, k none⟩
  | rxSome {w b bs k} (h : w.rxq = b :: bs) : Do cfg ⟨w, .rx k⟩ (.act (.rx (some b))) ⟨{ w with rxq := bs }, k (some b)⟩
  | eeRead {w k} : Do cfg ⟨w, .eeRead k⟩ (.act (.eeRead w.ee)) ⟨w, k w.ee⟩
  | eeWrite {w a b k} : Do cfg ⟨w, .eeWrite a b k⟩ (.act (.eeWrite a b)) ⟨{ w with ee := EE.write w.ee a b }, k⟩
  | out {w o k} : Do cfg ⟨w, .out o k⟩ (.act (.out o)) ⟨{ w with outs := w.outs ++ [o] }, k⟩
  | isr {w p} : Do cfg ⟨w, p⟩ .isr ⟨w.isr, p⟩
  | clock {w p} (t : Nat) (ht : t < 4294967296) : Do cfg ⟨w, p⟩ (.clock t) ⟨{ w with now := t }, p⟩
  | pins {w p} (f : Nat → Bool) : Do cfg ⟨w, p⟩ (.pins f) ⟨{ w with pins := f }, p⟩
  | arrive {w p} (bs : List Byte) : Do cfg ⟨w, p⟩ (.arrive bs) ⟨{ w with rxq := w.rxq ++ bs }, p⟩

/-- `Sys.Run cfg w0 junk evs s`: power-up in world `w0`, then the events `evs` (oldest first) lead to `s`.
main.cpp:72-226. -/
inductive Sys.Run (cfg : Cfg F) (w0 : World F) (junk : Nat → Byte) : List (Ev F) → Sys F → Prop
  | init : Run cfg w0 junk [] ⟨w0, setup cfg junk⟩
  | step {evs s e t} : Run cfg w0 junk evs s → Sys.Do cfg s e t → Run cfg w0 junk (evs ++ [e]) t

/-- the accesses of the main program in a history. main.cpp:193-226. -/
def acts (evs : List (Ev F)) : List (Act F) := evs.filterMap fun | .act a => some a | _ => none
/-- the serial bytes that arrived in a history. SerialIO.h:22-26. -/
def arrivals (evs : List (Ev F)) : List Byte := evs.flatMap fun | .arrive bs => bs | _ => []

end Mrc
