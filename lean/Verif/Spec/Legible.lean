import Verif.Spec.Tokens
import Verif.Spec.Host
/-
What a host may send without making the firmware leave its memory (C101): frames that fit and texts that fall into
executable commands.  Unlike a careful host (C81) it may send anything else: any numbers or no numbers, blanks, commas, comments,
unknown letters, unreachable poses, speed zero.
-/
namespace Mrc.Spec

/-- frames whose instruction the firmware can read: queue and storage instructions start with no input condition pending;
immediate ones may come at any time, so they must not add any. -/
def LegibleFrame : Frame → Prop
  | .now m => SafeText 10 m
  | .put m => SafeText 0 m
  | .store m => SafeText 0 m
  | _ => True

/-- a byte stream of such a host: every frame fits (at most 78 counting characters; nowhere more than 80 between two
colons) and is legible. -/
structure LegiblySent (r : List Byte) : Prop where
  frames : ∀ l ∈ lines r, (payload l).length ≤ 78
  pieces : ∀ l ∈ lines r ++ [tail r], ∀ p ∈ split 58 (code l), (p.filter counts).length ≤ 80
  legible : ∀ p ∈ decode r, LegibleFrame (frame p)

/-- the storage contains legible instructions only (in particular: nothing). -/
def LegibleStorage (mem : Nat → Byte) : Prop := ∃ L, StoredProgram mem L ∧ ∀ m ∈ L, SafeText 0 m

end Mrc.Spec
