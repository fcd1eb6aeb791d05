import Verif.Model.Num
/-
What a host does with the bytes it receives (C63): a sequence of frames ':' text CR LF, where the text contains neither ':' nor CR nor LF.
-/
namespace Mrc.Spec

/-- host decoder; `cur` = the text collected since ':' (none: between frames); `none` = protocol violation. -/
def hostStep (cur : Option (List Byte)) (b : Byte) : Option (Option (List Byte) × List (List Byte)) :=
  match cur with
  | none => if b = 58 then some (some [], []) else none
  | some t =>
    if b = 10 then (if t.getLast? = some 13 then some (none, [t.dropLast]) else none)
    else if b = 58 then none
    else if t.getLast? = some 13 then none
    else some (some (t ++ [b]), [])

/-- the texts of a byte stream that ends at a frame boundary. -/
def hostDecode (cur : Option (List Byte)) : List Byte → Option (List (List Byte))
  | [] => if cur = none then some [] else none
  | b :: bs =>
    match hostStep cur b with
    | none => none
    | some (c, ts) => (hostDecode c bs).map (ts ++ ·)

end Mrc.Spec
