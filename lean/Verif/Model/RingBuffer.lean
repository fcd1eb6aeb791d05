import Verif.Model.Num
/-
src/RingBuffer.cpp / RingBuffer.h.
-/
namespace Mrc

/-- `RingBuffer::END` (RingBuffer.cpp:25). -/
def RB.END : Byte := 33
/-- `RingBuffer::STATUS_OK` / `STATUS_FULL` (RingBuffer.cpp:27-28). -/
def RB.STATUS_OK : Nat := 1
/-- RingBuffer.cpp:28. -/
def RB.STATUS_FULL : Nat := 0

/-- The object state (RingBuffer.h:78-82).  `data` is the malloc'ed array (initially arbitrary);
it is only ever indexed by a value reduced modulo `capacity`. -/
structure RB where
  data : Nat → Byte
  capacity : Nat
  position : Nat
  length : Nat

namespace RB

/-- constructor, RingBuffer.cpp:31-36 (`junk` = uninitialised malloc memory). -/
def new (cap : Nat) (junk : Nat → Byte := fun _ => 0) : RB :=
  { data := junk, capacity := cap, position := 0, length := 0 }

/-- RingBuffer.cpp:42-45. -/
def clear (r : RB) : RB := { r with position := 0, length := 0 }

/-- RingBuffer.cpp:47-49. -/
def getSize (r : RB) : Nat := r.length

/-- RingBuffer.cpp:51-53. -/
def getCapacity (r : RB) : Nat := r.capacity

/-- RingBuffer.cpp:55-59.  (With capacity 0 the C++ divides by zero; theorems about `peek` assume capacity > 0.) -/
def peek (r : RB) (i : Nat) : Byte := r.data (u32 (r.position + i) % r.capacity)

/-- store one byte in the array. RingBuffer.cpp:64, 95. -/
def store (r : RB) (a : Nat) (b : Byte) : Nat → Byte := fun j => if j = a then b else r.data j

/-- RingBuffer.cpp:61-75. -/
def put (r : RB) (b : Byte) : RB :=
  { r with data := r.store (u32 (r.position + r.length) % r.capacity) b, length := r.length + 1 }

/-- RingBuffer.cpp:77-88.  The comparison is on `unsigned int`, hence modulo 2^32. -/
def putBytes (r : RB) (m : List Byte) : RB × Nat :=
  if u32 (r.length + m.length) < r.capacity then
    ((m.foldl put r).put END, STATUS_OK)
  else (r, STATUS_FULL)

/-- RingBuffer.cpp:90-105. -/
def putInFront (r : RB) (b : Byte) : RB :=
  let p := if r.position = 0 then r.capacity - 1 else (r.position - 1) % r.capacity
  { r with position := p, data := r.store p b, length := r.length + 1 }

/-- RingBuffer.cpp:107-123 for `charsLength >= 1`: END is put first, then `i = charsLength - 1; while (i--)`
puts chars[i] for i = charsLength-2 … 0.  For `charsLength = 0` the loop counter starts at 2^32-1 and
`chars[i]` is read out of bounds: `none`. -/
def putBytesInFront (r : RB) (m : List Byte) : Option (RB × Nat) :=
  if u32 (r.length + m.length) < r.capacity then
    if m.length = 0 then none
    else some ((m.take (m.length - 1)).reverse.foldl putInFront (r.putInFront END), STATUS_OK)
  else some (r, STATUS_FULL)

/-- RingBuffer.cpp:125-138 and the identical `getByte` at 154-167. -/
def get (r : RB) : Byte × RB :=
  if r.length > 0 then
    (r.data r.position, { r with position := (r.position + 1) % r.capacity, length := r.length - 1 })
  else (END, r)

/-- RingBuffer.cpp:154-167. -/
def getByte (r : RB) : Byte × RB := r.get

/-- the do-while loop of getMessage; `fuel` = number of buffered bytes + 1 suffices because an empty
buffer yields END (proved: `getMessage_fuel`). Returned list = bytes before END. RingBuffer.cpp:145-149. -/
def getLoop : Nat → RB → List Byte × RB
  | 0, r => ([], r)
  | n + 1, r =>
    let (b, r') := r.getByte
    if b = END then ([], r')
    else
      let (m, r'') := getLoop n r'
      (b :: m, r'')

/-- RingBuffer.cpp:140-152: returns the message (its length is the returned count).  The C++ also stores END
after it, so it writes `length+1` bytes into the caller's array. -/
def getMessage (r : RB) : List Byte × RB := getLoop (r.length + 1) r

/-- RingBuffer.cpp:169-178. -/
def getFromBack (r : RB) : Byte × RB :=
  if r.length > 0 then
    (r.data (u32 (r.position + r.length - 1) % r.capacity), { r with length := r.length - 1 })
  else (0, r)

end RB
end Mrc
