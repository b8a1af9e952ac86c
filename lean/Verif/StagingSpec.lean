import Verif.Staging

/-!
# Specification of the staging buffer

What the ring holds, told by positions only: memory once all pending stores of the producer
have arrived, read from the consumer's position to the producer's.
-/

namespace NanoLog

/-- All pending stores arrive. -/
def SB.settle (s : SB) : SB := s.buf.foldl SB.apply s

/-- The bytes of a memory from offset `a` up to, not including, `b`. -/
def slice (f : Nat → Byte) (a b : Nat) : List Byte := (List.range' a (b - a)).map f

/-- Is offset `i` part of the ring between the consumer's and the producer's position?  If the
producer is ahead in the array, simply between; otherwise up to the end recorded and from
the start. -/
def SB.Unread (s : SB) (i : Nat) : Prop :=
  if s.cp ≤ s.pp then s.cp ≤ i ∧ i < s.pp
  else (s.cp ≤ i ∧ i < s.settle.memE) ∨ i < s.pp

/-- The bytes in that region, in order. -/
def SB.unread (s : SB) : List Byte :=
  if s.cp ≤ s.pp then slice s.settle.mem s.cp s.pp
  else slice s.settle.mem s.cp s.settle.memE ++ slice s.settle.mem 0 s.pp

end NanoLog
