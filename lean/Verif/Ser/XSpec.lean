/-!
What the x1764 checksum of a byte string is (the comment at util/x1764.h:43-46): the string is cut into words of eight
bytes, the last one possibly shorter; the little-endian words are combined by `c ↦ 17 c + word` modulo 2^64; the two halves
of the result are xored and complemented.
-/
namespace Verif.Ser.XSpec

/-- The value of a little-endian word. -/
def word : List Nat → Nat
  | [] => 0
  | b :: bs => b + 256 * word bs

/-- The string cut into words. -/
def cut (bs : List Nat) : List (List Nat) :=
  if _h : bs = [] then [] else bs.take 8 :: cut (bs.drop 8)
termination_by bs.length
decreasing_by simp only [List.length_drop]; have := List.length_pos_iff.mpr _h; omega

def combine (c : Nat) (ws : List (List Nat)) : Nat := ws.foldl (fun c w => (c * 17 + word w) % 2 ^ 64) c

def checksum (bs : List Nat) : Nat :=
  let c := combine 0 (cut bs)
  2 ^ 32 - 1 - ((c % 2 ^ 32) ^^^ (c / 2 ^ 32))

end Verif.Ser.XSpec
