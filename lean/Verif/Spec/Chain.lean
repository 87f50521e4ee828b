import Verif.Spec.Oracle
import Verif.Model.Engine

/-!
# Specification: what hangs below a hash
-/

namespace CSV

/-- A string hangs below a hash, with strings of `asked` in between: the hash of the first string is the given one,
and the hash of each further string is contained, as 32 consecutive bytes, in the string before. -/
inductive Below [Env] (asked : List Bytes) (top : Bytes32) : Bytes → Prop
  /-- the string hashes to the given value -/
  | first {s : Bytes} : s ∈ asked → sha s = top → Below asked top s
  /-- the hash of the string is in a string that hangs below the given value -/
  | next {s s' a b : Bytes} : Below asked top s → s = a ++ ((sha s').bytes ++ b) → s' ∈ asked → Below asked top s'

end CSV
