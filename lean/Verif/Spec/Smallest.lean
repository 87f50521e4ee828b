import Verif.Spec.View
import Verif.Spec.Commit

/-!
# Specification: how many nodes a disclosure needs
-/

namespace CSV

/-- The number of inner nodes at depth `k` of a tree of depth `n` which are above one of the `slots`. -/
def nodesAbove (n : Nat) (slots : List Nat) (k : Nat) : Nat :=
  ((List.range (2 ^ k)).filter fun x => slots.any fun s => s / 2 ^ (n - k) == x).length

end CSV
