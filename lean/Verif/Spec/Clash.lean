import Verif.Spec.Merge

/-!
# Specification: contradicting views
-/

namespace CSV

/-- The two partial trees reveal different leaves in one slot. -/
def PT.Clash (t u : PT) (n : Nat) : Prop :=
  ∃ i x y, (i, x) ∈ t.slots n 0 ∧ (i, y) ∈ u.slots n 0 ∧ x ≠ y

/-- Number of leaves of a tree of depth `D` below the nodes; nodes deeper than the leaves have none. -/
def coverage (D : U5) (l : List TreeNode) : Nat :=
  ((l.filter fun n => (n.depthOr D).val ≤ D.val).map fun n => 2 ^ (D.val - (n.depthOr D).val)).sum

end CSV
