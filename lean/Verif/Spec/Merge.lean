import Verif.Spec.Proof

/-!
# Specification: two views of one tree
-/

namespace CSV

/-- Two partial trees are views of one tree: wherever one hides a part the other has
this hash, and wherever both reveal they agree. -/
def PT.Compat [Env] (w : Nat) : PT → PT → (d : Nat) → Prop
  | .hidden h, t, d => t.root w d = h
  | t, .hidden h, d => t.root w d = h
  | .leaf p m, .leaf q n, _ => p = q ∧ m = n
  | .node l1 r1, .node l2 r2, d => l1.Compat w l2 (d + 1) ∧ r1.Compat w r2 (d + 1)
  | _, _, _ => False

/-- The union of what two views reveal. -/
def PT.join : PT → PT → PT
  | .hidden _, t => t
  | t, .hidden _ => t
  | .node l1 r1, .node l2 r2 => .node (l1.join l2) (r1.join r2)
  | t, _ => t

end CSV
