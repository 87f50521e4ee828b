import Verif.Spec.PartialTree

/-!
# Specification: rows of subtrees

In release builds the nodes of a block that has a commitment need not be those of one tree. They are those of
a row of subtrees, in which no neighbours are the two halves of a larger one.
-/

namespace CSV

/-- Is it a subtree with two branches? -/
def PT.isNode : PT → Bool
  | .node _ _ => true
  | _ => false

/-- Depth of the first node of the frontier of a subtree whose root is at depth `d`. -/
def PT.firstDepth : PT → (d : Nat) → Nat
  | .node l _, d => l.firstDepth (d + 1)
  | .hidden _, d => d
  | .leaf _ _, d => d

/-- Number of leaves of a tree of depth `D` under a node at depth `d`. -/
def under (D d : Nat) : Nat := if d ≤ D then 2 ^ (D - d) else 0

/-- Nodes of a row of subtrees, each given with the depth of its root. -/
def rowNodes (row : List (PT × Nat)) : List TreeNode := row.flatMap fun x => x.1.frontier x.2

/-- A subtree placed after `o` leaves. A single hidden node may be anywhere. A larger subtree starts at a
multiple of its size and reaches at most one level below the leaves. -/
def Placed (D o : Nat) (t : PT) (d : Nat) : Prop :=
  t.Fits (if t.isNode then min (D + 1) 31 else 31) D d ∧ (t.isNode = true → o % 2 ^ (D - d) = 0)

instance (D o : Nat) (t : PT) (d : Nat) : Decidable (Placed D o t d) := inferInstanceAs (Decidable (_ ∧ _))

/-- The subtree at depth `d` placed after `o` leaves and the subtree `u` at depth `e` which follows are not the halves
of one subtree; nor are they at the same depth 0 or below the leaves. -/
def Apart (D o d : Nat) (u : PT) (e : Nat) : Prop :=
  (d = e → 1 ≤ d ∧ d ≤ D ∧ o % 2 ^ (D + 1 - d) ≠ 0) ∧ (d = D + 1 → u.firstDepth e ≠ D + 1)

instance (D o d : Nat) (u : PT) (e : Nat) : Decidable (Apart D o d u e) := inferInstanceAs (Decidable (_ ∧ _))

/-- A row of subtrees starting after `o` leaves. -/
def Row (D : Nat) : (o : Nat) → List (PT × Nat) → Prop
  | _, [] => True
  | o, [(t, d)] => Placed D o t d
  | o, (t, d) :: (u, e) :: row => Placed D o t d ∧ Apart D o d u e ∧ Row D (o + under D d) ((u, e) :: row)

instance decRow (D : Nat) : (o : Nat) → (row : List (PT × Nat)) → Decidable (Row D o row)
  | _, [] => inferInstanceAs (Decidable True)
  | o, [(t, d)] => inferInstanceAs (Decidable (Placed D o t d))
  | o, (t, d) :: (u, e) :: row =>
    have := decRow D (o + under D d) ((u, e) :: row)
    inferInstanceAs (Decidable (_ ∧ _ ∧ _))

/-- Hash of the last of the hidden nodes at depth `d`. -/
def lastHash (d : Nat) : List TreeNode → Option MerkleHash
  | [] => none
  | .leaf _ _ :: rest => lastHash d rest
  | .concealed e h :: rest => (lastHash d rest).or (if e.val = d then some h else none)

/-- Hashes of the last hidden nodes at each depth where there are any, by ascending depth. -/
def lastHashes (nodes : List TreeNode) : List MerkleHash := (List.range 32).filterMap fun d => lastHash d nodes

/-- The subtrees of a row when all leaves but the given ones are hidden and hidden siblings are joined. -/
def hideRow [Env] (D : Nat) (keep : ProtocolId → Bool) (row : List (PT × Nat)) : List (PT × Nat) :=
  row.map fun x => ((x.1.hideLeaves keep).canon (2 ^ D) x.2, x.2)

end CSV
