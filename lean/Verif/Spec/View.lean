import Verif.Spec.Merge

/-!
# Specification: views of a tree
-/

namespace CSV

/-- The partial tree `t` is obtained from `T` by replacing subtrees by their hashes. -/
def PT.View [Env] (w : Nat) : (t T : PT) → (d : Nat) → Prop
  | .hidden h, T, d => T.root w d = h
  | .leaf p m, T, _ => T = .leaf p m
  | .node l r, .node L R, d => l.View w L (d + 1) ∧ r.View w R (d + 1)
  | .node _ _, _, _ => False

/-- The block shows a view of `T`, with the given method, depth and cofactor. -/
def MerkleBlock.ViewOf [Env] (b : MerkleBlock) (T : PT) (method : Method) (depth : U5)
    (cofactor : UInt16) : Prop :=
  b.method = method ∧ b.depth = depth ∧ b.cofactor = cofactor ∧
    ∃ t : PT, b.Shows t ∧ t.View (2 ^ depth.val) T 0

/-- The block shows a view of a committed tree. -/
def MerkleBlock.OfTree [Env] (b : MerkleBlock) (T : MerkleTree) : Prop :=
  b.ViewOf T.pt T.method T.depth T.cofactor

/-- The nodes of the block begin with those of a view `t` of a committed tree; `rest` follows them. -/
def MerkleBlock.Begins [Env] (b : MerkleBlock) (T : MerkleTree) (t : PT) (rest : List TreeNode) : Prop :=
  b.method = T.method ∧ b.depth = T.depth ∧ b.cofactor = T.cofactor ∧
    b.crossSection = t.frontier 0 ++ rest ∧ t.Fits T.depth.val T.depth.val 0 ∧
    t.View (2 ^ T.depth.val) T.pt 0

/-- Hidden nodes below the leaves of a tree of depth `D`. -/
def Deep (D : U5) (l : List TreeNode) : Prop := ∀ x ∈ l, ∃ d h, x = .concealed d h ∧ D.val < d.val

end CSV
