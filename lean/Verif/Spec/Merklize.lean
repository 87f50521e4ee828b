import Verif.Spec.Proof

/-!
# Specification: merkle trees of LNPBP-81

A tree over any number of leaves: every fork gives the larger half to the left, down to at most two
leaves.
-/

namespace CSV

/-- A merkle tree over hashes of leaves. -/
inductive MTree where
  /-- no leaf -/
  | empty
  /-- an unpaired leaf -/
  | lone (h : MerkleHash)
  /-- two leaves -/
  | pair (h1 h2 : MerkleHash)
  /-- an inner node whose children are nodes -/
  | fork (l r : MTree)
  deriving DecidableEq, Repr

/-- Hashes of the leaves from left to right. -/
def MTree.leaves : MTree → List MerkleHash
  | .empty => []
  | .lone h => [h]
  | .pair h1 h2 => [h1, h2]
  | .fork l r => l.leaves ++ r.leaves

/-- Number of levels below the root node, leaves not counted. -/
def MTree.height : MTree → Nat
  | .empty => 0
  | .lone _ => 0
  | .pair _ _ => 0
  | .fork l r => max l.height r.height + 1

/-- At every fork there are at least three leaves, and the left branch has as many leaves as the
right one or one more. -/
def MTree.Balanced : MTree → Prop
  | .empty => True
  | .lone _ => True
  | .pair _ _ => True
  | .fork l r => l.Balanced ∧ r.Balanced ∧ 3 ≤ l.leaves.length + r.leaves.length ∧
      (l.leaves.length = r.leaves.length ∨ l.leaves.length = r.leaves.length + 1)

/-- String hashed for a node. -/
def nodeInput [Env] (kind : NodeBranching) (d w : Nat) (h1 h2 : MerkleHash) : Bytes :=
  taggedInput MERKLE_TAG (MerkleNode.enc ⟨kind, UInt8.ofNat d, BitVec.ofNat 256 w, h1, h2⟩)

/-- The hash of a tree whose root is at depth `d`, in a tree with `w` leaves in all. Absent children
are replaced by 32 bytes `0xFF`. -/
def MTree.root [Env] (w : Nat) : MTree → (d : Nat) → MerkleHash
  | .empty, d => sha (nodeInput .void d w (Bytes32.fill 0xFF) (Bytes32.fill 0xFF))
  | .lone h, d => sha (nodeInput .single d w h (Bytes32.fill 0xFF))
  | .pair h1 h2, d => sha (nodeInput .branch d w h1 h2)
  | .fork l r, d => sha (nodeInput .branch d w (l.root w (d + 1)) (r.root w (d + 1)))

/-- Strings hashed for the nodes of a tree. -/
def MTree.inputs [Env] (w : Nat) : MTree → (d : Nat) → List Bytes
  | .empty, d => [nodeInput .void d w (Bytes32.fill 0xFF) (Bytes32.fill 0xFF)]
  | .lone h, d => [nodeInput .single d w h (Bytes32.fill 0xFF)]
  | .pair h1 h2, d => [nodeInput .branch d w h1 h2]
  | .fork l r, d => nodeInput .branch d w (l.root w (d + 1)) (r.root w (d + 1)) ::
      (l.inputs w (d + 1) ++ r.inputs w (d + 1))

/-- The balanced tree over a list of at most `2^(n+1)` hashes. -/
def MTree.build : (n : Nat) → List MerkleHash → MTree
  | _, [] => .empty
  | _, [h] => .lone h
  | _, [h1, h2] => .pair h1 h2
  | 0, _ => .empty
  | n + 1, l =>
    .fork (MTree.build n (l.take ((l.length + 1) / 2))) (MTree.build n (l.drop ((l.length + 1) / 2)))

/-- The balanced tree over a list of hashes (see `MTree.of_spec`). -/
def MTree.of (l : List MerkleHash) : MTree := MTree.build l.length l

/-- The root of a list of hashes: the one hash, or the root of the balanced tree. -/
def listRoot [Env] : List MerkleHash → MerkleHash
  | [h] => h
  | l => (MTree.of l).root l.length 0

/-- Strings hashed for the nodes over a list of hashes. -/
def listInputs [Env] : List MerkleHash → List Bytes
  | [_] => []
  | l => (MTree.of l).inputs l.length 0

/-- `enc` gives the bytes that the commitment ids of a leaf type are tagged hashes of. -/
def LeafEncoding [Env] {α : Type} [CommitEncode α] (enc : α → Bytes) : Prop :=
  ∀ x : α, commitId x = .ok (taggedSha MERKLE_TAG (enc x))

/-- Strings hashed for a list of leaves and the nodes over them. -/
def leavesInputs [Env] {α : Type} (enc : α → Bytes) (l : List α) : List Bytes :=
  l.map (fun x => taggedInput MERKLE_TAG (enc x)) ++
    listInputs (l.map fun x => taggedSha MERKLE_TAG (enc x))

/-- Computing the commitment id of `x` feeds exactly the bytes `bs` to the hasher. -/
def Feeds [Env] {α : Type} [CommitEncode α] (x : α) (bs : Bytes) : Prop :=
  ∃ e, commit x = .ok e ∧ e.hasher = bs

end CSV
