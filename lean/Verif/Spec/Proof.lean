import Verif.Spec.Tree

/-!
# Specification: slots, merkle paths and collisions
-/

namespace CSV

/-- Revealed leaves of a tree of height `n` together with their slots; the first slot is `lo`. -/
def PT.slots : PT → (n lo : Nat) → List (Nat × (ProtocolId × Message))
  | .hidden _, _, _ => []
  | .leaf p m, _, lo => [(lo, (p, m))]
  | .node l r, n, lo => l.slots (n - 1) lo ++ r.slots (n - 1) (lo + 2 ^ (n - 1))

/-- The block shows the tree `t`, and each revealed leaf is at the slot of its protocol. -/
def MerkleBlock.Placed (b : MerkleBlock) (t : PT) : Prop :=
  b.Shows t ∧ ∀ i p m, (i, (p, m)) ∈ t.slots b.depth.val 0 →
    i = (CSV.protocolIdPos p b.cofactor b.depth).toNat

/-- The tree with one revealed leaf at slot `pos` and the given hashes of the siblings on the way
from the root to it. -/
def PT.path (p : ProtocolId) (m : Message) : (pos : Nat) → List MerkleHash → PT
  | _, [] => .leaf p m
  | pos, h :: rest =>
    if 2 ^ rest.length ≤ pos then .node (.hidden h) (PT.path p m (pos - 2 ^ rest.length) rest)
    else .node (PT.path p m pos rest) (.hidden h)

/-- Hashes of the siblings on the way from the root (at depth `d`, of height `n`) to slot `pos`. -/
def PT.siblings [Env] (w : Nat) : PT → (d n pos : Nat) → List MerkleHash
  | .hidden _, _, _, _ => []
  | .leaf _ _, _, _, _ => []
  | .node l r, d, n, pos =>
    if 2 ^ (n - 1) ≤ pos then
      l.root w (d + 1) :: r.siblings w (d + 1) (n - 1) (pos - 2 ^ (n - 1))
    else r.root w (d + 1) :: l.siblings w (d + 1) (n - 1) pos

/-- No two different strings of the list have the same hash. -/
def NoCollision [Env] (l : List Bytes) : Prop :=
  ∀ a ∈ l, ∀ b ∈ l, sha a = sha b → a = b

instance [Env] (l : List Bytes) : Decidable (NoCollision l) :=
  inferInstanceAs (Decidable (∀ a ∈ l, ∀ b ∈ l, sha a = sha b → a = b))

/-- Strings hashed when computing the root of a partial tree. -/
def PT.inputs [Env] (w : Nat) : PT → (d : Nat) → List Bytes
  | .hidden _, _ => []
  | .leaf p m, _ => [leafInput (.inhabited p m)]
  | .node l r, d =>
    branchInput d w (l.root w (d + 1)) (r.root w (d + 1)) ::
      (l.inputs w (d + 1) ++ r.inputs w (d + 1))

/-- Strings hashed when computing the commitment of a block showing `t`. -/
def blockInputs [Env] (D : U5) (cofactor : UInt16) (t : PT) : List Bytes :=
  commitmentInput ⟨D, cofactor, t.root (2 ^ D.val) 0⟩ :: t.inputs (2 ^ D.val) 0

/-- Strings hashed when verifying a proof. -/
def proofInputs [Env] (p : MerkleProof) (protocol : ProtocolId) (message : Message) : List Bytes :=
  blockInputs (toU5 p.path.length) p.cofactor (PT.path protocol message p.pos.toNat p.path)

/-- Strings hashed when computing the commitment of a tree, entropy leaves included. -/
def MerkleTree.inputs [Env] (t : MerkleTree) : List Bytes :=
  blockInputs t.depth t.cofactor t.pt ++
    (List.range (2 ^ t.depth.val)).map fun i => leafInput (t.leafAt i)

end CSV
