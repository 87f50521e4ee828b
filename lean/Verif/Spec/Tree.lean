import Verif.Spec.PartialTree

/-!
# Specification: complete trees

The tree with `2^n` leaves whose leaf at slot `i` is `f i`.
-/

namespace CSV

/-- Complete tree of depth `n` over the slots `lo, lo + 1, ..., lo + 2^n - 1`. -/
def PT.full (f : Nat → PT) : (n lo : Nat) → PT
  | 0, lo => f lo
  | n + 1, lo => .node (PT.full f n lo) (PT.full f n (lo + 2 ^ n))

/-- What is at a slot of a committed tree: the message of the slot or the hash of an entropy
leaf. -/
def MerkleTree.slot [Env] (t : MerkleTree) (pos : Nat) : PT :=
  match t.map.get (UInt32.ofNat pos) with
  | some (p, m) => .leaf p m
  | none => .hidden (leafHash (.entropy t.entropy (UInt32.ofNat pos)))

/-- The tree with all messages revealed. -/
def MerkleTree.pt [Env] (t : MerkleTree) : PT := PT.full t.slot t.depth.val 0

/-- The committed root, from the leaves. -/
def MerkleTree.specRoot [Env] (t : MerkleTree) : MerkleHash :=
  t.pt.root (2 ^ t.depth.val) 0

/-- The commitment of a tree. -/
def MerkleTree.specCommitment [Env] (t : MerkleTree) : Commitment :=
  commitmentHash ⟨t.depth, t.cofactor, t.specRoot⟩

end CSV
