import Verif.Spec.Hash

/-!
# Specification: partially revealed merkle trees

A partially revealed tree is a binary tree whose outermost nodes are either revealed leaves or
hidden parts of which only the hash is known. A block's cross-section lists these
outermost nodes from left to right.
-/

namespace CSV

/-- A partially revealed tree. -/
inductive PT where
  /-- hidden subtree with its hash -/
  | hidden (hash : MerkleHash)
  /-- revealed leaf -/
  | leaf (protocol : ProtocolId) (message : Message)
  /-- inner node -/
  | node (left right : PT)
  deriving DecidableEq, Repr

/-- A depth as the 5-bit number stored in nodes. -/
def toU5 (d : Nat) : U5 := Fin.ofNat 32 d

/-- Outermost nodes of a tree whose root is at depth `d`, from left to right. -/
def PT.frontier : PT → (d : Nat) → List TreeNode
  | .hidden h, d => [.concealed (toU5 d) h]
  | .leaf p m, _ => [.leaf p m]
  | .node l r, d => l.frontier (d + 1) ++ r.frontier (d + 1)

/-- Well-formedness of a tree whose root is at depth `d`: revealed leaves are at depth `D`,
hidden parts not below depth `H`. -/
def PT.Fits (H D : Nat) : PT → (d : Nat) → Prop
  | .hidden _, d => d ≤ H
  | .leaf _ _, d => d = D
  | .node l r, d => l.Fits H D (d + 1) ∧ r.Fits H D (d + 1)

instance PT.decFits (H D : Nat) : (t : PT) → (d : Nat) → Decidable (t.Fits H D d)
  | .hidden _, d => inferInstanceAs (Decidable (d ≤ H))
  | .leaf _ _, d => inferInstanceAs (Decidable (d = D))
  | .node l r, d =>
    have := PT.decFits H D l (d + 1)
    have := PT.decFits H D r (d + 1)
    inferInstanceAs (Decidable (_ ∧ _))

/-- Merkle root of the subtree at depth `d` of a tree with `w` leaves. -/
def PT.root [Env] (w : Nat) : PT → (d : Nat) → MerkleHash
  | .hidden h, _ => h
  | .leaf p m, _ => leafHash (.inhabited p m)
  | .node l r, d => branchHash d w (l.root w (d + 1)) (r.root w (d + 1))

/-- Revealed leaves from left to right. -/
def PT.known : PT → List (ProtocolId × Message)
  | .hidden _ => []
  | .leaf p m => [(p, m)]
  | .node l r => l.known ++ r.known

/-- Is the subtree completely hidden into one hash? -/
def PT.isHidden : PT → Bool
  | .hidden _ => true
  | _ => false

/-- Hides the leaves for which `keep` is false, without joining hidden siblings. -/
def PT.hideLeaves [Env] (keep : ProtocolId → Bool) : PT → PT
  | .hidden h => .hidden h
  | .leaf p m => if keep p then .leaf p m else .hidden (leafHash (.inhabited p m))
  | .node l r => .node (l.hideLeaves keep) (r.hideLeaves keep)

/-- Joins hidden siblings everywhere, bottom up. -/
def PT.canon [Env] (w : Nat) : PT → (d : Nat) → PT
  | .hidden h, _ => .hidden h
  | .leaf p m, _ => .leaf p m
  | .node l r, d =>
    match l.canon w (d + 1), r.canon w (d + 1) with
    | .hidden h1, .hidden h2 => .hidden (branchHash d w h1 h2)
    | l', r' => .node l' r'

/-- No two siblings are both hidden. -/
def PT.Minimal : PT → Prop
  | .hidden _ => True
  | .leaf _ _ => True
  | .node l r => ¬ (l.isHidden ∧ r.isHidden) ∧ l.Minimal ∧ r.Minimal

/-- A block whose cross-section is the frontier of the partial tree `t`, revealed leaves being at
the depth of the block and hidden parts not deeper. -/
def MerkleBlock.Shows (b : MerkleBlock) (t : PT) : Prop :=
  b.crossSection = t.frontier 0 ∧ t.Fits b.depth.val b.depth.val 0

/-- A structurally valid block. -/
def MerkleBlock.Valid (b : MerkleBlock) : Prop := ∃ t, b.Shows t

end CSV
