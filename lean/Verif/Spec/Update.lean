import Verif.Spec.Reference
import Verif.Spec.Proof
import Verif.Model.Tree

/-!
# Keeping a proof up to date

What the holder of a proof does when a source is committed to again with one other message replaced, added or taken
away. Only numbers, hashes and the published procedure are used.
-/

namespace CSV.Reference

/-- The number of levels, counted from the root, that the ways to two slots of a tree of `2 ^ depth` leaves have in
common: the first level below which they are in different subtrees. -/
def fork (depth a b : Nat) : Option Nat :=
  (List.range depth).find? fun i => a / 2 ^ (depth - 1 - i) != b / 2 ^ (depth - 1 - i)

/-- The own path after the leaf in another slot was replaced: at the level where the ways part, the hash of
the other subtree is computed anew from the new leaf and the lower part of the path to that slot. -/
def follow [Env] (ownPos : Nat) (own : List Bytes32) (otherPos : Nat) (other : List Bytes32) (leaf : Val) :
    Option (List Bytes32) := do
  let i ← fork own.length ownPos otherPos
  let l ← hash NODE (Published.Leaf leaf)
  let h ← climb l own.length otherPos (i + 1) (other.drop (i + 1))
  some (own.set i h)

/-- The leaf that fills an unused slot. -/
def unused (entropy pos : Nat) : Val := .content "entropy" (.record [("entropy", .num entropy), ("pos", .num pos)])

end CSV.Reference

namespace CSV

/-- A committed source in which messages are replaced, added or taken away, one after the other, but not that of
protocol `q`, and always so that the tree keeps its depth and cofactor. For each change the proof of the protocol, in
the tree before or in the tree after it, and the new leaf. -/
inductive Changes [Env] (rng : Option UInt64) (q : ProtocolId) :
    MultiSource → List (MerkleProof × Val) → MultiSource → Prop
  | none (s : MultiSource) : Changes rng q s [] s
  | replace (s s' : MultiSource) (T : MerkleTree) (b : MerkleBlock) (p : ProtocolId) (m m' : Message)
      (pr : MerkleProof) (ms : MessageMap) (cs : List (MerkleProof × Val)) (hne : p ≠ q)
      (h : MerkleTree.tryCommit rng s = .ok (.ok T)) (hb : MerkleBlock.fromTree T = .ok b)
      (hpr : b.toMerkleProof p = .ok (.ok pr)) (hm : s.messages.get p = some m) (hm' : ms.get p = some m')
      (ho : ∀ r, r ≠ p → ms.get r = s.messages.get r) (rest : Changes rng q { s with messages := ms } cs s') :
      Changes rng q s ((pr, Reference.inhabited p m') :: cs) s'
  | join (s s' : MultiSource) (T T' : MerkleTree) (b' : MerkleBlock) (p : ProtocolId) (m' : Message)
      (pr : MerkleProof) (ms : MessageMap) (cs : List (MerkleProof × Val)) (hne : p ≠ q)
      (h : MerkleTree.tryCommit rng s = .ok (.ok T))
      (h' : MerkleTree.tryCommit rng { s with messages := ms } = .ok (.ok T')) (hd : T'.depth = T.depth)
      (hc : T'.cofactor = T.cofactor) (hb : MerkleBlock.fromTree T' = .ok b')
      (hpr : b'.toMerkleProof p = .ok (.ok pr)) (hm : s.messages.get p = none) (hm' : ms.get p = some m')
      (ho : ∀ r, r ≠ p → ms.get r = s.messages.get r) (rest : Changes rng q { s with messages := ms } cs s') :
      Changes rng q s ((pr, Reference.inhabited p m') :: cs) s'
  | leave (s s' : MultiSource) (T T' : MerkleTree) (b : MerkleBlock) (p : ProtocolId) (m : Message)
      (pr : MerkleProof) (ms : MessageMap) (cs : List (MerkleProof × Val)) (hne : p ≠ q)
      (h : MerkleTree.tryCommit rng s = .ok (.ok T))
      (h' : MerkleTree.tryCommit rng { s with messages := ms } = .ok (.ok T')) (hd : T'.depth = T.depth)
      (hc : T'.cofactor = T.cofactor) (hb : MerkleBlock.fromTree T = .ok b)
      (hpr : b.toMerkleProof p = .ok (.ok pr)) (hm : s.messages.get p = some m) (hm' : ms.get p = none)
      (ho : ∀ r, r ≠ p → ms.get r = s.messages.get r) (rest : Changes rng q { s with messages := ms } cs s') :
      Changes rng q s ((pr, Reference.unused T.entropy.toNat pr.pos.toNat) :: cs) s'

end CSV
