import Verif.Spec.Block
import Verif.Spec.Commit

/-!
# Specification: histories of operations on a block
-/

namespace CSV

/-- Merges proofs into the block one after the other, stopping at the first error. -/
def MerkleBlock.mergePaths [Env] (b : MerkleBlock) :
    List (MerkleProof × ProtocolId × Message) → Exec (Except MergeError MerkleBlock)
  | [] => .ok (.ok b)
  | (pr, p, m) :: rest => do
    let (b', r) ← b.mergeRevealPath pr p m
    match r with
    | .error e => .ok (.error e)
    | .ok _ => b'.mergePaths rest

/-- The operations that change a block. -/
inductive BlockOp where
  /-- `conceal_except` -/
  | concealExcept (protocols : List ProtocolId)
  /-- `conceal_other` -/
  | concealOther (protocol : ProtocolId)
  /-- `merge_reveal` -/
  | mergeReveal (other : MerkleBlock)
  /-- `merge_reveal_path` -/
  | mergeRevealPath (proof : MerkleProof) (protocol : ProtocolId) (message : Message)

/-- Runs an operation. The returned error, if any, is ignored; the block may have changed anyway. -/
def BlockOp.step [Env] (b : MerkleBlock) : BlockOp → Exec MerkleBlock
  | .concealExcept ps => do let (b', _) ← b.concealExcept ps; .ok b'
  | .concealOther p => do let (b', _) ← b.concealOther p; .ok b'
  | .mergeReveal o => do let (b', _) ← b.mergeReveal o; .ok b'
  | .mergeRevealPath pr p m => do let (b', _) ← b.mergeRevealPath pr p m; .ok b'

/-- Runs operations one after the other. -/
def MerkleBlock.run [Env] (b : MerkleBlock) : List BlockOp → Exec MerkleBlock
  | [] => .ok b
  | op :: ops => do let b' ← op.step b; b'.run ops

/-- Arguments of operations for which the claims about histories are made: blocks may show views of
the tree, or be any structurally valid blocks, and proofs may be any proofs with paths of at most 31
elements, if no two different strings hashed for them and for the tree have one hash. -/
def BlockOp.Admissible [Env] (T : MerkleTree) : BlockOp → Prop
  | .concealExcept _ => True
  | .concealOther _ => True
  | .mergeReveal o =>
    o.OfTree T ∨ ∃ t : PT, o.Shows t ∧ NoCollision (blockInputs o.depth o.cofactor t ++ T.inputs)
  | .mergeRevealPath pr p m => pr.path.length ≤ 31 ∧ NoCollision (proofInputs pr p m ++ T.inputs)

/-- Arguments of operations as they are received: blocks are any blocks that have some commitment at
all, proofs are any proofs with paths of at most 31 elements, if no two different strings hashed for them
and for the tree have one hash. -/
def BlockOp.Receivable [Env] (T : MerkleTree) : BlockOp → Prop
  | .concealExcept _ => True
  | .concealOther _ => True
  | .mergeReveal o => (∃ c, o.commitId = .ok c) ∧
    ∀ t : PT, o.crossSection = t.frontier 0 → t.Fits (min (o.depth.val + 1) 31) o.depth.val 0 →
      NoCollision (blockInputs o.depth o.cofactor t ++ T.inputs)
  | .mergeRevealPath pr p m => pr.path.length ≤ 31 ∧ NoCollision (proofInputs pr p m ++ T.inputs)

/-- The intended effect of an operation on the set of revealed messages of a block with commitment
`c`: concealing removes what was not requested, merging adds what a block or proof with the same
commitment reveals, and merging anything else changes nothing. -/
def BlockOp.effect [Env] (c : Commitment) (K : ProtocolId × Message → Prop) :
    BlockOp → ProtocolId × Message → Prop
  | .concealExcept ps, e => K e ∧ e.1 ∈ ps
  | .concealOther p, e => K e ∧ e.1 = p
  | .mergeReveal o, e => K e ∨ (o.commitId = .ok c ∧ e ∈ o.knownMessages)
  | .mergeRevealPath pr p m, e => K e ∨ (pr.convolve p m = .ok (.ok c) ∧ e = (p, m))

/-- The intended effect of a history. -/
def effects [Env] (c : Commitment) (K : ProtocolId × Message → Prop) :
    List BlockOp → ProtocolId × Message → Prop
  | [] => K
  | op :: ops => effects c (op.effect c K) ops

end CSV
