import Verif.Spec.Proof

/-!
# Specification: commitments inside commitments

The commitment of a tree has 32 bytes, like a message, and may be the message of a protocol in another tree: protocols
with many parts commit to these in a tree of their own.
-/

namespace CSV

/-- Verification through several levels, from the inside out: the commitment found at a level is the message of the
next one. Each level has a proof and a protocol. -/
def climb [Env] : List (MerkleProof × ProtocolId) → Message → Exec (Except InvalidProof Commitment)
  | [], m => .ok (.ok m)
  | (pr, p) :: outer, m => do
    match ← pr.convolve p m with
    | .error e => .ok (.error e)
    | .ok c => climb outer c

/-- Strings hashed by `climb`. -/
def climbInputs [Env] : List (MerkleProof × ProtocolId) → Message → List Bytes
  | [], _ => []
  | (pr, p) :: outer, m => proofInputs pr p m ++
    match pr.convolve p m with
    | .ok (.ok c) => climbInputs outer c
    | _ => []

/-- One level: the random number, the source, and the protocol whose message comes from the level below. -/
structure Level where
  /-- entropy for sources without static entropy -/
  rng : Option UInt64
  /-- the source -/
  source : MultiSource
  /-- the protocol -/
  protocol : ProtocolId

/-- Levels of commitments from the inside out: `m` is the message of the first, the commitment of each is the message of
the next, and `c` is the commitment of the last. `proofs` are the proofs taken from the trees. -/
inductive Nests [Env] : (levels : List Level) → (proofs : List MerkleProof) → (m : Message) → (c : Commitment) → Prop
  | none (m : Message) : Nests [] [] m m
  | level (l : Level) (T : MerkleTree) (b : MerkleBlock) (pr : MerkleProof) (m : Message) (c c' : Commitment)
      (outer : List Level) (proofs : List MerkleProof) (h : MerkleTree.tryCommit l.rng l.source = .ok (.ok T))
      (hm : l.source.messages.get l.protocol = some m) (hb : MerkleBlock.fromTree T = .ok b)
      (hp : b.toMerkleProof l.protocol = .ok (.ok pr)) (hc : T.commitId = .ok c) (rest : Nests outer proofs c c') :
      Nests (l :: outer) (pr :: proofs) m c'

/-- The second level is the first with the message of its protocol replaced. -/
def Level.Replaced (l l' : Level) : Prop :=
  l'.rng = l.rng ∧ l'.protocol = l.protocol ∧ l'.source.method = l.source.method ∧
  l'.source.minDepth = l.source.minDepth ∧ l'.source.staticEntropy = l.source.staticEntropy ∧
  ∀ q, q ≠ l.protocol → l'.source.messages.get q = l.source.messages.get q

end CSV
