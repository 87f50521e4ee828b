import Verif.Model.Block

/-!
# Complete multi-protocol commitment trees

Models `/repo/commit_verify/src/mpc/tree.rs`.
-/

namespace CSV

/-- `COFACTOR_ATTEMPTS`, `/repo/commit_verify/src/mpc/tree.rs:37`. -/
def COFACTOR_ATTEMPTS : Nat := 500

/-- `OrderedMap`, `/repo/commit_verify/src/mpc/tree.rs:39`. -/
abbrev SlotMap := OrdMap UInt32 (ProtocolId × Message) MEDIUM_MAX

/-- `MerkleTree`, `/repo/commit_verify/src/mpc/tree.rs:47-65`. -/
structure MerkleTree where
  /-- hashing method -/
  method : Method
  /-- tree depth -/
  depth : U5
  /-- entropy of the unused slots -/
  entropy : UInt64
  /-- cofactor -/
  cofactor : UInt16
  /-- messages by protocol -/
  messages : MessageMap
  /-- protocol and message by slot -/
  map : SlotMap
  deriving DecidableEq

/-- `MerkleTree::width_limit`, `/repo/commit_verify/src/mpc/tree.rs:198`. -/
def MerkleTree.widthLimit (t : MerkleTree) : Nat := CSV.widthLimit t.depth

/-- `MerkleTree::factored_width`, `/repo/commit_verify/src/mpc/tree.rs:202`. -/
def MerkleTree.factoredWidth [Env] (t : MerkleTree) : Exec Nat :=
  u32Sub dbg t.widthLimit t.cofactor.toNat

/-- `MerkleTree::protocol_id_pos`, `/repo/commit_verify/src/mpc/tree.rs:192-194`. -/
def MerkleTree.protocolIdPos (t : MerkleTree) (p : ProtocolId) : UInt32 :=
  CSV.protocolIdPos p t.cofactor t.depth

/-- The leaf at a slot, `/repo/commit_verify/src/mpc/tree.rs:73-78`. -/
def MerkleTree.leafAt (t : MerkleTree) (pos : Nat) : Leaf :=
  match t.map.get (UInt32.ofNat pos) with
  | some (protocol, msg) => .inhabited protocol msg
  | none => .entropy t.entropy (UInt32.ofNat pos)

/-- `MerkleTree::root`, `/repo/commit_verify/src/mpc/tree.rs:72-82`. -/
def MerkleTree.root [Env] (t : MerkleTree) : Exec MerkleHash := do
  let leaves := (List.range t.widthLimit).map t.leafAt
  if leaves.length ≤ 2 ^ 32 - 1 then
    debugAssert dbg (decide (leaves.length = t.widthLimit))
    merklize leaves
  else .error .expect

/-- The node at a slot, `/repo/commit_verify/src/mpc/block.rs:206-216`. -/
def MerkleTree.nodeAt [Env] (t : MerkleTree) (pos : Nat) : Exec TreeNode :=
  match t.map.get (UInt32.ofNat pos) with
  | some (protocolId, message) => .ok (.leaf protocolId message)
  | none => do
    let hash ← commitId (Leaf.entropy t.entropy (UInt32.ofNat pos))
    .ok (.concealed t.depth hash)

/-- `From<&MerkleTree> for MerkleBlock`, `/repo/commit_verify/src/mpc/block.rs:202-228`. -/
def MerkleBlock.fromTree [Env] (t : MerkleTree) : Exec MerkleBlock := do
  let nodes ← (List.range t.widthLimit).mapM t.nodeAt
  let crossSection ← nonEmptyVec nodes
  .ok ⟨t.method, t.depth, t.cofactor, crossSection, some t.entropy⟩

/-- `Conceal for MerkleTree`, `/repo/commit_verify/src/mpc/tree.rs:85-89`. -/
def MerkleTree.conceal [Env] (t : MerkleTree) : Exec MerkleConcealed := do
  let b ← MerkleBlock.fromTree t
  b.conceal

instance : Conceal MerkleTree MerkleConcealed where
  conceal t := t.conceal

/-- Derived with `strategy = conceal, id = Commitment`,
`/repo/commit_verify/src/mpc/tree.rs:45-46`. -/
instance : CommitEncode MerkleTree where
  idType := mpcCommitmentId
  commitEncode t e := do
    let c ← t.conceal
    e.commitToConcealed c

/-- `commit_id` of a tree. -/
def MerkleTree.commitId [Env] (t : MerkleTree) : Exec Commitment := CSV.commitId t

/-- `Proof::matches` for `MerkleTree`, `/repo/commit_verify/src/mpc/tree.rs:67-69`. -/
def MerkleTree.matches [Env] (a b : MerkleTree) : Exec Bool := do
  let x ← a.commitId
  let y ← b.commitId
  .ok (decide (x = y))

/-- `MerkleTree::into_proofs`, `/repo/commit_verify/src/mpc/tree.rs:210-213`, with the iterator run
to its end. -/
def MerkleTree.intoProofs [Env] (t : MerkleTree) : Exec (List (ProtocolId × MerkleProof)) := do
  let block ← MerkleBlock.fromTree t
  block.intoKnownProofs

/-- `commit::Error`, `/repo/commit_verify/src/mpc/tree.rs:104-116`. -/
inductive CommitError where
  | empty
  | tooManyMessages (n : Nat)
  | cantFitInMaxSlots (n : Nat)
  deriving DecidableEq, Repr

/-- The `all` closure of `try_commit`, `/repo/commit_verify/src/mpc/tree.rs:156-160`: inserts
messages one by one and gives up at the first occupied slot. -/
def tryFit (cofactor : UInt16) (depth : U5) : List (ProtocolId × Message) →
    List (UInt32 × (ProtocolId × Message)) → Option (List (UInt32 × (ProtocolId × Message)))
  | [], map => some map
  | (protocol, message) :: rest, map =>
    let pos := protocolIdPos protocol cofactor depth
    if (bmapGet pos map).isNone then
      tryFit cofactor depth rest (bmapInsert pos (protocol, message) map)
    else none

/-- The `for cofactor in ..` loop of `try_commit`, `/repo/commit_verify/src/mpc/tree.rs:155-170`:
the first of the given cofactors for which all messages fit. -/
def tryCofactors (depth : U5) (msgs : List (ProtocolId × Message)) :
    List Nat → Option (UInt16 × List (UInt32 × (ProtocolId × Message)))
  | [] => none
  | c :: cs =>
    match tryFit (UInt16.ofNat c) depth msgs [] with
    | some map => some (UInt16.ofNat c, map)
    | none => tryCofactors depth msgs cs

/-- The main loop of `try_commit`, `/repo/commit_verify/src/mpc/tree.rs:152-177`. -/
def commitLoop (source : MultiSource) (entropy : UInt64) :
    (fuel : Nat) → (depth : U5) → (prevWidth : Nat) → Exec (Except CommitError MerkleTree)
  | 0, _, _ => .error .fuel
  | fuel + 1, depth, prevWidth =>
    let msgs := source.messages.entries
    let width := widthLimit depth
    let found :=
      if width ≥ msgs.length then
        tryCofactors depth msgs (List.range (min prevWidth COFACTOR_ATTEMPTS + 1))
      else none
    match found with
    | some (cofactor, map) =>
      match OrdMap.tryFrom MEDIUM_MAX map with
      | some map => .ok (.ok ⟨source.method, depth, entropy, cofactor, source.messages, map⟩)
      | none => .error .expect
    | none =>
      if h : depth.val + 1 < 32 then
        commitLoop source entropy fuel ⟨depth.val + 1, h⟩ width
      else .ok (.error (.cantFitInMaxSlots msgs.length))

/-- `MerkleTree::try_commit`, `/repo/commit_verify/src/mpc/tree.rs:125-178`. `rng` is the output of
the random number generator, or `none` if the crate is built without the `rand` feature. -/
def MerkleTree.tryCommit (rng : Option UInt64) (source : MultiSource) :
    Exec (Except CommitError MerkleTree) :=
  let msgCount := source.messages.entries.length
  if source.minDepth = 0 ∧ source.messages.entries = [] then .ok (.error .empty)
  else if msgCount > 2 ^ 31 then .ok (.error (.tooManyMessages msgCount))
  else
    match source.staticEntropy.or rng with
    | none => .error .expect
    | some entropy => commitLoop source entropy 32 source.minDepth 1

end CSV
