import Verif.Model.Engine

/-!
# Merklization

Models `/repo/commit_verify/src/merkle.rs`.
-/

namespace CSV

/-- `MerkleHash`, `/repo/commit_verify/src/merkle.rs:105-114`. -/
abbrev MerkleHash := Bytes32

/-- `NodeBranching`, `/repo/commit_verify/src/merkle.rs:39-51`. -/
inductive NodeBranching where
  | void
  | single
  | branch
  deriving DecidableEq, Repr

/-- Discriminants of `NodeBranching`, `/repo/commit_verify/src/merkle.rs:44-50`. -/
def NodeBranching.toU8 : NodeBranching → UInt8
  | .void => 0x00
  | .single => 0x01
  | .branch => 0x02

/-- `MerkleNode`, `/repo/commit_verify/src/merkle.rs:58-64`. -/
structure MerkleNode where
  /-- kind of the node -/
  branching : NodeBranching
  /-- depth of the node -/
  depth : UInt8
  /-- number of leaves of the whole tree -/
  width : BitVec 256
  /-- first branch -/
  node1 : MerkleHash
  /-- second branch -/
  node2 : MerkleHash
  deriving DecidableEq, Repr

/-- Strict encoding of `MerkleNode` (derived, `/repo/commit_verify/src/merkle.rs:53-64`):
fields in order. -/
def MerkleNode.enc (n : MerkleNode) : Bytes :=
  encU8 n.branching.toU8 ++ encU8 n.depth ++ encU256 n.width ++ encBytes32 n.node1 ++
    encBytes32 n.node2

instance : StrictEncode MerkleNode where
  libName := LIB_NAME_COMMIT_VERIFY
  typeName := some "MerkleNode"
  enc := MerkleNode.enc

/-- Derived with `strategy = strict, id = MerkleHash`,
`/repo/commit_verify/src/merkle.rs:56-57`. -/
instance : CommitEncode MerkleNode where
  idType := merkleHashId
  commitEncode x e := e.commitToSerialized x

/-- `VIRTUAL_LEAF`, `/repo/commit_verify/src/merkle.rs:124`. -/
def VIRTUAL_LEAF : MerkleHash := Bytes32.fill 0xFF

/-- `MerkleHash::void`, `/repo/commit_verify/src/merkle.rs:67-69, 127-129`; the depth is
a `u5` and the width a `u32` in all uses. -/
def MerkleHash.void [Env] (depth : U5) (width : Nat) : Exec MerkleHash :=
  commitId (MerkleNode.mk .void (UInt8.ofNat depth.val) (BitVec.ofNat 256 width)
    VIRTUAL_LEAF VIRTUAL_LEAF)

/-- `MerkleHash::single`, `/repo/commit_verify/src/merkle.rs:71-73, 131-133`. -/
def MerkleHash.single [Env] (depth : U5) (width : Nat) (node : MerkleHash) : Exec MerkleHash :=
  commitId (MerkleNode.mk .single (UInt8.ofNat depth.val) (BitVec.ofNat 256 width)
    node VIRTUAL_LEAF)

/-- `MerkleHash::branches`, `/repo/commit_verify/src/merkle.rs:75-82, 135-142`. -/
def MerkleHash.branches [Env] (depth : U5) (width : Nat) (node1 node2 : MerkleHash) :
    Exec MerkleHash :=
  commitId (MerkleNode.mk .branch (UInt8.ofNat depth.val) (BitVec.ofNat 256 width) node1 node2)

/-- `MerkleHash::_merklize`, `/repo/commit_verify/src/merkle.rs:162-195`. `iter` is the
remaining content of the iterator. The recursion is bounded by the depth, which is a `u5`;
the fuel is 32. -/
def merklizeGo [Env] : (fuel : Nat) → (iter : List MerkleHash) → (depth : U5) →
    (branchWidth baseWidth : Nat) → Exec MerkleHash
  | 0, _, _, _, _ => .error .fuel
  | fuel + 1, iter, depth, branchWidth, baseWidth =>
    if branchWidth ≤ 2 then
      match iter with
      | [] => MerkleHash.void depth baseWidth
      | [branch] => MerkleHash.single depth baseWidth branch
      | branch1 :: branch2 :: _ => MerkleHash.branches depth baseWidth branch1 branch2
    else do
      let div := branchWidth / 2 + branchWidth % 2
      let depth1 ← u5Add depth 1
      let branch1 ← merklizeGo fuel (iter.take div) depth1 div baseWidth
      let branch2 ← merklizeGo fuel (iter.drop div) depth1 (branchWidth - div) baseWidth
      MerkleHash.branches depth baseWidth branch1 branch2

/-- `MerkleHash::merklize` on the commitment ids of the leaves,
`/repo/commit_verify/src/merkle.rs:150-160`. -/
def merklizeHashes [Env] (nodes : List MerkleHash) : Exec MerkleHash :=
  if nodes.length < 2 ^ 32 then
    match nodes with
    | [node] => .ok node
    | nodes => merklizeGo 32 nodes 0 nodes.length nodes.length
  else .error .expect

/-- `MerkleHash::merklize`, `/repo/commit_verify/src/merkle.rs:150-160`: the leaves are replaced
by their ids, then merklized. The collection (`MerkleLeaves`, lines 198-243) is given by the
list of its elements in iteration order. -/
def merklize [Env] {α : Type} [CommitEncode α] (leaves : List α) : Exec MerkleHash := do
  let nodes ← leaves.mapM commitId
  merklizeHashes nodes

/-- `CommitEngine::commit_to_merkle`, `/repo/commit_verify/src/id.rs:123-132`. -/
def CommitEngine.commitToMerkle [Env] {α : Type} [StrictType α] [CommitEncode α]
    (e : CommitEngine) (leaves : List α) : Exec CommitEngine := do
  let fqn ← commitmentFqn α
  let e ← e.pushStep (.merklized fqn)
  let root ← merklize leaves
  e.innerCommitTo 32 (encBytes32 root)

/-- `MerkleBuoy<u5>`, `/repo/commit_verify/src/merkle.rs:245-250`: a level and, optionally,
a nested buoy. -/
inductive Buoy where
  | leaf (buoy : U5)
  | stacked (buoy : U5) (stack : Buoy)
  deriving DecidableEq, Repr

/-- `MerkleBuoy::new`, `/repo/commit_verify/src/merkle.rs:253-258`. -/
def Buoy.new (top : U5) : Buoy := .leaf top

/-- `MerkleBuoy::level`, `/repo/commit_verify/src/merkle.rs:261-267`. -/
def Buoy.level : Buoy → U5
  | .leaf b => b
  | .stacked _ s => s.level

/-- The part of `MerkleBuoy::push` that runs when there is no nested buoy,
`/repo/commit_verify/src/merkle.rs:276-278, 284-291`. -/
def Buoy.pushLeaf (buoy depth : U5) : Exec (Buoy × Bool) :=
  if depth = 0 then .ok (.leaf buoy, false)
  else if depth = buoy then do
    let b ← u5Sub buoy 1
    .ok (.leaf b, true)
  else .ok (.stacked buoy (.leaf depth), false)

/-- `MerkleBuoy::push`, `/repo/commit_verify/src/merkle.rs:275-298`. Returns the new buoy and
whether it has surfaced. In the case `Some((true, level))` the nested buoy is dropped and
`push` is called again on the buoy without nested one. -/
def Buoy.push : Buoy → U5 → Exec (Buoy × Bool)
  | .leaf b, depth => Buoy.pushLeaf b depth
  | .stacked b s, depth =>
    if depth = 0 then .ok (.stacked b s, false)
    else do
      let (s', surfaced) ← s.push depth
      if surfaced then Buoy.pushLeaf b s'.level
      else .ok (.stacked b s', false)

end CSV
