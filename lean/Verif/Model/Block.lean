import Verif.Model.Atoms

/-!
# Partially concealed multi-protocol commitment trees and proofs

Models `/repo/commit_verify/src/mpc/block.rs` and the function `protocol_id_pos` of
`/repo/commit_verify/src/mpc/tree.rs`.
-/

namespace CSV

/-- `LeafNotKnown`, `/repo/commit_verify/src/mpc/block.rs:38-42`. -/
structure LeafNotKnown where
  /-- the missing protocol -/
  protocolId : ProtocolId
  deriving DecidableEq, Repr

/-- `InvalidProof`, `/repo/commit_verify/src/mpc/block.rs:44-55`. -/
structure InvalidProof where
  /-- protocol of the leaf -/
  protocolId : ProtocolId
  /-- slot of the protocol -/
  expected : UInt32
  /-- position claimed by the proof -/
  actual : UInt32
  /-- width of the tree -/
  width : Nat
  deriving DecidableEq, Repr

/-- `MergeError`, `/repo/commit_verify/src/mpc/block.rs:57-70`. -/
inductive MergeError where
  | invalidProof (e : InvalidProof)
  | unrelatedBlocks (baseRoot mergedRoot : Commitment)
  deriving DecidableEq, Repr

/-- `2u32.pow(depth.to_u8() as u32)`: `width_limit` of trees, blocks and proofs,
`/repo/commit_verify/src/mpc/tree.rs:198`, `/repo/commit_verify/src/mpc/block.rs:598, 703`.
The depth is a `u5`, so the power cannot overflow. -/
def widthLimit (depth : U5) : Nat := 2 ^ depth.val

/-- `protocol_id_pos`, `/repo/commit_verify/src/mpc/tree.rs:182-188`. `saturating_sub` is
subtraction of naturals; `low_u64() as u32` truncates. (The `debug_assert_ne!(width, 0)` holds
because the width is a power of two.) -/
def protocolIdPos (protocolId : ProtocolId) (cofactor : UInt16) (depth : U5) : UInt32 :=
  let width := widthLimit depth
  let rem := protocolId.toNat % max (width - cofactor.toNat) 1
  UInt32.ofNat (rem % 2 ^ 64)

/-- `TreeNode`, `/repo/commit_verify/src/mpc/block.rs:81-96`. -/
inductive TreeNode where
  | concealed (depth : U5) (hash : MerkleHash)
  | leaf (protocolId : ProtocolId) (message : Message)
  deriving DecidableEq, Repr

/-- `TreeNode::with`, `/repo/commit_verify/src/mpc/block.rs:99-104`. -/
def TreeNode.with [Env] (hash1 hash2 : MerkleHash) (depth : U5) (width : Nat) :
    Exec TreeNode := do
  let hash ← MerkleHash.branches depth width hash1 hash2
  .ok (.concealed depth hash)

/-- `TreeNode::depth_or`, `/repo/commit_verify/src/mpc/block.rs:106-113`. -/
def TreeNode.depthOr (treeDepth : U5) : TreeNode → U5
  | .concealed depth _ => depth
  | .leaf _ _ => treeDepth

/-- `TreeNode::is_leaf`, `/repo/commit_verify/src/mpc/block.rs:115`. -/
def TreeNode.isLeaf : TreeNode → Bool
  | .concealed _ _ => false
  | .leaf _ _ => true

/-- `TreeNode::to_merkle_node`, `/repo/commit_verify/src/mpc/block.rs:117-125`. -/
def TreeNode.toMerkleNode [Env] : TreeNode → Exec MerkleHash
  | .concealed _ hash => .ok hash
  | .leaf protocolId message => commitId (Leaf.inhabited protocolId message)

/-- `MerkleConcealed`, `/repo/commit_verify/src/mpc/block.rs:134-144`. -/
structure MerkleConcealed where
  /-- tree depth -/
  depth : U5
  /-- cofactor -/
  cofactor : UInt16
  /-- root of the merkle tree -/
  merkleRoot : MerkleHash
  deriving DecidableEq, Repr

/-- Strict encoding of `MerkleConcealed` (derived,
`/repo/commit_verify/src/mpc/block.rs:129-144`). -/
def MerkleConcealed.enc (c : MerkleConcealed) : Bytes :=
  encU5 c.depth ++ encU16 c.cofactor ++ encBytes32 c.merkleRoot

instance : StrictEncode MerkleConcealed where
  libName := LIB_NAME_COMMIT_VERIFY
  typeName := some "MerkleConcealed"
  enc := MerkleConcealed.enc

/-- Derived with `strategy = strict, id = Commitment`,
`/repo/commit_verify/src/mpc/block.rs:131-132`. -/
instance : CommitEncode MerkleConcealed where
  idType := mpcCommitmentId
  commitEncode x e := e.commitToSerialized x

/-- `Conceal for MerkleConcealed`, `/repo/commit_verify/src/mpc/block.rs:146-150`. -/
instance : Conceal MerkleConcealed MerkleConcealed where
  conceal x := .ok x

/-- `MerkleBlock`, `/repo/commit_verify/src/mpc/block.rs:159-181`. The cross-section is a
`NonEmptyVec<TreeNode, U32MAX>`; its confinement is checked by the constructors below. -/
structure MerkleBlock where
  /-- hashing method -/
  method : Method
  /-- tree depth -/
  depth : U5
  /-- cofactor -/
  cofactor : UInt16
  /-- nodes from left to right -/
  crossSection : List TreeNode
  /-- entropy of the unused slots, if known -/
  entropy : Option UInt64
  deriving DecidableEq, Repr

/-- `MerkleProof`, `/repo/commit_verify/src/mpc/block.rs:671-690`. The path is confined to at
most 32 elements. -/
structure MerkleProof where
  /-- hashing method -/
  method : Method
  /-- position of the leaf -/
  pos : UInt32
  /-- cofactor -/
  cofactor : UInt16
  /-- sibling hashes from the root down -/
  path : List MerkleHash
  deriving DecidableEq, Repr

/-- `NonEmptyVec::<TreeNode, U32MAX>::try_from(..).expect(..)`, e.g.
`/repo/commit_verify/src/mpc/block.rs:278-279`. -/
def nonEmptyVec (l : List TreeNode) : Exec (List TreeNode) :=
  if 1 ≤ l.length ∧ l.length ≤ 2 ^ 32 - 1 then .ok l else .error .expect

/-- `MerkleProof::depth`, `/repo/commit_verify/src/mpc/block.rs:700`. -/
def MerkleProof.depth (p : MerkleProof) : Exec U5 := u5With (p.path.length % 256)

/-- `MerkleProof::width_limit`, `/repo/commit_verify/src/mpc/block.rs:703`. -/
def MerkleProof.widthLimit (p : MerkleProof) : Exec Nat := do
  let d ← p.depth
  .ok (CSV.widthLimit d)

/-- `MerkleProof::factored_width`, `/repo/commit_verify/src/mpc/block.rs:707`. -/
def MerkleProof.factoredWidth [Env] (p : MerkleProof) : Exec Nat := do
  let w ← p.widthLimit
  u32Sub dbg w p.cofactor.toNat

/-- `MerkleProof::merkle_root`, `/repo/commit_verify/src/mpc/block.rs:721`. -/
def MerkleProof.merkleRoot (p : MerkleProof) : Option MerkleHash := p.path.head?

/-- `Proof::matches` for `MerkleProof`, `/repo/commit_verify/src/mpc/block.rs:692-696`. -/
def MerkleProof.matches (p q : MerkleProof) : Bool :=
  decide (p.cofactor = q.cofactor) && decide (p.merkleRoot = q.merkleRoot)

/-- The loop of `MerkleBlock::with`, `/repo/commit_verify/src/mpc/block.rs:255-269`; `depth` is
the enumeration index. -/
def withLoop : (path : List MerkleHash) → (depth pos widthLimit : Nat) →
    (dir rev : List TreeNode) → Exec (List TreeNode × List TreeNode)
  | [], _, _, _, dir, rev => .ok (dir, rev)
  | hash :: path, depth, pos, width, dir, rev => do
    let d ← u5With (depth % 256)
    let d ← u5Add d 1
    let node := TreeNode.concealed d hash
    if pos ≥ width / 2 then
      withLoop path (depth + 1) (pos - width / 2) (width / 2) (dir ++ [node]) rev
    else
      withLoop path (depth + 1) pos (width / 2) dir (rev ++ [node])

/-- `MerkleBlock::with`, `/repo/commit_verify/src/mpc/block.rs:236-288`. -/
def MerkleBlock.with (proof : MerkleProof) (protocolId : ProtocolId) (message : Message) :
    Exec (Except InvalidProof MerkleBlock) := do
  let pos := proof.pos
  let width ← proof.widthLimit
  let proofDepth ← proof.depth
  let expected := protocolIdPos protocolId proof.cofactor proofDepth
  if expected ≠ pos then
    .ok (.error ⟨protocolId, expected, pos, width⟩)
  else
    let (dir, rev) ← withLoop proof.path 0 pos.toNat width [] []
    let crossSection ← nonEmptyVec (dir ++ [TreeNode.leaf protocolId message] ++ rev.reverse)
    let depth ← u5With (proof.path.length % 256)
    .ok (.ok ⟨proof.method, depth, proof.cofactor, crossSection, none⟩)

/-- First loop of `conceal_except`, `/repo/commit_verify/src/mpc/block.rs:326-343`: conceals
every revealed leaf whose protocol is not listed. Returns the new cross-section, the
number of leaves concealed and the remaining `not_found` set. -/
def concealLeaves [Env] (depth : U5) (protocols : List ProtocolId) :
    List TreeNode → (count : Nat) → (notFound : List ProtocolId) →
    Exec (List TreeNode × Nat × List ProtocolId)
  | [], count, notFound => .ok ([], count, notFound)
  | .concealed d h :: rest, count, notFound => do
    let (rest', count', nf) ← concealLeaves depth protocols rest count notFound
    .ok (.concealed d h :: rest', count', nf)
  | .leaf p m :: rest, count, notFound =>
    if protocols.contains p then do
      let (rest', count', nf) ← concealLeaves depth protocols rest count (bsetRemove p notFound)
      .ok (.leaf p m :: rest', count', nf)
    else do
      let hash ← (TreeNode.leaf p m).toMerkleNode
      let (rest', count', nf) ← concealLeaves depth protocols rest (count + 1) notFound
      .ok (.concealed depth hash :: rest', count', nf)

/-- Local variables of the aggregation loop, `/repo/commit_verify/src/mpc/block.rs:349-354`. -/
structure ConcealState where
  /-- `self.cross_section` -/
  cs : List TreeNode
  /-- `count` -/
  count : Nat
  /-- `offset` (`u32`) -/
  offset : Nat
  /-- `pos` -/
  pos : Nat
  /-- `len` -/
  len : Nat
  deriving DecidableEq, Repr

/-- Body of the inner loop of `conceal_except`,
`/repo/commit_verify/src/mpc/block.rs:356-416`. -/
def concealStep [Env] (depth : U5) (s : ConcealState) : Exec ConcealState :=
  match s.cs[s.pos]?, s.cs[s.pos + 1]? with
  | none, _ => .error .index
  | some (.concealed depth1 hash1), some (.concealed depth2 hash2) =>
    if depth1 = depth2 then do
      let d ← u5Sub depth1 1
      let height ← u32Sub dbg depth.val d.val
      let pow ← u32Pow2 dbg height
      let r ← u32Rem s.offset pow
      if r ≠ 0 then do
        let e ← u32Sub dbg depth.val depth1.val
        let p ← u32Pow2 dbg e
        let offset ← u32Add dbg s.offset p
        .ok { s with offset := offset, pos := s.pos + 1 }
      else do
        let node ← TreeNode.with hash1 hash2 d (widthLimit depth)
        if s.cs.length ≤ 1 then .error .expect
        else do
          let offset ← u32Add dbg s.offset pow
          .ok { cs := (s.cs.set s.pos node).eraseIdx (s.pos + 1), count := s.count + 1,
                offset := offset, pos := s.pos + 1, len := s.len - 1 }
    else do
      let e ← u32Sub dbg depth.val depth1.val
      let p ← u32Pow2 dbg e
      let offset ← u32Add dbg s.offset p
      .ok { s with offset := offset, pos := s.pos + 1 }
  | some (.concealed depth1 _), none => do
    let e ← u32Sub dbg depth.val depth1.val
    let p ← u32Pow2 dbg e
    let offset ← u32Add dbg s.offset p
    .ok { s with offset := offset, pos := s.pos + 1 }
  | some (.leaf _ _), some (.leaf _ _) => do
    let offset ← u32Add dbg s.offset 2
    .ok { s with offset := offset, pos := s.pos + 1 + 1 }
  | some (.concealed depth1 _), some (.leaf _ _) => do
    let e ← u32Sub dbg depth.val depth1.val
    let p ← u32Pow2 dbg e
    let offset ← u32Add dbg s.offset p
    let offset ← u32Add dbg offset 1
    .ok { s with offset := offset, pos := s.pos + 1 + 1 }
  | some (.leaf _ _), some (.concealed _ _) => do
    let offset ← u32Add dbg s.offset 1
    .ok { s with offset := offset, pos := s.pos + 1 }
  | some (.leaf _ _), none => do
    let offset ← u32Add dbg s.offset 1
    .ok { s with offset := offset, pos := s.pos + 1 }

/-- Inner loop of `conceal_except`, `/repo/commit_verify/src/mpc/block.rs:355-417`. -/
def concealInner [Env] (depth : U5) : (fuel : Nat) → ConcealState → Exec ConcealState
  | 0, s => if s.pos < s.len then .error .fuel else .ok s
  | fuel + 1, s =>
    if s.pos < s.len then do
      let s' ← concealStep depth s
      concealInner depth fuel s'
    else .ok s

/-- Outer loop of `conceal_except`, `/repo/commit_verify/src/mpc/block.rs:349-422`. Returns the
cross-section and the count. -/
def concealOuter [Env] (depth : U5) : (fuel : Nat) → (cs : List TreeNode) → (count : Nat) →
    Exec (List TreeNode × Nat)
  | 0, _, _ => .error .fuel
  | fuel + 1, cs, count => do
    debugAssert dbg (!cs.isEmpty)
    let s ← concealInner depth cs.length ⟨cs, count, 0, 0, cs.length⟩
    if s.count = count then .ok (s.cs, s.count)
    else do
      debugAssert dbg (decide (s.offset = widthLimit depth))
      concealOuter depth fuel s.cs s.count

/-- `MerkleBlock::conceal_except`, `/repo/commit_verify/src/mpc/block.rs:315-425`. Returns the
mutated block and the result. -/
def MerkleBlock.concealExcept [Env] (b : MerkleBlock) (protocols : List ProtocolId) :
    Exec (MerkleBlock × Except LeafNotKnown Nat) := do
  let notFound := bsetOfList protocols
  let (cs, count, notFound) ← concealLeaves b.depth protocols b.crossSection 0 notFound
  let b := { b with entropy := none, crossSection := cs }
  match notFound with
  | protocolId :: _ => .ok (b, .error ⟨protocolId⟩)
  | [] => do
    let (cs, count) ← concealOuter b.depth (cs.length + 1) cs count
    .ok ({ b with crossSection := cs }, .ok count)

/-- `MerkleBlock::conceal_other`, `/repo/commit_verify/src/mpc/block.rs:298-301`. -/
def MerkleBlock.concealOther [Env] (b : MerkleBlock) (protocol : ProtocolId) :
    Exec (MerkleBlock × Except LeafNotKnown Unit) := do
  let (b, r) ← b.concealExcept [protocol]
  .ok (b, r.map fun _ => ())

/-- `Conceal for MerkleBlock`, `/repo/commit_verify/src/mpc/block.rs:641-664`. -/
def MerkleBlock.conceal [Env] (b : MerkleBlock) : Exec MerkleConcealed := do
  let (concealed, r) ← b.concealExcept []
  match r with
  | .error _ => .error .expect
  | .ok _ => do
    debugAssert dbg (decide (concealed.crossSection.length = 1))
    match concealed.crossSection.head? with
    | some (.concealed depth hash) =>
      if depth = 0 then .ok ⟨b.depth, b.cofactor, hash⟩ else .error .explicit
    | _ => .error .explicit

instance : Conceal MerkleBlock MerkleConcealed where
  conceal b := b.conceal

/-- Derived with `strategy = conceal, id = Commitment`,
`/repo/commit_verify/src/mpc/block.rs:156-157` and `/repo/commit_verify/derive/src/derive.rs:39-42`:
`engine.commit_to_concealed(&self.conceal())`. -/
instance : CommitEncode MerkleBlock where
  idType := mpcCommitmentId
  commitEncode b e := do
    let c ← b.conceal
    e.commitToConcealed c

/-- `commit_id` of a block. -/
def MerkleBlock.commitId [Env] (b : MerkleBlock) : Exec Commitment := CSV.commitId b

/-- `Proof::matches` for `MerkleBlock`, `/repo/commit_verify/src/mpc/block.rs:198-200`. -/
def MerkleBlock.matches [Env] (a b : MerkleBlock) : Exec Bool := do
  let x ← a.commitId
  let y ← b.commitId
  .ok (decide (x = y))

/-- The `take_while` closures of `merge_reveal`, `/repo/commit_verify/src/mpc/block.rs:487-500` and
`505-518`: nodes are taken until the buoy has surfaced to `limit`. Returns the nodes taken
and the rest of the iterator; the first node of the rest, if any, is the one the closure saves
in `last_a`/`last_b`. -/
def takeBuoy (depth limit : U5) : Buoy → List TreeNode →
    Exec (List TreeNode × List TreeNode)
  | _, [] => .ok ([], [])
  | buoy, n :: rest => do
    let (buoy, _) ← buoy.push (n.depthOr depth)
    if buoy.level ≤ limit then .ok ([n], rest)
    else do
      let (taken, rest) ← takeBuoy depth limit buoy rest
      .ok (n :: taken, rest)

/-- Main loop of `merge_reveal`, `/repo/commit_verify/src/mpc/block.rs:453-524`. The list `a` stands
for `last_a` followed by the rest of the iterator `a` (`last_a` is `None` only if the iterator
is exhausted), likewise `b`. Returns the nodes pushed from here on. When one of the lists ends
the loop ends, and the rests of the iterators - without `last_a`, `last_b` - are appended. -/
def mergeLoop (depth : U5) : (fuel : Nat) → (a b : List TreeNode) → Exec (List TreeNode)
  | _, [], [] => .ok []
  | _, _ :: a, [] => .ok a
  | _, [], _ :: b => .ok b
  | 0, _ :: _, _ :: _ => .error .fuel
  | fuel + 1, n1 :: a, n2 :: b =>
    let d1 := n1.depthOr depth
    let d2 := n2.depthOr depth
    if d1 = d2 then
      if n1 = n2 then do
        let r ← mergeLoop depth fuel a b
        .ok (n1 :: r)
      else
        match n1.isLeaf, n2.isLeaf with
        | true, false => do
          let r ← mergeLoop depth fuel a b
          .ok (n1 :: r)
        | false, true => do
          let r ← mergeLoop depth fuel a b
          .ok (n2 :: r)
        | false, false => mergeLoop depth fuel a b
        | true, true => .error .unreachable
    else if d1 < d2 then do
      let (taken, b) ← takeBuoy depth d1 (Buoy.new d2) b
      let r ← mergeLoop depth fuel a b
      .ok (n2 :: taken ++ r)
    else do
      let (taken, a) ← takeBuoy depth d2 (Buoy.new d1) a
      let r ← mergeLoop depth fuel a b
      .ok (n1 :: taken ++ r)

/-- The sum of the first assertion of `merge_reveal`,
`/repo/commit_verify/src/mpc/block.rs:530-534`: `u8` subtraction, `2u32.pow`, `u32` sum. -/
def sumWidths [Env] (depth : U5) : List TreeNode → (acc : Nat) → Exec Nat
  | [], acc => .ok acc
  | n :: rest, acc => do
    let h ← u8Sub dbg depth.val (n.depthOr depth).val
    let p ← u32Pow2 dbg h
    let acc ← u32Add dbg acc p
    sumWidths depth rest acc

/-- `MerkleBlock::merge_reveal`, `/repo/commit_verify/src/mpc/block.rs:442-553`. Returns the mutated
block and the result. -/
def MerkleBlock.mergeReveal [Env] (self other : MerkleBlock) :
    Exec (MerkleBlock × Except MergeError UInt16) := do
  let baseRoot ← self.commitId
  let mergedRoot ← other.commitId
  if baseRoot ≠ mergedRoot then
    .ok (self, .error (.unrelatedBlocks baseRoot mergedRoot))
  else do
    let cs ← mergeLoop self.depth self.crossSection.length self.crossSection other.crossSection
    let cs ← nonEmptyVec cs
    let merged := { self with crossSection := cs }
    let sum ← sumWidths merged.depth merged.crossSection 0
    assert' (decide (sum = widthLimit merged.depth))
    let root ← merged.commitId
    assert' (decide (baseRoot = root))
    .ok (merged, .ok (UInt16.ofNat merged.crossSection.length))

/-- `MerkleBlock::merge_reveal_path`, `/repo/commit_verify/src/mpc/block.rs:430-438`. -/
def MerkleBlock.mergeRevealPath [Env] (self : MerkleBlock) (proof : MerkleProof)
    (protocolId : ProtocolId) (message : Message) :
    Exec (MerkleBlock × Except MergeError UInt16) := do
  let r ← MerkleBlock.with proof protocolId message
  match r with
  | .error e => .ok (self, .error (.invalidProof e))
  | .ok block => self.mergeReveal block

/-- The loop of `into_merkle_proof`, `/repo/commit_verify/src/mpc/block.rs:562-571`: collects the
hashes of concealed nodes by depth. -/
def collectPath [Env] : List TreeNode → List (U5 × MerkleHash) → Exec (List (U5 × MerkleHash))
  | [], m => .ok m
  | .leaf _ _ :: rest, m => collectPath rest m
  | .concealed depth hash :: rest, m => do
    let inserted := (bmapGet depth m).isNone
    debugAssert dbg inserted
    collectPath rest (bmapInsert depth hash m)

/-- `MerkleBlock::protocol_id_pos`, `/repo/commit_verify/src/mpc/block.rs:593-595`. -/
def MerkleBlock.protocolIdPos (b : MerkleBlock) (p : ProtocolId) : UInt32 :=
  CSV.protocolIdPos p b.cofactor b.depth

/-- `MerkleBlock::width_limit`, `/repo/commit_verify/src/mpc/block.rs:598`. -/
def MerkleBlock.widthLimit (b : MerkleBlock) : Nat := CSV.widthLimit b.depth

/-- `MerkleBlock::factored_width`, `/repo/commit_verify/src/mpc/block.rs:602`. -/
def MerkleBlock.factoredWidth [Env] (b : MerkleBlock) : Exec Nat :=
  u32Sub dbg b.widthLimit b.cofactor.toNat

/-- `MerkleBlock::into_merkle_proof` and `to_merkle_proof`,
`/repo/commit_verify/src/mpc/block.rs:557-590`. -/
def MerkleBlock.toMerkleProof [Env] (b : MerkleBlock) (protocolId : ProtocolId) :
    Exec (Except LeafNotKnown MerkleProof) := do
  let (b, r) ← b.concealOther protocolId
  match r with
  | .error e => .ok (.error e)
  | .ok _ => do
    let map ← collectPath b.crossSection []
    debugAssert dbg (decide (b.depth.val = map.length))
    let path := map.map Prod.snd
    if path.length ≤ 32 then
      .ok (.ok ⟨b.method, b.protocolIdPos protocolId, b.cofactor, path⟩)
    else .error .expect

/-- `MerkleBlock::known_protocol_ids`, `/repo/commit_verify/src/mpc/block.rs:604-609`. -/
def MerkleBlock.knownProtocolIds (b : MerkleBlock) : List ProtocolId :=
  b.crossSection.filterMap fun
    | .concealed _ _ => none
    | .leaf p _ => some p

/-- `MerkleBlock::to_known_message_map`, `/repo/commit_verify/src/mpc/block.rs:612-626`. -/
def MerkleBlock.toKnownMessageMap (b : MerkleBlock) : Exec MessageMap :=
  let entries := b.crossSection.filterMap fun
    | .concealed _ _ => none
    | .leaf p m => some (p, m)
  match OrdMap.tryFrom MEDIUM_MAX (bmapOfList entries) with
  | some m => .ok m
  | none => .error .expect

/-- `MerkleBlock::into_known_proofs`, `/repo/commit_verify/src/mpc/block.rs:628-638`, with the
returned iterator run to its end. -/
def MerkleBlock.intoKnownProofs [Env] (b : MerkleBlock) :
    Exec (List (ProtocolId × MerkleProof)) :=
  b.knownProtocolIds.mapM fun id => do
    let r ← b.toMerkleProof id
    match r with
    | .ok proof => .ok (id, proof)
    | .error _ => .error .expect

/-- `MerkleProof::convolve`, `/repo/commit_verify/src/mpc/block.rs:725-732`. -/
def MerkleProof.convolve [Env] (p : MerkleProof) (protocolId : ProtocolId) (message : Message) :
    Exec (Except InvalidProof Commitment) := do
  let r ← MerkleBlock.with p protocolId message
  match r with
  | .error e => .ok (.error e)
  | .ok block => do
    let c ← block.commitId
    .ok (.ok c)

/-- `StrictDumb for MerkleBlock`, `/repo/commit_verify/src/mpc/block.rs:183-193`. -/
def MerkleBlock.strictDumb : MerkleBlock :=
  ⟨.sha256t, 1, 0, [.concealed 0 (Bytes32.fill 0)], some 8845⟩

end CSV
