import Verif.Model.Tree
import Verif.Model.Derive

/-!
# Strict decoding

Models the `StrictEncode` and `StrictDecode` implementations derived for the types of
`/repo/commit_verify/src`. The rules of the primitive types and of collections are those of the
`strict_encoding` crate, which is not in `/repo` (see DESIGN.md, trusted base). All errors of
decoding (end of data, wrong tag, value out of range, confinement, order of keys) are `none`.
-/

namespace CSV

/-- A decoder reads from the input and returns a value and the unread input, or an error. -/
abbrev Decoder (α : Type) := Bytes → Option (α × Bytes)

/-- Successful decoding without reading. -/
def Decoder.pure {α : Type} (a : α) : Decoder α := fun bs => some (a, bs)

/-- Decoding error. -/
def Decoder.fail {α : Type} : Decoder α := fun _ => none

/-- One decoder after the other. -/
def Decoder.bind {α β : Type} (d : Decoder α) (k : α → Decoder β) : Decoder β := fun bs =>
  match d bs with
  | none => none
  | some (a, rest) => k a rest

/-- `read_raw`: the next `n` bytes. -/
def decBytes (n : Nat) : Decoder Bytes := fun bs =>
  if bs.length < n then none else some (bs.take n, bs.drop n)

/-- A little-endian number of `n` bytes. -/
def decLe (n : Nat) : Decoder Nat := (decBytes n).bind fun bs => .pure (leNat bs)

/-- `u8`. -/
def decU8 : Decoder UInt8 := (decLe 1).bind fun n => .pure (UInt8.ofNat n)
/-- `u16`. -/
def decU16 : Decoder UInt16 := (decLe 2).bind fun n => .pure (UInt16.ofNat n)
/-- `u32`. -/
def decU32 : Decoder UInt32 := (decLe 4).bind fun n => .pure (UInt32.ofNat n)
/-- `u64`. -/
def decU64 : Decoder UInt64 := (decLe 8).bind fun n => .pure (UInt64.ofNat n)
/-- `u256`. -/
def decU256 : Decoder (BitVec 256) := (decLe 32).bind fun n => .pure (BitVec.ofNat 256 n)
/-- `u5`: one byte, values above 31 are an error. -/
def decU5 : Decoder U5 := (decLe 1).bind fun n => if h : n < 32 then .pure ⟨n, h⟩ else .fail

/-- `[u8; 32]` and its wrappers. -/
def decBytes32 : Decoder Bytes32 := (decBytes 32).bind fun bs =>
  if h : bs.length = 32 then .pure ⟨bs, h⟩ else .fail

/-- `Option<T>`. -/
def decOption {α : Type} (d : Decoder α) : Decoder (Option α) := decU8.bind fun tag =>
  if tag = 0 then .pure none
  else if tag = 1 then d.bind fun a => .pure (some a)
  else .fail

/-- `n` values. -/
def decTimes {α : Type} (d : Decoder α) : Nat → Decoder (List α)
  | 0 => .pure []
  | n + 1 => d.bind fun a => (decTimes d n).bind fun l => .pure (a :: l)

/-- `Confined<Vec<T>, MIN, MAX>`. -/
def decList {α : Type} (min max : Nat) (d : Decoder α) : Decoder (List α) :=
  (decLe (lenPrefix max)).bind fun n => (decTimes d n).bind fun l =>
    if min ≤ l.length ∧ l.length ≤ max then .pure l else .fail

/-- `(K, V)`. -/
def decPair {α β : Type} (da : Decoder α) (db : Decoder β) : Decoder (α × β) :=
  da.bind fun a => db.bind fun b => .pure (a, b)

/-- `Confined<BTreeMap<K, V>, 0, MAX>`: keys have to ascend strictly. -/
def decMap {κ α : Type} [OrdKey κ] (max : Nat) (dk : Decoder κ) (d : Decoder α) :
    Decoder (OrdMap κ α max) :=
  (decLe (lenPrefix max)).bind fun n => (decTimes (decPair dk d) n).bind fun l =>
    if h : BMapOk l ∧ l.length ≤ max then .pure ⟨l, h.1, h.2⟩ else .fail

/-- Encoding of a pair. -/
def encPair {α β : Type} (ea : α → Bytes) (eb : β → Bytes) (x : α × β) : Bytes := ea x.1 ++ eb x.2

/-- Encoding of an ordered map. -/
def encMap {κ α : Type} [OrdKey κ] {max : Nat} (ek : κ → Bytes) (e : α → Bytes)
    (m : OrdMap κ α max) : Bytes := encList max (encPair ek e) m.entries

/-- Bound of `NonEmptyVec<_, U32MAX>` and such. -/
def U32_MAX : Nat := 2 ^ 32 - 1

/-- `Method`, `/repo/commit_verify/src/mpc/atoms.rs:35-42`. -/
def decMethod : Decoder Method := decU8.bind fun tag =>
  if tag = 0 then .pure .sha256t else .fail

/-- `NodeBranching`, `/repo/commit_verify/src/merkle.rs:36-51`. -/
def decNodeBranching : Decoder NodeBranching := decU8.bind fun tag =>
  if tag = 0x00 then .pure .void
  else if tag = 0x01 then .pure .single
  else if tag = 0x02 then .pure .branch
  else .fail

/-- `Leaf`, `/repo/commit_verify/src/mpc/atoms.rs:89-103`. -/
def decLeaf : Decoder Leaf := decU8.bind fun tag =>
  if tag = 0x10 then
    decBytes32.bind fun protocol => decBytes32.bind fun message => .pure (.inhabited protocol message)
  else if tag = 0x11 then
    decU64.bind fun entropy => decU32.bind fun pos => .pure (.entropy entropy pos)
  else .fail

/-- `MerkleNode`, `/repo/commit_verify/src/merkle.rs:54-64`. -/
def decMerkleNode : Decoder MerkleNode :=
  decNodeBranching.bind fun branching => decU8.bind fun depth => decU256.bind fun width =>
    decBytes32.bind fun node1 => decBytes32.bind fun node2 =>
      .pure ⟨branching, depth, width, node1, node2⟩

/-- `StrictEncode for TreeNode` (derived with `tags = order`),
`/repo/commit_verify/src/mpc/block.rs:74-96`. -/
def TreeNode.enc : TreeNode → Bytes
  | .concealed depth hash => 0 :: (encU5 depth ++ encBytes32 hash)
  | .leaf protocolId message => 1 :: (encBytes32 protocolId ++ encBytes32 message)

/-- `StrictDecode for TreeNode`, `/repo/commit_verify/src/mpc/block.rs:74-96`. -/
def decTreeNode : Decoder TreeNode := decU8.bind fun tag =>
  if tag = 0 then decU5.bind fun depth => decBytes32.bind fun hash => .pure (.concealed depth hash)
  else if tag = 1 then
    decBytes32.bind fun protocolId => decBytes32.bind fun message => .pure (.leaf protocolId message)
  else .fail

/-- `MerkleConcealed`, `/repo/commit_verify/src/mpc/block.rs:129-144`. -/
def decMerkleConcealed : Decoder MerkleConcealed :=
  decU5.bind fun depth => decU16.bind fun cofactor => decBytes32.bind fun merkleRoot =>
    .pure ⟨depth, cofactor, merkleRoot⟩

/-- `StrictEncode for MerkleBlock`, `/repo/commit_verify/src/mpc/block.rs:154-181`. -/
def MerkleBlock.enc (b : MerkleBlock) : Bytes :=
  encU8 b.method.toU8 ++ encU5 b.depth ++ encU16 b.cofactor ++
    encList U32_MAX TreeNode.enc b.crossSection ++ encOption encU64 b.entropy

/-- `StrictDecode for MerkleBlock`, `/repo/commit_verify/src/mpc/block.rs:154-181`. -/
def decMerkleBlock : Decoder MerkleBlock :=
  decMethod.bind fun method => decU5.bind fun depth => decU16.bind fun cofactor =>
    (decList 1 U32_MAX decTreeNode).bind fun crossSection =>
      (decOption decU64).bind fun entropy => .pure ⟨method, depth, cofactor, crossSection, entropy⟩

/-- `StrictEncode for MerkleProof`, `/repo/commit_verify/src/mpc/block.rs:668-690`. -/
def MerkleProof.enc (p : MerkleProof) : Bytes :=
  encU8 p.method.toU8 ++ encU32 p.pos ++ encU16 p.cofactor ++ encList 32 encBytes32 p.path

/-- `StrictDecode for MerkleProof`, `/repo/commit_verify/src/mpc/block.rs:668-690`. -/
def decMerkleProof : Decoder MerkleProof :=
  decMethod.bind fun method => decU32.bind fun pos => decU16.bind fun cofactor =>
    (decList 0 32 decBytes32).bind fun path => .pure ⟨method, pos, cofactor, path⟩

/-- `StrictEncode for MerkleTree`, `/repo/commit_verify/src/mpc/tree.rs:43-65`. -/
def MerkleTree.enc (t : MerkleTree) : Bytes :=
  encU8 t.method.toU8 ++ encU5 t.depth ++ encU64 t.entropy ++ encU16 t.cofactor ++
    encMap encBytes32 encBytes32 t.messages ++ encMap encU32 (encPair encBytes32 encBytes32) t.map

/-- `StrictDecode for MerkleTree`, `/repo/commit_verify/src/mpc/tree.rs:43-65`. -/
def decMerkleTree : Decoder MerkleTree :=
  decMethod.bind fun method => decU5.bind fun depth => decU64.bind fun entropy =>
    decU16.bind fun cofactor => (decMap MEDIUM_MAX decBytes32 decBytes32).bind fun messages =>
      (decMap MEDIUM_MAX decU32 (decPair decBytes32 decBytes32)).bind fun map =>
        .pure ⟨method, depth, entropy, cofactor, messages, map⟩

/-- `StrictDeserialize::from_strict_serialized`, e.g. for `MerkleBlock`,
`/repo/commit_verify/src/mpc/block.rs:195-196`: the whole input has to be read. -/
def deserialize {α : Type} (d : Decoder α) (bs : Bytes) : Option α :=
  match d bs with
  | some (a, []) => some a
  | _ => none

end CSV
