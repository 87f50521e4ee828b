import Verif.Model.Codec

/-!
# The published type library

The type library `/repo/stl/CommitVerify@0.1.0.sty` is what implementations in other languages work
from. It is transcribed here line by line, over the rules of strict encoding for each form of type
definition; nothing of this file is used by the model. A type is given as the function which
writes the values of that type; other values are refused (`none`).
-/

namespace CSV

/-- Values in terms of the library: fields and variants have their published names. -/
inductive Val where
  /-- a number -/
  | num (n : Nat)
  /-- an array of bytes -/
  | bytes (bs : Bytes)
  /-- a record with named fields, in any order -/
  | record (fields : List (String × Val))
  /-- a tuple -/
  | tuple (items : List Val)
  /-- a variant without content -/
  | variant (name : String)
  /-- a variant with content -/
  | content (name : String) (v : Val)
  /-- a list -/
  | list (items : List Val)
  /-- a map -/
  | map (entries : List (Val × Val))
  /-- an absent optional value -/
  | absent
  /-- a present optional value -/
  | present (v : Val)

/-- A type: how its values are written. -/
abbrev Ty := Val → Option Bytes

namespace Ty

/-- The `n` bytes of a number, the byte of value `256 ^ i` at position `i`. -/
def little (n k : Nat) : Bytes := (List.range n).map fun i => UInt8.ofNat (k / 256 ^ i % 256)

/-- `U8`, `U16`, `U32`, `U64`, `U256`: little endian. -/
def uint (bits : Nat) : Ty
  | .num k => if k < 2 ^ bits then some (little (bits / 8) k) else none
  | _ => none

/-- `Std.U5`: the numbers below 32, in one byte. -/
def u5 : Ty
  | .num k => if k < 32 then some [UInt8.ofNat k] else none
  | _ => none

/-- `[Byte ^ n]`: the bytes without a length. -/
def byteArray (n : Nat) : Ty
  | .bytes bs => if bs.length = n then some bs else none
  | _ => none

/-- The fields in the order of the definition. -/
def writeFields : List (String × Ty) → List (String × Val) → Option Bytes
  | [], _ => some []
  | (name, ty) :: fs, vs => do
    let v ← vs.lookup name
    let a ← ty v
    let b ← writeFields fs vs
    some (a ++ b)

/-- `name Type, name Type, ...`: nothing is written between the fields. -/
def record (fs : List (String × Ty)) : Ty
  | .record vs => if vs.length = fs.length then writeFields fs vs else none
  | _ => none

/-- `Type, Type`. -/
def pair (s t : Ty) : Ty
  | .tuple [x, y] => do
    let a ← s x
    let b ← t y
    some (a ++ b)
  | _ => none

/-- Numbers of the variants: `name#n` has the number `n`, a variant without a number follows the
preceding one, the first being 0. -/
def numbered {α : Type} (next : Nat) : List (String × Option Nat × α) → List (String × Nat × α)
  | [] => []
  | (name, n, a) :: vs => (name, n.getD next, a) :: numbered (n.getD next + 1) vs

/-- `name | name | ...`: the number of the variant in one byte. -/
def enum (names : List String) : Ty
  | .variant name => ((numbered 0 (names.map fun s => (s, none, ()))).lookup name).map
      fun n => [UInt8.ofNat n.1]
  | _ => none

/-- `name#n Type | name Type | ...`: the number of the variant in one byte, then the content. -/
def union (vs : List (String × Option Nat × Ty)) : Ty
  | .content name v =>
    match (numbered 0 vs).lookup name with
    | some (n, ty) => (ty v).map (UInt8.ofNat n :: ·)
    | none => none
  | _ => none

/-- `Type?`. -/
def opt (t : Ty) : Ty
  | .absent => some [0]
  | .present v => (t v).map (1 :: ·)
  | _ => none

/-- The number of elements, in the smallest of 1, 2, 3, 4 and 8 bytes that can hold any permitted
number. -/
def count (max n : Nat) : Bytes :=
  little (([1, 2, 3, 4, 8].find? fun w => max < 256 ^ w).getD 8) n

/-- The elements one after the other. -/
def writeAll (t : Ty) : List Val → Option Bytes
  | [] => some []
  | v :: vs => do
    let a ← t v
    let b ← writeAll t vs
    some (a ++ b)

/-- `[Type ^ min..max]`. -/
def seq (min max : Nat) (t : Ty) : Ty
  | .list vs =>
    if min ≤ vs.length ∧ vs.length ≤ max then (writeAll t vs).map (count max vs.length ++ ·) else none
  | _ => none

/-- Order of keys: numbers by size, arrays of bytes lexicographically. -/
def before : Val → Val → Bool
  | .num a, .num b => decide (a < b)
  | .bytes a, .bytes b => decide (a < b)
  | _, _ => false

/-- `{Key -> ^ ..max Value}`: keys ascending, without repetitions. -/
def map (max : Nat) (k t : Ty) : Ty
  | .map es =>
    if es.length ≤ max ∧ (es.map Prod.fst).Pairwise (before · ·) then
      (writeAll (pair k t) (es.map fun e => .tuple [e.1, e.2])).map (count max es.length ++ ·)
    else none
  | _ => none

end Ty

/-! ## The library -/

namespace Published

/-- `U8`. -/
def U8 : Ty := .uint 8
/-- `U16`. -/
def U16 : Ty := .uint 16
/-- `U32`. -/
def U32 : Ty := .uint 32
/-- `U64`. -/
def U64 : Ty := .uint 64
/-- `U256`. -/
def U256 : Ty := .uint 256

/-- `stl/CommitVerify@0.1.0.sty:19`. -/
def Commitment : Ty := .byteArray 32
/-- `stl/CommitVerify@0.1.0.sty:62`. -/
def Message : Ty := .byteArray 32
/-- `stl/CommitVerify@0.1.0.sty:73`. -/
def ProtocolId : Ty := .byteArray 32
/-- `stl/CommitVerify@0.1.0.sty:38`. -/
def MerkleHash : Ty := .byteArray 32
/-- `stl/CommitVerify@0.1.0.sty:172`. -/
def StrictHash : Ty := .byteArray 32
/-- `ReservedBytes1` to `ReservedBytes32`, `stl/CommitVerify@0.1.0.sty:76-169`. -/
def ReservedBytes (n : Nat) : Ty := .byteArray n
/-- `stl/CommitVerify@0.1.0.sty:65`. -/
def Method : Ty := .enum ["sha256t"]
/-- `stl/CommitVerify@0.1.0.sty:69`. -/
def NodeBranching : Ty := .enum ["void", "single", "branch"]
/-- `stl/CommitVerify@0.1.0.sty:22-23`. -/
def Leaf : Ty := .union [
  ("inhabited", some 16, .record [("protocol", ProtocolId), ("message", Message)]),
  ("entropy", none, .record [("entropy", U64), ("pos", U32)])]
/-- `stl/CommitVerify@0.1.0.sty:175-176`. -/
def TreeNode : Ty := .union [
  ("concealedNode", none, .record [("depth", .u5), ("hash", MerkleHash)]),
  ("commitmentLeaf", none, .record [("protocolId", ProtocolId), ("message", Message)])]
/-- `stl/CommitVerify@0.1.0.sty:26-30`. -/
def MerkleBlock : Ty := .record [
  ("method", Method),
  ("depth", .u5),
  ("cofactor", U16),
  ("crossSection", .seq 1 0xffffffff TreeNode),
  ("entropy", .opt U64)]
/-- `stl/CommitVerify@0.1.0.sty:33-35`. -/
def MerkleConcealed : Ty := .record [
  ("depth", .u5),
  ("cofactor", U16),
  ("merkleRoot", MerkleHash)]
/-- `stl/CommitVerify@0.1.0.sty:41-45`. -/
def MerkleNode : Ty := .record [
  ("branching", NodeBranching),
  ("depth", U8),
  ("width", U256),
  ("node1", MerkleHash),
  ("node2", MerkleHash)]
/-- `stl/CommitVerify@0.1.0.sty:48-51`. -/
def MerkleProof : Ty := .record [
  ("method", Method),
  ("pos", U32),
  ("cofactor", U16),
  ("path", .seq 0 0x20 MerkleHash)]
/-- `stl/CommitVerify@0.1.0.sty:54-59`. -/
def MerkleTree : Ty := .record [
  ("method", Method),
  ("depth", .u5),
  ("entropy", U64),
  ("cofactor", U16),
  ("messages", .map 0xffffff ProtocolId Message),
  ("map", .map 0xffffff U32 (.pair ProtocolId Message))]

end Published

/-! ## Values of the API in terms of the library -/

/-- A wrapped array. -/
def Bytes32.val (b : Bytes32) : Val := .bytes b.bytes

/-- An optional value. -/
def optVal {α : Type} (val : α → Val) : Option α → Val
  | none => .absent
  | some a => .present (val a)

/-- `Method`, with the name of the variant in camel case. -/
def Method.val : Method → Val
  | .sha256t => .variant "sha256t"

/-- `NodeBranching`. -/
def NodeBranching.val : NodeBranching → Val
  | .void => .variant "void"
  | .single => .variant "single"
  | .branch => .variant "branch"

/-- `Leaf`. -/
def Leaf.val : Leaf → Val
  | .inhabited protocol message =>
    .content "inhabited" (.record [("protocol", protocol.val), ("message", message.val)])
  | .entropy value pos =>
    .content "entropy" (.record [("entropy", .num value.toNat), ("pos", .num pos.toNat)])

/-- `TreeNode`. -/
def TreeNode.val : TreeNode → Val
  | .concealed depth hash =>
    .content "concealedNode" (.record [("depth", .num depth.val), ("hash", hash.val)])
  | .leaf protocolId message =>
    .content "commitmentLeaf" (.record [("protocolId", protocolId.val), ("message", message.val)])

/-- `MerkleNode`. -/
def MerkleNode.val (n : MerkleNode) : Val := .record [
  ("branching", n.branching.val), ("depth", .num n.depth.toNat), ("width", .num n.width.toNat),
  ("node1", n.node1.val), ("node2", n.node2.val)]

/-- `MerkleConcealed`. -/
def MerkleConcealed.val (c : MerkleConcealed) : Val := .record [
  ("depth", .num c.depth.val), ("cofactor", .num c.cofactor.toNat), ("merkleRoot", c.merkleRoot.val)]

/-- `MerkleBlock`. -/
def MerkleBlock.val (b : MerkleBlock) : Val := .record [
  ("method", b.method.val), ("depth", .num b.depth.val), ("cofactor", .num b.cofactor.toNat),
  ("crossSection", .list (b.crossSection.map TreeNode.val)),
  ("entropy", optVal (fun e => .num e.toNat) b.entropy)]

/-- `MerkleProof`. -/
def MerkleProof.val (p : MerkleProof) : Val := .record [
  ("method", p.method.val), ("pos", .num p.pos.toNat), ("cofactor", .num p.cofactor.toNat),
  ("path", .list (p.path.map Bytes32.val))]

/-- `MerkleTree`. -/
def MerkleTree.val (t : MerkleTree) : Val := .record [
  ("method", t.method.val), ("depth", .num t.depth.val), ("entropy", .num t.entropy.toNat),
  ("cofactor", .num t.cofactor.toNat),
  ("messages", .map (t.messages.entries.map fun e => (e.1.val, e.2.val))),
  ("map", .map (t.map.entries.map fun e => (.num e.1.toNat, .tuple [e.2.1.val, e.2.2.val])))]

/-- An implementation agrees with a published type: what it writes for a value of the type is what
the type prescribes; what it reads is exactly what the type prescribes for some value, and it reads
that value; and whatever anyone else writes for a value of the type is read. -/
structure Agrees {α : Type} (ty : Ty) (val : α → Val) (enc : α → Bytes) (dec : Decoder α) : Prop where
  /-- writing -/
  writes : ∀ x e, ty (val x) = some e → enc x = e
  /-- reading -/
  reads : ∀ bs x r, dec bs = some (x, r) ↔ ∃ e, ty (val x) = some e ∧ bs = e ++ r
  /-- everything is read -/
  accepts : ∀ v e r, ty v = some e → ∃ x, dec (e ++ r) = some (x, r)

end CSV
