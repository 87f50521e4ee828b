import Verif.Prelude.BMap

/-!
# Strict encoding (dependency `strict_encoding`) as used by the modelled types

The rules are those of the `strict_encoding` crate, which is not in `/repo`; the layouts
are confirmed by `stl/CommitVerify@0.1.0.sty` and by the test vectors of
`commit_verify/derive/tests/base.rs`.
-/

namespace CSV

/-- `StrictType`: the library and the name under which a type is known.
Used in `/repo/commit_verify/src/id.rs:59-64`. -/
class StrictType (α : Type) where
  /-- `STRICT_LIB_NAME` -/
  libName : String
  /-- `strict_name()`; `None` for anonymous types -/
  typeName : Option String

/-- `StrictEncode`: serialization of a value. -/
class StrictEncode (α : Type) extends StrictType α where
  /-- bytes written by `strict_write` -/
  enc : α → Bytes

/-- `/repo/commit_verify/src/lib.rs:71`. -/
def LIB_NAME_COMMIT_VERIFY : String := "CommitVerify"

/-- Number of bytes of the length prefix of a collection with at most `max` elements
(strict encoding). -/
def lenPrefix (max : Nat) : Nat :=
  if max ≤ 0xFF then 1
  else if max ≤ 0xFFFF then 2
  else if max ≤ 0xFFFFFF then 3
  else if max ≤ 0xFFFFFFFF then 4
  else 8

/-- Encoding of a collection confined to at most `max` elements: length, then elements. -/
def encList {α : Type} (max : Nat) (enc : α → Bytes) (l : List α) : Bytes :=
  leBytes l.length (lenPrefix max) ++ l.flatMap enc

/-- Encoding of an optional value: tag byte 0, or tag byte 1 and the value. -/
def encOption {α : Type} (enc : α → Bytes) : Option α → Bytes
  | none => [0]
  | some a => 1 :: enc a

/-- Encoding of `u8`. -/
def encU8 (n : UInt8) : Bytes := [n]
/-- Encoding of `u16`. -/
def encU16 (n : UInt16) : Bytes := leBytes n.toNat 2
/-- Encoding of `u32`. -/
def encU32 (n : UInt32) : Bytes := leBytes n.toNat 4
/-- Encoding of `u64`. -/
def encU64 (n : UInt64) : Bytes := leBytes n.toNat 8
/-- Encoding of `u5`: one byte (`Std.U5` in the type library). -/
def encU5 (n : U5) : Bytes := [UInt8.ofNat n.val]
/-- Encoding of `u256`. -/
def encU256 (n : BitVec 256) : Bytes := leBytes n.toNat 32
/-- Encoding of a 32-byte array and its wrappers. -/
def encBytes32 (b : Bytes32) : Bytes := b.bytes

end CSV
