import Verif.Model.Merkle

/-!
# Multi-protocol commitments: data types

Models `/repo/commit_verify/src/mpc/atoms.rs`.
-/

namespace CSV

/-- `ProtocolId`, `/repo/commit_verify/src/mpc/atoms.rs:56-60`. -/
abbrev ProtocolId := Bytes32
/-- `Message`, `/repo/commit_verify/src/mpc/atoms.rs:76-80`. -/
abbrev Message := Bytes32
/-- `Commitment`, `/repo/commit_verify/src/mpc/atoms.rs:128-132`. -/
abbrev Commitment := Bytes32

/-- Bound of `MediumOrdMap` (amplify): `u24::MAX`. -/
def MEDIUM_MAX : Nat := 2 ^ 24 - 1

/-- `MessageMap`, `/repo/commit_verify/src/mpc/atoms.rs:45`. -/
abbrev MessageMap := OrdMap ProtocolId Message MEDIUM_MAX

/-- `Method`, `/repo/commit_verify/src/mpc/atoms.rs:39-42`. -/
inductive Method where
  | sha256t
  deriving DecidableEq, Repr

/-- Discriminant of `Method`, `/repo/commit_verify/src/mpc/atoms.rs:41`. -/
def Method.toU8 : Method → UInt8
  | .sha256t => 0

/-- `Leaf`, `/repo/commit_verify/src/mpc/atoms.rs:93-103`. -/
inductive Leaf where
  | inhabited (protocol : ProtocolId) (message : Message)
  | entropy (entropy : UInt64) (pos : UInt32)
  deriving DecidableEq, Repr

/-- Strict encoding of `Leaf` with the custom tags of
`/repo/commit_verify/src/mpc/atoms.rs:95, 101`. -/
def Leaf.enc : Leaf → Bytes
  | .inhabited protocol message => 0x10 :: (encBytes32 protocol ++ encBytes32 message)
  | .entropy ent pos => 0x11 :: (encU64 ent ++ encU32 pos)

instance : StrictEncode Leaf where
  libName := LIB_NAME_COMMIT_VERIFY
  typeName := some "Leaf"
  enc := Leaf.enc

/-- Derived with `strategy = strict, id = MerkleHash`,
`/repo/commit_verify/src/mpc/atoms.rs:91-92`. -/
instance : CommitEncode Leaf where
  idType := merkleHashId
  commitEncode x e := e.commitToSerialized x

/-- `MPC_MINIMAL_DEPTH`, `/repo/commit_verify/src/mpc/atoms.rs:31`. -/
def MPC_MINIMAL_DEPTH : U5 := 3

/-- `MultiSource`, `/repo/commit_verify/src/mpc/atoms.rs:150-157`. -/
structure MultiSource where
  /-- hashing method -/
  method : Method
  /-- minimal depth of the tree -/
  minDepth : U5
  /-- messages by protocol id -/
  messages : MessageMap
  /-- entropy for the unused slots -/
  staticEntropy : Option UInt64
  deriving DecidableEq

/-- `MultiSource::default`, `/repo/commit_verify/src/mpc/atoms.rs:159-169`. -/
def MultiSource.default : MultiSource :=
  ⟨.sha256t, MPC_MINIMAL_DEPTH, ⟨[], List.Pairwise.nil, Nat.zero_le _⟩, none⟩

/-- `MultiSource::with_static_entropy`, `/repo/commit_verify/src/mpc/atoms.rs:173-178`. -/
def MultiSource.withStaticEntropy (e : UInt64) : MultiSource :=
  { MultiSource.default with staticEntropy := some e }

end CSV
