import Verif.Model.Block
import Verif.Model.Tree
import Verif.Model.Schemes
import Verif.Model.Api

/-!
# Model: text forms

Texts are lists of characters. Display and parsing of the 32-byte types is delegated to `Bytes32` of
`amplify` by `#[wrapper(Display, FromStr, Hex)]`; it is modelled here as lower case hexadecimal. Lines of
a documentation comment displayed with `#[display(doc_comments)]` are joined with a space.
-/

namespace CSV

/-- Two hexadecimal digits. -/
def hexByte (b : UInt8) : List Char := [(b.toNat / 16).digitChar, (b.toNat % 16).digitChar]

/-- `Display` of `ProtocolId`, `Message`, `Commitment`, `MerkleHash` and `StrictHash`:
`/repo/commit_verify/src/mpc/atoms.rs:52, 72, 124`, `/repo/commit_verify/src/merkle.rs:106`,
`/repo/commit_verify/src/id.rs:290`. -/
def Bytes32.display (b : Bytes32) : List Char := b.bytes.flatMap hexByte

/-- `char::to_digit(16)`. -/
def hexValue (c : Char) : Option UInt8 :=
  if '0' ≤ c ∧ c ≤ '9' then some (UInt8.ofNat (c.toNat - '0'.toNat))
  else if 'a' ≤ c ∧ c ≤ 'f' then some (UInt8.ofNat (c.toNat - 'a'.toNat + 10))
  else if 'A' ≤ c ∧ c ≤ 'F' then some (UInt8.ofNat (c.toNat - 'A'.toNat + 10))
  else none

/-- Reading of pairs of hexadecimal digits. `amplify` goes over the bytes of the UTF-8 encoding, which
makes no difference, since all digits are ASCII characters. -/
def parseHex : List Char → Option Bytes
  | [] => some []
  | [_] => none
  | h :: l :: rest =>
    match hexValue h, hexValue l, parseHex rest with
    | some a, some b, some bs => some ((a * 16 + b) :: bs)
    | _, _, _ => none

/-- `FromStr` of the types of `Bytes32.display`; all errors are the same here. -/
def Bytes32.fromStr (s : List Char) : Option Bytes32 :=
  match parseHex s with
  | some bs => if h : bs.length = 32 then some ⟨bs, h⟩ else none
  | none => none

/-- `copy_from_slice` of `ProtocolId`, `Message` and `Commitment`:
`/repo/commit_verify/src/mpc/atoms.rs:62-66, 82-86, 138-142`. `Bytes32::copy_from_slice` of `amplify` refuses
slices of another length. -/
def Bytes32.copyFromSlice (s : Bytes) : Option Bytes32 :=
  if h : s.length = 32 then some ⟨s, h⟩ else none

/-- `Display` of integers. -/
def decimal (n : Nat) : List Char := Nat.toDigits 10 n

/-- `Display for LeafNotKnown`, `/repo/commit_verify/src/mpc/block.rs:38-42`. -/
def LeafNotKnown.display (e : LeafNotKnown) : List Char :=
  "commitment under protocol id ".toList ++ (e.protocolId.display ++
    " is absent from the known part of a given LNPBP-4 Merkle block.".toList)

/-- `Display for InvalidProof`, `/repo/commit_verify/src/mpc/block.rs:44-55`. -/
def InvalidProof.display (e : InvalidProof) : List Char :=
  "the provided merkle proof protocol id ".toList ++ (e.protocolId.display ++ (" position ".toList ++
    (decimal e.actual.toNat ++ (" doesn't match the expected position ".toList ++ (decimal e.expected.toNat ++
      (" within the tree of width ".toList ++ (decimal e.width ++ ".".toList)))))))

/-- `Display for MergeError`, `/repo/commit_verify/src/mpc/block.rs:57-70`. -/
def MergeError.display : MergeError → List Char
  | .invalidProof e => e.display
  | .unrelatedBlocks base merged =>
    "attempt to merge two unrelated LNPBP-4 blocks with different Merkle roots (base ".toList ++ (base.display ++
      (", merged-in ".toList ++ (merged.display ++ ").".toList)))

/-- `Display for Error`, `/repo/commit_verify/src/mpc/tree.rs:102-115`. -/
def CommitError.display : CommitError → List Char
  | .empty => "can't create commitment for an empty message list and zero tree depth.".toList
  | .tooManyMessages n => "number of messages (".toList ++ (decimal n ++
      ") for LNPBP-4 commitment which exceeds the protocol limit of 2^16".toList)
  | .cantFitInMaxSlots n => "the provided number of messages (".toList ++ (decimal n ++
      ") can't fit LNPBP-4 commitment size limits for a given set of protocol ids.".toList)

/-- `Display for VerifyError`, `/repo/commit_verify/src/commit.rs:27-34`. -/
def VerifyError.display : VerifyError → List Char
  | .invalidCommitment => "commitment doesn't match the message.".toList
  | .invalidMessage => "the message is invalid since a valid commitment to it can't be created.".toList

/-- `Display for EmbedVerifyError`, `/repo/commit_verify/src/embed.rs:27-47`, given the text of the inner
error. -/
def EmbedVerifyError.display {E : Type} (text : E → List Char) : EmbedVerifyError E → List Char
  | .commitmentMismatch => "commitment doesn't match the message.".toList
  | .invalidMessage e => "the message is invalid since a valid commitment to it can't be created. Details: ".toList
      ++ text e
  | .invalidProof => ("the proof is invalid and the commitment can't be verified since the original container "
      ++ "can't be restored from it.").toList
  | .proofMismatch => ("the proof does not match to the proof generated for the same message during the "
      ++ "verification.").toList

/-- `Display for ConvolveVerifyError`, `/repo/commit_verify/src/convolve.rs:27-39`. -/
def ConvolveVerifyError.display : ConvolveVerifyError → List Char
  | .commitmentMismatch => "commitment doesn't match the message.".toList
  | .impossibleMessage => "the message is invalid since a valid commitment to it can't be created.".toList
  | .invalidProof => "the proof is invalid and the commitment can't be verified.".toList

/-- `Display for Validity`, `/repo/src/api.rs:46-54`. -/
def Validity.display : Validity → List Char
  | .valid => "valid".toList
  | .sealIssues => "unresolved seal issues".toList
  | .invalid => "invalid".toList

end CSV
