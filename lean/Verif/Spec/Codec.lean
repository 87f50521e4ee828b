import Verif.Model.Codec

/-!
# What a decoder should do

A decoder and an encoder of a type fit if the decoder accepts exactly the encodings of values,
followed by anything: this says at once that decoding an encoding returns the value and the unread
input, and that whatever is accepted is an encoding.
-/

namespace CSV

/-- The decoder accepts exactly the encodings of the values with `P`. -/
def Exact {α : Type} (enc : α → Bytes) (dec : Decoder α) (P : α → Prop) : Prop :=
  ∀ bs a r, dec bs = some (a, r) ↔ P a ∧ bs = enc a ++ r

/-- Confinement of the fields of a block: `NonEmptyVec<TreeNode, U32MAX>`,
`/repo/commit_verify/src/mpc/block.rs:177`. -/
def MerkleBlock.Confined (b : MerkleBlock) : Prop :=
  1 ≤ b.crossSection.length ∧ b.crossSection.length < 2 ^ 32

/-- Confinement of the fields of a proof: `Confined<Vec<MerkleHash>, 0, 32>`,
`/repo/commit_verify/src/mpc/block.rs:689`. -/
def MerkleProof.Confined (p : MerkleProof) : Prop := p.path.length ≤ 32

end CSV
