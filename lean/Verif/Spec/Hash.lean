import Verif.Model.Tree

/-!
# Specification: the hashes of LNPBP-4 / LNPBP-81

What the ids of leaves, nodes and trees are, written down without the machinery of the
commitment engine: one SHA256 over the tag prefix and the serialized value.
-/

namespace CSV

/-- The string hashed for `data` under a BIP-340-style tag. -/
def taggedInput [Env] (tag : String) (data : Bytes) : Bytes :=
  (sha (utf8 tag)).bytes ++ (sha (utf8 tag)).bytes ++ data

/-- Tagged hash. -/
def taggedSha [Env] (tag : String) (data : Bytes) : Bytes32 := sha (taggedInput tag data)

/-- Tag of merkle leaves and nodes. -/
def MERKLE_TAG : String := "urn:ubideco:merkle:node#2024-01-31"
/-- Tag of multi-protocol commitments. -/
def MPC_TAG : String := "urn:ubideco:mpc:commitment#2024-01-31"

/-- String hashed for a leaf. -/
def leafInput [Env] (l : Leaf) : Bytes := taggedInput MERKLE_TAG l.enc
/-- Hash of a leaf. -/
def leafHash [Env] (l : Leaf) : MerkleHash := sha (leafInput l)

/-- String hashed for an inner node at depth `d` of a tree with `w` leaves. -/
def branchInput [Env] (d w : Nat) (h1 h2 : MerkleHash) : Bytes :=
  taggedInput MERKLE_TAG
    (MerkleNode.enc ⟨.branch, UInt8.ofNat d, BitVec.ofNat 256 w, h1, h2⟩)
/-- Hash of an inner node. -/
def branchHash [Env] (d w : Nat) (h1 h2 : MerkleHash) : MerkleHash := sha (branchInput d w h1 h2)

/-- String hashed for the final commitment. -/
def commitmentInput [Env] (c : MerkleConcealed) : Bytes := taggedInput MPC_TAG c.enc
/-- Final commitment to a concealed tree. -/
def commitmentHash [Env] (c : MerkleConcealed) : Commitment := sha (commitmentInput c)

end CSV
