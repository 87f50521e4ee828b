import Verif.Spec.TypeLib

/-!
# Reference: the published procedure

How a multi-protocol commitment is computed and verified, written down as another implementation would
do it from the published types (`Spec/TypeLib.lean`) and SHA256: numbers, lists of protocols and
messages, nothing of the model of the code.
-/

namespace CSV.Reference

/-- Tagged SHA256 of a published serialization. -/
def hash [Env] (tag : String) (data : Option Bytes) : Option Bytes32 :=
  data.map fun d => sha ((sha (utf8 tag)).bytes ++ (sha (utf8 tag)).bytes ++ d)

/-- Tag of leaves and nodes (`stl/Merkle.vesper:13`). -/
def NODE : String := "urn:ubideco:merkle:node#2024-01-31"

/-- Tag of commitments (`stl/Merkle.vesper:37`). -/
def COMMITMENT : String := "urn:ubideco:mpc:commitment#2024-01-31"

/-- Slot of a protocol in a tree of `2 ^ depth` leaves with a cofactor. -/
def slot (depth cofactor : Nat) (protocol : Bytes32) : Nat :=
  protocol.toNat % max (2 ^ depth - cofactor) 1

/-- A leaf with a message. -/
def inhabited (protocol message : Bytes32) : Val :=
  .content "inhabited" (.record [("protocol", .bytes protocol.bytes), ("message", .bytes message.bytes)])

/-- The leaf of a slot: the message of the protocol with this slot, or else entropy. -/
def leaf (messages : List (Bytes32 × Bytes32)) (entropy depth cofactor i : Nat) : Val :=
  match messages.find? (fun e => slot depth cofactor e.1 == i) with
  | some (protocol, message) => inhabited protocol message
  | none => .content "entropy" (.record [("entropy", .num entropy), ("pos", .num i)])

/-- A node of a tree: its kind, its depth, the number of leaves of the whole tree, and two hashes. -/
def inner [Env] (kind : String) (width depth : Nat) (node1 node2 : Bytes) : Option Bytes32 :=
  hash NODE (Published.MerkleNode (.record [
    ("branching", .variant kind), ("depth", .num depth), ("width", .num width),
    ("node1", .bytes node1), ("node2", .bytes node2)]))

/-- Stands for an absent hash. -/
def absent : Bytes := List.replicate 32 0xFF

/-- A node of a tree of `2 ^ treeDepth` leaves over two others. -/
def branch [Env] (treeDepth depth : Nat) (left right : Bytes32) : Option Bytes32 :=
  inner "branch" (2 ^ treeDepth) depth left.bytes right.bytes

/-- The `i`-th node at height `height` over the leaves of a tree. -/
def node [Env] (leaves : Nat → Val) (treeDepth : Nat) : (height i : Nat) → Option Bytes32
  | 0, i => hash NODE (Published.Leaf (leaves i))
  | h + 1, i => do
    let l ← node leaves treeDepth h (2 * i)
    let r ← node leaves treeDepth h (2 * i + 1)
    branch treeDepth (treeDepth - (h + 1)) l r

/-- The commitment to a tree with a given root. -/
def close [Env] (depth cofactor : Nat) (root : Bytes32) : Option Bytes32 :=
  hash COMMITMENT (Published.MerkleConcealed (.record [
    ("depth", .num depth), ("cofactor", .num cofactor), ("merkleRoot", .bytes root.bytes)]))

/-- The depths and cofactors to try for `n` messages, in this order: from the minimal depth on, if there
are enough leaves; cofactors 0 and 1 at the minimal depth, and up to half of the width, at most 500,
at larger depths. -/
def attempts (n minDepth : Nat) : List (Nat × Nat) :=
  (List.range 32).flatMap fun d =>
    if minDepth ≤ d ∧ n ≤ 2 ^ d then
      (List.range ((if d = minDepth then 1 else min (2 ^ d / 2) 500) + 1)).map fun c => (d, c)
    else []

/-- The first attempt for which all protocols have different slots. -/
def parameters (protocols : List Bytes32) (minDepth : Nat) : Option (Nat × Nat) :=
  (attempts protocols.length minDepth).find? fun (d, c) =>
    decide (protocols.Pairwise fun p q => slot d c p ≠ slot d c q)

/-- The commitment to a set of messages. -/
def commit [Env] (messages : List (Bytes32 × Bytes32)) (minDepth entropy : Nat) : Option Bytes32 := do
  if minDepth = 0 ∧ messages = [] then none
  let (depth, cofactor) ← parameters (messages.map Prod.fst) minDepth
  let root ← node (leaf messages entropy depth cofactor) depth depth 0
  close depth cofactor root

/-- The root over a leaf, given its position and the siblings on the way from the root to it. -/
def climb [Env] (leafHash : Bytes32) (treeDepth pos : Nat) : (depth : Nat) → List Bytes32 → Option Bytes32
  | _, [] => some leafHash
  | depth, sibling :: rest => do
    let sub ← climb leafHash treeDepth pos (depth + 1) rest
    if pos / 2 ^ rest.length % 2 = 0 then branch treeDepth depth sub sibling
    else branch treeDepth depth sibling sub

/-- The commitment a proof leads to; none if the position is not that of the protocol. -/
def verify [Env] (pos cofactor : Nat) (path : List Bytes32) (protocol message : Bytes32) :
    Option Bytes32 := do
  if 31 < path.length ∨ pos ≠ slot path.length cofactor protocol then none
  let l ← hash NODE (Published.Leaf (inhabited protocol message))
  let root ← climb l path.length pos 0 path
  close path.length cofactor root

/-- The node at a depth over a list of leaves: the larger half of them goes to the left, down to at most
two. There are at most 32 levels. -/
def subtree [Env] (width : Nat) : (levels depth : Nat) → List Bytes32 → Option Bytes32
  | _, depth, [] => inner "void" width depth absent absent
  | _, depth, [a] => inner "single" width depth a.bytes absent
  | _, depth, [a, b] => inner "branch" width depth a.bytes b.bytes
  | 0, _, _ => none
  | levels + 1, depth, l => do
    let left ← subtree width levels (depth + 1) (l.take ((l.length + 1) / 2))
    let right ← subtree width levels (depth + 1) (l.drop ((l.length + 1) / 2))
    inner "branch" width depth left.bytes right.bytes

/-- The merkle root of a list of leaves; a single leaf is its own root. -/
def merkleRoot [Env] : List Bytes32 → Option Bytes32
  | [a] => some a
  | l => if l.length < 2 ^ 32 then subtree l.length 31 0 l else none

end CSV.Reference
