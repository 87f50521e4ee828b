import Verif.Spec.Calls
import Verif.Spec.Merklize

/-!
# Specification: nested records

A user of the library builds data types out of each other: a record commits to its fields one by one
with the methods of the commitment engine, and a field may be the id of another record or the merkle
root of a list of other records, to any depth. `Record` is the declaration of such a type,
`Record.Val` its values, `Record.calls` the commit calls made for a value.
-/

namespace CSV

/-- Declaration of a record type: its fields in order. -/
inductive Record : Type 1 where
  /-- no more fields -/
  | nil
  /-- a field committed to with `commit_to_serialized` -/
  | serialized (α : Type) (se : StrictEncode α) (rest : Record)
  /-- an optional field, `commit_to_option` -/
  | option (α : Type) (se : StrictEncode α) (rest : Record)
  /-- a confidential field, `commit_to_concealed` -/
  | concealed (α β : Type) (st : StrictType α) (co : Conceal α β) (se : StrictEncode β) (rest : Record)
  /-- `commit_to_linear_list` -/
  | list (α : Type) (se : StrictEncode α) (min max : Nat) (rest : Record)
  /-- `commit_to_linear_set` -/
  | set (α : Type) (se : StrictEncode α) (min max : Nat) (rest : Record)
  /-- `commit_to_linear_map` -/
  | map (κ α : Type) (sk : StrictEncode κ) (se : StrictEncode α) (min max : Nat) (rest : Record)
  /-- a field which is a record with ids of type `id`, `commit_to_hash` -/
  | hash (lib : String) (name : Option String) (id : IdType) (sub rest : Record)
  /-- a list of records with `MerkleHash` ids, `commit_to_merkle` -/
  | merkle (lib : String) (name : Option String) (sub rest : Record)

/-- Values of a record type: the tuples of their fields. -/
def Record.Val : Record → Type
  | .nil => Unit
  | .serialized α _ rest => α × rest.Val
  | .option α _ rest => Option α × rest.Val
  | .concealed α _ _ _ _ rest => α × rest.Val
  | .list α _ _ _ rest => List α × rest.Val
  | .set α _ _ _ rest => List α × rest.Val
  | .map κ α _ _ _ _ rest => List (κ × α) × rest.Val
  | .hash _ _ _ sub rest => sub.Val × rest.Val
  | .merkle _ _ sub rest => List sub.Val × rest.Val

/-- The commit calls made for a value, field by field; a nested record makes its own calls to an
engine with the tag of its own id type. -/
def Record.calls : (r : Record) → r.Val → List Call
  | .nil, _ => []
  | .serialized _ se rest, v => .serialized se v.1 :: rest.calls v.2
  | .option _ se rest, v => .option se v.1 :: rest.calls v.2
  | .concealed _ _ st co se rest, v => .concealed st co se v.1 :: rest.calls v.2
  | .list _ se min max rest, v => .list se min max v.1 :: rest.calls v.2
  | .set _ se min max rest, v => .set se min max v.1 :: rest.calls v.2
  | .map _ _ sk se min max rest, v => .map sk se min max v.1 :: rest.calls v.2
  | .hash lib name id sub rest, v =>
    .hash ⟨lib, name⟩ ⟨id, fun x e => e.runAll (sub.calls x)⟩ v.1 :: rest.calls v.2
  | .merkle lib name sub rest, v =>
    .merkle ⟨lib, name⟩ ⟨merkleHashId, fun x e => e.runAll (sub.calls x)⟩ v.1 :: rest.calls v.2

/-- `CommitEncode` of a record type with ids of type `id`. -/
@[instance_reducible]
def Record.encode (r : Record) (id : IdType) : CommitEncode r.Val where
  idType := id
  commitEncode x e := e.runAll (r.calls x)

/-- The id of a record. -/
def Record.id [Env] (r : Record) (id : IdType) (x : r.Val) : Exec Bytes32 :=
  @commitId _ _ (r.encode id) x

/-- Two lists of the same length, related element by element. -/
inductive ListRel {α : Type} (R : α → α → Prop) : List α → List α → Prop
  | nil : ListRel R [] []
  | cons {a b : α} {l m : List α} : R a b → ListRel R l m → ListRel R (a :: l) (b :: m)

/-- What an id is to fix: all fields, to any depth, except that confidential fields are fixed only up
to their concealed form. -/
def Record.Agree [Env] : (r : Record) → r.Val → r.Val → Prop
  | .nil, _, _ => True
  | .serialized _ _ rest, v, w => v.1 = w.1 ∧ rest.Agree v.2 w.2
  | .option _ _ rest, v, w => v.1 = w.1 ∧ rest.Agree v.2 w.2
  | .concealed _ _ _ co _ rest, v, w => co.conceal v.1 = co.conceal w.1 ∧ rest.Agree v.2 w.2
  | .list _ _ _ _ rest, v, w => v.1 = w.1 ∧ rest.Agree v.2 w.2
  | .set _ _ _ _ rest, v, w => v.1 = w.1 ∧ rest.Agree v.2 w.2
  | .map _ _ _ _ _ _ rest, v, w => v.1 = w.1 ∧ rest.Agree v.2 w.2
  | .hash _ _ _ sub rest, v, w => sub.Agree v.1 w.1 ∧ rest.Agree v.2 w.2
  | .merkle _ _ sub rest, v, w => ListRel sub.Agree v.1 w.1 ∧ rest.Agree v.2 w.2

/-- The record type has no confidential fields at any depth. -/
def Record.Plain : Record → Prop
  | .nil => True
  | .serialized _ _ rest => rest.Plain
  | .option _ _ rest => rest.Plain
  | .concealed .. => False
  | .list _ _ _ _ rest => rest.Plain
  | .set _ _ _ _ rest => rest.Plain
  | .map _ _ _ _ _ _ rest => rest.Plain
  | .hash _ _ _ sub rest => sub.Plain ∧ rest.Plain
  | .merkle _ _ sub rest => sub.Plain ∧ rest.Plain

/-- A call with self-delimiting serializations, collections within their bounds and fewer than `2^64`
bytes. -/
def Call.Fine [Env] (c : Call) : Prop := c.Delimited ∧ ∀ bs, c.bytes = .ok bs → bs.length < 2 ^ 64

/-- A value all of whose fields, at any depth, are serialized properly; and no record in a merklized
list serializes to the bytes of a merkle node (compare C35). -/
def Record.Sound [Env] : (r : Record) → r.Val → Prop
  | .nil, _ => True
  | .serialized _ se rest, v => (Call.serialized se v.1).Fine ∧ rest.Sound v.2
  | .option _ se rest, v => (Call.option se v.1).Fine ∧ rest.Sound v.2
  | .concealed _ _ st co se rest, v => (Call.concealed st co se v.1).Fine ∧ rest.Sound v.2
  | .list _ se min max rest, v => (Call.list se min max v.1).Fine ∧ rest.Sound v.2
  | .set _ se min max rest, v => (Call.set se min max v.1).Fine ∧ rest.Sound v.2
  | .map _ _ sk se min max rest, v => (Call.map sk se min max v.1).Fine ∧ rest.Sound v.2
  | .hash _ _ _ sub rest, v => sub.Sound v.1 ∧ rest.Sound v.2
  | .merkle _ _ sub rest, v =>
    (∀ x ∈ v.1, sub.Sound x ∧ ∀ n : MerkleNode, callsBytes (sub.calls x) ≠ .ok n.enc) ∧ rest.Sound v.2

/-- The string hashed for the calls themselves under a tag. -/
def ownInput [Env] (tag : String) (cs : List Call) : List Bytes :=
  match callsBytes cs with
  | .ok data => [taggedInput tag data]
  | .error _ => []

/-- Strings hashed for the records nested in a value, and for the nodes over lists of them. -/
def Record.nested [Env] : (r : Record) → r.Val → List Bytes
  | .nil, _ => []
  | .serialized _ _ rest, v => rest.nested v.2
  | .option _ _ rest, v => rest.nested v.2
  | .concealed _ _ _ _ _ rest, v => rest.nested v.2
  | .list _ _ _ _ rest, v => rest.nested v.2
  | .set _ _ _ _ rest, v => rest.nested v.2
  | .map _ _ _ _ _ _ rest, v => rest.nested v.2
  | .hash _ _ id sub rest, v => ownInput id.tag (sub.calls v.1) ++ sub.nested v.1 ++ rest.nested v.2
  | .merkle _ _ sub rest, v =>
    v.1.flatMap (fun x => ownInput MERKLE_TAG (sub.calls x) ++ sub.nested x) ++
    (match v.1.mapM (sub.id merkleHashId) with
      | .ok ids => listInputs ids
      | .error _ => []) ++ rest.nested v.2

/-- All strings hashed to compute the id of a record. -/
def Record.inputs [Env] (r : Record) (id : IdType) (x : r.Val) : List Bytes :=
  ownInput id.tag (r.calls x) ++ r.nested x

end CSV
