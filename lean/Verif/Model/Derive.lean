import Verif.Model.Merkle

/-!
# Derived commitment encodings, layouts, reserved bytes

Models `/repo/commit_verify/derive/src/derive.rs`, the layout part of
`/repo/commit_verify/src/id.rs` and `ReservedBytes` of `/repo/commit_verify/src/lib.rs`.
-/

namespace CSV

/-- `#[commit_encode(strategy = strict, id = ..)]`,
`/repo/commit_verify/derive/src/derive.rs:36-38`. -/
@[instance_reducible]
def deriveStrict (α : Type) [StrictEncode α] (id : IdType) : CommitEncode α where
  idType := id
  commitEncode x e := e.commitToSerialized x

/-- `#[commit_encode(strategy = conceal, id = ..)]`,
`/repo/commit_verify/derive/src/derive.rs:39-42`: `commit_to_concealed(&self.conceal())`, so that the
concealed form has to be concealable itself. -/
@[instance_reducible]
def deriveConceal (α : Type) {β γ : Type} [Conceal α β] [StrictType β] [Conceal β γ]
    [StrictEncode γ] (id : IdType) : CommitEncode α where
  idType := id
  commitEncode x e := do
    let c ← Conceal.conceal x
    e.commitToConcealed c

/-- `#[commit_encode(strategy = transparent, id = ..)]`,
`/repo/commit_verify/derive/src/derive.rs:43-46`; `inner` is `Wrapper::as_inner`. -/
@[instance_reducible]
def deriveTransparent {α β : Type} [StrictEncode β] (inner : α → β) (id : IdType) :
    CommitEncode α where
  idType := id
  commitEncode x e := e.commitToSerialized (inner x)

/-- `#[commit_encode(strategy = merklize, id = ..)]`,
`/repo/commit_verify/derive/src/derive.rs:47-49`; `leaves` is `MerkleLeaves::merkle_leaves`. -/
@[instance_reducible]
def deriveMerklize {α β : Type} [StrictType β] [CommitEncode β] (leaves : α → List β) (id : IdType) :
    CommitEncode α where
  idType := id
  commitEncode x e := e.commitToMerkle (leaves x)

/-- `CommitLayout`, `/repo/commit_verify/src/id.rs:221-227`. -/
structure CommitLayout where
  /-- name of the commitment id type -/
  idty : TypeFqn
  /-- tag of the commitment -/
  tag : String
  /-- committed fields -/
  fields : List CommitStep
  deriving DecidableEq, Repr

/-- `CommitmentLayout::commitment_layout`, `/repo/commit_verify/src/id.rs:239-259`, for a type with
the dumb value `dumb` (`StrictDumb::strict_dumb`). -/
def commitmentLayout [Env] {α : Type} [CommitEncode α] (dumb : α) : Exec CommitLayout := do
  let e ← commit dumb
  let name ← expect (CommitEncode.idType α).name
  .ok ⟨⟨(CommitEncode.idType α).lib, name⟩, (CommitEncode.idType α).tag, e.layout⟩

/-- `ReservedBytes<LEN, VAL>`, `/repo/commit_verify/src/lib.rs:90-95`: the field is private. -/
structure ReservedBytes (len : Nat) (val : UInt8) where
  private mk ::
  /-- the bytes -/
  bytes : Bytes
  deriving DecidableEq, Repr

namespace ReservedBytes

variable {len : Nat} {val : UInt8}

/-- `Default::default`, `/repo/commit_verify/src/lib.rs:97-99`. -/
def default : ReservedBytes len val := ⟨List.replicate len val⟩

/-- `From<[u8; LEN]>::from`, `/repo/commit_verify/src/lib.rs:101-106`. -/
def ofArray (value : Bytes) : Exec (ReservedBytes len val) := do
  assert' (value = List.replicate len val)
  .ok ⟨value⟩

/-- `StrictEncode` (derived, `/repo/commit_verify/src/lib.rs:93-95`). -/
instance : StrictEncode (ReservedBytes len val) where
  libName := LIB_NAME_COMMIT_VERIFY
  typeName := some "ReservedBytes"
  enc r := r.bytes

/-- `CommitEncode`, `/repo/commit_verify/src/lib.rs:113-117`. -/
instance : CommitEncode (ReservedBytes len val) where
  idType := strictHashId
  commitEncode x e := e.commitToSerialized x

/-- `StrictDecode::strict_decode`, `/repo/commit_verify/src/lib.rs:119-132`: reads `LEN` bytes and
compares with the default; returns the value and the unread input, `none` is an error (end of data or
integrity error). -/
def decode (input : Bytes) : Option (ReservedBytes len val × Bytes) :=
  if input.length < len then none
  else
    let reserved : ReservedBytes len val := ⟨input.take len⟩
    if reserved ≠ default then none
    else some (reserved, input.drop len)

/-- What a serde format shows to a visitor: a unit, an absent value, or anything else. -/
inductive SerdeToken where
  | unit
  | none
  | other
  deriving DecidableEq, Repr

/-- `Serialize::serialize`, `/repo/commit_verify/src/lib.rs:147-153`. -/
def serialize (_ : ReservedBytes len val) : SerdeToken := .unit

/-- `Deserialize::deserialize`, `/repo/commit_verify/src/lib.rs:155-184`: the visitor accepts a unit
and an absent value, the result is the default. (`deserialize_unit` of the format is taken to pass on
what it finds.) -/
def deserialize (token : SerdeToken) : Option (ReservedBytes len val) :=
  match token with
  | .unit => some default
  | .none => some default
  | .other => none

end ReservedBytes

end CSV
