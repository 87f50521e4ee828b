import Verif.Model.Strict

/-!
# Tagged hashing and the commitment engine

Models `/repo/commit_verify/src/digest.rs` and `/repo/commit_verify/src/id.rs`.
A hasher is represented by the bytes fed to it so far; finishing applies SHA256.
-/

namespace CSV

/-- State of a `Sha256` hasher: the bytes fed so far. -/
abbrev Hasher := Bytes

/-- `DigestExt::from_tag` for `Sha256`, `/repo/commit_verify/src/digest.rs:44-53`: a hasher
fed twice with the hash of the tag. -/
def Hasher.fromTag [Env] (tag : Bytes) : Hasher :=
  (sha tag).bytes ++ (sha tag).bytes

/-- `DigestExt::input_raw`, `/repo/commit_verify/src/digest.rs:55`. -/
def Hasher.inputRaw (h : Hasher) (data : Bytes) : Hasher := h ++ data

/-- `DigestExt::finish`, `/repo/commit_verify/src/digest.rs:57`. -/
def Hasher.finish [Env] (h : Hasher) : Bytes32 := sha h

/-- `DigestExt::input_with_len`, `/repo/commit_verify/src/digest.rs:29-39`. The casts
`len as u8/u16/u32` truncate; `u24::with` panics if its argument does not fit 24 bits. -/
def Hasher.inputWithLen (max : Nat) (h : Hasher) (data : Bytes) : Exec Hasher :=
  let len := data.length
  if max ≤ 0xFF then
    .ok ((h.inputRaw (leBytes (len % 2 ^ 8) 1)).inputRaw data)
  else if max ≤ 0xFFFF then
    .ok ((h.inputRaw (leBytes (len % 2 ^ 16) 2)).inputRaw data)
  else if max ≤ 0xFFFFFF then
    if len % 2 ^ 32 < 2 ^ 24 then
      .ok ((h.inputRaw (leBytes (len % 2 ^ 32) 3)).inputRaw data)
    else .error .overflow
  else if max ≤ 0xFFFFFFFF then
    .ok ((h.inputRaw (leBytes (len % 2 ^ 32) 4)).inputRaw data)
  else .error .explicit

/-- `TypeFqn`: library and type name. -/
structure TypeFqn where
  /-- library name -/
  lib : String
  /-- type name -/
  name : String
  deriving DecidableEq, Repr

/-- `CommitColType`, `/repo/commit_verify/src/id.rs:36-41`. -/
inductive CommitColType where
  | list
  | set
  | map (key : TypeFqn)
  deriving DecidableEq, Repr

/-- `Sizing` (strict_encoding): bounds of a collection. -/
structure Sizing where
  /-- minimal number of elements -/
  min : Nat
  /-- maximal number of elements -/
  max : Nat
  deriving DecidableEq, Repr

/-- `CommitStep`, `/repo/commit_verify/src/id.rs:43-50`. -/
inductive CommitStep where
  | serialized (fqn : TypeFqn)
  | collection (ty : CommitColType) (sizing : Sizing) (fqn : TypeFqn)
  | hashed (fqn : TypeFqn)
  | merklized (fqn : TypeFqn)
  | concealed (fqn : TypeFqn)
  deriving DecidableEq, Repr

/-- `CommitEngine`, `/repo/commit_verify/src/id.rs:52-57`. `layout` is a `TinyVec`, i.e. has at
most 255 elements. -/
structure CommitEngine where
  /-- set when no more data may be added -/
  finished : Bool
  /-- bytes fed so far -/
  hasher : Hasher
  /-- kinds of the committed data -/
  layout : List CommitStep
  deriving DecidableEq, Repr

/-- `commitment_fqn`, `/repo/commit_verify/src/id.rs:59-64`; panics for unnamed types. -/
def commitmentFqn (α : Type) [StrictType α] : Exec TypeFqn :=
  match StrictType.typeName α with
  | some n => .ok ⟨StrictType.libName α, n⟩
  | none => .error .expect

/-- `CommitEngine::new`, `/repo/commit_verify/src/id.rs:67-73`. -/
def CommitEngine.new [Env] (tag : String) : CommitEngine :=
  ⟨false, Hasher.fromTag (utf8 tag), []⟩

/-- `self.layout.push(step).expect(..)` on a `TinyVec`, e.g.
`/repo/commit_verify/src/id.rs:95-97`. -/
def CommitEngine.pushStep (e : CommitEngine) (step : CommitStep) : Exec CommitEngine :=
  if e.layout.length < 255 then .ok { e with layout := e.layout ++ [step] }
  else .error .expect

/-- `CommitEngine::inner_commit_to`, `/repo/commit_verify/src/id.rs:75-80`. If the encoding is
longer than `maxLen` writing fails, which the debug profile reports; that case cannot arise
for the limits used (32 for 32-byte ids, `u64::MAX` otherwise), and the engine is left as is. -/
def CommitEngine.innerCommitTo [Env] (e : CommitEngine) (maxLen : Nat) (bytes : Bytes) :
    Exec CommitEngine := do
  debugAssert dbg (!e.finished)
  if bytes.length ≤ maxLen then
    .ok { e with hasher := e.hasher.inputRaw bytes }
  else
    debugAssert dbg false
    .ok e

/-- `COMMIT_MAX_LEN`, `/repo/commit_verify/src/id.rs:34`. -/
def COMMIT_MAX_LEN : Nat := 2 ^ 64 - 1

/-- `CommitEngine::commit_to_serialized`, `/repo/commit_verify/src/id.rs:82-100`. -/
def CommitEngine.commitToSerialized [Env] {α : Type} [StrictEncode α]
    (e : CommitEngine) (value : α) : Exec CommitEngine := do
  let fqn ← commitmentFqn α
  debugAssert dbg (fqn.name != "MerkleHash" || fqn.lib != LIB_NAME_COMMIT_VERIFY)
  debugAssert dbg (fqn.name != "StrictHash" || fqn.lib != LIB_NAME_COMMIT_VERIFY)
  let e ← e.pushStep (.serialized fqn)
  e.innerCommitTo COMMIT_MAX_LEN (StrictEncode.enc value)

/-- `CommitEngine::commit_to_option`, `/repo/commit_verify/src/id.rs:102-109`. -/
def CommitEngine.commitToOption [Env] {α : Type} [StrictEncode α]
    (e : CommitEngine) (value : Option α) : Exec CommitEngine := do
  let fqn ← commitmentFqn α
  let e ← e.pushStep (.serialized fqn)
  e.innerCommitTo COMMIT_MAX_LEN (encOption StrictEncode.enc value)

/-- A commitment id type: its name and its tag (`CommitmentId`,
`/repo/commit_verify/src/id.rs:235-237`). The values are 32-byte strings. -/
structure IdType where
  /-- library name -/
  lib : String
  /-- type name -/
  name : Option String
  /-- `TAG` -/
  tag : String
  deriving DecidableEq, Repr

/-- `StrictHash`, `/repo/commit_verify/src/id.rs:289-306`. -/
def strictHashId : IdType :=
  ⟨LIB_NAME_COMMIT_VERIFY, some "StrictHash", "urn:ubideco:strict-types:value-hash#2024-02-10"⟩

/-- `MerkleHash` as commitment id, `/repo/commit_verify/src/merkle.rs:105-122`. -/
def merkleHashId : IdType :=
  ⟨LIB_NAME_COMMIT_VERIFY, some "MerkleHash", "urn:ubideco:merkle:node#2024-01-31"⟩

/-- `mpc::Commitment` as commitment id, `/repo/commit_verify/src/mpc/atoms.rs:117-146`. -/
def mpcCommitmentId : IdType :=
  ⟨LIB_NAME_COMMIT_VERIFY, some "Commitment", "urn:ubideco:mpc:commitment#2024-01-31"⟩

/-- `CommitEncode`, `/repo/commit_verify/src/id.rs:212-219`. -/
class CommitEncode (α : Type) where
  /-- `type CommitmentId` -/
  idType : IdType
  /-- `commit_encode`; may panic -/
  commitEncode : [Env] → α → CommitEngine → Exec CommitEngine

/-- `CommitId::commit`, `/repo/commit_verify/src/id.rs:279-284`. -/
def commit [Env] {α : Type} [CommitEncode α] (x : α) : Exec CommitEngine := do
  let e ← CommitEncode.commitEncode x (CommitEngine.new (CommitEncode.idType α).tag)
  .ok { e with finished := true }

/-- `CommitId::commit_id`, `/repo/commit_verify/src/id.rs:286`. -/
def commitId [Env] {α : Type} [CommitEncode α] (x : α) : Exec Bytes32 := do
  let e ← commit x
  .ok e.hasher.finish

/-- `CommitEngine::commit_to_hash`, `/repo/commit_verify/src/id.rs:111-121`. -/
def CommitEngine.commitToHash [Env] {α : Type} [StrictType α] [CommitEncode α]
    (e : CommitEngine) (value : α) : Exec CommitEngine := do
  let fqn ← commitmentFqn α
  let e ← e.pushStep (.hashed fqn)
  let id ← commitId value
  e.innerCommitTo 32 (encBytes32 id)

/-- `Conceal`, `/repo/commit_verify/src/conceal.rs:29-36`; may panic. -/
class Conceal (α : Type) (β : outParam Type) where
  /-- `conceal` -/
  conceal : [Env] → α → Exec β

/-- `CommitEngine::commit_to_concealed`, `/repo/commit_verify/src/id.rs:134-146`. -/
def CommitEngine.commitToConcealed [Env] {α β : Type} [StrictType α] [Conceal α β]
    [StrictEncode β] (e : CommitEngine) (value : α) : Exec CommitEngine := do
  let fqn ← commitmentFqn α
  let e ← e.pushStep (.concealed fqn)
  let concealed ← Conceal.conceal value
  e.innerCommitTo COMMIT_MAX_LEN (StrictEncode.enc concealed)

/-- `CommitEngine::commit_to_linear_list`, `/repo/commit_verify/src/id.rs:148-161`. -/
def CommitEngine.commitToLinearList [Env] {α : Type} [StrictEncode α]
    (e : CommitEngine) (min max : Nat) (l : List α) : Exec CommitEngine := do
  let fqn ← commitmentFqn α
  let e ← e.pushStep (.collection .list ⟨min, max⟩ fqn)
  e.innerCommitTo COMMIT_MAX_LEN (encList max StrictEncode.enc l)

/-- `CommitEngine::commit_to_linear_set`, `/repo/commit_verify/src/id.rs:163-176`; `l` is the
ascending list of elements. -/
def CommitEngine.commitToLinearSet [Env] {α : Type} [StrictEncode α]
    (e : CommitEngine) (min max : Nat) (l : List α) : Exec CommitEngine := do
  let fqn ← commitmentFqn α
  let e ← e.pushStep (.collection .set ⟨min, max⟩ fqn)
  e.innerCommitTo COMMIT_MAX_LEN (encList max StrictEncode.enc l)

/-- `CommitEngine::commit_to_linear_map`, `/repo/commit_verify/src/id.rs:178-196`; `l` is the
list of entries ascending by key. -/
def CommitEngine.commitToLinearMap [Env] {κ α : Type} [StrictEncode κ] [StrictEncode α]
    (e : CommitEngine) (min max : Nat) (l : List (κ × α)) : Exec CommitEngine := do
  let kfqn ← commitmentFqn κ
  let vfqn ← commitmentFqn α
  let e ← e.pushStep (.collection (.map kfqn) ⟨min, max⟩ vfqn)
  e.innerCommitTo COMMIT_MAX_LEN
    (encList max (fun kv => StrictEncode.enc kv.1 ++ StrictEncode.enc kv.2) l)

/-- `CommitEngine::as_layout`, `/repo/commit_verify/src/id.rs:198-201`. -/
def CommitEngine.asLayout (e : CommitEngine) : CommitEngine × List CommitStep :=
  ({ e with finished := true }, e.layout)

/-- `CommitEngine::set_finished`, `/repo/commit_verify/src/id.rs:205`. -/
def CommitEngine.setFinished (e : CommitEngine) : CommitEngine := { e with finished := true }

end CSV
