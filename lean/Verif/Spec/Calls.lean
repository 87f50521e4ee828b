import Verif.Model.Derive
import Verif.Spec.Proof

/-!
# Specification: sequences of commit calls

A user of the commitment engine makes calls to its `commit_to_*` methods. `Call` is one call with its
argument, `Call.step` the entry it should leave in the layout and `Call.bytes` what it should hash.
-/

namespace CSV

/-- A call to the commitment engine. -/
inductive Call : Type 1 where
  /-- `commit_to_serialized` -/
  | serialized {α : Type} (se : StrictEncode α) (value : α)
  /-- `commit_to_option` -/
  | option {α : Type} (se : StrictEncode α) (value : Option α)
  /-- `commit_to_hash` -/
  | hash {α : Type} (st : StrictType α) (ce : CommitEncode α) (value : α)
  /-- `commit_to_merkle` -/
  | merkle {α : Type} (st : StrictType α) (ce : CommitEncode α) (leaves : List α)
  /-- `commit_to_concealed` -/
  | concealed {α β : Type} (st : StrictType α) (co : Conceal α β) (se : StrictEncode β) (value : α)
  /-- `commit_to_linear_list` -/
  | list {α : Type} (se : StrictEncode α) (min max : Nat) (elems : List α)
  /-- `commit_to_linear_set` -/
  | set {α : Type} (se : StrictEncode α) (min max : Nat) (elems : List α)
  /-- `commit_to_linear_map` -/
  | map {κ α : Type} (sk : StrictEncode κ) (se : StrictEncode α) (min max : Nat)
      (entries : List (κ × α))

/-- Performing a call. -/
def Call.run [Env] (e : CommitEngine) : Call → Exec CommitEngine
  | .serialized _ v => e.commitToSerialized v
  | .option _ v => e.commitToOption v
  | .hash _ _ v => e.commitToHash v
  | .merkle _ _ l => e.commitToMerkle l
  | .concealed _ _ _ v => e.commitToConcealed v
  | .list _ min max l => e.commitToLinearList min max l
  | .set _ min max l => e.commitToLinearSet min max l
  | .map _ _ min max l => e.commitToLinearMap min max l

/-- Performing calls one after the other. -/
def CommitEngine.runAll [Env] (e : CommitEngine) : List Call → Exec CommitEngine
  | [] => .ok e
  | c :: cs => do
    let e ← c.run e
    e.runAll cs

/-- Full name of a type, `none` for anonymous types. -/
def StrictType.fqn {α : Type} (st : StrictType α) : Option TypeFqn :=
  st.typeName.map fun n => ⟨st.libName, n⟩

/-- The layout entry of a call: its kind, the bounds of a collection, the names of the types. `none`
if a type has no name. -/
def Call.step : Call → Option CommitStep
  | .serialized se _ => se.toStrictType.fqn.map .serialized
  | .option se _ => se.toStrictType.fqn.map .serialized
  | .hash st _ _ => st.fqn.map .hashed
  | .merkle st _ _ => st.fqn.map .merklized
  | .concealed st _ _ _ => st.fqn.map .concealed
  | .list se min max _ => se.toStrictType.fqn.map (.collection .list ⟨min, max⟩)
  | .set se min max _ => se.toStrictType.fqn.map (.collection .set ⟨min, max⟩)
  | .map sk se min max _ =>
    match sk.toStrictType.fqn, se.toStrictType.fqn with
    | some k, some v => some (.collection (.map k) ⟨min, max⟩ v)
    | _, _ => none

/-- The bytes that a call commits to; a panic if they cannot be computed. -/
def Call.bytes [Env] : Call → Exec Bytes
  | .serialized se v => .ok (se.enc v)
  | .option se v => .ok (encOption se.enc v)
  | .hash _ _ v => do let id ← commitId v; .ok id.bytes
  | .merkle _ _ l => do let root ← merklize l; .ok root.bytes
  | .concealed _ _ se v => do let c ← Conceal.conceal v; .ok (se.enc c)
  | .list se _ max l => .ok (encList max se.enc l)
  | .set se _ max l => .ok (encList max se.enc l)
  | .map sk se _ max l => .ok (encList max (fun kv => sk.enc kv.1 ++ se.enc kv.2) l)

/-- Debug builds refuse to serialize the two hash types that have commit methods of their own. -/
def Call.Allowed : Call → Prop
  | .serialized se _ => se.toStrictType.fqn ≠ some ⟨"CommitVerify", "MerkleHash"⟩ ∧
      se.toStrictType.fqn ≠ some ⟨"CommitVerify", "StrictHash"⟩
  | _ => True

/-- The call commits to `bs` and leaves the entry `st`. -/
def Call.Does [Env] (c : Call) (st : CommitStep) (bs : Bytes) : Prop :=
  c.step = some st ∧ c.bytes = .ok bs ∧ bs.length < 2 ^ 64

/-- Commitment encoding of a type by a sequence of calls. -/
def ByCalls (α : Type) [CommitEncode α] (calls : α → List Call) : Prop :=
  ∀ (_env : Env) (x : α) (e : CommitEngine), CommitEncode.commitEncode x e = e.runAll (calls x)

/-- A serialization that shows where it ends. -/
def SelfDelimiting {α : Type} (enc : α → Bytes) (P : α → Prop) : Prop :=
  ∀ a b r s, P a → P b → enc a ++ r = enc b ++ s → a = b ∧ r = s

/-- Two calls of the same method with the same types and the same bounds. -/
inductive Call.SameTypes : Call → Call → Prop
  | serialized {α : Type} (se : StrictEncode α) (v w : α) : SameTypes (.serialized se v) (.serialized se w)
  | option {α : Type} (se : StrictEncode α) (v w : Option α) : SameTypes (.option se v) (.option se w)
  | hash {α : Type} (st : StrictType α) (ce : CommitEncode α) (v w : α) :
      SameTypes (.hash st ce v) (.hash st ce w)
  | merkle {α : Type} (st : StrictType α) (ce : CommitEncode α) (v w : List α) :
      SameTypes (.merkle st ce v) (.merkle st ce w)
  | concealed {α β : Type} (st : StrictType α) (co : Conceal α β) (se : StrictEncode β) (v w : α) :
      SameTypes (.concealed st co se v) (.concealed st co se w)
  | list {α : Type} (se : StrictEncode α) (min max : Nat) (v w : List α) :
      SameTypes (.list se min max v) (.list se min max w)
  | set {α : Type} (se : StrictEncode α) (min max : Nat) (v w : List α) :
      SameTypes (.set se min max v) (.set se min max w)
  | map {κ α : Type} (sk : StrictEncode κ) (se : StrictEncode α) (min max : Nat) (v w : List (κ × α)) :
      SameTypes (.map sk se min max v) (.map sk se min max w)

/-- Two calls of the same method commit to the same data: equal values, or values with equal
commitment ids, equal merkle roots, equal concealed forms. -/
inductive Call.SameData [Env] : Call → Call → Prop
  | serialized {α : Type} (se : StrictEncode α) (v : α) : SameData (.serialized se v) (.serialized se v)
  | option {α : Type} (se : StrictEncode α) (v : Option α) : SameData (.option se v) (.option se v)
  | hash {α : Type} (st : StrictType α) (ce : CommitEncode α) (v w : α) (h : commitId v = commitId w) :
      SameData (.hash st ce v) (.hash st ce w)
  | merkle {α : Type} (st : StrictType α) (ce : CommitEncode α) (v w : List α)
      (h : merklize v = merklize w) : SameData (.merkle st ce v) (.merkle st ce w)
  | concealed {α β : Type} (st : StrictType α) (co : Conceal α β) (se : StrictEncode β) (v w : α)
      (h : co.conceal v = co.conceal w) : SameData (.concealed st co se v) (.concealed st co se w)
  | list {α : Type} (se : StrictEncode α) (min max : Nat) (v : List α) :
      SameData (.list se min max v) (.list se min max v)
  | set {α : Type} (se : StrictEncode α) (min max : Nat) (v : List α) :
      SameData (.set se min max v) (.set se min max v)
  | map {κ α : Type} (sk : StrictEncode κ) (se : StrictEncode α) (min max : Nat) (v : List (κ × α)) :
      SameData (.map sk se min max v) (.map sk se min max v)

/-- The serializations used by the call show where they end, and collections are within bounds. -/
def Call.Delimited : Call → Prop
  | .serialized se _ => SelfDelimiting se.enc fun _ => True
  | .option se _ => SelfDelimiting se.enc fun _ => True
  | .hash _ _ _ => True
  | .merkle _ _ _ => True
  | .concealed _ _ se _ => SelfDelimiting se.enc fun _ => True
  | .list se _ max l => SelfDelimiting se.enc (fun _ => True) ∧ l.length ≤ max ∧ max < 2 ^ 64
  | .set se _ max l => SelfDelimiting se.enc (fun _ => True) ∧ l.length ≤ max ∧ max < 2 ^ 64
  | .map sk se _ max l => SelfDelimiting sk.enc (fun _ => True) ∧
      SelfDelimiting se.enc (fun _ => True) ∧ l.length ≤ max ∧ max < 2 ^ 64

/-- Two lists of calls related call by call. -/
inductive CallsRel (R : Call → Call → Prop) : List Call → List Call → Prop
  | nil : CallsRel R [] []
  | cons {c c' : Call} {cs cs' : List Call} : R c c' → CallsRel R cs cs' →
      CallsRel R (c :: cs) (c' :: cs')

/-- The bytes committed to by calls, in call order. -/
def callsBytes [Env] : List Call → Exec Bytes
  | [] => .ok []
  | c :: cs => do
    let b ← c.bytes
    let bs ← callsBytes cs
    .ok (b ++ bs)

end CSV
