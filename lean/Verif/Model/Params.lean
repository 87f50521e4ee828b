import Verif.Model.Derive

/-!
# Attributes of the derive macro

Models `/repo/commit_verify/derive/src/params.rs` and the choice of the generated code in
`/repo/commit_verify/derive/src/derive.rs`. Paths are strings. Of `ParametrizedAttr` and `AttrReq`
(dependency `amplify_syn`) the presence of required arguments is modelled; the classes of argument
values and unknown arguments are not. What the compiler does with the generated code is modelled as
far as the traits it needs are concerned: without them there is no implementation.
-/

namespace CSV

/-- `StrategyAttr`, `/repo/commit_verify/derive/src/params.rs:42-49`. -/
inductive StrategyAttr where
  | strict
  | concealStrict
  | transparent
  | merklize
  deriving DecidableEq, Repr

/-- `TryFrom<&Path> for StrategyAttr`, `/repo/commit_verify/derive/src/params.rs:51-70`; the error
message is a function of the unknown name. -/
def StrategyAttr.tryFrom (path : String) : Except String StrategyAttr :=
  if path = "strict" then .ok .strict
  else if path = "conceal" then .ok .concealStrict
  else if path = "transparent" then .ok .transparent
  else if path = "merklize" then .ok .merklize
  else .error ("invalid commitment encoding value for `strategy` attribute `" ++ path ++
    "`; only `transparent`, `strict`, `conceal`, or `merklize`  are allowed")

/-- `ContainerAttr`, `/repo/commit_verify/derive/src/params.rs:36-40`. -/
structure ContainerAttr where
  /-- crate to take the traits from -/
  commitCrate : String
  /-- strategy -/
  strategy : StrategyAttr
  /-- commitment id type -/
  id : String
  deriving DecidableEq, Repr

/-- Value of an argument, the first with this name. -/
def argValue (args : List (String × String)) (name : String) : Option String :=
  (args.find? fun a => a.1 = name).map Prod.snd

/-- `TryFrom<ParametrizedAttr> for ContainerAttr`,
`/repo/commit_verify/derive/src/params.rs:72-95`. -/
def ContainerAttr.tryFrom (args : List (String × String)) : Except String ContainerAttr :=
  match argValue args "id", argValue args "strategy" with
  | some id, some path =>
    match StrategyAttr.tryFrom path with
    | .error e => .error e
    | .ok strategy => .ok ⟨(argValue args "crate").getD "commit_verify", strategy, id⟩
  | none, _ => .error "missing argument `id`"
  | _, none => .error "missing argument `strategy`"

/-- The traits of a type used by the generated code, as far as it has them. -/
structure Traits (α : Type) : Type 1 where
  /-- `StrictEncode` -/
  strictEncode : Option (StrictEncode α)
  /-- `Conceal` with a concealed form -/
  conceal : Option ((β : Type) × (γ : Type) × Conceal α β × StrictType β × Conceal β γ × StrictEncode γ)
  /-- `Wrapper` with the inner value -/
  wrapper : Option ((β : Type) × (α → β) × StrictEncode β)
  /-- `MerkleLeaves` with the leaves -/
  merkleLeaves : Option ((β : Type) × (α → List β) × StrictType β × CommitEncode β)

/-- `CommitDerive::derive_encode`, `/repo/commit_verify/derive/src/derive.rs:28-61`, and compilation of
the generated code. -/
def StrategyAttr.deriveEncode {α : Type} (t : Traits α) (id : IdType) :
    StrategyAttr → Option (CommitEncode α)
  | .strict => t.strictEncode.map fun se => @deriveStrict α se id
  | .concealStrict => t.conceal.map fun ⟨_, _, co, st, co', se⟩ => @deriveConceal α _ _ co st co' se id
  | .transparent => t.wrapper.map fun ⟨_, inner, se⟩ => @deriveTransparent α _ se inner id
  | .merklize => t.merkleLeaves.map fun ⟨_, leaves, st, ce⟩ => @deriveMerklize α _ st ce leaves id

/-- `#[derive(CommitEncode)] #[commit_encode(args)]`,
`/repo/commit_verify/derive/src/lib.rs:66-74`: the implementation, or `none` if there is a compile
error. `crates` are the paths at which the crate `commit_verify` is in scope (its `CommitEncode`,
`CommitEngine` and `Conceal` are used through that path), `ids` gives the id types in scope. -/
def deriveCommitEncode {α : Type} (t : Traits α) (crates : List String)
    (ids : String → Option IdType) (args : List (String × String)) : Option (CommitEncode α) :=
  match ContainerAttr.tryFrom args with
  | .error _ => none
  | .ok conf =>
    if conf.commitCrate ∈ crates then
      match ids conf.id with
      | none => none
      | some id => conf.strategy.deriveEncode t id
    else none

end CSV
