import Verif.Model.Derive

/-!
# Description of commitment layouts in the vesper language

Models `/repo/commit_verify/src/vesper.rs`. Identifiers are their names (`to_ident` of a type name
only changes the Rust type). Printing of expressions as text is done by the `vesper` crate, which is
not modelled; `Attr.shown` is what it is given to print.
-/

namespace CSV

/-- `Pred`, `/repo/commit_verify/src/vesper.rs:32-48`. -/
inductive Pred where
  | commitment
  | serialized
  | hashed
  | merklized
  | concealed
  | list
  | set
  | element
  | map
  | mapKey
  | mapValue
  deriving DecidableEq, Repr

/-- `Display for Pred`: the name in lower case, with two exceptions,
`/repo/commit_verify/src/vesper.rs:32-48`. -/
def Pred.display : Pred → String
  | .commitment => "commitment"
  | .serialized => "serialized"
  | .hashed => "hashed"
  | .merklized => "merklized"
  | .concealed => "concealed"
  | .list => "list"
  | .set => "set"
  | .element => "element"
  | .map => "map"
  | .mapKey => "mapKey"
  | .mapValue => "mapValue"

/-- `Attr`, `/repo/commit_verify/src/vesper.rs:54-60`. (`LenRange` wraps the bounds.) -/
inductive Attr where
  | tagged (tag : String)
  | concealed (fqn : TypeFqn)
  | lenRange (range : Sizing)
  | hasher
  deriving DecidableEq, Repr

/-- `AttrVal<AttrExpr>`, `/repo/commit_verify/src/vesper.rs:61-66`. -/
inductive AttrVal where
  | ident (name : String)
  | tag (tag : String)
  | lenRange (range : Sizing)
  deriving DecidableEq, Repr

/-- `Attribute::name`, `/repo/commit_verify/src/vesper.rs:73-80`. -/
def Attr.name : Attr → String
  | .tagged _ => "tagged"
  | .concealed _ => "concealed"
  | .lenRange _ => "len"
  | .hasher => "hasher"

/-- `Attribute::value`, `/repo/commit_verify/src/vesper.rs:82-89`. -/
def Attr.value : Attr → AttrVal
  | .tagged tag => .tag tag
  | .concealed fqn => .ident fqn.name
  | .lenRange range => .lenRange range
  | .hasher => .ident "SHA256"

/-- What is printed of an attribute. -/
def Attr.shown (a : Attr) : String × AttrVal := (a.name, a.value)

/-- `TExpr<Pred>` (vesper crate) with attributes `α`, without comments (always `None`). -/
inductive TExpr (α : Type) where
  | mk (subject : String) (predicate : Pred) (attributes : List α) (content : List (TExpr α))

namespace TExpr
/-- subject -/
def subject {α : Type} : TExpr α → String | .mk s _ _ _ => s
/-- predicate -/
def predicate {α : Type} : TExpr α → Pred | .mk _ p _ _ => p
/-- attributes -/
def attributes {α : Type} : TExpr α → List α | .mk _ _ a _ => a
/-- nested expressions -/
def content {α : Type} : TExpr α → List (TExpr α) | .mk _ _ _ c => c
/-- Change of all attributes. -/
def map {α β : Type} (f : α → β) : TExpr α → TExpr β
  | .mk s p a c => .mk s p (a.map f) (c.map fun e => e.map f)
end TExpr

/-- `VesperCommit`, `/repo/commit_verify/src/vesper.rs:30`. -/
abbrev VesperCommit := TExpr Attr

/-- `CommitStep::subject`, `/repo/commit_verify/src/vesper.rs:93-103`. -/
def CommitStep.subject : CommitStep → String
  | .serialized fqn => fqn.name
  | .collection _ _ fqn => fqn.name
  | .hashed fqn => fqn.name
  | .merklized fqn => fqn.name
  | .concealed fqn => fqn.name

/-- `CommitStep::predicate`, `/repo/commit_verify/src/vesper.rs:105-115`. -/
def CommitStep.predicate : CommitStep → Pred
  | .serialized _ => .serialized
  | .collection .list _ _ => .list
  | .collection .set _ _ => .set
  | .collection (.map _) _ _ => .map
  | .hashed _ => .hashed
  | .merklized _ => .merklized
  | .concealed _ => .concealed

/-- `CommitStep::attributes`, `/repo/commit_verify/src/vesper.rs:117-123`. -/
def CommitStep.attributes : CommitStep → List Attr
  | .collection _ sizing _ => [.lenRange sizing]
  | .concealed from' => [.concealed from']
  | .serialized _ => []
  | .hashed _ => []
  | .merklized _ => []

/-- `CommitStep::content`, `/repo/commit_verify/src/vesper.rs:125-160`. -/
def CommitStep.content : CommitStep → List VesperCommit
  | .collection .list _ val => [.mk val.name .element [] []]
  | .collection .set _ val => [.mk val.name .element [] []]
  | .collection (.map key) _ val => [.mk key.name .mapKey [] [], .mk val.name .mapValue [] []]
  | .serialized _ => []
  | .hashed _ => []
  | .merklized _ => []
  | .concealed _ => []

/-- `CommitLayout::to_vesper`, `/repo/commit_verify/src/vesper.rs:163-188`. -/
def CommitLayout.toVesper (l : CommitLayout) : VesperCommit :=
  .mk l.idty.name .commitment [.hasher, .tagged l.tag]
    (l.fields.map fun field => .mk field.subject field.predicate field.attributes field.content)

end CSV
