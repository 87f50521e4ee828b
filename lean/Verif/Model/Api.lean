import Verif.Prelude.Rust

/-!
# Client-side validation API

Models `/repo/src/api.rs`. The report entry types, the data items and the resolver are supplied by
users of the library and are arbitrary; a resolver has a state that each call may change.
-/

namespace CSV

/-- `Validity`, `/repo/src/api.rs:27-44`. -/
inductive Validity where
  | valid
  | sealIssues
  | invalid
  deriving DecidableEq, Repr

/-- Discriminants of `Validity`, `/repo/src/api.rs:32, 40, 43`. -/
def Validity.discriminant : Validity → Nat
  | .valid => 1
  | .sealIssues => 0xFF
  | .invalid => 0

/-- Derived `Ord for Validity`, `/repo/src/api.rs:27`: enum values are ordered by discriminant. -/
def Validity.le (a b : Validity) : Bool := a.discriminant ≤ b.discriminant

/-- `Ord::max`: the second argument if they compare equal. -/
def Validity.max (a b : Validity) : Validity := if a.le b then b else a

/-- `Status`, `/repo/src/api.rs:137-167`. -/
structure Status (Issue Failure Warning Info : Type) where
  /-- seal issues -/
  sealIssues : List Issue
  /-- failures -/
  failures : List Failure
  /-- warnings -/
  warnings : List Warning
  /-- info -/
  info : List Info
  deriving DecidableEq, Repr

variable {Issue Failure Warning Info : Type}

/-- `Status::new`, `/repo/src/api.rs:197-204`. -/
def Status.new : Status Issue Failure Warning Info := ⟨[], [], [], []⟩

/-- `AddAssign for Status`, `/repo/src/api.rs:169-178`. -/
def Status.addAssign (self rhs : Status Issue Failure Warning Info) :
    Status Issue Failure Warning Info :=
  ⟨self.sealIssues ++ rhs.sealIssues, self.failures ++ rhs.failures,
   self.warnings ++ rhs.warnings, self.info ++ rhs.info⟩

/-- `FromIterator for Status`, `/repo/src/api.rs:180-191`. -/
def Status.fromIter (iter : List Failure) : Status Issue Failure Warning Info :=
  ⟨[], iter, [], []⟩

/-- `Status::from_failure`, `/repo/src/api.rs:208-215`. -/
def Status.fromFailure (failure : Failure) : Status Issue Failure Warning Info :=
  ⟨[], [failure], [], []⟩

/-- `Status::add_seal_issue`, `/repo/src/api.rs:218-221`. -/
def Status.addSealIssue (s : Status Issue Failure Warning Info) (x : Issue) :
    Status Issue Failure Warning Info := { s with sealIssues := s.sealIssues ++ [x] }

/-- `Status::add_failure`, `/repo/src/api.rs:224-227`. -/
def Status.addFailure (s : Status Issue Failure Warning Info) (x : Failure) :
    Status Issue Failure Warning Info := { s with failures := s.failures ++ [x] }

/-- `Status::add_warning`, `/repo/src/api.rs:231-234`. -/
def Status.addWarning (s : Status Issue Failure Warning Info) (x : Warning) :
    Status Issue Failure Warning Info := { s with warnings := s.warnings ++ [x] }

/-- `Status::add_info`, `/repo/src/api.rs:239-242`. -/
def Status.addInfo (s : Status Issue Failure Warning Info) (x : Info) :
    Status Issue Failure Warning Info := { s with info := s.info ++ [x] }

/-- `Status::validity`, `/repo/src/api.rs:252-260`. -/
def Status.validity (s : Status Issue Failure Warning Info) : Validity :=
  if !s.failures.isEmpty then .invalid
  else if !s.sealIssues.isEmpty then .sealIssues
  else .valid

/-- `ClientData`, `/repo/src/api.rs:334-361`: an item with its seals and its own report. -/
structure ClientData (Seal Issue Failure Warning Info : Type) where
  /-- `single_use_seals()` -/
  seals : List Seal
  /-- `validate_internal_consistency()` -/
  report : Status Issue Failure Warning Info

/-- `ClientSideValidate`, `/repo/src/api.rs:269-331`: data that has items. -/
structure ClientTree (Seal Issue Failure Warning Info : Type)
    extends ClientData Seal Issue Failure Warning Info where
  /-- `validation_iter()` -/
  items : List (ClientData Seal Issue Failure Warning Info)

/-- `SealResolver::resolve_trust`, `/repo/src/api.rs:377-391`: the new state of the resolver and
the result. -/
abbrev Resolver (State Seal Issue : Type) := State → Seal → State × Except Issue Unit

variable {State Seal : Type}

/-- The inner loop of `client_side_validate`, `/repo/src/api.rs:318-322`. -/
def resolveSeals (resolve : Resolver State Seal Issue) :
    List Seal → State → Status Issue Failure Warning Info →
    State × Status Issue Failure Warning Info
  | [], st, status => (st, status)
  | sl :: seals, st, status =>
    match resolve st sl with
    | (st', .error issue) => resolveSeals resolve seals st' (status.addSealIssue issue)
    | (st', .ok ()) => resolveSeals resolve seals st' status

/-- The outer loop of `client_side_validate`, `/repo/src/api.rs:317-324`. -/
def validateItems (resolve : Resolver State Seal Issue) :
    List (ClientData Seal Issue Failure Warning Info) → State →
    Status Issue Failure Warning Info → State × Status Issue Failure Warning Info
  | [], st, status => (st, status)
  | item :: items, st, status =>
    let (st, status) := resolveSeals resolve item.seals st status
    validateItems resolve items st (status.addAssign item.report)

/-- `ClientSideValidate::client_side_validate`, `/repo/src/api.rs:303-326`. Returns the state of the
resolver and the status. -/
def clientSideValidate (resolve : Resolver State Seal Issue)
    (data : ClientTree Seal Issue Failure Warning Info) (st : State) :
    State × Status Issue Failure Warning Info :=
  validateItems resolve data.items st (Status.new.addAssign data.report)

end CSV
