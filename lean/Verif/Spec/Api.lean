import Verif.Model.Api

/-!
# Specification of validation reports

Independent of the loops of `client_side_validate`.
-/

namespace CSV

/-- How bad a verdict is. -/
def Validity.severity : Validity → Nat
  | .valid => 0
  | .sealIssues => 1
  | .invalid => 2

section
variable {Issue Failure Warning Info : Type}

/-- One way to extend a report. -/
inductive Addition (Issue Failure Warning Info : Type) where
  | sealIssue (x : Issue)
  | failure (x : Failure)
  | warning (x : Warning)
  | info (x : Info)
  | merge (s : Status Issue Failure Warning Info)

/-- Effect of one addition, by the method of `Status` that does it. -/
def Addition.apply (s : Status Issue Failure Warning Info) :
    Addition Issue Failure Warning Info → Status Issue Failure Warning Info
  | .sealIssue x => s.addSealIssue x
  | .failure x => s.addFailure x
  | .warning x => s.addWarning x
  | .info x => s.addInfo x
  | .merge t => s.addAssign t

variable {State Seal : Type}

/-- State of a resolver after it was asked about a list of seals. -/
def Resolver.stateAfter (r : Resolver State Seal Issue) (st : State) (seals : List Seal) : State :=
  seals.foldl (fun st x => (r st x).1) st

/-- Issues reported by a resolver when asked about a list of seals one after the other. -/
def Resolver.issues (r : Resolver State Seal Issue) : State → List Seal → List Issue
  | _, [] => []
  | st, x :: xs =>
    (match (r st x).2 with | .ok () => [] | .error e => [e]) ++ r.issues (r st x).1 xs

/-- The same resolver, keeping a log of the seals it was asked about. -/
def Resolver.logged (r : Resolver State Seal Issue) : Resolver (State × List Seal) Seal Issue :=
  fun (st, log) x => (((r st x).1, log ++ [x]), (r st x).2)

/-- What is to be reported for the items: for each its seal issues, then its own report. -/
def Resolver.itemReports (r : Resolver State Seal Issue) :
    State → List (ClientData Seal Issue Failure Warning Info) →
    List (Status Issue Failure Warning Info)
  | _, [] => []
  | st, d :: ds =>
    ⟨r.issues st d.seals, [], [], []⟩ :: d.report ::
      r.itemReports (r.stateAfter st d.seals) ds

end
end CSV
