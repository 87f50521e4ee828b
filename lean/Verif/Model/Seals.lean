import Verif.Prelude.Rust

/-!
# Single-use seals

Models `/repo/single_use_seals/src/lib.rs`. The seal type, the witnesses and their methods are
supplied by users of the library and are arbitrary.
-/

namespace CSV

/-- `SealWitness`, `/repo/single_use_seals/src/lib.rs:232-240`. -/
structure SealWitness (Pub Cli : Type) where
  /-- published witness -/
  published : Pub
  /-- client-side witness -/
  client : Cli
  deriving DecidableEq, Repr

/-- Methods of `SingleUseSeal`, `ClientSideWitness` and `PublishedWitness`,
`/repo/single_use_seals/src/lib.rs:151-180, 205-217`. -/
structure SealScheme (Seal Msg Pub Cli Proof PubId PubErr CliErr : Type) where
  /-- `SingleUseSeal::is_included` -/
  isIncluded : Seal → Msg → SealWitness Pub Cli → Bool
  /-- `ClientSideWitness::convolve_commit` -/
  convolveCommit : Cli → Msg → Except CliErr Proof
  /-- `PublishedWitness::pub_id` -/
  pubId : Pub → PubId
  /-- `PublishedWitness::verify_commitment` -/
  verifyCommitment : Pub → Proof → Except PubErr Unit

/-- `SealError`, `/repo/single_use_seals/src/lib.rs:285-290`. -/
inductive SealError (Seal PubId PubErr CliErr : Type) where
  | notIncluded (sl : Seal) (pubId : PubId)
  | published (e : PubErr)
  | client (e : CliErr)
  deriving DecidableEq, Repr

variable {Seal Msg Pub Cli Proof PubId PubErr CliErr : Type}

/-- The loop of `verify_seals_closing`, `/repo/single_use_seals/src/lib.rs:266-271`. -/
def SealScheme.checkIncluded (s : SealScheme Seal Msg Pub Cli Proof PubId PubErr CliErr)
    (w : SealWitness Pub Cli) (message : Msg) : List Seal →
    Except (SealError Seal PubId PubErr CliErr) Unit
  | [] => .ok ()
  | sl :: seals =>
    if s.isIncluded sl message w then s.checkIncluded w message seals
    else .error (.notIncluded sl (s.pubId w.published))

/-- `SealWitness::verify_seals_closing`, `/repo/single_use_seals/src/lib.rs:260-282`. -/
def SealScheme.verifySealsClosing (s : SealScheme Seal Msg Pub Cli Proof PubId PubErr CliErr)
    (w : SealWitness Pub Cli) (seals : List Seal) (message : Msg) :
    Except (SealError Seal PubId PubErr CliErr) Unit :=
  match s.checkIncluded w message seals with
  | .error e => .error e
  | .ok () =>
    match s.convolveCommit w.client message with
    | .error e => .error (.client e)
    | .ok fMsg =>
      match s.verifyCommitment w.published fMsg with
      | .error e => .error (.published e)
      | .ok () => .ok ()

/-- `SealWitness::verify_seal_closing`, `/repo/single_use_seals/src/lib.rs:252-258`. -/
def SealScheme.verifySealClosing (s : SealScheme Seal Msg Pub Cli Proof PubId PubErr CliErr)
    (w : SealWitness Pub Cli) (sl : Seal) (message : Msg) :
    Except (SealError Seal PubId PubErr CliErr) Unit :=
  s.verifySealsClosing w [sl] message

/-- `Display for SealError`, `/repo/single_use_seals/src/lib.rs:306-316`, given the texts of seals,
publication ids and errors of the witnesses. -/
def SealError.display (sealText : Seal → String) (pubId : PubId → String) (pubErr : PubErr → String)
    (cliErr : CliErr → String) : SealError Seal PubId PubErr CliErr → String
  | .notIncluded sl i => "seal " ++ sealText sl ++ " is not included in the witness " ++ pubId i
  | .published e => pubErr e
  | .client e => cliErr e

/-- `Error::source for SealError`, `/repo/single_use_seals/src/lib.rs:318-330`. -/
def SealError.source : SealError Seal PubId PubErr CliErr → Option (PubErr ⊕ CliErr)
  | .notIncluded _ _ => none
  | .published e => some (.inl e)
  | .client e => some (.inr e)

/-- `NoWitness`, `/repo/single_use_seals/src/lib.rs:182-201`: all values are equal. -/
abbrev NoWitness := Unit

/-- `ClientSideWitness::convolve_commit for NoWitness`,
`/repo/single_use_seals/src/lib.rs:195`. The error type is `Infallible`. -/
def NoWitness.convolveCommit (_ : NoWitness) (msg : Msg) : Except Empty Msg := .ok msg

/-- `ClientSideWitness::merge for NoWitness`, `/repo/single_use_seals/src/lib.rs:197-200`. -/
def NoWitness.merge (self _other : NoWitness) : NoWitness × Except Empty Unit := (self, .ok ())

end CSV
