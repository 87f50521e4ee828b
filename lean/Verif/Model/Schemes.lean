import Verif.Prelude.Rust

/-!
# Commitment schemes: commit-verify, embed-commit-verify, convolve-commit-verify

Models the provided (default) methods of the traits of `/repo/commit_verify/src/commit.rs`,
`/repo/commit_verify/src/embed.rs` and `/repo/commit_verify/src/convolve.rs`. The required methods,
written by users of the library, are arbitrary functions. Where a required method is implemented
inside `/repo` by code that may panic (`MerkleTree::try_commit`) the scheme allows it to.
-/

namespace CSV

/-- `VerifyError`, `/repo/commit_verify/src/commit.rs:26-34`. -/
inductive VerifyError where
  | invalidCommitment
  | invalidMessage
  deriving DecidableEq, Repr

/-- `CommitVerify::verify`, `/repo/commit_verify/src/commit.rs:49-54`; `commit` is the
implementation of the trait, `self` the commitment. -/
def commitVerify {Msg C : Type} [DecidableEq C] (commit : Msg → C) (self : C) (msg : Msg) :
    Except VerifyError Unit :=
  match decide (commit msg = self) with
  | false => .error .invalidCommitment
  | true => .ok ()

/-- `TryCommitVerify::verify`, `/repo/commit_verify/src/commit.rs:71-77`. -/
def tryCommitVerify {Msg C E : Type} [DecidableEq C] (tryCommit : Msg → Exec (Except E C))
    (self : C) (msg : Msg) : Exec (Except VerifyError Unit) := do
  let r ← tryCommit msg
  match r with
  | .error _ => .ok (.error .invalidMessage)
  | .ok other =>
    if other ≠ self then .ok (.error .invalidCommitment)
    else .ok (.ok ())

/-- `EmbedVerifyError`, `/repo/commit_verify/src/embed.rs:26-46`. -/
inductive EmbedVerifyError (E : Type) where
  | commitmentMismatch
  | invalidMessage (e : E)
  | invalidProof
  | proofMismatch
  deriving DecidableEq, Repr

/-- Required methods of `EmbedCommitVerify`, `EmbedCommitProof` and `VerifyEq`,
`/repo/commit_verify/src/embed.rs:51-81, 127-147`. -/
structure EmbedScheme (Msg Container Proof E : Type) where
  /-- `EmbedCommitProof::restore_original_container` -/
  restore : Proof → Container → Except (EmbedVerifyError E) Container
  /-- `EmbedCommitVerify::embed_commit`: the mutated container and the result -/
  embedCommit : Container → Msg → Container × Except E Proof
  /-- `VerifyEq for Container` -/
  containerEq : Container → Container → Bool
  /-- `VerifyEq for Proof` -/
  proofEq : Proof → Proof → Bool

/-- `EmbedCommitVerify::verify`, `/repo/commit_verify/src/embed.rs:160-178`. -/
def EmbedScheme.verify {Msg Container Proof E : Type} (s : EmbedScheme Msg Container Proof E)
    (self : Container) (msg : Msg) (proof : Proof) : Except (EmbedVerifyError E) Unit :=
  match s.restore proof self with
  | .error e => .error e
  | .ok original =>
    match s.embedCommit original msg with
    | (_, .error e) => .error (.invalidMessage e)
    | (containerPrime, .ok proofPrime) =>
      if !s.proofEq proofPrime proof then .error .invalidProof
      else if !s.containerEq self containerPrime then .error .commitmentMismatch
      else .ok ()

/-- `ConvolveVerifyError`, `/repo/commit_verify/src/convolve.rs:26-39`. -/
inductive ConvolveVerifyError where
  | commitmentMismatch
  | impossibleMessage
  | invalidProof
  deriving DecidableEq, Repr

/-- Required methods of `ConvolveCommit`, `ConvolveCommitProof` and `VerifyEq`,
`/repo/commit_verify/src/convolve.rs:42-58, 157-191`. -/
structure ConvolveScheme (Msg Source Suppl Commitment Proof E : Type) where
  /-- `ConvolveCommitProof::restore_original` -/
  restoreOriginal : Proof → Commitment → Source
  /-- `ConvolveCommitProof::extract_supplement` -/
  extractSupplement : Proof → Suppl
  /-- `ConvolveCommit::convolve_commit` -/
  convolveCommit : Source → Suppl → Msg → Except E (Commitment × Proof)
  /-- `VerifyEq for Commitment` -/
  commitmentEq : Commitment → Commitment → Bool
  /-- `VerifyEq for Proof` -/
  proofEq : Proof → Proof → Bool

/-- `ConvolveCommitProof::verify`, `/repo/commit_verify/src/convolve.rs:70-90`. -/
def ConvolveScheme.verify {Msg Source Suppl Commitment Proof E : Type}
    (s : ConvolveScheme Msg Source Suppl Commitment Proof E) (self : Proof) (msg : Msg)
    (commitment : Commitment) : Except ConvolveVerifyError Unit :=
  match s.convolveCommit (s.restoreOriginal self commitment) (s.extractSupplement self) msg with
  | .error _ => .error .impossibleMessage
  | .ok (commitmentPrime, proof) =>
    if !s.proofEq self proof then .error .invalidProof
    else if !s.commitmentEq commitment commitmentPrime then .error .commitmentMismatch
    else .ok ()

end CSV
