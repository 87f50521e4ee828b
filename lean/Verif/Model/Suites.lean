import Verif.Model.Schemes
import Verif.Model.Engine

/-!
# The generic test suites for commitment schemes, and the schemes of the tests

Models the two suites of `/repo/commit_verify/src/embed.rs` with which implementers test an embed-commit-verify or
convolve-commit-verify scheme, and the two schemes they are run on there. A failed assertion is a panic.
-/

namespace CSV

/-- `assert!`, `assert_eq!`. -/
def assertThat (b : Bool) : Exec Unit := if b then .ok () else .error .assert

/-- `is_ok` of the result of a verification. -/
def isOk {ε α : Type} : Except ε α → Bool
  | .ok _ => true
  | .error _ => false

section
variable {Msg Container Proof E : Type} [DecidableEq Msg] [DecidableEq Container]

/-- One step of the fold of `embed_commit_verify_suite`, `/repo/commit_verify/src/embed.rs:216-247`; the set of the
commitments made so far is a list. -/
def EmbedScheme.suiteStep (s : EmbedScheme Msg Container Proof E) (messages : List Msg) (container : Container)
    (acc : List Container) (msg : Msg) : Exec (List Container) :=
  match s.embedCommit container msg with
  | (_, .error _) => .error .expect
  | (commitment, .ok proof) => do
    (List.range' 1 9).forM fun _ =>
      match s.embedCommit container msg with
      | (_, .error _) => .error .expect
      | (commitmentPrime, .ok _) => assertThat (commitmentPrime = commitment)
    assertThat (isOk (s.verify commitment msg proof))
    messages.forM fun m => assertThat (isOk (s.verify commitment m proof) == decide (m = msg))
    acc.forM fun cmt => assertThat (!isOk (s.verify cmt msg proof))
    assertThat (!acc.contains commitment)
    .ok (commitment :: acc)

/-- `embed_commit_verify_suite`, `/repo/commit_verify/src/embed.rs:208-250`. -/
def EmbedScheme.suite (s : EmbedScheme Msg Container Proof E) (messages : List Msg) (container : Container) :
    Exec Unit := do
  let _ ← messages.foldlM (s.suiteStep messages container) []
  .ok ()

end

section
variable {Msg Source Suppl Commitment Proof E : Type} [DecidableEq Msg] [DecidableEq Commitment]

/-- One step of the fold of `convolve_commit_verify_suite`, `/repo/commit_verify/src/embed.rs:262-293`. The suite
fixes one 32-byte array as the supplement and as the proof; here they are arguments. -/
def ConvolveScheme.suiteStep (s : ConvolveScheme Msg Source Suppl Commitment Proof E) (suppl : Suppl) (proof : Proof)
    (messages : List Msg) (container : Source) (acc : List Commitment) (msg : Msg) : Exec (List Commitment) :=
  match s.convolveCommit container suppl msg with
  | .error _ => .error .expect
  | .ok (commitment, _) => do
    (List.range' 1 9).forM fun _ =>
      match s.convolveCommit container suppl msg with
      | .error _ => .error .expect
      | .ok (commitmentPrime, _) => assertThat (commitmentPrime = commitment)
    assertThat (isOk (s.verify proof msg commitment))
    messages.forM fun m => assertThat (isOk (s.verify proof m commitment) == decide (m = msg))
    acc.forM fun cmt => assertThat (!isOk (s.verify proof msg cmt))
    assertThat (!acc.contains commitment)
    .ok (commitment :: acc)

/-- `convolve_commit_verify_suite`, `/repo/commit_verify/src/embed.rs:254-296`. -/
def ConvolveScheme.suite (s : ConvolveScheme Msg Source Suppl Commitment Proof E) (suppl : Suppl) (proof : Proof)
    (messages : List Msg) (container : Source) : Exec Unit := do
  let _ ← messages.foldlM (s.suiteStep suppl proof messages container) []
  .ok ()

end

/-- The embed-commit scheme of the tests, `DummyVec` with `DummyProof`,
`/repo/commit_verify/src/embed.rs:316-345`. The message is appended to the container, and the proof is the container
as it was. A container has at most 65535 bytes; the panic of `unwrap` beyond is an error of the scheme here, as
embedding is not allowed to panic in `EmbedScheme`. -/
def dummyEmbed : EmbedScheme Bytes Bytes Bytes Panic where
  restore proof _ := .ok proof
  embedCommit self msg :=
    let proof := self
    if self.length + msg.length ≤ 65535 then (self ++ msg, .ok proof) else (self, .error .expect)
  containerEq a b := decide (a = b)
  proofEq a b := decide (a = b)

/-- The convolve-commit scheme of the tests, `DummyVec` with 32-byte arrays,
`/repo/commit_verify/src/embed.rs:347-373`. -/
def dummyConvolve [Env] : ConvolveScheme Bytes Bytes Bytes32 Bytes32 Bytes32 Panic where
  restoreOriginal _ _ := []
  extractSupplement proof := proof
  convolveCommit _ supplement msg := do
    let engine : Hasher := []
    let engine := engine.inputRaw supplement.bytes
    let engine ← Hasher.inputWithLen 0xFFFFFFFF engine msg
    .ok (engine.finish, supplement)
  commitmentEq a b := decide (a = b)
  proofEq a b := decide (a = b)

end CSV
