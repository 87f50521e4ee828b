import Verif.Model.Schemes

/-!
# C43, C44, C45: generic commitment schemes
-/

namespace CSV

/-- **C43** `CommitVerify::verify` accepts exactly the commitment of the message, and otherwise
reports `InvalidCommitment`. -/
theorem C43_commit_verify {Msg C : Type} [DecidableEq C] (commit : Msg → C) (c : C) (msg : Msg) :
    (commitVerify commit c msg = .ok () ↔ c = commit msg) ∧
    (commitVerify commit c msg = .error .invalidCommitment ↔ c ≠ commit msg) ∧
    commitVerify commit c msg ≠ .error .invalidMessage := by
  unfold commitVerify
  by_cases h : commit msg = c
  · subst h; simp
  · simp [h, Ne.symm h]

example : commitVerify (fun n : Nat => n + 1) 4 3 = .ok () ∧
    commitVerify (fun n : Nat => n + 1) 5 3 = .error .invalidCommitment := ⟨rfl, rfl⟩

/-- **C43** `TryCommitVerify::verify` accepts exactly if committing succeeds with this commitment,
reports `InvalidMessage` exactly if committing fails, `InvalidCommitment` exactly if it gives
another commitment, and panics exactly if committing does. -/
theorem C43_try_commit_verify {Msg C E : Type} [DecidableEq C]
    (tryCommit : Msg → Exec (Except E C)) (c : C) (msg : Msg) :
    (tryCommitVerify tryCommit c msg = .ok (.ok ()) ↔ tryCommit msg = .ok (.ok c)) ∧
    (tryCommitVerify tryCommit c msg = .ok (.error .invalidMessage) ↔
      ∃ e, tryCommit msg = .ok (.error e)) ∧
    (tryCommitVerify tryCommit c msg = .ok (.error .invalidCommitment) ↔
      ∃ c', tryCommit msg = .ok (.ok c') ∧ c' ≠ c) ∧
    (∀ p, tryCommitVerify tryCommit c msg = .error p ↔ tryCommit msg = .error p) := by
  unfold tryCommitVerify
  cases h : tryCommit msg with
  | error p => simp [bind, Except.bind]
  | ok r =>
    cases r with
    | error e => simp [bind, Except.bind]
    | ok c' => by_cases hc : c' = c <;> simp [bind, Except.bind, hc]

/-- A committer that fails on zero: all three outcomes occur. -/
example : let tc : Nat → Exec (Except Unit Nat) :=
      fun n => .ok (if n = 0 then .error () else .ok (n * n))
    tryCommitVerify tc 9 3 = .ok (.ok ()) ∧
    tryCommitVerify tc 9 0 = .ok (.error .invalidMessage) ∧
    tryCommitVerify tc 9 4 = .ok (.error .invalidCommitment) := ⟨rfl, rfl, rfl⟩

section Embed
variable {Msg Container Proof E : Type} (s : EmbedScheme Msg Container Proof E)

/-- **C44** `EmbedCommitVerify::verify` accepts exactly if the proof restores an original container,
and embedding the message into it succeeds and reproduces both the proof and the container. -/
theorem C44_embed_verify_ok (c : Container) (msg : Msg) (proof : Proof) :
    s.verify c msg proof = .ok () ↔
      ∃ orig c' proof', s.restore proof c = .ok orig ∧
        s.embedCommit orig msg = (c', .ok proof') ∧
        s.proofEq proof' proof = true ∧ s.containerEq c c' = true := by
  unfold EmbedScheme.verify
  grind

/-- **C44** Every error is returned exactly in its case: an error restoring the container is passed
on; `InvalidMessage` if embedding fails; `InvalidProof` if re-embedding gives another proof;
`CommitmentMismatch` if it gives another container. -/
theorem C44_embed_verify_errors (c : Container) (msg : Msg) (proof : Proof)
    (err : EmbedVerifyError E) :
    s.verify c msg proof = .error err ↔
      s.restore proof c = .error err ∨
      (∃ orig c' e, s.restore proof c = .ok orig ∧ s.embedCommit orig msg = (c', .error e) ∧
        err = .invalidMessage e) ∨
      (∃ orig c' proof', s.restore proof c = .ok orig ∧ s.embedCommit orig msg = (c', .ok proof') ∧
        s.proofEq proof' proof = false ∧ err = .invalidProof) ∨
      (∃ orig c' proof', s.restore proof c = .ok orig ∧ s.embedCommit orig msg = (c', .ok proof') ∧
        s.proofEq proof' proof = true ∧ s.containerEq c c' = false ∧
        err = .commitmentMismatch) := by
  unfold EmbedScheme.verify
  grind

/-- **C44** `ProofMismatch` is never produced by verification itself: it can only come from the
user's `restore_original_container`. -/
theorem C44_proof_mismatch_never (c : Container) (msg : Msg) (proof : Proof)
    (h : s.verify c msg proof = .error .proofMismatch) :
    s.restore proof c = .error .proofMismatch := by
  rcases (C44_embed_verify_errors s c msg proof _).1 h with h | ⟨_, _, _, _, _, h⟩ |
    ⟨_, _, _, _, _, _, h⟩ | ⟨_, _, _, _, _, _, _, h⟩
  · exact h
  all_goals cases h

/-- **C44** Completeness: whatever `embed_commit` produced verifies, if its proof restores the
original container and comparison is reflexive. -/
theorem C44_embed_complete (orig c : Container) (msg : Msg) (proof : Proof)
    (hcommit : s.embedCommit orig msg = (c, .ok proof))
    (hrestore : s.restore proof c = .ok orig)
    (hp : ∀ p, s.proofEq p p = true) (hc : ∀ c, s.containerEq c c = true) :
    s.verify c msg proof = .ok () :=
  (C44_embed_verify_ok s c msg proof).2 ⟨orig, c, proof, hrestore, hcommit, hp _, hc _⟩

/-- **C44** Soundness: with comparison by equality, an accepted triple is one that `embed_commit`
produces from the container that the proof restores. -/
theorem C44_embed_sound (c : Container) (msg : Msg) (proof : Proof)
    (hp : ∀ p q, s.proofEq p q = true → p = q) (hc : ∀ c d, s.containerEq c d = true → c = d)
    (h : s.verify c msg proof = .ok ()) :
    ∃ orig, s.restore proof c = .ok orig ∧ s.embedCommit orig msg = (c, .ok proof) := by
  obtain ⟨orig, c', p', h1, h2, h3, h4⟩ := (C44_embed_verify_ok s c msg proof).1 h
  exact ⟨orig, h1, by rw [h2, hp _ _ h3, ← hc _ _ h4]⟩

end Embed

/-- A scheme that appends the message to the container and keeps the old length as proof. -/
private def appendScheme : EmbedScheme (List Nat) (List Nat) Nat Unit where
  restore p c := if p ≤ c.length then .ok (c.take p) else .error .proofMismatch
  embedCommit c m := if m = [] then (c, .error ()) else (c ++ m, .ok c.length)
  containerEq := fun a b => decide (a = b)
  proofEq := fun a b => decide (a = b)

/-- All outcomes occur, and the hypotheses of completeness are met. -/
example : appendScheme.embedCommit [1, 2] [3] = ([1, 2, 3], .ok 2) ∧
    appendScheme.restore 2 [1, 2, 3] = .ok [1, 2] ∧
    (∀ p, appendScheme.proofEq p p = true) ∧ (∀ c, appendScheme.containerEq c c = true) ∧
    appendScheme.verify [1, 2, 3] [3] 2 = .ok () ∧
    appendScheme.verify [1, 2, 3] [] 2 = .error (.invalidMessage ()) ∧
    appendScheme.verify [1, 2, 3] [4] 2 = .error .commitmentMismatch ∧
    appendScheme.verify [1, 2, 3] [3] 7 = .error .proofMismatch := by
  refine ⟨rfl, rfl, fun _ => decide_eq_true rfl, fun _ => decide_eq_true rfl, rfl, rfl, rfl, rfl⟩

section Convolve
variable {Msg Source Suppl Commitment Proof E : Type}
  (s : ConvolveScheme Msg Source Suppl Commitment Proof E)

/-- **C45** `ConvolveCommitProof::verify` accepts exactly if convolving the restored original with
the supplement and the message succeeds and reproduces the proof and the commitment. -/
theorem C45_convolve_verify_ok (proof : Proof) (msg : Msg) (c : Commitment) :
    s.verify proof msg c = .ok () ↔
      ∃ c' proof', s.convolveCommit (s.restoreOriginal proof c) (s.extractSupplement proof) msg
          = .ok (c', proof') ∧
        s.proofEq proof proof' = true ∧ s.commitmentEq c c' = true := by
  unfold ConvolveScheme.verify
  grind

/-- **C45** Every error is returned exactly in its case. -/
theorem C45_convolve_verify_errors (proof : Proof) (msg : Msg) (c : Commitment) :
    let r := s.convolveCommit (s.restoreOriginal proof c) (s.extractSupplement proof) msg
    (s.verify proof msg c = .error .impossibleMessage ↔ ∃ e, r = .error e) ∧
    (s.verify proof msg c = .error .invalidProof ↔
      ∃ c' proof', r = .ok (c', proof') ∧ s.proofEq proof proof' = false) ∧
    (s.verify proof msg c = .error .commitmentMismatch ↔
      ∃ c' proof', r = .ok (c', proof') ∧ s.proofEq proof proof' = true ∧
        s.commitmentEq c c' = false) := by
  unfold ConvolveScheme.verify
  grind

/-- **C45** Completeness: the result of `convolve_commit` verifies if the proof restores the source
and keeps the supplement. -/
theorem C45_convolve_complete (src : Source) (suppl : Suppl) (msg : Msg) (c : Commitment)
    (proof : Proof) (hcommit : s.convolveCommit src suppl msg = .ok (c, proof))
    (hsrc : s.restoreOriginal proof c = src) (hsup : s.extractSupplement proof = suppl)
    (hp : ∀ p, s.proofEq p p = true) (hc : ∀ c, s.commitmentEq c c = true) :
    s.verify proof msg c = .ok () :=
  (C45_convolve_verify_ok s proof msg c).2 ⟨c, proof, by rw [hsrc, hsup, hcommit], hp _, hc _⟩

/-- **C45** Soundness: with comparison by equality an accepted proof and commitment are what
`convolve_commit` gives for the restored source. -/
theorem C45_convolve_sound (proof : Proof) (msg : Msg) (c : Commitment)
    (hp : ∀ p q, s.proofEq p q = true → p = q) (hc : ∀ c d, s.commitmentEq c d = true → c = d)
    (h : s.verify proof msg c = .ok ()) :
    s.convolveCommit (s.restoreOriginal proof c) (s.extractSupplement proof) msg
      = .ok (c, proof) := by
  obtain ⟨c', p', h1, h2, h3⟩ := (C45_convolve_verify_ok s proof msg c).1 h
  rw [h1, hp _ _ h2, hc _ _ h3]

end Convolve

/-- Commitment is source + supplement · message (message non-zero), the proof keeps source and
supplement. -/
private def tweakScheme : ConvolveScheme Nat Nat Nat Nat (Nat × Nat) Unit where
  restoreOriginal p _ := p.1
  extractSupplement p := p.2
  convolveCommit src sup m := if m = 0 then .error () else .ok (src + sup * m, (src, sup))
  commitmentEq := fun a b => decide (a = b)
  proofEq := fun a b => decide (a = b)

example : tweakScheme.convolveCommit 5 2 3 = .ok (11, (5, 2)) ∧
    tweakScheme.verify (5, 2) 3 11 = .ok () ∧
    tweakScheme.verify (5, 2) 0 11 = .error .impossibleMessage ∧
    tweakScheme.verify (5, 2) 4 11 = .error .commitmentMismatch := ⟨rfl, rfl, rfl, rfl⟩

end CSV
