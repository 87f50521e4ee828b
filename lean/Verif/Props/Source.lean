import Verif.Props.Received
import Verif.Props.Codec

/-!
The properties of proofs and blocks stated from end to end: from the messages a committer passes to
`try_commit` to what a verifier accepts, without mentioning the tree in between except through the API.
-/

namespace CSV

/-- **C21** From the source to the verifier: the messages of the source are exactly those for which some
proof verifies against the commitment - unless two different strings hashed by the committer and the verifier
have the same hash. -/
theorem C21_source [Env] (rng : Option UInt64) (s : MultiSource) (T : MerkleTree) (c : Commitment)
    (h : MerkleTree.tryCommit rng s = .ok (.ok T)) (hc : T.commitId = .ok c) :
    (∀ p m, s.messages.get p = some m →
      ∃ pr : MerkleProof, pr.path.length ≤ 32 ∧ pr.convolve p m = .ok (.ok c)) ∧
    (∀ (pr : MerkleProof) p m, pr.path.length ≤ 32 → pr.convolve p m = .ok (.ok c) →
      NoCollision (proofInputs pr p m ++ T.inputs) → s.messages.get p = some m) := by
  obtain ⟨hT, hm, -⟩ := C16_committed_trees rng s T h
  rw [← hm]
  exact ⟨fun p m hp => C21_all_committed T hT p m c hc hp,
    fun pr p m hl hv hn => (C21_only_committed T hT pr hl p m c hn hc hv).1⟩

/-- **C55** From the source to the verifier: whatever is done to the block of a committed source, the block
keeps its commitment, shows only messages of the source, at most one per protocol, and the proof extracted for
every protocol it still shows verifies with the message of the source and with no other message (unless
two different strings hashed have one hash). -/
theorem C55_source [Env] (rng : Option UInt64) (s : MultiSource) (T : MerkleTree)
    (h : MerkleTree.tryCommit rng s = .ok (.ok T)) (ops : List BlockOp)
    (ha : ∀ op ∈ ops, op.Admissible T) :
    ∃ b b' c, MerkleBlock.fromTree T = .ok b ∧ b.run ops = .ok b' ∧ T.commitId = .ok c ∧
      b'.commitId = .ok c ∧ b'.method = s.method ∧
      (∀ p m, (p, m) ∈ b.knownMessages ↔ s.messages.get p = some m) ∧
      (∀ p m, (p, m) ∈ b'.knownMessages → s.messages.get p = some m) ∧
      b'.knownProtocolIds.Nodup ∧
      (∀ e, e ∈ b'.knownMessages ↔ effects c (· ∈ b.knownMessages) ops e) ∧
      ∀ p ∈ b'.knownProtocolIds, ∃ pr m, b'.toMerkleProof p = .ok (.ok pr) ∧
        s.messages.get p = some m ∧ pr.convolve p m = .ok (.ok c) ∧
        ∀ m', NoCollision (proofInputs pr p m' ++ T.inputs) → pr.convolve p m' = .ok (.ok c) → m' = m := by
  obtain ⟨hT, hm, b, hb, hof⟩ := C16_committed_trees rng s T h
  have hmeth := (C01_slots rng s T h).1
  obtain ⟨b', c, h1, h2, h3, h4, h5, -, -, -, h6, h7, h8⟩ := C55_histories T hT b hof ops ha
  rw [← hm, ← hmeth]
  refine ⟨b, b', c, hb, h1, h3, h4, h5, fun p m => ?_, h6, h7, h8, fun p hp => ?_⟩
  · rw [fromTree_eq] at hb
    cases hb
    rw [shows_known (fromTree_shows T), (holds_known hT)]
    exact ⟨fun hk => mem_bmapGet T.messages.sorted hk, fun hk => bmapGet_mem hk⟩
  · obtain ⟨pr, m, c', g1, -, g2, g3, g4, -, -, g5⟩ := C16_complete T hT b' h2 p hp
    rw [h3] at g3
    cases g3
    have hl : pr.path.length ≤ 32 := by have := T.depth.isLt; omega
    refine ⟨pr, m, g2, g1, g4, fun m' hn hv => ?_⟩
    have := (C21_only_committed T hT pr hl p m' c hn h3 hv).1
    rw [g1] at this
    exact (Option.some.inj this).symm

/-- **C64** From the source, in a debug build: whatever blocks and proofs are received, the block of a
committed source which takes them over keeps its commitment and shows only messages of the source. -/
theorem C64_source [Env] (hd : dbg = true) (rng : Option UInt64) (s : MultiSource) (T : MerkleTree)
    (h : MerkleTree.tryCommit rng s = .ok (.ok T)) (ops : List BlockOp)
    (ha : ∀ op ∈ ops, op.Receivable T) :
    ∃ b b' c, MerkleBlock.fromTree T = .ok b ∧ b.run ops = .ok b' ∧ T.commitId = .ok c ∧
      b'.commitId = .ok c ∧
      (∀ p m, (p, m) ∈ b'.knownMessages → s.messages.get p = some m) ∧
      b'.knownProtocolIds.Nodup ∧
      (∀ e, e ∈ b'.knownMessages ↔ effects c (· ∈ b.knownMessages) ops e) := by
  obtain ⟨hT, hm, b, hb, hof⟩ := C16_committed_trees rng s T h
  obtain ⟨b', c, h1, -, h3, h4, h5, h6, h7⟩ := C64_histories hd T hT b hof ops ha
  rw [← hm]
  exact ⟨b, b', c, hb, h1, h3, h4, h5, h6, h7⟩

/-- Non-vacuity of C55 and C64: a source that commits, and a received block, concealed otherwise than the
sample, with the hypotheses checked for real SHA256. -/
example : @MerkleTree.tryCommit none Sample.source = .ok (.ok Sample.tree) ∧
    @BlockOp.Receivable (realEnv true) Sample.tree (.mergeReveal (@Sample.block1 (realEnv true))) := by
  let _ : Env := realEnv true
  refine ⟨Sample.commits, ⟨_, ofTree_commitId Sample.view_block1⟩, fun t h hf => ?_⟩
  have : Sample.pt1.frontier 0 ++ [] = t.frontier 0 ++ [] := by
    rw [← h, Sample.shows_block1.1]
  have hs : Sample.pt1.Fits (min (Sample.block1.depth.val + 1) 31) Sample.block1.depth.val 0 := by decide
  obtain ⟨rfl, -⟩ := frontier_inj (by decide) (by decide) hs hf this
  show @NoCollision (realEnv true)
    (@blockInputs (realEnv true) 2 1 (@Sample.pt1 (realEnv true)) ++
      @MerkleTree.inputs (realEnv true) Sample.tree)
  decide +kernel

end CSV
