import Verif.Props.Source
import Verif.Props.Wire
import Verif.Props.Size

/-!
# C71: one byte string per proven message
-/

namespace CSV

/-- A verifier that received the bytes of a proof, a protocol, a message and a commitment accepts: the bytes
are the serialization of a proof, and the proof verifies. -/
def Accepts [Env] (bytes : Bytes) (p : ProtocolId) (m : Message) (c : Commitment) : Prop :=
  ∃ pr, deserialize decMerkleProof bytes = some pr ∧ pr.convolve p m = .ok (.ok c)

private theorem deserialize_proof {bs : Bytes} {pr : MerkleProof} (h : deserialize decMerkleProof bs = some pr) :
    pr.Confined ∧ bs = pr.enc := by
  unfold deserialize at h
  split at h
  · rename_i a h1
    cases h
    have := (C39_canonical _ _).2.2.2.2.2.2.2 _ h1
    rw [List.append_nil] at this
    exact this
  · cases h

/-- The strings hashed by a verifier of the bytes. -/
def acceptInputs [Env] (bytes : Bytes) (p : ProtocolId) (m : Message) : List Bytes :=
  match deserialize decMerkleProof bytes with
  | some pr => proofInputs pr p m
  | none => []

/-- **C71** For one commitment and one protocol there is at most one byte string with which a message can
be proven, and at most one such message - unless two different strings hashed in the two verifications have
one hash. -/
theorem C71_at_most_one [Env] (bs bs' : Bytes) (p : ProtocolId) (m m' : Message) (c : Commitment)
    (h : Accepts bs p m c) (h' : Accepts bs' p m' c)
    (hn : NoCollision (acceptInputs bs p m ++ acceptInputs bs' p m')) : bs = bs' ∧ m = m' := by
  obtain ⟨pr, h1, h2⟩ := h
  obtain ⟨pr', h1', h2'⟩ := h'
  rw [acceptInputs, acceptInputs, h1, h1'] at hn
  obtain ⟨c1, e1⟩ := deserialize_proof h1
  obtain ⟨c2, e2⟩ := deserialize_proof h1'
  obtain ⟨hm, rfl⟩ := C18_binding pr pr' p m m' c c1 c2 hn h2 h2'
  exact ⟨e1.trans e2.symm, hm⟩

/-- **C71** From the source: every committed message has exactly one byte string that proves it, of
`8 + 32 · depth` bytes. It is what every holder of a block of the source that still shows the message extracts
and sends, whatever was done to the block before. No other bytes, and no other message for the protocol, are
accepted, and nothing is accepted for a protocol which is not in the source - unless two different strings
hashed by the committer and the verifier have one hash. -/
theorem C71_source [Env] (rng : Option UInt64) (s : MultiSource) (T : MerkleTree) (c : Commitment)
    (h : MerkleTree.tryCommit rng s = .ok (.ok T)) (hc : T.commitId = .ok c) :
    (∀ p m, s.messages.get p = some m → ∃ bs, Accepts bs p m c ∧ bs.length = 8 + 32 * T.depth.val ∧
      (∀ bs' m', Accepts bs' p m' c → NoCollision (acceptInputs bs' p m' ++ T.inputs) →
        bs' = bs ∧ m' = m) ∧
      ∀ (ops : List BlockOp) (b b' : MerkleBlock), (∀ op ∈ ops, op.Admissible T) →
        MerkleBlock.fromTree T = .ok b → b.run ops = .ok b' → p ∈ b'.knownProtocolIds →
        ∃ pr, b'.toMerkleProof p = .ok (.ok pr) ∧ pr.enc = bs) ∧
    (∀ p, s.messages.get p = none → ∀ bs m, Accepts bs p m c →
      ¬ NoCollision (acceptInputs bs p m ++ T.inputs)) := by
  obtain ⟨hT, hm, b, hb, hof⟩ := C16_committed_trees rng s T h
  have only : ∀ bs p m, Accepts bs p m c → NoCollision (acceptInputs bs p m ++ T.inputs) →
      T.messages.get p = some m ∧ ∃ pr, b.toMerkleProof p = .ok (.ok pr) ∧ bs = pr.enc := by
    rintro bs p m ⟨pr, h1, h2⟩ hn
    rw [acceptInputs, h1] at hn
    obtain ⟨c1, e1⟩ := deserialize_proof h1
    obtain ⟨g1, b', g2, g3⟩ := C21_only_committed T hT pr c1 p m c hn hc h2
    rw [hb] at g2
    cases g2
    exact ⟨g1, pr, g3, e1⟩
  rw [← hm]
  constructor
  · intro p m hp
    have hk : p ∈ b.knownProtocolIds := by
      rw [fromTree_eq] at hb
      cases hb
      rw [knownIds_map, shows_known (fromTree_shows T), List.mem_map]
      exact ⟨(p, m), (holds_known hT).2 (bmapGet_mem hp), rfl⟩
    obtain ⟨pr, m', c', g1, -, g2, g3, g4, -, -, -⟩ := C16_complete T hT b hof p hk
    rw [hp] at g1
    cases g1
    rw [hc] at g3
    cases g3
    refine ⟨pr.enc, ⟨pr, ?_, g4⟩, C66_proof_bytes T hT b hof p pr g2, fun bs' m' ha hn => ?_,
      fun ops b1 b' hops hb1 hrun hp' => ?_⟩
    · exact (C61_survives b b [] (Or.inl ⟨T, hb⟩) rfl).2 p pr g2
    · obtain ⟨k1, pr', k2, k3⟩ := only bs' p m' ha hn
      rw [g2] at k2
      cases k2
      rw [hp] at k1
      cases k1
      exact ⟨k3, rfl⟩
    · rw [hb] at hb1
      cases hb1
      obtain ⟨b2, full, r1, r2, r3⟩ := C55_proofs_after_histories T hT b hof ops hops
      rw [hrun] at r1
      cases r1
      rw [hb] at r2
      cases r2
      obtain ⟨pr', a1, a2⟩ := r3 p hp'
      rw [g2] at a2
      cases a2
      exact ⟨pr, a1, rfl⟩
  · intro p hp bs m ha hn
    have := (only bs p m ha hn).1
    rw [hp] at this
    cases this

private theorem proof1_read [Env] : deserialize decMerkleProof Sample.proof1.enc = some Sample.proof1 := by
  have := (C38_round_trip []).2.2.2.2.2.2.2 Sample.proof1 (by show 2 ≤ 32; decide)
  rw [List.append_nil] at this
  rw [deserialize, this]

private theorem proof1_inputs [Env] : acceptInputs Sample.proof1.enc Sample.p1 Sample.m1 =
    proofInputs Sample.proof1 Sample.p1 Sample.m1 := by
  rw [acceptInputs, proof1_read]

theorem Sample.proof1_convolve [Env] :
    Sample.proof1.convolve Sample.p1 Sample.m1 = .ok (.ok Sample.tree.specCommitment) := by
  obtain ⟨pr, m, c, h1, -, h2, h3, h4, -⟩ := C16_complete Sample.tree Sample.holds Sample.block
    Sample.view_block Sample.p1 (by show Sample.p1 ∈ [Sample.p6, Sample.p1, Sample.p5]; decide)
  rw [tree_commitId] at h3
  cases h3
  have h1' : Sample.tree.messages.get Sample.p1 = some Sample.m1 := by decide
  rw [h1'] at h1
  cases h1
  have : Sample.block.toMerkleProof Sample.p1 = .ok (.ok Sample.proof1) := by
    have hpl := ofTree_placed Sample.holds rfl rfl Sample.shows_tree view_refl
    rw [toMerkleProof_eq hpl (p := Sample.p1) (m := Sample.m1) (by
      show (Sample.p1, Sample.m1) ∈ [(Sample.p6, Sample.m6), (Sample.p1, Sample.m1), (Sample.p5, Sample.m5)]
      decide)]
    rfl
  rw [this] at h2
  cases h2
  exact h4

private theorem proof1_accepted [Env] :
    Accepts Sample.proof1.enc Sample.p1 Sample.m1 Sample.tree.specCommitment :=
  ⟨Sample.proof1, proof1_read, Sample.proof1_convolve⟩

/-- Non-vacuity of C71: the bytes of a proof of the sample are accepted, and with real SHA256 no strings
hashed by the committer and the verifier collide. -/
example : (∀ _ : Env, MerkleTree.tryCommit none Sample.source = .ok (.ok Sample.tree) ∧
      Accepts Sample.proof1.enc Sample.p1 Sample.m1 Sample.tree.specCommitment) ∧
    Sample.source.messages.get Sample.p1 = some Sample.m1 ∧ Sample.source.messages.get Sample.p9 = none ∧
    @NoCollision (realEnv true) (@acceptInputs (realEnv true) (@Sample.proof1 (realEnv true)).enc Sample.p1
      Sample.m1 ++ @MerkleTree.inputs (realEnv true) Sample.tree) := by
  refine ⟨fun _ => ⟨Sample.commits, proof1_accepted⟩, by decide, by decide, ?_⟩
  rw [@proof1_inputs (realEnv true)]
  decide +kernel

end CSV
