import Verif.Props.Merge
import Verif.Props.Conceal

/-!
# What blocks can reveal, and histories of operations (C30, C55)
-/

namespace CSV

/-! ## C30 -/

/-- A block whose cross-section is a root hash followed by a superfluous leaf. -/
private def forged [Env] (p : ProtocolId) (m : Message) : MerkleBlock :=
  ⟨.sha256t, 2, 1, [.concealed 0 Sample.tree.specRoot, .leaf p m], none⟩

/-- **C30 is false of the code**. In release builds there is a block with the commitment of a tree
that reveals a message for a protocol of which the tree has no message; and (in both
profiles) there is a structurally valid block with a commitment that reveals two messages for one
protocol. -/
theorem C30_false :
    (∃ (T : MerkleTree) (b : MerkleBlock) (p : ProtocolId) (m : Message) (c : Commitment), T.Holds ∧
      @MerkleTree.commitId (realEnv false) T = .ok c ∧ @MerkleBlock.commitId (realEnv false) b = .ok c ∧
      (p, m) ∈ b.knownMessages ∧ T.messages.get p = none) ∧
    (∃ (b : MerkleBlock) (p : ProtocolId) (m1 m2 : Message), m1 ≠ m2 ∧ b.Valid ∧
      (∀ _ : Env, ∃ c, b.commitId = .ok c) ∧ (p, m1) ∈ b.knownMessages ∧ (p, m2) ∈ b.knownMessages) := by
  constructor
  · refine ⟨Sample.tree, @forged (realEnv false) Sample.p9 Sample.m1, Sample.p9, Sample.m1,
      @MerkleTree.specCommitment (realEnv false) Sample.tree, Sample.holds,
      @tree_commitId (realEnv false) _, rfl, List.mem_singleton.2 rfl, by decide⟩
  · have hs : MerkleBlock.Shows ⟨.sha256t, 1, 0, [.leaf Sample.p1 Sample.m1, .leaf Sample.p1 Sample.m5], none⟩
      (.node (.leaf Sample.p1 Sample.m1) (.leaf Sample.p1 Sample.m5)) := ⟨rfl, rfl, rfl⟩
    refine ⟨_, Sample.p1, Sample.m1, Sample.m5, by decide, ⟨_, hs⟩, fun _ => ⟨_, shows_commitId hs⟩,
      by decide, by decide⟩

/-- **C30**, the part that holds: a block showing a view of a committed tree - which is what all
histories of operations lead to, see C55 - reveals only committed messages, each protocol once.
Missing: blocks that come from elsewhere, of which nothing is checked on decoding; see C30_exact for them. -/
theorem C30_partial [Env] (T : MerkleTree) (hT : T.Holds) (b : MerkleBlock) (hb : b.OfTree T) :
    (∀ p m, (p, m) ∈ b.knownMessages → T.messages.get p = some m) ∧
    b.knownProtocolIds.Nodup := by
  obtain ⟨hm, hd, hc, t, hs, hv⟩ := hb
  have hpl := ofTree_placed hT hd hc hs hv
  constructor
  · intro p m h
    rw [shows_known hs] at h
    exact mem_bmapGet T.messages.sorted ((holds_known hT).1 (view_known hv h))
  · rw [knownIds_map, shows_known hs, ← slots_known (n := b.depth.val) (lo := 0), List.map_map]
    have hp := (slots_range (Nat.le_refl _) hs.2 (Nat.zero_add b.depth.val) (lo := 0)).2
    rw [List.Nodup, List.pairwise_map]
    refine List.Pairwise.imp_of_mem ?_ hp
    rintro ⟨i, p, m⟩ ⟨j, q, n⟩ h1 h2 hlt heq
    have e1 := hpl.2 _ _ _ h1
    have e2 := hpl.2 _ _ _ h2
    dsimp only [Function.comp] at hlt heq
    subst heq
    omega

/-- **C30** A structurally valid block with the commitment of a committed tree reveals only messages
of the tree, unless two different strings hashed for the two have one hash. So what is not checked
on decoding is checked by comparing commitments, for structurally valid blocks. -/
theorem C30_valid_blocks [Env] (T : MerkleTree) (hT : T.Holds) (b : MerkleBlock) (t : PT) (hs : b.Shows t)
    (c : Commitment) (hc : T.commitId = .ok c) (hc' : b.commitId = .ok c)
    (hn : NoCollision (blockInputs b.depth b.cofactor t ++ T.inputs)) :
    (∀ p m, (p, m) ∈ b.knownMessages → T.messages.get p = some m) ∧
    b.knownProtocolIds.Nodup := by
  rw [tree_commitId] at hc
  cases hc
  exact C30_partial T hT b (ofTree_of_commitment hs hn hc')

/-- **C30** In debug builds every block with a commitment either is structurally valid or has hidden
nodes one level below its leaves (C29), so the claim holds of blocks whose hidden nodes
are within the depth; here for the blocks with leaves at their own slots: one commitment, one
message per protocol. -/
theorem C30_placed_blocks [Env] (b1 b2 : MerkleBlock) (t1 t2 : PT) (h1 : b1.Placed t1) (h2 : b2.Placed t2)
    (c : Commitment) (hc1 : b1.commitId = .ok c) (hc2 : b2.commitId = .ok c)
    (hn : NoCollision (blockInputs b1.depth b1.cofactor t1 ++ blockInputs b2.depth b2.cofactor t2))
    (p : ProtocolId) (m1 m2 : Message) (k1 : (p, m1) ∈ b1.knownMessages)
    (k2 : (p, m2) ∈ b2.knownMessages) : m1 = m2 := by
  rw [shows_commitId h1.1] at hc1
  rw [shows_commitId h2.1] at hc2
  obtain ⟨hd, hco, hcomp⟩ := PT.Compat.ofRoot h1.1 hn
    ((Except.ok.inj hc1).trans (Except.ok.inj hc2).symm)
  obtain ⟨-, hs⟩ := mergeReveal_compat h1.1 h2.1 hd hco hcomp
  rw [shows_known h1.1] at k1
  rw [shows_known h2.1] at k2
  have hpl : MerkleBlock.Placed { b1 with crossSection := (t1.join t2).frontier 0 } (t1.join t2) := by
    refine ⟨hs, fun i q m hi => ?_⟩
    dsimp only at hi ⊢
    rcases (join_slots hcomp).1 hi with hi | hi
    · exact h1.2 _ _ _ hi
    · rw [hd] at hi
      rw [hd, hco]
      exact h2.2 _ _ _ hi
  exact placed_unique hpl ((join_known hcomp _).2 (Or.inl k1)) ((join_known hcomp _).2 (Or.inr k2))

/-- Non-vacuity of C30: the sample block. -/
example [Env] : Sample.tree.Holds ∧ Sample.block.OfTree Sample.tree ∧
    (Sample.p1, Sample.m1) ∈ Sample.block.knownMessages :=
  ⟨Sample.holds, Sample.view_block, by
    show (Sample.p1, Sample.m1) ∈ [(Sample.p6, Sample.m6), (Sample.p1, Sample.m1),
      (Sample.p5, Sample.m5)]
    decide⟩

example : @NoCollision (realEnv true)
    (@blockInputs (realEnv true) 2 1 (@Sample.pt1 (realEnv true)) ++
      @MerkleTree.inputs (realEnv true) Sample.tree) := by decide +kernel

/-! ## C55 -/

/-- **C55** The histories start with the block of a committed tree, or with the block of a proof
that verifies to the commitment of the tree (no collisions). -/
theorem C55_starts [Env] (T : MerkleTree) (hT : T.Holds) :
    (∃ b, MerkleBlock.fromTree T = .ok b ∧ b.OfTree T) ∧
    ∀ (pr : MerkleProof) (p : ProtocolId) (m : Message) (c : Commitment), pr.path.length ≤ 32 →
      T.commitId = .ok c → pr.convolve p m = .ok (.ok c) →
      NoCollision (proofInputs pr p m ++ T.inputs) →
      ∃ b, MerkleBlock.with pr p m = .ok (.ok b) ∧ b.OfTree T ∧ b.knownMessages = [(p, m)] ∧
        T.messages.get p = some m := by
  refine ⟨⟨_, fromTree_eq T, rfl, rfl, rfl, _, fromTree_shows T, view_refl⟩, ?_⟩
  intro pr p m c hl hc hv hn
  rw [tree_commitId] at hc
  cases hc
  obtain ⟨hlt, hpos, hcc⟩ := convolve_ok hl hv
  have hs := with_shows pr p m hlt
  have hc2 := shows_commitId hs
  simp only [widthLimit, toU5_val hlt] at hc2
  rw [← hcc] at hc2
  refine ⟨_, by rw [with_eq pr p m hlt, if_neg (by simpa using hpos)],
    ofTree_of_commitment hs hn hc2, ?_, ?_⟩
  · rw [shows_known hs, path_known]
  · exact (C21_only_committed T hT pr hl p m _ hn (tree_commitId T) hv).1

/-- **C55** Any history of operations - with arbitrary id lists, structurally valid blocks and proofs
as arguments, successful or not - runs without panic, and the block is still a view of the
tree: it has its commitment, method, depth and cofactor, and reveals only messages of the source, each
at its slot. What it reveals is what the operations are meant to reveal. -/
theorem C55_histories [Env] (T : MerkleTree) (hT : T.Holds) (b : MerkleBlock) (hb : b.OfTree T)
    (ops : List BlockOp) (ha : ∀ op ∈ ops, op.Admissible T) :
    ∃ b' c, b.run ops = .ok b' ∧ b'.OfTree T ∧ T.commitId = .ok c ∧ b'.commitId = .ok c ∧
      b'.method = T.method ∧ b'.depth = T.depth ∧ b'.cofactor = T.cofactor ∧
      (∃ t, b'.Placed t) ∧
      (∀ p m, (p, m) ∈ b'.knownMessages → T.messages.get p = some m) ∧
      b'.knownProtocolIds.Nodup ∧
      (∀ e, e ∈ b'.knownMessages ↔ effects c (· ∈ b.knownMessages) ops e) := by
  obtain ⟨b', h1, h2, h3⟩ := run_ofTree ops hb ha
  obtain ⟨g1, g2⟩ := C30_partial T hT b' h2
  have h2' := h2
  obtain ⟨hm, hd, hc, t, hs, hv⟩ := h2'
  exact ⟨b', _, h1, h2, tree_commitId T, ofTree_commitId h2, hm, hd, hc,
    ⟨t, ofTree_placed hT hd hc hs hv⟩, g1, g2, h3⟩

/-- **C55** After any history the proofs extracted from the block are those of the tree. -/
theorem C55_proofs_after_histories [Env] (T : MerkleTree) (hT : T.Holds) (b : MerkleBlock)
    (hb : b.OfTree T) (ops : List BlockOp) (ha : ∀ op ∈ ops, op.Admissible T) :
    ∃ b' full, b.run ops = .ok b' ∧ MerkleBlock.fromTree T = .ok full ∧
      ∀ p ∈ b'.knownProtocolIds, ∃ pr, b'.toMerkleProof p = .ok (.ok pr) ∧
        full.toMerkleProof p = .ok (.ok pr) := by
  obtain ⟨b', h1, h2, -⟩ := run_ofTree ops hb ha
  have hfull : MerkleBlock.OfTree ⟨T.method, T.depth, T.cofactor, T.pt.frontier 0, some T.entropy⟩ T :=
    ⟨rfl, rfl, rfl, _, fromTree_shows T, view_refl⟩
  refine ⟨b', _, h1, fromTree_eq T, fun p hp => ?_⟩
  refine C17_same_proof T hT b' _ h2 hfull p hp ?_
  obtain ⟨hm, hd, hc, t, hs, hv⟩ := h2
  rw [knownIds_map, shows_known hs, List.mem_map] at hp
  obtain ⟨⟨q, m⟩, h, rfl⟩ := hp
  rw [knownIds_map, shows_known (fromTree_shows T), List.mem_map]
  exact ⟨_, view_known hv h, rfl⟩

/-- Non-vacuity of C55: a history that conceals, fails, merges a proof back and merges an unrelated
block; all hypotheses hold with real SHA256. -/
example : ∀ op ∈ [BlockOp.concealOther Sample.p5, .concealExcept [Sample.p9],
      .mergeRevealPath (@Sample.proof1 (realEnv true)) Sample.p1 Sample.m1,
      .mergeReveal ⟨.sha256t, 0, 0, [.leaf Sample.p1 Sample.m1], none⟩,
      .mergeReveal (@Sample.block (realEnv true))],
    @BlockOp.Admissible (realEnv true) Sample.tree op :=
  List.forall_mem_cons.2 ⟨trivial, List.forall_mem_cons.2 ⟨trivial,
    List.forall_mem_cons.2 ⟨⟨by decide, by decide +kernel⟩,
    List.forall_mem_cons.2 ⟨Or.inr ⟨.leaf Sample.p1 Sample.m1, ⟨rfl, rfl⟩, by decide +kernel⟩,
    List.forall_mem_cons.2 ⟨Or.inl (@Sample.view_block (realEnv true)),
    fun _ h => (nomatch h)⟩⟩⟩⟩⟩

end CSV
