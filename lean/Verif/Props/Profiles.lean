import Verif.Props.Block

/-!
# Build profiles (C56)

`profile e true` is a build with debug assertions and overflow checks, `profile e false` one
without, both with the hash function of `e`.
-/

namespace CSV

/-! ## C56 -/

/-- **C56** `conceal_except`. -/
theorem C56_conceal_except (e : Env) (b : MerkleBlock) (hb : b.Valid) (ps : List ProtocolId) :
    @MerkleBlock.concealExcept (profile e true) b ps = @MerkleBlock.concealExcept (profile e false) b ps := by
  obtain ⟨t, ht⟩ := hb
  cases hm : missing b ps with
  | nil =>
    obtain ⟨n, h1, h2⟩ := @concealExcept_shows (profile e true) b t ht ps hm
    obtain ⟨k, h3, h4⟩ := @concealExcept_shows (profile e false) b t ht ps hm
    rw [h1, h3]
    simp only [hide_profile, canon_profile] at h2 h4 ⊢
    have : n = k := by omega
    rw [this]
  | cons p l =>
    rw [@concealExcept_err (profile e true) b t ht ps p l hm,
      @concealExcept_err (profile e false) b t ht ps p l hm]
    simp only [hide_profile]

/-- **C56** `conceal` and `commit_id` of blocks. -/
theorem C56_block_commitment (e : Env) (b : MerkleBlock) (hb : b.Valid) :
    @MerkleBlock.conceal (profile e true) b = @MerkleBlock.conceal (profile e false) b ∧
    @MerkleBlock.commitId (profile e true) b = @MerkleBlock.commitId (profile e false) b := by
  obtain ⟨t, ht⟩ := hb
  rw [@shows_conceal (profile e true) b t ht, @shows_conceal (profile e false) b t ht,
    @shows_commitId (profile e true) b t ht, @shows_commitId (profile e false) b t ht]
  simp only [root_profile]
  exact ⟨trivial, rfl⟩

/-- The proof of a protocol that a structurally valid block reveals once, wherever. -/
private theorem proof_once [Env] {b : MerkleBlock} {t : PT} (hb : b.Shows t) {p : ProtocolId}
    {m : Message} {i : Nat} (h : (i, (p, m)) ∈ t.slots b.depth.val 0)
    (hu : ∀ j m', (j, (p, m')) ∈ t.slots b.depth.val 0 → j = i) :
    b.toMerkleProof p = .ok (.ok ⟨b.method, b.protocolIdPos p, b.cofactor,
      t.siblings (2 ^ b.depth.val) 0 b.depth.val i⟩) := by
  obtain ⟨h1, h2⟩ := conceal_path (p := p) (m := m) (w := 2 ^ b.depth.val) (n := b.depth.val) (lo := 0)
    (pos := i) hb.2 (Nat.zero_add _) (by rw [Nat.zero_add]; exact h)
    (fun j m' hj => by rw [Nat.zero_add]; exact hu j m' hj)
  obtain ⟨n, e, _⟩ := concealExcept_shows hb (missing_one hb (slot_known h))
  have hD := b.depth.isLt
  have e' : b.concealExcept [p] = .ok ({ b with
      crossSection := (PT.path p m i (t.siblings (2 ^ b.depth.val) 0 b.depth.val i)).frontier 0
      entropy := none }, .ok n) := by
    rw [e, ← h1]
    rfl
  rw [MerkleBlock.toMerkleProof, MerkleBlock.concealOther, e']
  simp only [ok_bind, Except.map]
  rw [collectPath_path p m _ _ _ _ (by omega) (by simp), ok_bind]
  have hlen : (depthMap (0 + 1) (t.siblings (2 ^ b.depth.val) 0 b.depth.val i)).length
      = b.depth.val := by
    have := congrArg List.length (depthMap_snd (t.siblings (2 ^ b.depth.val) 0 b.depth.val i) (0 + 1))
    rw [List.length_map] at this
    omega
  rw [debugAssert_ok (by simp only [List.nil_append, hlen, decide_true]), ok_bind]
  simp only [List.nil_append, depthMap_snd]
  rw [if_pos (by omega)]
  rfl

/-- **C56** `to_merkle_proof`, of blocks that reveal the protocol at most once. -/
theorem C56_to_merkle_proof (e : Env) (b : MerkleBlock) (hb : b.Valid) (p : ProtocolId)
    (hp : (b.knownProtocolIds.filter (· = p)).length ≤ 1) :
    @MerkleBlock.toMerkleProof (profile e true) b p = @MerkleBlock.toMerkleProof (profile e false) b p := by
  obtain ⟨t, ht⟩ := hb
  by_cases hk : ∃ m, (p, m) ∈ t.known
  · obtain ⟨m, hk⟩ := hk
    obtain ⟨i, hi⟩ := known_slot hk b.depth.val 0
    have hu : ∀ j m', (j, (p, m')) ∈ t.slots b.depth.val 0 → j = i := by
      intro j m' hj
      rw [knownIds_map, shows_known ht, ← slots_known (n := b.depth.val) (lo := 0), List.map_map,
        List.filter_map, List.length_map] at hp
      have h1 : (i, (p, m)) ∈ (t.slots b.depth.val 0).filter ((fun x => decide (x = p)) ∘
          (Prod.fst ∘ Prod.snd)) := List.mem_filter.2 ⟨hi, by simp⟩
      have h2 : (j, (p, m')) ∈ (t.slots b.depth.val 0).filter ((fun x => decide (x = p)) ∘
          (Prod.fst ∘ Prod.snd)) := List.mem_filter.2 ⟨hj, by simp⟩
      obtain ⟨x, hx⟩ : ∃ x, (t.slots b.depth.val 0).filter ((fun x => decide (x = p)) ∘
          (Prod.fst ∘ Prod.snd)) = [x] := by
        rw [← List.length_eq_one_iff]
        have := List.length_pos_of_mem h1
        omega
      rw [hx, List.mem_singleton] at h1 h2
      rw [← h2] at h1
      exact (congrArg Prod.fst h1).symm
    rw [@proof_once (profile e true) b t ht p m i hi hu, @proof_once (profile e false) b t ht p m i hi hu]
    simp only [siblings_profile]
  · have hk' : ∀ m, (p, m) ∉ t.known := fun m h => hk ⟨m, h⟩
    rw [@toMerkleProof_err (profile e true) b t ht p hk', @toMerkleProof_err (profile e false) b t ht p hk']

/-- C56, why the restriction: for a structurally valid block that reveals a protocol twice the
debug assertion on the number of hashes fails, while a release build returns a proof (of no use). -/
theorem C56_protocol_twice (e : Env) : ∃ (b : MerkleBlock) (p : ProtocolId), b.Valid ∧
    (∃ x, @MerkleBlock.toMerkleProof (profile e true) b p = .error x) ∧
    (∃ pr, @MerkleBlock.toMerkleProof (profile e false) b p = .ok (.ok pr)) :=
  ⟨⟨.sha256t, 1, 0, [.leaf Sample.p1 Sample.m1, .leaf Sample.p1 Sample.m5], none⟩, Sample.p1,
    ⟨.node (.leaf Sample.p1 Sample.m1) (.leaf Sample.p1 Sample.m5), rfl, rfl, rfl⟩,
    ⟨_, rfl⟩, ⟨_, rfl⟩⟩

/-- **C56** Verification of proofs, of any length. -/
theorem C56_verification (e : Env) (pr : MerkleProof) (hl : pr.path.length ≤ 32) (p : ProtocolId)
    (m : Message) :
    @MerkleProof.convolve (profile e true) pr p m = @MerkleProof.convolve (profile e false) pr p m := by
  rcases Nat.lt_or_ge pr.path.length 32 with h | h
  · rw [@convolve_eq (profile e true) pr p m h, @convolve_eq (profile e false) pr p m h]
    simp only [root_profile]
    rfl
  · rw [@convolve_panic (profile e true) pr p m (by omega),
      @convolve_panic (profile e false) pr p m (by omega)]

private theorem merge_profiles (e : Env) {b1 b2 : MerkleBlock} {t1 t2 : PT} (h1 : b1.Shows t1)
    (h2 : b2.Shows t2) (hd : b1.depth = b2.depth) (hco : b1.cofactor = b2.cofactor)
    (hc : @PT.Compat e (2 ^ b1.depth.val) t1 t2 0) :
    @MerkleBlock.mergeReveal (profile e true) b1 b2 = @MerkleBlock.mergeReveal (profile e false) b1 b2 := by
  rw [(@mergeReveal_compat (profile e true) b1 b2 t1 t2 h1 h2 hd hco ((compat_profile e true _ _ _).2 hc)).1,
    (@mergeReveal_compat (profile e false) b1 b2 t1 t2 h1 h2 hd hco ((compat_profile e false _ _ _).2 hc)).1]

/-- **C56** `merge_reveal` (no collisions). -/
theorem C56_merge_reveal (e : Env) (b1 b2 : MerkleBlock) (t1 t2 : PT) (h1 : b1.Shows t1) (h2 : b2.Shows t2)
    (hn : @NoCollision e (@blockInputs e b1.depth b1.cofactor t1 ++
      @blockInputs e b2.depth b2.cofactor t2)) :
    @MerkleBlock.mergeReveal (profile e true) b1 b2 = @MerkleBlock.mergeReveal (profile e false) b1 b2 := by
  have hc1 := fun x => @shows_commitId (profile e x) b1 t1 h1
  have hc2 := fun x => @shows_commitId (profile e x) b2 t2 h2
  simp only [root_profile] at hc1 hc2
  by_cases hc : @commitmentHash e ⟨b1.depth, b1.cofactor, @PT.root e (widthLimit b1.depth) t1 0⟩ =
      @commitmentHash e ⟨b2.depth, b2.cofactor, @PT.root e (widthLimit b2.depth) t2 0⟩
  · obtain ⟨hd, hco, hcomp⟩ := @PT.Compat.ofRoot e b1 b2 t1 t2 h1 hn hc
    exact merge_profiles e h1 h2 hd hco hcomp
  · rw [@mergeReveal_unrelated (profile e true) b1 b2 _ _ (hc1 true) (hc2 true) hc,
      @mergeReveal_unrelated (profile e false) b1 b2 _ _ (hc1 false) (hc2 false) hc]
    rfl

/-- **C56** `merge_reveal_path` (no collisions). -/
theorem C56_merge_reveal_path (e : Env) (b : MerkleBlock) (t : PT) (hb : b.Shows t) (pr : MerkleProof)
    (hl : pr.path.length ≤ 32) (p : ProtocolId) (m : Message)
    (hn : @NoCollision e (@blockInputs e b.depth b.cofactor t ++ @proofInputs e pr p m)) :
    @MerkleBlock.mergeRevealPath (profile e true) b pr p m =
      @MerkleBlock.mergeRevealPath (profile e false) b pr p m := by
  rcases Nat.lt_or_ge pr.path.length 32 with h | h
  · by_cases hp : protocolIdPos p pr.cofactor (toU5 pr.path.length) = pr.pos
    · have := C56_merge_reveal e b _ t _ hb (with_shows pr p m h) hn
      simp only [MerkleBlock.mergeRevealPath, with_eq pr p m h]
      rw [if_neg (by simpa using hp)]
      exact this
    · simp only [MerkleBlock.mergeRevealPath, with_eq pr p m h]
      rw [if_pos (by simpa using hp)]
      rfl
  · simp only [MerkleBlock.mergeRevealPath, with_panic pr p m (by omega : pr.path.length = 32)]
    rfl

/-- **C56** Trees: the block, the root, the concealed form and the commitment. -/
theorem C56_trees (e : Env) (T : MerkleTree) :
    @MerkleBlock.fromTree (profile e true) T = @MerkleBlock.fromTree (profile e false) T ∧
    @MerkleTree.root (profile e true) T = @MerkleTree.root (profile e false) T ∧
    @MerkleTree.conceal (profile e true) T = @MerkleTree.conceal (profile e false) T ∧
    @MerkleTree.commitId (profile e true) T = @MerkleTree.commitId (profile e false) T := by
  rw [@fromTree_eq (profile e true), @fromTree_eq (profile e false), @tree_root (profile e true),
    @tree_root (profile e false), @tree_conceal (profile e true), @tree_conceal (profile e false),
    @tree_commitId (profile e true), @tree_commitId (profile e false)]
  simp only [MerkleTree.specCommitment, specRoot_profile, pt_profile]
  exact ⟨trivial, trivial, trivial, rfl⟩

/-- **C56** Extracting all proofs of a committed tree. -/
theorem C56_into_proofs (e : Env) (T : MerkleTree) (hT : T.Holds) :
    @MerkleTree.intoProofs (profile e true) T = @MerkleTree.intoProofs (profile e false) T := by
  simp only [MerkleTree.intoProofs, (C56_trees e T).1]
  rw [@fromTree_eq (profile e false)]
  simp only [ok_bind]
  have hs := @fromTree_shows (profile e false) T
  have hnd := (@C30_partial (profile e false) T hT _ ⟨rfl, rfl, rfl, _, hs, @view_refl (profile e false) _ _ _⟩).2
  generalize (MerkleBlock.mk T.method T.depth T.cofactor
    ((@MerkleTree.pt (profile e false) T).frontier 0) (some T.entropy)) = b at hs hnd
  have hp : ∀ p, @MerkleBlock.toMerkleProof (profile e true) b p
      = @MerkleBlock.toMerkleProof (profile e false) b p := by
    intro p
    refine C56_to_merkle_proof e b ⟨_, hs⟩ p ?_
    have : (b.knownProtocolIds.filter (· = p)).Nodup := hnd.filter _
    match hf : b.knownProtocolIds.filter (· = p), this with
    | [], _ => simp
    | [_], _ => simp
    | x :: y :: l, this =>
      exfalso
      have hx : x ∈ b.knownProtocolIds.filter (· = p) := by rw [hf]; simp
      have hy : y ∈ b.knownProtocolIds.filter (· = p) := by rw [hf]; simp
      have hx' := (List.mem_filter.1 hx).2
      have hy' := (List.mem_filter.1 hy).2
      simp only [decide_eq_true_eq] at hx' hy'
      rw [List.nodup_cons] at this
      exact this.1 (by rw [hx', hy']; exact List.mem_cons_self ..)
  simp only [MerkleBlock.intoKnownProofs, hp]

/-- Non-vacuity of C56. -/
example : (∀ _ : Env, Sample.block.Valid) ∧ Sample.tree.Holds ∧
    ∀ _ : Env, (Sample.block.knownProtocolIds.filter (· = Sample.p1)).length ≤ 1 :=
  ⟨fun _ => Sample.valid, Sample.holds, fun _ => by
    show ([Sample.p6, Sample.p1, Sample.p5].filter (· = Sample.p1)).length ≤ 1
    decide⟩

end CSV
