import Verif.Proofs.History
import Verif.Proofs.Buoy
import Verif.Props.Proof

/-!
# Merging blocks and proofs (C23 - C28)

`b.Shows t`: the cross-section of the block lists the outermost nodes of the partial tree `t` (which
is unique); `blockInputs` are the strings hashed when the commitment of the block is computed.
-/

namespace CSV

/-! ## C23 -/

/-- **C23** Merging two structurally valid blocks with the same commitment succeeds, keeps
the commitment and all else but the cross-section, and reveals exactly what one of the two reveals -
unless two different strings hashed for the two commitments have one hash. The order of messages is
that of both blocks, no node is invented and none is lost. -/
theorem C23_union [Env] (b1 b2 : MerkleBlock) (t1 t2 : PT) (h1 : b1.Shows t1) (h2 : b2.Shows t2)
    (c : Commitment) (hc1 : b1.commitId = .ok c) (hc2 : b2.commitId = .ok c)
    (hn : NoCollision (blockInputs b1.depth b1.cofactor t1 ++ blockInputs b2.depth b2.cofactor t2)) :
    ∃ b n, b1.mergeReveal b2 = .ok (b, .ok n) ∧ b.Valid ∧ b.commitId = .ok c ∧
      b.method = b1.method ∧ b.depth = b1.depth ∧ b.cofactor = b1.cofactor ∧ b.entropy = b1.entropy ∧
      (∀ e, e ∈ b.knownMessages ↔ e ∈ b1.knownMessages ∨ e ∈ b2.knownMessages) ∧
      b1.knownMessages.Sublist b.knownMessages ∧ b2.knownMessages.Sublist b.knownMessages ∧
      (∀ x ∈ b.crossSection, x ∈ b1.crossSection ∨ x ∈ b2.crossSection) ∧
      b1.crossSection.length ≤ b.crossSection.length ∧
      b2.crossSection.length ≤ b.crossSection.length := by
  have hc := hc1
  rw [shows_commitId h1] at hc1
  rw [shows_commitId h2] at hc2
  obtain ⟨hd, hco, hcomp⟩ := PT.Compat.ofRoot h1 hn
    ((Except.ok.inj hc1).trans (Except.ok.inj hc2).symm)
  obtain ⟨hm, hs⟩ := mergeReveal_compat h1 h2 hd hco hcomp
  refine ⟨_, _, hm, ⟨_, hs⟩, ?_, rfl, rfl, rfl, rfl, fun e => ?_, ?_, ?_, fun x hx => ?_, ?_, ?_⟩
  · rw [← hc1, shows_commitId hs]
    simp only [widthLimit, (join_root hcomp).1]
  · rw [shows_known hs, shows_known h1, shows_known h2, join_known hcomp]
  · rw [shows_known hs, shows_known h1]
    exact join_sublist_left hcomp
  · rw [shows_known hs, shows_known h2]
    exact join_sublist_right hcomp
  · rw [h1.1, h2.1]
    exact join_frontier hcomp hx
  · rw [h1.1]
    exact join_length hcomp
  · rw [h2.1]
    show _ ≤ ((t1.join t2).frontier 0).length
    rw [join_comm hcomp]
    exact join_length (compat_symm hcomp)

/-- **C23** In terms of slots: the merged block reveals at a slot what one of the blocks reveals at
this slot. (The messages of a block are listed in the order of their slots.) -/
theorem C23_slots [Env] (b1 b2 : MerkleBlock) (t1 t2 : PT) (h1 : b1.Shows t1) (h2 : b2.Shows t2)
    (c : Commitment) (hc1 : b1.commitId = .ok c) (hc2 : b2.commitId = .ok c)
    (hn : NoCollision (blockInputs b1.depth b1.cofactor t1 ++ blockInputs b2.depth b2.cofactor t2)) :
    ∃ b n, ∃ t : PT, b1.mergeReveal b2 = .ok (b, .ok n) ∧ b.Shows t ∧
      (∀ e, e ∈ t.slots b1.depth.val 0 ↔ e ∈ t1.slots b1.depth.val 0 ∨ e ∈ t2.slots b1.depth.val 0) ∧
      (t.slots b1.depth.val 0).map Prod.snd = b.knownMessages ∧
      (t.slots b1.depth.val 0).Pairwise (fun x y => x.1 < y.1) := by
  rw [shows_commitId h1] at hc1
  rw [shows_commitId h2] at hc2
  obtain ⟨hd, hco, hcomp⟩ := PT.Compat.ofRoot h1 hn
    ((Except.ok.inj hc1).trans (Except.ok.inj hc2).symm)
  obtain ⟨hm, hs⟩ := mergeReveal_compat h1 h2 hd hco hcomp
  exact ⟨_, _, _, hm, hs, fun e => join_slots hcomp, by rw [shows_known hs, slots_known],
    (slots_range (Nat.le_refl _) hs.2 (Nat.zero_add _)).2⟩

/-- **C23** for blocks of one committed tree, where no assumption on the hash function is needed. -/
theorem C23_of_tree [Env] (T : MerkleTree) (b1 b2 : MerkleBlock) (h1 : b1.OfTree T) (h2 : b2.OfTree T) :
    ∃ b n, b1.mergeReveal b2 = .ok (b, .ok n) ∧ b.OfTree T ∧
      ∀ e, e ∈ b.knownMessages ↔ e ∈ b1.knownMessages ∨ e ∈ b2.knownMessages := by
  obtain ⟨hm, hd, hc, t, hs, hv⟩ := h1
  obtain ⟨hm', hd', hc', u, hu, hv'⟩ := h2
  obtain ⟨e1, e2, e3⟩ := merge_view hs hu hd hc hd' hc' hv hv'
  refine ⟨_, _, e1, ⟨hm, hd, hc, _, e2, e3⟩, fun e => ?_⟩
  rw [shows_known e2, shows_known hs, shows_known hu, join_known (view_compat hv hv')]

/-- **C23** Merging a proof reveals its message, and changes nothing in the block but the nodes. -/
theorem C23_path [Env] (b : MerkleBlock) (t : PT) (hb : b.Shows t) (pr : MerkleProof)
    (p : ProtocolId) (m : Message) (hl : pr.path.length ≤ 32)
    (c : Commitment) (hc : b.commitId = .ok c) (hv : pr.convolve p m = .ok (.ok c))
    (hn : NoCollision (blockInputs b.depth b.cofactor t ++ proofInputs pr p m)) :
    ∃ b' n, b.mergeRevealPath pr p m = .ok (b', .ok n) ∧ b'.Valid ∧ b'.commitId = .ok c ∧
      (∀ e, e ∈ b'.knownMessages ↔ e ∈ b.knownMessages ∨ e = (p, m)) ∧
      b'.method = b.method ∧ b'.depth = b.depth ∧ b'.cofactor = b.cofactor ∧ b'.entropy = b.entropy ∧
      b.knownMessages.Sublist b'.knownMessages ∧ b.crossSection.length ≤ b'.crossSection.length := by
  obtain ⟨hlt, hpos, hcc⟩ := convolve_ok hl hv
  have hs := with_shows pr p m hlt
  have hc2 := shows_commitId hs
  simp only [widthLimit, toU5_val hlt] at hc2
  rw [← hcc] at hc2
  obtain ⟨b', n, h1, h2, h3, g1, g2, g3, g4, h4, g5, -, -, g6, -⟩ := C23_union b _ t _ hb hs c hc hc2 hn
  refine ⟨b', n, ?_, h2, h3, fun e => ?_, g1, g2, g3, g4, g5, g6⟩
  · rw [MerkleBlock.mergeRevealPath, with_eq pr p m hlt, if_neg (by simpa using hpos)]
    exact h1
  · rw [h4, shows_known hs, path_known, List.mem_singleton]

/-- Non-vacuity of C23: the sample block and its part. -/
example : @NoCollision (realEnv true)
      (@blockInputs (realEnv true) 2 1 (@MerkleTree.pt (realEnv true) Sample.tree) ++
        @blockInputs (realEnv true) 2 1 (@Sample.pt1 (realEnv true))) := by decide +kernel

example [Env] : ∃ c, Sample.block.commitId = .ok c ∧ Sample.block1.commitId = .ok c :=
  ⟨_, ofTree_commitId Sample.view_block, ofTree_commitId Sample.view_block1⟩

/-! ## C24 -/

/-- **C24** Blocks with different commitments are not merged. -/
theorem C24_unrelated [Env] (b1 b2 : MerkleBlock) (c1 c2 : Commitment) (h1 : b1.commitId = .ok c1)
    (h2 : b2.commitId = .ok c2) (h : c1 ≠ c2) :
    b1.mergeReveal b2 = .ok (b1, .error (.unrelatedBlocks c1 c2)) :=
  mergeReveal_unrelated h1 h2 h

/-- **C24** Proofs of another commitment are not merged. -/
theorem C24_unrelated_path [Env] (b : MerkleBlock) (pr : MerkleProof) (p : ProtocolId) (m : Message)
    (hl : pr.path.length ≤ 32) (c1 c2 : Commitment) (h1 : b.commitId = .ok c1)
    (h2 : pr.convolve p m = .ok (.ok c2)) (h : c1 ≠ c2) :
    b.mergeRevealPath pr p m = .ok (b, .error (.unrelatedBlocks c1 c2)) := by
  obtain ⟨hlt, hpos, hcc⟩ := convolve_ok hl h2
  have hc2 := shows_commitId (with_shows pr p m hlt)
  simp only [widthLimit, toU5_val hlt] at hc2
  rw [← hcc] at hc2
  rw [MerkleBlock.mergeRevealPath, with_eq pr p m hlt, if_neg (by simpa using hpos)]
  exact mergeReveal_unrelated h1 hc2 h

/-- **C24** Proofs with a wrong position are not merged. -/
theorem C24_wrong_position [Env] (b : MerkleBlock) (pr : MerkleProof) (p : ProtocolId) (m : Message)
    (hl : pr.path.length ≤ 31)
    (h : slotOf p pr.cofactor.toNat pr.path.length ≠ pr.pos.toNat) :
    b.mergeRevealPath pr p m = .ok (b, .error (.invalidProof
      ⟨p, UInt32.ofNat (slotOf p pr.cofactor.toNat pr.path.length), pr.pos, 2 ^ pr.path.length⟩)) := by
  have := ((C19_position_checked pr p m hl _).1).2 ⟨h, rfl⟩
  rw [MerkleBlock.mergeRevealPath, this]
  rfl

/-- **C24** Conversely, a merge of structurally valid blocks that fails was given unrelated blocks,
and whatever the result is, the call returns (no panic) - unless there is a collision. -/
theorem C24_error_iff [Env] (b1 b2 : MerkleBlock) (t1 t2 : PT) (h1 : b1.Shows t1) (h2 : b2.Shows t2)
    (hn : NoCollision (blockInputs b1.depth b1.cofactor t1 ++ blockInputs b2.depth b2.cofactor t2)) :
    ∃ c1 c2, b1.commitId = .ok c1 ∧ b2.commitId = .ok c2 ∧
      ((∃ b n, b1.mergeReveal b2 = .ok (b, .ok n)) ↔ c1 = c2) ∧
      (∀ b e, b1.mergeReveal b2 = .ok (b, .error e) ↔
        c1 ≠ c2 ∧ b = b1 ∧ e = .unrelatedBlocks c1 c2) := by
  refine ⟨_, _, shows_commitId h1, shows_commitId h2, ?_⟩
  by_cases hc : commitmentHash ⟨b1.depth, b1.cofactor, t1.root (widthLimit b1.depth) 0⟩ =
      commitmentHash ⟨b2.depth, b2.cofactor, t2.root (widthLimit b2.depth) 0⟩
  · obtain ⟨b, n, hm, -⟩ := C23_union b1 b2 t1 t2 h1 h2 _ (shows_commitId h1)
      (by rw [shows_commitId h2, hc]) hn
    refine ⟨⟨fun _ => hc, fun _ => ⟨b, n, hm⟩⟩, fun b' e => ⟨fun h => ?_, fun h => absurd hc h.1⟩⟩
    rw [hm] at h
    cases h
  · have hm := mergeReveal_unrelated (shows_commitId h1) (shows_commitId h2) hc
    refine ⟨⟨fun ⟨b, n, h⟩ => ?_, fun h => absurd h hc⟩, fun b e => ⟨fun h => ?_, ?_⟩⟩
    · rw [hm] at h
      cases h
    · rw [hm] at h
      cases h
      exact ⟨hc, rfl, rfl⟩
    · rintro ⟨-, rfl, rfl⟩
      exact hm

/-- Non-vacuity of C24: two blocks with different commitments (with real SHA256). -/
example : ∃ c1 c2, @MerkleBlock.commitId (realEnv true) ⟨.sha256t, 0, 0, [.leaf Sample.p1 Sample.m1], none⟩
      = .ok c1 ∧ @MerkleBlock.commitId (realEnv true) ⟨.sha256t, 0, 0, [.leaf Sample.p1 Sample.m5], none⟩
      = .ok c2 ∧ c1 ≠ c2 := by
  letI : Env := realEnv true
  have h1 : MerkleBlock.Shows ⟨.sha256t, 0, 0, [.leaf Sample.p1 Sample.m1], none⟩
    (.leaf Sample.p1 Sample.m1) := ⟨rfl, rfl⟩
  have h2 : MerkleBlock.Shows ⟨.sha256t, 0, 0, [.leaf Sample.p1 Sample.m5], none⟩
    (.leaf Sample.p1 Sample.m5) := ⟨rfl, rfl⟩
  exact ⟨_, _, shows_commitId h1, shows_commitId h2, by decide +kernel⟩

/-! ## C25 -/

/-- **C25** Merging a block with itself changes nothing. -/
theorem C25_idempotent [Env] (b : MerkleBlock) (hb : b.Valid) :
    ∃ n, b.mergeReveal b = .ok (b, .ok n) := by
  obtain ⟨t, ht⟩ := hb
  obtain ⟨hm, -⟩ := mergeReveal_compat ht ht rfl rfl compat_refl
  rw [join_self] at hm
  have : { b with crossSection := t.frontier 0 } = b := by rw [← ht.1]
  rw [this] at hm
  exact ⟨_, hm⟩

private theorem compats [Env] {b1 b2 : MerkleBlock} {t1 t2 : PT} (h1 : b1.Shows t1) (h2 : b2.Shows t2)
    {c : Commitment} (hc1 : b1.commitId = .ok c) (hc2 : b2.commitId = .ok c)
    (hn : NoCollision (blockInputs b1.depth b1.cofactor t1 ++ blockInputs b2.depth b2.cofactor t2)) :
    b1.depth = b2.depth ∧ b1.cofactor = b2.cofactor ∧ t1.Compat (2 ^ b1.depth.val) t2 0 := by
  rw [shows_commitId h1] at hc1
  rw [shows_commitId h2] at hc2
  exact PT.Compat.ofRoot h1 hn ((Except.ok.inj hc1).trans (Except.ok.inj hc2).symm)

/-- **C25** The order of two blocks does not matter. (The entropy is that of the block merged into.) -/
theorem C25_commutative [Env] (b1 b2 : MerkleBlock) (t1 t2 : PT) (h1 : b1.Shows t1) (h2 : b2.Shows t2)
    (c : Commitment) (hc1 : b1.commitId = .ok c) (hc2 : b2.commitId = .ok c)
    (hn : NoCollision (blockInputs b1.depth b1.cofactor t1 ++ blockInputs b2.depth b2.cofactor t2)) :
    ∃ b b' n, b1.mergeReveal b2 = .ok (b, .ok n) ∧ b2.mergeReveal b1 = .ok (b', .ok n) ∧
      b.crossSection = b'.crossSection ∧ b.depth = b'.depth ∧ b.cofactor = b'.cofactor := by
  obtain ⟨hd, hco, hcomp⟩ := compats h1 h2 hc1 hc2 hn
  obtain ⟨hm, -⟩ := mergeReveal_compat h1 h2 hd hco hcomp
  obtain ⟨hm', -⟩ := mergeReveal_compat h2 h1 hd.symm hco.symm (by rw [← hd]; exact compat_symm hcomp)
  rw [join_comm (compat_symm hcomp)] at hm'
  exact ⟨_, _, _, hm, hm', rfl, hd, hco⟩

/-- **C25** The grouping of three blocks does not matter. -/
theorem C25_associative [Env] (b1 b2 b3 : MerkleBlock) (t1 t2 t3 : PT) (h1 : b1.Shows t1)
    (h2 : b2.Shows t2) (h3 : b3.Shows t3) (c : Commitment) (hc1 : b1.commitId = .ok c)
    (hc2 : b2.commitId = .ok c) (hc3 : b3.commitId = .ok c)
    (hn : NoCollision (blockInputs b1.depth b1.cofactor t1 ++ blockInputs b2.depth b2.cofactor t2 ++
      blockInputs b3.depth b3.cofactor t3)) :
    ∃ b12 b23 n12 n23 b n, b1.mergeReveal b2 = .ok (b12, .ok n12) ∧
      b2.mergeReveal b3 = .ok (b23, .ok n23) ∧
      b12.mergeReveal b3 = .ok (b, .ok n) ∧ b1.mergeReveal b23 = .ok (b, .ok n) := by
  obtain ⟨d12, co12, k12⟩ := compats h1 h2 hc1 hc2 (hn.mono fun a ha => by
    simp only [List.mem_append] at ha ⊢; exact Or.inl ha)
  obtain ⟨d13, co13, k13⟩ := compats h1 h3 hc1 hc3 (hn.mono fun a ha => by
    simp only [List.mem_append] at ha ⊢
    rcases ha with ha | ha
    · exact Or.inl (Or.inl ha)
    · exact Or.inr ha)
  obtain ⟨d23, co23, k23⟩ := compats h2 h3 hc2 hc3 (hn.mono fun a ha => by
    simp only [List.mem_append] at ha ⊢
    rcases ha with ha | ha
    · exact Or.inl (Or.inr ha)
    · exact Or.inr ha)
  obtain ⟨m12, s12⟩ := mergeReveal_compat h1 h2 d12 co12 k12
  obtain ⟨m23, s23⟩ := mergeReveal_compat h2 h3 d23 co23 k23
  have k23' : t2.Compat (2 ^ b1.depth.val) t3 0 := by rw [d12]; exact k23
  obtain ⟨ma, -⟩ := mergeReveal_compat s12 h3 d13 co13 (join_compat k12 k13 k23')
  obtain ⟨mb, -⟩ := mergeReveal_compat h1 s23 d12 co12
    (compat_symm (join_compat k23' (compat_symm k12) (compat_symm k13)))
  rw [join_assoc k12 k23' k13] at ma
  exact ⟨_, _, _, _, _, _, m12, m23, ma, mb⟩

/-! ## C26 -/

/-- Merging proofs into a minimal view. -/
private theorem mergePaths_view [Env] {T : MerkleTree} (hT : T.Holds) {full : MerkleBlock}
    (hfull : full.OfTree T) :
    ∀ (items : List (MerkleProof × ProtocolId × Message)) {t : PT},
    (∀ x ∈ items, (x.2.1, x.2.2) ∈ full.knownMessages ∧ full.toMerkleProof x.2.1 = .ok (.ok x.1)) →
    t.View (2 ^ T.depth.val) T.pt 0 → t.Minimal →
    ∃ u : PT, MerkleBlock.mergePaths ⟨T.method, T.depth, T.cofactor, t.frontier 0, none⟩ items
        = .ok (.ok ⟨T.method, T.depth, T.cofactor, u.frontier 0, none⟩) ∧
      u.View (2 ^ T.depth.val) T.pt 0 ∧ u.Minimal ∧
      ∀ e, e ∈ u.known ↔ e ∈ t.known ∨ e ∈ items.map fun x => (x.2.1, x.2.2)
  | [], t, _, hv, hm => ⟨t, rfl, hv, hm, by simp⟩
  | (pr, p, m) :: items, t, hi, hv, hm => by
    obtain ⟨hk, hpr⟩ := hi _ (List.mem_cons_self ..)
    obtain ⟨w, hw, hwv, hwm, hwk⟩ := with_view hT hfull hk hpr
    have hs : MerkleBlock.Shows ⟨T.method, T.depth, T.cofactor, t.frontier 0, none⟩ t :=
      ⟨rfl, view_fits (Nat.zero_add _) (fits_pt T) hv⟩
    have hs' : MerkleBlock.Shows ⟨T.method, T.depth, T.cofactor, w.frontier 0, none⟩ w :=
      ⟨rfl, view_fits (Nat.zero_add _) (fits_pt T) hwv⟩
    obtain ⟨h1, -, h3⟩ := merge_view hs hs' rfl rfl rfl rfl hv hwv
    obtain ⟨u, h4, h5, h6, h7⟩ := mergePaths_view hT hfull items
      (fun x hx => hi x (List.mem_cons_of_mem _ hx)) h3 (join_minimal hm hwm)
    refine ⟨u, ?_, h5, h6, fun e => ?_⟩
    · simp only [MerkleBlock.mergePaths, MerkleBlock.mergeRevealPath, hw, h1, ok_bind]
      exact h4
    · rw [h7, join_known (view_compat hv hwv), hwk]
      simp only [List.map_cons, List.mem_cons, List.not_mem_nil, or_false]
      exact or_assoc

/-- **C26** The proofs of some protocols of a committed tree, merged in any order (with or without
repetitions), give the block that concealing everything but these protocols gives. -/
theorem C26_all_proofs [Env] (T : MerkleTree) (hT : T.Holds) (full : MerkleBlock)
    (hfull : full.OfTree T) (pr : MerkleProof) (p : ProtocolId) (m : Message)
    (items : List (MerkleProof × ProtocolId × Message))
    (hi : ∀ x ∈ (pr, p, m) :: items,
      (x.2.1, x.2.2) ∈ full.knownMessages ∧ full.toMerkleProof x.2.1 = .ok (.ok x.1)) :
    ∃ b0 b n, MerkleBlock.with pr p m = .ok (.ok b0) ∧ b0.mergePaths items = .ok (.ok b) ∧
      full.concealExcept (p :: items.map fun x => x.2.1) = .ok (b, .ok n) := by
  obtain ⟨hk, hpr⟩ := hi _ (List.mem_cons_self ..)
  obtain ⟨w, hw, hwv, hwm, hwk⟩ := with_view hT hfull hk hpr
  obtain ⟨u, h1, h2, h3, h4⟩ := mergePaths_view hT hfull items
    (fun x hx => hi x (List.mem_cons_of_mem _ hx)) hwv hwm
  obtain ⟨hm, hd, hc, t, hs, hv⟩ := hfull
  rw [hwk] at h4
  have hpl := ofTree_placed hT hd hc hs hv
  have hmem : ∀ e, e ∈ u.known ↔ e ∈ ((pr, p, m) :: items).map fun x => (x.2.1, x.2.2) := by
    intro e
    rw [h4]
    simp
  have hids : ∀ q, q ∈ (p :: items.map fun x => x.2.1) ↔
      ∃ x ∈ (pr, p, m) :: items, x.2.1 = q := by
    intro q
    rw [← List.mem_map (f := fun x : MerkleProof × ProtocolId × Message => x.2.1)]
    rfl
  rcases concealExcept_cases hs (p :: items.map fun x => x.2.1) with
    ⟨n, -, h', -, -⟩ | ⟨q, hq, hnk, -, -⟩
  · refine ⟨_, _, n, hw, h1, ?_⟩
    rw [h']
    obtain ⟨me, de, co, cs, en⟩ := full
    dsimp only at hm hd hc
    subst hm hd hc
    have hu : (t.hideLeaves (p :: items.map fun x => x.2.1).contains).canon (2 ^ T.depth.val) 0 = u := by
      rw [← PT.canon_of_minimal (w := 2 ^ T.depth.val) (d := 0) h3]
      refine view_canon_unique (D := T.depth.val) (n := T.depth.val) (lo := 0) (view_hide hv) h2 (fits_pt T)
        (Nat.zero_add _) fun e => ?_
      obtain ⟨i, q, m'⟩ := e
      rw [hide_slots]
      have huk : ∀ {t' : PT}, t'.View (2 ^ T.depth.val) T.pt 0 → ((q, m') ∈ t'.known →
          (i, (q, m')) ∈ T.pt.slots T.depth.val 0 → (i, (q, m')) ∈ t'.slots T.depth.val 0) := by
        intro t' hv' h5 h6
        obtain ⟨j, hj⟩ := known_slot h5 T.depth.val 0
        have e1 := ((holds_slots hT).1 (view_slots hv' hj)).2
        have e2 := ((holds_slots hT).1 h6).2
        rw [e2, ← e1]
        exact hj
      constructor
      · rintro ⟨h5, h6⟩
        have h7 : q ∈ (p :: items.map fun x => x.2.1) := by simpa using h6
        obtain ⟨x, hx, rfl⟩ := (hids q).1 h7
        have h8 := (hi x hx).1
        rw [shows_known hs] at h8
        have h9 : m' = x.2.2 := placed_unique hpl (slot_known h5) h8
        refine huk h2 ((hmem _).2 ?_) (view_slots hv h5)
        rw [List.mem_map]
        exact ⟨x, hx, by rw [h9]⟩
      · intro h5
        have h6 := (hmem _).1 (slot_known h5)
        rw [List.mem_map] at h6
        obtain ⟨x, hx, hxe⟩ := h6
        have h8 := (hi x hx).1
        rw [shows_known hs, hxe] at h8
        refine ⟨huk hv h8 (view_slots h2 h5), ?_⟩
        have : q ∈ (p :: items.map fun x => x.2.1) := (hids q).2 ⟨x, hx, by
          have := congrArg Prod.fst hxe; exact this⟩
        simpa using this
    dsimp only
    rw [hu]
  · exfalso
    obtain ⟨x, hx, rfl⟩ := (hids q).1 hq
    apply hnk
    rw [knownIds_map, List.mem_map]
    exact ⟨_, (hi x hx).1, rfl⟩

/-- **C26** in particular for the whole tree, whose block reveals all messages, and for proofs that
verify to its commitment, wherever they come from (no collisions). -/
theorem C26_verified_proofs [Env] (T : MerkleTree) (hT : T.Holds) (c : Commitment)
    (hc : T.commitId = .ok c) (pr : MerkleProof) (p : ProtocolId) (m : Message)
    (items : List (MerkleProof × ProtocolId × Message))
    (hi : ∀ x ∈ (pr, p, m) :: items, x.1.path.length ≤ 32 ∧
      x.1.convolve x.2.1 x.2.2 = .ok (.ok c) ∧
      NoCollision (proofInputs x.1 x.2.1 x.2.2 ++ T.inputs)) :
    ∃ full b0 b n, MerkleBlock.fromTree T = .ok full ∧ MerkleBlock.with pr p m = .ok (.ok b0) ∧
      b0.mergePaths items = .ok (.ok b) ∧
      full.concealExcept (p :: items.map fun x => x.2.1) = .ok (b, .ok n) := by
  have hfull : MerkleBlock.OfTree ⟨T.method, T.depth, T.cofactor, T.pt.frontier 0, some T.entropy⟩ T :=
    ⟨rfl, rfl, rfl, _, fromTree_shows T, view_refl⟩
  obtain ⟨b0, b, n, h1, h2, h3⟩ := C26_all_proofs T hT _ hfull pr p m items fun x hx => by
    obtain ⟨hl, hv, hn⟩ := hi x hx
    obtain ⟨g1, f, g2, g3⟩ := C21_only_committed T hT x.1 hl x.2.1 x.2.2 c hn hc hv
    rw [fromTree_eq] at g2
    cases g2
    refine ⟨?_, g3⟩
    rw [shows_known (fromTree_shows T)]
    exact (holds_known hT).2 (bmapGet_mem g1)
  exact ⟨_, b0, b, n, fromTree_eq T, h1, h2, h3⟩

/-! ## C27 -/

/-- A tree of the given height with all leaves hidden. -/
private def hiddenTree : Nat → PT
  | 0 => .hidden (Bytes32.fill 0)
  | n + 1 => .node (hiddenTree n) (hiddenTree n)

private theorem hiddenTree_fits {D : Nat} : ∀ {n d : Nat}, d + n = D → (hiddenTree n).Fits D D d
  | 0, _, h => by simp only [hiddenTree, PT.Fits]; omega
  | n + 1, _, h => ⟨hiddenTree_fits (by omega), hiddenTree_fits (by omega)⟩

private theorem hiddenTree_length : ∀ (n d : Nat), ((hiddenTree n).frontier d).length = 2 ^ n
  | 0, _ => rfl
  | n + 1, d => by
    simp only [hiddenTree, PT.frontier, List.length_append, hiddenTree_length n, Nat.pow_succ]
    omega

/-- **C27 is false of the code**: there are blocks with 65536 nodes for which a merge reports that
there are 0. -/
theorem C27_false [Env] : ∃ b b' : MerkleBlock, ∃ n, b.Valid ∧ b.mergeReveal b = .ok (b', .ok n) ∧
    n.toNat ≠ b'.crossSection.length := by
  have hs : MerkleBlock.Shows ⟨.sha256t, 16, 0, (hiddenTree 16).frontier 0, none⟩ (hiddenTree 16) :=
    ⟨rfl, hiddenTree_fits (Nat.zero_add 16)⟩
  obtain ⟨hm, -⟩ := mergeReveal_compat hs hs rfl rfl compat_refl
  refine ⟨_, _, _, ⟨_, hs⟩, hm, ?_⟩
  dsimp only
  rw [join_self, hiddenTree_length]
  decide

/-- **C27**, the part that holds: the number is that of the nodes modulo 65536, hence the number of
nodes exactly if there are fewer than 65536. Missing: larger blocks. -/
theorem C27_partial [Env] (b1 b2 b : MerkleBlock) (n : UInt16)
    (h : b1.mergeReveal b2 = .ok (b, .ok n)) :
    n.toNat = b.crossSection.length % 65536 ∧
    (n.toNat = b.crossSection.length ↔ b.crossSection.length < 65536) := by
  have key : n.toNat = b.crossSection.length % 65536 := by
    rw [MerkleBlock.mergeReveal] at h
    cases h1 : b1.commitId with
    | error e => rw [h1] at h; cases h
    | ok c1 =>
      cases h2 : b2.commitId with
      | error e => rw [h1, h2] at h; cases h
      | ok c2 =>
        rw [h1, h2] at h
        simp only [ok_bind] at h
        split at h
        · cases h
        · obtain ⟨x1, -, h⟩ := (bind_ok_iff ..).1 h
          obtain ⟨x2, -, h⟩ := (bind_ok_iff ..).1 h
          obtain ⟨x3, -, h⟩ := (bind_ok_iff ..).1 h
          obtain ⟨x4, -, h⟩ := (bind_ok_iff ..).1 h
          obtain ⟨x5, -, h⟩ := (bind_ok_iff ..).1 h
          obtain ⟨x6, -, h⟩ := (bind_ok_iff ..).1 h
          cases h
          simp
  exact ⟨key, by rw [key]; omega⟩

/-! ## C28 -/

/-- **C28** A buoy started with the depth of the first tip of a subtree and given the depths of the
others is below (at greater depth than) the root of the subtree until the last one, and then at it,
with nothing nested; depths must be below 32. -/
theorem C28_surfaces (t : Shape) (d x : Nat) (xs : List Nat) (h : t.depths d = x :: xs)
    (hx : ∀ y ∈ t.depths d, y < 32) :
    (Buoy.new (toU5 x)).pushAll (xs.map toU5) = .ok (Buoy.new (toU5 d)) ∧
    (Buoy.new (toU5 d)).level.val = d ∧
    ∀ u v, xs.map toU5 = u ++ v → v ≠ [] →
      ∃ s, (Buoy.new (toU5 x)).pushAll u = .ok s ∧ d < s.level.val := by
  obtain ⟨h1, h2⟩ := Buoy.pushAll_tail t d x xs h hx
  refine ⟨h1, ?_, h2⟩
  obtain ⟨y, ys, hy, hle⟩ := t.depths_cons d
  have := hx y (by rw [hy]; exact List.mem_cons_self ..)
  exact toU5_val (by omega)

/-- **C28** Pushing never underflows. -/
theorem C28_no_panic (s : Buoy) (l : List U5) : ∃ s', s.pushAll l = .ok s' := by
  induction l generalizing s with
  | nil => exact ⟨s, rfl⟩
  | cons e l ih =>
    obtain ⟨⟨s', f⟩, h⟩ := Buoy.push_total s e
    obtain ⟨s'', h'⟩ := ih s'
    exact ⟨s'', by simp only [Buoy.pushAll, h, ok_bind, h']⟩

/-- **C28** The value returned by `push` says whether the outermost buoy has surfaced by one
level. -/
theorem C28_flag (s s' : Buoy) (e : U5) (f : Bool) (h : s.push e = .ok (s', f)) :
    (f = true → s' = .leaf s'.base ∧ s'.base.val + 1 = s.base.val) ∧ (f = false → s'.base = s.base) :=
  Buoy.push_flag s s' e f h

/-- **C28** Depth 0 is ignored. -/
theorem C28_zero (s : Buoy) : s.push 0 = .ok (s, false) := Buoy.push_zero s

/-- Non-vacuity of C28: the depths of the tips of a tree, fed to a buoy. -/
example : (Shape.fork (.fork (.fork .tip .tip) .tip) (.fork .tip (.fork .tip .tip))).depths 0
      = [3, 3, 2, 2, 3, 3] ∧
    ((Buoy.new 3).pushAll [3, 2, 2, 3]).toOption.map Buoy.level = some 3 ∧
    (Buoy.new 3).pushAll [3, 2, 2, 3, 3] = .ok (Buoy.new 0) := ⟨rfl, rfl, rfl⟩

end CSV
