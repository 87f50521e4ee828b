import Verif.Props.Join
import Verif.Props.Merge

/-!
# C102: what the tests of the library check on random messages

`/repo/commit_verify/src/mpc/tree.rs:266-402` and `/repo/commit_verify/src/mpc/block.rs:735-829` build trees of random
messages and assert that certain things hold. Here the assertions are stated for all messages.
-/

namespace CSV

/-- **C102** `tree_structure`: a committed tree has all its messages, each in a slot of its own, and at least as many usable
slots as messages; so nine messages need a depth above 3. -/
theorem C102_structure [Env] (rng : Option UInt64) (s : MultiSource) (T : MerkleTree)
    (h : MerkleTree.tryCommit rng s = .ok (.ok T)) :
    (∃ w, T.factoredWidth = .ok w ∧ s.messages.entries.length ≤ w ∧ w ≤ 2 ^ T.depth.val) ∧
    (∀ n, 2 ^ n < s.messages.entries.length → n < T.depth.val) ∧
    (s.messages.entries.map fun e => T.protocolIdPos e.1).Nodup ∧
    ∀ p m, s.messages.get p = some m → T.messages.get p = some m := by
  obtain ⟨-, hm, -, a1, b1, inj⟩ := C01_slots rng s T h
  obtain ⟨hlt, hw, -⟩ := C07_factored_width rng s T h
  have hnd : (s.messages.entries.map fun e => T.protocolIdPos e.1).Nodup := by
    have := ids_nodup s
    rw [MultiSource.ids, List.Nodup, List.pairwise_map] at this
    rw [List.Nodup, List.pairwise_map]
    refine List.Pairwise.imp_of_mem ?_ this
    rintro ⟨p, m⟩ ⟨q, n⟩ hp hq hne e
    exact hne (inj p m q n (mem_bmapGet s.messages.sorted hp) (mem_bmapGet s.messages.sorted hq) e)
  have hle : s.messages.entries.length ≤ 2 ^ T.depth.val - T.cofactor.toNat := by
    have h2 : (s.messages.entries.map fun e => (T.protocolIdPos e.1).toNat).Nodup := by
      rw [List.Nodup, List.pairwise_map] at hnd ⊢
      exact hnd.imp fun h e => h (UInt32.toNat_inj.1 e)
    have := h2.length_le_of_subset (l₂ := List.range (2 ^ T.depth.val - T.cofactor.toNat)) fun x hx => by
      obtain ⟨⟨p, m⟩, hp, rfl⟩ := List.mem_map.1 hx
      rw [List.mem_range]
      exact (C07_factored_width rng s T h).2.2 _ _ (a1 p m (mem_bmapGet s.messages.sorted hp))
    simpa using this
  refine ⟨⟨_, hw, hle, by omega⟩, fun n hn => ?_, hnd, fun p m hp => by rw [hm]; exact hp⟩
  apply Classical.byContradiction
  intro hc
  have : 2 ^ T.depth.val ≤ 2 ^ n := Nat.pow_le_pow_right (by decide) (by omega)
  omega

/-- Nine messages: the ids 0 and 240240 have the same remainder by each of 10, ..., 16. -/
private def nine : MultiSource :=
  ⟨.sha256t, 0, ⟨[0, 1, 2, 4, 5, 6, 7, 8, 240240].map fun n => (Bytes32.ofNat n, Sample.m1), by decide, by decide⟩, some 77⟩

/-- **C102** The test `tree_structure` asserts a bit more: more usable slots than messages, if there are nine. That is not
so for all messages. -/
theorem C102_structure_tight [Env] : ∃ s T, MerkleTree.tryCommit none s = .ok (.ok T) ∧
    s.messages.entries.length = 9 ∧ s.minDepth = 0 ∧ T.depth = 4 ∧ T.factoredWidth = .ok 9 := by
  have : (match MerkleTree.tryCommit none nine with
    | .ok (.ok T) => some (T.depth, T.cofactor)
    | _ => none) = some (4, 7) := by decide +kernel
  cases hx : MerkleTree.tryCommit none nine with
  | error e => rw [hx] at this; cases this
  | ok r =>
    cases r with
    | error e => rw [hx] at this; cases this
    | ok T =>
      rw [hx] at this
      have hd : T.depth = 4 := congrArg Prod.fst (Option.some.inj this)
      have hc : T.cofactor = 7 := congrArg Prod.snd (Option.some.inj this)
      refine ⟨nine, T, hx, rfl, rfl, hd, ?_⟩
      rw [(C07_factored_width none nine T hx).2.1, hd, hc]
      rfl

/-- **C102** `tree_conceal`, `determin_tree`, `sparse_tree`: a tree and its block conceal to the same thing and have the same
commitment. -/
theorem C102_conceal [Env] (T : MerkleTree) (b : MerkleBlock) (h : MerkleBlock.fromTree T = .ok b) :
    ∃ x c, T.conceal = .ok x ∧ b.conceal = .ok x ∧ T.commitId = .ok c ∧ b.commitId = .ok c := by
  rw [fromTree_eq] at h
  cases h
  exact ⟨_, _, tree_conceal T, shows_conceal (fromTree_shows T), tree_commitId T, shows_commitId (fromTree_shows T)⟩

private theorem commitmentInput_ne [Env] (c : MerkleConcealed) :
    (∀ l, leafInput l ≠ commitmentInput c) ∧ ∀ d w a b, branchInput d w a b ≠ commitmentInput c := by
  constructor
  · intro l h
    have h1 := congrArg List.length h
    rw [leafInput, commitmentInput, taggedInput_length, taggedInput_length, MerkleConcealed.enc_length] at h1
    cases l <;> simp [Leaf.enc, encU64, encU32, leBytes_length, encBytes32_length] at h1
  · intro d w a b h
    have h1 := congrArg List.length h
    rw [branchInput, commitmentInput, taggedInput_length, taggedInput_length, MerkleConcealed.enc_length,
      MerkleNode.enc_length] at h1
    omega

/-- **C102** `tree_id`: the commitment of a tree is not its root, for any tree (unless two different strings hashed for it
have one hash). -/
theorem C102_id [Env] (T : MerkleTree) (hn : NoCollision T.inputs) :
    ∃ c r, T.commitId = .ok c ∧ T.root = .ok r ∧ c ≠ r := by
  refine ⟨_, _, tree_commitId T, tree_root T, ?_⟩
  have hc : commitmentInput ⟨T.depth, T.cofactor, T.specRoot⟩ ∈ T.inputs := by
    simp [MerkleTree.inputs, blockInputs, MerkleTree.specRoot]
  have key : ∃ x ∈ T.inputs, T.specRoot = sha x ∧ x ≠ commitmentInput ⟨T.depth, T.cofactor, T.specRoot⟩ := by
    cases hd : T.depth.val with
    | zero =>
      refine ⟨leafInput (T.leafAt 0), ?_, ?_, (commitmentInput_ne _).1 _⟩
      · rw [MerkleTree.inputs, List.mem_append, hd]
        exact Or.inr (List.mem_map.2 ⟨0, by simp, rfl⟩)
      · rw [MerkleTree.specRoot, MerkleTree.pt, hd, PT.full, slot_root]
        rfl
    | succ n =>
      refine ⟨branchInput 0 (2 ^ T.depth.val) ((PT.full T.slot n 0).root (2 ^ T.depth.val) 1)
        ((PT.full T.slot n (0 + 2 ^ n)).root (2 ^ T.depth.val) 1), ?_, ?_, (commitmentInput_ne _).2 _ _ _ _⟩
      · simp [MerkleTree.inputs, blockInputs, MerkleTree.pt, hd, PT.full, PT.inputs]
      · have hpt : T.pt = .node (PT.full T.slot n 0) (PT.full T.slot n (0 + 2 ^ n)) := by
          rw [MerkleTree.pt, hd, PT.full]
        rw [MerkleTree.specRoot, hpt]
        rfl
  obtain ⟨x, hx, hr, hne⟩ := key
  intro e
  exact hne (hn _ hx _ hc (hr.symm.trans e.symm))

/-- Non-vacuity of `C102_id`. -/
example : @NoCollision (realEnv true) (@MerkleTree.inputs (realEnv true) Sample.tree) := by decide +kernel

/-- A slot is free exactly if there are fewer messages than slots. -/
private theorem free_slot [Env] (rng : Option UInt64) (s : MultiSource) (T : MerkleTree)
    (h : MerkleTree.tryCommit rng s = .ok (.ok T)) :
    (∃ pos : UInt32, pos.toNat < 2 ^ T.depth.val ∧ T.map.get pos = none) ↔
      s.messages.entries.length < 2 ^ T.depth.val := by
  obtain ⟨-, -, hnd, -⟩ := C102_structure rng s T h
  obtain ⟨-, -, -, a1, b1, -⟩ := C01_slots rng s T h
  have h31 : (2:Nat) ^ T.depth.val ≤ 2 ^ 31 :=
    Nat.pow_le_pow_right (by decide) (by have := T.depth.isLt; omega)
  constructor
  · rintro ⟨pos, hpos, hg⟩
    have h2 : (pos.toNat :: s.messages.entries.map fun e => (T.protocolIdPos e.1).toNat).Nodup := by
      rw [List.nodup_cons]
      constructor
      · intro hx
        obtain ⟨⟨p, m⟩, hp, e⟩ := List.mem_map.1 hx
        have := a1 p m (mem_bmapGet s.messages.sorted hp)
        rw [UInt32.toNat_inj.1 e, hg] at this
        cases this
      · rw [List.Nodup, List.pairwise_map] at hnd ⊢
        exact hnd.imp fun h e => h (UInt32.toNat_inj.1 e)
    have := h2.length_le_of_subset (l₂ := List.range (2 ^ T.depth.val)) fun x hx => by
      rw [List.mem_range]
      rcases List.mem_cons.1 hx with rfl | hx
      · exact hpos
      · obtain ⟨⟨p, m⟩, -, rfl⟩ := List.mem_map.1 hx
        exact tree_pos_lt T p
    rw [List.length_range, List.length_cons, List.length_map] at this
    exact this
  · intro hl
    apply Classical.byContradiction
    intro hno
    have hsub : List.range (2 ^ T.depth.val) ⊆
        s.messages.entries.map fun e => (T.protocolIdPos e.1).toNat := by
      intro i hi
      rw [List.mem_range] at hi
      have hu : (UInt32.ofNat i).toNat = i :=
        UInt32.toNat_ofNat_of_lt' (by show i < 4294967296; omega)
      cases hg : T.map.get (UInt32.ofNat i) with
      | none => exact absurd ⟨_, by rw [hu]; exact hi, hg⟩ hno
      | some e =>
        obtain ⟨p, m⟩ := e
        obtain ⟨g1, g2⟩ := b1 _ _ _ hg
        rw [List.mem_map]
        exact ⟨(p, m), bmapGet_mem g1, by rw [← g2, hu]⟩
    have := List.nodup_range.length_le_of_subset hsub
    rw [List.length_range, List.length_map] at this
    omega

/-- **C102** `tree_id_entropy`: another entropy gives another commitment (unless two different strings hashed have one hash),
provided there are fewer messages than slots. If the messages fill all slots, the entropy makes no difference. -/
theorem C102_entropy [Env] (rng : Option UInt64) (s : MultiSource) (T : MerkleTree)
    (h : MerkleTree.tryCommit rng s = .ok (.ok T)) (e : UInt64) :
    s.messages.entries.length ≤ 2 ^ T.depth.val ∧
    (s.messages.entries.length < 2 ^ T.depth.val → e ≠ T.entropy →
      NoCollision (T.inputs ++ MerkleTree.inputs { T with entropy := e }) →
      ∃ c c', T.commitId = .ok c ∧ MerkleTree.commitId { T with entropy := e } = .ok c' ∧ c ≠ c') ∧
    (s.messages.entries.length = 2 ^ T.depth.val → MerkleTree.commitId { T with entropy := e } = T.commitId) := by
  obtain ⟨⟨w, -, hw, hw2⟩, -⟩ := C102_structure rng s T h
  have hfree := free_slot rng s T h
  refine ⟨Nat.le_trans hw hw2, fun hl hne hn => ?_, fun hf => ?_⟩
  · refine ⟨_, _, tree_commitId T, tree_commitId _, fun ee => hne ?_⟩
    exact ((C60_binding T { T with entropy := e } _ (tree_commitId T) (by rw [tree_commitId]; exact congrArg _ ee.symm)
      hn).2.2.2 (hfree.2 hl)).symm
  · have h31 : (2:Nat) ^ T.depth.val ≤ 2 ^ 31 :=
      Nat.pow_le_pow_right (by decide) (by have := T.depth.isLt; omega)
    have hpt : MerkleTree.pt { T with entropy := e } = T.pt := by
      refine full_congr _ _ fun i _ hi => ?_
      have hi : i < 2 ^ T.depth.val := by simpa using hi
      have hu : (UInt32.ofNat i).toNat = i := UInt32.toNat_ofNat_of_lt' (by show i < 4294967296; omega)
      cases hg : T.map.get (UInt32.ofNat i) with
      | none =>
        have := hfree.1 ⟨_, by rw [hu]; exact hi, hg⟩
        omega
      | some x => simp only [MerkleTree.slot, hg]
    rw [tree_commitId, tree_commitId]
    exact congrArg (fun x => Except.ok (commitmentHash ⟨T.depth, T.cofactor, PT.root (2 ^ T.depth.val) x 0⟩)) hpt

/-- Two messages in two slots. -/
private def two : MultiSource :=
  ⟨.sha256t, 1, ⟨[(Bytes32.ofNat 0, Sample.m1), (Bytes32.ofNat 1, Sample.m5)], by decide, by decide⟩, some 77⟩

/-- Non-vacuity of `C102_entropy`: three messages in four slots, and two in two. -/
example : @NoCollision (realEnv true) (@MerkleTree.inputs (realEnv true) Sample.tree ++
    @MerkleTree.inputs (realEnv true) { Sample.tree with entropy := 78 }) := by decide +kernel

example [Env] : (match MerkleTree.tryCommit none two with
    | .ok (.ok T) => some (two.messages.entries.length, 2 ^ T.depth.val)
    | _ => none) = some (2, 2) := by rfl

/-- **C102** `entropy`: the block of a tree has its entropy, and the commitment of a block is the same without it. -/
theorem C102_block_entropy [Env] :
    (∀ (T : MerkleTree) (b : MerkleBlock), MerkleBlock.fromTree T = .ok b → b.entropy = some T.entropy) ∧
    ∀ (b : MerkleBlock) (e : Option UInt64), MerkleBlock.commitId { b with entropy := e } = b.commitId := by
  refine ⟨fun T b h => (C09_block T b h).2.2.2.1, fun b e => rfl⟩

/-- **C102** `single_leaf_tree`: one message, if no depth is asked for, makes a tree of one leaf; its root is the hash of the
leaf, which is all there is in its block. -/
theorem C102_single [Env] (rng : Option UInt64) (s : MultiSource) (p : ProtocolId) (m : Message)
    (hs : s.messages.entries = [(p, m)]) (h0 : s.minDepth = 0) (he : (s.staticEntropy.or rng).isSome) :
    ∃ T b c, MerkleTree.tryCommit rng s = .ok (.ok T) ∧ T.depth = 0 ∧ T.cofactor = 0 ∧
      MerkleBlock.fromTree T = .ok b ∧ b.crossSection = [.leaf p m] ∧
      T.root = .ok (leafHash (.inhabited p m)) ∧ T.commitId = .ok c ∧ b.commitId = .ok c := by
  have hids : s.ids = [p] := by simp [MultiSource.ids, hs]
  have ha : Attempt s.ids.length s.minDepth.val 0 0 := by rw [hids, h0]; exact ⟨by decide, by decide, Nat.le_refl 1, by decide⟩
  have hsep : Separates s.ids 0 0 := by rw [hids]; exact List.pairwise_singleton _ _
  obtain ⟨T, h, -⟩ := commits_at rng s he (Or.inr (by rw [hs]; exact List.cons_ne_nil _ _)) ha hsep
  have hno : ¬ Earlier 0 0 T.depth.val T.cofactor.toNat := fun e => (C02_first_fit rng s T h).2.2 0 0 ha e hsep
  simp only [Earlier] at hno
  have hd : T.depth = 0 := Fin.ext (by show _ = 0; omega)
  have hc : T.cofactor = 0 := UInt16.toNat_inj.1 (by show _ = 0; rw [hd] at hno; simp at hno; omega)
  obtain ⟨b, g1, -, -⟩ := full_block h
  obtain ⟨-, -, -, a1, -, -⟩ := C01_slots rng s T h
  have hm : s.messages.get p = some m := mem_bmapGet s.messages.sorted (by rw [hs]; exact List.mem_singleton_self _)
  have hpos : T.protocolIdPos p = 0 := by
    have := tree_pos_lt T p
    rw [hd] at this
    exact UInt32.toNat_inj.1 (by show _ = 0; simp at this; omega)
  have hl : T.leafAt 0 = .inhabited p m := by
    have := a1 p m hm
    rw [hpos] at this
    rw [MerkleTree.leafAt, show UInt32.ofNat 0 = 0 from rfl, this]
  obtain ⟨-, -, -, -, hlen, -, hcs⟩ := C09_block T b g1
  obtain ⟨b2, -, c, -, k1, -, k2, k3, -⟩ := C09_one_commitment T
  cases Except.ok.inj (k1.symm.trans g1)
  refine ⟨T, b, c, h, hd, hc, g1, ?_, ?_, k2, k3⟩
  · have h1 := hcs 0 (Nat.two_pow_pos _)
    rw [hl] at h1
    rw [hd] at hlen
    match hx : b.crossSection, hlen, h1 with
    | [x], _, h1 => rw [Option.some.inj h1]
  · rw [tree_root, MerkleTree.specRoot, MerkleTree.pt, hd]
    show Except.ok ((T.slot 0).root _ _) = _
    rw [slot_root, hl]

/-- Non-vacuity of `C102_single`. -/
example : ∃ (s : MultiSource), s.messages.entries = [(Sample.p5, Sample.m5)] ∧ s.minDepth = 0 ∧
    (s.staticEntropy.or none).isSome :=
  ⟨⟨.sha256t, 0, ⟨[(Sample.p5, Sample.m5)], by decide, by decide⟩, some 77⟩, rfl, rfl, rfl⟩

/-- **C102** `merge_reveal`: the proofs of all messages of a tree, put together in any order, give a block that reveals all the
messages and has the commitment of the tree. -/
theorem C102_merge [Env] (rng : Option UInt64) (s : MultiSource) (T : MerkleTree) (b : MerkleBlock)
    (h : MerkleTree.tryCommit rng s = .ok (.ok T)) (hb : MerkleBlock.fromTree T = .ok b)
    (pr : MerkleProof) (p : ProtocolId) (m : Message) (items : List (MerkleProof × ProtocolId × Message))
    (hi : ∀ x ∈ (pr, p, m) :: items, s.messages.get x.2.1 = some x.2.2 ∧ b.toMerkleProof x.2.1 = .ok (.ok x.1))
    (hall : ∀ q n, s.messages.get q = some n → ∃ x ∈ (pr, p, m) :: items, x.2.1 = q) :
    ∃ b0 b' c, MerkleBlock.with pr p m = .ok (.ok b0) ∧ b0.mergePaths items = .ok (.ok b') ∧
      T.commitId = .ok c ∧ b'.commitId = .ok c ∧ b'.knownMessages = b.knownMessages ∧
      ∀ q n, s.messages.get q = some n ↔ (q, n) ∈ b'.knownMessages := by
  obtain ⟨hT, hm, -⟩ := C16_committed_trees rng s T h
  obtain ⟨b1, g1, hof, -⟩ := full_block h
  cases Except.ok.inj (g1.symm.trans hb)
  obtain ⟨-, -, -, -, -, hv, -⟩ := C09_block T b hb
  have hknown : ∀ q n, s.messages.get q = some n ↔ (q, n) ∈ b.knownMessages := by
    intro q n
    have hb := hb
    rw [fromTree_eq] at hb
    cases hb
    rw [shows_known (fromTree_shows T), holds_known hT, hm]
    exact ⟨bmapGet_mem, mem_bmapGet s.messages.sorted⟩
  obtain ⟨b0, b', n, w1, w2, w3⟩ := C26_all_proofs T hT b hof pr p m items
    fun x hx => ⟨(hknown _ _).1 (hi x hx).1, (hi x hx).2⟩
  have hf := (C11_reveals_exactly b b' hv _ n w3).1
  have heq : b'.knownMessages = b.knownMessages := by
    rw [hf, List.filter_eq_self]
    rintro ⟨q, k⟩ hq
    obtain ⟨x, hx, e⟩ := hall q k ((hknown q k).2 hq)
    rw [decide_eq_true_iff]
    show q ∈ p :: items.map fun x => x.2.1
    rcases List.mem_cons.1 hx with rfl | hx
    · exact List.mem_cons.2 (Or.inl e.symm)
    · exact List.mem_cons_of_mem _ (List.mem_map.2 ⟨x, hx, e⟩)
  obtain ⟨b2, r, c, k1, -, -, -, -, k2, k3⟩ := C10_conceal_keeps_commitment b hv (p :: items.map fun x => x.2.1)
  rw [w3] at k1
  cases k1
  obtain ⟨b3, -, c', -, j1, -, j2, j3, -⟩ := C09_one_commitment T
  cases Except.ok.inj (j1.symm.trans hb)
  cases Except.ok.inj (j3.symm.trans k2)
  exact ⟨b0, b', _, w1, w2, j2, k3, heq, fun q k => by rw [heq]; exact hknown q k⟩

/-- Non-vacuity of `C102_merge`: the three proofs of the sample. -/
example [Env] : ∃ x1 x5 x6, MerkleTree.tryCommit none Sample.source = .ok (.ok Sample.tree) ∧
    MerkleBlock.fromTree Sample.tree = .ok Sample.block ∧
    Sample.block.toMerkleProof Sample.p1 = .ok (.ok x1) ∧ Sample.block.toMerkleProof Sample.p5 = .ok (.ok x5) ∧
    Sample.block.toMerkleProof Sample.p6 = .ok (.ok x6) ∧ x1 ≠ x5 ∧
    ∀ q n, Sample.source.messages.get q = some n → q = Sample.p1 ∨ q = Sample.p5 ∨ q = Sample.p6 := by
  have hc : MerkleTree.tryCommit none Sample.source = .ok (.ok Sample.tree) := by rfl
  obtain ⟨hT, hm, -⟩ := C16_committed_trees none _ _ hc
  obtain ⟨b, g1, g2, g3⟩ := full_block hc
  cases Except.ok.inj (g1.symm.trans Sample.from_tree)
  refine ⟨_, _, _, hc, g1, C57_proof_content _ hT _ g2 _ (g3 _ Sample.m1 (by decide)),
    C57_proof_content _ hT _ g2 _ (g3 _ Sample.m5 (by decide)), C57_proof_content _ hT _ g2 _ (g3 _ Sample.m6 (by decide)),
    fun e => absurd (show Sample.tree.protocolIdPos Sample.p1 = Sample.tree.protocolIdPos Sample.p5 from congrArg MerkleProof.pos e)
      (by decide), fun q n h => ?_⟩
  have := bmapGet_mem h
  simp [Sample.source, Sample.messages] at this
  rcases this with h | h | h
  · exact Or.inl h.1
  · exact Or.inr (Or.inl h.1)
  · exact Or.inr (Or.inr h.1)

end CSV
