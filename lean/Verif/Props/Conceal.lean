import Verif.Proofs.Canon
import Verif.Proofs.Sample

/-!
# Concealing (C09 - C15, C29)

`MerkleBlock.Valid` is structural validity (`Verif/Spec/PartialTree.lean`): the cross-section is
the frontier of some binary tree. All theorems hold for every hash function and both
build profiles (`Env`).
-/

namespace CSV

/-! ## C09 -/

/-- **C09** A tree, its block and its concealed form have one commitment; the concealed root is the
root of the tree; nothing panics. For every tree value, also ones not built by `try_commit`. -/
theorem C09_one_commitment [Env] (t : MerkleTree) :
    ∃ b c h root, MerkleBlock.fromTree t = .ok b ∧ t.conceal = .ok c ∧
      t.commitId = .ok h ∧ b.commitId = .ok h ∧ commitId c = .ok h ∧
      t.root = .ok root ∧ c = ⟨t.depth, t.cofactor, root⟩ := by
  refine ⟨_, _, _, _, fromTree_eq t, tree_conceal t, tree_commitId t, ?_, ?_, tree_root t, rfl⟩
  · exact shows_commitId (fromTree_shows t)
  · exact commitId_concealed _

/-- **C09** The root of a tree is the root of the complete binary tree over its leaves, and the
commitment is the tagged hash of depth, cofactor and root. -/
theorem C09_values [Env] (t : MerkleTree) :
    t.root = .ok t.specRoot ∧ t.commitId = .ok (commitmentHash ⟨t.depth, t.cofactor, t.specRoot⟩) ∧
    t.specRoot = (PT.full (fun i => .hidden (leafHash (t.leafAt i))) t.depth.val 0).root
      (2 ^ t.depth.val) 0 := by
  refine ⟨tree_root t, tree_commitId t, ?_⟩
  have : ∀ (w n lo d : Nat), (PT.full t.slot n lo).root w d
      = (PT.full (fun i => .hidden (leafHash (t.leafAt i))) n lo).root w d := by
    intro w n
    induction n with
    | zero => intro lo d; simp only [PT.full, slot_root]; rfl
    | succ n ih => intro lo d; simp only [PT.full, PT.root, ih]
  exact this _ _ _ _

/-- **C09** The block of a tree has one node for each slot and reveals exactly the messages of the
slots. -/
theorem C09_block [Env] (t : MerkleTree) (b : MerkleBlock) (h : MerkleBlock.fromTree t = .ok b) :
    b.method = t.method ∧ b.depth = t.depth ∧ b.cofactor = t.cofactor ∧
    b.entropy = some t.entropy ∧ b.crossSection.length = 2 ^ t.depth.val ∧ b.Valid ∧
    ∀ i, i < 2 ^ t.depth.val → b.crossSection[i]? = some (match t.leafAt i with
      | .inhabited p m => .leaf p m
      | .entropy _ _ => .concealed t.depth (leafHash (t.leafAt i))) := by
  rw [fromTree_eq] at h
  cases h
  have hf := frontier_full (fun i => slot_frontier t i) t.depth.val 0 0 (by omega)
  refine ⟨rfl, rfl, rfl, rfl, ?_, ⟨_, fromTree_shows t⟩, ?_⟩
  · show (t.pt.frontier 0).length = _
    rw [MerkleTree.pt, hf]; simp
  · intro i hi
    show (t.pt.frontier 0)[i]? = _
    rw [MerkleTree.pt, hf]
    rw [List.getElem?_map, List.getElem?_range' (by omega)]
    simp only [Option.map_some, MerkleTree.node, MerkleTree.leafAt]
    simp only [Nat.zero_add, Nat.one_mul]
    cases t.map.get (UInt32.ofNat i) <;> rfl

/-- Non-vacuity of C09: a tree with three messages and an unused slot. -/
example [Env] : MerkleBlock.fromTree Sample.tree = .ok Sample.block := Sample.from_tree

/-! ## C10 -/

/-- **C10** `conceal_except` never panics on a structurally valid block and, whether it succeeds or
not, keeps the commitment, method, depth, cofactor and structural validity. -/
theorem C10_conceal_keeps_commitment [Env] (b : MerkleBlock) (hb : b.Valid) (ps : List ProtocolId) :
    ∃ b' r c, b.concealExcept ps = .ok (b', r) ∧ b'.Valid ∧ b'.method = b.method ∧
      b'.depth = b.depth ∧ b'.cofactor = b.cofactor ∧
      b.commitId = .ok c ∧ b'.commitId = .ok c := by
  obtain ⟨t, ht⟩ := hb
  rcases concealExcept_cases ht ps with ⟨n, -, h, hs, -⟩ | ⟨p, -, -, h, hs⟩
  · refine ⟨_, _, _, h, ⟨_, hs⟩, rfl, rfl, rfl, shows_commitId ht, ?_⟩
    rw [shows_commitId hs]
    simp only [widthLimit, PT.root_canon, PT.root_hideLeaves]
  · refine ⟨_, _, _, h, ⟨_, hs⟩, rfl, rfl, rfl, shows_commitId ht, ?_⟩
    rw [shows_commitId hs]
    simp only [PT.root_hideLeaves]

/-- **C10** So does any number of calls, failing ones included. -/
theorem C10_any_number_of_calls [Env] (b : MerkleBlock) (hb : b.Valid)
    (calls : List (List ProtocolId)) :
    ∃ b' c, b.concealMany calls = .ok b' ∧ b'.Valid ∧ b.commitId = .ok c ∧ b'.commitId = .ok c := by
  induction calls generalizing b with
  | nil =>
    obtain ⟨t, ht⟩ := hb
    exact ⟨b, _, rfl, ⟨t, ht⟩, shows_commitId ht, shows_commitId ht⟩
  | cons ps calls ih =>
    obtain ⟨b1, r, c, h1, h2, -, -, -, h3, h4⟩ := C10_conceal_keeps_commitment b hb ps
    obtain ⟨b', c', h5, h6, h7, h8⟩ := ih b1 h2
    rw [h4] at h7
    cases h7
    refine ⟨b', c, ?_, h6, h3, h8⟩
    rw [MerkleBlock.concealMany, h1]
    exact h5

/-- **C10** `conceal_other` leaves the block that `conceal_except` with one protocol leaves, whether it succeeds or
not; it never panics on valid blocks and keeps the commitment. -/
theorem C10_conceal_other [Env] (b : MerkleBlock) (hb : b.Valid) (p : ProtocolId) :
    ∃ b' r c, b.concealOther p = .ok (b', r) ∧ b'.Valid ∧ (∃ r', b.concealExcept [p] = .ok (b', r')) ∧
      b.commitId = .ok c ∧ b'.commitId = .ok c ∧
      (r = .ok () ↔ p ∈ b.knownProtocolIds) ∧
      (r = .error ⟨p⟩ ↔ p ∉ b.knownProtocolIds) := by
  obtain ⟨b', r, c, h, hv, -, -, -, h1, h2⟩ := C10_conceal_keeps_commitment b hb [p]
  refine ⟨b', r.map (fun _ => ()), c, ?_, hv, ⟨r, h⟩, h1, h2, ?_⟩
  · rw [MerkleBlock.concealOther, h]; rfl
  · obtain ⟨t, ht⟩ := hb
    rcases concealExcept_cases ht [p] with ⟨n, hk, h', -, -⟩ | ⟨q, hq, hk, h', -⟩
    · rw [h] at h'
      cases h'
      have := hk p (by simp)
      simp [Except.map, this]
    · rw [h] at h'
      cases h'
      simp only [List.mem_cons, List.not_mem_nil, or_false] at hq
      subst hq
      simp [Except.map, hk]

/-- Non-vacuity of C10 - C13: concealing all but one protocol of three, and asking for an unknown
one. -/
theorem Sample.conceals [Env] : Sample.block.Valid ∧
    Sample.block.concealExcept [Sample.p1] = .ok (Sample.block1, .ok 3) ∧
    Sample.block.concealExcept [Sample.p9, Sample.p1]
      = .ok ({ Sample.block1 with crossSection := [
          .concealed 2 (leafHash (.inhabited Sample.p6 Sample.m6)), .leaf Sample.p1 Sample.m1,
          .concealed 2 (leafHash (.inhabited Sample.p5 Sample.m5)),
          .concealed 2 (leafHash (.entropy 77 3))] }, .error ⟨Sample.p9⟩) := by
  refine ⟨Sample.valid, ?_, ?_⟩
  · rcases concealExcept_cases Sample.shows_tree [Sample.p1] with ⟨n, -, h, -, hn⟩ | ⟨q, hq, hk, h, -⟩
    · rw [h]
      have : n = 3 := by
        have h1 : (((Sample.tree.pt.hideLeaves (List.contains [Sample.p1])).canon
          (2 ^ Sample.block.depth.val) 0).frontier 0).length = 3 := by rfl
        have h2 : Sample.block.crossSection.length + Sample.tree.pt.known.countP
          (fun e => !List.contains [Sample.p1] e.1) = 6 := by rfl
        omega
      rw [this]
      rfl
    · simp only [List.mem_cons, List.not_mem_nil, or_false] at hq
      subst hq
      exact absurd (by decide : Sample.p1 ∈ [Sample.p6, Sample.p1, Sample.p5]) hk
  · rw [concealExcept_err Sample.shows_tree (p := Sample.p9) (l := []) rfl]
    rfl

/-! ## C11 -/

/-- **C11** After a successful `conceal_except` exactly the requested messages are revealed, in the
same order; the entropy is gone; method, depth and cofactor are kept. -/
theorem C11_reveals_exactly [Env] (b b' : MerkleBlock) (hb : b.Valid) (ps : List ProtocolId) (n : Nat)
    (h : b.concealExcept ps = .ok (b', .ok n)) :
    b'.knownMessages = b.knownMessages.filter (fun e => e.1 ∈ ps) ∧
    b'.knownProtocolIds = b.knownProtocolIds.filter (· ∈ ps) ∧
    (∀ p ∈ ps, p ∈ b'.knownProtocolIds) ∧ b'.entropy = none ∧
    b'.method = b.method ∧ b'.depth = b.depth ∧ b'.cofactor = b.cofactor := by
  obtain ⟨t, ht⟩ := hb
  rcases concealExcept_cases ht ps with ⟨n, hk, h', hs, -⟩ | ⟨q, hq, hk, h', -⟩
  · rw [h] at h'
    cases h'
    have h1 : MerkleBlock.knownMessages { b with
        crossSection := ((t.hideLeaves ps.contains).canon (2 ^ b.depth.val) 0).frontier 0
        entropy := none } = b.knownMessages.filter (fun e => e.1 ∈ ps) := by
      rw [shows_known hs, shows_known ht, PT.known_canon, PT.known_hideLeaves]
      congr 1
      funext e
      rw [Bool.eq_iff_iff]
      simp
    have h2 : MerkleBlock.knownProtocolIds { b with
        crossSection := ((t.hideLeaves ps.contains).canon (2 ^ b.depth.val) 0).frontier 0
        entropy := none } = b.knownProtocolIds.filter (· ∈ ps) := by
      rw [knownIds_map, h1, knownIds_map, List.filter_map]
      rfl
    refine ⟨h1, h2, ?_, rfl, rfl, rfl, rfl⟩
    intro p hp
    rw [h2, List.mem_filter]
    exact ⟨hk p hp, by simpa using hp⟩
  · rw [h] at h'
    cases h'

/-- Non-vacuity of C11: two of three messages are hidden. -/
example [Env] : Sample.block.knownProtocolIds = [Sample.p6, Sample.p1, Sample.p5] ∧
    Sample.block1.knownProtocolIds = [Sample.p1] := ⟨rfl, rfl⟩

/-! ## C12 -/

/-- **C12** After a successful `conceal_except` no two siblings are both hidden. -/
theorem C12_minimal [Env] (b b' : MerkleBlock) (hb : b.Valid) (ps : List ProtocolId) (n : Nat)
    (h : b.concealExcept ps = .ok (b', .ok n)) : ∃ t, b'.Shows t ∧ t.Minimal := by
  obtain ⟨t, ht⟩ := hb
  rcases concealExcept_cases ht ps with ⟨n, hk, h', hs, -⟩ | ⟨q, hq, hk, h', -⟩
  · rw [h] at h'
    cases h'
    exact ⟨_, hs, PT.minimal_canon⟩
  · rw [h] at h'
    cases h'

/-- **C12** Order and repetitions of the ids do not matter, for any block. -/
theorem C12_set_of_ids [Env] (b : MerkleBlock) (ps qs : List ProtocolId)
    (h : ∀ p, p ∈ ps ↔ p ∈ qs) : b.concealExcept ps = b.concealExcept qs :=
  concealExcept_congr b h

/-- **C12** Concealing twice with the same ids changes nothing the second time. -/
theorem C12_idempotent [Env] (b b' : MerkleBlock) (hb : b.Valid) (ps : List ProtocolId) (n : Nat)
    (h : b.concealExcept ps = .ok (b', .ok n)) : b'.concealExcept ps = .ok (b', .ok 0) := by
  have hids := (C11_reveals_exactly b b' hb ps n h).2.2.1
  obtain ⟨t, ht⟩ := hb
  rcases concealExcept_cases ht ps with ⟨n, hk, h', hs, -⟩ | ⟨q, hq, hk, h', -⟩
  · rw [h] at h'
    cases h'
    rcases concealExcept_cases hs ps with ⟨m, -, h2, -, hm⟩ | ⟨q, hq, hk2, -, -⟩
    · have he : (((t.hideLeaves ps.contains).canon (2 ^ b.depth.val) 0).hideLeaves
          ps.contains).canon (2 ^ b.depth.val) 0
          = (t.hideLeaves ps.contains).canon (2 ^ b.depth.val) 0 := by
        rw [canon_hide_canon, hideLeaves_hideLeaves (fun _ h => h)]
      simp only [he] at h2 hm
      rw [h2]
      have : m = 0 := by
        have h3 : List.countP (fun e => !ps.contains e.1)
            ((t.hideLeaves ps.contains).canon (2 ^ b.depth.val) 0).known = 0 := by
          rw [PT.known_canon, PT.known_hideLeaves, List.countP_eq_zero]
          intro e he
          rw [List.mem_filter] at he
          rw [he.2]
          decide
        omega
      rw [this]
    · exact absurd (hids q hq) hk2
  · rw [h] at h'
    cases h'

/-- **C12** Earlier concealment does not matter: concealing first all but `qs` and then all but `ps`
is the same as doing the latter at once. -/
theorem C12_stepwise [Env] (b b1 b2 : MerkleBlock) (hb : b.Valid) (ps qs : List ProtocolId) (n m : Nat)
    (hsub : ∀ p ∈ ps, p ∈ qs) (h1 : b.concealExcept qs = .ok (b1, .ok n))
    (h2 : b.concealExcept ps = .ok (b2, .ok m)) :
    ∃ k, b1.concealExcept ps = .ok (b2, .ok k) := by
  have hids := (C11_reveals_exactly b b1 hb qs n h1).2.2.1
  obtain ⟨t, ht⟩ := hb
  rcases concealExcept_cases ht qs with ⟨n, hk, h', hs, -⟩ | ⟨q, hq, hk, h', -⟩
  · rw [h1] at h'
    cases h'
    rcases concealExcept_cases ht ps with ⟨m, hk, h', hs', -⟩ | ⟨q, hq, hk, h', -⟩
    · rw [h2] at h'
      cases h'
      rcases concealExcept_cases hs ps with ⟨k, -, h3, -, -⟩ | ⟨q, hq, hk2, -, -⟩
      · have he : (((t.hideLeaves qs.contains).canon (2 ^ b.depth.val) 0).hideLeaves
            ps.contains).canon (2 ^ b.depth.val) 0
            = (t.hideLeaves ps.contains).canon (2 ^ b.depth.val) 0 := by
          rw [canon_hide_canon, hideLeaves_hideLeaves]
          intro p hp
          rw [List.contains_iff_mem] at hp ⊢
          exact hsub p hp
        refine ⟨k, ?_⟩
        simp only [he] at h3
        exact h3
      · exact absurd (hids q (hsub q hq)) hk2
    · rw [h2] at h'
      cases h'
  · rw [h1] at h'
    cases h'

/-- **C12** For blocks of a committed tree the result depends only on the tree and the set of ids
kept, whatever was hidden before. -/
theorem C12_canonical [Env] (T : MerkleTree) (hT : T.Holds) (b1 b2 r1 r2 : MerkleBlock)
    (h1 : b1.OfTree T) (h2 : b2.OfTree T) (ps qs : List ProtocolId) (n m : Nat)
    (hset : ∀ p, p ∈ ps ↔ p ∈ qs) (hr1 : b1.concealExcept ps = .ok (r1, .ok n))
    (hr2 : b2.concealExcept qs = .ok (r2, .ok m)) : r1 = r2 := by
  rw [← concealExcept_congr b2 hset] at hr2
  obtain ⟨hm1, hd1, hc1, t1, hs1, hv1⟩ := h1
  obtain ⟨hm2, hd2, hc2, t2, hs2, hv2⟩ := h2
  rcases concealExcept_cases hs1 ps with ⟨n, hk1, h', -, -⟩ | ⟨q, hq, hk, h', -⟩
  case inr => rw [hr1] at h'; cases h'
  rw [hr1] at h'
  cases h'
  rcases concealExcept_cases hs2 ps with ⟨n, hk2, h', -, -⟩ | ⟨q, hq, hk, h', -⟩
  case inr => rw [hr2] at h'; cases h'
  rw [hr2] at h'
  cases h'
  have hcan : (t1.hideLeaves ps.contains).canon (2 ^ T.depth.val) 0
      = (t2.hideLeaves ps.contains).canon (2 ^ T.depth.val) 0 := by
    refine view_canon_unique (n := T.depth.val) (lo := 0) (view_hide hv1) (view_hide hv2) (fits_pt T)
      (by omega) ?_
    have hside : ∀ {b : MerkleBlock} {t : PT}, b.Shows t → t.View (2 ^ T.depth.val) T.pt 0 →
        (∀ p ∈ ps, p ∈ b.knownProtocolIds) → ∀ i p m,
        ((i, (p, m)) ∈ (t.hideLeaves ps.contains).slots T.depth.val 0 ↔
          p ∈ ps ∧ (p, m) ∈ T.messages.entries ∧ i = slotOf p T.cofactor.toNat T.depth.val) := by
      intro b t hs hv hk i p m
      constructor
      · intro h
        have hT' := (holds_slots hT).1 (view_slots (view_hide hv) h)
        have hkn := slot_known h
        rw [PT.known_hideLeaves, List.mem_filter] at hkn
        exact ⟨by simpa using hkn.2, hT'⟩
      · rintro ⟨hp, hmem, hi⟩
        have hkp := hk p hp
        rw [knownIds_map, shows_known hs, List.mem_map] at hkp
        obtain ⟨⟨p', m'⟩, hmem', rfl⟩ := hkp
        have hm' := (holds_known hT).1 (view_known hv hmem')
        have hmm : m' = m := by
          have e1 := mem_bmapGet T.messages.sorted hm'
          have e2 := mem_bmapGet T.messages.sorted hmem
          rw [e1] at e2
          exact Option.some.inj e2
        subst hmm
        have hkn : (p', m') ∈ (t.hideLeaves ps.contains).known := by
          rw [PT.known_hideLeaves, List.mem_filter]
          exact ⟨hmem', by simpa using hp⟩
        obtain ⟨j, hj⟩ := known_slot hkn T.depth.val 0
        have := ((holds_slots hT).1 (view_slots (view_hide hv) hj)).2
        rw [hi, ← this]
        exact hj
    rintro ⟨i, p, m⟩
    rw [hside hs1 hv1 hk1, hside hs2 hv2 hk2]
  obtain ⟨me1, de1, co1, cs1, en1⟩ := b1
  obtain ⟨me2, de2, co2, cs2, en2⟩ := b2
  dsimp only at hm1 hd1 hc1 hm2 hd2 hc2
  subst hm1 hd1 hc1 hm2 hd2 hc2
  simp only [hcan]

/-- Non-vacuity of C12: the full block and an already concealed block of one tree. -/
example [Env] : Sample.tree.Holds ∧ Sample.block.OfTree Sample.tree ∧
    Sample.block1.OfTree Sample.tree ∧ Sample.block ≠ Sample.block1 :=
  ⟨Sample.holds, Sample.view_block, Sample.view_block1, by
    intro h; have := congrArg MerkleBlock.entropy h; cases this⟩

/-! ## C13 -/

/-- **C13** `conceal_except` fails with `LeafNotKnown(p)` exactly if `p` is the smallest
requested id that is not revealed. For every block, malformed ones included. -/
theorem C13_leaf_not_known [Env] (b : MerkleBlock) (ps : List ProtocolId) (p : ProtocolId) :
    (∃ b', b.concealExcept ps = .ok (b', .error ⟨p⟩)) ↔
      p ∈ ps ∧ p ∉ b.knownProtocolIds ∧
      ∀ q ∈ ps, q ∉ b.knownProtocolIds → beNat p.bytes ≤ beNat q.bytes := by
  have hsort := missing_sorted b ps
  have hmem := @mem_missing b ps
  rw [concealExcept_eq]
  constructor
  · rintro ⟨b', h⟩
    cases hm : missing b ps with
    | nil =>
      rw [hm] at h
      simp only at h
      cases hc : concealOuter b.depth ((b.crossSection.map (hideNode b.depth ps.contains)).length + 1)
        (b.crossSection.map (hideNode b.depth ps.contains))
        ((revealed b.crossSection).countP (fun e => !ps.contains e.1)) with
      | error e => rw [hc] at h; cases h
      | ok x => rw [hc] at h; cases h
    | cons q l =>
      rw [hm] at h hsort
      cases h
      obtain ⟨h1, h2⟩ := hmem.1 (hm ▸ List.mem_cons_self (a := p) (l := l))
      refine ⟨h1, h2, fun q hq hk => ?_⟩
      have hq' := hmem.2 ⟨hq, hk⟩
      rw [hm, List.mem_cons] at hq'
      rcases hq' with rfl | hq'
      · exact Nat.le_refl _
      · exact Nat.le_of_lt ((List.pairwise_cons.1 hsort).1 q hq')
  · rintro ⟨h1, h2, h3⟩
    have hp := hmem.2 ⟨h1, h2⟩
    cases hm : missing b ps with
    | nil => rw [hm] at hp; simp at hp
    | cons q l =>
      have hq : q = p := by
        obtain ⟨hq1, hq2⟩ := hmem.1 (hm ▸ List.mem_cons_self (a := q) (l := l))
        have hle := h3 q hq1 hq2
        rw [hm, List.mem_cons] at hp
        rw [hm] at hsort
        rcases hp with rfl | hp
        · rfl
        · have : beNat q.bytes < beNat p.bytes := (List.pairwise_cons.1 hsort).1 p hp
          omega
      subst hq
      exact ⟨_, rfl⟩

/-- **C13** On structurally valid blocks it succeeds exactly if all requested ids are revealed. -/
theorem C13_ok_iff [Env] (b : MerkleBlock) (hb : b.Valid) (ps : List ProtocolId) :
    (∃ b' n, b.concealExcept ps = .ok (b', .ok n)) ↔ ∀ p ∈ ps, p ∈ b.knownProtocolIds := by
  obtain ⟨t, ht⟩ := hb
  rcases concealExcept_cases ht ps with ⟨n, hk, h, -, -⟩ | ⟨q, hq, hk, h, -⟩
  · exact ⟨fun _ => hk, fun _ => ⟨_, _, h⟩⟩
  · constructor
    · rintro ⟨b', n, h'⟩
      rw [h] at h'
      cases h'
    · intro h'
      exact absurd (h' q hq) hk

/-- Non-vacuity of C13: two ids missing, the smaller one reported. -/
example : Sample.p9 ∉ [Sample.p6, Sample.p1, Sample.p5] ∧
    beNat Sample.p9.bytes < beNat (Bytes32.ofNat 10).bytes := by decide +kernel

/-! ## C14 -/

/-- **C14 is false of the code**: there is a structurally valid block and a call that fails and
nevertheless hides a message the block revealed before and drops its entropy. -/
theorem C14_false : ¬ ∀ (_ : Env) (b b' : MerkleBlock) (ps : List ProtocolId) (e : LeafNotKnown),
    b.Valid → b.concealExcept ps = .ok (b', .error e) →
    b'.knownMessages = b.knownMessages ∧ b'.entropy = b.entropy := by
  intro h
  have := h (realEnv true) (@Sample.block (realEnv true)) _ [Sample.p9] ⟨Sample.p9⟩
    (@Sample.valid (realEnv true))
    (@concealExcept_err (realEnv true) _ _ (@Sample.shows_tree (realEnv true)) _ Sample.p9 [] rfl)
  exact absurd this.2 (by intro h; cases h)

/-- **C14**, the part that holds: after a failed call the block is still structurally valid, has the
commitment, method, depth and cofactor it had, and still reveals the requested messages it revealed
before. Missing: messages that were not requested are hidden (though not aggregated), and the
entropy is lost. -/
theorem C14_partial [Env] (b b' : MerkleBlock) (hb : b.Valid) (ps : List ProtocolId) (e : LeafNotKnown)
    (h : b.concealExcept ps = .ok (b', .error e)) :
    b'.Valid ∧ b'.method = b.method ∧ b'.depth = b.depth ∧ b'.cofactor = b.cofactor ∧
    (∃ c, b.commitId = .ok c ∧ b'.commitId = .ok c) ∧
    b'.knownMessages = b.knownMessages.filter (fun x => x.1 ∈ ps) ∧
    b'.crossSection.length = b.crossSection.length ∧ b'.entropy = none := by
  obtain ⟨b1, r, c, h1, h2, h3, h4, h5, h6, h7⟩ := C10_conceal_keeps_commitment b hb ps
  rw [h] at h1
  cases h1
  refine ⟨h2, h3, h4, h5, ⟨c, h6, h7⟩, ?_⟩
  obtain ⟨t, ht⟩ := hb
  rcases concealExcept_cases ht ps with ⟨n, hk, h', hs, -⟩ | ⟨q, hq, hk, h', hs⟩
  · rw [h] at h'
    cases h'
  · rw [h] at h'
    cases h'
    refine ⟨?_, ?_, rfl⟩
    · rw [shows_known hs, shows_known ht, PT.known_hideLeaves]
      congr 1
      funext e
      rw [Bool.eq_iff_iff]
      simp
    · show ((t.hideLeaves ps.contains).frontier 0).length = b.crossSection.length
      rw [ht.1, ← map_hideNode_frontier ht.2, List.length_map]

/-! ## C15 -/

/-- **C15** `conceal_except` terminates on every block, also a malformed one (the loops of the
model never run out of fuel); if it succeeds, the number returned is the number of leaves
hidden plus the number of nodes that disappeared. -/
theorem C15_terminates_and_counts [Env] (b : MerkleBlock) (ps : List ProtocolId) :
    b.concealExcept ps ≠ .error .fuel ∧
    ∀ b' n, b.concealExcept ps = .ok (b', .ok n) →
      n + b'.crossSection.length =
        (b.knownMessages.filter (fun e => ¬ e.1 ∈ ps)).length + b.crossSection.length := by
  have key : Holds (b.concealExcept ps) fun x => ∀ n, x.2 = .ok n →
      n + x.1.crossSection.length =
        (b.knownMessages.filter (fun e => ¬ e.1 ∈ ps)).length + b.crossSection.length := by
    rw [concealExcept_eq]
    cases missing b ps with
    | cons p l => exact holds_ok (by intro n h; cases h)
    | nil =>
      simp only
      refine Holds.bind (concealOuter_spec _ _ _ _ (Nat.lt_succ_self _)) ?_
      rintro ⟨cs, k⟩ hk
      refine holds_ok ?_
      intro n hn
      cases hn
      simp only [List.length_map] at hk
      show k + cs.length = _
      rw [← List.countP_eq_length_filter, knownMessages_eq]
      have : (revealed b.crossSection).countP (fun e => !ps.contains e.1)
          = (revealed b.crossSection).countP (fun e => decide (¬ e.1 ∈ ps)) := by
        congr 1
        funext e
        rw [Bool.eq_iff_iff]
        simp
      omega
  refine ⟨key.ne_fuel, ?_⟩
  intro b' n h
  exact key.of_ok h n rfl

/-- **C15** On a structurally valid block the number is zero exactly if the nodes are left as they
were. -/
theorem C15_zero_iff [Env] (b b' : MerkleBlock) (hb : b.Valid) (ps : List ProtocolId) (n : Nat)
    (h : b.concealExcept ps = .ok (b', .ok n)) :
    n = 0 ↔ b'.crossSection = b.crossSection := by
  have hcount := (C15_terminates_and_counts b ps).2 b' n h
  have hids := (C11_reveals_exactly b b' hb ps n h).1
  have hlen : ∀ l : List (ProtocolId × Message), (l.filter (fun e => ¬ e.1 ∈ ps)).length = 0 →
      l.filter (fun e => e.1 ∈ ps) = l := by
    intro l hl
    rw [List.filter_eq_self]
    intro e he
    rw [List.length_eq_zero_iff, List.filter_eq_nil_iff] at hl
    simpa using hl e he
  constructor
  · rintro rfl
    obtain ⟨t, ht⟩ := hb
    rcases concealExcept_cases ht ps with ⟨n, hk, h', hs, hn⟩ | ⟨q, hq, hk, h', hs⟩
    · rw [h] at h'
      cases h'
      have hle : ∀ (u : PT) (d : Nat), ((u.canon (2 ^ b.depth.val) d).frontier d).length
          ≤ (u.frontier d).length ∧ (((u.canon (2 ^ b.depth.val) d).frontier d).length
            = (u.frontier d).length → u.canon (2 ^ b.depth.val) d = u) := by
        intro u
        induction u with
        | hidden _ => intro d; exact ⟨Nat.le_refl _, fun _ => rfl⟩
        | leaf _ _ => intro d; exact ⟨Nat.le_refl _, fun _ => rfl⟩
        | node l r ihl ihr =>
          intro d
          have hl := ihl (d + 1)
          have hr := ihr (d + 1)
          by_cases hh : (l.canon (2 ^ b.depth.val) (d + 1)).isHidden = true ∧
              (r.canon (2 ^ b.depth.val) (d + 1)).isHidden = true
          · obtain ⟨h1, h2⟩ := hh
            have nl := List.length_pos_iff.2 (PT.frontier_ne_nil l (d + 1))
            have nr := List.length_pos_iff.2 (PT.frontier_ne_nil r (d + 1))
            cases hl' : l.canon (2 ^ b.depth.val) (d + 1) <;> simp [hl', PT.isHidden] at h1
            cases hr' : r.canon (2 ^ b.depth.val) (d + 1) <;> simp [hr', PT.isHidden] at h2
            rw [PT.canon_node_hidden hl' hr']
            simp only [PT.frontier, List.length_cons, List.length_nil, List.length_append]
            omega
          · rw [PT.canon_node hh]
            simp only [PT.frontier, List.length_append]
            refine ⟨by omega, fun he => ?_⟩
            rw [hl.2 (by omega), hr.2 (by omega)]
      have hkeep : t.hideLeaves ps.contains = t := by
        have hc0 : t.known.countP (fun e => !ps.contains e.1) = 0 := by
          have h1 := (hle (t.hideLeaves ps.contains) 0).1
          have h2 : ((t.hideLeaves ps.contains).frontier 0).length = b.crossSection.length := by
            rw [ht.1, ← map_hideNode_frontier ht.2, List.length_map]
          omega
        rw [List.countP_eq_zero] at hc0
        have : ∀ u : PT, (∀ e ∈ u.known, ¬ (!ps.contains e.1) = true) → u.hideLeaves ps.contains = u := by
          intro u
          induction u with
          | hidden _ => intro _; rfl
          | leaf p m =>
            intro hu
            have := hu (p, m) (by simp [PT.known])
            simp only [PT.hideLeaves]
            rw [if_pos (by simpa using this)]
          | node l r ihl ihr =>
            intro hu
            simp only [PT.known, List.mem_append] at hu
            simp only [PT.hideLeaves]
            rw [ihl (fun e he => hu e (.inl he)), ihr (fun e he => hu e (.inr he))]
        exact this t hc0
      have hc0 : t.known.countP (fun e => !ps.contains e.1) = 0 := by
        have h1 := (hle (t.hideLeaves ps.contains) 0).1
        rw [hkeep, ← ht.1] at h1
        rw [hkeep] at hn
        omega
      rw [hkeep] at hn ⊢
      have := (hle t 0).2 (by rw [← ht.1]; omega)
      show ((t.canon (2 ^ b.depth.val) 0).frontier 0) = b.crossSection
      rw [this, ht.1]
    · rw [h] at h'
      cases h'
  · intro he
    rw [he] at hcount
    have hk : b'.knownMessages = b.knownMessages := by
      rw [knownMessages_eq, knownMessages_eq, he]
    rw [hk] at hids
    have : (b.knownMessages.filter (fun e => ¬ e.1 ∈ ps)).length = 0 := by
      rw [List.length_eq_zero_iff, List.filter_eq_nil_iff]
      intro e hmem
      rw [hids] at hmem
      simpa using (List.mem_filter.1 hmem).2
    omega

/-- Non-vacuity of C15: three of the four nodes of the sample are touched. -/
example [Env] : (Sample.block.knownMessages.filter (fun e => ¬ e.1 ∈ [Sample.p1])).length
    + Sample.block.crossSection.length = 3 + Sample.block1.crossSection.length := by rfl

/-! ## C29 -/

/-- **C29** In a debug build a block has a commitment exactly if its cross-section is the frontier of
a binary tree with revealed leaves at the block's depth and hidden nodes at most one level below
(and at a 5-bit depth); for all other blocks `commit_id` panics. -/
theorem C29_debug [Env] (hd : dbg = true) (b : MerkleBlock) (c : Commitment) :
    b.commitId = .ok c ↔ ∃ t : PT, b.crossSection = t.frontier 0 ∧
      t.Fits (min (b.depth.val + 1) 31) b.depth.val 0 ∧
      c = commitmentHash ⟨b.depth, b.cofactor, t.root (2 ^ b.depth.val) 0⟩ := by
  rw [MerkleBlock.commitId_eq, bind_ok_iff]
  constructor
  · rintro ⟨x, hx, hc⟩
    cases hc
    obtain ⟨h1, h2, -⟩ := conceal_startsWith hx
    obtain ⟨t, h3, h4, h5⟩ := conceal_isTree hd hx
    refine ⟨t, h3, h4, ?_⟩
    obtain ⟨xd, xc, xr⟩ := x
    simp only at h1 h2 h5
    rw [h1, h2, ← h5]
    rfl
  · rintro ⟨t, h1, h2, rfl⟩
    exact ⟨_, isTree_conceal ⟨t, h1, h2, rfl⟩, rfl⟩

/-- **C29** In both profiles: frontiers have a commitment; and whenever a commitment is returned, a
prefix of the cross-section is such a frontier and its commitment is the one returned. -/
theorem C29_both_profiles [Env] (b : MerkleBlock) :
    (∀ t : PT, b.crossSection = t.frontier 0 → t.Fits (min (b.depth.val + 1) 31) b.depth.val 0 →
      b.commitId = .ok (commitmentHash ⟨b.depth, b.cofactor, t.root (2 ^ b.depth.val) 0⟩)) ∧
    (∀ c, b.commitId = .ok c → ∃ (t : PT) (rest : List TreeNode),
      b.crossSection = t.frontier 0 ++ rest ∧ t.Fits (min (b.depth.val + 1) 31) b.depth.val 0 ∧
      c = commitmentHash ⟨b.depth, b.cofactor, t.root (2 ^ b.depth.val) 0⟩) := by
  constructor
  · intro t h1 h2
    rw [MerkleBlock.commitId_eq, isTree_conceal ⟨t, h1, h2, rfl⟩]
    rfl
  · intro c h
    rw [MerkleBlock.commitId_eq, bind_ok_iff] at h
    obtain ⟨x, hx, hc⟩ := h
    cases hc
    obtain ⟨h1, h2, t, rest, h3, h4, h5⟩ := conceal_startsWith hx
    refine ⟨t, rest, h3, h4, ?_⟩
    obtain ⟨xd, xc, xr⟩ := x
    simp only at h1 h2 h5
    rw [h1, h2, ← h5]
    rfl

/-- **C29** Structurally valid blocks have a commitment in both profiles. -/
theorem C29_valid [Env] (b : MerkleBlock) (hb : b.Valid) : ∃ c, b.commitId = .ok c := by
  obtain ⟨t, ht⟩ := hb
  exact ⟨_, shows_commitId ht⟩

/-- **C29** There are blocks which decode (a non-empty cross-section) but whose commitment cannot be
computed: one hidden node at a depth other than zero panics in both profiles. -/
theorem C29_panics [Env] (b : MerkleBlock) (d : U5) (h : MerkleHash) (hd : d ≠ 0)
    (hb : b.crossSection = [.concealed d h]) : ∃ p, b.commitId = .error p := by
  cases hc : b.commitId with
  | error p => exact ⟨p, rfl⟩
  | ok c =>
    exfalso
    obtain ⟨t, rest, h1, h2, -⟩ := (C29_both_profiles b).2 c hc
    rw [hb] at h1
    cases t with
    | hidden h' =>
      simp only [PT.frontier, List.cons_append, List.nil_append, List.cons.injEq,
        TreeNode.concealed.injEq] at h1
      exact hd h1.1.1
    | leaf p m => simp [PT.frontier] at h1
    | node l r =>
      have nl := List.length_pos_iff.2 (PT.frontier_ne_nil l (0 + 1))
      have nr := List.length_pos_iff.2 (PT.frontier_ne_nil r (0 + 1))
      have := congrArg List.length h1
      simp only [PT.frontier, List.length_append, List.length_cons, List.length_nil] at this
      omega

/-- Non-vacuity of C29: the release build accepts a block with an appended leaf, the debug build
does not. -/
example : (@MerkleBlock.commitId (realEnv false)
      ⟨.sha256t, 1, 0, [.concealed 0 (Bytes32.fill 7), .leaf Sample.p1 Sample.m1], none⟩).isOk = true ∧
    (@MerkleBlock.commitId (realEnv true)
      ⟨.sha256t, 1, 0, [.concealed 0 (Bytes32.fill 7), .leaf Sample.p1 Sample.m1], none⟩).isOk = false := by
  decide +kernel

end CSV
