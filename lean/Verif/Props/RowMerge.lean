import Verif.Props.Row
import Verif.Props.Release
import Verif.Props.Absence

/-!
# C64: exactly when merging returns in release builds

One of the blocks is a block of a committed tree, the other one comes from elsewhere.
-/

namespace CSV

private theorem sumWidths_release [Env] (hd : dbg = false) {D : U5} : ∀ (l : List TreeNode) (acc : Nat),
    ∃ s, sumWidths D l acc = .ok s := by
  intro l
  induction l with
  | nil => intro acc; exact ⟨acc, rfl⟩
  | cons n l ih =>
    intro acc
    have h1 : ∀ a b, ∃ x, u8Sub dbg a b = .ok x := by
      intro a b; rw [hd, u8Sub]; split <;> exact ⟨_, rfl⟩
    have h2 : ∀ a, ∃ x, u32Pow2 dbg a = .ok x := by
      intro a; rw [hd, u32Pow2]; split <;> exact ⟨_, rfl⟩
    have h3 : ∀ a b, ∃ x, u32Add dbg a b = .ok x := by
      intro a b; rw [hd, u32Add]; split <;> exact ⟨_, rfl⟩
    obtain ⟨x, hx⟩ := h1 D.val (n.depthOr D).val
    obtain ⟨y, hy⟩ := h2 x
    obtain ⟨z, hz⟩ := h3 acc y
    obtain ⟨s, hs⟩ := ih z
    exact ⟨s, by rw [sumWidths, hx, ok_bind, hy, ok_bind, hz, ok_bind, hs]⟩

/-- What follows a complete tree decides whether there is a commitment, whichever tree it is. -/
private theorem commit_swap [Env] (hd : dbg = false) {b : MerkleBlock} {t u : PT} {r : List TreeNode} {c : Commitment}
    (ht : t.Fits b.depth.val b.depth.val 0) (hu : u.Fits b.depth.val b.depth.val 0)
    (h : MerkleBlock.commitId { b with crossSection := t.frontier 0 ++ r } = .ok c) :
    MerkleBlock.commitId { b with crossSection := u.frontier 0 ++ r } =
      .ok (commitmentHash ⟨b.depth, b.cofactor, u.root (2 ^ b.depth.val) 0⟩) := by
  have hlt := b.depth.isLt
  have hle : b.depth.val ≤ min (b.depth.val + 1) 31 := by omega
  obtain ⟨t', row, h1, h2, -⟩ := (C29_release hd _ c).1 h
  simp only [rowNodes, List.flatMap_cons] at h1 h2
  have hf' : t'.Fits (min (b.depth.val + 1) 31) b.depth.val 0 := by
    have : Placed b.depth.val 0 t' 0 := by
      cases row with
      | nil => exact h2
      | cons y row => exact h2.1
    cases t' with
    | node l r => exact this.1
    | hidden h => exact Nat.zero_le _
    | leaf p m => exact this.1
  obtain ⟨rfl, rfl⟩ := frontier_inj (by omega) (by omega) (fits_mono hle ht) hf' h1
  refine (C29_release hd _ _).2 ⟨u, row, by simp only [rowNodes, List.flatMap_cons], ?_, rfl⟩
  have hp : Placed b.depth.val 0 u 0 := by
    refine ⟨?_, fun _ => Nat.zero_mod _⟩
    cases hi : u.isNode with
    | true => exact fits_mono hle hu
    | false =>
      show u.Fits 31 _ _
      exact fits_mono (by omega) hu
  cases row with
  | nil => exact hp
  | cons y row => exact ⟨hp, h2.2⟩

private theorem merge_release [Env] (hd : dbg = false) (T : MerkleTree) (b o : MerkleBlock) (t1 t2 : PT) (r1 r2 r : List TreeNode)
    (h1 : b.Begins T t1 r1) (h2 : o.Begins T t2 r2) (i1 : b.commitId = T.commitId) (i2 : o.commitId = T.commitId)
    (hr : mergeL T.depth r1 r2 = .ok r) :
    (∃ x, b.mergeReveal o = .ok x) ↔ ((t1.join t2).frontier 0 ++ r).length < 2 ^ 32 ∧ coverage T.depth r % 2 ^ 32 = 0 ∧
      ∃ c, MerkleBlock.commitId { b with crossSection := t1.frontier 0 ++ r } = .ok c := by
  obtain ⟨m1, d1, co1, e1, f1, v1⟩ := h1
  obtain ⟨m2, d2, co2, e2, f2, v2⟩ := h2
  have hlt := T.depth.isLt
  have hw : 2 ^ T.depth.val < 2 ^ 32 := Nat.pow_lt_pow_right (by omega) hlt
  have hc := view_compat v1 v2
  have hf := join_fits hc f1 f2
  have hv := view_join v1 v2
  have hloop : mergeL T.depth b.crossSection o.crossSection = .ok ((t1.join t2).frontier 0 ++ r) := by
    rw [e1, e2, mergeL_join t1 t2 0 r1 r2 f1 f2 (by omega) hc, hr]
    rfl
  by_cases hs : ((t1.join t2).frontier 0 ++ r).length < 2 ^ 32
  rotate_left
  · constructor
    · rintro ⟨x, hx⟩
      rw [MerkleBlock.mergeReveal, i1, i2, tree_commitId, ok_bind, ok_bind, if_neg (by simp),
        mergeLoop_eq (Nat.le_refl _), d1, hloop, ok_bind, nonEmptyVec, if_neg (by omega)] at hx
      cases hx
    · rintro ⟨h, -⟩
      exact absurd h hs
  have hne : nonEmptyVec ((t1.join t2).frontier 0 ++ r) = .ok ((t1.join t2).frontier 0 ++ r) := by
    have := frontier_pos (t1.join t2) 0
    rw [nonEmptyVec, if_pos]
    refine ⟨?_, by omega⟩
    rw [List.length_append]
    omega
  have hcov : coverage T.depth ((t1.join t2).frontier 0 ++ r) = 2 ^ T.depth.val + coverage T.depth r := by
    rw [coverage_append, coverage_frontier hf (Nat.zero_le _)]
    rfl
  obtain ⟨s, hsum⟩ := sumWidths_release hd (D := T.depth) ((t1.join t2).frontier 0 ++ r) 0
  obtain ⟨g1, -⟩ := sumWidths_coverage _ _ _ (by decide) hsum
  rw [Nat.zero_add, hcov] at g1
  have hmerge : b.mergeReveal o = (do
      assert' (decide (s = 2 ^ T.depth.val))
      let root ← MerkleBlock.commitId { b with crossSection := (t1.join t2).frontier 0 ++ r }
      assert' (decide (T.specCommitment = root))
      .ok ({ b with crossSection := (t1.join t2).frontier 0 ++ r },
        .ok (UInt16.ofNat ((t1.join t2).frontier 0 ++ r).length))) := by
    rw [MerkleBlock.mergeReveal, i1, i2, tree_commitId, ok_bind, ok_bind, if_neg (by simp),
      mergeLoop_eq (Nat.le_refl _), d1, hloop, ok_bind, hne, ok_bind]
    dsimp only
    rw [hsum, ok_bind]
    rfl
  have hwrap : s = 2 ^ T.depth.val ↔ coverage T.depth r % 2 ^ 32 = 0 := by
    rw [g1]
    generalize 2 ^ T.depth.val = w at hw
    omega
  rw [hmerge]
  constructor
  · rintro ⟨x, hx⟩
    obtain ⟨_, k1, hx⟩ := (bind_ok_iff ..).1 hx
    obtain ⟨c, k2, hx⟩ := (bind_ok_iff ..).1 hx
    refine ⟨hs, hwrap.1 ?_, ?_⟩
    · unfold assert' at k1
      split at k1
      · exact of_decide_eq_true ‹_›
      · cases k1
    · exact ⟨_, commit_swap hd (by rw [d1]; exact hf) (by rw [d1]; exact f1) k2⟩
  · rintro ⟨-, k1, c, k2⟩
    have k3 := commit_swap hd (u := t1.join t2) (by rw [d1]; exact f1) (by rw [d1]; exact hf) k2
    have k4 : commitmentHash ⟨b.depth, b.cofactor, (t1.join t2).root (2 ^ b.depth.val) 0⟩ = T.specCommitment := by
      rw [d1, co1, view_root hv]
      rfl
    rw [k3, k4]
    simp [assert', hwrap.2 k1, ok_bind]

/-- **C64** Exactly when merging returns in a release build, for two blocks with the commitment of a committed tree, of which one
has no nodes after those of the tree: the union of the two views and the nodes following the tree in the other one, without
the first of them, are fewer than 2^32; the leaves under the latter are a multiple of 2^32; and there still is a commitment when
they are appended to the tree. -/
theorem C64_release_trailing [Env] (hd : dbg = false) (T : MerkleTree) (b o : MerkleBlock) (t1 t2 : PT) (r1 r2 : List TreeNode)
    (h1 : b.Begins T t1 r1) (h2 : o.Begins T t2 r2) (i1 : b.commitId = T.commitId) (i2 : o.commitId = T.commitId)
    (hr : r1 = [] ∨ r2 = []) :
    (∃ x, b.mergeReveal o = .ok x) ↔ ((t1.join t2).frontier 0 ++ (r1 ++ r2).tail).length < 2 ^ 32 ∧
      coverage T.depth (r1 ++ r2).tail % 2 ^ 32 = 0 ∧
      ∃ c, MerkleBlock.commitId { b with crossSection := t1.frontier 0 ++ (r1 ++ r2).tail } = .ok c := by
  have hlast : mergeL T.depth r1 r2 = .ok (r1 ++ r2).tail := by
    rcases hr with rfl | rfl
    · cases r2 <;> rfl
    · rw [List.append_nil]
      cases r1 <;> rfl
  exact merge_release hd T b o t1 t2 r1 r2 _ h1 h2 i1 i2 hlast

/-- **C64** Exactly when merging a received block into a block of a committed tree returns in a release build: the received
block has a commitment, and either this is another one than that of the tree, or the nodes following the tree, without
the first of them, have leaves the number of which is a multiple of 2^32, and the block of the tree still has a commitment
when they are appended. -/
theorem C64_release_iff [Env] (hd : dbg = false) (T : MerkleTree) (b o : MerkleBlock) (hb : b.OfTree T)
    (hs : b.crossSection.length + o.crossSection.length < 2 ^ 32)
    (hn : ∀ (t : PT) (rest : List TreeNode), o.crossSection = t.frontier 0 ++ rest →
      t.Fits (min (o.depth.val + 1) 31) o.depth.val 0 → NoCollision (blockInputs o.depth o.cofactor t ++ T.inputs)) :
    (∃ x, b.mergeReveal o = .ok x) ↔ ∃ c, o.commitId = .ok c ∧ (b.commitId = .ok c →
      ∃ (t : PT) (rest : List TreeNode), o.Begins T t rest ∧ coverage T.depth rest.tail % 2 ^ 32 = 0 ∧
        ∃ c', MerkleBlock.commitId { b with crossSection := b.crossSection ++ rest.tail } = .ok c') := by
  have hbc := ofTree_commitId hb
  cases hoc : o.commitId with
  | error p =>
    constructor
    · rintro ⟨x, hx⟩
      rw [MerkleBlock.mergeReveal, hbc, ok_bind, hoc] at hx
      cases hx
    · rintro ⟨c, hc, -⟩
      cases hc
  | ok c =>
    by_cases hcc : c = T.specCommitment
    · subst hcc
      obtain ⟨t', rest', e', f', hv'⟩ := C63_begins T o (by rw [hoc, tree_commitId])
      obtain ⟨t2, ht2, h2⟩ := hv' (hn t' rest' e' f')
      obtain ⟨m1, d1, co1, t1, hs1, v1⟩ := hb
      have h1 : b.Begins T t1 [] := ⟨m1, d1, co1, by rw [hs1.1, List.append_nil], by rw [← d1]; exact hs1.2, v1⟩
      have key := C64_release_trailing hd T b o t1 t2 [] rest' h1 h2 (by rw [hbc, tree_commitId])
        (by rw [hoc, tree_commitId]) (Or.inl rfl)
      have hlen : ((t1.join t2).frontier 0 ++ ([] ++ rest').tail).length < 2 ^ 32 := by
        have hr : mergeL T.depth [] rest' = .ok rest'.tail := by cases rest' <;> rfl
        have := mergeL_join t1 t2 0 [] rest' h1.2.2.2.2.1 h2.2.2.2.2.1 (by omega) (view_compat v1 h2.2.2.2.2.2)
        rw [hr, ok_bind, ← h1.2.2.2.1, ← h2.2.2.2.1] at this
        have := mergeLoop_length _ _ _ _ this
        rw [List.nil_append]
        omega
      rw [key, List.nil_append, ← hs1.1]
      constructor
      · rintro ⟨-, k1, k2⟩
        exact ⟨_, rfl, fun _ => ⟨t2, rest', h2, k1, k2⟩⟩
      · rintro ⟨c, hc, k⟩
        cases hc
        obtain ⟨t3, rest3, h3, k1, k2⟩ := k hbc
        have h4 := h2.2.2.2.1
        rw [h3.2.2.2.1] at h4
        obtain ⟨-, rfl⟩ := frontier_inj (by omega) (by omega) h3.2.2.2.2.1 h2.2.2.2.2.1 h4
        exact ⟨hlen, k1, k2⟩
    · constructor
      · intro _
        exact ⟨c, rfl, fun h => absurd (by rw [hbc] at h; cases h; rfl) hcc⟩
      · intro _
        refine ⟨(b, .error (.unrelatedBlocks T.specCommitment c)), ?_⟩
        rw [MerkleBlock.mergeReveal, hbc, ok_bind, hoc, ok_bind, if_pos (fun h => hcc h.symm)]

/-- A block with the commitment of the sample tree: its root, a node of depth 1, and one below the leaves. -/
private def deepBlock [Env] (x : MerkleHash) : MerkleBlock :=
  ⟨.sha256t, 2, 1, [.concealed 0 Sample.tree.specRoot, .concealed 1 x, .concealed 7 x], none⟩

/-- As before, with two nodes of depth 1 and 2. -/
private def wideBlock [Env] (x : MerkleHash) : MerkleBlock :=
  ⟨.sha256t, 2, 1, [.concealed 0 Sample.tree.specRoot, .concealed 1 x, .concealed 2 x], none⟩

private theorem three_commitId [Env] (hd : dbg = false) (x : MerkleHash) (e : U5) (he : e = 7 ∨ e = 2) :
    MerkleBlock.commitId ⟨.sha256t, 2, 1, [.concealed 0 Sample.tree.specRoot, .concealed 1 x, .concealed e x], none⟩ =
      Sample.tree.commitId := by
  rw [tree_commitId, C29_release hd]
  refine ⟨.hidden Sample.tree.specRoot, [(.hidden x, 1), (.hidden x, e.val)], ?_, ?_, rfl⟩
  · rcases he with rfl | rfl <;> rfl
  · show Row 2 0 _
    rcases he with rfl | rfl <;> simp [Row, Placed, Apart, PT.Fits, PT.isNode, PT.firstDepth, under]
    decide

/-- Non-vacuity: the former of the two blocks can be merged into a block of the tree in a release build. -/
example [Env] (hd : dbg = false) (x : MerkleHash) : ∃ y, Sample.block.mergeReveal (deepBlock x) = .ok y := by
  obtain ⟨hm, hde, hco, t, hs, hv⟩ := Sample.view_block
  have h1 : Sample.block.Begins Sample.tree t [] := ⟨hm, hde, hco, by rw [hs.1, List.append_nil], hs.2, hv⟩
  rw [C64_release_trailing hd Sample.tree _ (deepBlock x) t (.hidden Sample.tree.specRoot) [] [.concealed 1 x, .concealed 7 x] h1
    ⟨rfl, rfl, rfl, rfl, Nat.zero_le _, rfl⟩ (by rw [tree_commitId, ofTree_commitId Sample.view_block])
    (three_commitId hd x 7 (Or.inl rfl)) (Or.inl rfl)]
  refine ⟨?_, rfl, _, (C29_release hd _ _).2 ⟨t, [(.hidden x, 7)], rfl, ?_, rfl⟩⟩
  · have hl : (t.frontier 0).length = 4 := by rw [← hs.1]; rfl
    have hj : (t.join (.hidden Sample.tree.specRoot)).frontier 0 = t.frontier 0 := by
      cases t with
      | hidden h => cases hl
      | leaf p m => rfl
      | node l r => rfl
    rw [hj, List.length_append, hl]
    show 4 + 1 < 2 ^ 32
    decide
  show Row 2 0 _
  have hs2 : t.Fits 2 2 0 := hs.2
  refine ⟨⟨?_, fun _ => rfl⟩, ?_, ?_⟩
  · cases hi : t.isNode with
    | true => exact fits_mono (by decide) hs2
    | false => exact fits_mono (H' := 31) (by decide) hs2
  · simp [Apart]
  · simp [Row, Placed, PT.Fits, PT.isNode]

/-- The latter cannot. -/
example [Env] (hd : dbg = false) (x : MerkleHash) : ¬ ∃ y, Sample.block.mergeReveal (wideBlock x) = .ok y := by
  obtain ⟨hm, hde, hco, t, hs, hv⟩ := Sample.view_block
  have h1 : Sample.block.Begins Sample.tree t [] := ⟨hm, hde, hco, by rw [hs.1, List.append_nil], hs.2, hv⟩
  rw [C64_release_trailing hd Sample.tree _ (wideBlock x) t (.hidden Sample.tree.specRoot) [] [.concealed 1 x, .concealed 2 x] h1
    ⟨rfl, rfl, rfl, rfl, Nat.zero_le _, rfl⟩ (by rw [tree_commitId, ofTree_commitId Sample.view_block])
    (three_commitId hd x 2 (Or.inr rfl)) (Or.inl rfl)]
  rintro ⟨-, h, -⟩
  cases h

end CSV
