import Verif.Props.MergeAny
import Verif.Props.Received
import Verif.Props.Size

/-!
# C64: merging received blocks of moderate size, in both profiles
-/

namespace CSV

theorem mergeLoop_length {D : U5} : ∀ (f : Nat) (a b l : List TreeNode),
    mergeLoop D f a b = .ok l → l.length ≤ a.length + b.length := by
  intro f
  induction f with
  | zero =>
    intro a b l h
    cases a <;> cases b <;> simp only [mergeLoop] at h <;> cases h <;> simp <;> omega
  | succ f ih =>
    intro a b l h
    cases a with
    | nil => cases b <;> simp only [mergeLoop] at h <;> cases h <;> simp
    | cons x a =>
      cases b with
      | nil => simp only [mergeLoop] at h; cases h; simp
      | cons y b =>
        simp only [mergeLoop] at h
        simp only [List.length_cons]
        split at h
        · split at h
          · obtain ⟨r, h1, h⟩ := (bind_ok_iff ..).1 h
            cases h
            have := ih _ _ _ h1
            simp only [List.length_cons]; omega
          · split at h
            · obtain ⟨r, h1, h⟩ := (bind_ok_iff ..).1 h
              cases h
              have := ih _ _ _ h1
              simp only [List.length_cons]; omega
            · obtain ⟨r, h1, h⟩ := (bind_ok_iff ..).1 h
              cases h
              have := ih _ _ _ h1
              simp only [List.length_cons]; omega
            · have := ih _ _ _ h
              omega
            · cases h
        · split at h
          · obtain ⟨⟨t, u⟩, h1, h⟩ := (bind_ok_iff ..).1 h
            obtain ⟨r, h2, h⟩ := (bind_ok_iff ..).1 h
            cases h
            have hs := congrArg List.length (takeBuoy_split _ _ _ _ h1)
            have : r.length ≤ _ + _ := ih _ _ _ h2
            dsimp only at this
            simp only [List.length_append] at hs
            simp only [List.cons_append, List.length_cons, List.length_append]; omega
          · obtain ⟨⟨t, u⟩, h1, h⟩ := (bind_ok_iff ..).1 h
            obtain ⟨r, h2, h⟩ := (bind_ok_iff ..).1 h
            cases h
            have hs := congrArg List.length (takeBuoy_split _ _ _ _ h1)
            have : r.length ≤ _ + _ := ih _ _ _ h2
            dsimp only at this
            simp only [List.length_append] at hs
            simp only [List.cons_append, List.length_cons, List.length_append]; omega

private theorem coverage_le (D : U5) : ∀ l : List TreeNode, coverage D l ≤ l.length * 2 ^ D.val
  | [] => by simp [coverage]
  | x :: l => by
    rw [coverage_cons, List.length_cons, Nat.succ_mul]
    have h1 := coverage_le D l
    have h2 : 2 ^ (D.val - (x.depthOr D).val) ≤ 2 ^ D.val := Nat.pow_le_pow_right (by decide) (by omega)
    generalize l.length * 2 ^ D.val = x at *
    generalize 2 ^ D.val = y at *
    split <;> omega

private theorem coverage_zero {D : U5} : ∀ {l : List TreeNode}, coverage D l = 0 → Deep D l
  | [], _, x, hx => by cases hx
  | y :: l, h, x, hx => by
    rw [coverage_cons] at h
    have hp : 0 < 2 ^ (D.val - (y.depthOr D).val) := Nat.two_pow_pos _
    have h1 : ¬ (y.depthOr D).val ≤ D.val := by
      intro hle
      rw [if_pos hle] at h
      omega
    rcases List.mem_cons.1 hx with rfl | hx
    · cases x with
      | concealed d w => exact ⟨d, w, rfl, by simpa [TreeNode.depthOr] using h1⟩
      | leaf p m => exact absurd (Nat.le_refl _) h1
    · exact coverage_zero (by omega) x hx

private theorem begins_of_ofTree [Env] {T : MerkleTree} {b : MerkleBlock} {l rest : List TreeNode}
    (h : ({ b with crossSection := l } : MerkleBlock).OfTree T) (e : b.crossSection = l ++ rest) :
    ∃ t : PT, l = t.frontier 0 ∧ b.Begins T t rest := by
  obtain ⟨h1, h2, h3, t, hs, hv⟩ := h
  have hl : l = t.frontier 0 := hs.1
  subst hl
  exact ⟨t, rfl, h1, h2, h3, e, by have := hs.2; rw [← h2]; exact this, hv⟩

private theorem begins_prefix [Env] {T : MerkleTree} {b : MerkleBlock} {t : PT} {rest : List TreeNode}
    (h : b.Begins T t rest) : ({ b with crossSection := t.frontier 0 } : MerkleBlock).OfTree T := by
  obtain ⟨h1, h2, h3, -, hf, hv⟩ := h
  exact ⟨h1, h2, h3, t, ⟨rfl, by rw [show MerkleBlock.depth _ = b.depth from rfl, h2]; exact hf⟩, hv⟩

private theorem deep_known [Env] {T : MerkleTree} {b : MerkleBlock} {t : PT} {rest : List TreeNode}
    (h : b.Begins T t rest) (hr : Deep T.depth rest) : b.knownMessages = t.known := by
  rw [knownMessages_eq, h.2.2.2.1, revealed_append, revealed_frontier]
  have : ∀ l : List TreeNode, Deep T.depth l → revealed l = [] := by
    intro l hl
    induction l with
    | nil => rfl
    | cons x l ih =>
      obtain ⟨d, h, rfl, -⟩ := hl x (by simp)
      exact ih fun y hy => hl y (by simp [hy])
  rw [this rest hr, List.append_nil]

/-- **C63** For both profiles: a block with the commitment of a committed tree begins with a view of it. -/
theorem C63_begins [Env] (T : MerkleTree) (b : MerkleBlock) (hb : b.commitId = T.commitId) :
    ∃ (t : PT) (rest : List TreeNode), b.crossSection = t.frontier 0 ++ rest ∧
      t.Fits (min (b.depth.val + 1) 31) b.depth.val 0 ∧
      (NoCollision (blockInputs b.depth b.cofactor t ++ T.inputs) →
        ∃ u : PT, u.frontier 0 = t.frontier 0 ∧ b.Begins T u rest) := by
  rw [tree_commitId] at hb
  obtain ⟨t, rest, e, hf, -, hn⟩ := C63_received T b _ (tree_commitId T) hb
  refine ⟨t, rest, e, hf, fun hcol => ?_⟩
  obtain ⟨u, h1, h2⟩ := begins_of_ofTree (hn hcol) e
  exact ⟨u, h1.symm, h2⟩

/-- **C64** In both profiles: whatever two blocks beginning with views of a committed tree - which is to
say by `C63_begins` with its commitment - are merged, if they have at most `2 ^ (32 - depth)` nodes
together a successful merge gives a block beginning with the union of the two views, which is followed
only by hidden nodes below the depth of the tree. So it reveals only committed messages, one per
protocol, also if an operand did not: nodes that followed the views are lost or are such. The message
planted in `C64_release_false` needs more nodes. -/
theorem C64_moderate [Env] (T : MerkleTree) (hT : T.Holds) (b o b' : MerkleBlock) (n : UInt16)
    (t1 t2 : PT) (r1 r2 : List TreeNode) (h1 : b.Begins T t1 r1) (h2 : o.Begins T t2 r2)
    (h : b.mergeReveal o = .ok (b', .ok n))
    (hs : b.crossSection.length + o.crossSection.length ≤ 2 ^ (32 - T.depth.val)) :
    ∃ r, b'.Begins T (t1.join t2) r ∧ Deep T.depth r ∧
      b'.crossSection.length ≤ b.crossSection.length + o.crossSection.length ∧
      (∀ e, e ∈ b'.knownMessages ↔ e ∈ t1.known ∨ e ∈ t2.known) ∧
      (∀ p m, (p, m) ∈ b'.knownMessages → T.messages.get p = some m) ∧
      b'.knownProtocolIds.Nodup := by
  obtain ⟨c1, c2, -, -, -, km, kd, kco, -, -, hok, -⟩ := C72_any b o b' _ h
  obtain ⟨-, -, -, hcov, -⟩ := hok n rfl
  obtain ⟨m1, d1, co1, e1, f1, v1⟩ := h1
  obtain ⟨m2, d2, co2, e2, f2, v2⟩ := h2
  have hlt := T.depth.isLt
  have hc := view_compat v1 v2
  have hf := join_fits hc f1 f2
  have hv := view_join v1 v2
  have hres : ∃ r, b'.crossSection = (t1.join t2).frontier 0 ++ r ∧
      b'.crossSection.length ≤ b.crossSection.length + o.crossSection.length := by
    rw [MerkleBlock.mergeReveal] at h
    obtain ⟨c1, -, h⟩ := (bind_ok_iff ..).1 h
    obtain ⟨c2, -, h⟩ := (bind_ok_iff ..).1 h
    split at h
    · cases h
    · obtain ⟨x1, g1, h⟩ := (bind_ok_iff ..).1 h
      obtain ⟨x2, g2, h⟩ := (bind_ok_iff ..).1 h
      obtain ⟨x3, g3, h⟩ := (bind_ok_iff ..).1 h
      obtain ⟨x4, g4, h⟩ := (bind_ok_iff ..).1 h
      obtain ⟨x5, g5, h⟩ := (bind_ok_iff ..).1 h
      obtain ⟨x6, g6, h⟩ := (bind_ok_iff ..).1 h
      cases h
      unfold nonEmptyVec at g2
      split at g2 <;> cases g2
      have hlen := mergeLoop_length _ _ _ _ g1
      rw [mergeLoop_eq (Nat.le_refl _), d1, e1, e2, mergeL_join t1 t2 0 r1 r2 f1 f2 (by omega) hc] at g1
      obtain ⟨r, -, g1⟩ := (bind_ok_iff ..).1 g1
      cases g1
      exact ⟨r, rfl, hlen⟩
  obtain ⟨r, hcs, hlen⟩ := hres
  have hb' : b'.Begins T (t1.join t2) r :=
    ⟨km.trans m1, kd.trans d1, kco.trans co1, hcs, hf, hv⟩
  have hcr : coverage T.depth r = 0 := by
    have g1 := coverage_le T.depth b'.crossSection
    have g2 : coverage T.depth ((t1.join t2).frontier 0) = 2 ^ T.depth.val :=
      coverage_frontier (d := 0) hf (Nat.zero_le _)
    have g3 : b'.crossSection.length * 2 ^ T.depth.val ≤ 2 ^ 32 := by
      calc _ ≤ 2 ^ (32 - T.depth.val) * 2 ^ T.depth.val := Nat.mul_le_mul_right _ (by omega)
        _ = 2 ^ 32 := by rw [← Nat.pow_add]; congr 1; omega
    have g4 : 0 < 2 ^ T.depth.val := Nat.two_pow_pos _
    rw [kd, d1] at hcov
    have g5 : coverage T.depth b'.crossSection = 2 ^ T.depth.val + coverage T.depth r := by
      rw [hcs, coverage_append, g2]
    omega
  have hdeep := coverage_zero hcr
  have hkn := deep_known hb' hdeep
  obtain ⟨g1, g2⟩ := C30_partial T hT _ (begins_prefix hb')
  have hkn' : (MerkleBlock.mk b'.method b'.depth b'.cofactor ((t1.join t2).frontier 0)
      b'.entropy).knownMessages = (t1.join t2).known := by
    rw [knownMessages_eq, revealed_frontier]
  refine ⟨r, hb', hdeep, hlen, fun e => ?_, ?_, ?_⟩
  · rw [hkn]
    exact join_known hc e
  · rw [hkn, ← hkn']
    exact g1
  · rw [knownIds_map, hkn, ← hkn', ← knownIds_map]
    exact g2

/-- **C64** So in both profiles a user who keeps a block of a committed tree may merge any received blocks
into it, one after the other, as long as there are at most `2 ^ (32 - depth)` nodes in all: if no call
panics, the block has the commitment of the tree and reveals what it revealed and what the views in the
received blocks of the tree reveal, and nothing else; this is committed, one message per protocol. -/
theorem C64_moderate_histories [Env] (T : MerkleTree) (hT : T.Holds) (b b' : MerkleBlock) (hb : b.OfTree T)
    (os : List MerkleBlock)
    (hs : b.crossSection.length + (os.map fun o => o.crossSection.length).sum ≤ 2 ^ (32 - T.depth.val))
    (hn : ∀ o ∈ os, ∀ (t : PT) (rest : List TreeNode), o.crossSection = t.frontier 0 ++ rest →
      t.Fits (min (o.depth.val + 1) 31) o.depth.val 0 →
      NoCollision (blockInputs o.depth o.cofactor t ++ T.inputs))
    (h : b.run (os.map .mergeReveal) = .ok b') :
    b'.commitId = T.commitId ∧
    (∀ e, e ∈ b'.knownMessages ↔ e ∈ b.knownMessages ∨
      ∃ o ∈ os, ∃ t rest, o.commitId = T.commitId ∧ o.Begins T t rest ∧ e ∈ t.known) ∧
    (∀ p m, (p, m) ∈ b'.knownMessages → T.messages.get p = some m) ∧
    b'.knownProtocolIds.Nodup := by
  have key : ∀ (os : List MerkleBlock) (b : MerkleBlock) (t : PT) (rest : List TreeNode),
      b.commitId = T.commitId → b.Begins T t rest → Deep T.depth rest →
      b.crossSection.length + (os.map fun o => o.crossSection.length).sum ≤ 2 ^ (32 - T.depth.val) →
      (∀ o ∈ os, ∀ (t : PT) (rest : List TreeNode), o.crossSection = t.frontier 0 ++ rest →
        t.Fits (min (o.depth.val + 1) 31) o.depth.val 0 →
        NoCollision (blockInputs o.depth o.cofactor t ++ T.inputs)) →
      b.run (os.map .mergeReveal) = .ok b' →
      b'.commitId = T.commitId ∧ (∃ t' rest', b'.Begins T t' rest' ∧ Deep T.depth rest') ∧
      (∀ e, e ∈ b'.knownMessages ↔ e ∈ b.knownMessages ∨
        ∃ o ∈ os, ∃ t rest, o.commitId = T.commitId ∧ o.Begins T t rest ∧ e ∈ t.known) := by
    intro os
    induction os with
    | nil =>
      intro b t rest hc hb hd _ _ h
      cases h
      exact ⟨hc, ⟨t, rest, hb, hd⟩, fun e => by simp⟩
    | cons o os ih =>
      intro b t rest hc hb hd hs hn h
      simp only [List.map_cons, List.sum_cons] at hs
      simp only [List.map_cons, MerkleBlock.run, BlockOp.step] at h
      obtain ⟨_, h0, hrun⟩ := (bind_ok_iff ..).1 h
      obtain ⟨⟨b1, r⟩, h1, h2⟩ := (bind_ok_iff ..).1 h0
      cases h2
      obtain ⟨c1, c2, k1, k2, k3, -, -, -, -, -, hok, herr⟩ := C72_any b o b1 _ h1
      have hn' := fun o' (ho' : o' ∈ os) => hn o' (List.mem_cons_of_mem _ ho')
      have hkb := deep_known hb hd
      cases r with
      | error e =>
        obtain ⟨hne, rfl, -⟩ := herr e rfl
        obtain ⟨g1, g2, g3⟩ := ih b1 t rest hc hb hd (by omega) hn' hrun
        refine ⟨g1, g2, fun e => ?_⟩
        rw [g3]
        have : o.commitId ≠ T.commitId := by
          rw [k2, ← hc, k1]
          exact fun h => hne (Except.ok.inj h).symm
        simp [this]
      | ok n =>
        obtain ⟨rfl, -⟩ := hok n rfl
        have hco : o.commitId = T.commitId := by rw [k2, ← k1, hc]
        have hc1 : b1.commitId = T.commitId := by rw [k3, ← k1, hc]
        obtain ⟨u0, rest0, e0, f0, hb0⟩ := C63_begins T o hco
        obtain ⟨u, -, hbo⟩ := hb0 (hn o (by simp) _ _ e0 f0)
        have hall : ∀ (v : PT) (restv : List TreeNode), o.Begins T v restv →
            ∃ r, b1.Begins T (t.join v) r ∧ Deep T.depth r ∧
              b1.crossSection.length ≤ b.crossSection.length + o.crossSection.length ∧
              (∀ e, e ∈ b1.knownMessages ↔ e ∈ t.known ∨ e ∈ v.known) := by
          intro v restv hv
          obtain ⟨r, a1, a2, a3, a4, -⟩ := C64_moderate T hT b o b1 n t v rest restv hb hv h1 (by omega)
          exact ⟨r, a1, a2, a3, a4⟩
        obtain ⟨r, a1, a2, a3, a4⟩ := hall u rest0 hbo
        obtain ⟨g1, g2, g3⟩ := ih b1 _ r hc1 a1 a2 (by omega) hn' hrun
        refine ⟨g1, g2, fun e => ?_⟩
        rw [g3, a4, hkb]
        constructor
        · rintro ((h | h) | ⟨o', ho', h⟩)
          · exact Or.inl h
          · exact Or.inr ⟨o, by simp, u, rest0, hco, hbo, h⟩
          · exact Or.inr ⟨o', List.mem_cons_of_mem _ ho', h⟩
        · rintro (h | ⟨o', ho', v, restv, h3, h4, h5⟩)
          · exact Or.inl (Or.inl h)
          · rcases List.mem_cons.1 ho' with rfl | ho'
            · obtain ⟨_, -, -, -, b4⟩ := hall v restv h4
              exact Or.inl ((a4 e).1 ((b4 e).2 (Or.inr h5)))
            · exact Or.inr ⟨o', ho', v, restv, h3, h4, h5⟩
  obtain ⟨t, e0, hbg⟩ := begins_of_ofTree (b := b) (l := b.crossSection) (rest := []) hb (by simp)
  obtain ⟨g1, ⟨t', rest', g2, g3⟩, g4⟩ := key os b t [] (by rw [ofTree_commitId hb, tree_commitId]) hbg
    (fun x hx => by cases hx) hs hn h
  refine ⟨g1, g4, ?_⟩
  have hkn := deep_known g2 g3
  obtain ⟨k1, k2⟩ := C30_partial T hT _ (begins_prefix g2)
  have hkn' : (MerkleBlock.mk b'.method b'.depth b'.cofactor (t'.frontier 0)
      b'.entropy).knownMessages = t'.known := by
    rw [knownMessages_eq, revealed_frontier]
  constructor
  · rw [hkn, ← hkn']
    exact k1
  · rw [knownIds_map, hkn, ← hkn', ← knownIds_map]
    exact k2

/-- Blocks meeting the hypotheses: a block of the tree, and one followed by a leaf of a protocol the tree
knows nothing of, with the commitment of the tree in a release build. -/
example : ∃ b', @MerkleBlock.run (realEnv false) (@Sample.block (realEnv false))
      ([(⟨.sha256t, 2, 1, [.concealed 0 (@MerkleTree.specRoot (realEnv false) Sample.tree),
        .leaf Sample.p9 Sample.m1], none⟩ : MerkleBlock)].map .mergeReveal) = .ok b' ∧
    @MerkleBlock.OfTree (realEnv false) (@Sample.block (realEnv false)) Sample.tree ∧
    (@Sample.block (realEnv false)).crossSection.length + 2 ≤ 2 ^ (32 - Sample.tree.depth.val) := by
  letI := realEnv false
  obtain ⟨-, -, -, t, hs, hv⟩ := Sample.view_block
  obtain ⟨b, n, h, ho, -⟩ := (C72_trailing Sample.tree Sample.block
    ⟨.sha256t, 2, 1, [.concealed 0 Sample.tree.specRoot, .leaf Sample.p9 Sample.m1], none⟩
    t (.hidden Sample.tree.specRoot) [] [.leaf Sample.p9 Sample.m1] rfl rfl rfl
    (hs.1.trans (List.append_nil _).symm) rfl hs.2 (Nat.zero_le _) hv rfl
    (by rw [tree_commitId, ofTree_commitId Sample.view_block]) (by rw [tree_commitId]; rfl)
    (Or.inl rfl)).1 (Nat.le_refl _)
  refine ⟨b, ?_, Sample.view_block, by decide⟩
  simp only [List.map_cons, List.map_nil, MerkleBlock.run, BlockOp.step]
  rw [h]
  rfl

/-- **C64** In release builds somebody who knows no more than the root of a committed tree can make a call panic
for everybody who holds a block of it: there is a block of three nodes, 111 bytes, which decodes and has the
commitment of the tree, and which cannot be merged with any block of the tree. -/
theorem C64_release_panics [Env] (hd : dbg = false) (T : MerkleTree) :
    ∃ (o : MerkleBlock) (c : Commitment), o.enc.length = 111 ∧ deserialize decMerkleBlock o.enc = some o ∧
      T.commitId = .ok c ∧ o.commitId = .ok c ∧ ∀ b : MerkleBlock, b.OfTree T → ∃ p, b.mergeReveal o = .error p := by
  let o : MerkleBlock := ⟨T.method, T.depth, T.cofactor, [.concealed 0 T.specRoot,
    .concealed 1 (Bytes32.fill 0), .concealed 0 (Bytes32.fill 0)], none⟩
  have ho : o.commitId = .ok T.specCommitment := three_nodes_commitId hd T
  refine ⟨o, T.specCommitment, ?_, C38_block_serialized o ⟨show 1 ≤ 3 by decide, show 3 < 2 ^ 32 by decide⟩, tree_commitId T, ho, fun b hb => ?_⟩
  · rw [C66_block_bytes]
    rfl
  · have hbc := ofTree_commitId hb
    obtain ⟨hm, hdep, hco, t, hs, hv⟩ := hb
    cases h : b.mergeReveal o with
    | error p => exact ⟨p, rfl⟩
    | ok x =>
      obtain ⟨b', r⟩ := x
      cases r with
      | error e =>
        obtain ⟨c1, c2, h1, h2, -, -, -, -, -, -, -, he⟩ := C72_any b o b' _ h
        rw [hbc] at h1
        rw [ho] at h2
        cases h1
        cases h2
        exact absurd rfl (he e rfl).1
      | ok n =>
        have := ((C72_trailing T b o t (.hidden T.specRoot) [] [.concealed 1 (Bytes32.fill 0),
          .concealed 0 (Bytes32.fill 0)] hm hdep hco (hs.1.trans (List.append_nil _).symm) rfl (by rw [← hdep]; exact hs.2)
          (Nat.zero_le _) hv rfl (hbc.trans (tree_commitId T).symm) (ho.trans (tree_commitId T).symm) (.inl rfl)).2 b' n h).2
        have hw : 2 ^ T.depth.val < 2 ^ 32 := Nat.pow_lt_pow_right (by decide) T.depth.isLt
        have hp := Nat.two_pow_pos T.depth.val
        have hcov : coverage T.depth [.concealed 0 (Bytes32.fill 0)] = 2 ^ T.depth.val := by
          simp [coverage, TreeNode.depthOr]
        rw [List.nil_append, List.tail_cons, hcov, Nat.mod_eq_of_lt hw] at this
        omega

/-- Non-vacuity: a tree and a block of it, with a real hash function. -/
example : ∃ o : MerkleBlock, o.enc.length = 111 ∧
    @MerkleBlock.commitId (realEnv false) o = @MerkleTree.commitId (realEnv false) Sample.tree ∧
    ∃ p, @MerkleBlock.mergeReveal (realEnv false) (@Sample.block (realEnv false)) o = .error p := by
  letI := realEnv false
  obtain ⟨o, c, h1, -, h2, h3, h4⟩ := C64_release_panics rfl Sample.tree
  exact ⟨o, h1, h3.trans h2.symm, h4 _ Sample.view_block⟩

end CSV
