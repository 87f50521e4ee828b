import Verif.Props.Block
import Verif.Props.Merge
import Verif.Props.Codec

/-!
# C63, C64: received blocks
-/

namespace CSV

/-- A partial tree with the root of a complete tree does not reach below its leaves. -/
private theorem fits_of_root [Env] {T : MerkleTree} {w H D : Nat} (hw : w < 2 ^ 256) (hD : D < 256) :
    ∀ {t : PT} {d n lo : Nat}, t.Fits H D d → d + n = D →
    NoCollision (t.inputs w d ++ ((PT.full T.slot n lo).inputs w d ++
      (List.range' lo (2 ^ n)).map fun i => leafInput (T.leafAt i))) →
    t.root w d = (PT.full T.slot n lo).root w d → t.Fits D D d := by
  intro t
  induction t with
  | hidden h => intro d n lo _ hn _ _; show d ≤ D; omega
  | leaf p m => intro d n lo hf _ _ _; exact hf
  | node l r ihl ihr =>
    intro d n lo hf hn hcol hr
    cases n with
    | zero =>
      exfalso
      have hs : (PT.full T.slot 0 lo).root w d = leafHash (T.leafAt lo) := slot_root T w lo d
      rw [hs] at hr
      have := hcol _ (by simp [PT.inputs]) (leafInput (T.leafAt lo)) (by simp) hr
      exact leafInput_ne_branchInput _ _ _ _ _ this.symm
    | succ n =>
      have e2 : 2 ^ (n + 1) = 2 ^ n + 2 ^ n := by rw [Nat.pow_succ]; omega
      rw [e2, map_range'_split] at hcol
      simp only [PT.full] at hr hcol
      have h := hcol (branchInput d w (l.root w (d + 1)) (r.root w (d + 1))) (by simp [PT.inputs])
        (branchInput d w ((PT.full T.slot n lo).root w (d + 1))
          ((PT.full T.slot n (lo + 2 ^ n)).root w (d + 1))) (by simp [PT.inputs]) hr
      obtain ⟨-, -, h1, h2⟩ := branchInput_inj (by omega) (by omega) hw hw h
      refine ⟨ihl hf.1 (by omega) (hcol.mono ?_) h1, ihr hf.2 (by omega) (hcol.mono ?_) h2⟩ <;>
      · intro a ha
        simp only [PT.inputs, List.mem_append, List.mem_cons] at ha ⊢
        grind

/-- **C63** A block, however it was obtained, that has the commitment of a committed tree consists of
the frontier of a partial tree, which is a view of the committed tree - every revealed message is in
the tree, in that slot, and every hash is that of the tree's part -, and possibly further nodes, which
debug builds refuse. Otherwise two different strings hashed for the two have one hash. -/
theorem C63_received [Env] (T : MerkleTree) (b : MerkleBlock) (c : Commitment)
    (hT : T.commitId = .ok c) (hb : b.commitId = .ok c) :
    ∃ (t : PT) (rest : List TreeNode), b.crossSection = t.frontier 0 ++ rest ∧
      t.Fits (min (b.depth.val + 1) 31) b.depth.val 0 ∧ (dbg = true → rest = []) ∧
      (NoCollision (blockInputs b.depth b.cofactor t ++ T.inputs) →
        ({ b with crossSection := t.frontier 0 } : MerkleBlock).OfTree T) := by
  have key : ∀ t : PT, t.Fits (min (b.depth.val + 1) 31) b.depth.val 0 →
      c = commitmentHash ⟨b.depth, b.cofactor, t.root (2 ^ b.depth.val) 0⟩ →
      NoCollision (blockInputs b.depth b.cofactor t ++ T.inputs) →
      ({ b with crossSection := t.frontier 0 } : MerkleBlock).OfTree T := by
    intro t hf hc hn
    rw [tree_commitId] at hT
    have hc' : commitmentHash ⟨b.depth, b.cofactor, t.root (2 ^ b.depth.val) 0⟩ =
      commitmentHash ⟨T.depth, T.cofactor, T.specRoot⟩ := hc.symm.trans (Except.ok.inj hT).symm
    have he := commitmentInput_inj (hn _ (by simp [blockInputs]) _
      (by simp [MerkleTree.inputs, blockInputs, MerkleTree.specRoot]) hc')
    obtain ⟨hd, hco, hr⟩ := MerkleConcealed.mk.inj he
    have hD := T.depth.isLt
    have hw : 2 ^ T.depth.val < 2 ^ 256 := Nat.pow_lt_pow_right (by decide) (by omega)
    have hfit : t.Fits b.depth.val b.depth.val 0 := by
      rw [hd] at hf hr ⊢
      refine fits_of_root hw (by omega) hf (n := T.depth.val) (lo := 0) (by omega) (hn.mono ?_) hr
      intro a ha
      rw [← hd] at ha
      simp only [blockInputs, MerkleTree.inputs, List.mem_append, List.mem_cons] at ha ⊢
      rw [List.range_eq_range']
      rw [hd] at ha ⊢
      have : (PT.full T.slot T.depth.val 0) = T.pt := rfl
      rw [this] at ha
      grind
    have hs : MerkleBlock.Shows { b with crossSection := t.frontier 0 } t := ⟨rfl, hfit⟩
    refine ofTree_of_commitment hs hn ?_
    rw [shows_commitId hs]
    exact congrArg _ hc'
  cases hdb : dbg with
  | true =>
    obtain ⟨t, h1, h2, h3⟩ := (C29_debug hdb b c).1 hb
    exact ⟨t, [], by simpa using h1, h2, fun _ => rfl, key t h2 h3⟩
  | false =>
    obtain ⟨t, rest, h1, h2, h3⟩ := (C29_both_profiles b).2 c hb
    exact ⟨t, rest, h1, h2, fun h => by simp at h, key t h2 h3⟩

/-- **C63** In a debug build such a block is a block of the tree: it reveals committed messages only,
one per protocol, in the right slots, and the proofs extracted from it are those of the tree. -/
theorem C63_debug [Env] (hd : dbg = true) (T : MerkleTree) (hT : T.Holds) (b : MerkleBlock) (c : Commitment)
    (hc : T.commitId = .ok c) (hb : b.commitId = .ok c) :
    ∃ t : PT, b.crossSection = t.frontier 0 ∧ t.Fits (min (b.depth.val + 1) 31) b.depth.val 0 ∧
      (NoCollision (blockInputs b.depth b.cofactor t ++ T.inputs) → b.OfTree T ∧ (∃ u, b.Placed u) ∧
        (∀ p m, (p, m) ∈ b.knownMessages → T.messages.get p = some m) ∧
        b.knownProtocolIds.Nodup ∧
        ∀ p ∈ b.knownProtocolIds, ∃ full pr, MerkleBlock.fromTree T = .ok full ∧
          b.toMerkleProof p = .ok (.ok pr) ∧ full.toMerkleProof p = .ok (.ok pr)) := by
  obtain ⟨t', rest, g1, gf, g2, g3⟩ := C63_received T b c hc hb
  have g2 := g2 hd
  subst g2
  rw [List.append_nil] at g1
  refine ⟨t', g1, gf, fun hn => ?_⟩
  have ho := g3 hn
  rw [← g1] at ho
  have ho : b.OfTree T := ho
  obtain ⟨k1, k2⟩ := C30_partial T hT b ho
  obtain ⟨b', full, r1, r2, r3⟩ := C55_proofs_after_histories T hT b ho [] (by simp)
  cases r1
  refine ⟨ho, ?_, k1, k2, fun p hp => ?_⟩
  · obtain ⟨e1, e2, e3, u, hs, hv⟩ := ho
    exact ⟨u, ofTree_placed hT e2 e3 hs hv⟩
  · obtain ⟨pr, a1, a2⟩ := r3 p hp
    exact ⟨full, pr, r2, a1, a2⟩

/-- A received block with the commitment of the tree. -/
example [Env] : ∃ c, Sample.tree.commitId = .ok c ∧ Sample.block1.commitId = .ok c ∧ Sample.tree.Holds :=
  ⟨_, tree_commitId _, ofTree_commitId Sample.view_block1, Sample.holds⟩

/-! ## C64 -/

/-- **C64** is false of the code: a decoded block with hidden nodes below the depth of its leaves has a
commitment, but merging it, here with itself, panics in both build profiles. -/
theorem C64_false [Env] : ∃ (b : MerkleBlock) (c : Commitment) (p : Panic),
    deserialize decMerkleBlock b.enc = some b ∧ b.commitId = .ok c ∧ b.mergeReveal b = .error p := by
  let b : MerkleBlock := ⟨.sha256t, 0, 0, [.concealed 1 (Bytes32.fill 0), .concealed 1 (Bytes32.fill 0)], none⟩
  have hc : b.commitId = .ok _ := (C29_both_profiles b).1
    (.node (.hidden (Bytes32.fill 0)) (.hidden (Bytes32.fill 0))) rfl ⟨by decide, by decide⟩
  refine ⟨b, _, if dbg then .overflow else .assert, ?_, hc, ?_⟩
  · exact C38_block_serialized b ⟨by decide, by decide⟩
  · have hsum : sumWidths b.depth b.crossSection 0 = if dbg then .error .overflow else .ok 0 := by
      simp only [b, sumWidths]
      generalize dbg = x
      cases x
      · simp [u8Sub, u32Pow2, u32Add, TreeNode.depthOr, ok_bind]
      · rfl
    rw [MerkleBlock.mergeReveal, hc]
    simp only [ok_bind, ne_eq, not_true_eq_false, if_false]
    show (do
      let sum ← sumWidths b.depth b.crossSection 0
      assert' (decide (sum = widthLimit b.depth))
      _) = _
    rw [hsum]
    cases dbg <;> rfl

/-- **C64** What holds: in a debug build, merging any received block that has a commitment into a block
of a committed tree returns. If the commitments are equal the result reveals what either revealed,
otherwise nothing changes. -/
theorem C64_partial [Env] (hd : dbg = true) (T : MerkleTree) (b o : MerkleBlock) (hb : b.OfTree T)
    (co : Commitment) (ho : o.commitId = .ok co)
    (hn : ∀ t : PT, o.crossSection = t.frontier 0 → t.Fits (min (o.depth.val + 1) 31) o.depth.val 0 →
      NoCollision (blockInputs o.depth o.cofactor t ++ T.inputs)) :
    ∃ b' r, b.mergeReveal o = .ok (b', r) ∧ b'.OfTree T ∧
      (b.commitId = .ok co → (∃ n, r = .ok n) ∧
        ∀ e, e ∈ b'.knownMessages ↔ e ∈ b.knownMessages ∨ e ∈ o.knownMessages) ∧
      (b.commitId ≠ .ok co → b' = b ∧ ∃ c, b.commitId = .ok c ∧ r = .error (.unrelatedBlocks c co)) := by
  have hcb := ofTree_commitId hb
  by_cases h : T.specCommitment = co
  · subst h
    obtain ⟨t, rest, h1, hf, h2, h3⟩ := C63_received T o _ (tree_commitId T) ho
    have h2 := h2 hd
    subst h2
    rw [List.append_nil] at h1
    have h3 := h3 (hn t h1 hf)
    rw [← h1] at h3
    have h3 : o.OfTree T := h3
    obtain ⟨b', n, g1, g2, g3⟩ := C23_of_tree T b o hb h3
    exact ⟨b', _, g1, g2, fun _ => ⟨⟨n, rfl⟩, g3⟩, fun hne => absurd hcb hne⟩
  · refine ⟨b, _, mergeReveal_unrelated hcb ho h, hb, fun h' => ?_, fun _ => ⟨rfl, _, hcb, rfl⟩⟩
    rw [hcb] at h'
    exact absurd (Except.ok.inj h') h

private theorem step_receivable [Env] (hd : dbg = true) {T : MerkleTree} {b : MerkleBlock} (hb : b.OfTree T)
    {op : BlockOp} (ha : op.Receivable T) :
    ∃ b', op.step b = .ok b' ∧ b'.OfTree T ∧
      ∀ e, e ∈ b'.knownMessages ↔ op.effect T.specCommitment (· ∈ b.knownMessages) e := by
  cases op with
  | concealExcept ps => exact step_ofTree hb ha
  | concealOther p => exact step_ofTree hb ha
  | mergeRevealPath pr p m => exact step_ofTree hb ha
  | mergeReveal o =>
    obtain ⟨⟨c, hc⟩, hn⟩ := ha
    obtain ⟨b', r, h1, h2, h3, h4⟩ := C64_partial hd T b o hb c hc hn
    refine ⟨b', by simp only [BlockOp.step, h1, ok_bind], h2, fun e => ?_⟩
    have hcb := ofTree_commitId hb
    simp only [BlockOp.effect]
    by_cases h : T.specCommitment = c
    · subst h
      rw [(h3 hcb).2]
      simp [hc]
    · have hne : b.commitId ≠ .ok c := by
        rw [hcb]
        exact fun he => h (Except.ok.inj he)
      rw [(h4 hne).1, hc]
      have : c ≠ T.specCommitment := fun he => h he.symm
      simp [this]

/-- **C64** In a debug build a user who keeps a block of a committed tree may apply to it whatever is
received, in any order: no call panics, and the block stays a block of the tree with the messages the
operations are meant to reveal. -/
theorem C64_histories [Env] (hd : dbg = true) (T : MerkleTree) (hT : T.Holds) (b : MerkleBlock)
    (hb : b.OfTree T) (ops : List BlockOp) (ha : ∀ op ∈ ops, op.Receivable T) :
    ∃ b' c, b.run ops = .ok b' ∧ b'.OfTree T ∧ T.commitId = .ok c ∧ b'.commitId = .ok c ∧
      (∀ p m, (p, m) ∈ b'.knownMessages → T.messages.get p = some m) ∧
      b'.knownProtocolIds.Nodup ∧
      (∀ e, e ∈ b'.knownMessages ↔ effects c (· ∈ b.knownMessages) ops e) := by
  have key : ∀ (ops : List BlockOp) (b : MerkleBlock), b.OfTree T → (∀ op ∈ ops, op.Receivable T) →
      ∃ b', b.run ops = .ok b' ∧ b'.OfTree T ∧
        ∀ e, e ∈ b'.knownMessages ↔ effects T.specCommitment (· ∈ b.knownMessages) ops e := by
    intro ops
    induction ops with
    | nil => intro b hb _; exact ⟨b, rfl, hb, fun _ => Iff.rfl⟩
    | cons op ops ih =>
      intro b hb ha
      obtain ⟨b1, h1, h2, h3⟩ := step_receivable hd hb (ha op (List.mem_cons_self ..))
      obtain ⟨b2, h4, h5, h6⟩ := ih b1 h2 (fun o ho => ha o (List.mem_cons_of_mem _ ho))
      refine ⟨b2, by simp only [MerkleBlock.run, h1, ok_bind, h4], h5, fun e => ?_⟩
      rw [h6]
      exact effects_congr ops h3 e
  obtain ⟨b', h1, h2, h3⟩ := key ops b hb ha
  obtain ⟨g1, g2⟩ := C30_partial T hT b' h2
  exact ⟨b', _, h1, h2, tree_commitId T, ofTree_commitId h2, g1, g2, h3⟩

/-! ### Planting messages in release builds -/

private def AdjNe : List U5 → Prop
  | a :: b :: r => a ≠ b ∧ AdjNe (b :: r)
  | _ => True

/-- In release builds a pass over hidden nodes no two neighbours of which have one depth changes
nothing. -/
private theorem passL_noJoin [Env] (hd : dbg = false) (D : U5) : ∀ (l : List (U5 × MerkleHash)) (off : Nat),
    AdjNe (l.map Prod.fst) →
    ∃ o, passL D (l.map fun x => .concealed x.1 x.2) off = .ok (l.map fun x => .concealed x.1 x.2, 0, o) := by
  have hsub : ∀ a b, ∃ r, u32Sub dbg a b = .ok r := by
    intro a b; rw [hd]; unfold u32Sub; split <;> simp
  have hpow : ∀ a, ∃ r, u32Pow2 dbg a = .ok r := by
    intro a; rw [hd]; unfold u32Pow2; split <;> simp
  have hadd : ∀ a b, ∃ r, u32Add dbg a b = .ok r := by
    intro a b; rw [hd]; unfold u32Add; split <;> simp
  intro l
  induction l with
  | nil => intro off _; exact ⟨off, rfl⟩
  | cons x l ih =>
    intro off h
    obtain ⟨e, he⟩ := hsub D.val x.1.val
    obtain ⟨pw, hp⟩ := hpow e
    obtain ⟨o, ho⟩ := hadd off pw
    cases l with
    | nil => exact ⟨o, by simp [passL, he, hp, ho, ok_bind]⟩
    | cons y l =>
      obtain ⟨o', ho'⟩ := ih o h.2
      refine ⟨o', ?_⟩
      have hne : ¬ (x.1 = y.1) := h.1
      simp only [List.map_cons] at ho' ⊢
      simp only [passL, if_neg hne, he, hp, ho, ok_bind, ho']

/-- In release builds the nodes after a root hash are ignored, if no two neighbours have one depth. -/
private theorem conceal_trailing [Env] (hd : dbg = false) (b : MerkleBlock) (x : MerkleHash)
    (cs : List TreeNode) (hb : b.crossSection = .concealed 0 x :: cs)
    (ha : AdjNe (0 :: cs.map (TreeNode.depthOr b.depth))) : b.conceal = .ok ⟨b.depth, b.cofactor, x⟩ := by
  have hh : ∃ l : List (U5 × MerkleHash), cs.map (hideNode b.depth (List.contains [])) =
      l.map (fun x => .concealed x.1 x.2) ∧ l.map Prod.fst = cs.map (TreeNode.depthOr b.depth) := by
    refine ⟨cs.map fun
      | .concealed d h => (d, h)
      | .leaf p m => (b.depth, leafHash (.inhabited p m)), ?_, ?_⟩
    · rw [List.map_map]
      apply List.map_congr_left
      intro n _
      cases n <;> simp [hideNode]
    · rw [List.map_map]
      apply List.map_congr_left
      intro n _
      cases n <;> rfl
  obtain ⟨l, hl, hl'⟩ := hh
  have hhid : b.crossSection.map (hideNode b.depth (List.contains [])) =
      ((0, x) :: l).map fun x => TreeNode.concealed x.1 x.2 := by
    rw [hb, List.map_cons, hl]; rfl
  rw [← hl'] at ha
  obtain ⟨o, ho⟩ := passL_noJoin hd b.depth ((0, x) :: l) 0 ha
  rw [MerkleBlock.conceal, concealExcept_eq]
  have hm : missing b [] = [] := rfl
  simp only [hm]
  rw [hhid, concealOuter_succ, ho]
  have h1 : ∀ x, debugAssert dbg x = .ok () := by intro x; rw [hd]; rfl
  simp only [h1, ok_bind, if_true]
  rfl

private theorem sumWidths_release [Env] (hd : dbg = false) (D : U5) : ∀ (cs : List TreeNode) (acc : Nat),
    (∀ n ∈ cs, (n.depthOr D).val ≤ D.val) → acc < 2 ^ 32 →
    sumWidths D cs acc = .ok ((acc + (cs.map fun n => 2 ^ (D.val - (n.depthOr D).val)).sum) % 2 ^ 32) := by
  intro cs
  induction cs with
  | nil => intro acc _ h; simp only [sumWidths, List.map_nil, List.sum_nil]; rw [Nat.add_zero, Nat.mod_eq_of_lt h]
  | cons n cs ih =>
    intro acc hn ha
    have h1 : u8Sub dbg D.val (n.depthOr D).val = .ok (D.val - (n.depthOr D).val) := by
      rw [u8Sub, if_pos (hn n (by simp))]
    have h2 : u32Pow2 dbg (D.val - (n.depthOr D).val) = .ok (2 ^ (D.val - (n.depthOr D).val)) := by
      rw [u32Pow2, if_pos (by have := D.isLt; omega)]
    have h3 : ∀ b, u32Add dbg acc b = .ok ((acc + b) % 2 ^ 32) := by
      intro b
      rw [u32Add, hd]
      split
      · rw [Nat.mod_eq_of_lt ‹_›]
      · rfl
    simp only [sumWidths, h1, h2, h3, ok_bind]
    rw [ih _ (fun m hm => hn m (by simp [hm])) (Nat.mod_lt _ (by decide))]
    congr 1
    simp only [List.map_cons, List.sum_cons]
    omega

/-- Hidden nodes with the widths of a complete tree of depth `D`, out of order. -/
private def unit (D : Nat) (second : TreeNode) : List TreeNode :=
  .concealed 1 (Bytes32.fill 0) :: second ::
    (List.range' 2 (D - 1)).map fun i => .concealed (toU5 i) (Bytes32.fill 0)

private def units (D : Nat) : Nat → List TreeNode
  | 0 => []
  | k + 1 => unit D (.concealed (toU5 D) (Bytes32.fill 0)) ++ units D k

private theorem adj_range : ∀ (n s : Nat) (rest : List U5), 2 ≤ s → s + n ≤ 32 → AdjNe rest →
    (rest = [] ∨ ∃ r, rest = 1 :: r) → AdjNe ((List.range' s n).map toU5 ++ rest) := by
  intro n
  induction n with
  | zero => intro s rest _ _ h _; exact h
  | succ n ih =>
    intro s rest hs hl h hr
    have := ih (s + 1) rest (by omega) (by omega) h hr
    rw [List.range'_succ, List.map_cons, List.cons_append]
    cases n with
    | zero =>
      simp only [List.range'_zero, List.map_nil, List.nil_append] at this ⊢
      rcases hr with rfl | ⟨r, rfl⟩
      · trivial
      · refine ⟨fun he => ?_, h⟩
        have := congrArg Fin.val he
        rw [toU5_val (by omega)] at this
        have h1 : (1 : U5).val = 1 := rfl
        omega
    | succ n =>
      rw [List.range'_succ, List.map_cons, List.cons_append] at this ⊢
      refine ⟨fun he => ?_, this⟩
      have := congrArg Fin.val he
      rw [toU5_val (by omega), toU5_val (by omega)] at this
      omega

private theorem adj_unit {D : U5} (hD : 3 ≤ D.val) {second : TreeNode} (h2 : second.depthOr D = D)
    {rest : List TreeNode} (hr : AdjNe (rest.map (TreeNode.depthOr D)))
    (hr' : rest.map (TreeNode.depthOr D) = [] ∨ ∃ r, rest.map (TreeNode.depthOr D) = 1 :: r) :
    AdjNe ((unit D.val second ++ rest).map (TreeNode.depthOr D)) := by
  have := adj_range (D.val - 1) 2 _ (by omega) (by have := D.isLt; omega) hr hr'
  have hm : ((List.range' 2 (D.val - 1)).map fun i => TreeNode.concealed (toU5 i) (Bytes32.fill 0)).map
      (TreeNode.depthOr D) = (List.range' 2 (D.val - 1)).map toU5 := by
    rw [List.map_map]; rfl
  simp only [unit, List.cons_append, List.map_cons, List.map_append, hm, h2]
  refine ⟨fun he => ?_, ?_⟩
  · have := congrArg Fin.val he
    have h1 : (1 : U5).val = 1 := rfl
    simp only [TreeNode.depthOr] at this
    omega
  · obtain ⟨k, hk⟩ : ∃ k, D.val - 1 = k + 1 := ⟨D.val - 2, by omega⟩
    rw [hk, List.range'_succ, List.map_cons, List.cons_append] at this ⊢
    refine ⟨fun he => ?_, this⟩
    have := congrArg Fin.val he
    rw [toU5_val (by omega)] at this
    omega

private theorem adj_units {D : U5} (hD : 3 ≤ D.val) : ∀ k,
    AdjNe ((units D.val k).map (TreeNode.depthOr D)) ∧
    ((units D.val k).map (TreeNode.depthOr D) = [] ∨ ∃ r, (units D.val k).map (TreeNode.depthOr D) = 1 :: r)
  | 0 => ⟨trivial, Or.inl rfl⟩
  | k + 1 => ⟨adj_unit hD (by show toU5 D.val = D; exact Fin.ext (toU5_val D.isLt))
      (adj_units hD k).1 (adj_units hD k).2, Or.inr ⟨_, rfl⟩⟩

private theorem range_sum (D : Nat) (hD : D < 32) : ∀ n s, s + n = D + 1 →
    (((List.range' s n).map fun i => TreeNode.concealed (toU5 i) (Bytes32.fill 0)).map
      fun x => 2 ^ (D - (x.depthOr (toU5 D)).val)).sum + 1 = 2 ^ n := by
  intro n
  induction n with
  | zero => intro s _; rfl
  | succ n ih =>
    intro s hs
    have := ih (s + 1) (by omega)
    rw [List.range'_succ, List.map_cons, List.map_cons, List.sum_cons]
    have h1 : ((TreeNode.concealed (toU5 s) (Bytes32.fill 0)).depthOr (toU5 D)).val = s :=
      toU5_val (by omega)
    rw [h1, Nat.pow_succ, show D - s = n from by omega]
    omega

private theorem unit_sum {D : U5} (hD : 3 ≤ D.val) {second : TreeNode} (h2 : second.depthOr D = D) :
    ((unit D.val second).map fun x => 2 ^ (D.val - (x.depthOr D).val)).sum = 2 ^ D.val := by
  have h := range_sum D.val D.isLt (D.val - 1) 2 (by omega)
  rw [show toU5 D.val = D from Fin.ext (toU5_val D.isLt)] at h
  simp only [unit, List.map_cons, List.sum_cons, h2, Nat.sub_self, Nat.pow_zero]
  have h1 : ((TreeNode.concealed 1 (Bytes32.fill 0)).depthOr D).val = 1 := rfl
  rw [h1]
  have : 2 ^ D.val = 2 * 2 ^ (D.val - 1) := by
    rw [← Nat.pow_succ']; congr 1; omega
  omega

private theorem units_sum {D : U5} (hD : 3 ≤ D.val) : ∀ k,
    ((units D.val k).map fun x => 2 ^ (D.val - (x.depthOr D).val)).sum = k * 2 ^ D.val
  | 0 => by simp [units]
  | k + 1 => by
    rw [units, List.map_append, List.sum_append, units_sum hD k,
      unit_sum hD (by show toU5 D.val = D; exact Fin.ext (toU5_val D.isLt)), Nat.succ_mul]
    omega

private theorem unit_bounds {D : U5} (hD : 3 ≤ D.val) {second : TreeNode} (h2 : second.depthOr D = D) :
    (unit D.val second).length = D.val + 1 ∧ ∀ x ∈ unit D.val second, (x.depthOr D).val ≤ D.val := by
  have := D.isLt
  constructor
  · simp only [unit, List.length_cons, List.length_map, List.length_range']; omega
  · intro x hx
    simp only [unit, List.mem_cons, List.mem_map, List.mem_range'_1] at hx
    rcases hx with rfl | rfl | ⟨i, hi, rfl⟩
    · show (1 : U5).val ≤ _
      have h1 : (1 : U5).val = 1 := rfl
      omega
    · rw [h2]; exact Nat.le_refl _
    · show (toU5 i).val ≤ _
      rw [toU5_val (by omega)]
      omega

private theorem units_bounds {D : U5} (hD : 3 ≤ D.val) : ∀ k,
    (units D.val k).length = k * (D.val + 1) ∧ ∀ x ∈ units D.val k, (x.depthOr D).val ≤ D.val
  | 0 => by simp [units]
  | k + 1 => by
    have hu := unit_bounds hD (second := .concealed (toU5 D.val) (Bytes32.fill 0))
      (by show toU5 D.val = D; exact Fin.ext (toU5_val D.isLt))
    obtain ⟨h1, h2⟩ := units_bounds hD k
    refine ⟨by rw [units, List.length_append, hu.1, h1, Nat.succ_mul]; omega, fun x hx => ?_⟩
    rw [units, List.mem_append] at hx
    exact hx.elim (hu.2 x) (h2 x)

/-- In a release build further nodes may follow the root. -/
theorem three_nodes_commitId [Env] (hd : dbg = false) (T : MerkleTree) :
    MerkleBlock.commitId ⟨T.method, T.depth, T.cofactor, [.concealed 0 T.specRoot,
      .concealed 1 (Bytes32.fill 0), .concealed 0 (Bytes32.fill 0)], none⟩ = .ok T.specCommitment := by
  have ha : AdjNe [0, 1, 0] := ⟨show (0 : U5) ≠ 1 by decide, show (1 : U5) ≠ 0 by decide, trivial⟩
  have hc := conceal_trailing hd ⟨T.method, T.depth, T.cofactor, [.concealed 0 T.specRoot,
    .concealed 1 (Bytes32.fill 0), .concealed 0 (Bytes32.fill 0)], none⟩ T.specRoot _ rfl ha
  rw [MerkleBlock.commitId_eq, hc]
  rfl

/-- **C64** In release builds merging even corrupts honest blocks: for every tree of depth at least 3
and every protocol and message there is a block that decodes, has the commitment of the tree, and
merges successfully into the concealed block of the tree, which then reveals that message. The sum of
widths that `merge_reveal` asserts wraps around. -/
theorem C64_release_false [Env] (hd : dbg = false) (T : MerkleTree) (hD : 3 ≤ T.depth.val)
    (p : ProtocolId) (m : Message) :
    ∃ (b o b' : MerkleBlock) (c : Commitment) (n : UInt16), b.OfTree T ∧ T.commitId = .ok c ∧
      deserialize decMerkleBlock o.enc = some o ∧ o.commitId = .ok c ∧
      b.mergeReveal o = .ok (b', .ok n) ∧ b'.commitId = .ok c ∧ (p, m) ∈ b'.knownMessages := by
  have hlt := T.depth.isLt
  let tail := unit T.depth.val (.leaf p m) ++ units T.depth.val (2 ^ (32 - T.depth.val) - 1)
  have hk : 1 ≤ 2 ^ (32 - T.depth.val) := Nat.one_le_two_pow
  have hpow : 2 ^ (32 - T.depth.val) * 2 ^ T.depth.val = 2 ^ 32 := by
    rw [← Nat.pow_add]; congr 1; omega
  have hlen : tail.length + 2 ≤ 2 ^ 32 - 1 := by
    have h1 := (unit_bounds hD (second := .leaf p m) rfl).1
    have h2 := (units_bounds hD (2 ^ (32 - T.depth.val) - 1)).1
    have h3 : tail.length = 2 ^ (32 - T.depth.val) * (T.depth.val + 1) := by
      rw [List.length_append, h1, h2, Nat.sub_mul]
      have := Nat.le_mul_of_pos_left (T.depth.val + 1) hk
      omega
    have h4 : ∀ k : Fin 32, 3 ≤ k.val → 2 ^ (32 - k.val) * (k.val + 1) + 2 ≤ 2 ^ 32 - 1 := by decide
    rw [h3]
    exact h4 _ hD
  have hsum : (tail.map fun x => 2 ^ (T.depth.val - (x.depthOr T.depth).val)).sum = 2 ^ 32 := by
    rw [List.map_append, List.sum_append, unit_sum hD rfl, units_sum hD, Nat.sub_mul, hpow]
    have : 2 ^ T.depth.val ≤ 2 ^ 32 := Nat.pow_le_pow_right (by decide) (by omega)
    omega
  have hbd : ∀ x ∈ tail, (x.depthOr T.depth).val ≤ T.depth.val := by
    intro x hx
    rcases List.mem_append.1 hx with hx | hx
    · exact (unit_bounds hD rfl).2 x hx
    · exact (units_bounds hD _).2 x hx
  have hadj : AdjNe (tail.map (TreeNode.depthOr T.depth)) :=
    adj_unit hD rfl (adj_units hD _).1 (adj_units hD _).2
  have h01 : (0 : U5) ≠ 1 := by decide
  have h02 : (0 : U5) ≠ 2 := by decide
  have h21 : (2 : U5) ≠ 1 := by decide
  let b : MerkleBlock := ⟨T.method, T.depth, T.cofactor, [.concealed 0 T.specRoot], none⟩
  let o : MerkleBlock := ⟨T.method, T.depth, T.cofactor,
    .concealed 0 T.specRoot :: .concealed 2 (Bytes32.fill 0) :: tail, none⟩
  let b' : MerkleBlock := ⟨T.method, T.depth, T.cofactor, .concealed 0 T.specRoot :: tail, none⟩
  have hb : b.OfTree T := ⟨rfl, rfl, rfl, .hidden T.specRoot, ⟨rfl, Nat.zero_le _⟩, rfl⟩
  have ho : o.commitId = .ok T.specCommitment := by
    have hc := conceal_trailing hd o T.specRoot _ rfl ⟨h02, h21, hadj⟩
    rw [MerkleBlock.commitId_eq, hc]
    rfl
  have hb' : b'.commitId = .ok T.specCommitment := by
    have hc := conceal_trailing hd b' T.specRoot tail rfl ⟨h01, hadj⟩
    rw [MerkleBlock.commitId_eq, hc]
    rfl
  refine ⟨b, o, b', _, UInt16.ofNat b'.crossSection.length, hb, tree_commitId T, ?_, ho, ?_, hb', ?_⟩
  · exact C38_block_serialized o ⟨Nat.succ_le_succ (Nat.zero_le _), by
      show tail.length + 1 + 1 < 2 ^ 32; omega⟩
  · have hloop : mergeLoop b.depth b.crossSection.length b.crossSection o.crossSection =
        .ok (.concealed 0 T.specRoot :: tail) := by
      show mergeLoop T.depth 1 [.concealed 0 T.specRoot] (.concealed 0 T.specRoot :: _ :: tail) = _
      simp only [mergeLoop, if_true, ok_bind]
    have hne : nonEmptyVec (.concealed 0 T.specRoot :: tail) = .ok (.concealed 0 T.specRoot :: tail) := by
      rw [nonEmptyVec, if_pos]
      simp only [List.length_cons]
      omega
    have hsw : sumWidths b.depth (.concealed 0 T.specRoot :: tail) 0 = .ok (widthLimit b.depth) := by
      rw [sumWidths_release hd _ _ _ ?_ (by decide)]
      · congr 1
        rw [List.map_cons, List.sum_cons]
        show (0 + (2 ^ (T.depth.val - (0 : U5).val) + _)) % _ = 2 ^ T.depth.val
        have hw : 2 ^ T.depth.val < 2 ^ 32 := Nat.pow_lt_pow_right (by decide) hlt
        rw [hsum]
        have h0 : (0 : U5).val = 0 := rfl
        rw [h0, Nat.sub_zero, Nat.zero_add, Nat.add_mod_right, Nat.mod_eq_of_lt hw]
      · intro x hx
        rcases List.mem_cons.1 hx with rfl | hx
        · exact Nat.zero_le _
        · exact hbd x hx
    rw [MerkleBlock.mergeReveal, ofTree_commitId hb, ho]
    simp only [ok_bind, ne_eq, not_true_eq_false, if_false, hloop, hne]
    rw [show sumWidths b.depth (TreeNode.concealed 0 T.specRoot :: tail) 0 = _ from hsw]
    simp only [ok_bind]
    rw [show (MerkleBlock.commitId { b with crossSection := .concealed 0 T.specRoot :: tail }) = _ from hb']
    simp [assert', ok_bind, b, b']
  · show (p, m) ∈ List.filterMap _ _
    rw [List.mem_filterMap]
    exact ⟨.leaf p m, by simp [b', tail, unit], rfl⟩

end CSV
