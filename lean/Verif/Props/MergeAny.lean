import Verif.Props.Block
import Verif.Props.Merge
import Verif.Spec.Clash

/-!
# Merging arbitrary blocks, for arbitrary hash functions (C72, C73)
-/

namespace CSV

/-! ## C72 -/

theorem takeBuoy_split {D limit : U5} : ∀ (l : List TreeNode) (s : Buoy) (t r : List TreeNode),
    takeBuoy D limit s l = .ok (t, r) → t ++ r = l := by
  intro l
  induction l with
  | nil =>
    intro s t r h
    cases h
    rfl
  | cons y l ih =>
    intro s t r h
    simp only [takeBuoy] at h
    obtain ⟨⟨s', u⟩, -, h⟩ := (bind_ok_iff ..).1 h
    dsimp only at h
    split at h
    · cases h; rfl
    · obtain ⟨⟨t', r'⟩, h1, h⟩ := (bind_ok_iff ..).1 h
      cases h
      rw [List.cons_append, ih _ _ _ h1]

private theorem mergeLoop_mem {D : U5} : ∀ (f : Nat) (a b l : List TreeNode), mergeLoop D f a b = .ok l →
    ∀ x ∈ l, x ∈ a ∨ x ∈ b := by
  intro f
  induction f with
  | zero =>
    intro a b l h x hx
    cases a <;> cases b <;> simp only [mergeLoop] at h <;> cases h <;> simp_all
  | succ f ih =>
    intro a b l h x hx
    cases a with
    | nil => cases b <;> simp only [mergeLoop] at h <;> cases h <;> simp_all
    | cons n1 a =>
      cases b with
      | nil => simp only [mergeLoop] at h; cases h; simp_all
      | cons n2 b =>
        simp only [mergeLoop] at h
        have keep : ∀ {n : TreeNode} {r : List TreeNode}, (n = n1 ∨ n = n2) →
            (do let r ← mergeLoop D f a b; .ok (n :: r)) = (.ok l : Exec (List TreeNode)) →
            x ∈ n1 :: a ∨ x ∈ n2 :: b := by
          intro n r hn h
          obtain ⟨r, h1, h⟩ := (bind_ok_iff ..).1 h
          cases h
          have := ih _ _ _ h1 x
          simp only [List.mem_cons] at hx ⊢
          rcases hx with rfl | hx
          · rcases hn with rfl | rfl <;> simp
          · rcases this hx with h | h <;> simp [h]
        split at h
        · split at h
          · exact keep (r := []) (Or.inl rfl) h
          · split at h
            · exact keep (r := []) (Or.inl rfl) h
            · exact keep (r := []) (Or.inr rfl) h
            · have := ih _ _ _ h x hx
              simp only [List.mem_cons]
              rcases this with h | h <;> simp [h]
            · cases h
        · split at h
          · obtain ⟨⟨t, b'⟩, h1, h⟩ := (bind_ok_iff ..).1 h
            obtain ⟨r, h2, h⟩ := (bind_ok_iff ..).1 h
            cases h
            have hs := takeBuoy_split _ _ _ _ h1
            have := ih _ _ _ h2 x
            subst hs
            simp only [List.mem_cons, List.mem_append] at hx this ⊢
            grind
          · obtain ⟨⟨t, a'⟩, h1, h⟩ := (bind_ok_iff ..).1 h
            obtain ⟨r, h2, h⟩ := (bind_ok_iff ..).1 h
            cases h
            have hs := takeBuoy_split _ _ _ _ h1
            have := ih _ _ _ h2 x
            subst hs
            simp only [List.mem_cons, List.mem_append] at hx this ⊢
            grind

theorem coverage_cons (D : U5) (n : TreeNode) (l : List TreeNode) : coverage D (n :: l) =
    (if (n.depthOr D).val ≤ D.val then 2 ^ (D.val - (n.depthOr D).val) else 0) + coverage D l := by
  simp only [coverage, List.filter_cons]
  by_cases h : (n.depthOr D).val ≤ D.val
  · simp [h]
  · simp [h]

theorem sumWidths_coverage [Env] {D : U5} : ∀ (l : List TreeNode) (acc s : Nat), acc < 2 ^ 32 →
    sumWidths D l acc = .ok s → s = (acc + coverage D l) % 2 ^ 32 ∧
      (dbg = true → s = acc + coverage D l ∧ ∀ n ∈ l, (n.depthOr D).val ≤ D.val) := by
  intro l
  have hD := D.isLt
  induction l with
  | nil =>
    intro acc s ha h
    cases h
    refine ⟨?_, fun _ => ⟨rfl, by simp⟩⟩
    exact (Nat.mod_eq_of_lt ha).symm
  | cons n l ih =>
    intro acc s ha h
    simp only [sumWidths] at h
    obtain ⟨e, h1, h⟩ := (bind_ok_iff ..).1 h
    obtain ⟨p, h2, h⟩ := (bind_ok_iff ..).1 h
    obtain ⟨acc', h3, h⟩ := (bind_ok_iff ..).1 h
    have hn := (n.depthOr D).isLt
    have hp : p = (if (n.depthOr D).val ≤ D.val then 2 ^ (D.val - (n.depthOr D).val) else 0) ∧
        (dbg = true → (n.depthOr D).val ≤ D.val) := by
      unfold u8Sub at h1
      split at h1
      · cases h1
        rw [u32Pow2, if_pos (by omega)] at h2
        cases h2
        rw [if_pos ‹_›]
        exact ⟨rfl, fun _ => ‹_›⟩
      · split at h1
        · cases h1
        · cases h1
          rw [u32Pow2, if_neg (by omega)] at h2
          split at h2
          · cases h2
          · cases h2
            rw [if_neg ‹_›]
            exact ⟨rfl, fun h => absurd h ‹_›⟩
    have ha' : acc' = (acc + p) % 2 ^ 32 ∧ (dbg = true → acc' = acc + p) := by
      unfold u32Add at h3
      split at h3
      · cases h3; exact ⟨(Nat.mod_eq_of_lt ‹_›).symm, fun _ => rfl⟩
      · split at h3
        · cases h3
        · cases h3; exact ⟨rfl, fun h => absurd h ‹_›⟩
    have hlt : acc' < 2 ^ 32 := by rw [ha'.1]; exact Nat.mod_lt _ (by decide)
    obtain ⟨g1, g2⟩ := ih acc' s hlt h
    rw [coverage_cons, ← hp.1]
    refine ⟨?_, fun hdbg => ?_⟩
    · rw [g1, ha'.1]; omega
    · obtain ⟨g3, g4⟩ := g2 hdbg
      refine ⟨by rw [g3, ha'.2 hdbg]; omega, ?_⟩
      simp only [List.mem_cons, forall_eq_or_imp]
      exact ⟨hp.2 hdbg, g4⟩

/-- **C72** Whatever two blocks are merged - also malformed ones - and whatever the hash function: if the
call returns, the block keeps its header and its commitment and has no node that neither operand had;
if the call is successful the two commitments were equal and the nodes cover as many leaves as the tree
has (modulo 2^32 in release builds, exactly and without too deep nodes in debug builds); if it is not
the commitments were different and the block is unchanged. -/
theorem C72_any [Env] (b1 b2 b : MerkleBlock) (r : Except MergeError UInt16)
    (h : b1.mergeReveal b2 = .ok (b, r)) :
    ∃ c1 c2, b1.commitId = .ok c1 ∧ b2.commitId = .ok c2 ∧ b.commitId = .ok c1 ∧
      b.method = b1.method ∧ b.depth = b1.depth ∧ b.cofactor = b1.cofactor ∧ b.entropy = b1.entropy ∧
      (∀ x ∈ b.crossSection, x ∈ b1.crossSection ∨ x ∈ b2.crossSection) ∧
      (∀ n, r = .ok n → c1 = c2 ∧ b.crossSection ≠ [] ∧ n = UInt16.ofNat b.crossSection.length ∧
        coverage b.depth b.crossSection % 2 ^ 32 = 2 ^ b.depth.val ∧
        (dbg = true → coverage b.depth b.crossSection = 2 ^ b.depth.val ∧
          ∀ x ∈ b.crossSection, (x.depthOr b.depth).val ≤ b.depth.val)) ∧
      (∀ e, r = .error e → c1 ≠ c2 ∧ b = b1 ∧ e = .unrelatedBlocks c1 c2) := by
  rw [MerkleBlock.mergeReveal] at h
  obtain ⟨c1, h1, h⟩ := (bind_ok_iff ..).1 h
  obtain ⟨c2, h2, h⟩ := (bind_ok_iff ..).1 h
  refine ⟨c1, c2, h1, h2, ?_⟩
  split at h
  · cases h
    exact ⟨h1, rfl, rfl, rfl, rfl, fun x hx => Or.inl hx, by simp, by simp_all⟩
  · obtain ⟨x1, g1, h⟩ := (bind_ok_iff ..).1 h
    obtain ⟨x2, g2, h⟩ := (bind_ok_iff ..).1 h
    obtain ⟨x3, g3, h⟩ := (bind_ok_iff ..).1 h
    obtain ⟨x4, g4, h⟩ := (bind_ok_iff ..).1 h
    obtain ⟨x5, g5, h⟩ := (bind_ok_iff ..).1 h
    obtain ⟨x6, g6, h⟩ := (bind_ok_iff ..).1 h
    cases h
    have e2 : x2 = x1 ∧ x1 ≠ [] := by
      unfold nonEmptyVec at g2
      split at g2
      · rename_i hl
        cases g2
        exact ⟨rfl, fun h => by rw [h] at hl; simp at hl⟩
      · cases g2
    obtain ⟨rfl, hne⟩ := e2
    have e4 : x3 = widthLimit b1.depth := by
      unfold assert' at g4
      split at g4
      · exact of_decide_eq_true ‹_›
      · cases g4
    have e6 : c1 = x5 := by
      unfold assert' at g6
      split at g6
      · exact of_decide_eq_true ‹_›
      · cases g6
    obtain ⟨k1, k2⟩ := sumWidths_coverage _ _ _ (by decide) g3
    simp only [Nat.zero_add] at k1 k2
    subst e6
    refine ⟨g5, rfl, rfl, rfl, rfl, mergeLoop_mem _ _ _ _ g1, fun n hn => ?_, by simp⟩
    cases hn
    refine ⟨Decidable.not_not.1 ‹_›, hne, rfl, ?_, fun hd => ?_⟩
    · rw [← k1, e4]; rfl
    · obtain ⟨k3, k4⟩ := k2 hd
      exact ⟨by rw [← k3, e4]; rfl, k4⟩

/-! ## C73 -/

/-- `PT.Clash`, by recursion. -/
private def clashB : PT → PT → Bool
  | .leaf p m, .leaf q n => decide (¬ (p = q ∧ m = n))
  | .node l r, .node l' r' => clashB l l' || clashB r r'
  | _, _ => false

private theorem clashB_iff {D : Nat} : ∀ {t u : PT} {d n lo : Nat}, t.Fits D D d → u.Fits D D d → d + n = D →
    (clashB t u = true ↔ ∃ i x y, (i, x) ∈ t.slots n lo ∧ (i, y) ∈ u.slots n lo ∧ x ≠ y) := by
  intro t
  induction t with
  | hidden h => intro u d n lo _ _ _; cases u <;> simp [clashB, PT.slots]
  | leaf p m =>
    intro u d n lo ht hu hd
    cases u with
    | hidden h => simp [clashB, PT.slots]
    | leaf q k =>
      simp only [clashB, PT.slots, List.mem_singleton, Prod.mk.injEq, decide_eq_true_eq]
      constructor
      · intro h
        refine ⟨lo, (p, m), (q, k), ⟨rfl, rfl⟩, ⟨rfl, rfl⟩, fun h' => h ?_⟩
        simpa using h'
      · rintro ⟨i, x, y, ⟨rfl, rfl⟩, ⟨-, rfl⟩, h⟩
        simpa using h
    | node l r =>
      simp only [PT.Fits] at ht
      exact absurd (fits_node_lt hu) (by omega)
  | node l r ihl ihr =>
    intro u d n lo ht hu hd
    have hlt := fits_node_lt ht
    cases u with
    | hidden h => simp [clashB, PT.slots]
    | leaf q k =>
      simp only [PT.Fits] at hu
      omega
    | node l' r' =>
      simp only [clashB, PT.slots, Bool.or_eq_true]
      rw [ihl (n := n - 1) (lo := lo) ht.1 hu.1 (by omega),
        ihr (n := n - 1) (lo := lo + 2 ^ (n - 1)) ht.2 hu.2 (by omega)]
      have a1 := (slots_range (Nat.le_refl _) ht.1 (n := n - 1) (lo := lo) (by omega)).1
      have a2 := (slots_range (Nat.le_refl _) hu.1 (n := n - 1) (lo := lo) (by omega)).1
      have a3 := (slots_range (Nat.le_refl _) ht.2 (n := n - 1) (lo := lo + 2 ^ (n - 1)) (by omega)).1
      have a4 := (slots_range (Nat.le_refl _) hu.2 (n := n - 1) (lo := lo + 2 ^ (n - 1)) (by omega)).1
      constructor
      · rintro (⟨i, x, y, h1, h2, h3⟩ | ⟨i, x, y, h1, h2, h3⟩)
        · exact ⟨i, x, y, List.mem_append_left _ h1, List.mem_append_left _ h2, h3⟩
        · exact ⟨i, x, y, List.mem_append_right _ h1, List.mem_append_right _ h2, h3⟩
      · rintro ⟨i, x, y, h1, h2, h3⟩
        rcases List.mem_append.1 h1 with h1 | h1 <;> rcases List.mem_append.1 h2 with h2 | h2
        · exact Or.inl ⟨i, x, y, h1, h2, h3⟩
        · have := (a1 _ h1).2
          have := (a4 _ h2).1
          omega
        · have := (a3 _ h1).1
          have := (a2 _ h2).2
          omega
        · exact Or.inr ⟨i, x, y, h1, h2, h3⟩

private theorem join_fits' {D : Nat} : ∀ {t u : PT} {d : Nat}, t.Fits D D d → u.Fits D D d →
    (t.join u).Fits D D d := by
  intro t
  induction t with
  | hidden h => intro u d _ hu; simpa [PT.join] using hu
  | leaf p m => intro u d ht _; cases u <;> exact ht
  | node l r ihl ihr =>
    intro u d ht hu
    cases u with
    | hidden h => exact ht
    | leaf q n => exact ht
    | node l' r' => exact ⟨ihl ht.1 hu.1, ihr ht.2 hu.2⟩

private theorem join_slots' {D : Nat} {e : Nat × (ProtocolId × Message)} : ∀ {t u : PT} {d n lo : Nat},
    t.Fits D D d → u.Fits D D d → clashB t u = false →
    (e ∈ (t.join u).slots n lo ↔ e ∈ t.slots n lo ∨ e ∈ u.slots n lo) := by
  intro t
  induction t with
  | hidden h => intro u d n lo _ _ _; simp [PT.join, PT.slots]
  | leaf p m =>
    intro u d n lo ht hu hc
    cases u with
    | hidden h => simp [PT.join, PT.slots]
    | leaf q k =>
      have : p = q ∧ m = k := by simpa [clashB] using hc
      simp [PT.join, PT.slots, this]
    | node l r =>
      simp only [PT.Fits] at ht
      exact absurd (fits_node_lt hu) (by omega)
  | node l r ihl ihr =>
    intro u d n lo ht hu hc
    cases u with
    | hidden h => simp [PT.join, PT.slots]
    | leaf q k =>
      have := fits_node_lt ht
      simp only [PT.Fits] at hu
      omega
    | node l' r' =>
      simp only [clashB, Bool.or_eq_false_iff] at hc
      simp only [PT.join, PT.slots, List.mem_append, ihl ht.1 hu.1 hc.1, ihr ht.2 hu.2 hc.2]
      grind

theorem coverage_append (D : U5) (l r : List TreeNode) :
    coverage D (l ++ r) = coverage D l + coverage D r := by
  simp [coverage]

theorem coverage_frontier {D : U5} : ∀ {t : PT} {d : Nat}, t.Fits D.val D.val d → d ≤ D.val →
    coverage D (t.frontier d) = 2 ^ (D.val - d) := by
  intro t
  have hD := D.isLt
  induction t with
  | hidden h =>
    intro d _ hd
    simp [PT.frontier, coverage, TreeNode.depthOr, toU5_val (show d < 32 by omega), hd]
  | leaf p m =>
    intro d hf hd
    simp only [PT.Fits] at hf
    simp [PT.frontier, coverage, TreeNode.depthOr, hf]
  | node l r ihl ihr =>
    intro d hf hd
    have h2 := fits_node_lt hf
    have h3 := pow_split (show d + 1 ≤ D.val by omega)
    rw [PT.frontier, coverage_append, ihl hf.1 (by omega), ihr hf.2 (by omega)]
    omega

/-- The outcome of the main loop for arbitrary trees: it panics if they clash; else the nodes are those of
the union, or there are too few of them. -/
private theorem mergeL_any {D : U5} : ∀ (t u : PT) (d : Nat), t.Fits D.val D.val d → u.Fits D.val D.val d →
    d ≤ D.val →
    (clashB t u = true ∧ ∀ A B, mergeL D (t.frontier d ++ A) (u.frontier d ++ B) = .error .unreachable) ∨
    (clashB t u = false ∧ ∃ l, (∀ A B, mergeL D (t.frontier d ++ A) (u.frontier d ++ B) =
      (do let r ← mergeL D A B; .ok (l ++ r))) ∧
      (l = (t.join u).frontier d ∨ coverage D l < 2 ^ (D.val - d))) := by
  intro t
  have hD := D.isLt
  induction t with
  | hidden h =>
    intro u d hf1 hf2 hd
    refine Or.inr ⟨by cases u <;> rfl, ?_⟩
    cases u with
    | hidden h' =>
      by_cases he : h = h'
      · subst he
        exact ⟨_, fun A B => mergeL_equal rfl rfl, Or.inl rfl⟩
      · refine ⟨[], fun A B => ?_, Or.inr ?_⟩
        · have hne : TreeNode.concealed (toU5 d) h ≠ .concealed (toU5 d) h' := by simpa using he
          have : mergeL D ((PT.hidden h).frontier d ++ A) ((PT.hidden h').frontier d ++ B) =
              mergeL D A B := by
            simp only [PT.frontier, List.cons_append, List.nil_append, mergeL, List.length_cons, mergeLoop,
              TreeNode.depthOr, if_true, if_neg hne, TreeNode.isLeaf]
          rw [this]
          cases mergeL D A B <;> rfl
        · exact Nat.two_pow_pos _
    | leaf p m =>
      simp only [PT.Fits] at hf2
      exact ⟨_, fun A B => mergeL_leaf2 (by simp [TreeNode.depthOr, toU5_of_val hf2.symm]) rfl rfl,
        Or.inl rfl⟩
    | node l r =>
      obtain ⟨n, tl, e, _, h3, _⟩ := frontier_cons hf2 (by omega)
      refine ⟨_, fun A B => ?_, Or.inl rfl⟩
      rw [e, PT.join, e]
      refine mergeL_less ?_ (takeBuoy_node hf2 e)
      simp only [TreeNode.depthOr, Fin.lt_def, toU5_val (show d < 32 by omega)]
      exact h3 l r rfl
  | leaf p m =>
    intro u d hf1 hf2 hd
    simp only [PT.Fits] at hf1
    cases u with
    | hidden h' =>
      exact Or.inr ⟨rfl, _, fun A B => mergeL_leaf1 (by simp [TreeNode.depthOr, toU5_of_val hf1.symm]) rfl rfl,
        Or.inl rfl⟩
    | leaf q k =>
      by_cases he : p = q ∧ m = k
      · obtain ⟨rfl, rfl⟩ := he
        exact Or.inr ⟨by simp [clashB], _, fun A B => mergeL_equal rfl rfl, Or.inl rfl⟩
      · refine Or.inl ⟨by simp only [clashB, decide_eq_true_eq]; exact he, fun A B => ?_⟩
        have hne : TreeNode.leaf p m ≠ .leaf q k := by simpa using he
        simp only [PT.frontier, List.cons_append, List.nil_append, mergeL, List.length_cons, mergeLoop,
          TreeNode.depthOr, if_true, if_neg hne, TreeNode.isLeaf]
    | node l r => exact absurd (fits_node_lt hf2) (by omega)
  | node l1 r1 ihl ihr =>
    intro u d hf1 hf2 hd
    have hlt := fits_node_lt hf1
    cases u with
    | hidden h' =>
      obtain ⟨n, tl, e, _, h3, _⟩ := frontier_cons hf1 (by omega)
      refine Or.inr ⟨rfl, _, fun A B => ?_, Or.inl rfl⟩
      rw [e, PT.join, e]
      · refine mergeL_greater ?_ (takeBuoy_node hf1 e)
        simp only [TreeNode.depthOr, Fin.lt_def, toU5_val (show d < 32 by omega)]
        exact h3 l1 r1 rfl
      · simp
    | leaf q n => simp only [PT.Fits] at hf2; omega
    | node l2 r2 =>
      simp only [PT.frontier, PT.join, List.append_assoc, clashB]
      have hp := pow_split (show d + 1 ≤ D.val by omega)
      rcases ihl l2 (d + 1) hf1.1 hf2.1 (by omega) with ⟨c, h⟩ | ⟨c, l, h, hl⟩
      · exact Or.inl ⟨by simp [c], fun A B => h _ _⟩
      · rcases ihr r2 (d + 1) hf1.2 hf2.2 (by omega) with ⟨c', h'⟩ | ⟨c', l', h', hl'⟩
        · exact Or.inl ⟨by simp [c'], fun A B => by rw [h, h']; rfl⟩
        · refine Or.inr ⟨by simp [c, c'], l ++ l', fun A B => ?_, ?_⟩
          · rw [h, h']
            cases mergeL D A B <;> simp [ok_bind, error_bind]
          · have f1 := coverage_frontier (join_fits' hf1.1 hf2.1) (show d + 1 ≤ D.val by omega)
            have f2 := coverage_frontier (join_fits' hf1.2 hf2.2) (show d + 1 ≤ D.val by omega)
            rw [coverage_append]
            rcases hl with rfl | hl <;> rcases hl' with rfl | hl'
            · exact Or.inl rfl
            all_goals (right; omega)

/-- **C73** Whatever the hash function does, a successful merge of structurally valid blocks of one depth
gives a structurally valid block that reveals in each slot exactly what one of the two reveals there; the
two did not contradict each other. -/
theorem C73_union [Env] (b1 b2 : MerkleBlock) (t1 t2 : PT) (h1 : b1.Shows t1) (h2 : b2.Shows t2)
    (hd : b1.depth = b2.depth) (b : MerkleBlock) (n : UInt16) (h : b1.mergeReveal b2 = .ok (b, .ok n)) :
    ¬ t1.Clash t2 b1.depth.val ∧ ∃ t : PT, b.Shows t ∧
      (∀ e, e ∈ t.slots b1.depth.val 0 ↔ e ∈ t1.slots b1.depth.val 0 ∨ e ∈ t2.slots b1.depth.val 0) ∧
      ∀ e, e ∈ b.knownMessages ↔ e ∈ b1.knownMessages ∨ e ∈ b2.knownMessages := by
  have hf1 := h1.2
  have hf2 : t2.Fits b1.depth.val b1.depth.val 0 := by rw [hd]; exact h2.2
  obtain ⟨_, _, -, -, -, -, -, -, -, -, hok, -⟩ := C72_any b1 b2 b _ h
  obtain ⟨-, -, -, hcov, -⟩ := hok n rfl
  rw [MerkleBlock.mergeReveal] at h
  obtain ⟨c1, -, h⟩ := (bind_ok_iff ..).1 h
  obtain ⟨c2, -, h⟩ := (bind_ok_iff ..).1 h
  split at h
  · cases h
  · obtain ⟨x1, g1, h⟩ := (bind_ok_iff ..).1 h
    obtain ⟨x2, g2, h⟩ := (bind_ok_iff ..).1 h
    obtain ⟨x3, g3, h⟩ := (bind_ok_iff ..).1 h
    obtain ⟨x4, g4, h⟩ := (bind_ok_iff ..).1 h
    obtain ⟨x5, g5, h⟩ := (bind_ok_iff ..).1 h
    obtain ⟨x6, g6, h⟩ := (bind_ok_iff ..).1 h
    cases h
    have e2 : x2 = x1 := by
      unfold nonEmptyVec at g2
      split at g2 <;> cases g2
      rfl
    subst e2
    rw [mergeLoop_eq (Nat.le_refl _), h1.1, h2.1] at g1
    have hw : 2 ^ b1.depth.val < 2 ^ 32 := Nat.pow_lt_pow_right (by omega) b1.depth.isLt
    rcases mergeL_any t1 t2 0 hf1 hf2 (by omega) with ⟨-, hm⟩ | ⟨hc, l, hm, hl⟩
    · have := hm [] []
      rw [List.append_nil, List.append_nil, g1] at this
      cases this
    · have := hm [] []
      rw [List.append_nil, List.append_nil, g1, show mergeL b1.depth [] [] = .ok [] from rfl, ok_bind,
        List.append_nil] at this
      cases this
      have hs : MerkleBlock.Shows { b1 with crossSection := x2 } (t1.join t2) := by
        refine ⟨?_, join_fits' hf1 hf2⟩
        rcases hl with hl | hl
        · exact hl
        · simp only [Nat.sub_zero] at hl
          dsimp only at hcov
          rw [Nat.mod_eq_of_lt (by omega)] at hcov
          omega
      have hsl : ∀ e, e ∈ (t1.join t2).slots b1.depth.val 0 ↔
          e ∈ t1.slots b1.depth.val 0 ∨ e ∈ t2.slots b1.depth.val 0 := fun e => join_slots' hf1 hf2 hc
      refine ⟨fun hcl => ?_, _, hs, hsl, fun e => ?_⟩
      · rw [PT.Clash, ← clashB_iff hf1 hf2 (Nat.zero_add _), hc] at hcl
        cases hcl
      · rw [shows_known hs, shows_known h1, shows_known h2,
          ← slots_known (t := t1.join t2) (n := b1.depth.val) (lo := 0),
          ← slots_known (t := t1) (n := b1.depth.val) (lo := 0),
          ← slots_known (t := t2) (n := b1.depth.val) (lo := 0)]
        simp only [List.mem_map, hsl]
        grind

/-- **C73** Merging blocks with one commitment that contradict each other - which is possible only if
there is a collision of the hash function - panics, in debug and in release builds. -/
theorem C73_clash [Env] (b1 b2 : MerkleBlock) (t1 t2 : PT) (h1 : b1.Shows t1) (h2 : b2.Shows t2)
    (hd : b1.depth = b2.depth) (c : Commitment) (hc1 : b1.commitId = .ok c) (hc2 : b2.commitId = .ok c)
    (hcl : t1.Clash t2 b1.depth.val) : b1.mergeReveal b2 = .error .unreachable := by
  have hf1 := h1.2
  have hf2 : t2.Fits b1.depth.val b1.depth.val 0 := by rw [hd]; exact h2.2
  rw [PT.Clash, ← clashB_iff hf1 hf2 (Nat.zero_add _)] at hcl
  rw [MerkleBlock.mergeReveal, hc1, hc2, ok_bind, ok_bind, if_neg (by simp), mergeLoop_eq (Nat.le_refl _),
    h1.1, h2.1]
  rcases mergeL_any t1 t2 0 hf1 hf2 (by omega) with ⟨-, hm⟩ | ⟨hc, -⟩
  · have := hm [] []
    rw [List.append_nil, List.append_nil] at this
    rw [this]
    rfl
  · rw [hc] at hcl
    cases hcl

/-- **C72** Of nodes that follow a complete tree in one of the two blocks a merge takes all but the
first: merging blocks of a tree where one of them is followed by further nodes succeeds, and drops
it, if there is one such node; and if it succeeds the remaining ones are kept, and their leaves are a
multiple of 2^32 in number. -/
theorem C72_trailing [Env] (T : MerkleTree) (b1 b2 : MerkleBlock) (t1 t2 : PT) (r1 r2 : List TreeNode)
    (hm : b1.method = T.method) (hd1 : b1.depth = T.depth) (hco : b1.cofactor = T.cofactor)
    (e1 : b1.crossSection = t1.frontier 0 ++ r1) (e2 : b2.crossSection = t2.frontier 0 ++ r2)
    (f1 : t1.Fits T.depth.val T.depth.val 0) (f2 : t2.Fits T.depth.val T.depth.val 0)
    (v1 : t1.View (2 ^ T.depth.val) T.pt 0) (v2 : t2.View (2 ^ T.depth.val) T.pt 0)
    (i1 : b1.commitId = T.commitId) (i2 : b2.commitId = T.commitId) (hr : r1 = [] ∨ r2 = []) :
    ((r1 ++ r2).length ≤ 1 → ∃ b n, b1.mergeReveal b2 = .ok (b, .ok n) ∧ b.OfTree T ∧
      b.crossSection = (t1.join t2).frontier 0) ∧
    ∀ b n, b1.mergeReveal b2 = .ok (b, .ok n) →
      b.crossSection = (t1.join t2).frontier 0 ++ (r1 ++ r2).tail ∧
      coverage T.depth (r1 ++ r2).tail % 2 ^ 32 = 0 := by
  have hlt := T.depth.isLt
  have hw : 2 ^ T.depth.val < 2 ^ 32 := Nat.pow_lt_pow_right (by omega) hlt
  have hc := view_compat v1 v2
  have hf := join_fits hc f1 f2
  have hv := view_join v1 v2
  have hlast : mergeL T.depth r1 r2 = .ok (r1 ++ r2).tail := by
    rcases hr with rfl | rfl
    · cases r2 <;> rfl
    · rw [List.append_nil]
      cases r1 <;> rfl
  have hloop : mergeL T.depth b1.crossSection b2.crossSection =
      .ok ((t1.join t2).frontier 0 ++ (r1 ++ r2).tail) := by
    rw [e1, e2, mergeL_join t1 t2 0 r1 r2 f1 f2 (by omega) hc, hlast]
    rfl
  constructor
  · intro hlen
    have ht : (r1 ++ r2).tail = [] := List.eq_nil_of_length_eq_zero (by rw [List.length_tail]; omega)
    rw [ht, List.append_nil] at hloop
    have hs : MerkleBlock.Shows { b1 with crossSection := (t1.join t2).frontier 0 } (t1.join t2) :=
      ⟨rfl, by rw [hd1]; exact hf⟩
    have hcm : MerkleBlock.commitId { b1 with crossSection := (t1.join t2).frontier 0 } =
        .ok T.specCommitment := by
      rw [shows_commitId hs]
      show Except.ok (commitmentHash ⟨b1.depth, b1.cofactor, _⟩) = _
      rw [hd1, hco, show widthLimit T.depth = 2 ^ T.depth.val from rfl, view_root hv]
      rfl
    refine ⟨{ b1 with crossSection := (t1.join t2).frontier 0 },
      UInt16.ofNat ((t1.join t2).frontier 0).length, ?_, ⟨hm, hd1, hco, _, hs, hv⟩, rfl⟩
    rw [MerkleBlock.mergeReveal, i1, i2, tree_commitId, ok_bind, ok_bind, if_neg (by simp),
      mergeLoop_eq (Nat.le_refl _), hd1, hloop, ok_bind, nonEmptyVec_frontier hf, ok_bind]
    have := sumWidths_frontier (D := T.depth) (t1.join t2) 0 0 [] hf (by omega) (by
      simp only [Nat.zero_add, Nat.sub_zero]; exact hw)
    rw [List.append_nil] at this
    rw [← hd1] at this ⊢
    dsimp only
    rw [this, hcm]
    simp [sumWidths, ok_bind, assert', widthLimit]
  · intro b n h
    obtain ⟨_, _, -, -, -, -, hdb, -, -, -, hok, -⟩ := C72_any b1 b2 b _ h
    obtain ⟨-, -, -, hcov, -⟩ := hok n rfl
    have hcs : b.crossSection = (t1.join t2).frontier 0 ++ (r1 ++ r2).tail := by
      rw [MerkleBlock.mergeReveal, i1, i2, tree_commitId, ok_bind, ok_bind, if_neg (by simp),
        mergeLoop_eq (Nat.le_refl _), hd1, hloop, ok_bind] at h
      obtain ⟨x, g1, h⟩ := (bind_ok_iff ..).1 h
      obtain ⟨_, -, h⟩ := (bind_ok_iff ..).1 h
      obtain ⟨_, -, h⟩ := (bind_ok_iff ..).1 h
      obtain ⟨_, -, h⟩ := (bind_ok_iff ..).1 h
      obtain ⟨_, -, h⟩ := (bind_ok_iff ..).1 h
      cases h
      unfold nonEmptyVec at g1
      split at g1 <;> cases g1
      rfl
    refine ⟨hcs, ?_⟩
    rw [hcs, hdb, hd1, coverage_append, coverage_frontier hf (Nat.zero_le _)] at hcov
    simp only [Nat.sub_zero] at hcov
    omega

/-- A block meeting the hypotheses of `C72_trailing`: the root of a tree followed by a leaf of a protocol
the tree knows nothing of, which has the commitment of the tree in release builds. Merging a block of
the tree into it removes that leaf. -/
example : ∃ b n, @MerkleBlock.mergeReveal (realEnv false) ⟨.sha256t, 2, 1,
      [.concealed 0 (@MerkleTree.specRoot (realEnv false) Sample.tree), .leaf Sample.p9 Sample.m1], none⟩
    (@Sample.block (realEnv false)) = .ok (b, .ok n) ∧ @MerkleBlock.OfTree (realEnv false) b Sample.tree := by
  letI := realEnv false
  obtain ⟨-, -, -, t, hs, hv⟩ := Sample.view_block
  obtain ⟨b, n, h, ho, -⟩ := (C72_trailing Sample.tree
    ⟨.sha256t, 2, 1, [.concealed 0 Sample.tree.specRoot, .leaf Sample.p9 Sample.m1], none⟩ Sample.block
    (.hidden Sample.tree.specRoot) t [.leaf Sample.p9 Sample.m1] [] rfl rfl rfl rfl
    (hs.1.trans (List.append_nil _).symm) (Nat.zero_le _) hs.2 rfl hv
    (by rw [tree_commitId]; rfl) (by rw [tree_commitId, ofTree_commitId Sample.view_block]) (Or.inr rfl)).1 (Nat.le_refl _)
  exact ⟨b, n, h, ho⟩

/-- A hash function all of whose values are equal, in a release build. -/
@[instance_reducible] private def constEnv : Env := ⟨fun _ => Bytes32.fill 0, false⟩

/-- Two blocks meeting the hypotheses of `C73_clash` - and panicking. -/
example : @MerkleBlock.mergeReveal constEnv ⟨.sha256t, 0, 0, [.leaf Sample.p1 Sample.m1], none⟩
    ⟨.sha256t, 0, 0, [.leaf Sample.p1 Sample.m5], none⟩ = .error .unreachable := by
  letI := constEnv
  have h1 : MerkleBlock.Shows ⟨.sha256t, 0, 0, [.leaf Sample.p1 Sample.m1], none⟩
    (.leaf Sample.p1 Sample.m1) := ⟨rfl, rfl⟩
  have h2 : MerkleBlock.Shows ⟨.sha256t, 0, 0, [.leaf Sample.p1 Sample.m5], none⟩
    (.leaf Sample.p1 Sample.m5) := ⟨rfl, rfl⟩
  refine C73_clash _ _ _ _ h1 h2 rfl (Bytes32.fill 0) ?_ ?_
    ⟨0, _, _, List.mem_singleton_self _, List.mem_singleton_self _, by decide⟩
  · rw [shows_commitId h1]; rfl
  · rw [shows_commitId h2]; rfl

/-- A successful merge of blocks of a tree, as in the hypotheses of `C72_any` and `C73_union`. -/
example [Env] : ∃ b n, Sample.block1.mergeReveal Sample.block = .ok (b, .ok n) ∧
    (Sample.p5, Sample.m5) ∈ b.knownMessages := by
  obtain ⟨b, n, h, -, hk⟩ := C23_of_tree _ _ _ Sample.view_block1 Sample.view_block
  exact ⟨b, n, h, (hk _).2 (Or.inr (by
    simp [MerkleBlock.knownMessages, Sample.block]))⟩

end CSV
