import Verif.Spec.Tree
import Verif.Proofs.ConcealExcept

/-!
# Trees, their blocks and roots
-/

namespace CSV

theorem map_range'_split {α : Type} (f : Nat → α) (lo a b : Nat) :
    (List.range' lo (a + b)).map f = (List.range' lo a).map f ++ (List.range' (lo + a) b).map f := by
  rw [← List.map_append, List.range'_append_1]

theorem frontier_full {f : Nat → PT} {g : Nat → TreeNode} {D : Nat}
    (hg : ∀ i, (f i).frontier D = [g i]) : ∀ (n lo d : Nat), d + n = D →
    (PT.full f n lo).frontier d = (List.range' lo (2 ^ n)).map g := by
  intro n
  induction n with
  | zero =>
    intro lo d hd
    simp only [Nat.add_zero] at hd
    subst hd
    simp [PT.full, hg]
  | succ n ih =>
    intro lo d hd
    rw [PT.full, PT.frontier, ih lo (d + 1) (by omega), ih (lo + 2 ^ n) (d + 1) (by omega),
      Nat.pow_succ, Nat.mul_two, map_range'_split]

theorem fits_full {f : Nat → PT} {H D : Nat} (hf : ∀ i, (f i).Fits H D D) :
    ∀ (n lo d : Nat), d + n = D → (PT.full f n lo).Fits H D d := by
  intro n
  induction n with
  | zero =>
    intro lo d hd
    simp only [Nat.add_zero] at hd
    subst hd
    exact hf lo
  | succ n ih =>
    intro lo d hd
    exact ⟨ih lo (d + 1) (by omega), ih (lo + 2 ^ n) (d + 1) (by omega)⟩

theorem known_full {f : Nat → PT} : ∀ (n lo : Nat),
    (PT.full f n lo).known = (List.range' lo (2 ^ n)).flatMap (fun i => (f i).known) := by
  intro n
  induction n with
  | zero => intro lo; simp [PT.full]
  | succ n ih =>
    intro lo
    rw [PT.full, PT.known, ih lo, ih (lo + 2 ^ n), Nat.pow_succ, Nat.mul_two,
      ← List.flatMap_append, List.range'_append_1]

/-- The node of the block at a slot. -/
def MerkleTree.node [Env] (t : MerkleTree) (pos : Nat) : TreeNode :=
  match t.map.get (UInt32.ofNat pos) with
  | some (p, m) => .leaf p m
  | none => .concealed t.depth (leafHash (.entropy t.entropy (UInt32.ofNat pos)))

theorem nodeAt_eq [Env] (t : MerkleTree) (pos : Nat) : t.nodeAt pos = .ok (t.node pos) := by
  unfold MerkleTree.nodeAt MerkleTree.node
  cases t.map.get (UInt32.ofNat pos) with
  | some e => rfl
  | none => simp only [commitId_leaf, ok_bind]

theorem slot_frontier [Env] (t : MerkleTree) (pos : Nat) :
    (t.slot pos).frontier t.depth.val = [t.node pos] := by
  unfold MerkleTree.slot MerkleTree.node
  cases t.map.get (UInt32.ofNat pos) with
  | some e => rfl
  | none =>
    simp only [PT.frontier]
    congr 2
    apply Fin.ext
    rw [toU5_val t.depth.isLt]

theorem slot_fits [Env] (t : MerkleTree) (pos : Nat) :
    (t.slot pos).Fits t.depth.val t.depth.val t.depth.val := by
  unfold MerkleTree.slot
  cases t.map.get (UInt32.ofNat pos) with
  | some e => rfl
  | none => exact Nat.le_refl _

theorem mapM_ok {α β : Type} (f : α → Exec β) (g : α → β) (h : ∀ a, f a = .ok (g a)) :
    ∀ l : List α, l.mapM f = .ok (l.map g)
  | [] => rfl
  | a :: l => by
    rw [List.mapM_cons, h, ok_bind, mapM_ok f g h l]
    rfl

theorem widthLimit_pos (d : U5) : 1 ≤ widthLimit d ∧ widthLimit d ≤ 2 ^ 31 := by
  have := Nat.two_pow_pos d.val
  have h2 : 2 ^ d.val ≤ 2 ^ 31 := Nat.pow_le_pow_right (by omega) (by have := d.isLt; omega)
  exact ⟨this, h2⟩

/-- The block of a tree shows the tree. -/
theorem fromTree_eq [Env] (t : MerkleTree) :
    MerkleBlock.fromTree t =
      .ok ⟨t.method, t.depth, t.cofactor, t.pt.frontier 0, some t.entropy⟩ := by
  have hw := widthLimit_pos t.depth
  rw [MerkleBlock.fromTree, mapM_ok _ _ (nodeAt_eq t), ok_bind]
  rw [nonEmptyVec, if_pos (by
    simp only [List.length_map, List.length_range, MerkleTree.widthLimit]
    omega)]
  rw [ok_bind, MerkleTree.pt, frontier_full (slot_frontier t) _ _ _ (by omega), List.range_eq_range']
  rfl

theorem fits_pt [Env] (t : MerkleTree) : t.pt.Fits t.depth.val t.depth.val 0 :=
  fits_full (slot_fits t) _ _ _ (by omega)

theorem fromTree_shows [Env] (t : MerkleTree) :
    MerkleBlock.Shows ⟨t.method, t.depth, t.cofactor, t.pt.frontier 0, some t.entropy⟩ t.pt :=
  ⟨rfl, fits_pt t⟩

theorem tree_conceal [Env] (t : MerkleTree) :
    t.conceal = .ok ⟨t.depth, t.cofactor, t.specRoot⟩ := by
  rw [MerkleTree.conceal, fromTree_eq, ok_bind, shows_conceal (fromTree_shows t)]
  rfl

theorem tree_commitId [Env] (t : MerkleTree) : t.commitId = .ok t.specCommitment := by
  rw [MerkleTree.commitId_eq, tree_conceal]
  rfl

/-! ## The root computed by merklization -/

theorem slot_root [Env] (t : MerkleTree) (w pos d : Nat) :
    (t.slot pos).root w d = leafHash (t.leafAt pos) := by
  unfold MerkleTree.slot MerkleTree.leafAt
  cases t.map.get (UInt32.ofNat pos) with
  | some e => rfl
  | none => rfl

theorem branches_toU5 [Env] {d : Nat} (hd : d < 32) (w : Nat) (h1 h2 : MerkleHash) :
    MerkleHash.branches (toU5 d) w h1 h2 = .ok (branchHash d w h1 h2) := by
  rw [branches_eq, toU5_val hd]

theorem u5Add_toU5 {d : Nat} (h : d + 1 < 32) : u5Add (toU5 d) 1 = .ok (toU5 (d + 1)) := by
  have h1 : (toU5 d).val = d := toU5_val (by omega)
  have h2 : (toU5 (d + 1)).val = d + 1 := toU5_val h
  simp only [u5Add, u5With, h1]
  rw [dif_pos h]
  congr 1
  apply Fin.ext
  simp [h2]

theorem merklizeGo_big [Env] {fuel bw w : Nat} {iter : List MerkleHash} {depth : U5} (h : 2 < bw) :
    merklizeGo (fuel + 1) iter depth bw w = (do
      let depth1 ← u5Add depth 1
      let branch1 ← merklizeGo fuel (iter.take (bw / 2 + bw % 2)) depth1 (bw / 2 + bw % 2) w
      let branch2 ← merklizeGo fuel (iter.drop (bw / 2 + bw % 2)) depth1
        (bw - (bw / 2 + bw % 2)) w
      MerkleHash.branches depth w branch1 branch2) := by
  rw [merklizeGo.eq_def]
  simp only
  rw [if_neg (by omega)]

theorem merklizeGo_full [Env] {f : Nat → PT} {g : Nat → MerkleHash} {w : Nat}
    (hg : ∀ i d, (f i).root w d = g i) : ∀ (n fuel lo d : Nat), n < fuel → d + n < 32 →
    merklizeGo fuel ((List.range' lo (2 ^ (n + 1))).map g) (toU5 d) (2 ^ (n + 1)) w =
      .ok ((PT.full f (n + 1) lo).root w d) := by
  intro n
  induction n with
  | zero =>
    intro fuel lo d hf hd
    obtain ⟨fuel, rfl⟩ : ∃ k, fuel = k + 1 := ⟨fuel - 1, by omega⟩
    simp only [merklizeGo, Nat.zero_add, Nat.pow_one, Nat.le_refl, if_true, PT.full, PT.root, hg,
      List.range'_succ, List.range'_zero, List.map_cons, List.map_nil, Nat.pow_zero]
    exact branches_toU5 (by omega) _ _ _
  | succ n ih =>
    intro fuel lo d hf hd
    obtain ⟨fuel, rfl⟩ : ∃ k, fuel = k + 1 := ⟨fuel - 1, by omega⟩
    have hp := Nat.two_pow_pos (n + 1)
    have hp' := Nat.two_pow_pos n
    have h2 : 2 ^ (n + 1 + 1) = 2 ^ (n + 1) + 2 ^ (n + 1) := by rw [Nat.pow_succ 2 (n + 1)]; omega
    have h3 : 2 ^ (n + 1) = 2 ^ n + 2 ^ n := by rw [Nat.pow_succ 2 n]; omega
    have hdiv : 2 ^ (n + 1 + 1) / 2 + 2 ^ (n + 1 + 1) % 2 = 2 ^ (n + 1) := by omega
    rw [merklizeGo_big (by omega)]
    simp only [hdiv, u5Add_toU5 (show d + 1 < 32 by omega), ok_bind]
    rw [show 2 ^ (n + 1 + 1) - 2 ^ (n + 1) = 2 ^ (n + 1) by omega, h2, map_range'_split,
      List.take_left' (by simp), List.drop_left' (by simp)]
    rw [ih fuel lo (d + 1) (by omega) (by omega), ih fuel (lo + 2 ^ (n + 1)) (d + 1) (by omega) (by omega)]
    simp only [ok_bind]
    rw [branches_toU5 (by omega)]
    rfl

theorem tree_root [Env] (t : MerkleTree) : t.root = .ok t.specRoot := by
  have hw := widthLimit_pos t.depth
  rw [MerkleTree.root]
  simp only [List.length_map, List.length_range, MerkleTree.widthLimit]
  rw [if_pos (by omega), debugAssert_ok (by simp), ok_bind, merklize,
    mapM_ok _ _ (fun l : Leaf => commitId_leaf l), ok_bind, List.map_map]
  unfold merklizeHashes
  simp only [List.length_map, List.length_range]
  rw [if_pos (by omega)]
  have hspec : t.specRoot = (PT.full t.slot t.depth.val 0).root (2 ^ t.depth.val) 0 := rfl
  rw [hspec]
  generalize hn : t.depth.val = n
  have hn32 : n < 32 := by rw [← hn]; exact t.depth.isLt
  have hwl : widthLimit t.depth = 2 ^ n := by rw [widthLimit, hn]
  rw [hwl, List.range_eq_range']
  cases n with
  | zero =>
    simp only [Nat.pow_zero, List.range'_succ, List.range'_zero, List.map_cons, List.map_nil,
      PT.full, slot_root, Function.comp]
  | succ n =>
    have hp := Nat.two_pow_pos n
    have h3 : 2 ^ (n + 1) = 2 ^ n + 2 ^ n := by rw [Nat.pow_succ 2 n]; omega
    have := merklizeGo_full (f := t.slot) (g := leafHash ∘ t.leafAt) (w := 2 ^ (n + 1))
      (fun i d => slot_root t _ i d) n 32 0 0 (by omega) (by omega)
    split
    · rename_i node heq
      have := congrArg List.length heq
      simp at this
    · simp only [List.length_map, List.length_range']
      exact this

end CSV
