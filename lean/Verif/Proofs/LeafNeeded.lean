import Verif.Proofs.Needs
import Verif.Proofs.Binding
import Verif.Proofs.Count
import Verif.Proofs.Tree

/-!
# Lemmas: the commitment of a tree needs the hashes of all its leaves

If the string of one leaf is missing from a list then there is another hash function, equal on the list, for
which the commitment is different: it gives one fresh value to all strings outside of the list.
-/

namespace CSV

theorem length_le_of_subset {α : Type} [DecidableEq α] : ∀ (l q : List α), l.Nodup →
    (∀ a ∈ l, a ∈ q) → l.length ≤ q.length := by
  intro l
  induction l with
  | nil => intro q _ _; exact Nat.zero_le _
  | cons a l ih =>
    intro q hn hs
    rw [List.nodup_cons] at hn
    have ha := hs a (List.mem_cons_self ..)
    have := ih (q.erase a) hn.2 fun b hb => by
      have hne : b ≠ a := fun h => hn.1 (h ▸ hb)
      exact (List.mem_erase_of_ne hne).2 (hs b (List.mem_cons_of_mem _ hb))
    rw [List.length_erase_of_mem ha] at this
    have := List.length_pos_of_mem ha
    simp only [List.length_cons]; omega

private theorem fresh (L : List Bytes) (h : L.length < 2 ^ 256) : ∃ v : Bytes32, v.bytes ∉ L := by
  refine Classical.byContradiction fun hn => ?_
  have hall : ∀ v : Bytes32, v.bytes ∈ L := fun v => Classical.byContradiction fun h => hn ⟨v, h⟩
  have hnd : (allIds.map Bytes32.bytes).Nodup :=
    List.Pairwise.map _ (fun a b (hab : a ≠ b) hb => hab (by cases a; cases b; cases hb; rfl)) allIds_nodup
  have := length_le_of_subset _ L hnd fun a ha => by
    obtain ⟨v, -, rfl⟩ := List.mem_map.1 ha
    exact hall v
  rw [List.length_map, allIds_length] at this
  omega

private theorem node1_at [Env] (d w : Nat) (a b : MerkleHash) :
    ((branchInput d w a b).drop 98).take 32 = a.bytes := by
  have : branchInput d w a b = ((sha (utf8 MERKLE_TAG)).bytes ++ (sha (utf8 MERKLE_TAG)).bytes ++
      (encU8 NodeBranching.branch.toU8 ++ encU8 (UInt8.ofNat d) ++ encU256 (BitVec.ofNat 256 w))) ++
      (a.bytes ++ b.bytes) := by
    simp [branchInput, taggedInput, MerkleNode.enc, encBytes32]
  rw [this, List.drop_left' (by simp [encU8, encU256, leBytes_length, Bytes32.len]), List.take_left' a.len]

private theorem node2_at [Env] (d w : Nat) (a b : MerkleHash) :
    ((branchInput d w a b).drop 130).take 32 = b.bytes := by
  have : branchInput d w a b = ((sha (utf8 MERKLE_TAG)).bytes ++ (sha (utf8 MERKLE_TAG)).bytes ++
      (encU8 NodeBranching.branch.toU8 ++ encU8 (UInt8.ofNat d) ++ encU256 (BitVec.ofNat 256 w) ++ a.bytes)) ++
      (b.bytes ++ []) := by
    simp [branchInput, taggedInput, MerkleNode.enc, encBytes32]
  rw [this, List.drop_left' (by simp [encU8, encU256, leBytes_length, Bytes32.len]), List.take_left' b.len]

private theorem root_at [Env] (c : MerkleConcealed) :
    ((commitmentInput c).drop 67).take 32 = c.merkleRoot.bytes := by
  have : commitmentInput c = ((sha (utf8 MPC_TAG)).bytes ++ (sha (utf8 MPC_TAG)).bytes ++
      (encU5 c.depth ++ encU16 c.cofactor)) ++ (c.merkleRoot.bytes ++ []) := by
    simp [commitmentInput, taggedInput, MerkleConcealed.enc, encBytes32]
  rw [this, List.drop_left' (by simp [encU5, encU16, leBytes_length, Bytes32.len]),
    List.take_left' c.merkleRoot.len]

private theorem tagged_not_tag [Env] (tag : String) (data : Bytes) : taggedInput tag data ∉ tagStrings := by
  intro h
  have hl := taggedInput_length tag data
  have : (utf8 MERKLE_TAG).length = 34 ∧ (utf8 MPC_TAG).length = 37 := by decide +kernel
  simp only [tagStrings, List.mem_cons, List.not_mem_nil, or_false] at h
  rcases h with h | h <;> rw [h] at hl <;> omega

theorem leaf_needed (e : Env) (T : MerkleTree) (l : List Bytes) (hl : 3 * l.length + 1 < 2 ^ 256)
    (hdet : ∀ e' : Env, e'.debug = e.debug → SameHashes e e' (tagStrings ++ l) →
      @MerkleTree.commitId e' T = @MerkleTree.commitId e T)
    (i : Nat) (hi : i < 2 ^ T.depth.val) : @leafInput e (T.leafAt i) ∈ l := by
  refine Classical.byContradiction fun hni => ?_
  obtain ⟨v, hv⟩ := fresh ((@MerkleTree.specCommitment e T).bytes ::
    (l.map (fun s => (s.drop 98).take 32) ++ l.map (fun s => (s.drop 130).take 32) ++
      l.map (fun s => (s.drop 67).take 32))) (by simp only [List.length_cons, List.length_append, List.length_map]; omega)
  simp only [List.mem_cons, List.mem_append, List.mem_map, not_or, not_exists, not_and] at hv
  obtain ⟨hvc, ⟨hv1, hv2⟩, hv3⟩ := hv
  let e' : Env := ⟨fun s => if s ∈ tagStrings ++ l then e.sha256 s else v, e.debug⟩
  have hsame : SameHashes e e' (tagStrings ++ l) := fun x hx => if_pos hx
  have hout : ∀ x, x ∉ tagStrings → x ∉ l → e'.sha256 x = v := fun x h1 h2 =>
    if_neg fun h => (List.mem_append.1 h).elim h1 h2
  have htag : ∀ data, @taggedInput e' MERKLE_TAG data = @taggedInput e MERKLE_TAG data := fun data => by
    simp only [taggedInput, sha]
    rw [hsame _ (List.mem_append_left _ (List.mem_cons_self ..))]
  have hleaf : @leafHash e' (T.leafAt i) = v := by
    refine hout _ (@tagged_not_tag e' _ _) ?_
    rw [leafInput, htag]
    exact hni
  have hslot : ∀ w d, @PT.root e' w (@MerkleTree.slot e' T i) d = v := by
    intro w d
    unfold MerkleTree.leafAt at hleaf
    unfold MerkleTree.slot
    cases hg : T.map.get (UInt32.ofNat i) with
    | none => rw [hg] at hleaf; exact hleaf
    | some pm => rw [hg] at hleaf; exact hleaf
  have hroot : ∀ (n lo d : Nat), lo ≤ i → i < lo + 2 ^ n →
      @PT.root e' (2 ^ T.depth.val) (PT.full (@MerkleTree.slot e' T) n lo) d = v := by
    intro n
    induction n with
    | zero =>
      intro lo d h1 h2
      obtain rfl : lo = i := by simp at h2; omega
      exact hslot _ _
    | succ n ih =>
      intro lo d h1 h2
      simp only [PT.full, PT.root]
      rw [Nat.pow_succ] at h2
      by_cases h : i < lo + 2 ^ n
      · rw [ih lo (d + 1) h1 h]
        exact hout _ (@tagged_not_tag e' _ _) fun hm => hv1 _ hm (@node1_at e' ..)
      · rw [ih (lo + 2 ^ n) (d + 1) (by omega) (by omega)]
        exact hout _ (@tagged_not_tag e' _ _) fun hm => hv2 _ hm (@node2_at e' ..)
  have hc : @MerkleTree.specCommitment e' T = v := by
    refine hout _ (@tagged_not_tag e' _ _) fun hm => hv3 _ hm ?_
    rw [← hroot T.depth.val 0 0 (Nat.zero_le _) (by omega)]
    exact @root_at e' _
  have := hdet e' rfl hsame
  rw [@tree_commitId e', @tree_commitId e, hc] at this
  exact hvc (by rw [Except.ok.inj this])

end CSV
