import Verif.Props.TreeBinding

/-!
# C31: which proofs of one tree match
-/

namespace CSV

private theorem full_shift (f : Nat → PT) (k : Nat) : ∀ (n lo : Nat),
    PT.full f n (lo + k) = PT.full (fun i => f (i + k)) n lo
  | 0, _ => rfl
  | n + 1, lo => by
    simp only [PT.full]
    rw [full_shift f k n lo, ← full_shift f k n (lo + 2 ^ n)]
    rw [Nat.add_right_comm]

/-- The two halves of a committed tree have different roots. -/
private theorem halves_differ [Env] (T : MerkleTree) (hT : T.Holds) (hn : NoCollision T.inputs) (n : Nat)
    (hd : T.depth.val = n + 1) :
    (PT.full T.slot n 0).root (2 ^ T.depth.val) 1 ≠ (PT.full T.slot n (2 ^ n)).root (2 ^ T.depth.val) 1 := by
  intro h
  have hD := T.depth.isLt
  have hw : 2 ^ T.depth.val < 2 ^ 256 := Nat.pow_lt_pow_right (by omega) (by omega)
  have h2n : 0 < 2 ^ n := Nat.pow_pos (by omega)
  have hlt : 2 ^ n < 2 ^ T.depth.val := Nat.pow_lt_pow_right (by omega) (by omega)
  have h32 : 2 ^ n < 2 ^ 32 := Nat.pow_lt_pow_right (by omega) (by omega)
  have hs := full_shift T.slot (2 ^ n) n 0
  rw [Nat.zero_add] at hs
  rw [hs] at h
  have hroot := full_root_slots (f := T.slot) (g := fun i => T.slot (i + 2 ^ n)) hw n 0 1 (by omega)
    (hn.mono (by
      rw [← hs]
      intro a ha
      simp only [MerkleTree.inputs, blockInputs, MerkleTree.pt, List.mem_append, List.mem_cons]
      refine .inl (.inr ?_)
      rw [hd]
      simp only [PT.full, PT.inputs, List.mem_cons, List.mem_append, Nat.zero_add]
      rw [hd, List.mem_append] at ha
      exact .inr ha)) h 0 (Nat.le_refl _) (by omega)
  simp only [Nat.zero_add] at hroot
  rw [slot_root, slot_root] at hroot
  have hleaf : T.leafAt 0 = T.leafAt (2 ^ n) := by
    refine leafInput_inj (hn _ ?_ _ ?_ hroot)
    · simp only [MerkleTree.inputs, List.mem_append, List.mem_map, List.mem_range]
      exact .inr ⟨0, by omega, rfl⟩
    · simp only [MerkleTree.inputs, List.mem_append, List.mem_map, List.mem_range]
      exact .inr ⟨2 ^ n, hlt, rfl⟩
  have hz : (UInt32.ofNat (2 ^ n)).toNat = 2 ^ n := by
    rw [UInt32.toNat_ofNat']
    exact Nat.mod_eq_of_lt h32
  simp only [MerkleTree.leafAt] at hleaf
  cases h1 : T.map.get (UInt32.ofNat 0) with
  | none =>
    cases h2 : T.map.get (UInt32.ofNat (2 ^ n)) with
    | none =>
      simp only [h1, h2, Leaf.entropy.injEq] at hleaf
      have := congrArg UInt32.toNat hleaf.2
      rw [hz] at this
      have h0 : (UInt32.ofNat 0).toNat = 0 := rfl
      omega
    | some y => simp only [h1, h2] at hleaf; cases hleaf
  | some x =>
    cases h2 : T.map.get (UInt32.ofNat (2 ^ n)) with
    | none => simp only [h1, h2] at hleaf; cases hleaf
    | some y =>
      simp only [h1, h2, Leaf.inhabited.injEq] at hleaf
      have hxy : x = y := Prod.ext hleaf.1 hleaf.2
      subst hxy
      have a1 := ((hT _ _).1 h1).2
      have a2 := ((hT _ _).1 h2).2
      rw [hz] at a2
      have h0 : (UInt32.ofNat 0).toNat = 0 := rfl
      omega

/-- The proof extracted from any block of a tree has the siblings of the slot as path. -/
private theorem proof_of_tree [Env] (T : MerkleTree) (hT : T.Holds) (b : MerkleBlock) (hb : b.OfTree T)
    (p : ProtocolId) (pr : MerkleProof) (h : b.toMerkleProof p = .ok (.ok pr)) :
    pr.cofactor = T.cofactor ∧ pr.path = T.pt.siblings (2 ^ T.depth.val) 0 T.depth.val pr.pos.toNat := by
  have hb0 : MerkleBlock.OfTree ⟨T.method, T.depth, T.cofactor, T.pt.frontier 0, some T.entropy⟩ T :=
    ⟨rfl, rfl, rfl, _, fromTree_shows T, view_refl⟩
  have hpl := ofTree_placed hT rfl rfl (fromTree_shows T) view_refl
  have hb' := hb
  obtain ⟨hm, hd, hc, t, hs, hv⟩ := hb'
  by_cases hk : ∃ m, (p, m) ∈ t.known
  · obtain ⟨m, hk⟩ := hk
    have hkT := view_known hv hk
    obtain ⟨pr', h1, h2⟩ := C17_same_proof T hT b _ hb hb0 p
      (by rw [knownIds_map, shows_known hs, List.mem_map]; exact ⟨_, hk, rfl⟩)
      (by rw [knownIds_map, shows_known (fromTree_shows T), List.mem_map]; exact ⟨_, hkT, rfl⟩)
    rw [h] at h1
    cases h1
    rw [toMerkleProof_eq hpl hkT] at h2
    cases h2
    exact ⟨rfl, rfl⟩
  · rw [toMerkleProof_err hs (fun m h => hk ⟨m, h⟩)] at h
    cases h

/-- **C31** Which proofs of one tree match: those of protocols whose slots are in the same half of the tree,
and no others (no collision among the strings hashed for the tree). All of them have the same
commitment (C16). -/
theorem C31_halves [Env] (T : MerkleTree) (hT : T.Holds) (hn : NoCollision T.inputs) (b1 b2 : MerkleBlock)
    (h1 : b1.OfTree T) (h2 : b2.OfTree T) (p1 p2 : ProtocolId) (pr1 pr2 : MerkleProof)
    (e1 : b1.toMerkleProof p1 = .ok (.ok pr1)) (e2 : b2.toMerkleProof p2 = .ok (.ok pr2)) :
    pr1.matches pr2 = true ↔
      (pr1.pos.toNat < 2 ^ T.depth.val / 2 ↔ pr2.pos.toNat < 2 ^ T.depth.val / 2) := by
  obtain ⟨c1, s1⟩ := proof_of_tree T hT b1 h1 p1 pr1 e1
  obtain ⟨c2, s2⟩ := proof_of_tree T hT b2 h2 p2 pr2 e2
  rw [MerkleProof.matches, Bool.and_eq_true, decide_eq_true_eq, decide_eq_true_eq, c1, c2]
  simp only [MerkleProof.merkleRoot, s1, s2, true_and]
  cases hd : T.depth.val with
  | zero =>
    have : ∀ i, (T.pt.siblings (2 ^ 0) 0 0 i).head? = none := by
      intro i
      rw [MerkleTree.pt, hd, PT.full, MerkleTree.slot]
      split <;> rfl
    rw [this, this]
    simp
  | succ n =>
    have hdiff := halves_differ T hT hn n hd
    rw [hd] at hdiff
    rw [MerkleTree.pt, hd]
    simp only [PT.full, PT.siblings, Nat.add_sub_cancel, Nat.zero_add]
    rw [show 2 ^ (n + 1) / 2 = 2 ^ n by rw [Nat.pow_succ]; omega]
    by_cases a : 2 ^ n ≤ pr1.pos.toNat <;> by_cases b : 2 ^ n ≤ pr2.pos.toNat <;>
      simp only [a, b, if_true, if_false, List.head?_cons, Option.some.injEq, hdiff, Ne.symm hdiff, true_iff,
        false_iff] <;> omega

/-- **C31** Accepted proofs of one message have one commitment exactly if they are equal (no collision), while
matching compares the first hash of the path only. -/
theorem C31_same_message [Env] (pr1 pr2 : MerkleProof) (p : ProtocolId) (m : Message) (c1 c2 : Commitment)
    (hl1 : pr1.path.length ≤ 32) (hl2 : pr2.path.length ≤ 32)
    (hn : NoCollision (proofInputs pr1 p m ++ proofInputs pr2 p m))
    (h1 : pr1.convolve p m = .ok (.ok c1)) (h2 : pr2.convolve p m = .ok (.ok c2)) :
    (c1 = c2 ↔ pr1 = pr2) ∧
    (c1 = c2 ↔ pr1.matches pr2 = true ∧ pr1.path.tail = pr2.path.tail) := by
  have key : c1 = c2 ↔ pr1 = pr2 := by
    constructor
    · rintro rfl
      exact (C18_binding pr1 pr2 p m m c1 hl1 hl2 hn h1 h2).2
    · rintro rfl
      rw [h1] at h2
      cases h2
      rfl
  refine ⟨key, key.trans ⟨?_, ?_⟩⟩
  · rintro rfl
    exact ⟨(C31_partial.1 _ _).2 ⟨rfl, rfl⟩, rfl⟩
  · rintro ⟨hm, ht⟩
    obtain ⟨hc, hh⟩ := (C31_partial.1 _ _).1 hm
    have hp : pr1.path = pr2.path := by
      match e1 : pr1.path, e2 : pr2.path with
      | [], [] => rfl
      | [], _ :: _ => rw [e1, e2] at hh; cases hh
      | _ :: _, [] => rw [e1, e2] at hh; cases hh
      | a :: l, b :: k =>
        rw [e1, e2] at hh ht
        cases hh
        exact congrArg (a :: ·) ht
    obtain ⟨l1, p1, -⟩ := convolve_ok hl1 h1
    obtain ⟨l2, p2, -⟩ := convolve_ok hl2 h2
    rw [hp, hc] at p1
    have hpos := p1.symm.trans p2
    cases pr1 with
    | mk m1 q1 f1 t1 =>
      cases pr2 with
      | mk m2 q2 f2 t2 =>
        cases m1
        cases m2
        dsimp only at hp hc hpos
        rw [hp, hc, hpos]

/-- Non-vacuity of `C31_halves`: the sample tree, with real SHA256, and proofs in both halves. -/
example : Sample.tree.Holds ∧ @NoCollision (realEnv true) (@MerkleTree.inputs (realEnv true) Sample.tree) ∧
    (let _ : Env := realEnv true
     Sample.block.OfTree Sample.tree ∧
     ∃ pr1 pr5, Sample.block.toMerkleProof Sample.p1 = .ok (.ok pr1) ∧
       Sample.block.toMerkleProof Sample.p5 = .ok (.ok pr5) ∧
       pr1.pos.toNat < 2 ^ Sample.tree.depth.val / 2 ∧ ¬ pr5.pos.toNat < 2 ^ Sample.tree.depth.val / 2) := by
  refine ⟨Sample.holds, by decide +kernel, @Sample.view_block (realEnv true), ?_⟩
  obtain ⟨pr1, m1, c1, -, -, a2, -, -, -, a3, -⟩ := @C16_complete (realEnv true) Sample.tree Sample.holds
    (@Sample.block (realEnv true)) (@Sample.view_block (realEnv true)) Sample.p1
    (by show Sample.p1 ∈ [Sample.p6, Sample.p1, Sample.p5]; decide)
  obtain ⟨pr5, m5, c5, -, -, b2, -, -, -, b3, -⟩ := @C16_complete (realEnv true) Sample.tree Sample.holds
    (@Sample.block (realEnv true)) (@Sample.view_block (realEnv true)) Sample.p5
    (by show Sample.p5 ∈ [Sample.p6, Sample.p1, Sample.p5]; decide)
  refine ⟨pr1, pr5, a2, b2, ?_, ?_⟩
  · rw [a3]; decide +kernel
  · rw [b3]; decide +kernel

end CSV
