import Verif.Spec.Merklize
import Verif.Proofs.Binding
import Verif.Proofs.Tree

/-!
# Merklization
-/

namespace CSV

theorem build_big {n : Nat} {l : List MerkleHash} (h : 2 < l.length) :
    MTree.build (n + 1) l = .fork (MTree.build n (l.take ((l.length + 1) / 2)))
      (MTree.build n (l.drop ((l.length + 1) / 2))) := by
  match l, h with
  | a :: b :: c :: l, _ => rw [MTree.build]; all_goals simp

theorem build_spec : ∀ (n : Nat) (l : List MerkleHash), l.length ≤ 2 ^ (n + 1) →
    (MTree.build n l).leaves = l ∧ (MTree.build n l).Balanced ∧ (MTree.build n l).height ≤ n := by
  intro n
  induction n with
  | zero =>
    intro l h
    match l, h with
    | [], _ => exact ⟨rfl, trivial, Nat.le_refl _⟩
    | [_], _ => exact ⟨rfl, trivial, Nat.le_refl _⟩
    | [_, _], _ => exact ⟨rfl, trivial, Nat.le_refl _⟩
    | _ :: _ :: _ :: _, h => simp at h
  | succ n ih =>
    intro l h
    by_cases hl : 2 < l.length
    · rw [build_big hl]
      have h1 : (l.take ((l.length + 1) / 2)).length = (l.length + 1) / 2 := by
        rw [List.length_take]; omega
      have h2 : (l.drop ((l.length + 1) / 2)).length = l.length - (l.length + 1) / 2 :=
        List.length_drop
      rw [Nat.pow_succ] at h
      obtain ⟨a1, a2, a3⟩ := ih (l.take ((l.length + 1) / 2)) (by omega)
      obtain ⟨b1, b2, b3⟩ := ih (l.drop ((l.length + 1) / 2)) (by omega)
      refine ⟨?_, ⟨a2, b2, ?_, ?_⟩, ?_⟩
      · rw [MTree.leaves, a1, b1, List.take_append_drop]
      · rw [a1, b1]; omega
      · rw [a1, b1]; omega
      · simp only [MTree.height]; omega
    · match l, hl with
      | [], _ => exact ⟨rfl, trivial, Nat.zero_le _⟩
      | [_], _ => exact ⟨rfl, trivial, Nat.zero_le _⟩
      | [_, _], _ => exact ⟨rfl, trivial, Nat.zero_le _⟩
      | _ :: _ :: _ :: _, h => simp at h

/-- A balanced tree is determined by its leaves. -/
theorem balanced_unique : ∀ (t u : MTree), t.Balanced → u.Balanced → t.leaves = u.leaves → t = u := by
  intro t
  induction t with
  | empty =>
    intro u _ hu h
    cases u with
    | empty => rfl
    | lone => simp [MTree.leaves] at h
    | pair => simp [MTree.leaves] at h
    | fork l r =>
      have := congrArg List.length h
      simp [MTree.leaves] at this
      obtain ⟨_, _, h3, _⟩ := hu
      omega
  | lone x =>
    intro u _ hu h
    cases u with
    | empty => simp [MTree.leaves] at h
    | lone => simp [MTree.leaves] at h; rw [h]
    | pair => simp [MTree.leaves] at h
    | fork l r =>
      have := congrArg List.length h
      simp [MTree.leaves] at this
      obtain ⟨_, _, h3, _⟩ := hu
      omega
  | pair x y =>
    intro u _ hu h
    cases u with
    | empty => simp [MTree.leaves] at h
    | lone => simp [MTree.leaves] at h
    | pair => simp [MTree.leaves] at h; rw [h.1, h.2]
    | fork l r =>
      have := congrArg List.length h
      simp [MTree.leaves] at this
      obtain ⟨_, _, h3, _⟩ := hu
      omega
  | fork l r ihl ihr =>
    intro u ht hu h
    obtain ⟨t1, t2, t3, t4⟩ := ht
    have hlen := congrArg List.length h
    simp only [MTree.leaves, List.length_append] at hlen
    cases u with
    | empty => simp only [MTree.leaves, List.length_nil] at hlen; omega
    | lone => simp only [MTree.leaves, List.length_cons, List.length_nil] at hlen; omega
    | pair => simp only [MTree.leaves, List.length_cons, List.length_nil] at hlen; omega
    | fork l' r' =>
      obtain ⟨u1, u2, u3, u4⟩ := hu
      simp only [MTree.leaves, List.length_append] at hlen
      simp only [MTree.leaves] at h
      obtain ⟨h1, h2⟩ := List.append_inj h (by omega)
      rw [ihl l' t1 u1 h1, ihr r' t2 u2 h2]

theorem MTree.of_spec (l : List MerkleHash) :
    (MTree.of l).leaves = l ∧ (MTree.of l).Balanced := by
  have h : l.length ≤ 2 ^ (l.length + 1) :=
    Nat.le_of_lt (Nat.lt_trans Nat.lt_two_pow_self (Nat.pow_lt_pow_right (by omega) (by omega)))
  exact ⟨(build_spec _ l h).1, (build_spec _ l h).2.1⟩

theorem build_eq_of {n : Nat} {l : List MerkleHash} (h : l.length ≤ 2 ^ (n + 1)) :
    MTree.build n l = MTree.of l :=
  balanced_unique _ _ (build_spec n l h).2.1 (MTree.of_spec l).2
    ((build_spec n l h).1.trans (MTree.of_spec l).1.symm)

theorem merklizeGo_build [Env] (w : Nat) : ∀ (n : Nat) (l : List MerkleHash) (d : Nat),
    l.length ≤ 2 ^ (n + 1) → d + n ≤ 31 →
    merklizeGo (n + 1) l (toU5 d) l.length w = .ok ((MTree.build n l).root w d) := by
  intro n
  induction n with
  | zero =>
    intro l d h hd
    have hv : (toU5 d).val = d := toU5_val (by omega)
    match l, h with
    | [], _ => simp only [merklizeGo, MerkleHash.void, commitId_merkleNode, hv]; rfl
    | [_], _ => simp only [merklizeGo, MerkleHash.single, commitId_merkleNode, hv]; rfl
    | [_, _], _ => simp only [merklizeGo, MerkleHash.branches, commitId_merkleNode, hv]; rfl
    | _ :: _ :: _ :: _, h => simp at h
  | succ n ih =>
    intro l d h hd
    have hv : (toU5 d).val = d := toU5_val (by omega)
    by_cases hl : 2 < l.length
    · rw [merklizeGo_big hl, build_big hl]
      rw [Nat.pow_succ] at h
      have e : l.length / 2 + l.length % 2 = (l.length + 1) / 2 := by omega
      have h1 : (l.take ((l.length + 1) / 2)).length = (l.length + 1) / 2 := by
        rw [List.length_take]; omega
      have h2 : (l.drop ((l.length + 1) / 2)).length = l.length - (l.length + 1) / 2 :=
        List.length_drop
      rw [e, u5Add_toU5 (by omega), ok_bind]
      have i1 := ih (l.take ((l.length + 1) / 2)) (d + 1) (by omega) (by omega)
      have i2 := ih (l.drop ((l.length + 1) / 2)) (d + 1) (by omega) (by omega)
      rw [h1] at i1
      rw [h2] at i2
      rw [i1, ok_bind, i2, ok_bind, MerkleHash.branches, commitId_merkleNode, hv]
      rfl
    · match l, hl with
      | [], _ => simp only [merklizeGo, MerkleHash.void, commitId_merkleNode, hv]; rfl
      | [_], _ => simp only [merklizeGo, MerkleHash.single, commitId_merkleNode, hv]; rfl
      | [_, _], _ => simp only [merklizeGo, MerkleHash.branches, commitId_merkleNode, hv]; rfl
      | _ :: _ :: _ :: _, h => simp at h

theorem merklizeHashes_eq [Env] {l : List MerkleHash} (h : l.length < 2 ^ 32) :
    merklizeHashes l = .ok (listRoot l) := by
  have hg : ∀ l : List MerkleHash, l.length < 2 ^ 32 →
      merklizeGo 32 l 0 l.length l.length = .ok ((MTree.of l).root l.length 0) := by
    intro l h
    have := merklizeGo_build l.length 31 l 0 (by omega) (by omega)
    rw [build_eq_of (by omega)] at this
    exact this
  match l, h with
  | [], h => rw [merklizeHashes, if_pos h] <;> first | exact hg _ h | simp
  | [_], h => rw [merklizeHashes, if_pos h]; rfl
  | _ :: _ :: _, h => rw [merklizeHashes, if_pos h] <;> first | exact hg _ h | simp

theorem mapM_ids [Env] {α : Type} [CommitEncode α] {id : α → Bytes32}
    (h : ∀ x : α, commitId x = .ok (id x)) (l : List α) :
    l.mapM (commitId (α := α)) = .ok (l.map id) := by
  induction l with
  | nil => rfl
  | cons a l ih => rw [List.mapM_cons, h, ok_bind, ih, ok_bind]; rfl

theorem merklize_eq [Env] {α : Type} [CommitEncode α] {id : α → Bytes32}
    (h : ∀ x : α, commitId x = .ok (id x)) {l : List α} (hl : l.length < 2 ^ 32) :
    merklize l = .ok (listRoot (l.map id)) := by
  rw [merklize, mapM_ids h, ok_bind, merklizeHashes_eq (by rw [List.length_map]; exact hl)]

/-! ## Binding -/

theorem nodeInput_inj [Env] {k k' : NodeBranching} {d d' w w' : Nat} {a b a' b' : MerkleHash}
    (hw : w < 2 ^ 256) (hw' : w' < 2 ^ 256)
    (h : nodeInput k d w a b = nodeInput k' d' w' a' b') : k = k' ∧ w = w' ∧ a = a' ∧ b = b' := by
  have := MerkleNode.enc_inj (taggedInput_inj h).2
  simp only [MerkleNode.mk.injEq] at this
  obtain ⟨h0, _, h2, h3, h4⟩ := this
  have h2 := congrArg BitVec.toNat h2
  simp only [BitVec.toNat_ofNat] at h2
  rw [Nat.mod_eq_of_lt hw, Nat.mod_eq_of_lt hw'] at h2
  exact ⟨h0, h2, h3, h4⟩

/-- The string hashed at the root of a tree. -/
def MTree.rootInput [Env] (w : Nat) : MTree → (d : Nat) → Bytes
  | .empty, d => nodeInput .void d w (Bytes32.fill 0xFF) (Bytes32.fill 0xFF)
  | .lone h, d => nodeInput .single d w h (Bytes32.fill 0xFF)
  | .pair h1 h2, d => nodeInput .branch d w h1 h2
  | .fork l r, d => nodeInput .branch d w (l.root w (d + 1)) (r.root w (d + 1))

theorem root_eq_sha [Env] (w : Nat) (t : MTree) (d : Nat) : t.root w d = sha (t.rootInput w d) := by
  cases t <;> rfl

theorem rootInput_mem [Env] (w : Nat) (t : MTree) (d : Nat) : t.rootInput w d ∈ t.inputs w d := by
  cases t <;> simp [MTree.rootInput, MTree.inputs]

theorem rootInput_node [Env] (w : Nat) (t : MTree) (d : Nat) :
    ∃ k a b, t.rootInput w d = nodeInput k d w a b := by
  cases t
  · exact ⟨_, _, _, rfl⟩
  · exact ⟨_, _, _, rfl⟩
  · exact ⟨_, _, _, rfl⟩
  · exact ⟨_, _, _, rfl⟩

/-- Equal roots of two balanced trees of equal size. -/
theorem mtree_binding [Env] (w : Nat) (hw : w < 2 ^ 256) : ∀ (t u : MTree) (d : Nat), t.Balanced →
    u.Balanced → t.leaves.length = u.leaves.length → NoCollision (t.inputs w d ++ u.inputs w d) →
    t.root w d = u.root w d → t.leaves = u.leaves := by
  intro t
  induction t with
  | empty =>
    intro u d _ _ hlen _ _
    exact (List.length_eq_zero_iff.1 hlen.symm).symm
  | lone x =>
    intro u d _ hu hlen hn h
    cases u with
    | empty => simp [MTree.leaves] at hlen
    | lone y =>
      have := hn _ (List.mem_append_left _ (rootInput_mem w (.lone x) d)) _
        (List.mem_append_right _ (rootInput_mem w (.lone y) d)) h
      rw [MTree.leaves, MTree.leaves, (nodeInput_inj hw hw this).2.2.1]
    | pair => simp [MTree.leaves] at hlen
    | fork l r =>
      simp [MTree.leaves] at hlen
      obtain ⟨_, _, h3, _⟩ := hu
      omega
  | pair x y =>
    intro u d _ hu hlen hn h
    cases u with
    | empty => simp [MTree.leaves] at hlen
    | lone => simp [MTree.leaves] at hlen
    | pair x' y' =>
      have := hn _ (List.mem_append_left _ (rootInput_mem w (.pair x y) d)) _
        (List.mem_append_right _ (rootInput_mem w (.pair x' y') d)) h
      have := nodeInput_inj hw hw this
      rw [MTree.leaves, MTree.leaves, this.2.2.1, this.2.2.2]
    | fork l r =>
      simp [MTree.leaves] at hlen
      obtain ⟨_, _, h3, _⟩ := hu
      omega
  | fork l r ihl ihr =>
    intro u d ht hu hlen hn h
    obtain ⟨t1, t2, t3, t4⟩ := ht
    simp only [MTree.leaves, List.length_append] at hlen
    cases u with
    | empty => simp only [MTree.leaves, List.length_nil] at hlen; omega
    | lone => simp only [MTree.leaves, List.length_cons, List.length_nil] at hlen; omega
    | pair => simp only [MTree.leaves, List.length_cons, List.length_nil] at hlen; omega
    | fork l' r' =>
      obtain ⟨u1, u2, u3, u4⟩ := hu
      simp only [MTree.leaves, List.length_append] at hlen
      have := hn _ (List.mem_append_left _ (rootInput_mem w (.fork l r) d)) _
        (List.mem_append_right _ (rootInput_mem w (.fork l' r') d)) h
      have := nodeInput_inj hw hw this
      rw [MTree.leaves, MTree.leaves,
        ihl l' (d + 1) t1 u1 (by omega) (hn.mono (by
          intro a ha
          simp only [MTree.inputs, List.mem_append, List.mem_cons] at ha ⊢
          rcases ha with ha | ha
          · exact .inl (.inr (.inl ha))
          · exact .inr (.inr (.inl ha)))) this.2.2.1,
        ihr r' (d + 1) t2 u2 (by omega) (hn.mono (by
          intro a ha
          simp only [MTree.inputs, List.mem_append, List.mem_cons] at ha ⊢
          rcases ha with ha | ha
          · exact .inl (.inr (.inr ha))
          · exact .inr (.inr (.inr ha)))) this.2.2.2]

/-- Roots of lists neither of which has exactly one element. -/
theorem listRoot_binding [Env] {l1 l2 : List MerkleHash} (h1 : l1.length ≠ 1) (h2 : l2.length ≠ 1)
    (w1 : l1.length < 2 ^ 32) (w2 : l2.length < 2 ^ 32)
    (hn : NoCollision (listInputs l1 ++ listInputs l2)) (h : listRoot l1 = listRoot l2) : l1 = l2 := by
  have e : ∀ l : List MerkleHash, l.length ≠ 1 → listRoot l = (MTree.of l).root l.length 0 ∧
      listInputs l = (MTree.of l).inputs l.length 0 := by
    intro l hl
    match l, hl with
    | [], _ => exact ⟨rfl, rfl⟩
    | [_], hl => exact absurd rfl hl
    | _ :: _ :: _, _ => exact ⟨rfl, rfl⟩
  rw [(e l1 h1).1, (e l2 h2).1] at h
  rw [(e l1 h1).2, (e l2 h2).2] at hn
  have hl : l1.length = l2.length := by
    rw [root_eq_sha, root_eq_sha] at h
    have := hn _ (List.mem_append_left _ (rootInput_mem _ _ _)) _
      (List.mem_append_right _ (rootInput_mem _ _ _)) h
    obtain ⟨k, a, b, e1⟩ := rootInput_node l1.length (MTree.of l1) 0
    obtain ⟨k', a', b', e2⟩ := rootInput_node l2.length (MTree.of l2) 0
    rw [e1, e2] at this
    have big : (2:Nat) ^ 32 < 2 ^ 256 := by decide
    exact (nodeInput_inj (by omega) (by omega) this).2.1
  obtain ⟨a1, a2⟩ := MTree.of_spec l1
  obtain ⟨b1, b2⟩ := MTree.of_spec l2
  have big : (2:Nat) ^ 32 < 2 ^ 256 := by decide
  have := mtree_binding l1.length (by omega) (MTree.of l1) (MTree.of l2) 0 a2 b2
    (by rw [a1, b1]; exact hl) (by rw [hl] at hn ⊢; exact hn) (by rw [hl] at h ⊢; exact h)
  rw [a1, b1] at this
  exact this

theorem listRoot_node [Env] {l : List MerkleHash} (h : l.length ≠ 1) :
    ∃ k a b, listRoot l = sha (nodeInput k 0 l.length a b) ∧
      nodeInput k 0 l.length a b ∈ listInputs l := by
  have e : listRoot l = (MTree.of l).root l.length 0 ∧
      listInputs l = (MTree.of l).inputs l.length 0 := by
    match l, h with
    | [], _ => exact ⟨rfl, rfl⟩
    | [_], hl => exact absurd rfl hl
    | _ :: _ :: _, _ => exact ⟨rfl, rfl⟩
  obtain ⟨k, a, b, e1⟩ := rootInput_node l.length (MTree.of l) 0
  exact ⟨k, a, b, by rw [e.1, root_eq_sha, e1], by rw [e.2, ← e1]; exact rootInput_mem _ _ _⟩

theorem map_hash_inj [Env] {α : Type} {enc : α → Bytes} (hinj : ∀ x y, enc x = enc y → x = y) :
    ∀ {l1 l2 : List α},
    NoCollision (l1.map (fun x => taggedInput MERKLE_TAG (enc x)) ++
      l2.map (fun x => taggedInput MERKLE_TAG (enc x))) →
    (l1.map fun x => taggedSha MERKLE_TAG (enc x)) = (l2.map fun x => taggedSha MERKLE_TAG (enc x)) →
    l1 = l2 := by
  intro l1
  induction l1 with
  | nil => intro l2 _ h; cases l2 with
    | nil => rfl
    | cons => simp at h
  | cons a l1 ih =>
    intro l2 hn h
    cases l2 with
    | nil => simp at h
    | cons b l2 =>
      simp only [List.map_cons, List.cons.injEq] at h
      have := hn _ (by simp) (taggedInput MERKLE_TAG (enc b)) (by simp) h.1
      rw [hinj _ _ (taggedInput_inj this).2, ih (hn.mono (by
        intro x hx
        simp only [List.map_cons, List.mem_append, List.mem_cons] at hx ⊢
        rcases hx with hx | hx
        · exact .inl (.inr hx)
        · exact .inr (.inr hx))) h.2]

/-! ## Bytes fed to the hasher -/

theorem commitId_of_commit [Env] {α : Type} [CommitEncode α] {x : α} {e : CommitEngine}
    (h : commit x = .ok e) : commitId x = .ok (sha e.hasher) := by
  rw [commitId, h]; rfl

theorem commit_merkleNode [Env] (n : MerkleNode) :
    ∃ e, commit n = .ok e ∧ e.hasher = taggedInput MERKLE_TAG n.enc := by
  have hl := n.enc_length
  simp only [commit, CommitEncode.commitEncode, CommitEngine.commitToSerialized,
    commitmentFqn, StrictType.typeName, StrictType.libName, CommitEngine.new,
    StrictEncode.enc, ok_bind]
  rw [debugAssert_ok (by decide), debugAssert_ok (by decide)]
  simp only [ok_bind, CommitEngine.pushStep, List.length_nil, show (0:Nat) < 255 from by omega,
    if_true]
  rw [innerCommitTo_ok rfl (by rw [hl]; decide)]
  exact ⟨_, rfl, rfl⟩

theorem commit_leaf [Env] (l : Leaf) :
    ∃ e, commit l = .ok e ∧ e.hasher = taggedInput MERKLE_TAG l.enc := by
  have hl := l.enc_length_le
  simp only [commit, CommitEncode.commitEncode, CommitEngine.commitToSerialized,
    commitmentFqn, StrictType.typeName, StrictType.libName, CommitEngine.new,
    StrictEncode.enc, ok_bind]
  rw [debugAssert_ok (by decide), debugAssert_ok (by decide)]
  simp only [ok_bind, CommitEngine.pushStep, List.length_nil, show (0:Nat) < 255 from by omega,
    if_true]
  rw [innerCommitTo_ok rfl (Nat.le_trans hl (by decide))]
  exact ⟨_, rfl, rfl⟩

theorem commit_concealed [Env] (c : MerkleConcealed) :
    ∃ e, commit c = .ok e ∧ e.hasher = taggedInput MPC_TAG c.enc := by
  have hl := c.enc_length
  simp only [commit, CommitEncode.commitEncode, CommitEngine.commitToSerialized,
    commitmentFqn, StrictType.typeName, StrictType.libName, CommitEngine.new,
    StrictEncode.enc, ok_bind]
  rw [debugAssert_ok (by decide), debugAssert_ok (by decide)]
  simp only [ok_bind, CommitEngine.pushStep, List.length_nil, show (0:Nat) < 255 from by omega,
    if_true]
  rw [innerCommitTo_ok rfl (by rw [hl]; decide)]
  exact ⟨_, rfl, rfl⟩

end CSV
