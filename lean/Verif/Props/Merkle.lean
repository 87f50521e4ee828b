import Verif.Proofs.Merklize
import Verif.Spec.Sample

/-!
# C32 - C35: merklization

The specification is `Spec/Merklize.lean`: `MTree`, `Balanced`, `root`.
-/

namespace CSV

/-! ## C32 -/

/-- **C32** Merklizing any number of hashes other than one (and fewer than `2^32`) never panics: the
result is the root of the one balanced tree over the hashes, which has at most 31 levels below its
root, so that all depths fit 5 bits. -/
theorem C32_root [Env] (nodes : List MerkleHash) (h1 : nodes.length ≠ 1)
    (h2 : nodes.length < 2 ^ 32) :
    ∃ t : MTree, t.leaves = nodes ∧ t.Balanced ∧ t.height ≤ 31 ∧
      (∀ t' : MTree, t'.leaves = nodes → t'.Balanced → t' = t) ∧
      merklizeHashes nodes = .ok (t.root nodes.length 0) := by
  obtain ⟨a1, a2⟩ := MTree.of_spec nodes
  refine ⟨MTree.of nodes, a1, a2, ?_, fun t' e b => balanced_unique _ _ b a2 (e.trans a1.symm), ?_⟩
  · rw [← build_eq_of (n := 31) (by omega)]
    exact (build_spec 31 nodes (by omega)).2.2
  · rw [merklizeHashes_eq h2]
    match nodes, h1 with
    | [], _ => rfl
    | [_], h => exact absurd rfl h
    | _ :: _ :: _, _ => rfl

/-- **C32** One hash is its own root, and `2^32` or more hashes are refused with a panic. -/
theorem C32_limits [Env] (nodes : List MerkleHash) :
    (∀ h, nodes = [h] → merklizeHashes nodes = .ok h) ∧
    (2 ^ 32 ≤ nodes.length → merklizeHashes nodes = .error .expect) := by
  refine ⟨fun h e => ?_, fun h => ?_⟩
  · subst e
    exact merklizeHashes_eq (by simp)
  · rw [merklizeHashes, if_neg (by omega)]
    rintro node rfl
    simp at h

/-- **C32** For leaves of any type whose ids can be computed, merklizing them is merklizing their
ids. -/
theorem C32_leaves [Env] {α : Type} [CommitEncode α] (leaves : List α) (id : α → MerkleHash)
    (h : ∀ x ∈ leaves, commitId x = .ok (id x)) :
    merklize leaves = merklizeHashes (leaves.map id) := by
  have : leaves.mapM (commitId (α := α)) = .ok (leaves.map id) := by
    induction leaves with
    | nil => rfl
    | cons a l ih =>
      rw [List.mapM_cons, h a (by simp), ok_bind, ih (fun x hx => h x (by simp [hx])), ok_bind]; rfl
  rw [merklize, this, ok_bind]

/-- **C32** The nodes: what their hashes commit to. (An inner node commits to its kind, its depth,
the number of all leaves and the hashes of its two children; an unpaired leaf and the empty tree
have nodes of their own kinds.) -/
theorem C32_nodes [Env] (w d : Nat) :
    (∀ l r, (MTree.fork l r).root w d = sha (taggedInput MERKLE_TAG
      (MerkleNode.enc ⟨.branch, UInt8.ofNat d, BitVec.ofNat 256 w, l.root w (d + 1), r.root w (d + 1)⟩))) ∧
    (∀ a b, (MTree.pair a b).root w d = sha (taggedInput MERKLE_TAG
      (MerkleNode.enc ⟨.branch, UInt8.ofNat d, BitVec.ofNat 256 w, a, b⟩))) ∧
    (∀ a, (MTree.lone a).root w d = sha (taggedInput MERKLE_TAG
      (MerkleNode.enc ⟨.single, UInt8.ofNat d, BitVec.ofNat 256 w, a, Bytes32.fill 0xFF⟩))) ∧
    MTree.empty.root w d = sha (taggedInput MERKLE_TAG
      (MerkleNode.enc ⟨.void, UInt8.ofNat d, BitVec.ofNat 256 w, Bytes32.fill 0xFF, Bytes32.fill 0xFF⟩)) :=
  ⟨fun _ _ => rfl, fun _ _ => rfl, fun _ => rfl, rfl⟩

/-- Seven leaves: four to the left, three to the right, the last one unpaired. -/
example [Env] : MTree.of ((List.range 7).map Bytes32.ofNat) =
    .fork (.fork (.pair (Bytes32.ofNat 0) (Bytes32.ofNat 1)) (.pair (Bytes32.ofNat 2) (Bytes32.ofNat 3)))
      (.fork (.pair (Bytes32.ofNat 4) (Bytes32.ofNat 5)) (.lone (Bytes32.ofNat 6))) := by
  decide +kernel

/-! ## C34 -/

/-- **C34** The bytes hashed for a leaf are never those hashed for a node, a leaf or a node never
feeds the bytes of a concealed tree. -/
theorem C34_separated [Env] (l : Leaf) (n : MerkleNode) (c : MerkleConcealed) (bs : Bytes) :
    ¬ (Feeds l bs ∧ Feeds n bs) ∧ ¬ (Feeds l bs ∧ Feeds c bs) ∧ ¬ (Feeds n bs ∧ Feeds c bs) := by
  obtain ⟨e1, h1, g1⟩ := commit_leaf l
  obtain ⟨e2, h2, g2⟩ := commit_merkleNode n
  obtain ⟨e3, h3, g3⟩ := commit_concealed c
  have k1 : ∀ bs, Feeds l bs → bs = taggedInput MERKLE_TAG l.enc := by
    rintro bs ⟨e, h, rfl⟩; rw [h1] at h; cases h; exact g1
  have k2 : ∀ bs, Feeds n bs → bs = taggedInput MERKLE_TAG n.enc := by
    rintro bs ⟨e, h, rfl⟩; rw [h2] at h; cases h; exact g2
  have k3 : ∀ bs, Feeds c bs → bs = taggedInput MPC_TAG c.enc := by
    rintro bs ⟨e, h, rfl⟩; rw [h3] at h; cases h; exact g3
  have l2 := n.enc_length
  have l3 := c.enc_length
  have l1 : l.enc.length = 65 ∨ l.enc.length = 13 := by
    cases l <;> simp [Leaf.enc, encU64, encU32, encBytes32, leBytes_length, Bytes32.len]
  refine ⟨fun ⟨a, b⟩ => ?_, fun ⟨a, b⟩ => ?_, fun ⟨a, b⟩ => ?_⟩
  · have := congrArg List.length ((k1 _ a).symm.trans (k2 _ b))
    rw [taggedInput_length, taggedInput_length] at this
    omega
  · have := congrArg List.length ((k1 _ a).symm.trans (k3 _ b))
    rw [taggedInput_length, taggedInput_length] at this
    omega
  · have := congrArg List.length ((k2 _ a).symm.trans (k3 _ b))
    rw [taggedInput_length, taggedInput_length] at this
    omega

/-- **C34** Each of the three computations feeds some bytes, and different leaves (inhabited and
entropy leaves in particular), different nodes, different concealed trees feed different bytes. -/
theorem C34_injective [Env] :
    (∀ l : Leaf, ∃ bs, Feeds l bs) ∧ (∀ n : MerkleNode, ∃ bs, Feeds n bs) ∧
    (∀ c : MerkleConcealed, ∃ bs, Feeds c bs) ∧
    (∀ (l l' : Leaf) bs, Feeds l bs → Feeds l' bs → l = l') ∧
    (∀ (n n' : MerkleNode) bs, Feeds n bs → Feeds n' bs → n = n') ∧
    (∀ (c c' : MerkleConcealed) bs, Feeds c bs → Feeds c' bs → c = c') ∧
    (∀ p m e pos bs, Feeds (Leaf.inhabited p m) bs → ¬ Feeds (Leaf.entropy e pos) bs) := by
  have k1 : ∀ (l : Leaf) bs, Feeds l bs → bs = taggedInput MERKLE_TAG l.enc := by
    rintro l bs ⟨e, h, rfl⟩
    obtain ⟨e1, h1, g1⟩ := commit_leaf l
    rw [h1] at h; cases h; exact g1
  have k2 : ∀ (n : MerkleNode) bs, Feeds n bs → bs = taggedInput MERKLE_TAG n.enc := by
    rintro n bs ⟨e, h, rfl⟩
    obtain ⟨e1, h1, g1⟩ := commit_merkleNode n
    rw [h1] at h; cases h; exact g1
  have k3 : ∀ (c : MerkleConcealed) bs, Feeds c bs → bs = taggedInput MPC_TAG c.enc := by
    rintro c bs ⟨e, h, rfl⟩
    obtain ⟨e1, h1, g1⟩ := commit_concealed c
    rw [h1] at h; cases h; exact g1
  refine ⟨fun l => ?_, fun n => ?_, fun c => ?_, fun l l' bs a b => ?_, fun n n' bs a b => ?_,
    fun c c' bs a b => ?_, fun p m e pos bs a b => ?_⟩
  · obtain ⟨e, h, _⟩ := commit_leaf l; exact ⟨_, e, h, rfl⟩
  · obtain ⟨e, h, _⟩ := commit_merkleNode n; exact ⟨_, e, h, rfl⟩
  · obtain ⟨e, h, _⟩ := commit_concealed c; exact ⟨_, e, h, rfl⟩
  · exact Leaf.enc_inj (taggedInput_inj ((k1 _ _ a).symm.trans (k1 _ _ b))).2
  · exact MerkleNode.enc_inj (taggedInput_inj ((k2 _ _ a).symm.trans (k2 _ _ b))).2
  · exact MerkleConcealed.enc_inj (taggedInput_inj ((k3 _ _ a).symm.trans (k3 _ _ b))).2
  · cases Leaf.enc_inj (taggedInput_inj ((k1 _ _ a).symm.trans (k1 _ _ b))).2

/-! ## C33, C35 -/

private theorem binding [Env] {α : Type} [CommitEncode α] (enc : α → Bytes)
    (he : LeafEncoding enc) (hinj : ∀ x y, enc x = enc y → x = y)
    (l1 l2 : List α) (w1 : l1.length < 2 ^ 32) (w2 : l2.length < 2 ^ 32)
    (hsep : (∀ x ∈ l1 ++ l2, ∀ n : MerkleNode, enc x ≠ n.enc) ∨ (l1.length = 1 ↔ l2.length = 1))
    (hn : NoCollision (leavesInputs enc l1 ++ leavesInputs enc l2))
    (h : merklize l1 = merklize l2) : l1 = l2 := by
  rw [merklize_eq he w1, merklize_eq he w2, Except.ok.injEq] at h
  have hn' : NoCollision (l1.map (fun x => taggedInput MERKLE_TAG (enc x)) ++
      l2.map (fun x => taggedInput MERKLE_TAG (enc x))) := hn.mono (by
    intro a ha
    simp only [leavesInputs, List.mem_append] at ha ⊢
    rcases ha with ha | ha
    · exact .inl (.inl ha)
    · exact .inr (.inl ha))
  have mixed : ∀ (l l' : List α), l'.length < 2 ^ 32 →
      (∀ a ∈ leavesInputs enc l, a ∈ leavesInputs enc l1 ++ leavesInputs enc l2) →
      (∀ a ∈ leavesInputs enc l', a ∈ leavesInputs enc l1 ++ leavesInputs enc l2) →
      (∀ x ∈ l, ∀ n : MerkleNode, enc x ≠ n.enc) → l.length = 1 → l'.length ≠ 1 →
      listRoot (l.map fun x => taggedSha MERKLE_TAG (enc x)) =
        listRoot (l'.map fun x => taggedSha MERKLE_TAG (enc x)) → False := by
    intro l l' _ m m' hs h1 h2 h
    match l, h1 with
    | [x], _ =>
      obtain ⟨k, a, b, e1, e2⟩ := listRoot_node (l := l'.map fun x => taggedSha MERKLE_TAG (enc x))
        (by rw [List.length_map]; exact h2)
      rw [e1] at h
      have := hn _ (m (taggedInput MERKLE_TAG (enc x)) (by simp [leavesInputs])) _
        (m' _ (List.mem_append_right _ e2)) h
      exact hs x (by simp) _ (taggedInput_inj this).2
  by_cases h1 : l1.length = 1
  · by_cases h2 : l2.length = 1
    · match l1, l2, h1, h2 with
      | [x], [y], _, _ => exact map_hash_inj hinj hn' (congrArg (fun z => [z]) h)
    · rcases hsep with hsep | hsep
      · exact absurd h fun h => mixed l1 l2 w2 (fun a ha => List.mem_append_left _ ha)
          (fun a ha => List.mem_append_right _ ha) (fun x hx => hsep x (by simp [hx])) h1 h2 h
      · exact absurd (hsep.1 h1) h2
  · by_cases h2 : l2.length = 1
    · rcases hsep with hsep | hsep
      · exact absurd h.symm fun h => mixed l2 l1 w1 (fun a ha => List.mem_append_right _ ha)
          (fun a ha => List.mem_append_left _ ha) (fun x hx => hsep x (by simp [hx])) h2 h1 h
      · exact absurd (hsep.2 h2) h1
    · refine map_hash_inj hinj hn' (listRoot_binding (by rw [List.length_map]; exact h1)
        (by rw [List.length_map]; exact h2) (by rw [List.length_map]; exact w1)
        (by rw [List.length_map]; exact w2) (hn.mono ?_) h)
      intro a ha
      simp only [leavesInputs, List.mem_append] at ha ⊢
      rcases ha with ha | ha
      · exact .inl (.inr ha)
      · exact .inr (.inr ha)

/-- **C33** Two lists of multi-protocol leaves with the same merkle root are equal, unless there is a
collision among the strings hashed for them. -/
theorem C33_binding [Env] (l1 l2 : List Leaf) (w1 : l1.length < 2 ^ 32) (w2 : l2.length < 2 ^ 32)
    (hn : NoCollision (leavesInputs Leaf.enc l1 ++ leavesInputs Leaf.enc l2))
    (h : merklize l1 = merklize l2) : l1 = l2 := by
  refine binding Leaf.enc (fun x => commitId_leaf x) (fun x y => Leaf.enc_inj) l1 l2 w1 w2
    (.inl fun x _ n e => ?_) hn h
  have := congrArg List.length e
  rw [n.enc_length] at this
  have := x.enc_length_le
  omega

/-- Five and four leaves. -/
example : @NoCollision (realEnv true)
    (@leavesInputs (realEnv true) _ Leaf.enc ((List.range 5).map fun i => .entropy 7 (UInt32.ofNat i)) ++
     @leavesInputs (realEnv true) _ Leaf.enc ((List.range 4).map fun i => .entropy 7 (UInt32.ofNat i))) := by
  decide +kernel

private theorem node_of_nodes [Env] (a b : MerkleNode) :
    merklize [MerkleNode.mk .branch 0 2 (taggedSha MERKLE_TAG a.enc) (taggedSha MERKLE_TAG b.enc)] =
      merklize [a, b] := by
  rw [merklize_eq commitId_merkleNode (by simp), merklize_eq commitId_merkleNode (by simp)]
  rfl

/-- **C35, false as stated**: a collection type with `MerkleNode` leaves is accepted, and the list
holding the root node over two nodes has the same root as the list of these two nodes, although no
two of the strings hashed collide. -/
theorem C35_false : ¬ ∀ (e : Env) (α : Type) (_ : CommitEncode α) (enc : α → Bytes),
    @LeafEncoding e α _ enc → (∀ x y, enc x = enc y → x = y) → ∀ l1 l2 : List α,
    l1.length < 2 ^ 32 → l2.length < 2 ^ 32 →
    @NoCollision e (@leavesInputs e α enc l1 ++ @leavesInputs e α enc l2) →
    @merklize e α _ l1 = @merklize e α _ l2 → l1 = l2 := by
  intro h
  let e := realEnv true
  let a : MerkleNode := ⟨.void, 0, 0, Bytes32.fill 0xFF, Bytes32.fill 0xFF⟩
  let ida : MerkleHash := @taggedSha e MERKLE_TAG a.enc
  have := h e MerkleNode _ MerkleNode.enc (fun x => @commitId_merkleNode e x)
    (fun x y => MerkleNode.enc_inj) [⟨.branch, 0, 2, ida, ida⟩] [a, a] (by simp) (by simp)
    (by decide +kernel) (@node_of_nodes e a a)
  exact absurd (congrArg List.length this) (by simp)

/-- **C35, the part that holds**: merklization is binding for every leaf type whose serialization is
injective and never that of a `MerkleNode`; and for all leaf types with injective serialization, if
both or neither of the lists have one element. (Missing: `MerkleNode` itself and types imitating
it, for which the statement is false.) -/
theorem C35_partial [Env] {α : Type} [CommitEncode α] (enc : α → Bytes)
    (he : LeafEncoding enc) (hinj : ∀ x y, enc x = enc y → x = y)
    (l1 l2 : List α) (w1 : l1.length < 2 ^ 32) (w2 : l2.length < 2 ^ 32)
    (hsep : (∀ x ∈ l1 ++ l2, ∀ n : MerkleNode, enc x ≠ n.enc) ∨ (l1.length = 1 ↔ l2.length = 1))
    (hn : NoCollision (leavesInputs enc l1 ++ leavesInputs enc l2))
    (h : merklize l1 = merklize l2) : l1 = l2 :=
  binding enc he hinj l1 l2 w1 w2 hsep hn h

/-- **C35** Exactly when two lists have one root, for any leaf type with injective serialization: if they
are equal, or one of them consists of a single leaf that is serialized like the top node of the
other. -/
theorem C35_exact [Env] {α : Type} [CommitEncode α] (enc : α → Bytes)
    (he : LeafEncoding enc) (hinj : ∀ x y, enc x = enc y → x = y)
    (l1 l2 : List α) (w1 : l1.length < 2 ^ 32) (w2 : l2.length < 2 ^ 32)
    (hn : NoCollision (leavesInputs enc l1 ++ leavesInputs enc l2)) :
    merklize l1 = merklize l2 ↔ l1 = l2 ∨
      (∃ (x : α) (n : MerkleNode), l1 = [x] ∧ l2.length ≠ 1 ∧ enc x = n.enc ∧ merklize l2 = commitId n) ∨
      (∃ (x : α) (n : MerkleNode), l2 = [x] ∧ l1.length ≠ 1 ∧ enc x = n.enc ∧ merklize l1 = commitId n) := by
  have single : ∀ x : α, merklize [x] = .ok (taggedSha MERKLE_TAG (enc x)) := fun x => by
    rw [merklize_eq he (by simp)]
    rfl
  have mixed : ∀ (x : α) (l : List α), l.length < 2 ^ 32 → l.length ≠ 1 →
      NoCollision (leavesInputs enc [x] ++ leavesInputs enc l) → merklize [x] = merklize l →
      ∃ n : MerkleNode, enc x = n.enc ∧ merklize l = commitId n := by
    intro x l w h1 hn h
    obtain ⟨k, a, b, e1, e2⟩ := listRoot_node (l := l.map fun x => taggedSha MERKLE_TAG (enc x))
      (by rw [List.length_map]; exact h1)
    rw [single, merklize_eq he w, e1, Except.ok.injEq] at h
    have := hn (taggedInput MERKLE_TAG (enc x)) (by simp [leavesInputs]) _
      (List.mem_append_right _ (List.mem_append_right _ e2)) h
    refine ⟨_, (taggedInput_inj this).2, ?_⟩
    rw [merklize_eq he w, e1, commitId_merkleNode]
    rfl
  constructor
  · intro h
    by_cases h1 : l1.length = 1 <;> by_cases h2 : l2.length = 1
    · exact .inl (binding enc he hinj l1 l2 w1 w2 (.inr (by simp [h1, h2])) hn h)
    · obtain ⟨x, rfl⟩ := List.length_eq_one_iff.1 h1
      obtain ⟨n, a, b⟩ := mixed x l2 w2 h2 hn h
      exact .inr (.inl ⟨x, n, rfl, h2, a, b⟩)
    · obtain ⟨x, rfl⟩ := List.length_eq_one_iff.1 h2
      obtain ⟨n, a, b⟩ := mixed x l1 w1 h1 (hn.mono (by
        intro a ha
        simp only [List.mem_append] at ha ⊢
        exact ha.symm)) h.symm
      exact .inr (.inr ⟨x, n, rfl, h1, a, b⟩)
    · exact .inl (binding enc he hinj l1 l2 w1 w2 (.inr (by simp [h1, h2])) hn h)
  · rintro (rfl | ⟨x, n, rfl, -, a, b⟩ | ⟨x, n, rfl, -, a, b⟩)
    · rfl
    · rw [b, single, a, commitId_merkleNode]
    · rw [b, single, a, commitId_merkleNode]

example [Env] : LeafEncoding Leaf.enc ∧ LeafEncoding MerkleNode.enc :=
  ⟨fun x => commitId_leaf x, fun x => commitId_merkleNode x⟩

end CSV
