import Verif.Proofs.Codec
import Verif.Proofs.Calls
import Verif.Spec.Hash

/-!
# C38, C39, C53: serialization

The specification of decoders is `Exact` in `Spec/Codec.lean`.
-/

namespace CSV

/-! ## Exactness of the derived implementations -/

private theorem method_exact : Exact (fun m : Method => encU8 m.toU8) decMethod fun _ => True := by
  intro bs m r
  simp only [decMethod, decU8_tag, true_and]
  constructor
  · rintro ⟨tag, r1, rfl, h⟩
    split at h
    · cases h; subst tag; rfl
    · cases h
  · rintro rfl
    cases m
    exact ⟨0, r, rfl, rfl⟩

private theorem branching_exact :
    Exact (fun b : NodeBranching => encU8 b.toU8) decNodeBranching fun _ => True := by
  intro bs m r
  simp only [decNodeBranching, decU8_tag, true_and]
  constructor
  · rintro ⟨tag, r1, rfl, h⟩
    split at h
    · cases h; subst tag; rfl
    · split at h
      · cases h; subst tag; rfl
      · split at h
        · cases h; subst tag; rfl
        · cases h
  · rintro rfl
    cases m
    · exact ⟨0, r, rfl, rfl⟩
    · exact ⟨1, r, rfl, rfl⟩
    · exact ⟨2, r, rfl, rfl⟩

private theorem leaf_exact : Exact Leaf.enc decLeaf fun _ => True := by
  intro bs l r
  simp only [decLeaf, decU8_tag, true_and]
  constructor
  · rintro ⟨tag, r1, rfl, h⟩
    split at h
    · simp only [bind_some, pure_some, decBytes32_exact _ _ _, true_and] at h
      obtain ⟨p, r2, rfl, m, r3, rfl, rfl, rfl⟩ := h
      subst tag
      simp [Leaf.enc]
    · split at h
      · simp only [bind_some, pure_some, decU64_exact _ _ _, decU32_exact _ _ _, true_and] at h
        obtain ⟨p, r2, rfl, m, r3, rfl, rfl, rfl⟩ := h
        subst tag
        simp [Leaf.enc]
      · cases h
  · rintro rfl
    cases l with
    | inhabited p m =>
      refine ⟨0x10, encBytes32 p ++ (encBytes32 m ++ r), by simp [Leaf.enc], ?_⟩
      rw [if_pos rfl]
      simp only [bind_some, pure_some, decBytes32_exact _ _ _, true_and]
      exact ⟨p, _, rfl, m, r, rfl, rfl, rfl⟩
    | entropy e i =>
      refine ⟨0x11, encU64 e ++ (encU32 i ++ r), by simp [Leaf.enc], ?_⟩
      rw [if_neg (by decide), if_pos rfl]
      simp only [bind_some, pure_some, decU64_exact _ _ _, decU32_exact _ _ _, true_and]
      exact ⟨e, _, rfl, i, r, rfl, rfl, rfl⟩

private theorem treeNode_exact : Exact TreeNode.enc decTreeNode fun _ => True := by
  intro bs l r
  simp only [decTreeNode, decU8_tag, true_and]
  constructor
  · rintro ⟨tag, r1, rfl, h⟩
    split at h
    · simp only [bind_some, pure_some, decU5_exact _ _ _, decBytes32_exact _ _ _, true_and] at h
      obtain ⟨p, r2, rfl, m, r3, rfl, rfl, rfl⟩ := h
      subst tag
      simp [TreeNode.enc]
    · split at h
      · simp only [bind_some, pure_some, decBytes32_exact _ _ _, true_and] at h
        obtain ⟨p, r2, rfl, m, r3, rfl, rfl, rfl⟩ := h
        subst tag
        simp [TreeNode.enc]
      · cases h
  · rintro rfl
    cases l with
    | concealed d m =>
      refine ⟨0, encU5 d ++ (encBytes32 m ++ r), by simp [TreeNode.enc], ?_⟩
      rw [if_pos rfl]
      simp only [bind_some, pure_some, decU5_exact _ _ _, decBytes32_exact _ _ _, true_and]
      exact ⟨d, _, rfl, m, r, rfl, rfl, rfl⟩
    | leaf p m =>
      refine ⟨1, encBytes32 p ++ (encBytes32 m ++ r), by simp [TreeNode.enc], ?_⟩
      rw [if_neg (by decide), if_pos rfl]
      simp only [bind_some, pure_some, decBytes32_exact _ _ _, true_and]
      exact ⟨p, _, rfl, m, r, rfl, rfl, rfl⟩

private theorem merkleNode_exact : Exact MerkleNode.enc decMerkleNode fun _ => True := by
  intro bs n r
  simp only [decMerkleNode, bind_some, pure_some, branching_exact _ _ _, decU8_exact _ _ _,
    decU256_exact _ _ _, decBytes32_exact _ _ _, true_and]
  constructor
  · rintro ⟨a, _, rfl, b, _, rfl, c, _, rfl, d, _, rfl, e, _, rfl, rfl, rfl⟩
    simp [MerkleNode.enc]
  · rintro rfl
    exact ⟨n.branching, _, by simp only [MerkleNode.enc, List.append_assoc], n.depth, _, rfl, n.width, _,
      rfl, n.node1, _, rfl, n.node2, _, rfl, rfl, rfl⟩

private theorem concealed_exact : Exact MerkleConcealed.enc decMerkleConcealed fun _ => True := by
  intro bs n r
  simp only [decMerkleConcealed, bind_some, pure_some, decU5_exact _ _ _, decU16_exact _ _ _,
    decBytes32_exact _ _ _, true_and]
  constructor
  · rintro ⟨a, _, rfl, b, _, rfl, c, _, rfl, rfl, rfl⟩
    simp [MerkleConcealed.enc]
  · rintro rfl
    exact ⟨n.depth, _, by simp only [MerkleConcealed.enc, List.append_assoc], n.cofactor, _, rfl,
      n.merkleRoot, _, rfl, rfl, rfl⟩

private theorem block_exact : Exact MerkleBlock.enc decMerkleBlock MerkleBlock.Confined := by
  intro bs n r
  simp only [decMerkleBlock, bind_some, pure_some, method_exact _ _ _, decU5_exact _ _ _,
    decU16_exact _ _ _, decList_exact treeNode_exact 1 U32_MAX (by decide) _ _ _,
    decOption_exact decU64_exact _ _ _, true_and, implies_true, and_true]
  constructor
  · rintro ⟨a, _, rfl, b, _, rfl, c, _, rfl, d, _, ⟨hd, rfl⟩, e, _, rfl, rfl, rfl⟩
    refine ⟨⟨hd.1, ?_⟩, by simp [MerkleBlock.enc]⟩
    have := hd.2
    simp only [U32_MAX] at this
    dsimp only
    omega
  · rintro ⟨hc, rfl⟩
    have := hc.2
    exact ⟨n.method, _, by simp only [MerkleBlock.enc, List.append_assoc], n.depth, _, rfl, n.cofactor, _,
      rfl, n.crossSection, _, ⟨⟨hc.1, by simp only [U32_MAX]; omega⟩, rfl⟩, n.entropy, _, rfl, rfl, rfl⟩

private theorem proof_exact : Exact MerkleProof.enc decMerkleProof MerkleProof.Confined := by
  intro bs n r
  simp only [decMerkleProof, bind_some, pure_some, method_exact _ _ _, decU32_exact _ _ _,
    decU16_exact _ _ _, decList_exact decBytes32_exact 0 32 (by decide) _ _ _,
    true_and, implies_true, and_true, Nat.zero_le]
  constructor
  · rintro ⟨a, _, rfl, b, _, rfl, c, _, rfl, d, _, ⟨hd, rfl⟩, rfl, rfl⟩
    exact ⟨hd, by simp [MerkleProof.enc]⟩
  · rintro ⟨hc, rfl⟩
    exact ⟨n.method, _, by simp only [MerkleProof.enc, List.append_assoc], n.pos, _, rfl, n.cofactor, _,
      rfl, n.path, _, ⟨hc, rfl⟩, rfl, rfl⟩

private theorem tree_exact : Exact MerkleTree.enc decMerkleTree fun _ => True := by
  intro bs n r
  simp only [decMerkleTree, bind_some, pure_some, method_exact _ _ _, decU5_exact _ _ _,
    decU16_exact _ _ _, decU64_exact _ _ _,
    decMap_exact decBytes32_exact decBytes32_exact MEDIUM_MAX (by decide) _ _ _,
    decMap_exact decU32_exact ((decPair_exact decBytes32_exact decBytes32_exact).congr
      (fun _ => rfl) (fun _ => by simp) (Q := fun _ => True)) MEDIUM_MAX (by decide) _ _ _,
    true_and]
  constructor
  · rintro ⟨a, _, rfl, b, _, rfl, c, _, rfl, d, _, rfl, e, _, rfl, f, _, rfl, rfl, rfl⟩
    simp [MerkleTree.enc]
  · rintro rfl
    exact ⟨n.method, _, by simp only [MerkleTree.enc, List.append_assoc], n.depth, _, rfl, n.entropy, _,
      rfl, n.cofactor, _, rfl, n.messages, _, rfl, n.map, _, rfl, rfl, rfl⟩

/-! ## C38 -/

/-- **C38** Decoding the encoding of a value, followed by anything, returns the value and what follows.
(Ids, protocol ids and messages are 32-byte arrays.) -/
theorem C38_round_trip (rest : Bytes) :
    (∀ x : Bytes32, decBytes32 (encBytes32 x ++ rest) = some (x, rest)) ∧
    (∀ x : Leaf, decLeaf (x.enc ++ rest) = some (x, rest)) ∧
    (∀ x : MerkleNode, decMerkleNode (x.enc ++ rest) = some (x, rest)) ∧
    (∀ x : MerkleConcealed, decMerkleConcealed (x.enc ++ rest) = some (x, rest)) ∧
    (∀ x : TreeNode, decTreeNode (x.enc ++ rest) = some (x, rest)) ∧
    (∀ x : MerkleTree, decMerkleTree (x.enc ++ rest) = some (x, rest)) ∧
    (∀ x : MerkleBlock, x.Confined → decMerkleBlock (x.enc ++ rest) = some (x, rest)) ∧
    (∀ x : MerkleProof, x.Confined → decMerkleProof (x.enc ++ rest) = some (x, rest)) :=
  ⟨fun _ => (decBytes32_exact _ _ _).2 ⟨trivial, rfl⟩, fun _ => (leaf_exact _ _ _).2 ⟨trivial, rfl⟩,
    fun _ => (merkleNode_exact _ _ _).2 ⟨trivial, rfl⟩, fun _ => (concealed_exact _ _ _).2 ⟨trivial, rfl⟩,
    fun _ => (treeNode_exact _ _ _).2 ⟨trivial, rfl⟩, fun _ => (tree_exact _ _ _).2 ⟨trivial, rfl⟩,
    fun _ h => (block_exact _ _ _).2 ⟨h, rfl⟩, fun _ h => (proof_exact _ _ _).2 ⟨h, rfl⟩⟩

/-- **C38** The whole serialization of a block deserializes to it. -/
theorem C38_block_serialized (b : MerkleBlock) (h : b.Confined) :
    deserialize decMerkleBlock b.enc = some b := by
  have := (C38_round_trip []).2.2.2.2.2.2.1 b h
  rw [List.append_nil] at this
  rw [deserialize, this]

/-! ## C39 -/

/-- **C39** Whatever is decoded, the bytes read are the encoding of the decoded value (which is within
the bounds of its type). -/
theorem C39_canonical (input rest : Bytes) :
    (∀ x, decBytes32 input = some (x, rest) → input = encBytes32 x ++ rest) ∧
    (∀ x, decLeaf input = some (x, rest) → input = x.enc ++ rest) ∧
    (∀ x, decMerkleNode input = some (x, rest) → input = x.enc ++ rest) ∧
    (∀ x, decMerkleConcealed input = some (x, rest) → input = x.enc ++ rest) ∧
    (∀ x, decTreeNode input = some (x, rest) → input = x.enc ++ rest) ∧
    (∀ x, decMerkleTree input = some (x, rest) → input = x.enc ++ rest) ∧
    (∀ x, decMerkleBlock input = some (x, rest) → x.Confined ∧ input = x.enc ++ rest) ∧
    (∀ x, decMerkleProof input = some (x, rest) → x.Confined ∧ input = x.enc ++ rest) :=
  ⟨fun _ h => ((decBytes32_exact _ _ _).1 h).2, fun _ h => ((leaf_exact _ _ _).1 h).2,
    fun _ h => ((merkleNode_exact _ _ _).1 h).2, fun _ h => ((concealed_exact _ _ _).1 h).2,
    fun _ h => ((treeNode_exact _ _ _).1 h).2, fun _ h => ((tree_exact _ _ _).1 h).2,
    fun _ h => (block_exact _ _ _).1 h, fun _ h => (proof_exact _ _ _).1 h⟩

/-- **C39** Hence two byte strings that decode to the same proof, block or tree are the same, and no
encoding is a proper prefix of the encoding of another value of the type. -/
theorem C39_unmaulable :
    (∀ (s t : Bytes) (p : MerkleProof), decMerkleProof s = some (p, []) →
      decMerkleProof t = some (p, []) → s = t) ∧
    (∀ (s t : Bytes) (b : MerkleBlock), decMerkleBlock s = some (b, []) →
      decMerkleBlock t = some (b, []) → s = t) ∧
    (∀ (s t : Bytes) (b : MerkleTree), decMerkleTree s = some (b, []) →
      decMerkleTree t = some (b, []) → s = t) ∧
    SelfDelimiting MerkleProof.enc MerkleProof.Confined ∧
    SelfDelimiting MerkleBlock.enc MerkleBlock.Confined ∧
    SelfDelimiting MerkleTree.enc (fun _ => True) :=
  ⟨fun _ _ _ h1 h2 => ((proof_exact _ _ _).1 h1).2.trans ((proof_exact _ _ _).1 h2).2.symm,
    fun _ _ _ h1 h2 => ((block_exact _ _ _).1 h1).2.trans ((block_exact _ _ _).1 h2).2.symm,
    fun _ _ _ h1 h2 => ((tree_exact _ _ _).1 h1).2.trans ((tree_exact _ _ _).1 h2).2.symm,
    proof_exact.selfDelimiting, block_exact.selfDelimiting, tree_exact.selfDelimiting⟩

/-- A block with a concealed node and a leaf, and a proof. -/
example : MerkleBlock.Confined ⟨.sha256t, 1, 0, [.concealed 1 (Bytes32.ofNat 5),
      .leaf (Bytes32.ofNat 7) (Bytes32.ofNat 9)], some 3⟩ ∧
    MerkleProof.Confined ⟨.sha256t, 1, 0, [Bytes32.ofNat 5]⟩ := by
  refine ⟨⟨?_, ?_⟩, ?_⟩ <;> simp [MerkleProof.Confined]

/-! ## C53 -/

section

variable {len : Nat} {val : UInt8}

/-- A value of the type, however obtained: the default, from an array, or decoded. -/
inductive ReservedBytes.Reachable : ReservedBytes len val → Prop
  | default : Reachable .default
  | ofArray (arr : Bytes) (hl : arr.length = len) (r) : ReservedBytes.ofArray arr = .ok r → Reachable r
  | decoded (input rest : Bytes) (r) : ReservedBytes.decode input = some (r, rest) → Reachable r
  | deserialized (token) (r) : ReservedBytes.deserialize token = some r → Reachable r

/-- **C53** Decoding succeeds exactly if the next `LEN` bytes are all `VAL`. -/
theorem C53_decode (input : Bytes) (r : ReservedBytes len val) (rest : Bytes) :
    ReservedBytes.decode input = some (r, rest) ↔
      r = .default ∧ input = List.replicate len val ++ rest := by
  simp only [ReservedBytes.decode]
  constructor
  · intro h
    split at h
    · cases h
    · split at h
      · cases h
      · rename_i h1 h2
        have h2 := Decidable.not_not.1 h2
        rw [h2] at h
        cases h
        refine ⟨rfl, ?_⟩
        have := congrArg ReservedBytes.bytes h2
        simp only [ReservedBytes.default] at this
        rw [← this, List.take_append_drop]
  · rintro ⟨rfl, rfl⟩
    simp [ReservedBytes.default]

/-- **C53** Converting an array panics exactly if it is not the reserved value. -/
theorem C53_array (arr : Bytes) (hl : arr.length = len) :
    (arr = List.replicate len val → ReservedBytes.ofArray (val := val) (len := len) arr = .ok .default) ∧
    (arr ≠ List.replicate len val →
      ReservedBytes.ofArray (val := val) (len := len) arr = .error .assert) := by
  refine ⟨fun h => ?_, fun h => ?_⟩
  · subst h
    simp only [ReservedBytes.ofArray, assert', decide_true, if_true]
    rfl
  · simp only [ReservedBytes.ofArray, assert', decide_eq_false h]
    rfl

/-- **C53** All values of the type are the default, and encode to `LEN` bytes `VAL`, which decode. -/
theorem C53_values (r : ReservedBytes len val) (h : r.Reachable) (rest : Bytes) :
    r = .default ∧ StrictEncode.enc r = List.replicate len val ∧
    ReservedBytes.decode (StrictEncode.enc r ++ rest) = some (r, rest) := by
  have e : r = .default := by
    cases h with
    | default => rfl
    | ofArray arr hl r h =>
      by_cases ha : arr = List.replicate len val
      · rw [(C53_array arr hl).1 ha] at h; cases h; rfl
      · rw [(C53_array arr hl).2 ha] at h; cases h
    | decoded input rest r h => exact ((C53_decode _ _ _).1 h).1
    | deserialized token r h => cases token <;> cases h <;> rfl
  subst e
  exact ⟨rfl, rfl, (C53_decode _ _ _).2 ⟨rfl, rfl⟩⟩

/-- **C53** All values have the same commitment id: the tagged hash of `LEN` bytes `VAL`. -/
theorem C53_id [Env] (r : ReservedBytes len val) (h : r.Reachable) (hl : len < 2 ^ 64) :
    commitId r = .ok (taggedSha "urn:ubideco:strict-types:value-hash#2024-02-10"
      (List.replicate len val)) := by
  rw [(C53_values r h []).1]
  simp only [commitId, commit]
  have : (CommitEncode.commitEncode (ReservedBytes.default : ReservedBytes len val)
      (CommitEngine.new (CommitEncode.idType (ReservedBytes len val)).tag)) =
      (Call.serialized (inferInstance : StrictEncode (ReservedBytes len val)) .default).run
        (CommitEngine.new strictHashId.tag) := rfl
  rw [this, run_ok (st := .serialized ⟨"CommitVerify", "ReservedBytes"⟩) (bs := List.replicate len val)
    ⟨rfl, rfl, by rw [List.length_replicate]; exact hl⟩ (fun _ => by
      constructor <;> (show some (TypeFqn.mk "CommitVerify" "ReservedBytes") ≠ _; decide)) (fun _ => rfl)
    (by simp [CommitEngine.new])]
  rfl

/-- **C53** With serde, every value is written as a unit and read back; an absent value is read as the
one value there is, anything else is refused. -/
theorem C53_serde (r : ReservedBytes len val) (h : r.Reachable) :
    r.serialize = .unit ∧ ReservedBytes.deserialize r.serialize = some r ∧
    ReservedBytes.deserialize .none = some r ∧
    (ReservedBytes.deserialize .other : Option (ReservedBytes len val)) = none := by
  rw [(C53_values r h []).1]
  exact ⟨rfl, rfl, rfl, rfl⟩

end

example : ReservedBytes.decode [0, 0, 0, 7] = some ((.default : ReservedBytes 3 0), [7]) := by
  decide +kernel

example : (ReservedBytes.decode [0, 1, 0, 7] : Option (ReservedBytes 3 0 × Bytes)) = none := by
  decide +kernel

end CSV
