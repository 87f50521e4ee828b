import Verif.Proofs.TypeLib
import Verif.Props.Codec

/-!
# C68: the published type library

The library and its values are in `Spec/TypeLib.lean`.
-/

namespace CSV

/-! ## Enumerations and unions -/

private theorem method_rep : Rep Published.Method Method.val (fun m => encU8 m.toU8) fun _ => True := by
  refine ⟨fun x _ => by cases x; rfl, fun _ hn => absurd trivial hn, fun v e he => ?_⟩
  cases v <;> simp only [Published.Method, Ty.enum, reduceCtorEq] at he
  rename_i name
  simp only [List.map_cons, List.map_nil, Ty.numbered, List.lookup, Option.map_eq_some_iff] at he
  obtain ⟨n, hn, rfl⟩ := he
  split at hn
  · cases hn; exact ⟨.sha256t, trivial, rfl⟩
  · cases hn

private theorem branching_rep :
    Rep Published.NodeBranching NodeBranching.val (fun b => encU8 b.toU8) fun _ => True := by
  refine ⟨fun x _ => by cases x <;> rfl, fun _ hn => absurd trivial hn, fun v e he => ?_⟩
  cases v <;> simp only [Published.NodeBranching, Ty.enum, reduceCtorEq] at he
  rename_i name
  simp only [List.map_cons, List.map_nil, Ty.numbered, List.lookup, Option.map_eq_some_iff] at he
  obtain ⟨n, hn, rfl⟩ := he
  split at hn
  · cases hn; exact ⟨.void, trivial, rfl⟩
  · split at hn
    · cases hn; exact ⟨.single, trivial, rfl⟩
    · split at hn
      · cases hn; exact ⟨.branch, trivial, rfl⟩
      · cases hn

/-- Fields of a record with two fields. -/
private theorem record2 {a b : String} {s t : Ty} {v : Val} {e : Bytes}
    (h : Ty.record [(a, s), (b, t)] v = some e) :
    ∃ x y ex ey, s x = some ex ∧ t y = some ey ∧ e = ex ++ ey := by
  cases v <;> simp only [Ty.record, reduceCtorEq] at h
  split at h
  · simp only [Ty.writeFields, Option.bind_eq_bind, Option.bind_eq_some_iff, Option.some.injEq] at h
    obtain ⟨x, _, ex, hx, _, ⟨y, _, ey, hy, _, rfl, rfl⟩, rfl⟩ := h
    exact ⟨x, y, ex, ey, hx, hy, by simp⟩
  · cases h

private theorem leaf_rep : Rep Published.Leaf Leaf.val Leaf.enc fun _ => True := by
  refine ⟨fun x _ => ?_, fun _ hn => absurd trivial hn, fun v e he => ?_⟩
  · cases x with
    | inhabited p m =>
      show Option.map _ (Ty.writeFields [("protocol", Published.ProtocolId), ("message", Published.Message)]
        [("protocol", p.val), ("message", m.val)]) = _
      simp [Ty.writeFields, List.lookup, Published.ProtocolId, Published.Message, bytes32_rep.typed, Leaf.enc]
    | entropy w i =>
      show Option.map _ (Ty.writeFields [("entropy", Published.U64), ("pos", Published.U32)]
        [("entropy", .num w.toNat), ("pos", .num i.toNat)]) = _
      simp [Ty.writeFields, List.lookup, u64_rep.typed, u32_rep.typed, Leaf.enc]
  · cases v <;> simp only [Published.Leaf, Ty.union, reduceCtorEq] at he
    simp only [Ty.numbered, List.lookup] at he
    split at he
    · rename_i n ty hn
      simp only [Option.map_eq_some_iff] at he
      obtain ⟨c, hc, rfl⟩ := he
      split at hn
      · cases hn
        obtain ⟨x, y, ex, ey, hx, hy, rfl⟩ := record2 hc
        obtain ⟨p, _, rfl⟩ := bytes32_rep.all _ _ hx
        obtain ⟨m, _, rfl⟩ := bytes32_rep.all _ _ hy
        exact ⟨.inhabited p m, trivial, rfl⟩
      · split at hn
        · cases hn
          obtain ⟨x, y, ex, ey, hx, hy, rfl⟩ := record2 hc
          obtain ⟨p, _, rfl⟩ := u64_rep.all _ _ hx
          obtain ⟨m, _, rfl⟩ := u32_rep.all _ _ hy
          exact ⟨.entropy p m, trivial, rfl⟩
        · cases hn
    · cases he

private theorem treeNode_rep : Rep Published.TreeNode TreeNode.val TreeNode.enc fun _ => True := by
  refine ⟨fun x _ => ?_, fun _ hn => absurd trivial hn, fun v e he => ?_⟩
  · cases x with
    | concealed d h =>
      show Option.map _ (Ty.writeFields [("depth", .u5), ("hash", Published.MerkleHash)]
        [("depth", .num d.val), ("hash", h.val)]) = _
      simp [Ty.writeFields, List.lookup, Published.MerkleHash, bytes32_rep.typed, u5_rep.typed, TreeNode.enc]
    | leaf p m =>
      show Option.map _ (Ty.writeFields [("protocolId", Published.ProtocolId), ("message", Published.Message)]
        [("protocolId", p.val), ("message", m.val)]) = _
      simp [Ty.writeFields, List.lookup, Published.ProtocolId, Published.Message, bytes32_rep.typed,
        TreeNode.enc]
  · cases v <;> simp only [Published.TreeNode, Ty.union, reduceCtorEq] at he
    simp only [Ty.numbered, List.lookup] at he
    split at he
    · rename_i n ty hn
      simp only [Option.map_eq_some_iff] at he
      obtain ⟨c, hc, rfl⟩ := he
      split at hn
      · cases hn
        obtain ⟨x, y, ex, ey, hx, hy, rfl⟩ := record2 hc
        obtain ⟨p, _, rfl⟩ := u5_rep.all _ _ hx
        obtain ⟨m, _, rfl⟩ := bytes32_rep.all _ _ hy
        exact ⟨.concealed p m, trivial, rfl⟩
      · split at hn
        · cases hn
          obtain ⟨x, y, ex, ey, hx, hy, rfl⟩ := record2 hc
          obtain ⟨p, _, rfl⟩ := bytes32_rep.all _ _ hx
          obtain ⟨m, _, rfl⟩ := bytes32_rep.all _ _ hy
          exact ⟨.leaf p m, trivial, rfl⟩
        · cases hn
    · cases he

/-! ## Records -/

/-- Reading off a record whose fields are given in the order of the definition. -/
private theorem fields_cons {name : String} {ty : Ty} {fs : List (String × Ty)} {vs : List (String × Val)}
    {e : Bytes} (h : Ty.writeFields ((name, ty) :: fs) vs = some e) :
    ∃ v a b, ty v = some a ∧ Ty.writeFields fs vs = some b ∧ e = a ++ b := by
  simp only [Ty.writeFields, Option.bind_eq_bind, Option.bind_eq_some_iff, Option.some.injEq] at h
  obtain ⟨v, _, a, ha, b, hb, rfl⟩ := h
  exact ⟨v, a, b, ha, hb, rfl⟩

private theorem fields_nil {vs : List (String × Val)} {e : Bytes}
    (h : Ty.writeFields [] vs = some e) : e = [] := by
  simp [Ty.writeFields] at h; exact h

private theorem record_fields {fs : List (String × Ty)} {v : Val} {e : Bytes}
    (h : Ty.record fs v = some e) : ∃ vs, Ty.writeFields fs vs = some e := by
  cases v <;> simp only [Ty.record, reduceCtorEq] at h
  split at h
  · exact ⟨_, h⟩
  · cases h

private theorem merkleNode_rep : Rep Published.MerkleNode MerkleNode.val MerkleNode.enc fun _ => True := by
  refine ⟨fun x _ => ?_, fun _ hn => absurd trivial hn, fun v e he => ?_⟩
  · simp [Published.MerkleNode, Ty.record, MerkleNode.val, Ty.writeFields, List.lookup,
      branching_rep.typed, u8_rep.typed, u256_rep.typed, Published.MerkleHash, bytes32_rep.typed,
      MerkleNode.enc]
  · obtain ⟨vs, k0⟩ := record_fields he
    obtain ⟨_, _, _, h1, k1, rfl⟩ := fields_cons k0
    obtain ⟨_, _, _, h2, k2, rfl⟩ := fields_cons k1
    obtain ⟨_, _, _, h3, k3, rfl⟩ := fields_cons k2
    obtain ⟨_, _, _, h4, k4, rfl⟩ := fields_cons k3
    obtain ⟨_, _, _, h5, k5, rfl⟩ := fields_cons k4
    cases fields_nil k5
    obtain ⟨a, _, rfl⟩ := branching_rep.all _ _ h1
    obtain ⟨b, _, rfl⟩ := u8_rep.all _ _ h2
    obtain ⟨c, _, rfl⟩ := u256_rep.all _ _ h3
    obtain ⟨d, _, rfl⟩ := bytes32_rep.all _ _ h4
    obtain ⟨f, _, rfl⟩ := bytes32_rep.all _ _ h5
    exact ⟨⟨a, b, c, d, f⟩, trivial, by simp [MerkleNode.enc]⟩

private theorem concealed_rep :
    Rep Published.MerkleConcealed MerkleConcealed.val MerkleConcealed.enc fun _ => True := by
  refine ⟨fun x _ => ?_, fun _ hn => absurd trivial hn, fun v e he => ?_⟩
  · simp [Published.MerkleConcealed, Ty.record, MerkleConcealed.val, Ty.writeFields, List.lookup,
      u5_rep.typed, u16_rep.typed, Published.MerkleHash, bytes32_rep.typed, MerkleConcealed.enc]
  · obtain ⟨vs, k0⟩ := record_fields he
    obtain ⟨_, _, _, h1, k1, rfl⟩ := fields_cons k0
    obtain ⟨_, _, _, h2, k2, rfl⟩ := fields_cons k1
    obtain ⟨_, _, _, h3, k3, rfl⟩ := fields_cons k2
    cases fields_nil k3
    obtain ⟨a, _, rfl⟩ := u5_rep.all _ _ h1
    obtain ⟨b, _, rfl⟩ := u16_rep.all _ _ h2
    obtain ⟨c, _, rfl⟩ := bytes32_rep.all _ _ h3
    exact ⟨⟨a, b, c⟩, trivial, by simp [MerkleConcealed.enc]⟩


private theorem block_rep : Rep Published.MerkleBlock MerkleBlock.val MerkleBlock.enc MerkleBlock.Confined := by
  have hb : ∀ b : MerkleBlock, b.Confined ↔
      1 ≤ b.crossSection.length ∧ b.crossSection.length ≤ 0xffffffff := by
    intro b
    rw [MerkleBlock.Confined]
    omega
  refine ⟨fun x hx => ?_, fun x hx => ?_, fun v e he => ?_⟩
  · have h4 := (seq_rep treeNode_rep 1 0xffffffff (by decide)).typed x.crossSection ((hb x).1 hx)
    have h5 := (opt_rep u64_rep.rep).typed x.entropy trivial
    simp [Published.MerkleBlock, Ty.record, MerkleBlock.val, Ty.writeFields, List.lookup,
      method_rep.typed, u5_rep.typed, u16_rep.typed, h4, h5, MerkleBlock.enc, U32_MAX]
  · have h4 := (seq_rep treeNode_rep 1 0xffffffff (by decide)).refused x.crossSection (mt (hb x).2 hx)
    simp [Published.MerkleBlock, Ty.record, MerkleBlock.val, Ty.writeFields, List.lookup, h4]
  · obtain ⟨vs, k0⟩ := record_fields he
    obtain ⟨_, _, _, h1, k1, rfl⟩ := fields_cons k0
    obtain ⟨_, _, _, h2, k2, rfl⟩ := fields_cons k1
    obtain ⟨_, _, _, h3, k3, rfl⟩ := fields_cons k2
    obtain ⟨_, _, _, h4, k4, rfl⟩ := fields_cons k3
    obtain ⟨_, _, _, h5, k5, rfl⟩ := fields_cons k4
    cases fields_nil k5
    obtain ⟨a, _, rfl⟩ := method_rep.all _ _ h1
    obtain ⟨b, _, rfl⟩ := u5_rep.all _ _ h2
    obtain ⟨c, _, rfl⟩ := u16_rep.all _ _ h3
    obtain ⟨d, hd, rfl⟩ := (seq_rep treeNode_rep 1 0xffffffff (by decide)).all _ _ h4
    obtain ⟨f, _, rfl⟩ := (opt_rep u64_rep.rep).all _ _ h5
    exact ⟨⟨a, b, c, d, f⟩, (hb _).2 hd, by simp [MerkleBlock.enc, U32_MAX]⟩

private theorem proof_rep : Rep Published.MerkleProof MerkleProof.val MerkleProof.enc MerkleProof.Confined := by
  refine ⟨fun x hx => ?_, fun x hx => ?_, fun v e he => ?_⟩
  · have h4 := (seq_rep bytes32_rep.rep 0 0x20 (by decide)).typed x.path ⟨Nat.zero_le _, hx⟩
    simp [Published.MerkleProof, Ty.record, MerkleProof.val, Ty.writeFields, List.lookup,
      method_rep.typed, u32_rep.typed, u16_rep.typed, Published.MerkleHash, h4, MerkleProof.enc]
  · have h4 := (seq_rep bytes32_rep.rep 0 0x20 (by decide)).refused x.path (fun h => hx h.2)
    simp [Published.MerkleProof, Ty.record, MerkleProof.val, Ty.writeFields, List.lookup,
      Published.MerkleHash, h4]
  · obtain ⟨vs, k0⟩ := record_fields he
    obtain ⟨_, _, _, h1, k1, rfl⟩ := fields_cons k0
    obtain ⟨_, _, _, h2, k2, rfl⟩ := fields_cons k1
    obtain ⟨_, _, _, h3, k3, rfl⟩ := fields_cons k2
    obtain ⟨_, _, _, h4, k4, rfl⟩ := fields_cons k3
    cases fields_nil k4
    obtain ⟨a, _, rfl⟩ := method_rep.all _ _ h1
    obtain ⟨b, _, rfl⟩ := u32_rep.all _ _ h2
    obtain ⟨c, _, rfl⟩ := u16_rep.all _ _ h3
    obtain ⟨d, hd, rfl⟩ := (seq_rep bytes32_rep.rep 0 0x20 (by decide)).all _ _ h4
    exact ⟨⟨a, b, c, d⟩, hd.2, by simp [MerkleProof.enc]⟩


private theorem tree_rep : Rep Published.MerkleTree MerkleTree.val MerkleTree.enc fun _ => True := by
  refine ⟨fun x _ => ?_, fun _ hn => absurd trivial hn, fun v e he => ?_⟩
  · have h5 := (map_rep bytes32_rep bytes32_rep.rep before_bytes32 0xffffff (by decide)).typed x.messages trivial
    have h6 := (map_rep u32_rep (pair_rep bytes32_rep.rep bytes32_rep.rep) before_u32 0xffffff (by decide)).typed x.map trivial
    simp [Published.MerkleTree, Ty.record, MerkleTree.val, Ty.writeFields, List.lookup,
      method_rep.typed, u5_rep.typed, u16_rep.typed, u64_rep.typed, Published.ProtocolId,
      Published.Message, h5, h6, MerkleTree.enc]
    rfl
  · obtain ⟨vs, k0⟩ := record_fields he
    obtain ⟨_, _, _, h1, k1, rfl⟩ := fields_cons k0
    obtain ⟨_, _, _, h2, k2, rfl⟩ := fields_cons k1
    obtain ⟨_, _, _, h3, k3, rfl⟩ := fields_cons k2
    obtain ⟨_, _, _, h4, k4, rfl⟩ := fields_cons k3
    obtain ⟨_, _, _, h5, k5, rfl⟩ := fields_cons k4
    obtain ⟨_, _, _, h6, k6, rfl⟩ := fields_cons k5
    cases fields_nil k6
    obtain ⟨a, _, rfl⟩ := method_rep.all _ _ h1
    obtain ⟨b, _, rfl⟩ := u5_rep.all _ _ h2
    obtain ⟨c, _, rfl⟩ := u64_rep.all _ _ h3
    obtain ⟨d, _, rfl⟩ := u16_rep.all _ _ h4
    obtain ⟨f, _, rfl⟩ := (map_rep bytes32_rep bytes32_rep.rep before_bytes32 0xffffff (by decide)).all _ _ h5
    obtain ⟨g, _, rfl⟩ := (map_rep u32_rep (pair_rep bytes32_rep.rep bytes32_rep.rep) before_u32 0xffffff (by decide)).all _ _ h6
    exact ⟨⟨a, b, c, d, f, g⟩, trivial, by simp [MerkleTree.enc]; rfl⟩

/-! ## C68 -/

/-- **C68** Serialization agrees with the published type library: hashes, ids and messages; nodes,
leaves and concealed trees, which are hashed; trees, blocks and proofs, which are exchanged. -/
theorem C68_agrees :
    Agrees Published.MerkleHash Bytes32.val encBytes32 decBytes32 ∧
    Agrees Published.Leaf Leaf.val Leaf.enc decLeaf ∧
    Agrees Published.MerkleNode MerkleNode.val MerkleNode.enc decMerkleNode ∧
    Agrees Published.MerkleConcealed MerkleConcealed.val MerkleConcealed.enc decMerkleConcealed ∧
    Agrees Published.TreeNode TreeNode.val TreeNode.enc decTreeNode ∧
    Agrees Published.MerkleTree MerkleTree.val MerkleTree.enc decMerkleTree ∧
    Agrees Published.MerkleBlock MerkleBlock.val MerkleBlock.enc decMerkleBlock ∧
    Agrees Published.MerkleProof MerkleProof.val MerkleProof.enc decMerkleProof := by
  have rt := C38_round_trip
  have ca := C39_canonical
  refine ⟨bytes32_rep.rep.agrees decBytes32_exact, leaf_rep.agrees ?_, merkleNode_rep.agrees ?_,
    concealed_rep.agrees ?_, treeNode_rep.agrees ?_, tree_rep.agrees ?_, block_rep.agrees ?_,
    proof_rep.agrees ?_⟩ <;> intro bs x r
  · exact ⟨fun h => ⟨trivial, (ca bs r).2.1 x h⟩, fun h => h.2 ▸ (rt r).2.1 x⟩
  · exact ⟨fun h => ⟨trivial, (ca bs r).2.2.1 x h⟩, fun h => h.2 ▸ (rt r).2.2.1 x⟩
  · exact ⟨fun h => ⟨trivial, (ca bs r).2.2.2.1 x h⟩, fun h => h.2 ▸ (rt r).2.2.2.1 x⟩
  · exact ⟨fun h => ⟨trivial, (ca bs r).2.2.2.2.1 x h⟩, fun h => h.2 ▸ (rt r).2.2.2.2.1 x⟩
  · exact ⟨fun h => ⟨trivial, (ca bs r).2.2.2.2.2.1 x h⟩, fun h => h.2 ▸ (rt r).2.2.2.2.2.1 x⟩
  · exact ⟨fun h => (ca bs r).2.2.2.2.2.2.1 x h, fun h => h.2 ▸ (rt r).2.2.2.2.2.2.1 x h.1⟩
  · exact ⟨fun h => (ca bs r).2.2.2.2.2.2.2 x h, fun h => h.2 ▸ (rt r).2.2.2.2.2.2.2 x h.1⟩

/-- **C68** The values hashed into a commitment are all values of the published types: their
published serialization exists and is what is hashed. -/
theorem C68_hashed :
    (∀ x : Leaf, Published.Leaf x.val = some x.enc) ∧
    (∀ x : MerkleNode, Published.MerkleNode x.val = some x.enc) ∧
    (∀ x : MerkleConcealed, Published.MerkleConcealed x.val = some x.enc) :=
  ⟨fun x => leaf_rep.typed x trivial, fun x => merkleNode_rep.typed x trivial,
    fun x => concealed_rep.typed x trivial⟩

/-- **C68** Trees, and blocks and proofs within the bounds of their collections, are values of the
published types. -/
theorem C68_exchanged :
    (∀ x : MerkleTree, Published.MerkleTree x.val = some x.enc) ∧
    (∀ x : MerkleBlock, x.Confined → Published.MerkleBlock x.val = some x.enc) ∧
    (∀ x : MerkleProof, x.Confined → Published.MerkleProof x.val = some x.enc) :=
  ⟨fun x => tree_rep.typed x trivial, block_rep.typed, proof_rep.typed⟩

/-- **C68** Not so for reserved bytes: the library permits all arrays of the length, the code reads
only the reserved value. What is written is a value of the published type. -/
theorem C68_reserved (len : Nat) (val : UInt8) :
    (∀ r : ReservedBytes len val, r.Reachable →
      Published.ReservedBytes len (.bytes (StrictEncode.enc r)) = some (StrictEncode.enc r)) ∧
    (1 ≤ len → ∃ e, Published.ReservedBytes len (.bytes e) = some e ∧
      ∀ rest, (ReservedBytes.decode (e ++ rest) : Option (ReservedBytes len val × Bytes)) = none) := by
  refine ⟨fun r h => ?_, fun hl => ⟨List.replicate len (val + 1), ?_, fun rest => ?_⟩⟩
  · rw [(C53_values r h []).2.1]
    simp [Published.ReservedBytes, Ty.byteArray]
  · simp [Published.ReservedBytes, Ty.byteArray]
  · cases hd : (ReservedBytes.decode (List.replicate len (val + 1) ++ rest) :
        Option (ReservedBytes len val × Bytes)) with
    | none => rfl
    | some x =>
      obtain ⟨r, rest'⟩ := x
      have h := ((C53_decode _ _ _).1 hd).2
      have h := (List.append_inj h (by simp)).1
      have : (val + 1 : UInt8) = val := by
        have h1 : val + 1 ∈ List.replicate len (val + 1) := by
          rw [List.mem_replicate]; exact ⟨by omega, rfl⟩
        rw [h, List.mem_replicate] at h1
        exact h1.2
      have : (1 : UInt8) = 0 := by
        have := congrArg (fun x => x - val) this
        rwa [UInt8.add_comm, UInt8.add_sub_cancel, UInt8.sub_self] at this
      cases this

/-- The published form of a proof: method, position 3 and cofactor 1 little endian, a path of one
hash with its length in one byte. -/
example : Published.MerkleProof (.record [("pos", .num 3), ("path", .list [.bytes (List.replicate 32 7)]),
    ("method", .variant "sha256t"), ("cofactor", .num 1)]) =
    some ([0, 3, 0, 0, 0, 1, 0, 1] ++ List.replicate 32 7) := by
  decide +kernel

end CSV
