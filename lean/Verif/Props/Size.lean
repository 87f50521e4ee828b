import Verif.Props.Conceal
import Verif.Props.Proof
import Verif.Props.Codec

/-!
# Sizes of concealed blocks and of proofs (C66)
-/

namespace CSV

private theorem minimal_known {D : Nat} : ∀ {t : PT} {d : Nat}, t.Minimal → t.Fits D D d → d ≤ D →
    (t.known.length = 0 → (t.frontier d).length = 1 ∧ t.isHidden = true) ∧
    (t.frontier d).length ≤ t.known.length * (D - d) + 1 ∧
    (t.known.length = 1 → (t.frontier d).length = D - d + 1) := by
  intro t
  induction t with
  | hidden h =>
    intro d _ _ _
    simp [PT.known, PT.frontier, PT.isHidden]
  | leaf p m =>
    intro d _ hf hd
    have : d = D := hf
    subst this
    simp [PT.known, PT.frontier]
  | node l r ihl ihr =>
    intro d hm hf hd
    have hd1 : d + 1 ≤ D := by
      have : ∀ {t : PT} {e : Nat}, t.Fits D D e → e ≤ D := by
        intro t
        induction t with
        | hidden h => intro e h; exact h
        | leaf p m => intro e h; exact Nat.le_of_eq h
        | node l r ihl _ => intro e h; have := ihl h.1; omega
      exact this hf.1
    obtain ⟨hn, hml, hmr⟩ := hm
    obtain ⟨l0, l1, l2⟩ := ihl hml hf.1 hd1
    obtain ⟨r0, r1, r2⟩ := ihr hmr hf.2 hd1
    obtain ⟨g, hg⟩ : ∃ g, D - d = g + 1 := ⟨D - d - 1, by omega⟩
    have hg1 : D - (d + 1) = g := by omega
    rw [hg1] at l1 l2 r1 r2
    simp only [PT.known, PT.frontier, PT.isHidden, List.length_append, hg]
    rw [Nat.add_mul, Nat.mul_add, Nat.mul_add]
    have nz : ¬ (l.known.length = 0 ∧ r.known.length = 0) := fun ⟨a, b⟩ => hn ⟨(l0 a).2, (r0 b).2⟩
    refine ⟨fun h => absurd (by omega) nz, ?_, fun h => ?_⟩
    · omega
    · rcases Nat.eq_zero_or_pos l.known.length with a | a
      · have := (l0 a).1
        have := r2 (by omega)
        omega
      · have := (r0 (by omega)).1
        have := l2 (by omega)
        omega

/-- **C66** A block concealed to `k` protocols consists of at most `k · depth + 1` nodes, however many
protocols are committed to: of one node if nothing is revealed, of exactly `depth + 1` nodes if one protocol is. -/
theorem C66_nodes [Env] (b b' : MerkleBlock) (hb : b.Valid) (ps : List ProtocolId) (n : Nat)
    (h : b.concealExcept ps = .ok (b', .ok n)) :
    b'.crossSection.length ≤ b'.knownMessages.length * b.depth.val + 1 ∧
    (b'.knownMessages.length = 0 → b'.crossSection.length = 1) ∧
    (b'.knownMessages.length = 1 → b'.crossSection.length = b.depth.val + 1) := by
  obtain ⟨t, ht, hm⟩ := C12_minimal b b' hb ps n h
  have hd : b'.depth = b.depth := (C11_reveals_exactly b b' hb ps n h).2.2.2.2.2.1
  rw [shows_known ht, ht.1, ← hd]
  obtain ⟨h0, h1, h2⟩ := minimal_known hm ht.2 (Nat.zero_le _)
  exact ⟨h1, fun h => (h0 h).1, h2⟩

private theorem nodes_enc : ∀ (cs : List TreeNode),
    (cs.flatMap TreeNode.enc).length = 34 * cs.length + 31 * (cs.filterMap fun
      | .concealed _ _ => none
      | .leaf p m => some (p, m)).length
  | [] => rfl
  | .concealed d h :: cs => by
    have := nodes_enc cs
    simp only [List.flatMap_cons, List.length_append, TreeNode.enc, List.length_cons, encU5, encBytes32,
      List.filterMap_cons, h.len, List.length_nil] at this ⊢
    omega
  | .leaf p m :: cs => by
    have := nodes_enc cs
    simp only [List.flatMap_cons, List.length_append, TreeNode.enc, List.length_cons, encBytes32,
      List.filterMap_cons, p.len, m.len] at this ⊢
    omega

/-- **C66** The number of bytes of a serialized block. -/
theorem C66_block_bytes (b : MerkleBlock) :
    b.enc.length = (if b.entropy.isSome then 17 else 9) + 34 * b.crossSection.length +
      31 * b.knownMessages.length := by
  have : (b.crossSection.flatMap TreeNode.enc).length =
    34 * b.crossSection.length + 31 * b.knownMessages.length := nodes_enc b.crossSection
  cases he : b.entropy <;>
  · simp only [MerkleBlock.enc, encList, encU8, encU5, encU16, encOption, encU64, he, List.length_append,
      leBytes_length, this, List.length_cons, List.length_nil, Option.isSome,
      show lenPrefix U32_MAX = 4 from rfl]
    simp only [if_true, Bool.false_eq_true, if_false]
    omega

/-- **C66** A block concealed to `k` protocols takes at most `43 + k · (34 · depth + 31)` bytes. -/
theorem C66_bytes [Env] (b b' : MerkleBlock) (hb : b.Valid) (ps : List ProtocolId) (n : Nat)
    (h : b.concealExcept ps = .ok (b', .ok n)) :
    b'.enc.length ≤ 43 + b'.knownMessages.length * (34 * b.depth.val + 31) := by
  obtain ⟨h1, -, -⟩ := C66_nodes b b' hb ps n h
  have he : b'.entropy = none := (C11_reveals_exactly b b' hb ps n h).2.2.2.1
  rw [C66_block_bytes, he, Nat.mul_add, ← Nat.mul_assoc, Nat.mul_right_comm, Nat.mul_comm _ 31]
  simp only [Option.isSome, Bool.false_eq_true, if_false]
  have : b'.knownMessages.length * b.depth.val * 34 = 34 * (b'.knownMessages.length * b.depth.val) :=
    Nat.mul_comm _ _
  omega

/-- **C66** A serialized proof takes `8 + 32 · depth` bytes, whatever else is committed to. -/
theorem C66_proof_bytes [Env] (T : MerkleTree) (hT : T.Holds) (b : MerkleBlock) (hb : b.OfTree T)
    (p : ProtocolId) (pr : MerkleProof) (h : b.toMerkleProof p = .ok (.ok pr)) :
    pr.enc.length = 8 + 32 * T.depth.val := by
  have hp : p ∈ b.knownProtocolIds := by
    obtain ⟨-, -, -, t, hs, -⟩ := hb
    apply Classical.byContradiction
    intro hp
    have := toMerkleProof_err hs (p := p) (fun m hm => hp (by
      rw [knownIds_map, shows_known hs]
      exact List.mem_map_of_mem hm))
    rw [h] at this
    cases this
  obtain ⟨pr', m, c, -, -, h1, -, -, -, -, h2⟩ := C16_complete T hT b hb p hp
  rw [h] at h1
  cases h1
  have : ∀ l : List MerkleHash, (l.flatMap encBytes32).length = 32 * l.length := by
    intro l
    induction l with
    | nil => rfl
    | cons x l ih =>
      rw [List.flatMap_cons, List.length_append, ih, List.length_cons, encBytes32, x.len]; omega
  simp only [MerkleProof.enc, encList, encU8, encU16, encU32, List.length_append, leBytes_length, this, h2,
    List.length_cons, List.length_nil, show lenPrefix 32 = 1 from rfl]
  omega

/-- The sample block, concealed to one protocol: three nodes at depth two, 142 bytes. -/
example [Env] : ∃ b' n, Sample.block.Valid ∧ Sample.block.concealExcept [Sample.p1] = .ok (b', .ok n) ∧
    b'.knownMessages.length = 1 := by
  have hv : Sample.block.Valid := by
    obtain ⟨-, -, -, t, hs, -⟩ := Sample.view_block
    exact ⟨t, hs⟩
  obtain ⟨b', r, c, h, -⟩ := C10_conceal_keeps_commitment Sample.block hv [Sample.p1]
  cases r with
  | error e =>
    obtain ⟨h1, h2, -⟩ := (C13_leaf_not_known Sample.block [Sample.p1] e.1).1 ⟨b', h⟩
    rw [List.mem_singleton.1 h1] at h2
    exact absurd (List.mem_cons_of_mem _ (List.mem_cons_self ..) :
      Sample.p1 ∈ [Sample.p6, Sample.p1, Sample.p5]) h2
  | ok n => exact ⟨b', n, hv, h, by rw [(C11_reveals_exactly _ _ hv _ _ h).1]; rfl⟩

end CSV
