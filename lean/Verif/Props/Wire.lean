import Verif.Props.Codec
import Verif.Props.Merge
import Verif.Props.Conceal

/-!
# C61: whatever the operations return can be serialized
-/

namespace CSV

private theorem passL_ne_nil [Env] (D : U5) (cs : List TreeNode) (off : Nat) :
    Holds (passL D cs off) fun x => cs ≠ [] → x.1 ≠ [] := by
  fun_induction passL D cs off
  case case1 => exact fun h => absurd rfl h
  case case2 ih =>
    exact holds_u32Add.bind fun o _ => (ih o).bind fun ⟨_, _, _⟩ hx => holds_ok
      fun _ => List.cons_ne_nil _ _
  case case3 =>
    exact holds_u32Sub.bind fun _ _ => holds_u32Pow2.bind fun _ _ => holds_u32Add.bind fun _ _ =>
      fun _ => List.cons_ne_nil _ _
  case case4 ih =>
    exact holds_u32Sub.bind fun _ _ => holds_u32Pow2.bind fun _ _ => holds_u32Add.bind fun o _ =>
      (ih o).bind fun ⟨_, _, _⟩ hx => holds_ok fun _ => List.cons_ne_nil _ _
  case case5 ih1 ih2 =>
    refine holds_u5Sub.bind fun _ _ => holds_u32Sub.bind fun _ _ => holds_u32Pow2.bind fun _ _ =>
      holds_u32Rem.bind fun _ _ => ?_
    split
    · exact holds_u32Sub.bind fun _ _ => holds_u32Pow2.bind fun _ _ =>
        holds_u32Add.bind fun o _ => (ih1 o).bind fun ⟨_, _, _⟩ hx => holds_ok
        fun _ => List.cons_ne_nil _ _
    · exact holds_u32Add.bind fun o _ => (ih2 o).bind fun ⟨_, _, _⟩ hx => holds_ok
        fun _ => List.cons_ne_nil _ _
  case case6 ih =>
    exact holds_u32Sub.bind fun _ _ => holds_u32Pow2.bind fun _ _ => holds_u32Add.bind fun o _ =>
      (ih o).bind fun ⟨_, _, _⟩ hx => holds_ok fun _ => List.cons_ne_nil _ _

private theorem concealOuter_bounds [Env] (D : U5) : ∀ (fuel : Nat) (cs : List TreeNode) (c : Nat),
    cs.length < fuel →
    Holds (concealOuter D fuel cs c) fun x => x.1.length ≤ cs.length ∧ (cs ≠ [] → x.1 ≠ []) := by
  intro fuel
  induction fuel with
  | zero => intro cs c h; omega
  | succ fuel ih =>
    intro cs c h
    rw [concealOuter_succ]
    refine holds_debugAssert.bind fun _ _ => ?_
    have h1 := passL_spec D cs 0
    have h2 := passL_ne_nil D cs 0
    cases hp : passL D cs 0 with
    | error e => rw [hp] at h1; exact h1
    | ok x =>
      rw [hp] at h1 h2
      obtain ⟨r, k, o⟩ := x
      have h1 : r.length + k = cs.length ∧ (k = 0 → r = cs) := h1
      have h2 : cs ≠ [] → r ≠ [] := h2
      simp only [ok_bind]
      split
      · exact holds_ok ⟨Nat.le_refl _, id⟩
      · exact holds_debugAssert.bind fun _ _ => (ih r (c + k) (by omega)).mono fun y hy =>
          ⟨by omega, fun h => hy.2 (h2 h)⟩

private theorem nonEmptyVec_ok {l l' : List TreeNode} (h : nonEmptyVec l = .ok l') :
    1 ≤ l'.length ∧ l'.length < 2 ^ 32 := by
  unfold nonEmptyVec at h
  split at h
  · cases h; omega
  · cases h

private theorem concealExcept_confined [Env] {b b' : MerkleBlock} {ps : List ProtocolId}
    {r : Except LeafNotKnown Nat} (hb : b.Confined) (h : b.concealExcept ps = .ok (b', r)) :
    b'.Confined := by
  rw [concealExcept_eq] at h
  simp only at h
  split at h
  · cases h
    simpa [MerkleBlock.Confined] using hb
  · have hB := concealOuter_bounds b.depth _ (b.crossSection.map (hideNode b.depth ps.contains))
      ((revealed b.crossSection).countP (fun e => !ps.contains e.1)) (Nat.lt_succ_self _)
    obtain ⟨⟨cs, n⟩, h1, h2⟩ := bind_ok_iff.1 h
    have hB := hB.of_ok h1
    cases h2
    simp only [List.length_map] at hB
    have h1 := hb.1
    have h2 := hb.2
    refine ⟨?_, by show cs.length < _; omega⟩
    have := hB.2 (by
      intro h0
      have := congrArg List.length h0
      simp only [List.length_map, List.length_nil] at this
      omega)
    exact List.length_pos_iff.2 this

private theorem mergeReveal_confined [Env] {b o b' : MerkleBlock} {r : Except MergeError UInt16}
    (hb : b.Confined) (h : b.mergeReveal o = .ok (b', r)) : b'.Confined := by
  unfold MerkleBlock.mergeReveal at h
  obtain ⟨c1, -, h⟩ := bind_ok_iff.1 h
  obtain ⟨c2, -, h⟩ := bind_ok_iff.1 h
  split at h
  · cases h; exact hb
  · obtain ⟨cs, -, h⟩ := bind_ok_iff.1 h
    obtain ⟨cs', h1, h⟩ := bind_ok_iff.1 h
    obtain ⟨_, -, h⟩ := bind_ok_iff.1 h
    obtain ⟨_, -, h⟩ := bind_ok_iff.1 h
    obtain ⟨_, -, h⟩ := bind_ok_iff.1 h
    obtain ⟨_, -, h⟩ := bind_ok_iff.1 h
    cases h
    exact nonEmptyVec_ok h1

/-- **C61** Every block made from a tree or a proof, every block left behind by an operation on a
block within the bounds of its type - failing operations included -, and every extracted proof is
within the bounds of its type. -/
theorem C61_bounds [Env] :
    (∀ T b, MerkleBlock.fromTree T = .ok b → b.Confined) ∧
    (∀ pr p m b, MerkleBlock.with pr p m = .ok (.ok b) → b.Confined) ∧
    (∀ (b b' : MerkleBlock) (op : BlockOp), b.Confined → op.step b = .ok b' → b'.Confined) ∧
    (∀ (b : MerkleBlock) p pr, b.toMerkleProof p = .ok (.ok pr) → pr.Confined) := by
  refine ⟨fun T b h => ?_, fun pr p m b h => ?_, fun b b' op hb h => ?_, fun b p pr h => ?_⟩
  · unfold MerkleBlock.fromTree at h
    obtain ⟨_, -, h⟩ := bind_ok_iff.1 h
    obtain ⟨_, h1, h⟩ := bind_ok_iff.1 h
    cases h
    exact nonEmptyVec_ok h1
  · unfold MerkleBlock.with at h
    obtain ⟨_, -, h⟩ := bind_ok_iff.1 h
    obtain ⟨_, -, h⟩ := bind_ok_iff.1 h
    dsimp only at h
    split at h
    · cases h
    · obtain ⟨_, -, h⟩ := bind_ok_iff.1 h
      obtain ⟨_, h1, h⟩ := bind_ok_iff.1 h
      obtain ⟨_, -, h⟩ := bind_ok_iff.1 h
      cases h
      exact nonEmptyVec_ok h1
  · cases op with
    | concealExcept ps =>
      obtain ⟨⟨b1, r⟩, h1, h⟩ := bind_ok_iff.1 h
      cases h
      exact concealExcept_confined hb h1
    | concealOther p =>
      obtain ⟨⟨b1, r⟩, h1, h⟩ := bind_ok_iff.1 h
      cases h
      obtain ⟨⟨b2, r⟩, h2, h1⟩ := bind_ok_iff.1 h1
      cases h1
      exact concealExcept_confined hb h2
    | mergeReveal o =>
      obtain ⟨⟨b1, r⟩, h1, h⟩ := bind_ok_iff.1 h
      cases h
      exact mergeReveal_confined hb h1
    | mergeRevealPath pr p m =>
      obtain ⟨⟨b1, r⟩, h1, h⟩ := bind_ok_iff.1 h
      cases h
      obtain ⟨r', -, h1⟩ := bind_ok_iff.1 h1
      cases r' with
      | error e => cases h1; exact hb
      | ok o => exact mergeReveal_confined hb h1
  · unfold MerkleBlock.toMerkleProof at h
    obtain ⟨⟨b1, r⟩, -, h⟩ := bind_ok_iff.1 h
    cases r with
    | error e => cases h
    | ok u =>
      obtain ⟨_, -, h⟩ := bind_ok_iff.1 h
      obtain ⟨_, -, h⟩ := bind_ok_iff.1 h
      dsimp only at h
      split at h
      · rename_i hl
        cases h
        exact hl
      · cases h

/-- **C61** A block that was made from a tree or a proof, or received, and then went through any
history of operations reads back as itself; so do the proofs extracted from it. -/
theorem C61_survives [Env] (b b' : MerkleBlock) (ops : List BlockOp)
    (hb : (∃ T, MerkleBlock.fromTree T = .ok b) ∨ (∃ pr p m, MerkleBlock.with pr p m = .ok (.ok b)) ∨
      ∃ bs, deserialize decMerkleBlock bs = some b)
    (h : b.run ops = .ok b') :
    deserialize decMerkleBlock b'.enc = some b' ∧
    ∀ p pr, b'.toMerkleProof p = .ok (.ok pr) → deserialize decMerkleProof pr.enc = some pr := by
  have hc : b.Confined := by
    rcases hb with ⟨T, h⟩ | ⟨pr, p, m, h⟩ | ⟨bs, h⟩
    · exact C61_bounds.1 T b h
    · exact C61_bounds.2.1 pr p m b h
    · unfold deserialize at h
      split at h
      · rename_i a h1
        cases h
        exact ((C39_canonical _ _).2.2.2.2.2.2.1 _ h1).1
      · cases h
  have hc' : b'.Confined := by
    clear hb
    induction ops generalizing b with
    | nil => cases h; exact hc
    | cons op ops ih =>
      obtain ⟨b1, h1, h2⟩ := bind_ok_iff.1 h
      exact ih b1 h2 (C61_bounds.2.2.1 b b1 op hc h1)
  refine ⟨C38_block_serialized b' hc', fun p pr hp => ?_⟩
  have := (C38_round_trip []).2.2.2.2.2.2.2 pr (C61_bounds.2.2.2 b' p pr hp)
  rw [List.append_nil] at this
  rw [deserialize, this]

/-- Non-vacuity of C61: the block of the sample tree, partly concealed. -/
example [Env] : MerkleBlock.fromTree Sample.tree = .ok Sample.block ∧
    Sample.block.run [.concealExcept [Sample.p1]] = .ok Sample.block1 := by
  refine ⟨Sample.from_tree, ?_⟩
  simp only [MerkleBlock.run, BlockOp.step, Sample.conceals.2.1, ok_bind]

end CSV
