import Verif.Props.Source
import Verif.Props.Wire

/-!
# C75: disclosures compose
-/

namespace CSV

private theorem disclosure_view [Env] {b : MerkleBlock} {t : PT} (hb : b.Shows t) {ps : List ProtocolId}
    {b1 : MerkleBlock} {n : Nat} (h : b.concealExcept ps = .ok (b1, .ok n)) :
    (∀ p ∈ ps, p ∈ b.knownProtocolIds) ∧
    b1 = { b with
      crossSection := ((t.hideLeaves ps.contains).canon (2 ^ b.depth.val) 0).frontier 0
      entropy := none } ∧
    b1.Shows ((t.hideLeaves ps.contains).canon (2 ^ b.depth.val) 0) := by
  rcases concealExcept_cases hb ps with ⟨n, hk, h', hs, -⟩ | ⟨q, hq, hk, h', -⟩
  · rw [h] at h'
    cases h'
    exact ⟨hk, rfl, hs⟩
  · rw [h] at h'
    cases h'

/-- **C75** Two disclosures of one block - all but `ps` concealed, all but `qs` concealed - can be merged, and
give the disclosure of both at once, node by node. No assumption on the hash function is needed. -/
theorem C75_join [Env] (b b1 b2 : MerkleBlock) (hb : b.Valid) (ps qs : List ProtocolId) (n m : Nat)
    (h1 : b.concealExcept ps = .ok (b1, .ok n)) (h2 : b.concealExcept qs = .ok (b2, .ok m)) :
    ∃ b3 k l, b1.mergeReveal b2 = .ok (b3, .ok k) ∧ b.concealExcept (ps ++ qs) = .ok (b3, .ok l) := by
  obtain ⟨t, ht⟩ := hb
  obtain ⟨k1, rfl, s1⟩ := disclosure_view ht h1
  obtain ⟨k2, rfl, s2⟩ := disclosure_view ht h2
  have v1 := view_canon (view_hide (keep := ps.contains) (view_refl (w := 2 ^ b.depth.val) (t := t) (d := 0)))
  have v2 := view_canon (view_hide (keep := qs.contains) (view_refl (w := 2 ^ b.depth.val) (t := t) (d := 0)))
  have hc := view_compat v1 v2
  obtain ⟨e, -⟩ := mergeReveal_compat s1 s2 rfl rfl hc
  have hj := view_join v1 v2
  have hm := join_minimal (PT.minimal_canon (w := 2 ^ b.depth.val) (t := t.hideLeaves ps.contains) (d := 0))
    (PT.minimal_canon (w := 2 ^ b.depth.val) (t := t.hideLeaves qs.contains) (d := 0))
  have hu := view_canon_unique (D := b.depth.val) (n := b.depth.val) (lo := 0)
    (view_hide (keep := (ps ++ qs).contains) (view_refl (w := 2 ^ b.depth.val) (t := t) (d := 0))) hj ht.2
    (Nat.zero_add _) fun e => by
      rw [join_slots hc, canon_slots, canon_slots, hide_slots, hide_slots, hide_slots]
      simp only [List.contains_eq_mem, List.mem_append, decide_eq_true_eq]
      grind
  rw [PT.canon_of_minimal hm] at hu
  rcases concealExcept_cases ht (ps ++ qs) with ⟨l, -, h3, -, -⟩ | ⟨q, hq, hk, -, -⟩
  · rw [hu] at h3
    exact ⟨_, _, l, e, h3⟩
  · rcases List.mem_append.1 hq with hq | hq
    · exact absurd (k1 q hq) hk
    · exact absurd (k2 q hq) hk

/-- **C75** Disclosures are ordered as the sets of protocols they reveal: they are equal exactly for equal sets;
one can be obtained from another by concealing exactly if it reveals less, and adds nothing to
another when merged exactly if it reveals no more. -/
theorem C75_order [Env] (b b1 b2 : MerkleBlock) (hb : b.Valid) (ps qs : List ProtocolId) (n m : Nat)
    (h1 : b.concealExcept ps = .ok (b1, .ok n)) (h2 : b.concealExcept qs = .ok (b2, .ok m)) :
    (b1 = b2 ↔ ∀ p, p ∈ ps ↔ p ∈ qs) ∧
    ((∃ k, b2.concealExcept ps = .ok (b1, .ok k)) ↔ ∀ p ∈ ps, p ∈ qs) ∧
    ((∃ k, b2.mergeReveal b1 = .ok (b2, .ok k)) ↔ ∀ p ∈ ps, p ∈ qs) := by
  obtain ⟨-, i1, j1, -⟩ := C11_reveals_exactly b b1 hb ps n h1
  obtain ⟨-, i2, j2, -⟩ := C11_reveals_exactly b b2 hb qs m h2
  have w1 : ∀ p, p ∈ b1.knownProtocolIds ↔ p ∈ ps := fun p =>
    ⟨fun h => by rw [i1] at h; simpa using (List.mem_filter.1 h).2, j1 p⟩
  have w2 : ∀ p, p ∈ b2.knownProtocolIds ↔ p ∈ qs := fun p =>
    ⟨fun h => by rw [i2] at h; simpa using (List.mem_filter.1 h).2, j2 p⟩
  have v2 : b2.Valid := by
    obtain ⟨t, ht⟩ := hb
    exact ⟨_, (disclosure_view ht h2).2.2⟩
  refine ⟨⟨?_, fun h => ?_⟩, ⟨?_, fun h => C12_stepwise b b2 b1 hb ps qs m n h h2 h1⟩, ⟨?_, fun h => ?_⟩⟩
  · rintro rfl p
    rw [← w1, ← w2]
  · rw [C12_set_of_ids b ps qs h, h2] at h1
    cases h1
    rfl
  · rintro ⟨k, hk⟩ p hp
    obtain ⟨-, i3, j3, -⟩ := C11_reveals_exactly b2 b1 v2 ps k hk
    have := j3 p hp
    rw [i3] at this
    exact (w2 p).1 (List.mem_filter.1 this).1
  · rintro ⟨k, hk⟩ p hp
    obtain ⟨b3, k', l, e1, e2⟩ := C75_join b b2 b1 hb qs ps m n h2 h1
    rw [hk] at e1
    cases e1
    obtain ⟨-, -, j3, -⟩ := C11_reveals_exactly b b2 hb (qs ++ ps) l e2
    exact (w2 p).1 (j3 p (by simp [hp]))
  · obtain ⟨b3, k', l, e1, e2⟩ := C75_join b b2 b1 hb qs ps m n h2 h1
    rw [C12_set_of_ids b (qs ++ ps) qs (fun p => by
      rw [List.mem_append]; exact ⟨fun h' => h'.elim id (h p), Or.inl⟩), h2] at e2
    cases e2
    exact ⟨k', e1⟩

/-- What parties can hold who exchange disclosures of a block `full`, with the protocols they reveal: blocks
concealed from it and concealed further, blocks sent as bytes, blocks rebuilt from extracted proofs, and blocks
and proofs merged. -/
inductive Held [Env] (full : MerkleBlock) : MerkleBlock → List ProtocolId → Prop
  /-- `conceal_except` on the block -/
  | disclosed {b ps n} : full.concealExcept ps = .ok (b, .ok n) → Held full b ps
  /-- `conceal_except` on something held -/
  | concealed {b b' ps qs n} : Held full b qs → b.concealExcept ps = .ok (b', .ok n) → Held full b' ps
  /-- `conceal_other` on something held -/
  | concealedOther {b b' p qs} : Held full b qs → b.concealOther p = .ok (b', .ok ()) → Held full b' [p]
  /-- serialized and read back -/
  | sent {b b' ps} : Held full b ps → deserialize decMerkleBlock b.enc = some b' → Held full b' ps
  /-- `MerkleBlock::with` on a proof extracted by another party -/
  | rebuilt {b b' p m pr ps} : Held full b ps → (p, m) ∈ b.knownMessages →
    b.toMerkleProof p = .ok (.ok pr) → MerkleBlock.with pr p m = .ok (.ok b') → Held full b' [p]
  /-- `merge_reveal`, successful or not -/
  | merged {b1 b2 b' ps qs r} : Held full b1 ps → Held full b2 qs → b1.mergeReveal b2 = .ok (b', r) →
    Held full b' (ps ++ qs)
  /-- `merge_reveal_path` of a proof extracted by another party, successful or not -/
  | mergedPath {b1 b2 b' p m pr ps qs r} : Held full b1 ps → Held full b2 qs → (p, m) ∈ b2.knownMessages →
    b2.toMerkleProof p = .ok (.ok pr) → b1.mergeRevealPath pr p m = .ok (b', r) → Held full b' (ps ++ [p])

private theorem ofTree_disclosure [Env] {T : MerkleTree} {b b1 : MerkleBlock} (hb : b.OfTree T)
    {ps : List ProtocolId} {n : Nat} (h : b.concealExcept ps = .ok (b1, .ok n)) : b1.OfTree T := by
  obtain ⟨hm, hd, hc, t, hs, hv⟩ := hb
  obtain ⟨-, rfl, s1⟩ := disclosure_view hs h
  exact ⟨hm, hd, hc, _, s1, by rw [hd]; exact view_canon (view_hide hv)⟩

private theorem conceal_disclosure [Env] {b b1 b' : MerkleBlock} (hb : b.Valid) {ps qs : List ProtocolId}
    {n k : Nat} (h1 : b.concealExcept qs = .ok (b1, .ok n)) (h2 : b1.concealExcept ps = .ok (b', .ok k)) :
    ∃ n, b.concealExcept ps = .ok (b', .ok n) := by
  have ⟨t, ht⟩ := hb
  have v1 : b1.Valid := ⟨_, (disclosure_view ht h1).2.2⟩
  obtain ⟨-, i1, -, -⟩ := C11_reveals_exactly b b1 hb qs n h1
  obtain ⟨-, i2, j2, -⟩ := C11_reveals_exactly b1 b' v1 ps k h2
  have hps : ∀ p ∈ ps, p ∈ b.knownProtocolIds ∧ p ∈ qs := fun p hp => by
    have := j2 p hp
    rw [i2, i1] at this
    have := List.mem_filter.1 (List.mem_filter.1 this).1
    exact ⟨this.1, by simpa using this.2⟩
  rcases concealExcept_cases ht ps with ⟨l, -, h3, -, -⟩ | ⟨q, hq, hk, -, -⟩
  · obtain ⟨k', e⟩ := C12_stepwise b b1 _ hb ps qs n l (fun p hp => (hps p hp).2) h1 h3
    rw [h2] at e
    cases e
    exact ⟨l, h3⟩
  · exact absurd (hps q hq).1 hk

private theorem rebuilt_disclosure [Env] {T : MerkleTree} (hT : T.Holds) {full b b' : MerkleBlock}
    (hf : full.OfTree T) {ps : List ProtocolId} {n : Nat} (h : full.concealExcept ps = .ok (b, .ok n))
    {p : ProtocolId} {m : Message} {pr : MerkleProof} (hk : (p, m) ∈ b.knownMessages)
    (hp : b.toMerkleProof p = .ok (.ok pr)) (hw : MerkleBlock.with pr p m = .ok (.ok b')) :
    ∃ n, full.concealExcept [p] = .ok (b', .ok n) := by
  obtain ⟨b2, k, e1, e2⟩ := C22_rebuilt_is_concealed T hT b (ofTree_disclosure hf h) p m hk pr hp
  rw [hw] at e1
  cases e1
  have ⟨_, _, _, t, hs, _⟩ := hf
  exact conceal_disclosure ⟨t, hs⟩ h e2

/-- **C75** However parties exchange what a committer disclosed, whatever they conceal, send, rebuild and merge:
the block each of them holds is, node by node, the one the committer would have made by disclosing these
protocols at once. Nothing else can be learned, nothing is lost, and no merge fails. -/
theorem C75_exchange [Env] (T : MerkleTree) (hT : T.Holds) (full : MerkleBlock) (hf : full.OfTree T) :
    (∀ b ps, Held full b ps → ∃ n, full.concealExcept ps = .ok (b, .ok n)) ∧
    (∀ b1 b2 ps qs, Held full b1 ps → Held full b2 qs → ∃ b k, b1.mergeReveal b2 = .ok (b, .ok k)) ∧
    (∀ b1 b2 ps qs p m, Held full b1 ps → Held full b2 qs → (p, m) ∈ b2.knownMessages →
      ∃ pr b k, b2.toMerkleProof p = .ok (.ok pr) ∧ b1.mergeRevealPath pr p m = .ok (b, .ok k)) := by
  have ⟨_, _, _, t, hs, _⟩ := hf
  have hv : full.Valid := ⟨t, hs⟩
  have main : ∀ b ps, Held full b ps → ∃ n, full.concealExcept ps = .ok (b, .ok n) := by
    intro b ps h
    induction h with
    | disclosed h => exact ⟨_, h⟩
    | concealed _ h ih =>
      obtain ⟨n, e⟩ := ih
      exact conceal_disclosure hv e h
    | @concealedOther b b' p qs _ h ih =>
      obtain ⟨n, e⟩ := ih
      rw [MerkleBlock.concealOther] at h
      cases hc : b.concealExcept [p] with
      | error _ => rw [hc] at h; cases h
      | ok x =>
        obtain ⟨b1, r⟩ := x
        rw [hc, ok_bind] at h
        cases r with
        | error _ => cases h
        | ok k =>
          cases h
          exact conceal_disclosure hv e hc
    | @sent b b' ps _ h ih =>
      obtain ⟨n, e⟩ := ih
      have hcf : b.Confined := by
        obtain ⟨-, rfl, s1⟩ := disclosure_view hs e
        have h1 := frontier_length s1.2
        have h2 := Nat.pow_le_pow_right (n := 2) (by omega) (show full.depth.val - 0 ≤ 31 by omega)
        exact ⟨h1.1, Nat.lt_of_le_of_lt h1.2 (Nat.lt_of_le_of_lt h2 (by omega))⟩
      have hd := (C38_round_trip []).2.2.2.2.2.2.1 b hcf
      rw [List.append_nil] at hd
      rw [deserialize, hd] at h
      cases h
      exact ⟨n, e⟩
    | rebuilt _ hk hp hw ih =>
      obtain ⟨n, e⟩ := ih
      exact rebuilt_disclosure hT hf e hk hp hw
    | @merged b1 b2 b' ps qs r _ _ h ih1 ih2 =>
      obtain ⟨n, e1⟩ := ih1
      obtain ⟨m, e2⟩ := ih2
      obtain ⟨b3, k, l, e3, e4⟩ := C75_join full b1 b2 hv ps qs n m e1 e2
      rw [h] at e3
      cases e3
      exact ⟨l, e4⟩
    | @mergedPath b1 b2 b' p m pr ps qs r _ _ hk hp h ih1 ih2 =>
      obtain ⟨n, e1⟩ := ih1
      obtain ⟨m', e2⟩ := ih2
      obtain ⟨w, k, hw, -⟩ := C22_rebuilt_is_concealed T hT b2 (ofTree_disclosure hf e2) p m hk pr hp
      obtain ⟨n', e3⟩ := rebuilt_disclosure hT hf e2 hk hp hw
      obtain ⟨b3, k, l, e4, e5⟩ := C75_join full b1 w hv ps [p] n n' e1 e3
      rw [MerkleBlock.mergeRevealPath, hw, ok_bind] at h
      dsimp only at h
      rw [h] at e4
      cases e4
      exact ⟨l, e5⟩
  refine ⟨main, fun b1 b2 ps qs h1 h2 => ?_, fun b1 b2 ps qs p m h1 h2 hk => ?_⟩
  · obtain ⟨n, e1⟩ := main b1 ps h1
    obtain ⟨m, e2⟩ := main b2 qs h2
    obtain ⟨b, k, -, e, -⟩ := C75_join full b1 b2 hv ps qs n m e1 e2
    exact ⟨b, k, e⟩
  · obtain ⟨n, e1⟩ := main b1 ps h1
    obtain ⟨m', e2⟩ := main b2 qs h2
    have ho := ofTree_disclosure hf e2
    have ⟨_, _, _, t2, hs2, hv2⟩ := ho
    have hpl := ofTree_placed hT ‹_› ‹_› hs2 hv2
    obtain ⟨pr, -, hp, -⟩ := C16_placed b2 t2 hpl p m hk
    obtain ⟨w, k, hw, -⟩ := C22_rebuilt_is_concealed T hT b2 ho p m hk pr hp
    obtain ⟨n', e3⟩ := rebuilt_disclosure hT hf e2 hk hp hw
    obtain ⟨b, k, l, e4, -⟩ := C75_join full b1 w hv ps [p] n n' e1 e3
    refine ⟨pr, b, k, hp, ?_⟩
    rw [MerkleBlock.mergeRevealPath, hw, ok_bind]
    exact e4

/-- Non-vacuity of C75: two parties got one protocol of the sample each and merge what they have. -/
example [Env] : Sample.tree.Holds ∧ Sample.block.OfTree Sample.tree ∧
    ∃ b2 b n k, Sample.block.concealExcept [Sample.p5] = .ok (b2, .ok n) ∧
      Sample.block1.mergeReveal b2 = .ok (b, .ok k) ∧ Held Sample.block b [Sample.p1, Sample.p5] ∧
      b.knownMessages = [(Sample.p1, Sample.m1), (Sample.p5, Sample.m5)] ∧ b ≠ Sample.block := by
  have h1 := Sample.conceals.2.1
  rcases concealExcept_cases Sample.shows_tree [Sample.p5] with ⟨n, -, h2, -, -⟩ | ⟨q, hq, hk, -, -⟩
  · obtain ⟨b, k, l, h3, h4⟩ := C75_join _ _ _ Sample.valid _ _ _ _ h1 h2
    obtain ⟨g1, -, -, g2, -⟩ := C11_reveals_exactly _ _ Sample.valid _ _ h4
    refine ⟨Sample.holds, Sample.view_block, _, b, n, k, h2, h3, .merged (.disclosed h1) (.disclosed h2) h3, ?_, ?_⟩
    · rw [g1]
      show [(Sample.p6, Sample.m6), (Sample.p1, Sample.m1), (Sample.p5, Sample.m5)].filter _ = _
      decide
    · rintro rfl
      cases g2
  · rw [List.mem_singleton.1 hq] at hk
    exact absurd (show Sample.p5 ∈ [Sample.p6, Sample.p1, Sample.p5] by decide) hk

end CSV
