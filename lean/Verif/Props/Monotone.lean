import Verif.Props.Fit

/-!
# C91, C92: fewer protocols, and deeper trees
-/

namespace CSV

theorem ids_nodup (s : MultiSource) : s.ids.Nodup := by
  rw [MultiSource.ids, List.Nodup, List.pairwise_map]
  exact s.messages.sorted.imp fun h e => by rw [e] at h; exact Nat.lt_irrefl _ h

theorem separates_mem {ids : List ProtocolId} {d c : Nat} (h : Separates ids d c) {p q : ProtocolId}
    (hp : p ∈ ids) (hq : q ∈ ids) (hne : p ≠ q) : slotOf p c d ≠ slotOf q c d := by
  induction ids with
  | nil => cases hp
  | cons a ids ih =>
    rw [Separates, List.pairwise_cons] at h
    rcases List.mem_cons.1 hp with rfl | hp
    · rcases List.mem_cons.1 hq with rfl | hq
      · exact absurd rfl hne
      · exact h.1 q hq
    · rcases List.mem_cons.1 hq with rfl | hq
      · exact (h.1 p (by assumption)).symm
      · exact ih h.2 (by assumption) hq

private theorem separates_sub {ids ids' : List ProtocolId} {d c : Nat} (hn : ids'.Nodup)
    (hs : ∀ p ∈ ids', p ∈ ids) (h : Separates ids d c) : Separates ids' d c :=
  List.Pairwise.imp_of_mem (fun hp hq hne => separates_mem h (hs _ hp) (hs _ hq) hne) hn

private theorem length_sub {ids ids' : List ProtocolId} (hn : ids'.Nodup) (hs : ∀ p ∈ ids', p ∈ ids) :
    ids'.length ≤ ids.length := hn.length_le_of_subset hs

/-- A source with an attempt that separates its protocols is committed to, at that attempt or before. -/
theorem commits_at (rng : Option UInt64) (s : MultiSource) (he : (s.staticEntropy.or rng).isSome)
    (h0 : s.minDepth.val ≠ 0 ∨ s.messages.entries ≠ []) {d c : Nat}
    (ha : Attempt s.ids.length s.minDepth.val d c) (hs : Separates s.ids d c) :
    ∃ t, MerkleTree.tryCommit rng s = .ok (.ok t) ∧ ¬ Earlier d c t.depth.val t.cofactor.toNat := by
  have hlen : s.ids.length = s.messages.entries.length := by simp [MultiSource.ids]
  obtain ⟨r, hr⟩ := C03_no_panic rng s he
  rw [hr]
  rcases r with e | t
  · exfalso
    rcases e with _ | n | n
    · have := (C03_empty_iff rng s).1 hr
      rcases h0 with h0 | h0
      · exact h0 this.1
      · exact h0 this.2
    · exact C03_never_too_many rng s n hr
    · exact ((C03_cant_fit_iff rng s n he).1 hr).2 d c (by rw [← hlen]; exact ha) hs
  · exact ⟨t, rfl, fun h => (C02_first_fit rng s t hr).2.2 d c ha h hs⟩

/-! ## C91 -/

/-- **C91** With some of the protocols of a source that was committed to, whatever the messages, the
method and the entropy, `try_commit` succeeds too, and does so at the depth and cofactor of the larger set
or at an earlier attempt. In particular the tree is not deeper. -/
theorem C91_fewer (rng rng' : Option UInt64) (s s' : MultiSource) (t : MerkleTree)
    (h : MerkleTree.tryCommit rng s = .ok (.ok t)) (hm : s'.minDepth = s.minDepth)
    (hs : ∀ p m, s'.messages.get p = some m → ∃ m', s.messages.get p = some m')
    (he : (s'.staticEntropy.or rng').isSome) (h0 : s'.minDepth.val ≠ 0 ∨ s'.messages.entries ≠ []) :
    ∃ t', MerkleTree.tryCommit rng' s' = .ok (.ok t') ∧
      (t'.depth.val < t.depth.val ∨ t'.depth = t.depth ∧ t'.cofactor.toNat ≤ t.cofactor.toNat) := by
  obtain ⟨⟨a1, a2, a3, a4⟩, hsep, -⟩ := C02_first_fit rng s t h
  have hsub : ∀ p ∈ s'.ids, p ∈ s.ids := by
    intro p hp
    obtain ⟨⟨q, m⟩, hq, rfl⟩ := List.mem_map.1 hp
    obtain ⟨m', hm'⟩ := hs q m (mem_bmapGet s'.messages.sorted hq)
    exact List.mem_map.2 ⟨_, bmapGet_mem hm', rfl⟩
  have hlen := length_sub (ids_nodup s') hsub
  obtain ⟨t', ht', hn⟩ := commits_at rng' s' he h0 (d := t.depth.val) (c := t.cofactor.toNat)
    ⟨by rw [hm]; exact a1, a2, by omega, by rw [hm]; exact a4⟩ (separates_sub (ids_nodup s') hsub hsep)
  refine ⟨t', ht', ?_⟩
  simp only [Earlier] at hn
  rw [← Fin.val_inj]
  omega

/-- **C91** The shape of a tree depends on the protocols and the minimal depth alone: other messages for
the same protocols, another method or entropy give the same depth, cofactor and slots. -/
theorem C91_contents (rng rng' : Option UInt64) (s s' : MultiSource) (t t' : MerkleTree)
    (h : MerkleTree.tryCommit rng s = .ok (.ok t)) (h' : MerkleTree.tryCommit rng' s' = .ok (.ok t'))
    (hm : s'.minDepth = s.minDepth)
    (hs : ∀ p, (s'.messages.get p).isSome ↔ (s.messages.get p).isSome) :
    t'.depth = t.depth ∧ t'.cofactor = t.cofactor ∧
    (∀ p, t'.protocolIdPos p = t.protocolIdPos p) ∧
    ∀ k, (t'.map.get k).map Prod.fst = (t.map.get k).map Prod.fst := by
  obtain ⟨a, b, f⟩ := C02_first_fit rng s t h
  obtain ⟨a', b', f'⟩ := C02_first_fit rng' s' t' h'
  have sub : ∀ (s s' : MultiSource), (∀ p, (s'.messages.get p).isSome → (s.messages.get p).isSome) →
      ∀ p ∈ s'.ids, p ∈ s.ids := by
    intro s s' hs p hp
    obtain ⟨⟨q, m⟩, hq, rfl⟩ := List.mem_map.1 hp
    obtain ⟨m', hm'⟩ := Option.isSome_iff_exists.1 (hs q (by
      have := mem_bmapGet s'.messages.sorted hq
      rw [OrdMap.get, this]; rfl))
    exact List.mem_map.2 ⟨_, bmapGet_mem hm', rfl⟩
  have s1 := sub s s' fun p => (hs p).1
  have s2 := sub s' s fun p => (hs p).2
  have hlen : s'.ids.length = s.ids.length :=
    Nat.le_antisymm (length_sub (ids_nodup s') s1) (length_sub (ids_nodup s) s2)
  rw [hlen, hm] at a' f'
  have n1 : ¬ Earlier t'.depth.val t'.cofactor.toNat t.depth.val t.cofactor.toNat := fun hl =>
    f _ _ a' hl (separates_sub (ids_nodup s) s2 b')
  have n2 : ¬ Earlier t.depth.val t.cofactor.toNat t'.depth.val t'.cofactor.toNat := fun hl =>
    f' _ _ a hl (separates_sub (ids_nodup s') s1 b)
  simp only [Earlier] at n1 n2
  have hd : t'.depth = t.depth := Fin.ext (by omega)
  have hc : t'.cofactor = t.cofactor := UInt16.toNat_inj.1 (by omega)
  refine ⟨hd, hc, fun p => by simp only [MerkleTree.protocolIdPos, hd, hc], fun k => ?_⟩
  obtain ⟨-, -, -, put, got, -⟩ := C01_slots rng s t h
  obtain ⟨-, -, -, put', got', -⟩ := C01_slots rng' s' t' h'
  have hp : ∀ p, t'.protocolIdPos p = t.protocolIdPos p := fun p => by
    simp only [MerkleTree.protocolIdPos, hd, hc]
  cases g : t.map.get k with
  | some e =>
    obtain ⟨g1, g2⟩ := got k e.1 e.2 g
    obtain ⟨m', hm'⟩ := Option.isSome_iff_exists.1 ((hs e.1).2 (by rw [g1]; rfl))
    have := put' e.1 m' hm'
    rw [hp, ← g2] at this
    rw [this]; rfl
  | none =>
    cases g' : t'.map.get k with
    | none => rfl
    | some e =>
      obtain ⟨g1, g2⟩ := got' k e.1 e.2 g'
      obtain ⟨m', hm'⟩ := Option.isSome_iff_exists.1 ((hs e.1).1 (by rw [g1]; rfl))
      have := put e.1 m' hm'
      rw [← hp, ← g2, g] at this
      cases this

/-- Non-vacuity of C91: without its first protocol the sample fits into the first attempt, with it it does
not. -/
example : ∃ s' : MultiSource, s'.minDepth = Sample.source.minDepth ∧
    (∀ p m, s'.messages.get p = some m → ∃ m', Sample.source.messages.get p = some m') ∧
    s'.messages.entries.length < Sample.source.messages.entries.length ∧
    Separates s'.ids 2 0 ∧ ¬ Separates Sample.source.ids 2 0 := by
  refine ⟨{ Sample.source with messages := ⟨Sample.source.messages.entries.drop 1, by decide, by decide⟩ },
    rfl, ?_, by decide, by decide, by decide⟩
  intro p m h
  refine ⟨m, mem_bmapGet Sample.source.messages.sorted (List.mem_of_mem_drop (bmapGet_mem h))⟩

/-! ## C92 -/

/-- The same source with another minimal depth. -/
def MultiSource.withDepth (s : MultiSource) (m : U5) : MultiSource := { s with minDepth := m }

/-- **C92** Lowering the minimal depth keeps a success and never gives a deeper tree, nor a later cofactor
at the same depth. -/
theorem C92_partial (rng : Option UInt64) (s : MultiSource) (m : U5) (t : MerkleTree)
    (h : MerkleTree.tryCommit rng s = .ok (.ok t)) (hm : m ≤ s.minDepth)
    (h0 : m.val ≠ 0 ∨ s.messages.entries ≠ []) :
    ∃ t', MerkleTree.tryCommit rng (s.withDepth m) = .ok (.ok t') ∧
      (t'.depth.val < t.depth.val ∨ t'.depth = t.depth ∧ t'.cofactor.toNat ≤ t.cofactor.toNat) := by
  obtain ⟨⟨a1, a2, a3, a4⟩, hsep, -⟩ := C02_first_fit rng s t h
  have hm' : m.val ≤ s.minDepth.val := hm
  obtain ⟨t', ht', hn⟩ := commits_at rng (s.withDepth m)
    (by obtain ⟨-, -, e, -⟩ := C01_slots rng s t h
        show (s.staticEntropy.or rng).isSome
        rw [e]; rfl)
    h0 (d := t.depth.val) (c := t.cofactor.toNat)
    ⟨Nat.le_trans hm' a1, a2, a3, by
      show t.cofactor.toNat ≤ maxCofactor m.val t.depth.val
      unfold maxCofactor at a4 ⊢
      have := Nat.one_le_two_pow (n := t.depth.val - 1)
      split at a4 <;> split <;> omega⟩ hsep
  refine ⟨t', ht', ?_⟩
  simp only [Earlier] at hn
  rw [← Fin.val_inj]
  omega

/-- **C92** Raising the minimal depth up to the depth of the tree does not change the tree, unless the tree
has just that depth and its cofactor exceeds 1. -/
theorem C92_unchanged (rng : Option UInt64) (s : MultiSource) (m : U5) (t : MerkleTree)
    (h : MerkleTree.tryCommit rng s = .ok (.ok t)) (hm : s.minDepth ≤ m)
    (hd : m < t.depth ∨ m = t.depth ∧ t.cofactor.toNat ≤ 1) :
    MerkleTree.tryCommit rng (s.withDepth m) = .ok (.ok t) := by
  obtain ⟨⟨a1, a2, a3, a4⟩, hsep, first⟩ := C02_first_fit rng s t h
  have hm' : s.minDepth.val ≤ m.val := hm
  have hd' : m.val < t.depth.val ∨ m.val = t.depth.val ∧ t.cofactor.toNat ≤ 1 :=
    hd.imp id fun x => ⟨by rw [x.1], x.2⟩
  obtain ⟨e1, e2, e3, put, got, -⟩ := C01_slots rng s t h
  have ha : Attempt (s.withDepth m).ids.length (s.withDepth m).minDepth.val t.depth.val t.cofactor.toNat := by
    refine ⟨by show m.val ≤ _; omega, a2, a3, ?_⟩
    show t.cofactor.toNat ≤ maxCofactor m.val t.depth.val
    unfold maxCofactor at a4 ⊢
    split at a4 <;> split <;> omega
  obtain ⟨t', ht', hn⟩ := commits_at rng (s.withDepth m)
    (by show (s.staticEntropy.or rng).isSome
        rw [e3]; rfl)
    (by
      by_cases hz : m.val = 0
      · refine .inr fun hE => ?_
        have := (C03_empty_iff rng s).2 ⟨by omega, hE⟩
        rw [h] at this; cases this
      · exact .inl hz)
    ha hsep
  rw [ht']
  obtain ⟨e1', e2', e3', put', got', -⟩ := C01_slots rng _ t' ht'
  obtain ⟨⟨b1, b2, b3, b4⟩, bsep, -⟩ := C02_first_fit rng _ t' ht'
  have b1' : m.val ≤ t'.depth.val := b1
  have n1 : ¬ Earlier t'.depth.val t'.cofactor.toNat t.depth.val t.cofactor.toNat := fun hl => by
    refine first _ _ ⟨by omega, b2, b3, ?_⟩ hl bsep
    have b4' : t'.cofactor.toNat ≤ maxCofactor m.val t'.depth.val := b4
    unfold maxCofactor at b4' ⊢
    have := Nat.one_le_two_pow (n := t'.depth.val - 1)
    split at b4' <;> split <;> omega
  simp only [Earlier] at n1 hn
  have hdd : t'.depth = t.depth := Fin.ext (by omega)
  have hcc : t'.cofactor = t.cofactor := UInt16.toNat_inj.1 (by omega)
  have hp : ∀ p, t'.protocolIdPos p = t.protocolIdPos p := fun p => by
    simp only [MerkleTree.protocolIdPos, hdd, hcc]
  have hmap : t'.map = t.map := by
    refine OrdMap.ext' (BMapOk.ext t'.map.sorted t.map.sorted fun k => ?_)
    show t'.map.get k = t.map.get k
    refine Option.ext fun e => ⟨fun g => ?_, fun g => ?_⟩
    · obtain ⟨g1, g2⟩ := got' k e.1 e.2 g
      rw [g2, hp]; exact put e.1 e.2 g1
    · obtain ⟨g1, g2⟩ := got k e.1 e.2 g
      rw [g2, ← hp]; exact put' e.1 e.2 g1
  have e3'' : s.staticEntropy.or rng = some t'.entropy := e3'
  rw [e3] at e3''
  obtain ⟨⟩ := t
  obtain ⟨⟩ := t'
  simp_all [MultiSource.withDepth]

/-- **C92** That exception is a real one: raising the minimal depth to some value up to the depth of the
tree leaves the tree as it is exactly when the value is smaller than that depth, or the cofactor is 0 or
1. -/
theorem C92_unchanged_iff (rng : Option UInt64) (s : MultiSource) (m : U5) (t : MerkleTree)
    (h : MerkleTree.tryCommit rng s = .ok (.ok t)) (hm : s.minDepth ≤ m) (hd : m ≤ t.depth) :
    MerkleTree.tryCommit rng (s.withDepth m) = .ok (.ok t) ↔ m < t.depth ∨ t.cofactor.toNat ≤ 1 := by
  have hd' : m.val ≤ t.depth.val := hd
  refine ⟨fun h' => ?_, fun hc => C92_unchanged rng s m t h hm ?_⟩
  · by_cases hlt : m.val < t.depth.val
    · exact .inl hlt
    · obtain ⟨⟨-, -, -, b4⟩, -⟩ := C02_first_fit rng _ t h'
      have b4' : t.cofactor.toNat ≤ maxCofactor m.val t.depth.val := b4
      unfold maxCofactor at b4'
      rw [if_pos (by omega)] at b4'
      exact .inr b4'
  · rcases hc with hc | hc
    · exact .inl hc
    · by_cases hlt : m.val < t.depth.val
      · exact .inl hlt
      · exact .inr ⟨Fin.ext (by omega), hc⟩

/-- **C92** Raising the minimal depth may turn a success into a failure: at the minimal depth itself only
the cofactors 0 and 1 are tried. -/
theorem C92_false : ¬ ∀ (rng : Option UInt64) (s : MultiSource) (m : U5) (t : MerkleTree),
    MerkleTree.tryCommit rng s = .ok (.ok t) → s.minDepth ≤ m →
    ∃ t', MerkleTree.tryCommit rng (s.withDepth m) = .ok (.ok t') := by
  intro h
  let s := (Sample.stuck .sha256t (some 7)).withDepth 3
  obtain ⟨t, ht⟩ := C04_small_sets_fit none s rfl (.inr (by decide)) (by decide)
  obtain ⟨t', ht'⟩ := h none s 31 t ht (by decide)
  have := (C05_two_at_maximal_depth .sha256t 7 none).2
  have e : s.withDepth 31 = Sample.stuck .sha256t (some 7) := rfl
  rw [e, this] at ht'
  cases ht'

/-- Non-vacuity of C92: a tree of which the depth exceeds the minimal depth and the cofactor is 1. -/
example : MerkleTree.tryCommit none (Sample.source.withDepth 1) = .ok (.ok Sample.tree) ∧
    (Sample.source.withDepth 1).minDepth < Sample.tree.depth ∧ Sample.tree.cofactor.toNat ≤ 1 :=
  ⟨rfl, by decide, by decide⟩

/-- Non-vacuity of C92: a tree of depth 3 with cofactor 3, as the protocols collide modulo 1, 2, 3, 4, 6, 7
and 8; with minimal depth 3 there is another tree, of depth 4. -/
private def apart : MultiSource :=
  ⟨.sha256t, 1, ⟨[(Bytes32.ofNat 0, Bytes32.fill 1), (Bytes32.ofNat 168, Bytes32.fill 2)], by decide +kernel,
    by decide⟩, some 7⟩

example : (match MerkleTree.tryCommit none apart, MerkleTree.tryCommit none (apart.withDepth 3) with
    | .ok (.ok t), .ok (.ok t') => t.depth == 3 && t.cofactor == 3 && t'.depth == 4 && t'.cofactor == 0
    | _, _ => false) = true := by decide +kernel

end CSV
