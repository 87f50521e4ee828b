import Verif.Props.Update
import Verif.Props.TreeBinding

/-!
# C101: protocols that join or leave a commitment
-/

namespace CSV

/-- The trees of two sources that differ at most in one protocol, if they have one shape. -/
private theorem changed [Env] (rng : Option UInt64) (s : MultiSource) (T T' : MerkleTree)
    (h : MerkleTree.tryCommit rng s = .ok (.ok T)) (ms : MessageMap)
    (h' : MerkleTree.tryCommit rng { s with messages := ms } = .ok (.ok T')) (hd : T'.depth = T.depth)
    (hc : T'.cofactor = T.cofactor) (p : ProtocolId) (ho : ∀ q, q ≠ p → ms.get q = s.messages.get q) :
    T'.method = T.method ∧ T'.entropy = T.entropy ∧ (∀ q, T'.protocolIdPos q = T.protocolIdPos q) ∧
      ∀ i, i < 2 ^ T.depth.val → i ≠ (T.protocolIdPos p).toNat → T.slot i = T'.slot i := by
  obtain ⟨sm, -, se, a1, b1, -⟩ := C01_slots rng s T h
  obtain ⟨sm', -, se', a2, b2, -⟩ := C01_slots rng _ T' h'
  have hpos : ∀ q, T'.protocolIdPos q = T.protocolIdPos q := fun q => by
    simp only [MerkleTree.protocolIdPos, hd, hc]
  have he : T'.entropy = T.entropy := by
    have : some T.entropy = some T'.entropy := se.symm.trans se'
    exact (Option.some.inj this).symm
  refine ⟨sm'.trans sm.symm, he, hpos, ?_⟩
  intro i hi hne
  have h31 : (2:Nat) ^ T.depth.val ≤ 2 ^ 31 :=
    Nat.pow_le_pow_right (by decide) (by have := T.depth.isLt; omega)
  have hu : (UInt32.ofNat i).toNat = i := UInt32.toNat_ofNat_of_lt' (by show i < 4294967296; omega)
  have hmap : T.map.get (UInt32.ofNat i) = T'.map.get (UInt32.ofNat i) := by
    cases hx : T.map.get (UInt32.ofNat i) with
    | some e =>
      obtain ⟨q, k⟩ := e
      obtain ⟨c1, c2⟩ := b1 _ q k hx
      have hq : q ≠ p := fun e => hne (by rw [← hu, c2, e])
      have := a2 q k ((ho q hq).trans c1)
      rw [hpos q, ← c2] at this
      exact this.symm
    | none =>
      cases hy : T'.map.get (UInt32.ofNat i) with
      | none => rfl
      | some e =>
        obtain ⟨q, k⟩ := e
        obtain ⟨c1, c2⟩ := b2 _ q k hy
        rw [hpos q] at c2
        have hq : q ≠ p := fun e => hne (by rw [← hu, c2, e])
        have := a1 q k ((ho q hq).symm.trans c1)
        rw [← c2, hx] at this
        cases this
  rw [MerkleTree.slot, MerkleTree.slot, hmap, he]

private theorem separated_length {ids : List ProtocolId} {d c : Nat} (h : Separates ids d c) : ids.length ≤ 2 ^ d := by
  have hn : (ids.map fun p => slotOf p c d).Nodup := by rw [List.Nodup, List.pairwise_map]; exact h
  have := hn.length_le_of_subset (l₂ := List.range (2 ^ d)) fun x hx => by
    obtain ⟨p, -, rfl⟩ := List.mem_map.1 hx
    rw [List.mem_range, slotOf]
    have := Nat.two_pow_pos d
    exact Nat.lt_of_lt_of_le (Nat.mod_lt _ (by omega)) (by omega)
  simpa using this

/-- **C101** A protocol can join a committed source without changing the shape of the tree exactly if its slot is
free. -/
theorem C101_room [Env] (rng : Option UInt64) (s : MultiSource) (T : MerkleTree)
    (h : MerkleTree.tryCommit rng s = .ok (.ok T)) (ms : MessageMap) (p : ProtocolId) (m : Message)
    (hp : s.messages.get p = none) (hp' : ms.get p = some m)
    (ho : ∀ q, q ≠ p → ms.get q = s.messages.get q) :
    (∃ T', MerkleTree.tryCommit rng { s with messages := ms } = .ok (.ok T') ∧ T'.depth = T.depth ∧
      T'.cofactor = T.cofactor) ↔ T.map.get (T.protocolIdPos p) = none := by
  obtain ⟨-, -, se, a1, b1, inj⟩ := C01_slots rng s T h
  constructor
  · rintro ⟨T', h', hd, hc⟩
    cases hx : T.map.get (T.protocolIdPos p) with
    | none => rfl
    | some e =>
      obtain ⟨q, k⟩ := e
      obtain ⟨c1, c2⟩ := b1 _ q k hx
      have hq : q ≠ p := fun e => by rw [e, hp] at c1; cases c1
      have := (C01_slots rng _ T' h').2.2.2.2.2 p m q k hp' ((ho q hq).trans c1)
        (by simp only [MerkleTree.protocolIdPos, hd, hc]; exact c2)
      exact absurd this.symm hq
  · intro hx
    have hslot : ∀ q, slotOf q T.cofactor.toNat T.depth.val = (T.protocolIdPos q).toNat := fun q =>
      (C06_position q T.cofactor T.depth).1.symm
    obtain ⟨⟨a, b, -, d⟩, hsep, -⟩ := C02_first_fit rng s T h
    have hids : ∀ q ∈ MultiSource.ids { s with messages := ms }, ∃ k, ms.get q = some k := fun q hq => by
      obtain ⟨⟨q', k⟩, hq', rfl⟩ := List.mem_map.1 hq
      exact ⟨k, mem_bmapGet ms.sorted hq'⟩
    have free : ∀ q k, q ≠ p → ms.get q = some k → T.protocolIdPos q ≠ T.protocolIdPos p := fun q k hq hk e => by
      have := a1 q k ((ho q hq).symm.trans hk)
      rw [e, hx] at this
      cases this
    have hsep' : Separates (MultiSource.ids { s with messages := ms }) T.depth.val T.cofactor.toNat := by
      refine List.Pairwise.imp_of_mem ?_ (ids_nodup { s with messages := ms })
      intro q r hq hr hne e
      obtain ⟨k, hk⟩ := hids q hq
      obtain ⟨l, hl⟩ := hids r hr
      rw [hslot, hslot] at e
      have e := UInt32.toNat_inj.1 e
      by_cases h1 : q = p
      · subst h1
        exact free r l (Ne.symm hne) hl e.symm
      · by_cases h2 : r = p
        · subst h2
          exact free q k h1 hk e
        · exact hne (inj q k r l ((ho q h1).symm.trans hk) ((ho r h2).symm.trans hl) e)
    obtain ⟨T', h', hearly⟩ := commits_at rng { s with messages := ms } (by rw [se]; rfl)
      (Or.inr fun e => by
        have : ms.get p = none := by rw [OrdMap.get, show ms.entries = [] from e]; rfl
        rw [this] at hp'; cases hp') ⟨a, b, separated_length hsep', d⟩ hsep'
    have h0 : s.minDepth.val ≠ 0 ∨ s.messages.entries ≠ [] := by
      by_cases e1 : s.minDepth.val = 0
      · refine Or.inr fun e2 => ?_
        rw [(C03_empty_iff rng s).2 ⟨e1, e2⟩] at h
        cases h
      · exact Or.inl e1
    obtain ⟨T2, h2, hle⟩ := C91_fewer rng rng { s with messages := ms } s T' h' rfl
      (fun q k hq => by
        by_cases e : q = p
        · rw [e, hp] at hq; cases hq
        · exact ⟨k, (ho q e).trans hq⟩) (by rw [se]; rfl) h0
    rw [h] at h2
    cases h2
    refine ⟨T', h', ?_, ?_⟩
    · apply Fin.ext
      simp only [Earlier] at hearly
      rcases hle with hle | hle
      · omega
      · rw [hle.1]
    · apply UInt16.toNat_inj.1
      simp only [Earlier] at hearly
      rcases hle with hle | hle
      · omega
      · rw [hle.1] at hearly
        omega

/-- **C101** If the slot of a protocol that joins is taken, the tree changes its shape to a later attempt, and no proof
from before can be used any more (unless two different strings hashed have one hash). -/
theorem C101_moved [Env] (rng : Option UInt64) (s : MultiSource) (T T' : MerkleTree)
    (h : MerkleTree.tryCommit rng s = .ok (.ok T)) (ms : MessageMap)
    (h' : MerkleTree.tryCommit rng { s with messages := ms } = .ok (.ok T')) (p : ProtocolId) (m : Message)
    (hp : s.messages.get p = none) (hp' : ms.get p = some m) (ho : ∀ q, q ≠ p → ms.get q = s.messages.get q)
    (ht : T.map.get (T.protocolIdPos p) ≠ none) :
    Earlier T.depth.val T.cofactor.toNat T'.depth.val T'.cofactor.toNat ∧
    ∀ q k b own c', s.messages.get q = some k → MerkleBlock.fromTree T = .ok b → b.toMerkleProof q = .ok (.ok own) →
      own.convolve q k = T.commitId.map .ok ∧ (T'.commitId = .ok c' → NoCollision (proofInputs own q k ++ T'.inputs) →
        own.convolve q k ≠ .ok (.ok c')) := by
  obtain ⟨-, -, se, -, -, -⟩ := C01_slots rng s T h
  have hshape : ¬ (T'.depth = T.depth ∧ T'.cofactor = T.cofactor) := fun e =>
    ht ((C101_room rng s T h ms p m hp hp' ho).1 ⟨T', h', e.1, e.2⟩)
  have h0 : s.minDepth.val ≠ 0 ∨ s.messages.entries ≠ [] := by
    by_cases e1 : s.minDepth.val = 0
    · refine Or.inr fun e2 => ?_
      rw [(C03_empty_iff rng s).2 ⟨e1, e2⟩] at h
      cases h
    · exact Or.inl e1
  obtain ⟨T2, h2, hle⟩ := C91_fewer rng rng { s with messages := ms } s T' h' rfl
    (fun q k hq => by
      by_cases e : q = p
      · rw [e, hp] at hq; cases hq
      · exact ⟨k, (ho q e).trans hq⟩) (by rw [se]; rfl) h0
  rw [h] at h2
  cases h2
  refine ⟨?_, ?_⟩
  · rcases hle with hle | ⟨e1, e2⟩
    · exact Or.inl hle
    · refine Or.inr ⟨by rw [e1], ?_⟩
      rcases Nat.lt_or_eq_of_le e2 with e2 | e2
      · exact e2
      · exact absurd ⟨e1.symm, (UInt16.toNat_inj.1 e2).symm⟩ hshape
  · intro q k b own c' hq hb hown
    obtain ⟨hT, hm, -⟩ := C16_committed_trees rng s T h
    obtain ⟨hT', hm', -⟩ := C16_committed_trees rng _ T' h'
    obtain ⟨b0, g1, g2, g3⟩ := full_block h
    obtain ⟨b0', g1', g2', g3'⟩ := full_block h'
    cases Except.ok.inj (g1.symm.trans hb)
    obtain ⟨own', n, c, k1, -, j2, f3, f4, -⟩ := C16_complete T hT b g2 q (g3 q k hq)
    cases Except.ok.inj (Except.ok.inj (j2.symm.trans hown))
    rw [hm, hq] at k1
    cases k1
    have hown2 := Except.ok.inj (Except.ok.inj (hown.symm.trans (C57_proof_content T hT b g2 q (g3 q k hq))))
    have hlen : own.path.length = T.depth.val := by
      rw [hown2]
      exact siblings_length (slot_siblings T) _ _ _ _ _
    refine ⟨by rw [f3, f4]; rfl, fun hc' hn hv => ?_⟩
    have hl : own.path.length ≤ 32 := by rw [hlen]; have := T.depth.isLt; omega
    obtain ⟨u1, b1, u2, u3⟩ := C21_only_committed T' hT' own hl q k c' hn hc' hv
    cases Except.ok.inj (g1'.symm.trans u2)
    rw [hm'] at u1
    have hown3 := Except.ok.inj (Except.ok.inj (u3.symm.trans (C57_proof_content T' hT' b0' g2' q (g3' q k u1))))
    have hlen' : own.path.length = T'.depth.val := by
      rw [hown3]
      exact siblings_length (slot_siblings T') _ _ _ _ _
    refine hshape ⟨Fin.ext (hlen'.symm.trans hlen), ?_⟩
    have e1 := congrArg MerkleProof.cofactor hown2
    have e2 := congrArg MerkleProof.cofactor hown3
    exact e2.symm.trans e1

/-- **C101** When a protocol joins a committed source and the tree keeps its shape, the proof of every other protocol changes
in one hash, which can be computed from the proof of the newcomer and its message. -/
theorem C101_joined [Env] (rng : Option UInt64) (s : MultiSource) (T T' : MerkleTree)
    (h : MerkleTree.tryCommit rng s = .ok (.ok T)) (ms : MessageMap)
    (h' : MerkleTree.tryCommit rng { s with messages := ms } = .ok (.ok T')) (hd : T'.depth = T.depth)
    (hc : T'.cofactor = T.cofactor) (p q : ProtocolId) (m k : Message) (hp : s.messages.get p = none)
    (hp' : ms.get p = some m) (ho : ∀ r, r ≠ p → ms.get r = s.messages.get r) (hq : s.messages.get q = some k) :
    ∃ b b' own other new c c' i x, MerkleBlock.fromTree T = .ok b ∧ MerkleBlock.fromTree T' = .ok b' ∧
      b'.toMerkleProof p = .ok (.ok other) ∧ b.toMerkleProof q = .ok (.ok own) ∧
      b'.toMerkleProof q = .ok (.ok new) ∧ T.commitId = .ok c ∧ T'.commitId = .ok c' ∧
      other.convolve p m = .ok (.ok c') ∧ new.convolve q k = .ok (.ok c') ∧ i < T.depth.val ∧
      new = { own with path := own.path.set i x } ∧
      Reference.follow own.pos.toNat own.path other.pos.toNat other.path (Reference.inhabited p m) = some new.path ∧
      (NoCollision (T.inputs ++ T'.inputs) → own.path[i]? ≠ some x ∧ own.convolve q k = .ok (.ok c) ∧ c ≠ c') := by
  obtain ⟨e1, e4, e5, e7⟩ := changed rng s T T' h ms h' hd hc p ho
  obtain ⟨hT, hm, -⟩ := C16_committed_trees rng s T h
  obtain ⟨hT', hm', -⟩ := C16_committed_trees rng _ T' h'
  obtain ⟨b, g1, g2, g3⟩ := full_block h
  obtain ⟨b', g1', g2', g3'⟩ := full_block h'
  have hne : q ≠ p := fun e => by rw [e, hp] at hq; cases hq
  have hq' : ms.get q = some k := (ho q hne).trans hq
  have hop := C57_proof_content T' hT' b' g2' p (g3' p m hp')
  rw [e1, hc, e5 p, hd] at hop
  obtain ⟨own, new, i, x, f2, f2', i1, -, -, -, -, hset, hfollow⟩ := proofs_differ hT hT' e1 hd hc
    (fun e => hne ((C01_slots rng _ T' h').2.2.2.2.2 q k p m hq' hp' (by rw [e5, e5]; exact e.symm))) e7 g2 g2'
    (g3 q k hq) (g3' q k hq')
  obtain ⟨new', n', c', k1', -, j2', f3', f4', -⟩ := C16_complete T' hT' b' g2' q (g3' q k hq')
  obtain ⟨own', n, c, k1, -, j2, f3, f4, -⟩ := C16_complete T hT b g2 q (g3 q k hq)
  obtain ⟨other, n2, c2, k3, -, j3, j4, j5, -⟩ := C16_complete T' hT' b' g2' p (g3' p m hp')
  rw [f2] at j2
  cases j2
  rw [f2'] at j2'
  cases j2'
  rw [f3'] at j4
  cases j4
  rw [hm, hq] at k1
  rw [hm'] at k1' k3
  have k2 : some k = some n' := hq'.symm.trans k1'
  have k4 : some m = some n2 := hp'.symm.trans k3
  cases k1
  cases k2
  cases k4
  have hother := Except.ok.inj (Except.ok.inj (j3.symm.trans hop))
  refine ⟨b, b', own, other, new, c, c', i, x, g1, g1', j3, f2, f2', f3, f3', j5, f4', i1, hset, ?_, fun hn => ?_⟩
  · rw [hother]
    refine hfollow _ ?_
    have := (C01_slots rng _ T' h').2.2.2.1 p m hp'
    rw [e5 p] at this
    rw [MerkleTree.slot, UInt32.ofNat_toNat, this]
    exact ref_leaf (.inhabited p m)
  · have hcc : c ≠ c' := fun e => by
      subst e
      have := (C60_sources s { s with messages := ms } rng rng T T' h h' c f3 f3' hn).1
      rw [this] at hp
      have hp2 : ms.get p = none := hp
      rw [hp'] at hp2
      cases hp2
    refine ⟨fun hx => hcc ?_, f4, hcc⟩
    rw [hset, set_same hx, f4] at f4'
    cases f4'
    rfl

/-- **C101** When a protocol leaves and the tree keeps its shape, the proof of every other protocol changes in one hash, which
can be computed from the last proof of the protocol that left and the entropy. -/
theorem C101_left [Env] (rng : Option UInt64) (s : MultiSource) (T T' : MerkleTree)
    (h : MerkleTree.tryCommit rng s = .ok (.ok T)) (ms : MessageMap)
    (h' : MerkleTree.tryCommit rng { s with messages := ms } = .ok (.ok T')) (hd : T'.depth = T.depth)
    (hc : T'.cofactor = T.cofactor) (p q : ProtocolId) (m k : Message) (hp : s.messages.get p = some m)
    (hp' : ms.get p = none) (ho : ∀ r, r ≠ p → ms.get r = s.messages.get r) (hne : q ≠ p)
    (hq : s.messages.get q = some k) :
    ∃ b b' own other new c c' i x, MerkleBlock.fromTree T = .ok b ∧ MerkleBlock.fromTree T' = .ok b' ∧
      b.toMerkleProof p = .ok (.ok other) ∧ b.toMerkleProof q = .ok (.ok own) ∧
      b'.toMerkleProof q = .ok (.ok new) ∧ T.commitId = .ok c ∧ T'.commitId = .ok c' ∧
      new.convolve q k = .ok (.ok c') ∧ i < T.depth.val ∧ new = { own with path := own.path.set i x } ∧
      Reference.follow own.pos.toNat own.path other.pos.toNat other.path
        (Reference.unused T.entropy.toNat other.pos.toNat) = some new.path ∧
      (NoCollision (T.inputs ++ T'.inputs) → own.path[i]? ≠ some x ∧ own.convolve q k = .ok (.ok c) ∧ c ≠ c' ∧
        ∀ (pr : MerkleProof) (n : Message), pr.path.length ≤ 32 → NoCollision (proofInputs pr p n ++ T'.inputs) →
          pr.convolve p n ≠ .ok (.ok c')) := by
  obtain ⟨e1, e4, e5, e7⟩ := changed rng s T T' h ms h' hd hc p ho
  obtain ⟨hT, hm, -⟩ := C16_committed_trees rng s T h
  obtain ⟨hT', hm', -⟩ := C16_committed_trees rng _ T' h'
  obtain ⟨b, g1, g2, g3⟩ := full_block h
  obtain ⟨b', g1', g2', g3'⟩ := full_block h'
  have hq' : ms.get q = some k := (ho q hne).trans hq
  have hop := C57_proof_content T hT b g2 p (g3 p m hp)
  rw [MerkleTree.pt, siblings_own (slot_siblings T) (slot_siblings T') _ _ 0 0 _ (tree_pos_lt T p)
    (fun i _ h4 h5 => e7 i (by simpa using h4) (by simpa using h5))] at hop
  obtain ⟨own, new, i, x, f2, f2', i1, -, -, -, -, hset, hfollow⟩ := proofs_differ hT hT' e1 hd hc
    (fun e => hne ((C01_slots rng s T h).2.2.2.2.2 q k p m hq hp e.symm)) e7 g2 g2' (g3 q k hq) (g3' q k hq')
  obtain ⟨new', n', c', k1', -, j2', f3', f4', -⟩ := C16_complete T' hT' b' g2' q (g3' q k hq')
  obtain ⟨own', n, c, k1, -, j2, f3, f4, -⟩ := C16_complete T hT b g2 q (g3 q k hq)
  rw [f2] at j2
  cases j2
  rw [f2'] at j2'
  cases j2'
  rw [hm, hq] at k1
  rw [hm'] at k1'
  have k2 : some k = some n' := hq'.symm.trans k1'
  cases k1
  cases k2
  have hpt : T'.pt = PT.full T'.slot T.depth.val 0 := by rw [MerkleTree.pt, hd]
  rw [← hpt] at hop
  refine ⟨b, b', own, _, new, c, c', i, x, g1, g1', hop, f2, f2', f3, f3', f4', i1, hset, ?_, fun hn => ?_⟩
  · refine hfollow _ ?_
    have : T'.map.get (T.protocolIdPos p) = none := by
      cases hx : T'.map.get (T.protocolIdPos p) with
      | none => rfl
      | some e =>
        obtain ⟨r, l⟩ := e
        obtain ⟨c1, c2⟩ := (C01_slots rng _ T' h').2.2.2.2.1 _ r l hx
        have hr : r ≠ p := fun e => by
          have c1 : ms.get r = some l := c1
          rw [e, hp'] at c1; cases c1
        rw [e5] at c2
        exact absurd ((C01_slots rng s T h).2.2.2.2.2 r l p m ((ho r hr).symm.trans c1) hp c2.symm) hr
    rw [MerkleTree.slot, UInt32.ofNat_toNat, this, e4]
    exact ref_leaf (.entropy T.entropy (T.protocolIdPos p))
  · have hcc : c ≠ c' := fun e => by
      subst e
      have := (C60_sources s { s with messages := ms } rng rng T T' h h' c f3 f3' hn).1
      rw [this] at hp
      have hp2 : ms.get p = some m := hp
      rw [hp'] at hp2
      cases hp2
    refine ⟨fun hx => hcc ?_, f4, hcc, fun pr n hl hn2 hv => ?_⟩
    · rw [hset, set_same hx, f4] at f4'
      cases f4'
      rfl
    · have := (C21_only_committed T' hT' pr hl p n c' hn2 f3' hv).1
      rw [hm'] at this
      have h2 : ms.get p = some n := this
      rw [hp'] at h2
      cases h2

/-- **C101** So a proof can be kept up to date through any number of changes to other protocols that keep the shape of the
tree - messages replaced, protocols joining and leaving - given the proofs of these and the new leaves; it always is
the proof that the last tree would give, and verifies to its commitment. -/
theorem C101_histories [Env] (rng : Option UInt64) (q : ProtocolId) (k : Message) (s s' : MultiSource)
    (cs : List (MerkleProof × Val)) (hu : Changes rng q s cs s') (T : MerkleTree)
    (h : MerkleTree.tryCommit rng s = .ok (.ok T)) (hq : s.messages.get q = some k) (b : MerkleBlock)
    (hb : MerkleBlock.fromTree T = .ok b) (own : MerkleProof) (hown : b.toMerkleProof q = .ok (.ok own)) :
    ∃ T' b' path c, MerkleTree.tryCommit rng s' = .ok (.ok T') ∧ MerkleBlock.fromTree T' = .ok b' ∧
      cs.foldlM (fun path x => Reference.follow own.pos.toNat path x.1.pos.toNat x.1.path x.2) own.path = some path ∧
      b'.toMerkleProof q = .ok (.ok { own with path := path }) ∧ T'.commitId = .ok c ∧
      MerkleProof.convolve { own with path := path } q k = .ok (.ok c) := by
  induction hu generalizing T b own with
  | none s =>
    obtain ⟨hT, hm, -⟩ := C16_committed_trees rng s T h
    obtain ⟨b0, g1, g2, g3⟩ := full_block h
    rw [hb] at g1
    cases g1
    obtain ⟨pr, n, c, k1, -, f2, f3, f4, -⟩ := C16_complete T hT b g2 q (g3 q k hq)
    rw [hown] at f2
    cases f2
    rw [hm, hq] at k1
    cases k1
    exact ⟨T, b, _, c, h, hb, rfl, hown, f3, f4⟩
  | replace s s' T0 b0 p m m' pr ms cs hne h0 hb0 hpr hm hm' hr rest ih =>
    cases Except.ok.inj (Except.ok.inj (h0.symm.trans h))
    cases Except.ok.inj (hb0.symm.trans hb)
    obtain ⟨T', b1, b1', own', other, new, c, c', i, x, a1, a2, a3, a4, a5, a6, a7, a8, a9, -, -, -, a10, a11, -⟩ :=
      C100_other_proofs rng s T0 h0 ms p q m m' k hm hm' hr (Ne.symm hne) hq
    cases Except.ok.inj (a2.symm.trans hb0)
    cases Except.ok.inj (Except.ok.inj (a4.symm.trans hpr))
    cases Except.ok.inj (Except.ok.inj (a5.symm.trans hown))
    obtain ⟨T2, b2, path, c2, w1, w2, w3, w4, w5, w6⟩ := ih T' a1 ((hr q (Ne.symm hne)).trans hq) b1' a3 new a6
    subst a10
    refine ⟨T2, b2, path, c2, w1, w2, ?_, w4, w5, w6⟩
    rw [List.foldlM_cons, a11]
    exact w3
  | join s s' T0 T' b' p m' pr ms cs hne h0 h' hd hc hb' hpr hm hm' hr rest ih =>
    cases Except.ok.inj (Except.ok.inj (h0.symm.trans h))
    obtain ⟨b1, b1', own', other, new, c, c', i, x, a2, a3, a4, a5, a6, -, -, -, -, -, a10, a11, -⟩ :=
      C101_joined rng s T0 T' h0 ms h' hd hc p q m' k hm hm' hr hq
    cases Except.ok.inj (a2.symm.trans hb)
    cases Except.ok.inj (a3.symm.trans hb')
    cases Except.ok.inj (Except.ok.inj (a4.symm.trans hpr))
    cases Except.ok.inj (Except.ok.inj (a5.symm.trans hown))
    obtain ⟨T2, b2, path, c2, w1, w2, w3, w4, w5, w6⟩ := ih T' h' ((hr q (Ne.symm hne)).trans hq) b' hb' new a6
    subst a10
    refine ⟨T2, b2, path, c2, w1, w2, ?_, w4, w5, w6⟩
    rw [List.foldlM_cons, a11]
    exact w3
  | leave s s' T0 T' b0 p m pr ms cs hne h0 h' hd hc hb0 hpr hm hm' hr rest ih =>
    cases Except.ok.inj (Except.ok.inj (h0.symm.trans h))
    cases Except.ok.inj (hb0.symm.trans hb)
    obtain ⟨b1, b1', own', other, new, c, c', i, x, a2, a3, a4, a5, a6, -, -, -, -, a10, a11, -⟩ :=
      C101_left rng s T0 T' h0 ms h' hd hc p q m k hm hm' hr (Ne.symm hne) hq
    cases Except.ok.inj (a2.symm.trans hb0)
    cases Except.ok.inj (Except.ok.inj (a4.symm.trans hpr))
    cases Except.ok.inj (Except.ok.inj (a5.symm.trans hown))
    obtain ⟨T2, b2, path, c2, w1, w2, w3, w4, w5, w6⟩ := ih T' h' ((hr q (Ne.symm hne)).trans hq) b1' a3 new a6
    subst a10
    refine ⟨T2, b2, path, c2, w1, w2, ?_, w4, w5, w6⟩
    rw [List.foldlM_cons, a11]
    exact w3

/-- The messages of the sample without that of protocol 6. -/
private def without : MessageMap := ⟨[(Sample.p1, Sample.m1), (Sample.p5, Sample.m5)], by decide, by decide⟩

private theorem without_others (r : ProtocolId) (hr : r ≠ Sample.p6) : without.get r = Sample.messages.get r := by
  have : ¬ OrdKey.key r = OrdKey.key Sample.p6 := fun e => hr (OrdKey.inj e)
  simp [OrdMap.get, without, Sample.messages, bmapGet, this]

private def lesser : MultiSource := { Sample.source with messages := without }

private def smaller : MerkleTree :=
  { Sample.tree with messages := without, map := ⟨[(1, (Sample.p1, Sample.m1)), (2, (Sample.p5, Sample.m5))], by decide, by decide⟩ }

private theorem lesser_commits [Env] : MerkleTree.tryCommit none lesser = .ok (.ok smaller) := by rfl

/-- Non-vacuity of C101: protocol 6 leaves the sample and joins it again. Its slot is free in between, but a protocol
with slot 1 could not join. -/
example : Sample.messages.get Sample.p6 = some Sample.m6 ∧ without.get Sample.p6 = none ∧
    smaller.depth = Sample.tree.depth ∧ smaller.cofactor = Sample.tree.cofactor ∧
    smaller.map.get (smaller.protocolIdPos Sample.p6) = none ∧
    smaller.map.get (smaller.protocolIdPos (Bytes32.ofNat 4)) ≠ none := by decide

/-- With a protocol that has slot 1 as well the tree has another shape. -/
example : (match MerkleTree.tryCommit none { lesser with
      messages := ⟨[(Sample.p1, Sample.m1), (Bytes32.ofNat 4, Sample.m6), (Sample.p5, Sample.m5)], by decide, by decide⟩ } with
    | .ok (.ok T) => some (smaller.depth, smaller.cofactor, T.depth, T.cofactor)
    | _ => none) = some (2, 1, 3, 0) := by decide

example [Env] : ∃ cs, cs.length = 2 ∧ Changes none Sample.p5 Sample.source cs Sample.source := by
  obtain ⟨b, b', own, other, new, -, -, -, -, h1, h2, h3, -⟩ := C101_left none Sample.source Sample.tree smaller
    Sample.commits without lesser_commits rfl rfl Sample.p6 Sample.p5 Sample.m6 Sample.m5 rfl rfl without_others
    (by decide) rfl
  exact ⟨_, rfl, .leave Sample.source Sample.source Sample.tree smaller b Sample.p6 Sample.m6 other without _
    (by decide) Sample.commits lesser_commits rfl rfl h1 h3 rfl rfl without_others
    (.join lesser Sample.source smaller Sample.tree b Sample.p6 Sample.m6 other Sample.messages _ (by decide)
      lesser_commits Sample.commits rfl rfl h1 h3 rfl rfl (fun r hr => (without_others r hr).symm)
      (.none Sample.source))⟩

example : @NoCollision (realEnv true) (@MerkleTree.inputs (realEnv true) Sample.tree ++
    @MerkleTree.inputs (realEnv true) smaller) := by decide +kernel

end CSV
