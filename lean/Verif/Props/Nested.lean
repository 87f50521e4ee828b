import Verif.Spec.Nested
import Verif.Props.Update

/-!
# C103: commitments inside commitments
-/

namespace CSV

private theorem climb_cons [Env] {pr : MerkleProof} {p : ProtocolId} {outer : List (MerkleProof × ProtocolId)} {m : Message}
    {c : Commitment} (h : climb ((pr, p) :: outer) m = .ok (.ok c)) :
    ∃ c1, pr.convolve p m = .ok (.ok c1) ∧ climb outer c1 = .ok (.ok c) ∧
      climbInputs ((pr, p) :: outer) m = proofInputs pr p m ++ climbInputs outer c1 := by
  rw [climb] at h
  cases hx : pr.convolve p m with
  | error e => rw [hx] at h; cases h
  | ok r =>
    cases r with
    | error e => rw [hx] at h; cases h
    | ok c1 =>
      rw [hx] at h
      exact ⟨c1, rfl, h, by rw [climbInputs, hx]⟩

private theorem climb_append [Env] (ys : List (MerkleProof × ProtocolId)) : ∀ (zs : List (MerkleProof × ProtocolId))
    (n : Message) (c : Commitment), climb (zs ++ ys) n = .ok (.ok c) →
      ∃ k, climb zs n = .ok (.ok k) ∧ climb ys k = .ok (.ok c) ∧ climbInputs (zs ++ ys) n = climbInputs zs n ++ climbInputs ys k
  | [], n, c, h => ⟨n, rfl, h, rfl⟩
  | (pr, p) :: zs, n, c, h => by
    rw [List.cons_append] at h
    obtain ⟨c1, h1, h2, h3⟩ := climb_cons h
    obtain ⟨k, k1, k2, k3⟩ := climb_append ys zs c1 c h2
    have : climb ((pr, p) :: zs) n = .ok (.ok k) := by rw [climb, h1]; exact k1
    obtain ⟨c2, g1, -, g3⟩ := climb_cons this
    rw [h1] at g1
    cases g1
    exact ⟨k, this, k2, by rw [List.cons_append, h3, g3, k3, List.append_assoc]⟩

private theorem bound [Env] : ∀ (xs ys : List (MerkleProof × ProtocolId)) (m n : Message) (c : Commitment),
    xs.map Prod.snd = ys.map Prod.snd → (∀ x ∈ xs ++ ys, x.1.path.length ≤ 32) →
    climb xs m = .ok (.ok c) → climb ys n = .ok (.ok c) → NoCollision (climbInputs xs m ++ climbInputs ys n) →
    m = n ∧ xs = ys
  | [], [], m, n, c, _, _, h1, h2, _ => by
    rw [climb] at h1 h2
    cases h1
    cases h2
    exact ⟨rfl, rfl⟩
  | [], _ :: _, _, _, _, h, _, _, _, _ => by simp at h
  | _ :: _, [], _, _, _, h, _, _, _, _ => by simp at h
  | (pr, p) :: xs, (pr', p') :: ys, m, n, c, h, hl, h1, h2, hn => by
    simp only [List.map_cons, List.cons.injEq] at h
    obtain ⟨rfl, h⟩ := h
    obtain ⟨c1, a1, a2, a3⟩ := climb_cons h1
    obtain ⟨c2, b1, b2, b3⟩ := climb_cons h2
    rw [a3, b3] at hn
    obtain ⟨rfl, rfl⟩ := bound xs ys c1 c2 c h (fun x hx => hl x (by
      simp only [List.mem_append, List.mem_cons] at hx ⊢
      rcases hx with hx | hx
      · exact Or.inl (Or.inr hx)
      · exact Or.inr (Or.inr hx))) a2 b2 (hn.mono fun x hx => by
        simp only [List.mem_append] at hx ⊢
        rcases hx with hx | hx
        · exact Or.inl (Or.inr hx)
        · exact Or.inr (Or.inr hx))
    obtain ⟨rfl, rfl⟩ := C18_binding pr pr' p m n c1 (hl (pr, p) (by simp)) (hl (pr', p) (by simp)) (hn.mono fun x hx => by
        simp only [List.mem_append] at hx ⊢
        rcases hx with hx | hx
        · exact Or.inl (Or.inl hx)
        · exact Or.inr (Or.inl hx)) a1 b1
    exact ⟨rfl, rfl⟩

/-- **C103** A commitment binds through any number of levels: two verifications along the same protocols which lead to one
commitment have the same message and the same proofs at all levels. If one goes deeper than the other, what it finds at
the level where the other ends is the other's message. (Unless two different strings hashed have one hash.) -/
theorem C103_binding [Env] (xs ys zs : List (MerkleProof × ProtocolId)) (m n : Message) (c : Commitment)
    (hp : xs.map Prod.snd = ys.map Prod.snd) (hl : ∀ x ∈ xs ++ ys, x.1.path.length ≤ 32)
    (h1 : climb xs m = .ok (.ok c)) (h2 : climb (zs ++ ys) n = .ok (.ok c))
    (hn : NoCollision (climbInputs xs m ++ climbInputs (zs ++ ys) n)) :
    xs = ys ∧ climb zs n = .ok (.ok m) := by
  obtain ⟨k, k1, k2, k3⟩ := climb_append ys zs n c h2
  obtain ⟨rfl, rfl⟩ := bound xs ys m k c hp hl h1 k2 (hn.mono fun x hx => by
    rw [k3]
    simp only [List.mem_append] at hx ⊢
    rcases hx with hx | hx
    · exact Or.inl hx
    · exact Or.inr (Or.inr hx))
  exact ⟨rfl, k1⟩

/-- **C103** The proofs taken from honest trees verify through all levels. -/
theorem C103_complete [Env] (levels : List Level) (proofs : List MerkleProof) (m : Message) (c : Commitment)
    (h : Nests levels proofs m c) :
    proofs.length = levels.length ∧ (∀ pr ∈ proofs, pr.path.length ≤ 32) ∧
    climb (proofs.zip (levels.map Level.protocol)) m = .ok (.ok c) := by
  induction h with
  | none m => exact ⟨rfl, by simp, rfl⟩
  | level l T b pr m c c' outer proofs h hm hb hp hc rest ih =>
    obtain ⟨i1, i2, i3⟩ := ih
    obtain ⟨hT, hms, -⟩ := C16_committed_trees _ _ _ h
    obtain ⟨b0, g1, g2, g3⟩ := full_block h
    cases Except.ok.inj (g1.symm.trans hb)
    obtain ⟨pr0, n, c0, k1, k2, k3, k4, k5, -⟩ := C16_complete T hT _ g2 l.protocol (g3 _ m hm)
    cases Except.ok.inj (Except.ok.inj (k3.symm.trans hp))
    cases Except.ok.inj (k4.symm.trans hc)
    rw [hms, hm] at k1
    cases k1
    have hown := Except.ok.inj (Except.ok.inj (hp.symm.trans (C57_proof_content T hT _ g2 l.protocol (g3 _ m hm))))
    have hlen : pr.path.length = T.depth.val := by
      rw [hown]
      exact siblings_length (slot_siblings T) _ _ _ _ _
    refine ⟨by simp [i1], ?_, ?_⟩
    · intro x hx
      rcases List.mem_cons.1 hx with rfl | hx
      · rw [hlen]; have := T.depth.isLt; omega
      · exact i2 x hx
    · rw [List.map_cons, List.zip_cons_cons, climb, k5]
      exact i3

/-- **C103** Against honest trees only their own messages verify, through any number of levels, with just the proofs of the
trees (unless two different strings hashed have one hash). -/
theorem C103_sound [Env] (levels : List Level) (proofs : List MerkleProof) (m n : Message) (c : Commitment)
    (h : Nests levels proofs m c) (ys : List (MerkleProof × ProtocolId)) (hp : ys.map Prod.snd = levels.map Level.protocol)
    (hl : ∀ y ∈ ys, y.1.path.length ≤ 32) (hy : climb ys n = .ok (.ok c))
    (hn : NoCollision (climbInputs (proofs.zip (levels.map Level.protocol)) m ++ climbInputs ys n)) :
    n = m ∧ ys.map Prod.fst = proofs := by
  obtain ⟨h1, h2, h3⟩ := C103_complete levels proofs m c h
  have hlen : (levels.map Level.protocol).length ≤ proofs.length := by simp [h1]
  obtain ⟨rfl, rfl⟩ := bound _ ys m n c (by rw [List.map_snd_zip hlen, hp]) (fun x hx => by
    rcases List.mem_append.1 hx with hx | hx
    · exact h2 _ (List.of_mem_zip hx).1
    · exact hl x hx) h3 hy hn
  exact ⟨rfl, List.map_fst_zip (by simp [h1])⟩

private theorem insert_length {κ α : Type} [OrdKey κ] {k : κ} {v w : α} : ∀ {m : List (κ × α)}, BMapOk m →
    bmapGet k m = some v → (bmapInsert k w m).length = m.length
  | [], _, h => by cases h
  | (k', v') :: m, hs, h => by
    rw [bmapInsert]
    have hs' := List.pairwise_cons.1 hs
    by_cases h1 : OrdKey.key k < OrdKey.key k'
    · exfalso
      have := bmapGet_mem h
      rcases List.mem_cons.1 this with e | e
      · cases e; omega
      · have := hs'.1 _ e
        simp only at this
        omega
    · rw [if_neg h1]
      by_cases h2 : OrdKey.key k = OrdKey.key k'
      · rw [if_pos h2]; rfl
      · rw [if_neg h2, List.length_cons, List.length_cons]
        rw [bmapGet, if_neg h2] at h
        rw [insert_length hs'.2 h]

/-- **C103** If the innermost message is replaced and all levels are committed to again, all the proofs stay as they are,
and lead from the new message to the new commitment. -/
theorem C103_replace [Env] (levels : List Level) (proofs : List MerkleProof) (m : Message) (c : Commitment)
    (h : Nests levels proofs m c) (m' : Message) :
    ∃ levels' c', levels'.length = levels.length ∧ (∀ x ∈ levels.zip levels', x.1.Replaced x.2) ∧
      Nests levels' proofs m' c' ∧ climb (proofs.zip (levels.map Level.protocol)) m' = .ok (.ok c') ∧
      (m' ≠ m → NoCollision (climbInputs (proofs.zip (levels.map Level.protocol)) m ++
        climbInputs (proofs.zip (levels.map Level.protocol)) m') → c' ≠ c) := by
  have key : ∀ m' : Message, ∃ levels' c', levels'.length = levels.length ∧ (∀ x ∈ levels.zip levels', x.1.Replaced x.2) ∧
      levels'.map Level.protocol = levels.map Level.protocol ∧ Nests levels' proofs m' c' := by
    induction h with
    | none m => exact fun m' => ⟨[], m', rfl, by simp, rfl, .none m'⟩
    | level l T b pr m c c' outer proofs h hm hb hp hc rest ih =>
      intro m'
      let ms : MessageMap := ⟨bmapInsert l.protocol m' l.source.messages.entries, bmapInsert_sorted l.source.messages.sorted,
        by rw [insert_length l.source.messages.sorted hm]; exact l.source.messages.bound⟩
      have h1 : ms.get l.protocol = some m' := bmapGet_insert_self
      have h2 : ∀ q, q ≠ l.protocol → ms.get q = l.source.messages.get q := fun q hq => bmapGet_insert_ne hq
      obtain ⟨T', b1, b', pr1, c1, c1', a1, -, -, -, a2, a3, a4, a5, -, a7, -⟩ :=
        C100_own_proof l.rng l.source T h ms l.protocol m m' hm h1 h2
      cases Except.ok.inj (a2.symm.trans hb)
      cases Except.ok.inj (Except.ok.inj (a4.symm.trans hp))
      obtain ⟨levels', c2, i1, i2, i3, i4⟩ := ih c1'
      refine ⟨⟨l.rng, { l.source with messages := ms }, l.protocol⟩ :: levels', c2, by simp [i1], ?_, ?_, ?_⟩
      · intro x hx
        rw [List.zip_cons_cons] at hx
        rcases List.mem_cons.1 hx with rfl | hx
        · exact ⟨rfl, rfl, rfl, rfl, rfl, h2⟩
        · exact i2 x hx
      · rw [List.map_cons, List.map_cons, i3]
      · exact .level _ T' b' _ m' c1' c2 _ _ a1 h1 a3 a5 a7 i4
  obtain ⟨levels', c', i1, i2, i3, i4⟩ := key m'
  obtain ⟨j1, j2, j3⟩ := C103_complete levels proofs m c h
  obtain ⟨-, -, j4⟩ := C103_complete levels' proofs m' c' i4
  rw [i3] at j4
  refine ⟨levels', c', i1, i2, i4, j4, fun hne hn e => hne ?_⟩
  subst e
  exact (bound _ _ m m' c' rfl (fun x hx => by
    rw [List.mem_append, or_self] at hx
    exact j2 _ (List.of_mem_zip hx).1) j3 j4 hn).1.symm

/-- A tree with two messages, of which one may be the commitment of another tree. -/
private def outer (k : Message) : MultiSource :=
  ⟨.sha256t, 1, ⟨[(Bytes32.ofNat 0, Sample.m1), (Bytes32.ofNat 1, k)], by
    simp only [BMapOk, List.pairwise_cons, List.mem_singleton, forall_eq, List.not_mem_nil, false_imp_iff, implies_true,
      List.Pairwise.nil, and_true]
    decide, by simp [MEDIUM_MAX]⟩, some 78⟩

/-- Non-vacuity of C103: two levels. -/
example [Env] : ∃ p1 p2 k c, Nests [⟨none, Sample.source, Sample.p5⟩, ⟨none, outer k, Bytes32.ofNat 1⟩] [p1, p2] Sample.m5 c := by
  have hc : MerkleTree.tryCommit none Sample.source = .ok (.ok Sample.tree) := by rfl
  obtain ⟨hT, hm, -⟩ := C16_committed_trees none _ _ hc
  obtain ⟨b, g1, g2, g3⟩ := full_block hc
  obtain ⟨k, hk⟩ : ∃ k, Sample.tree.commitId = .ok k := ⟨_, tree_commitId _⟩
  obtain ⟨T, hc'⟩ : ∃ T, MerkleTree.tryCommit none (outer k) = .ok (.ok T) := by
    obtain ⟨T, h, -⟩ := commits_at none (outer k) rfl (Or.inl (show (1 : Nat) ≠ 0 by decide)) (d := 1) (c := 0)
      ⟨Nat.le_refl _, by decide, Nat.le_refl _, Nat.zero_le _⟩ (by
        show List.Pairwise _ [Bytes32.ofNat 0, Bytes32.ofNat 1]
        decide)
    exact ⟨T, h⟩
  obtain ⟨hT', hm', -⟩ := C16_committed_trees none _ _ hc'
  obtain ⟨b', g1', g2', g3'⟩ := full_block hc'
  have hg : (outer k).messages.get (Bytes32.ofNat 1) = some k := rfl
  exact ⟨_, _, k, _, .level _ Sample.tree b _ _ _ _ _ _ hc (by decide) g1
    (C57_proof_content _ hT _ g2 _ (g3 _ Sample.m5 (by decide))) hk
    (.level _ T b' _ _ _ _ _ _ hc' hg g1' (C57_proof_content _ hT' _ g2' _ (g3' _ _ hg)) (tree_commitId _) (.none _))⟩

end CSV
