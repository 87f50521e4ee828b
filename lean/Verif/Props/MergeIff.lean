import Verif.Props.MergeAny
import Verif.Props.Received
import Verif.Props.Absence

/-!
# C64: exactly when merging panics
-/

namespace CSV

/-- If the union of two views does not reach below the leaves, none of the two does. -/
private theorem join_fits_inv [Env] {H D w : Nat} : ∀ {t u : PT} {d : Nat}, t.Compat w u d →
    t.Fits H D d → u.Fits H D d → (t.join u).Fits D D d → t.Fits D D d ∧ u.Fits D D d := by
  have hle : ∀ {t : PT} {d : Nat}, t.Fits D D d → d ≤ D := by
    intro t d h
    cases t with
    | hidden _ => exact h
    | leaf _ _ => exact Nat.le_of_eq h
    | node l r => exact Nat.le_of_lt (fits_node_lt h)
  intro t
  induction t with
  | hidden h => intro u d _ _ _ hj; exact ⟨hle hj, hj⟩
  | leaf p m =>
    intro u d hc h1 h2 _
    cases u with
    | hidden h => exact ⟨h1, Nat.le_of_eq h1⟩
    | leaf q k => exact ⟨h1, h2⟩
    | node l r => exact hc.elim
  | node l r ihl ihr =>
    intro u d hc h1 h2 hj
    cases u with
    | hidden h => exact ⟨hj, hle hj⟩
    | leaf q k => exact hc.elim
    | node l' r' =>
      have a := ihl hc.1 h1.1 h2.1 hj.1
      have b := ihr hc.2 h1.2 h2.2 hj.2
      exact ⟨⟨a.1, b.1⟩, a.2, b.2⟩

/-- A tree that reaches below the leaves covers too little. -/
private theorem coverage_deep {H : Nat} {D : U5} (hH : H ≤ D.val + 1) (h31 : H < 32) :
    ∀ {t : PT} {d : Nat}, t.Fits H D.val d → d ≤ D.val →
    t.Fits D.val D.val d ∨ coverage D (t.frontier d) < 2 ^ (D.val - d) := by
  intro t
  have hD := D.isLt
  induction t with
  | hidden h => intro d _ hd; exact Or.inl hd
  | leaf p m => intro d hf hd; exact Or.inl hf
  | node l r ihl ihr =>
    intro d hf hd
    rcases Nat.lt_or_ge d D.val with hlt | hge
    · have h3 := pow_split (show d + 1 ≤ D.val by omega)
      have hl := ihl hf.1 (by omega)
      have hr := ihr hf.2 (by omega)
      rw [PT.frontier, coverage_append]
      rcases hl with hl | hl <;> rcases hr with hr | hr
      · exact Or.inl ⟨hl, hr⟩
      · have := coverage_frontier hl (by omega)
        exact Or.inr (by omega)
      · have := coverage_frontier hr (by omega)
        exact Or.inr (by omega)
      · exact Or.inr (by omega)
    · have he : d = D.val := by omega
      subst he
      have h1 : D.val + 1 ≤ H := by
        obtain ⟨a, rfl⟩ := PT.fits_last hH hf.1
        exact hf.1
      obtain ⟨a, rfl⟩ := PT.fits_last hH hf.1
      obtain ⟨b, rfl⟩ := PT.fits_last hH hf.2
      right
      simp [PT.frontier, coverage, TreeNode.depthOr, toU5_val (show D.val + 1 < 32 by omega)]

/-- **C64** Exactly when merging returns, in any profile, for blocks whose nodes are those of a tree: when
the two have different commitments or none of them reaches below the leaves of its tree. -/
theorem C64_iff [Env] (b o : MerkleBlock) (t u : PT)
    (hb : b.crossSection = t.frontier 0) (ht : t.Fits (min (b.depth.val + 1) 31) b.depth.val 0)
    (ho : o.crossSection = u.frontier 0) (hu : u.Fits (min (o.depth.val + 1) 31) o.depth.val 0)
    (hn : NoCollision (blockInputs b.depth b.cofactor t ++ blockInputs o.depth o.cofactor u)) :
    (∃ x, b.mergeReveal o = .ok x) ↔ b.commitId ≠ o.commitId ∨ (b.Valid ∧ o.Valid) := by
  have hbc := (C29_both_profiles b).1 t hb ht
  have hoc := (C29_both_profiles o).1 u ho hu
  by_cases hne : b.commitId = o.commitId
  · have he := hne
    rw [hbc, hoc] at he
    have hc := commitmentInput_inj (hn _ (by simp [blockInputs]) _ (by simp [blockInputs]) (Except.ok.inj he))
    obtain ⟨hd, hco, hr⟩ := MerkleConcealed.mk.inj hc
    have hD := b.depth.isLt
    have hw : 2 ^ b.depth.val < 2 ^ 256 := Nat.pow_lt_pow_right (by omega) (by omega)
    have hcomp : t.Compat (2 ^ b.depth.val) u 0 := by
      refine compat_of_root' hw (by omega) (Nat.min_le_left ..) ht (hn.mono ?_) (by rw [hr, hd])
      intro a ha
      rw [List.mem_append] at ha ⊢
      rcases ha with ha | ha
      · exact Or.inl (List.mem_cons_of_mem _ ha)
      · rw [hd] at ha
        exact Or.inr (List.mem_cons_of_mem _ ha)
    have hu' : u.Fits (min (b.depth.val + 1) 31) b.depth.val 0 := by rw [hd]; exact hu
    have h31 : min (b.depth.val + 1) 31 < 32 := by omega
    have hDH : b.depth.val ≤ min (b.depth.val + 1) 31 := by omega
    refine ⟨fun ⟨x, hx⟩ => Or.inr ?_, fun h => ?_⟩
    · obtain ⟨b', r⟩ := x
      obtain ⟨c1, c2, k1, k2, -, -, kd, -, -, -, hok, herr⟩ := C72_any b o b' r hx
      cases r with
      | error e => exact absurd (Except.ok.inj (k1.symm.trans (hne.trans k2))) (herr e rfl).1
      | ok n =>
        obtain ⟨-, -, -, hcov, -⟩ := hok n rfl
        have hcs : b'.crossSection = (t.join u).frontier 0 := by
          rw [MerkleBlock.mergeReveal, k1, k2] at hx
          simp only [ok_bind] at hx
          split at hx
          · cases hx
          · obtain ⟨x1, g1, hx⟩ := (bind_ok_iff ..).1 hx
            obtain ⟨x2, g2, hx⟩ := (bind_ok_iff ..).1 hx
            obtain ⟨x3, g3, hx⟩ := (bind_ok_iff ..).1 hx
            obtain ⟨x4, g4, hx⟩ := (bind_ok_iff ..).1 hx
            obtain ⟨x5, g5, hx⟩ := (bind_ok_iff ..).1 hx
            obtain ⟨x6, g6, hx⟩ := (bind_ok_iff ..).1 hx
            cases hx
            unfold nonEmptyVec at g2
            split at g2 <;> cases g2
            have g := mergeL_join' hDH h31 t u 0 [] [] ht hu' (by omega) hcomp
            rw [List.append_nil, List.append_nil, show mergeL b.depth [] [] = .ok [] from rfl, ok_bind,
              List.append_nil] at g
            rw [mergeLoop_eq (Nat.le_refl _), hb, ho, g] at g1
            cases g1
            rfl
        have hj : (t.join u).Fits b.depth.val b.depth.val 0 := by
          rcases coverage_deep (Nat.min_le_left ..) h31 (join_fits hcomp ht hu') (Nat.zero_le _) with h | h
          · exact h
          · exfalso
            rw [kd, hcs] at hcov
            rw [Nat.sub_zero] at h
            have : 2 ^ b.depth.val ≤ 2 ^ 31 := Nat.pow_le_pow_right (by decide) (by omega)
            omega
        obtain ⟨f1, f2⟩ := join_fits_inv hcomp ht hu' hj
        exact ⟨⟨t, hb, f1⟩, u, ho, by rw [← hd]; exact f2⟩
    · rcases h with h | ⟨⟨t', h1⟩, u', h2⟩
      · exact absurd hne h
      · have h1' := fits_mono hDH h1.2
        have h2' := fits_mono (show o.depth.val ≤ min (o.depth.val + 1) 31 by rw [← hd]; exact hDH) h2.2
        obtain ⟨rfl, -⟩ := frontier_inj (r1 := []) (r2 := []) (Nat.min_le_left ..) h31 ht h1'
          (by rw [← hb, h1.1])
        obtain ⟨rfl, -⟩ := frontier_inj (r1 := []) (r2 := []) (Nat.min_le_left ..) (by omega) hu h2'
          (by rw [← ho, h2.1])
        exact ⟨_, (mergeReveal_compat h1 h2 hd hco hcomp).1⟩
  · refine ⟨fun _ => Or.inl hne, fun _ => ?_⟩
    rw [MerkleBlock.mergeReveal]
    rw [hbc, hoc] at hne ⊢
    simp only [ok_bind, ne_eq]
    rw [if_pos (fun h => hne (congrArg _ h))]
    exact ⟨_, rfl⟩

/-- **C64** Exactly when merging returns in a debug build, for any two blocks: both have a commitment, and
the commitments are different or both blocks are structurally valid. -/
theorem C64_debug_iff [Env] (hd : dbg = true) (b o : MerkleBlock)
    (hn : ∀ t u : PT, b.crossSection = t.frontier 0 → t.Fits (min (b.depth.val + 1) 31) b.depth.val 0 →
      o.crossSection = u.frontier 0 → u.Fits (min (o.depth.val + 1) 31) o.depth.val 0 →
      NoCollision (blockInputs b.depth b.cofactor t ++ blockInputs o.depth o.cofactor u)) :
    (∃ x, b.mergeReveal o = .ok x) ↔
      ∃ c c', b.commitId = .ok c ∧ o.commitId = .ok c' ∧ (c ≠ c' ∨ (b.Valid ∧ o.Valid)) := by
  have key : ∀ c c', b.commitId = .ok c → o.commitId = .ok c' →
      ((∃ x, b.mergeReveal o = .ok x) ↔ c ≠ c' ∨ (b.Valid ∧ o.Valid)) := by
    intro c c' h1 h2
    obtain ⟨t, e1, f1, -⟩ := (C29_debug hd b c).1 h1
    obtain ⟨u, e2, f2, -⟩ := (C29_debug hd o c').1 h2
    rw [C64_iff b o t u e1 f1 e2 f2 (hn t u e1 f1 e2 f2), h1, h2]
    simp
  constructor
  · rintro ⟨⟨b', r⟩, hx⟩
    obtain ⟨c, c', h1, h2, -⟩ := C72_any b o b' r hx
    exact ⟨c, c', h1, h2, (key c c' h1 h2).1 ⟨_, hx⟩⟩
  · rintro ⟨c, c', h1, h2, h⟩
    exact (key c c' h1 h2).2 h

/-- **C64** Exactly when merging a proof returns in a debug build, for any block and any proof of at most 32
hashes: the proof is rejected, or the proof and the block have a commitment and these are different or the
block is structurally valid. -/
theorem C64_path_iff [Env] (hd : dbg = true) (b : MerkleBlock) (pr : MerkleProof) (p : ProtocolId) (m : Message)
    (hl : pr.path.length ≤ 32)
    (hn : ∀ t : PT, b.crossSection = t.frontier 0 → t.Fits (min (b.depth.val + 1) 31) b.depth.val 0 →
      NoCollision (blockInputs b.depth b.cofactor t ++ proofInputs pr p m)) :
    (∃ x, b.mergeRevealPath pr p m = .ok x) ↔ (∃ e, pr.convolve p m = .ok (.error e)) ∨
      ∃ c c', b.commitId = .ok c ∧ pr.convolve p m = .ok (.ok c') ∧ (c ≠ c' ∨ b.Valid) := by
  rcases Nat.lt_or_ge pr.path.length 32 with hlt | hge
  · have hs := with_shows pr p m hlt
    have hc2 := shows_commitId hs
    simp only [widthLimit, toU5_val hlt] at hc2
    rw [MerkleBlock.mergeRevealPath, with_eq pr p m hlt, convolve_eq pr p m hlt]
    by_cases hp : protocolIdPos p pr.cofactor (toU5 pr.path.length) = pr.pos
    · rw [if_neg (by simpa using hp), if_neg (by simpa using hp), ok_bind]
      show (∃ x, b.mergeReveal _ = .ok x) ↔ _
      rw [C64_debug_iff hd]
      · constructor
        · rintro ⟨c, c', h1, h2, h⟩
          refine Or.inr ⟨c, c', h1, congrArg _ (congrArg _ (Except.ok.inj (hc2.symm.trans h2))), h.imp_right And.left⟩
        · rintro (⟨e, h⟩ | ⟨c, c', h1, h2, h⟩)
          · cases h
          · exact ⟨c, c', h1, hc2.trans (congrArg _ (Except.ok.inj (Except.ok.inj h2))), h.imp_right fun h => ⟨h, _, hs⟩⟩
      · intro t u e1 f1 e2 f2
        obtain ⟨rfl, -⟩ := frontier_inj (r1 := []) (r2 := []) (Nat.min_le_left ..) (by omega) f2
          (fits_mono (by have := (toU5 pr.path.length).isLt; dsimp only; omega) hs.2) (by rw [← e2, hs.1])
        exact hn t e1 f1
    · rw [if_pos (by simpa using hp), if_pos (by simpa using hp)]
      exact ⟨fun _ => Or.inl ⟨_, rfl⟩, fun _ => ⟨_, rfl⟩⟩
  · rw [MerkleBlock.mergeRevealPath, with_panic pr p m (by omega), convolve_panic pr p m (by omega)]
    constructor
    · rintro ⟨x, h⟩
      cases h
    · rintro (⟨e, h⟩ | ⟨c, c', -, h, -⟩) <;> cases h

/-- Non-vacuity of C64: a block of depth 0 whose only leaf is replaced by two hidden nodes; a valid block with
the same commitment. Merging one into the other panics, in both orders and profiles; merging the valid
block into itself returns. The hypotheses are checked for real SHA256. -/
example (debug : Bool) : letI : Env := realEnv debug
    let t : PT := .node (.hidden (Bytes32.fill 1)) (.hidden (Bytes32.fill 2))
    let u : PT := .hidden (t.root 1 0)
    let b : MerkleBlock := ⟨.sha256t, 0, 0, t.frontier 0, none⟩
    let o : MerkleBlock := ⟨.sha256t, 0, 0, u.frontier 0, none⟩
    b.commitId = o.commitId ∧ (¬ ∃ x, b.mergeReveal o = .ok x) ∧ (¬ ∃ x, o.mergeReveal b = .ok x) ∧
      ∃ x, o.mergeReveal o = .ok x := by
  let _ : Env := realEnv debug
  intro t u b o
  have n1 : NoCollision (blockInputs 0 0 t ++ blockInputs 0 0 u) := by
    show @NoCollision (realEnv debug) _
    cases debug <;> decide +kernel
  have ht : t.Fits (min (b.depth.val + 1) 31) b.depth.val 0 := by decide
  have hu : u.Fits (min (o.depth.val + 1) 31) o.depth.val 0 := Nat.zero_le _
  have hc : b.commitId = o.commitId := by
    rw [(C29_both_profiles b).1 t rfl ht, (C29_both_profiles o).1 u rfl hu]
    rfl
  have hv : ¬ b.Valid := by
    rintro ⟨v, h1, h2⟩
    obtain ⟨rfl, -⟩ := frontier_inj (r1 := []) (r2 := []) (Nat.min_le_left ..) (by decide) ht
      (fits_mono (by decide) h2) (by rw [← h1])
    exact absurd h2 (by decide)
  have ho : o.Valid := ⟨u, rfl, Nat.zero_le _⟩
  refine ⟨hc, ?_, ?_, ?_⟩
  · rw [C64_iff b o t u rfl ht rfl hu n1]
    simp [hc, hv]
  · rw [C64_iff o b u t rfl hu rfl ht (n1.mono fun a ha => by
      rw [List.mem_append] at ha ⊢; exact ha.symm)]
    simp [hc, hv]
  · rw [C64_iff o o u u rfl hu rfl hu (n1.mono fun a ha => by
      rw [List.mem_append] at ha ⊢; exact ha.elim Or.inr Or.inr)]
    exact Or.inr ⟨ho, ho⟩

end CSV
