import Verif.Props.Proof

/-!
# C60: what the commitment of a whole tree binds
-/

namespace CSV

/-- Two complete trees with one root have the same hashes in all slots. -/
theorem full_root_slots [Env] {f g : Nat → PT} {w : Nat} (hw : w < 2 ^ 256) :
    ∀ (n lo d : Nat), d + n < 256 →
    NoCollision ((PT.full f n lo).inputs w d ++ (PT.full g n lo).inputs w d) →
    (PT.full f n lo).root w d = (PT.full g n lo).root w d →
    ∀ i, lo ≤ i → i < lo + 2 ^ n → (f i).root w (d + n) = (g i).root w (d + n) := by
  intro n
  induction n with
  | zero =>
    intro lo d _ _ h i h1 h2
    have : i = lo := by omega
    subst this
    exact h
  | succ n ih =>
    intro lo d hd hn h i h1 h2
    have hp : 2 ^ (n + 1) = 2 ^ n + 2 ^ n := by rw [Nat.pow_succ]; omega
    simp only [PT.full, PT.root, branchHash] at h
    have he := hn _ (by simp [PT.full, PT.inputs]) _ (by simp [PT.full, PT.inputs]) h
    obtain ⟨-, -, e1, e2⟩ := branchInput_inj (by omega) (by omega) hw hw he
    rw [show d + (n + 1) = d + 1 + n by omega]
    by_cases hi : i < lo + 2 ^ n
    · refine ih lo (d + 1) (by omega) (hn.mono ?_) e1 i h1 hi
      intro a ha
      simp only [PT.full, PT.inputs, List.mem_append, List.mem_cons] at ha ⊢
      grind
    · refine ih (lo + 2 ^ n) (d + 1) (by omega) (hn.mono ?_) e2 i (by omega) (by omega)
      intro a ha
      simp only [PT.full, PT.inputs, List.mem_append, List.mem_cons] at ha ⊢
      grind

/-- **C60** Two trees with one commitment have the same depth and cofactor, hold the same thing in
every slot, and have the same entropy if a slot is empty - unless two different strings hashed for
the two have one hash. -/
theorem C60_binding [Env] (T U : MerkleTree) (c : Commitment) (hT : T.commitId = .ok c)
    (hU : U.commitId = .ok c) (hn : NoCollision (T.inputs ++ U.inputs)) :
    T.depth = U.depth ∧ T.cofactor = U.cofactor ∧
    (∀ pos : UInt32, pos.toNat < 2 ^ T.depth.val → T.map.get pos = U.map.get pos) ∧
    ((∃ pos : UInt32, pos.toNat < 2 ^ T.depth.val ∧ T.map.get pos = none) → T.entropy = U.entropy) := by
  rw [tree_commitId] at hT hU
  have hc : sha (commitmentInput ⟨T.depth, T.cofactor, T.specRoot⟩) =
      sha (commitmentInput ⟨U.depth, U.cofactor, U.specRoot⟩) :=
    (Except.ok.inj hT).trans (Except.ok.inj hU).symm
  have he := commitmentInput_inj (hn _ (by simp [MerkleTree.inputs, blockInputs, MerkleTree.specRoot]) _
    (by simp [MerkleTree.inputs, blockInputs, MerkleTree.specRoot]) hc)
  obtain ⟨hd, hco, hr⟩ := MerkleConcealed.mk.inj he
  have hD := T.depth.isLt
  have hw : 2 ^ T.depth.val < 2 ^ 256 := Nat.pow_lt_pow_right (by omega) (by omega)
  have hleaf : ∀ i, i < 2 ^ T.depth.val → T.leafAt i = U.leafAt i := by
    intro i hi
    have := full_root_slots (f := T.slot) (g := U.slot) hw T.depth.val 0 0 (by omega) (hn.mono ?_) ?_
      i (by omega) (by omega)
    · rw [slot_root, slot_root] at this
      refine leafInput_inj (hn _ ?_ _ ?_ this)
      · simp only [MerkleTree.inputs, List.mem_append, List.mem_map, List.mem_range]
        exact Or.inl (Or.inr ⟨i, hi, rfl⟩)
      · simp only [MerkleTree.inputs, List.mem_append, List.mem_map, List.mem_range]
        exact Or.inr (Or.inr ⟨i, by rw [← hd]; exact hi, rfl⟩)
    · intro a ha
      simp only [MerkleTree.inputs, blockInputs, MerkleTree.pt, List.mem_append, List.mem_cons, ← hd]
      rw [List.mem_append] at ha
      grind
    · have := hr
      simp only [MerkleTree.specRoot, MerkleTree.pt, ← hd] at this
      exact this
  have hpos : ∀ pos : UInt32, pos.toNat < 2 ^ T.depth.val →
      T.map.get pos = U.map.get pos ∧ (T.map.get pos = none → T.entropy = U.entropy) := by
    intro pos hp
    have := hleaf pos.toNat hp
    simp only [MerkleTree.leafAt, UInt32.ofNat_toNat] at this
    cases h1 : T.map.get pos with
    | none =>
      cases h2 : U.map.get pos with
      | none => simp only [h1, h2, Leaf.entropy.injEq] at this; exact ⟨rfl, fun _ => this.1⟩
      | some y => simp only [h1, h2] at this; cases this
    | some x =>
      cases h2 : U.map.get pos with
      | none => simp only [h1, h2] at this; cases this
      | some y =>
        simp only [h1, h2, Leaf.inhabited.injEq] at this
        exact ⟨congrArg some (Prod.ext this.1 this.2), fun h => by cases h⟩
  exact ⟨hd, hco, fun pos hp => (hpos pos hp).1, fun ⟨pos, hp, h⟩ => (hpos pos hp).2 h⟩

/-- **C60** Two trees made by `try_commit` with one commitment were made from the same messages and
have the same slots; if a slot is empty the trees are equal. -/
theorem C60_sources [Env] (s1 s2 : MultiSource) (r1 r2 : Option UInt64) (T U : MerkleTree)
    (h1 : MerkleTree.tryCommit r1 s1 = .ok (.ok T)) (h2 : MerkleTree.tryCommit r2 s2 = .ok (.ok U))
    (c : Commitment) (hT : T.commitId = .ok c) (hU : U.commitId = .ok c)
    (hn : NoCollision (T.inputs ++ U.inputs)) :
    s1.messages = s2.messages ∧ { T with entropy := U.entropy } = U ∧
    (s1.messages.entries.length < 2 ^ T.depth.val → T = U) := by
  obtain ⟨hd, hco, hm, he⟩ := C60_binding T U c hT hU hn
  obtain ⟨-, m1, -, a1, b1, -⟩ := C01_slots r1 s1 T h1
  obtain ⟨-, m2, -, a2, b2, -⟩ := C01_slots r2 s2 U h2
  have hlt : ∀ (V : MerkleTree) p, (V.protocolIdPos p).toNat < 2 ^ V.depth.val := fun V p =>
    (C06_position p V.cofactor V.depth).2.1
  have hmsg : s1.messages = s2.messages := by
    apply OrdMap.ext'
    refine BMapOk.ext s1.messages.sorted s2.messages.sorted fun p => ?_
    show s1.messages.get p = s2.messages.get p
    apply Option.ext
    intro m
    constructor
    · intro h
      have := a1 p m h
      rw [hm _ (hlt T p)] at this
      exact (b2 _ _ _ this).1
    · intro h
      have := a2 p m h
      rw [← hm _ (by rw [hd]; exact hlt U p)] at this
      exact (b1 _ _ _ this).1
  have hmap : T.map = U.map := by
    apply OrdMap.ext'
    refine BMapOk.ext T.map.sorted U.map.sorted fun k => ?_
    show T.map.get k = U.map.get k
    apply Option.ext
    rintro ⟨p, m⟩
    constructor
    · intro h
      rw [← hm k (by rw [(b1 _ _ _ h).2]; exact hlt T p)]
      exact h
    · intro h
      rw [hm k (by rw [(b2 _ _ _ h).2, hd]; exact hlt U p)]
      exact h
  have hTU : { T with entropy := U.entropy } = U := by
    obtain ⟨mt, dt, et, ct, st, pt⟩ := T
    obtain ⟨mu, du, eu, cu, su, pu⟩ := U
    simp only at hd hco hmap m1 m2
    subst hd hco hmap
    cases mt; cases mu
    rw [m1, m2, hmsg]
  refine ⟨hmsg, hTU, fun hl => ?_⟩
  have hex : ∃ pos : UInt32, pos.toNat < 2 ^ T.depth.val ∧ T.map.get pos = none := by
    apply Classical.byContradiction
    intro hno
    have h31 : (2:Nat) ^ T.depth.val ≤ 2 ^ 31 :=
      Nat.pow_le_pow_right (by decide) (by have := T.depth.isLt; omega)
    have hsub : List.range (2 ^ T.depth.val) ⊆
        s1.messages.entries.map fun e => (T.protocolIdPos e.1).toNat := by
      intro i hi
      rw [List.mem_range] at hi
      have hu : (UInt32.ofNat i).toNat = i :=
        UInt32.toNat_ofNat_of_lt' (by show i < 4294967296; omega)
      cases hg : T.map.get (UInt32.ofNat i) with
      | none => exact absurd ⟨_, by rw [hu]; exact hi, hg⟩ hno
      | some e =>
        obtain ⟨p, m⟩ := e
        obtain ⟨g1, g2⟩ := b1 _ _ _ hg
        rw [List.mem_map]
        exact ⟨(p, m), bmapGet_mem g1, by rw [← g2, hu]⟩
    have := List.nodup_range.length_le_of_subset hsub
    rw [List.length_range, List.length_map] at this
    omega
  rw [← hTU, ← he hex]

/-- Non-vacuity of C60: the sample tree, and one that differs in the stored copy of the messages, have
one commitment, and no two strings hashed for them collide. -/
def Sample.tree' : MerkleTree := { Sample.tree with messages := ⟨[], by decide, by decide⟩ }

example : @NoCollision (realEnv true)
    (@MerkleTree.inputs (realEnv true) Sample.tree ++ @MerkleTree.inputs (realEnv true) Sample.tree') := by
  decide +kernel

example [Env] : Sample.tree ≠ Sample.tree' ∧ ∃ c, Sample.tree.commitId = .ok c ∧ Sample.tree'.commitId = .ok c :=
  ⟨by decide, _, tree_commitId _, tree_commitId _⟩

/-- Non-vacuity of the last part of C60: three messages in four slots. -/
example : Sample.source.messages.entries.length < 2 ^ Sample.tree.depth.val := by decide

/-- **C60** Conversely, the commitment, the root and the block depend only on depth, cofactor, entropy
and contents of the slots; they say nothing about the stored copy of the messages. -/
theorem C60_determined [Env] (T U : MerkleTree) (hd : T.depth = U.depth) (hc : T.cofactor = U.cofactor)
    (he : T.entropy = U.entropy)
    (hm : ∀ pos : UInt32, pos.toNat < 2 ^ T.depth.val → T.map.get pos = U.map.get pos) :
    (∃ c, T.commitId = .ok c ∧ U.commitId = .ok c) ∧ (∃ r, T.root = .ok r ∧ U.root = .ok r) ∧
    (∃ b, MerkleBlock.fromTree T = .ok b ∧ MerkleBlock.fromTree U = .ok b) := by
  have hpt : ∀ n lo, lo + 2 ^ n ≤ 2 ^ T.depth.val → PT.full T.slot n lo = PT.full U.slot n lo := by
    intro n
    induction n with
    | zero =>
      intro lo hl
      have h31 : (2:Nat) ^ T.depth.val ≤ 2 ^ 31 :=
        Nat.pow_le_pow_right (by decide) (by have := T.depth.isLt; omega)
      have hu : (UInt32.ofNat lo).toNat = lo :=
        UInt32.toNat_ofNat_of_lt' (by show lo < 4294967296; omega)
      simp only [PT.full, MerkleTree.slot, he]
      rw [hm _ (by rw [hu]; simp only [Nat.pow_zero] at hl; omega)]
    | succ n ih =>
      intro lo hl
      have hp : 2 ^ (n + 1) = 2 ^ n + 2 ^ n := by rw [Nat.pow_succ]; omega
      simp only [PT.full]
      have h0 := Nat.two_pow_pos n
      rw [hp] at hl
      rw [ih lo (by omega), ih (lo + 2 ^ n) (by omega)]
  have hp : T.pt = U.pt := by
    simp only [MerkleTree.pt, ← hd]
    exact hpt _ _ (by rw [Nat.zero_add]; exact Nat.le_refl _)
  have hr : T.specRoot = U.specRoot := by simp only [MerkleTree.specRoot, hp, hd]
  refine ⟨⟨_, tree_commitId T, ?_⟩, ⟨_, tree_root T, ?_⟩, ⟨_, fromTree_eq T, ?_⟩⟩
  · rw [tree_commitId, MerkleTree.specCommitment, MerkleTree.specCommitment, hd, hc, hr]
  · rw [tree_root, hr]
  · rw [fromTree_eq, hd, hc, he, hp]

end CSV
