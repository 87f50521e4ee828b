import Verif.Props.Monotone

/-!
# C93: how deep a tree of few protocols can get
-/

namespace CSV

/-- The least common multiple of the numbers of slots tried at the depths `m + 1 .. m + j`. -/
def lcmAbove (m : Nat) : (j : Nat) → Nat
  | 0 => 1
  | j + 1 => Nat.lcm (lcmAt (m + j + 1) (min (2 ^ (m + j)) 500)) (lcmAbove m j)

private theorem lcmAbove_dvd {m x : Nat} : ∀ {j : Nat},
    (∀ d c, m < d → d ≤ m + j → c ≤ min (2 ^ (d - 1)) 500 → (2 ^ d - c) ∣ x) → lcmAbove m j ∣ x := by
  intro j
  induction j with
  | zero => intro _; exact Nat.one_dvd x
  | succ j ih =>
    intro h
    refine Nat.lcm_dvd (lcmAt_dvd fun c hc => h _ c (by omega) (by omega) hc) (ih fun d c h1 h2 h3 => ?_)
    exact h d c h1 (by omega) h3

/-- Protocols in different slots are not more than the slots. -/
private theorem separates_length {ids : List ProtocolId} {d c : Nat} (h : Separates ids d c) :
    ids.length ≤ 2 ^ d := by
  have hn : (ids.map fun p => slotOf p c d).Nodup := by
    rw [List.Nodup, List.pairwise_map]; exact h
  have := hn.length_le_of_subset (l₂ := List.range (2 ^ d)) fun x hx => by
    obtain ⟨p, -, rfl⟩ := List.mem_map.1 hx
    have h1 : 0 < max (2 ^ d - c) 1 := by omega
    have h2 := Nat.mod_lt p.toNat h1
    have h3 := Nat.two_pow_pos d
    rw [List.mem_range, slotOf]
    omega
  simpa using this

/-- **C93** A set of protocols, with ids chosen by whomever, fits into a tree of depth `D` as soon as the
least common multiple of all numbers of slots tried above the minimal depth and up to `D` exceeds `2^256` to
the power of the number of pairs of protocols. -/
theorem C93_depth (rng : Option UInt64) (s : MultiSource) (m D pairs : Nat)
    (he : (s.staticEntropy.or rng).isSome) (h0 : s.minDepth.val ≠ 0 ∨ s.messages.entries ≠ [])
    (hm : s.minDepth.val ≤ m) (hD : D ≤ 31)
    (hp : s.messages.entries.length * (s.messages.entries.length - 1) ≤ 2 * pairs)
    (hb : 2 ^ (256 * pairs) < lcmAbove m (D - m)) :
    ∃ t, MerkleTree.tryCommit rng s = .ok (.ok t) ∧ t.depth.val ≤ D := by
  have hlen : s.ids.length = s.messages.entries.length := by simp [MultiSource.ids]
  have hnd := ids_nodup s
  have hex : ∃ d c, m < d ∧ d ≤ D ∧ c ≤ min (2 ^ (d - 1)) 500 ∧ Separates s.ids d c := by
    apply Classical.byContradiction
    intro hno
    have hdvd : lcmAbove m (D - m) ∣ diffProd (allPairs s.ids) := by
      apply lcmAbove_dvd
      intro d c h1 h2 h3
      have hcs : ¬ Separates s.ids d c := fun h => hno ⟨d, c, h1, by omega, h3, h⟩
      rw [Separates, pairwise_allPairs] at hcs
      simp only [ne_eq, Classical.not_forall, Classical.not_not] at hcs
      obtain ⟨x, hx, he⟩ := hcs
      have hlt : (2:Nat) ^ (d - 1) < 2 ^ d := Nat.pow_lt_pow_right (by decide) (by omega)
      have hmax : max (2 ^ d - c) 1 = 2 ^ d - c := by omega
      simp only [slotOf, hmax] at he
      exact Nat.dvd_trans (dvd_diff he) (diffProd_dvd hx)
    obtain ⟨h0, h1⟩ := diffProd_bounds (pairwise_allPairs.1 hnd)
    have h2 := Nat.le_of_dvd h0 hdvd
    have h3 := allPairs_length s.ids
    rw [hlen] at h3
    have h4 : (2:Nat) ^ (256 * (allPairs s.ids).length) ≤ 2 ^ (256 * pairs) :=
      Nat.pow_le_pow_right (by decide) (by omega)
    omega
  obtain ⟨d, c, h1, h2, h3, h4⟩ := hex
  obtain ⟨t, ht, hn⟩ := commits_at rng s he h0 (d := d) (c := c)
    ⟨by omega, by omega, separates_length h4, by rw [maxCofactor, if_neg (by omega)]; exact h3⟩ h4
  refine ⟨t, ht, ?_⟩
  simp only [Earlier] at hn
  omega

/-- Numbers of protocols and the depths that suffice for them if the minimal depth is at most 3. -/
def enoughDepth : List (Nat × Nat) :=
  [(1, 4), (2, 8), (3, 10), (4, 11), (5, 12), (6, 13), (7, 14), (8, 16), (9, 17), (10, 18), (11, 19), (12, 20),
   (13, 21), (14, 23), (15, 24), (16, 25), (17, 26), (18, 27), (19, 28), (20, 29), (21, 30), (22, 31)]

@[irreducible] private def Suffices (x : Nat × Nat) : Prop :=
  2 ^ (256 * (x.1 * (x.1 - 1) / 2)) < lcmAbove 3 (x.2 - 3)

set_option maxRecDepth 10000 in
private theorem suffices_all : ∀ x ∈ enoughDepth, Suffices x := by
  unfold Suffices; decide +kernel

/-- **C93** With a minimal depth of at most 3 (the default) two protocols always fit into a tree of depth 8,
three into depth 10, ten into depth 18, and so on (`enoughDepth`), whatever their ids are. -/
theorem C93_table (rng : Option UInt64) (s : MultiSource) (he : (s.staticEntropy.or rng).isSome)
    (h0 : s.messages.entries ≠ []) (hm : s.minDepth.val ≤ 3) (n D : Nat) (hx : (n, D) ∈ enoughDepth)
    (hn : s.messages.entries.length ≤ n) :
    ∃ t, MerkleTree.tryCommit rng s = .ok (.ok t) ∧ t.depth.val ≤ D := by
  have hb := suffices_all _ hx
  unfold Suffices at hb
  have hD : ∀ x ∈ enoughDepth, x.2 ≤ 31 ∧ x.1 * (x.1 - 1) ≤ 2 * (x.1 * (x.1 - 1) / 2) := by decide
  refine C93_depth rng s 3 D _ he (.inr h0) hm (hD _ hx).1 (Nat.le_trans ?_ (hD _ hx).2) hb
  exact Nat.mul_le_mul hn (by omega)

/-- Two protocols that share a slot in all attempts up to depth 7 if the minimal depth is 3. -/
def Sample.deep : MultiSource :=
  ⟨.sha256t, 3, ⟨[(Bytes32.ofNat 0, Bytes32.fill 1),
    (Bytes32.ofNat 13353756090997411579403749204440236542538872688049072000, Bytes32.fill 2)],
    by decide +kernel, by decide⟩, some 7⟩

/-- **C93** The depth 8 for two protocols cannot be improved. -/
theorem C93_sharp : Sample.deep.messages.entries.length = 2 ∧ Sample.deep.minDepth.val = 3 ∧
    ∃ t, MerkleTree.tryCommit none Sample.deep = .ok (.ok t) ∧ t.depth.val = 8 := by
  refine ⟨rfl, rfl, ?_⟩
  obtain ⟨t, ht, hd⟩ := C93_table none Sample.deep rfl (by decide) (by decide) 2 8 (by decide) (by decide)
  refine ⟨t, ht, Nat.le_antisymm hd ?_⟩
  obtain ⟨⟨a1, -, -, a4⟩, hs, -⟩ := C02_first_fit none Sample.deep t ht
  apply Classical.byContradiction
  intro hlt
  have all : ∀ d < 8, 3 ≤ d → ∀ c ≤ maxCofactor 3 d, ¬ Separates Sample.deep.ids d c := by decide +kernel
  exact all _ (by omega) a1 _ a4 hs

end CSV
