import Verif.Proofs.Commit

/-!
# Number theory of the attempts
-/

namespace CSV

/-- Least common multiple of the slot counts `2^d - c` for `c = 0 .. k`. -/
def lcmAt (d : Nat) : (k : Nat) → Nat
  | 0 => 2 ^ d
  | k + 1 => Nat.lcm (lcmAt d k) (2 ^ d - (k + 1))

/-- Least common multiple of the slot counts with cofactors up to 500 at the depths
`31 - k .. 31`. -/
def lcmDepths : (k : Nat) → Nat
  | 0 => lcmAt 31 500
  | k + 1 => Nat.lcm (lcmDepths k) (lcmAt (31 - (k + 1)) 500)

theorem lcmAt_dvd {d x : Nat} : ∀ {k : Nat}, (∀ c ≤ k, (2 ^ d - c) ∣ x) → lcmAt d k ∣ x := by
  intro k
  induction k with
  | zero => intro h; simpa [lcmAt] using h 0 (Nat.le_refl _)
  | succ k ih =>
    intro h
    exact Nat.lcm_dvd (ih fun c hc => h c (by omega)) (h (k + 1) (Nat.le_refl _))

theorem lcmDepths_dvd {x : Nat} : ∀ {k : Nat}, k ≤ 31 →
    (∀ d, 31 - k ≤ d → d ≤ 31 → ∀ c ≤ 500, (2 ^ d - c) ∣ x) → lcmDepths k ∣ x := by
  intro k
  induction k with
  | zero => intro _ h; exact lcmAt_dvd (h 31 (by omega) (by omega))
  | succ k ih =>
    intro hk h
    exact Nat.lcm_dvd (ih (by omega) fun d h1 h2 => h d (by omega) h2)
      (lcmAt_dvd (h (31 - (k + 1)) (by omega) (by omega)))

/-- Two numbers with equal remainders differ by a multiple. -/
theorem dvd_diff {a b m : Nat} (h : a % m = b % m) : m ∣ (max a b - min a b) := by
  rcases Nat.le_total a b with hab | hab
  · rw [Nat.max_eq_right hab, Nat.min_eq_left hab]
    exact Nat.dvd_of_mod_eq_zero (Nat.sub_mod_eq_zero_of_mod_eq h.symm)
  · rw [Nat.max_eq_left hab, Nat.min_eq_right hab]
    exact Nat.dvd_of_mod_eq_zero (Nat.sub_mod_eq_zero_of_mod_eq h)

/-- All pairs of elements in order of occurrence. -/
def allPairs {α : Type} : List α → List (α × α)
  | [] => []
  | a :: l => l.map (fun b => (a, b)) ++ allPairs l

theorem pairwise_allPairs {α : Type} {R : α → α → Prop} {l : List α} :
    l.Pairwise R ↔ ∀ x ∈ allPairs l, R x.1 x.2 := by
  induction l with
  | nil => simp [allPairs]
  | cons a l ih =>
    rw [List.pairwise_cons, ih]
    simp only [allPairs, List.mem_append, List.mem_map]
    constructor
    · rintro ⟨h1, h2⟩ x (⟨b, hb, rfl⟩ | hx)
      · exact h1 b hb
      · exact h2 x hx
    · intro h
      exact ⟨fun b hb => h (a, b) (Or.inl ⟨b, hb, rfl⟩), fun x hx => h x (Or.inr hx)⟩

theorem allPairs_length {α : Type} : ∀ (l : List α),
    2 * (allPairs l).length = l.length * (l.length - 1) := by
  intro l
  induction l with
  | nil => rfl
  | cons a l ih =>
    simp only [allPairs, List.length_append, List.length_map, List.length_cons]
    cases h : l.length with
    | zero => rw [h] at ih; simp at ih; simp [ih]
    | succ n =>
      rw [h] at ih
      simp only [Nat.add_sub_cancel] at ih ⊢
      have h1 : (n + 1) * n + 2 * (n + 1) = (n + 1 + 1) * (n + 1) := by
        rw [← Nat.mul_comm (n + 1) 2, ← Nat.mul_add, Nat.mul_comm]
      omega

/-- Product of the differences of all pairs. -/
def diffProd : List (ProtocolId × ProtocolId) → Nat
  | [] => 1
  | x :: l => (max x.1.toNat x.2.toNat - min x.1.toNat x.2.toNat) * diffProd l

theorem diffProd_dvd {x : ProtocolId × ProtocolId} : ∀ {l : List (ProtocolId × ProtocolId)},
    x ∈ l → (max x.1.toNat x.2.toNat - min x.1.toNat x.2.toNat) ∣ diffProd l := by
  intro l
  induction l with
  | nil => intro h; simp at h
  | cons y l ih =>
    intro h
    rw [List.mem_cons] at h
    rcases h with rfl | h
    · exact Nat.dvd_mul_right _ _
    · exact Nat.dvd_trans (ih h) (Nat.dvd_mul_left _ _)

theorem diffProd_bounds : ∀ {l : List (ProtocolId × ProtocolId)}, (∀ x ∈ l, x.1 ≠ x.2) →
    0 < diffProd l ∧ diffProd l ≤ 2 ^ (256 * l.length) := by
  intro l
  induction l with
  | nil => intro _; simp [diffProd]
  | cons y l ih =>
    intro h
    obtain ⟨h1, h2⟩ := ih fun x hx => h x (by simp [hx])
    have hne : y.1.toNat ≠ y.2.toNat := fun e => h y (by simp) (Bytes32.toNat_inj e)
    have hy1 := y.1.toNat_lt
    have hy2 := y.2.toNat_lt
    refine ⟨Nat.mul_pos (by omega) h1, ?_⟩
    rw [List.length_cons, Nat.mul_succ, Nat.pow_add, Nat.mul_comm]
    exact Nat.mul_le_mul (by omega) h2

/-- Different ids are separated by some attempt at the depths `31 - k .. 31` if the least common
multiple of the slot counts tried there exceeds what differences of ids can be multiples of. -/
theorem separated_of_lcm {ids : List ProtocolId} (hn : ids.Pairwise (· ≠ ·)) {k pairs : Nat}
    (hk : k ≤ 21) (hl : ids.length * (ids.length - 1) ≤ 2 * pairs)
    (hb : 2 ^ (256 * pairs) < lcmDepths k) :
    ∃ d, 31 - k ≤ d ∧ d ≤ 31 ∧ ∃ c ≤ 500, Separates ids d c := by
  apply Classical.byContradiction
  intro hno
  have hdvd : lcmDepths k ∣ diffProd (allPairs ids) := by
    apply lcmDepths_dvd (by omega)
    intro d hd1 hd2 c hc
    have hcs : ¬ Separates ids d c := fun h => hno ⟨d, hd1, hd2, c, hc, h⟩
    rw [Separates, pairwise_allPairs] at hcs
    simp only [ne_eq, Classical.not_forall, Classical.not_not] at hcs
    obtain ⟨x, hx, he⟩ := hcs
    have h10 : (2:Nat) ^ 10 ≤ 2 ^ d := Nat.pow_le_pow_right (by decide) (by omega)
    have hmax : max (2 ^ d - c) 1 = 2 ^ d - c := by omega
    simp only [slotOf, hmax] at he
    exact Nat.dvd_trans (dvd_diff he) (diffProd_dvd hx)
  obtain ⟨h0, h1⟩ := diffProd_bounds (pairwise_allPairs.1 hn)
  have h2 := Nat.le_of_dvd h0 hdvd
  have h3 := allPairs_length ids
  have h4 : (2:Nat) ^ (256 * (allPairs ids).length) ≤ 2 ^ (256 * pairs) :=
    Nat.pow_le_pow_right (by decide) (by omega)
  omega

/-! ### Adversarial sets of ids -/

theorem bmapInsert_length_le {κ α : Type} [OrdKey κ] {k : κ} {v : α} : ∀ {m : List (κ × α)},
    (bmapInsert k v m).length ≤ m.length + 1 := by
  intro m
  induction m with
  | nil => simp [bmapInsert]
  | cons e m ih =>
    obtain ⟨k', v'⟩ := e
    simp only [bmapInsert]
    split
    · simp
    · split
      · simp
      · simpa using ih

theorem bmapOfList_props {κ α : Type} [OrdKey κ] (l : List (κ × α)) :
    BMapOk (bmapOfList l) ∧ (bmapOfList l).length ≤ l.length ∧
    ∀ x, x ∈ (bmapOfList l).map Prod.fst ↔ x ∈ l.map Prod.fst := by
  have key : ∀ (l m : List (κ × α)), BMapOk m →
      BMapOk (l.foldl (fun m e => bmapInsert e.1 e.2 m) m) ∧
      (l.foldl (fun m e => bmapInsert e.1 e.2 m) m).length ≤ l.length + m.length ∧
      ∀ x, x ∈ (l.foldl (fun m e => bmapInsert e.1 e.2 m) m).map Prod.fst ↔
        x ∈ l.map Prod.fst ∨ x ∈ m.map Prod.fst := by
    intro l
    induction l with
    | nil => intro m hm; simp [hm]
    | cons e l ih =>
      intro m hm
      obtain ⟨h1, h2, h3⟩ := ih (bmapInsert e.1 e.2 m) (bmapInsert_sorted hm)
      rw [List.foldl_cons]
      refine ⟨h1, ?_, ?_⟩
      · have := bmapInsert_length_le (k := e.1) (v := e.2) (m := m)
        simp only [List.length_cons]
        omega
      · intro x
        rw [h3, mem_bmapInsert_key, List.map_cons, List.mem_cons]
        exact ⟨fun h => by rcases h with h | h | h <;> simp [h], fun h => by
          rcases h with (h | h) | h <;> simp [h]⟩
  have := key l [] (by simp [BMapOk])
  simpa [bmapOfList] using this

/-- Product of the slot counts at depth `d` for the `k` cofactors from `c` on. -/
def blockProd (d c : Nat) : (k : Nat) → Nat
  | 0 => 1
  | k + 1 => max (2 ^ d - (c + k)) 1 * blockProd d c k

theorem blockProd_dvd {d c i : Nat} : ∀ {k : Nat}, i < k →
    max (2 ^ d - (c + i)) 1 ∣ blockProd d c k := by
  intro k
  induction k with
  | zero => intro h; omega
  | succ k ih =>
    intro h
    rcases Nat.lt_or_ge i k with h1 | h1
    · exact Nat.dvd_trans (ih h1) (Nat.dvd_mul_left _ _)
    · have : i = k := by omega
      subst this
      exact Nat.dvd_mul_right _ _

theorem blockProd_bounds {d c : Nat} (hd : d ≤ 31) : ∀ {k : Nat},
    0 < blockProd d c k ∧ blockProd d c k ≤ 2 ^ (31 * k) := by
  intro k
  induction k with
  | zero => simp [blockProd]
  | succ k ih =>
    have h31 : (2:Nat) ^ d ≤ 2 ^ 31 := Nat.pow_le_pow_right (by decide) hd
    refine ⟨Nat.mul_pos (by omega) ih.1, ?_⟩
    rw [blockProd, Nat.mul_succ, Nat.add_comm (31 * k), Nat.pow_add]
    exact Nat.mul_le_mul (by omega) ih.2

/-- Ids that collide with id zero: one for each depth and each block of eight cofactors. -/
def evilIds (lo : Nat) : List ProtocolId :=
  Bytes32.ofNat 0 :: (List.range' lo (32 - lo)).flatMap fun d =>
    (List.range 63).map fun j => Bytes32.ofNat (blockProd d (8 * j) 8)

theorem evilIds_length (lo : Nat) : (evilIds lo).length = 1 + (32 - lo) * 63 := by
  have : ∀ n lo, ((List.range' lo n).flatMap fun d =>
      (List.range 63).map fun j => Bytes32.ofNat (blockProd d (8 * j) 8)).length = n * 63 := by
    intro n
    induction n with
    | zero => simp
    | succ n ih =>
      intro lo
      rw [List.range'_succ, List.flatMap_cons, List.length_append, ih, List.length_map,
        List.length_range]
      omega
  rw [evilIds, List.length_cons, this]
  omega

theorem evilIds_collide {ids : List ProtocolId} {lo d c : Nat}
    (h : ∀ x ∈ evilIds lo, x ∈ ids) (h1 : lo ≤ d) (h2 : d ≤ 31) (hc : c ≤ 500) :
    ¬ Separates ids d c := by
  intro hs
  have hb := blockProd_bounds (d := d) (c := 8 * (c / 8)) h2 (k := 8)
  have hval : (Bytes32.ofNat (blockProd d (8 * (c / 8)) 8)).toNat = blockProd d (8 * (c / 8)) 8 :=
    Bytes32.toNat_ofNat (by
      have : (2:Nat) ^ (31 * 8) < 2 ^ 256 := by decide +kernel
      omega)
  have hmem : Bytes32.ofNat (blockProd d (8 * (c / 8)) 8) ∈ ids := by
    apply h
    refine List.mem_cons_of_mem _ (List.mem_flatMap.2 ⟨d, ?_, List.mem_map.2 ⟨c / 8, ?_, rfl⟩⟩)
    · rw [List.mem_range'_1]; omega
    · rw [List.mem_range]; omega
  have hzero : Bytes32.ofNat 0 ∈ ids := h _ (List.mem_cons_self ..)
  have hz : (Bytes32.ofNat 0).toNat = 0 := Bytes32.toNat_ofNat (by decide)
  have hne : Bytes32.ofNat 0 ≠ Bytes32.ofNat (blockProd d (8 * (c / 8)) 8) := by
    intro e
    have := congrArg Bytes32.toNat e
    rw [hval, hz] at this
    omega
  have hslot : slotOf (Bytes32.ofNat (blockProd d (8 * (c / 8)) 8)) c d = slotOf (Bytes32.ofNat 0) c d := by
    simp only [slotOf, hval, hz, Nat.zero_mod]
    have := blockProd_dvd (d := d) (c := 8 * (c / 8)) (i := c % 8) (k := 8) (by omega)
    rw [show 8 * (c / 8) + c % 8 = c by omega] at this
    exact Nat.mod_eq_zero_of_dvd this
  have hs2 : ids.Pairwise fun a b => a ≠ b → slotOf a c d ≠ slotOf b c d :=
    List.Pairwise.imp (fun {a b} (h : slotOf a c d ≠ slotOf b c d) (_ : a ≠ b) => h) hs
  have hs3 : ids.Pairwise fun a b => b ≠ a → slotOf b c d ≠ slotOf a c d :=
    List.Pairwise.imp (fun {a b} (h : slotOf a c d ≠ slotOf b c d) (_ : b ≠ a) e => h e.symm) hs
  exact List.Pairwise.forall_of_forall_of_flip (fun x _ hx => absurd rfl hx) hs2 hs3
    hmem hzero (fun e => hne e.symm) hslot

/-- The slot counts of the last `k + 1` depths are enough for `pairs` pairs of ids. -/
@[irreducible] def Enough (k pairs : Nat) : Prop := 2 ^ (256 * pairs) < lcmDepths k

set_option maxRecDepth 10000 in
theorem lcm_table :
    Enough 0 45 ∧
    Enough 1 66 ∧
    Enough 2 78 ∧
    Enough 3 105 ∧
    Enough 4 120 ∧
    Enough 5 136 ∧
    Enough 7 153 ∧
    Enough 8 171 ∧
    Enough 10 190 ∧
    Enough 12 210 ∧
    Enough 17 231 := by
  refine ⟨?_, ?_, ?_, ?_, ?_, ?_, ?_, ?_, ?_, ?_, ?_⟩ <;> unfold Enough <;> decide +kernel

end CSV
