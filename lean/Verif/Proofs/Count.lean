import Verif.Spec.Count

/-!
# Counting lists of protocol ids
-/

namespace CSV

theorem mem_allIds (p : ProtocolId) : p ∈ allIds := by
  unfold allIds
  exact List.mem_map.2 ⟨p.toNat, List.mem_range.2 p.toNat_lt,
    Bytes32.toNat_inj (Bytes32.toNat_ofNat p.toNat_lt)⟩

theorem allIds_nodup : allIds.Nodup := by
  unfold allIds
  rw [List.Nodup, List.pairwise_map]
  refine List.nodup_range.imp_of_mem ?_
  intro a b ha hb hab he
  have := congrArg Bytes32.toNat he
  rw [Bytes32.toNat_ofNat (List.mem_range.1 ha), Bytes32.toNat_ofNat (List.mem_range.1 hb)] at this
  exact hab this

theorem allIds_length : allIds.length = 2 ^ 256 := by
  unfold allIds
  rw [List.length_map, List.length_range]

theorem mem_idLists (n : Nat) (l : List ProtocolId) : l ∈ idLists n ↔ l.length = n := by
  induction n generalizing l with
  | zero => simp [idLists]
  | succ n ih =>
    simp only [idLists, List.mem_flatMap, List.mem_map]
    constructor
    · rintro ⟨a, ha, p, _, rfl⟩
      rw [List.length_cons, (ih a).1 ha]
    · intro h
      rcases l with _ | ⟨p, l⟩
      · cases h
      · exact ⟨l, (ih l).2 (by simpa using h), p, mem_allIds p, rfl⟩

theorem idLists_nodup (n : Nat) : (idLists n).Nodup := by
  induction n with
  | zero => simp [idLists]
  | succ n ih =>
    rw [idLists, List.Nodup, List.pairwise_flatMap]
    refine ⟨fun l _ => ?_, ih.imp ?_⟩
    · rw [List.pairwise_map]
      refine allIds_nodup.imp ?_
      intro a b hab he
      exact hab (List.cons.inj he).1
    · intro a b hab x hx y hy he
      obtain ⟨p, _, rfl⟩ := List.mem_map.1 hx
      obtain ⟨q, _, rfl⟩ := List.mem_map.1 hy
      exact hab (List.cons.inj he).2

theorem idLists_length (n : Nat) : (idLists n).length = (2 ^ 256) ^ n := by
  induction n with
  | zero => simp [idLists]
  | succ n ih =>
    rw [idLists, List.length_flatMap]
    simp only [List.length_map, allIds_length]
    rw [List.map_const', List.sum_replicate_nat, ih]
    exact (Nat.pow_succ ..).symm

/-- Numbers below `m` outside a list. -/
private theorem countP_outside {m : Nat} {r : List Nat} (hn : r.Nodup) (hm : ∀ x ∈ r, x < m) :
    (List.range m).countP (fun x => decide (x ∉ r)) = m - r.length := by
  have h1 := List.length_eq_countP_add_countP (p := fun x => decide (x ∈ r)) (l := List.range m)
  have h2 : ((List.range m).filter fun x => decide (x ∈ r)).Perm r := by
    refine (List.perm_ext_iff_of_nodup (List.nodup_range.filter _) hn).2 ?_
    intro x
    simp only [List.mem_filter, List.mem_range, decide_eq_true_eq]
    exact ⟨fun h => h.2, fun h => ⟨hm x h, h⟩⟩
  have h3 : (List.range m).countP (fun x => decide (x ∈ r)) = r.length := by
    rw [List.countP_eq_length_filter]; exact h2.length_eq
  rw [List.length_range, h3] at h1
  have h4 : (List.range m).countP (fun x => decide (x ∉ r))
      = (List.range m).countP (fun a => decide ¬decide (a ∈ r) = true) := by
    congr 1; funext x; simp
  rw [h4]
  omega

/-- A property of the remainder holds for each multiple of the modulus equally often. -/
private theorem countP_mod {m : Nat} (p : Nat → Bool) (k : Nat) :
    (List.range (m * k)).countP (fun x => p (x % m)) = k * (List.range m).countP p := by
  induction k with
  | zero => simp
  | succ k ih =>
    rw [Nat.mul_succ, List.range_add, List.countP_append, ih, List.countP_map, Nat.succ_mul]
    congr 1
    refine List.countP_congr ?_
    intro x hx
    have := List.mem_range.1 hx
    simp [Function.comp, Nat.mod_eq_of_lt this]

private theorem countP_flatMap_const {α β : Type} {L : List α} {f : α → List β} {p : β → Bool}
    {q : α → Bool} {c : Nat} (h : ∀ a ∈ L, (f a).countP p = if q a then c else 0) :
    (L.flatMap f).countP p = L.countP q * c := by
  induction L with
  | nil => simp
  | cons a L ih =>
    rw [List.flatMap_cons, List.countP_append, h a (by simp), ih fun b hb => h b (by simp [hb]),
      List.countP_cons, Nat.add_mul]
    split <;> omega

theorem slotOf_zero (p : ProtocolId) (d : Nat) : slotOf p 0 d = p.toNat % 2 ^ d := by
  have : 0 < 2 ^ d := Nat.two_pow_pos d
  rw [slotOf, Nat.sub_zero, Nat.max_eq_left this]

/-- Ids that can be added to a separated list. -/
private theorem countP_new {l : List ProtocolId} {d : Nat} (hd : d ≤ 256)
    (hs : Separates l d 0) :
    allIds.countP (fun p => decide (Separates (p :: l) d 0)) = 2 ^ (256 - d) * (2 ^ d - l.length) := by
  let r := l.map fun q => q.toNat % 2 ^ d
  have hr : r.Nodup := by
    rw [List.Nodup, List.pairwise_map]
    refine List.Pairwise.imp ?_ hs
    intro a b h
    rwa [slotOf_zero, slotOf_zero] at h
  have hm : ∀ x ∈ r, x < 2 ^ d := by
    intro x hx
    obtain ⟨q, _, rfl⟩ := List.mem_map.1 hx
    exact Nat.mod_lt _ (Nat.two_pow_pos d)
  have h1 := countP_outside hr hm
  have h2 := countP_mod (m := 2 ^ d) (fun x => decide (x ∉ r)) (2 ^ (256 - d))
  rw [← Nat.pow_add, Nat.add_sub_cancel' hd, h1] at h2
  rw [show r.length = l.length from List.length_map ..] at h2
  rw [← h2]
  unfold allIds
  rw [List.countP_map]
  refine List.countP_congr ?_
  intro x hx
  have hx := List.mem_range.1 hx
  simp only [Function.comp, decide_eq_true_eq, Separates, List.pairwise_cons]
  constructor
  · rintro ⟨h, -⟩ hmem
    obtain ⟨q, hq, he⟩ := List.mem_map.1 hmem
    have := h q hq
    rw [slotOf_zero, slotOf_zero, Bytes32.toNat_ofNat hx] at this
    exact this he.symm
  · intro h
    refine ⟨?_, hs⟩
    intro q hq he
    rw [slotOf_zero, slotOf_zero, Bytes32.toNat_ofNat hx] at he
    exact h (List.mem_map.2 ⟨q, hq, he.symm⟩)

theorem separated_count {d : Nat} (hd : d ≤ 256) (n : Nat) :
    (idLists n).countP (fun l => decide (Separates l d 0))
      = (2 ^ (256 - d)) ^ n * falling (2 ^ d) n := by
  induction n with
  | zero => simp [idLists, falling, Separates]
  | succ n ih =>
    rw [idLists, countP_flatMap_const (q := fun l => decide (Separates l d 0))
      (c := 2 ^ (256 - d) * (2 ^ d - n)), ih, falling, Nat.pow_succ]
    · grind
    · intro l hl
      rw [List.countP_map]
      have hn := (mem_idLists n l).1 hl
      by_cases hs : Separates l d 0
      · simp only [hs, decide_true, if_true]
        rw [← hn]
        exact countP_new hd hs
      · simp only [hs, decide_false]
        refine List.countP_eq_zero.2 ?_
        intro p _ h
        simp only [Function.comp, decide_eq_true_eq, Separates, List.pairwise_cons] at h
        exact hs h.2

/-- Bernoulli's inequality for falling factorials. -/
theorem falling_bound {m : Nat} (hm : 0 < m) (n : Nat) :
    2 * m * m ^ n ≤ 2 * m * falling m n + n * (n - 1) * m ^ n := by
  induction n with
  | zero => simp [falling]
  | succ n ih =>
    rw [falling, Nat.pow_succ, Nat.add_sub_cancel]
    rcases Nat.lt_or_ge n m with h | h
    · obtain ⟨k, rfl⟩ := Nat.exists_eq_add_of_lt h
      rw [show n + k + 1 - n = k + 1 by omega]
      generalize hP : (n + k + 1) ^ n = P at *
      generalize hF : falling (n + k + 1) n = F at *
      have h1 := Nat.mul_le_mul_right (k + 1) ih
      rcases n with _ | n
      · simp only [Nat.zero_add] at *
        grind
      · rw [Nat.add_sub_cancel] at h1
        have h2 : 0 ≤ (n + 1) * ((n + 1) * n) * P := Nat.zero_le _
        have e : 2 * (n + 1 + k + 1) * (P * (n + 1 + k + 1)) + (n + 1) * ((n + 1) * n) * P
            = 2 * (n + 1 + k + 1) * P * (k + 1) + 2 * (n + 1 + k + 1) * P * (n + 1)
              + (n + 1) * ((n + 1) * n) * P := by grind
        have e' : (n + 1 + 1) * (n + 1) * (P * (n + 1 + k + 1))
            = (n + 1) * n * P * (k + 1) + (n + 1) * ((n + 1) * n) * P
              + 2 * (n + 1 + k + 1) * P * (n + 1) := by grind
        have e'' : 2 * (n + 1 + k + 1) * (F * (k + 1)) = 2 * (n + 1 + k + 1) * F * (k + 1) := by grind
        rw [Nat.add_mul] at h1
        omega
    · rcases n with _ | n
      · omega
      have h1 : 2 * m ≤ (n + 1 + 1) * (n + 1) := Nat.mul_le_mul (by omega) h
      exact Nat.le_trans (Nat.mul_le_mul_right _ h1) (Nat.le_add_left _ _)

end CSV
