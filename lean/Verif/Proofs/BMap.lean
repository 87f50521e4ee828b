import Verif.Prelude.BMap

/-!
# Facts about ordered maps and sets
-/

namespace CSV

open OrdKey

variable {κ α : Type} [OrdKey κ]

theorem mem_bsetInsert {k x : κ} {m : List κ} : x ∈ bsetInsert k m ↔ x = k ∨ x ∈ m := by
  induction m with
  | nil => simp [bsetInsert]
  | cons k' m ih =>
    simp only [bsetInsert]
    split
    · simp
    · split
      · rename_i h1 h2
        have := inj h2
        subst this
        simp
      · simp only [List.mem_cons, ih]
        constructor <;> intro h <;> rcases h with h | h | h <;> simp [h]

theorem bsetInsert_sorted {k : κ} {m : List κ} (h : BSetOk m) : BSetOk (bsetInsert k m) := by
  induction m with
  | nil => simp [bsetInsert, BSetOk]
  | cons k' m ih =>
    simp only [BSetOk, List.pairwise_cons] at h
    simp only [bsetInsert]
    split
    · rename_i h1
      simp only [BSetOk, List.pairwise_cons, List.mem_cons, forall_eq_or_imp]
      exact ⟨⟨h1, fun a ha => Nat.lt_trans h1 (h.1 a ha)⟩, h⟩
    · split
      · simp only [BSetOk, List.pairwise_cons]; exact h
      · rename_i h1 h2
        simp only [BSetOk, List.pairwise_cons]
        refine ⟨fun a ha => ?_, ih h.2⟩
        rcases mem_bsetInsert.mp ha with rfl | ha
        · omega
        · exact h.1 a ha

theorem bset_foldl {l m : List κ} (h : BSetOk m) :
    BSetOk (l.foldl (fun m e => bsetInsert e m) m) ∧
    ∀ x, x ∈ l.foldl (fun m e => bsetInsert e m) m ↔ x ∈ l ∨ x ∈ m := by
  induction l generalizing m with
  | nil => simpa using h
  | cons a l ih =>
    have := ih (bsetInsert_sorted (k := a) h)
    refine ⟨this.1, fun x => ?_⟩
    simp only [List.foldl_cons, this.2, mem_bsetInsert, List.mem_cons]
    grind

theorem bsetOfList_sorted (l : List κ) : BSetOk (bsetOfList l) := (bset_foldl (by simp [BSetOk])).1

theorem mem_bsetOfList {l : List κ} {x : κ} : x ∈ bsetOfList l ↔ x ∈ l := by
  simpa [bsetOfList] using (bset_foldl (l := l) (m := []) (by simp [BSetOk])).2 x

theorem bsetRemove_eq_filter [DecidableEq κ] {k : κ} {m : List κ} (h : BSetOk m) :
    bsetRemove k m = m.filter (fun x => decide (x ≠ k)) := by
  induction m with
  | nil => rfl
  | cons k' m ih =>
    simp only [BSetOk, List.pairwise_cons] at h
    simp only [bsetRemove]
    split
    · rename_i h1
      have := inj h1
      subst this
      rw [List.filter_cons_of_neg (by simp)]
      refine (List.filter_eq_self.mpr fun a ha => ?_).symm
      have := h.1 a ha
      simp only [ne_eq, decide_not, Bool.not_eq_eq_eq_not, Bool.not_true, decide_eq_false_iff_not]
      rintro rfl
      omega
    · rename_i h1
      rw [List.filter_cons_of_pos, ih h.2]
      simp only [ne_eq, decide_not, Bool.not_eq_eq_eq_not, Bool.not_true, decide_eq_false_iff_not]
      rintro rfl
      exact h1 rfl

theorem BSetOk.filter {m : List κ} (h : BSetOk m) (f : κ → Bool) : BSetOk (m.filter f) :=
  h.sublist List.filter_sublist

/-- Two ordered sets with the same members are equal. -/
theorem BSetOk.ext {m n : List κ} (hm : BSetOk m) (hn : BSetOk n) (h : ∀ x, x ∈ m ↔ x ∈ n) :
    m = n := by
  induction m generalizing n with
  | nil =>
    cases n with
    | nil => rfl
    | cons b n => exact absurd ((h b).mpr (by simp)) (by simp)
  | cons a m ih =>
    cases n with
    | nil => exact absurd ((h a).mp (by simp)) (by simp)
    | cons b n =>
      simp only [BSetOk, List.pairwise_cons] at hm hn
      have hab : a = b := by
        rcases List.mem_cons.mp ((h a).mp (by simp)) with h1 | h1
        · exact h1
        · rcases List.mem_cons.mp ((h b).mpr (by simp)) with h2 | h2
          · exact h2.symm
          · have := hn.1 a h1
            have := hm.1 b h2
            omega
      subst hab
      congr 1
      refine ih hm.2 hn.2 fun x => ?_
      constructor
      · intro hx
        rcases List.mem_cons.mp ((h x).mp (by simp [hx])) with rfl | h1
        · exact absurd (hm.1 x hx) (by omega)
        · exact h1
      · intro hx
        rcases List.mem_cons.mp ((h x).mpr (by simp [hx])) with rfl | h1
        · exact absurd (hn.1 x hx) (by omega)
        · exact h1

/-! ## Maps -/

theorem bmapGet_insert_self {k : κ} {v : α} {m : List (κ × α)} :
    bmapGet k (bmapInsert k v m) = some v := by
  induction m with
  | nil => simp [bmapInsert, bmapGet]
  | cons e m ih =>
    obtain ⟨k', v'⟩ := e
    simp only [bmapInsert]
    split
    · simp [bmapGet]
    · split
      · simp [bmapGet]
      · rename_i h1 h2
        simp only [bmapGet, if_neg h2, ih]

theorem bmapGet_insert_ne {k k2 : κ} {v : α} {m : List (κ × α)} (h : k2 ≠ k) :
    bmapGet k2 (bmapInsert k v m) = bmapGet k2 m := by
  have hk : key k2 ≠ key k := fun e => h (inj e)
  induction m with
  | nil => simp [bmapInsert, bmapGet, hk]
  | cons e m ih =>
    obtain ⟨k', v'⟩ := e
    simp only [bmapInsert]
    split
    · simp [bmapGet, hk]
    · split
      · rename_i h1 h2
        simp only [bmapGet, if_neg hk, ← h2]
      · simp only [bmapGet, ih]

theorem mem_bmapInsert_key {k x : κ} {v : α} {m : List (κ × α)} :
    x ∈ (bmapInsert k v m).map Prod.fst ↔ x = k ∨ x ∈ m.map Prod.fst := by
  induction m with
  | nil => simp [bmapInsert]
  | cons e m ih =>
    obtain ⟨k', v'⟩ := e
    simp only [bmapInsert]
    split
    · simp
    · split
      · rename_i h1 h2
        have := inj h2
        subst this
        simp
      · simp only [List.map_cons, List.mem_cons, ih]
        constructor <;> intro h <;> rcases h with h | h | h <;> simp [h]

theorem bmapInsert_sorted {k : κ} {v : α} {m : List (κ × α)} (h : BMapOk m) :
    BMapOk (bmapInsert k v m) := by
  induction m with
  | nil => simp [bmapInsert, BMapOk]
  | cons e m ih =>
    obtain ⟨k', v'⟩ := e
    simp only [BMapOk, List.pairwise_cons] at h
    simp only [bmapInsert]
    split
    · rename_i h1
      simp only [BMapOk, List.pairwise_cons, List.mem_cons, forall_eq_or_imp]
      exact ⟨⟨h1, fun a ha => Nat.lt_trans h1 (h.1 a ha)⟩, h⟩
    · split
      · rename_i h1 h2
        simp only [BMapOk, List.pairwise_cons]
        exact ⟨fun a ha => by rw [h2]; exact h.1 a ha, h.2⟩
      · rename_i h1 h2
        simp only [BMapOk, List.pairwise_cons]
        refine ⟨fun a ha => ?_, ih h.2⟩
        have : a.1 ∈ (bmapInsert k v m).map Prod.fst := List.mem_map_of_mem ha
        rcases mem_bmapInsert_key.mp this with h3 | h3
        · rw [h3]; omega
        · obtain ⟨b, hb, hb'⟩ := List.mem_map.mp h3
          rw [← hb']
          exact h.1 b hb

theorem bmapGet_eq_none {k : κ} {m : List (κ × α)} :
    bmapGet k m = none ↔ k ∉ m.map Prod.fst := by
  induction m with
  | nil => simp [bmapGet]
  | cons e m ih =>
    obtain ⟨k', v'⟩ := e
    simp only [bmapGet, List.map_cons, List.mem_cons, not_or]
    split
    · rename_i h
      simp [inj h]
    · rename_i h
      rw [ih]
      constructor
      · intro h2; exact ⟨fun e => h (by rw [e]), h2⟩
      · exact fun h2 => h2.2

theorem bmapGet_mem {k : κ} {v : α} {m : List (κ × α)} (h : bmapGet k m = some v) :
    (k, v) ∈ m := by
  induction m with
  | nil => simp [bmapGet] at h
  | cons e m ih =>
    obtain ⟨k', v'⟩ := e
    simp only [bmapGet] at h
    split at h
    · rename_i h1
      have := inj h1
      simp_all
    · simp [ih h]

theorem mem_bmapGet {k : κ} {v : α} {m : List (κ × α)} (hm : BMapOk m) (h : (k, v) ∈ m) :
    bmapGet k m = some v := by
  induction m with
  | nil => simp at h
  | cons e m ih =>
    obtain ⟨k', v'⟩ := e
    simp only [BMapOk, List.pairwise_cons] at hm
    simp only [bmapGet]
    rcases List.mem_cons.mp h with h1 | h1
    · simp only [Prod.mk.injEq] at h1
      simp [h1.1, h1.2]
    · have := hm.1 _ h1
      simp only at this
      rw [if_neg (by omega), ih hm.2 h1]

/-- Two ordered maps with the same entries are equal. -/
theorem BMapOk.ext {m n : List (κ × α)} (hm : BMapOk m) (hn : BMapOk n)
    (h : ∀ k, bmapGet k m = bmapGet k n) : m = n := by
  have hmem : ∀ x, x ∈ m ↔ x ∈ n := by
    rintro ⟨k, v⟩
    constructor
    · intro hx; exact bmapGet_mem (by rw [← h]; exact mem_bmapGet hm hx)
    · intro hx; exact bmapGet_mem (by rw [h]; exact mem_bmapGet hn hx)
  clear h
  induction m generalizing n with
  | nil =>
    cases n with
    | nil => rfl
    | cons b n => exact absurd ((hmem b).mpr (by simp)) (by simp)
  | cons a m ih =>
    cases n with
    | nil => exact absurd ((hmem a).mp (by simp)) (by simp)
    | cons b n =>
      simp only [BMapOk, List.pairwise_cons] at hm hn
      have hab : a = b := by
        rcases List.mem_cons.mp ((hmem a).mp (by simp)) with h1 | h1
        · exact h1
        · rcases List.mem_cons.mp ((hmem b).mpr (by simp)) with h2 | h2
          · exact h2.symm
          · have := hn.1 a h1
            have := hm.1 b h2
            omega
      subst hab
      congr 1
      refine ih hm.2 hn.2 fun x => ?_
      constructor
      · intro hx
        rcases List.mem_cons.mp ((hmem x).mp (by simp [hx])) with rfl | h1
        · exact absurd (hm.1 x hx) (by omega)
        · exact h1
      · intro hx
        rcases List.mem_cons.mp ((hmem x).mpr (by simp [hx])) with rfl | h1
        · exact absurd (hn.1 x hx) (by omega)
        · exact h1

end CSV
