import Verif.Model.Text
import Verif.Prelude.BMap

/-!
# C96: ids as bytes, as numbers and as text

The order of ids is the order of their bytes, `<` on lists being the lexicographic order.
-/

namespace CSV

/-- **C96** An id is read from raw bytes exactly if there are 32 of them, and it then has these bytes. -/
theorem C96_bytes (s : Bytes) :
    (∀ x, Bytes32.copyFromSlice s = some x ↔ x.bytes = s) ∧
    ((∃ x, Bytes32.copyFromSlice s = some x) ↔ s.length = 32) := by
  have h : ∀ x, Bytes32.copyFromSlice s = some x ↔ x.bytes = s := by
    intro x
    rw [Bytes32.copyFromSlice]
    split
    · rw [Option.some.injEq]
      exact ⟨fun e => by rw [← e], fun e => Bytes32.ext' e.symm⟩
    · next hl => exact ⟨nofun, fun e => absurd (e ▸ x.len) hl⟩
  refine ⟨h, fun ⟨x, hx⟩ => ?_, fun hl => ⟨⟨s, hl⟩, (h _).2 rfl⟩⟩
  rw [← (h x).1 hx, x.len]

private theorem leNat_append (a b : Bytes) : leNat (a ++ b) = leNat a + 256 ^ a.length * leNat b := by
  induction a with
  | nil => simp [leNat]
  | cons x a ih =>
    rw [List.cons_append, leNat, leNat, ih, List.length_cons, Nat.pow_succ, Nat.mul_add, ← Nat.mul_assoc,
      Nat.mul_comm 256 (256 ^ a.length), Nat.add_assoc]

private theorem beNat_cons (x : UInt8) (l : Bytes) : beNat (x :: l) = x.toNat * 256 ^ l.length + beNat l := by
  rw [beNat, List.reverse_cons, leNat_append, List.length_reverse]
  simp [leNat, beNat, Nat.mul_comm, Nat.add_comm]

private theorem beNat_lt (l : Bytes) : beNat l < 256 ^ l.length := by
  have := leNat_lt l.reverse
  rwa [List.length_reverse] at this

private theorem order_bytes : ∀ (a b : Bytes), a.length = b.length → (beNat a < beNat b ↔ a < b)
  | [], [], _ => by simp
  | x :: a, y :: b, h => by
    have hl : a.length = b.length := by simpa using h
    have ih := order_bytes a b hl
    rw [beNat_cons, beNat_cons, List.cons_lt_cons_iff, ← ih, UInt8.lt_iff_toNat_lt, ← UInt8.toNat_inj, hl]
    have h1 := beNat_lt a
    have h2 := beNat_lt b
    rw [hl] at h1
    generalize 256 ^ b.length = w at *
    rcases Nat.lt_trichotomy x.toNat y.toNat with hx | hx | hx
    · have : (x.toNat + 1) * w ≤ y.toNat * w := Nat.mul_le_mul_right _ hx
      rw [Nat.add_mul] at this
      omega
    · rw [hx]; omega
    · have : (y.toNat + 1) * w ≤ x.toNat * w := Nat.mul_le_mul_right _ hx
      rw [Nat.add_mul] at this
      omega

private theorem digit_lt : ∀ x y : Fin 16, x.val.digitChar < y.val.digitChar ↔ x < y := by
  decide +kernel

private theorem digit_eq : ∀ x y : Fin 16, x.val.digitChar = y.val.digitChar ↔ x = y := by
  decide +kernel

private theorem order_text : ∀ (a b : Bytes), a.length = b.length → (a.flatMap hexByte < b.flatMap hexByte ↔ a < b)
  | [], [], _ => by simp
  | x :: a, y :: b, h => by
    have ih := order_text a b (by simpa using h)
    have hx := x.toNat_lt
    have hy := y.toNat_lt
    have h1 := digit_lt ⟨x.toNat / 16, by omega⟩ ⟨y.toNat / 16, by omega⟩
    have h2 := digit_eq ⟨x.toNat / 16, by omega⟩ ⟨y.toNat / 16, by omega⟩
    have h3 := digit_lt ⟨x.toNat % 16, by omega⟩ ⟨y.toNat % 16, by omega⟩
    have h4 := digit_eq ⟨x.toNat % 16, by omega⟩ ⟨y.toNat % 16, by omega⟩
    simp only [Fin.mk_lt_mk, Fin.mk.injEq] at h1 h2 h3 h4
    rw [List.cons_lt_cons_iff, ← ih, List.flatMap_cons, List.flatMap_cons, hexByte, hexByte, List.cons_append,
      List.cons_append, List.cons_append, List.cons_append, List.nil_append, List.nil_append,
      List.cons_lt_cons_iff, List.cons_lt_cons_iff, h1, h2, h3, h4, UInt8.lt_iff_toNat_lt, ← UInt8.toNat_inj]
    by_cases hp : a.flatMap hexByte < b.flatMap hexByte <;> simp only [hp, and_true, and_false, or_false] <;> omega

/-- **C96** One id is smaller than another exactly if its bytes come first in lexicographic order, and exactly if
its text does. -/
theorem C96_order (a b : Bytes32) :
    (OrdKey.key a < OrdKey.key b ↔ a.bytes < b.bytes) ∧ (a.display < b.display ↔ a.bytes < b.bytes) := by
  have hl : a.bytes.length = b.bytes.length := by rw [a.len, b.len]
  exact ⟨order_bytes _ _ hl, order_text _ _ hl⟩

/-- Non-vacuity of `C96_bytes`. -/
example : Bytes32.copyFromSlice (List.replicate 32 7) = some (Bytes32.fill 7) ∧
    Bytes32.copyFromSlice (List.replicate 31 7) = none ∧ Bytes32.copyFromSlice (List.replicate 33 7) = none := by
  decide

/-- Non-vacuity of `C96_order`: the first byte decides, the number by which slots are chosen does not. -/
example : (Bytes32.ofNat 256).bytes < (Bytes32.ofNat 1).bytes ∧
    (Bytes32.ofNat 1).toNat < (Bytes32.ofNat 256).toNat := by
  decide +kernel

end CSV
