import Verif.Spec.Tree
import Verif.Spec.Proof

/-!
# Specification: what a partial tree shows at a slot
-/

namespace CSV

/-- What a partial tree of height `n` shows at slot `pos`; nothing if the slot is inside a hidden part. -/
def PT.slotAt : PT → (n pos : Nat) → Option PT
  | t, 0, _ => some t
  | .node l r, n + 1, pos => if 2 ^ n ≤ pos then r.slotAt n (pos - 2 ^ n) else l.slotAt n pos
  | .hidden _, _ + 1, _ => none
  | .leaf _ _, _ + 1, _ => none

/-- The slot shows a message of another protocol than `p`, or the hash of the leaf with which slots are
filled that no protocol uses, for the entropy `e`. -/
def PT.Excludes [Env] (t : PT) (n pos : Nat) (p : ProtocolId) (e : UInt64) : Prop :=
  (∃ q m, t.slotAt n pos = some (.leaf q m) ∧ q ≠ p) ∨
  t.slotAt n pos = some (.hidden (leafHash (.entropy e (UInt32.ofNat pos))))

instance [Env] (t : PT) (n pos : Nat) (p : ProtocolId) (e : UInt64) : Decidable (t.Excludes n pos p e) :=
  match h : t.slotAt n pos with
  | some (.leaf q m) =>
    if hq : q = p then
      .isFalse (by
        rintro (⟨q', m', h1, h2⟩ | h1)
        · rw [h] at h1; cases h1; exact h2 hq
        · rw [h] at h1; cases h1)
    else .isTrue (.inl ⟨q, m, h, hq⟩)
  | some (.hidden x) =>
    if hx : x = leafHash (.entropy e (UInt32.ofNat pos)) then .isTrue (.inr (by rw [h, hx]))
    else .isFalse (by
        rintro (⟨q', m', h1, h2⟩ | h1)
        · rw [h] at h1; cases h1
        · rw [h] at h1; cases h1; exact hx rfl)
  | some (.node _ _) => .isFalse (by
        rintro (⟨q', m', h1, h2⟩ | h1)
        · rw [h] at h1; cases h1
        · rw [h] at h1; cases h1)
  | none => .isFalse (by
        rintro (⟨q', m', h1, h2⟩ | h1)
        · rw [h] at h1; cases h1
        · rw [h] at h1; cases h1)

end CSV
