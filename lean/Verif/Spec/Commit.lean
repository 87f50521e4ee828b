import Verif.Spec.Proof

/-!
# Specification: how a tree is fitted to a set of protocols
-/

namespace CSV

/-- The slot of a protocol in a tree of depth `d` with cofactor `c`: the id as a little-endian
number, modulo `2^d - c` (at least one). -/
def slotOf (p : ProtocolId) (c d : Nat) : Nat := p.toNat % max (2 ^ d - c) 1

/-- All protocols have different slots. -/
def Separates (ids : List ProtocolId) (d c : Nat) : Prop :=
  ids.Pairwise fun p q => slotOf p c d ≠ slotOf q c d

instance (ids : List ProtocolId) (d c : Nat) : Decidable (Separates ids d c) :=
  inferInstanceAs (Decidable (ids.Pairwise _))

/-- The largest cofactor tried at depth `d`. -/
def maxCofactor (minDepth d : Nat) : Nat := if d = minDepth then 1 else min (2 ^ (d - 1)) 500

/-- The pairs of depth and cofactor that are tried for `n` messages. -/
def Attempt (n minDepth d c : Nat) : Prop :=
  minDepth ≤ d ∧ d ≤ 31 ∧ n ≤ 2 ^ d ∧ c ≤ maxCofactor minDepth d

instance (n minDepth d c : Nat) : Decidable (Attempt n minDepth d c) :=
  inferInstanceAs (Decidable (_ ∧ _ ∧ _ ∧ _))

/-- The order of attempts. -/
def Earlier (d' c' d c : Nat) : Prop := d' < d ∨ (d' = d ∧ c' < c)

/-- The ids of a source. -/
def MultiSource.ids (s : MultiSource) : List ProtocolId := s.messages.entries.map Prod.fst

/-- The tree holds each message of its `messages` in the slot of its protocol, and nothing else. -/
def MerkleTree.Holds (t : MerkleTree) : Prop :=
  ∀ (k : UInt32) (e : ProtocolId × Message),
    t.map.get k = some e ↔ e ∈ t.messages.entries ∧ k.toNat = slotOf e.1 t.cofactor.toNat t.depth.val

end CSV
