import Verif.Spec.Commit

/-!
# Specification: all lists of protocol ids, to count those with a property
-/

namespace CSV

/-- All protocol ids, each once. -/
@[irreducible] def allIds : List ProtocolId := (List.range (2 ^ 256)).map Bytes32.ofNat

/-- All lists of `n` protocol ids, each once. -/
def idLists : Nat → List (List ProtocolId)
  | 0 => [[]]
  | n + 1 => (idLists n).flatMap fun l => allIds.map (· :: l)

/-- `m * (m - 1) * ... * (m - n + 1)`. -/
def falling (m : Nat) : Nat → Nat
  | 0 => 1
  | n + 1 => falling m n * (m - n)

end CSV
