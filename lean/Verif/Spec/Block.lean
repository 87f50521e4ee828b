import Verif.Spec.View

/-!
# Specification: what a block reveals, histories, profiles
-/

namespace CSV

/-- The messages a block reveals, from left to right. -/
def MerkleBlock.knownMessages (b : MerkleBlock) : List (ProtocolId × Message) :=
  b.crossSection.filterMap fun
    | .concealed _ _ => none
    | .leaf p m => some (p, m)

/-- Calls `conceal_except` with one list of protocols after the other, ignoring the results. -/
def MerkleBlock.concealMany [Env] (b : MerkleBlock) : List (List ProtocolId) → Exec MerkleBlock
  | [] => .ok b
  | ps :: rest => do
    let (b', _) ← b.concealExcept ps
    b'.concealMany rest

/-- The same hash function in the given build profile. -/
@[instance_reducible] def profile (e : Env) (debug : Bool) : Env := ⟨e.sha256, debug⟩

end CSV
