import Verif.Model.Sha256

/-!
# Calls of the compression function of SHA256
-/

namespace CSV.Sha

/-- The words of a padded string in groups of 16. -/
def chunks : (fuel : Nat) → List Nat → List (List Nat)
  | 0, _ => []
  | fuel + 1, ws => match ws with
    | [] => []
    | ws => ws.take 16 :: chunks fuel (ws.drop 16)

/-- The arguments with which the compression function is called for the groups, from a given state. -/
def callsFrom : List (List Nat) → St → List (St × List Nat)
  | [], _ => []
  | ws :: rest, s => (s, ws) :: callsFrom rest (block s ws)

/-- The arguments with which the compression function is called when a string is hashed. -/
def calls (bs : Bytes) : List (St × List Nat) :=
  callsFrom (chunks (bs.length / 64 + 2) (words (pad bs))) H0

/-- No two different calls have the same result. -/
def NoClash (l : List (St × List Nat)) : Prop :=
  ∀ x ∈ l, ∀ y ∈ l, block x.1 x.2 = block y.1 y.2 → x = y

end CSV.Sha
