import Verif.Spec.Buoy
import Verif.Model.Literal

/-!
# Specification: buoys for any type of depths
-/

namespace CSV

open Literal

/-- The depths of type `D` are numbers: `val` gives the number, the default is 0, and 1 can be subtracted from
any other number. -/
structure DepthLaws {D : Type} [BuoyDepth D] (val : D → Nat) : Prop where
  /-- different depths are different numbers -/
  inj : ∀ a b, val a = val b → a = b
  /-- the default is 0 -/
  zero : val BuoyDepth.default = 0
  /-- subtraction of 1 -/
  sub : ∀ d, val d ≠ 0 → ∃ d', BuoyDepth.subOne d = .ok d' ∧ val d' + 1 = val d

/-- Pushes the depths one after the other. -/
def Literal.MerkleBuoy.pushAll {D : Type} [DecidableEq D] [BuoyDepth D] (s : MerkleBuoy D) :
    List D → Exec (MerkleBuoy D)
  | [] => .ok s
  | e :: rest => do
    let (s', _) ← s.push e
    s'.pushAll rest

/-- The share of a tree which nodes at the given depths cover, in units of `2 ^ -n`. -/
def share (n : Nat) : List Nat → Nat
  | [] => 0
  | d :: ds => 2 ^ (n - d) + share n ds

end CSV
