import Verif.Model.Merkle

/-!
# Specification: depths of the leaves of a binary tree
-/

namespace CSV

/-- The shape of a subtree. -/
inductive Shape where
  /-- a node that is not divided -/
  | tip
  /-- a node with two branches -/
  | fork (left right : Shape)

/-- Depths of the tips of a subtree whose root is at depth `d`, from left to right. -/
def Shape.depths : Shape → (d : Nat) → List Nat
  | .tip, d => [d]
  | .fork l r, d => l.depths (d + 1) ++ r.depths (d + 1)

/-- Pushes the depths one after the other. -/
def Buoy.pushAll (s : Buoy) : List U5 → Exec Buoy
  | [] => .ok s
  | e :: rest => do let (s', _) ← s.push e; s'.pushAll rest

/-- The level of the outermost buoy, which nested buoys do not change. -/
def Buoy.base : Buoy → U5
  | .leaf b => b
  | .stacked b _ => b

end CSV
