import Verif.Model.Derive
import Verif.Model.Sha256

/-!
# The model against the test vectors of the repository

The commitments expected in `/repo/commit_verify/derive/tests/base.rs:62-247` are those the model computes
with its SHA256. These are tests of the model, not proofs of properties.
-/

namespace CSV.Vectors

/-- `DumbId`, `/repo/commit_verify/derive/tests/base.rs:38-54`. -/
def dumbId : IdType := ⟨"TestLib", some "DumbId", ""⟩

/-- A value with its strict encoding as the test writes it. -/
structure Raw where
  bytes : Bytes

instance : StrictEncode Raw where
  libName := "TestLib"
  typeName := some "Raw"
  enc r := r.bytes

/-- `Conceal for Data`, `/repo/commit_verify/derive/tests/base.rs:209-212`: `Concealed(0xde)`. -/
instance : Conceal Raw Raw where
  conceal _ := .ok ⟨[1, 0xde]⟩

/-- Hexadecimal digits of bytes. -/
def hex (b : Bytes) : String :=
  let digit (n : UInt8) : Char := "0123456789abcdef".toList.getD n.toNat '0'
  String.ofList (b.flatMap fun x => [digit (x / 16), digit (x % 16)])

/-- Commitment of a value under the strategies `strict` and `transparent`. -/
def strictId (debug : Bool) (b : Bytes) : Exec String := do
  let id ← @commitId (realEnv debug) _ (deriveStrict Raw dumbId) ⟨b⟩
  .ok (hex id.bytes)

/-- Commitment of a value under the strategy `conceal`. -/
def concealId (debug : Bool) (b : Bytes) : Exec String := do
  let id ← @commitId (realEnv debug) _ (deriveConceal Raw dumbId) ⟨b⟩
  .ok (hex id.bytes)

/-- Whether a computation returns the string. -/
def returns (x : Exec String) (s : String) : Bool :=
  match x with
  | .ok t => t == s
  | .error _ => false

/-- `strategy_transparent`, `ShortLen(0)` -/
example : returns (strictId true [0, 0])
    "2bb00b2f346511235882255a898a224b6858e18ebec0a11967eb51f0ed1a2ff5" = true := by decide +kernel

/-- `strategy_transparent`, `ShortLen(0xFFde)` -/
example : returns (strictId true [0xde, 0xff])
    "0290490b549dfcb8a222d42abf53afbd9fadcef480bc61d7a9aeaf19288b394c" = true := by decide +kernel

/-- `strategy_strict_enum` -/
example : returns (strictId true [0])
      "82c0f0f259e8cffecead54325fadb48f15a4e761dae5ffaf31209993eacbb24d" = true ∧
    returns (strictId true [1])
      "6db0981aac502e87a0498d169599ceace4c6480a182590d47e82d63b85cb3c72" = true ∧
    returns (strictId true [2])
      "e4648d71abe10c0efd626b803ac86d57b1cdc8842f6baa9799ef95cf510784b6" = true := by decide +kernel

/-- `strategy_strict_tuple` and `strategy_strict_struct` -/
example : returns (strictId true (leBytes 0xdead 2 ++ leBytes 0xbeefcafebaddafec 8))
    "8506078e6f47e4b75470cb45a18922785f1a54ba4501473b80ba7b0c363d7490" = true := by decide +kernel

/-- `enum_associated` -/
example : returns (strictId true (0 :: List.replicate 32 0 ++ [1]))
    "18cc83e934de8ad385ce41c8c9b6a2ee3331817907d6ccf8c5ba4ca3570e65a3" = true := by decide +kernel

/-- `enum_custom_tags` -/
example : returns (strictId true (8 :: List.replicate 32 8 ++ [1]))
    "67e6cd9574e329906d28ce7143aef7124372e04d09bd46b130445fec2baf9fc6" = true := by decide +kernel

/-- `conceal` -/
example : returns (concealId false (0 :: leBytes 0xcafe1234 16))
    "fd5ee38918347000fc3cbf31def233b226d14a47bbc6bac18fd6389c3fd16d2e" = true := by decide +kernel

end CSV.Vectors
