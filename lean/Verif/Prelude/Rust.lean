/-!
# Rust execution: panics, build profiles, machine arithmetic

Shared vocabulary of the model. Nothing here models a function of `/repo`; it is the
reading of Rust's primitive operations that the model is written in.
-/

namespace CSV

/-- Reasons for which a Rust program stops with a panic. `fuel` is not a Rust panic: it
marks a loop of the model that was given too few iterations. Theorems state that it never
occurs. -/
inductive Panic where
  /-- arithmetic overflow (debug profile) or overflow of a checked small integer -/
  | overflow
  /-- division by zero or remainder modulo zero -/
  | divByZero
  /-- slice index out of range -/
  | index
  /-- `assert!`, `assert_eq!` -/
  | assert
  /-- `debug_assert!`, `debug_assert_eq!` (debug profile only) -/
  | debugAssert
  /-- `Option::expect`, `Result::expect`, `unwrap` -/
  | expect
  /-- `unreachable!` -/
  | unreachable
  /-- explicit `panic!` -/
  | explicit
  /-- model artefact: loop fuel exhausted -/
  | fuel
  deriving DecidableEq, Repr

/-- A computation that may panic. -/
abbrev Exec (α : Type) := Except Panic α

/-- What a compiled program is parametrised by: its hash function and its build profile.
`Digest` is the type of SHA256 outputs (instantiated with 32-byte strings below). -/
class EnvOf (Digest : Type) where
  /-- SHA256 of a byte string -/
  sha256 : List UInt8 → Digest
  /-- `true`: debug profile (overflow checks, debug assertions); `false`: release profile -/
  debug : Bool

/-- `debug_assert!(c)`: checked in the debug profile only. -/
def debugAssert (dbg : Bool) (c : Bool) : Exec Unit :=
  if dbg && !c then .error .debugAssert else .ok ()

/-- `assert!(c)`. -/
def assert' (c : Bool) : Exec Unit :=
  if c then .ok () else .error .assert

/-- `a + b` on `u32`: panics on overflow in the debug profile, wraps in release. -/
def u32Add (dbg : Bool) (a b : Nat) : Exec Nat :=
  if a + b < 2 ^ 32 then .ok (a + b)
  else if dbg then .error .overflow else .ok ((a + b) % 2 ^ 32)

/-- `a - b` on `u32`: panics on underflow in the debug profile, wraps in release. -/
def u32Sub (dbg : Bool) (a b : Nat) : Exec Nat :=
  if b ≤ a then .ok (a - b)
  else if dbg then .error .overflow else .ok ((a + 2 ^ 32 - b) % 2 ^ 32)

/-- `2u32.pow(e)`: panics on overflow in the debug profile, wraps (to zero) in release. -/
def u32Pow2 (dbg : Bool) (e : Nat) : Exec Nat :=
  if e < 32 then .ok (2 ^ e)
  else if dbg then .error .overflow else .ok 0

/-- `a % b` on `u32`: panics for `b = 0` in both profiles. -/
def u32Rem (a b : Nat) : Exec Nat :=
  if b = 0 then .error .divByZero else .ok (a % b)

/-- `a - b` on `u8`: panics on underflow in the debug profile, wraps in release. -/
def u8Sub (dbg : Bool) (a b : Nat) : Exec Nat :=
  if b ≤ a then .ok (a - b)
  else if dbg then .error .overflow else .ok ((a + 256 - b) % 256)

/-- `amplify::num::u5`, an integer of 5 bits. -/
abbrev U5 := Fin 32

/-- `u5::with(n)` (amplify): panics if `n` does not fit 5 bits. -/
def u5With (n : Nat) : Exec U5 :=
  if h : n < 32 then .ok ⟨n, h⟩ else .error .overflow

/-- `a + n` on `u5` (amplify): panics on overflow in both profiles. -/
def u5Add (a : U5) (n : Nat) : Exec U5 := u5With (a.val + n)

/-- `a - n` on `u5` (amplify): panics on underflow in both profiles. -/
def u5Sub (a : U5) (n : Nat) : Exec U5 :=
  if n ≤ a.val then u5With (a.val - n) else .error .overflow

/-- `Option::expect`. -/
def expect {α : Type} : Option α → Exec α
  | some a => .ok a
  | none => .error .expect

end CSV
