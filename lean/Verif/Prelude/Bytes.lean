import Verif.Prelude.Rust

/-!
# Byte strings and little-endian integers
-/

namespace CSV

/-- A byte string. -/
abbrev Bytes := List UInt8

/-- The `len` low bytes of `n`, least significant first (`to_le_bytes`). -/
def leBytes (n : Nat) : (len : Nat) → Bytes
  | 0 => []
  | len + 1 => UInt8.ofNat (n % 256) :: leBytes (n / 256) len

/-- The number written by a byte string, least significant byte first
(`from_le_bytes`). -/
def leNat : Bytes → Nat
  | [] => 0
  | b :: bs => b.toNat + 256 * leNat bs

/-- The number written by a byte string, most significant byte first. For strings of one
length the order of these numbers is the lexicographic order of the strings. -/
def beNat (bs : Bytes) : Nat := leNat bs.reverse

/-- `amplify::Bytes32`, `[u8; 32]`. -/
structure Bytes32 where
  /-- the bytes -/
  bytes : Bytes
  /-- there are 32 of them -/
  len : bytes.length = 32
  deriving DecidableEq, Repr

@[ext] theorem Bytes32.ext' {a b : Bytes32} (h : a.bytes = b.bytes) : a = b := by
  cases a; cases b; simp_all

/-- `[v; 32]`. -/
def Bytes32.fill (v : UInt8) : Bytes32 := ⟨List.replicate 32 v, by simp⟩

theorem leBytes_length (n len : Nat) : (leBytes n len).length = len := by
  induction len generalizing n with
  | zero => rfl
  | succ k ih => simp [leBytes, ih]

/-- `u256::to_le_bytes`. -/
def Bytes32.ofNat (n : Nat) : Bytes32 := ⟨leBytes n 32, leBytes_length n 32⟩

/-- `u256::from_le_bytes`. -/
def Bytes32.toNat (b : Bytes32) : Nat := leNat b.bytes

/-- `str::as_bytes`: the UTF-8 encoding. -/
def utf8 (s : String) : Bytes := s.toByteArray.data.toList

theorem leNat_lt (bs : Bytes) : leNat bs < 256 ^ bs.length := by
  induction bs with
  | nil => simp [leNat]
  | cons b bs ih =>
    have := b.toNat_lt
    simp only [leNat, List.length_cons, Nat.pow_succ]
    omega

theorem leNat_leBytes (n len : Nat) : leNat (leBytes n len) = n % 256 ^ len := by
  induction len generalizing n with
  | zero => simp [leBytes, leNat, Nat.mod_one]
  | succ k ih =>
    simp only [leBytes, leNat, ih]
    rw [Nat.pow_succ, Nat.mul_comm (256 ^ k), Nat.mod_mul]
    have : (UInt8.ofNat (n % 256)).toNat = n % 256 := by
      simp [UInt8.toNat_ofNat']
    rw [this]

theorem leBytes_leNat (bs : Bytes) : leBytes (leNat bs) bs.length = bs := by
  induction bs with
  | nil => rfl
  | cons b bs ih =>
    have hb := b.toNat_lt
    simp only [leNat, List.length_cons, leBytes]
    have h1 : (b.toNat + 256 * leNat bs) % 256 = b.toNat := by omega
    have h2 : (b.toNat + 256 * leNat bs) / 256 = leNat bs := by omega
    rw [h1, h2, ih]
    simp

theorem leNat_inj {a b : Bytes} (hl : a.length = b.length) (h : leNat a = leNat b) : a = b := by
  rw [← leBytes_leNat a, ← leBytes_leNat b, hl, h]

theorem leBytes_inj {m n len : Nat} (hm : m < 256 ^ len) (hn : n < 256 ^ len)
    (h : leBytes m len = leBytes n len) : m = n := by
  have := congrArg leNat h
  rwa [leNat_leBytes, leNat_leBytes, Nat.mod_eq_of_lt hm, Nat.mod_eq_of_lt hn] at this

theorem Bytes32.toNat_lt (b : Bytes32) : b.toNat < 2 ^ 256 := by
  have := leNat_lt b.bytes
  rw [b.len] at this
  simpa [Bytes32.toNat] using this

theorem Bytes32.toNat_ofNat {n : Nat} (h : n < 2 ^ 256) : (Bytes32.ofNat n).toNat = n := by
  simp only [Bytes32.toNat, Bytes32.ofNat, leNat_leBytes]
  exact Nat.mod_eq_of_lt (by simpa using h)

theorem Bytes32.toNat_inj {a b : Bytes32} (h : a.toNat = b.toNat) : a = b :=
  Bytes32.ext' (leNat_inj (by rw [a.len, b.len]) h)

/-- Environment of the model: SHA256 with 32-byte outputs, and the build profile. -/
abbrev Env := EnvOf Bytes32

/-- SHA256 of the environment. -/
def sha [env : Env] (bs : Bytes) : Bytes32 := env.sha256 bs

/-- Is this the debug profile? -/
def dbg [env : Env] : Bool := env.debug

end CSV
