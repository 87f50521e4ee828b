import Verif.Prelude.Bytes

/-!
# SHA256

The hash function itself is a dependency of `/repo` (crate `sha2`) and an arbitrary function in
all theorems. This implementation of FIPS 180-4 is used to check the model against the
test vectors of the repository and in examples. Words are naturals below 2^32.
-/

namespace CSV.Sha

/-- addition modulo 2^32 -/
def add (a b : Nat) : Nat := (a + b) % 4294967296
/-- rotation to the right by `n` bits -/
def rotr (x n : Nat) : Nat := Nat.lor (x >>> n) ((x <<< (32 - n)) % 4294967296)
/-- bitwise complement -/
def not32 (x : Nat) : Nat := 4294967295 - x

def ch (x y z : Nat) : Nat := Nat.xor (Nat.land x y) (Nat.land (not32 x) z)
def maj (x y z : Nat) : Nat := Nat.xor (Nat.xor (Nat.land x y) (Nat.land x z)) (Nat.land y z)
def bsig0 (x : Nat) : Nat := Nat.xor (Nat.xor (rotr x 2) (rotr x 13)) (rotr x 22)
def bsig1 (x : Nat) : Nat := Nat.xor (Nat.xor (rotr x 6) (rotr x 11)) (rotr x 25)
def ssig0 (x : Nat) : Nat := Nat.xor (Nat.xor (rotr x 7) (rotr x 18)) (x >>> 3)
def ssig1 (x : Nat) : Nat := Nat.xor (Nat.xor (rotr x 17) (rotr x 19)) (x >>> 10)

/-- round constants -/
def K : List Nat :=
  [0x428a2f98,0x71374491,0xb5c0fbcf,0xe9b5dba5,0x3956c25b,0x59f111f1,0x923f82a4,0xab1c5ed5,
   0xd807aa98,0x12835b01,0x243185be,0x550c7dc3,0x72be5d74,0x80deb1fe,0x9bdc06a7,0xc19bf174,
   0xe49b69c1,0xefbe4786,0x0fc19dc6,0x240ca1cc,0x2de92c6f,0x4a7484aa,0x5cb0a9dc,0x76f988da,
   0x983e5152,0xa831c66d,0xb00327c8,0xbf597fc7,0xc6e00bf3,0xd5a79147,0x06ca6351,0x14292967,
   0x27b70a85,0x2e1b2138,0x4d2c6dfc,0x53380d13,0x650a7354,0x766a0abb,0x81c2c92e,0x92722c85,
   0xa2bfe8a1,0xa81a664b,0xc24b8b70,0xc76c51a3,0xd192e819,0xd6990624,0xf40e3585,0x106aa070,
   0x19a4c116,0x1e376c08,0x2748774c,0x34b0bcb5,0x391c0cb3,0x4ed8aa4a,0x5b9cca4f,0x682e6ff3,
   0x748f82ee,0x78a5636f,0x84c87814,0x8cc70208,0x90befffa,0xa4506ceb,0xbef9a3f7,0xc67178f2]

/-- working variables -/
structure St where
  a : Nat
  b : Nat
  c : Nat
  d : Nat
  e : Nat
  f : Nat
  g : Nat
  h : Nat

/-- initial hash value -/
def H0 : St :=
  ⟨0x6a09e667,0xbb67ae85,0x3c6ef372,0xa54ff53a,0x510e527f,0x9b05688c,0x1f83d9ab,0x5be0cd19⟩

/-- One round with round constant `k` and schedule word `w`. -/
def round (s : St) (k w : Nat) : St :=
  let t1 := add (add (add (add s.h (bsig1 s.e)) (ch s.e s.f s.g)) k) w
  let t2 := add (bsig0 s.a) (maj s.a s.b s.c)
  ⟨add t1 t2, s.a, s.b, s.c, add s.d t1, s.e, s.f, s.g⟩

/-- Runs the rounds; `ws` holds the 16 next schedule words. -/
def rounds : List Nat → List Nat → St → St
  | [], _, s => s
  | k :: ks, w0 :: w1 :: w2 :: w3 :: w4 :: w5 :: w6 :: w7 :: w8 :: w9 :: w10 :: w11 :: w12 ::
      w13 :: w14 :: w15 :: _, s =>
    let w16 := add (add (add (ssig1 w14) w9) (ssig0 w1)) w0
    rounds ks [w1, w2, w3, w4, w5, w6, w7, w8, w9, w10, w11, w12, w13, w14, w15, w16]
      (round s k w0)
  | _ :: _, _, s => s

/-- Big-endian 32-bit words of a byte string. -/
def words : Bytes → List Nat
  | a :: b :: c :: d :: rest =>
    (a.toNat * 16777216 + b.toNat * 65536 + c.toNat * 256 + d.toNat) :: words rest
  | _ => []

/-- Processes one block of 16 words. -/
def block (s : St) (ws : List Nat) : St :=
  let r := rounds K ws s
  ⟨add s.a r.a, add s.b r.b, add s.c r.c, add s.d r.d,
   add s.e r.e, add s.f r.f, add s.g r.g, add s.h r.h⟩

/-- Processes all words in blocks of 16. -/
def blocks : (fuel : Nat) → List Nat → St → St
  | 0, _, s => s
  | fuel + 1, ws, s =>
    match ws with
    | [] => s
    | ws => blocks fuel (ws.drop 16) (block s (ws.take 16))

/-- Padding to a multiple of 64 bytes. -/
def pad (bs : Bytes) : Bytes :=
  let zeros := (119 - bs.length % 64) % 64
  bs ++ 0x80 :: List.replicate zeros 0 ++ (leBytes (bs.length * 8) 8).reverse

/-- Big-endian bytes of a word. -/
def be4 (n : Nat) : Bytes := (leBytes n 4).reverse

/-- SHA256. -/
def sha256 (bs : Bytes) : Bytes32 :=
  let ws := words (pad bs)
  let s := blocks (bs.length / 64 + 2) ws H0
  ⟨be4 s.a ++ be4 s.b ++ be4 s.c ++ be4 s.d ++ be4 s.e ++ be4 s.f ++ be4 s.g ++ be4 s.h, by
    simp [be4, leBytes_length]⟩

end CSV.Sha

namespace CSV

/-- The environment with the actual SHA256. -/
abbrev realEnv (debug : Bool) : Env := ⟨Sha.sha256, debug⟩

end CSV
