import Verif.Model.Engine

/-!
# Tagged hashing with any hash function

Models the trait `DigestExt` of `/repo/commit_verify/src/digest.rs` with its two implementations, for
`Sha256` and `Ripemd160`, whose text is the same up to the hash function. A hasher is represented by the
bytes fed to it so far (`input_raw` and `input_with_len` do not depend on the hash function).
-/

namespace CSV

/-- A hash function with digests of `n` bytes (`Digest` of the crates `sha2` and `ripemd`). -/
structure DigestFn (n : Nat) where
  /-- `update` with the whole string, then `finalize` -/
  hash : Bytes → Bytes
  /-- digests have `n` bytes -/
  len : ∀ data, (hash data).length = n

/-- `DigestExt::from_tag`, `/repo/commit_verify/src/digest.rs:44-53` for `Sha256` and
`/repo/commit_verify/src/digest.rs:61-70` for `Ripemd160`. -/
def DigestFn.fromTag {n : Nat} (D : DigestFn n) (tag : Bytes) : Hasher :=
  let tag := D.hash tag
  let engine : Hasher := []
  let engine := engine ++ tag
  let engine := engine ++ tag
  engine

/-- `DigestExt::finish`, `/repo/commit_verify/src/digest.rs:57` and
`/repo/commit_verify/src/digest.rs:74`. -/
def DigestFn.finish {n : Nat} (D : DigestFn n) (h : Hasher) : Bytes := D.hash h

/-- A sequence of `input_with_len::<MAX>(data)` calls. -/
def Hasher.inputFields (h : Hasher) : List (Nat × Bytes) → Exec Hasher
  | [] => .ok h
  | (max, data) :: rest => do
    let h ← Hasher.inputWithLen max h data
    h.inputFields rest

/-- A sequence of `input_raw(data)` calls. -/
def Hasher.inputPieces (h : Hasher) : List Bytes → Hasher
  | [] => h
  | data :: rest => (h.inputRaw data).inputPieces rest

/-- The SHA256 of the environment as a hash function. -/
def shaDigest [Env] : DigestFn 32 := ⟨fun data => (sha data).bytes, fun data => (sha data).len⟩

end CSV
