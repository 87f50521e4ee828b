import Verif.Spec.Count
import Verif.Spec.Proof

/-!
# Specification: somebody who asks for hashes

The hash function is a random oracle: it answers a string it has not been asked for with the next value
of a tape, and a string it has been asked for as before. An algorithm that uses it is a function that
chooses the next string from all questions and answers so far.
-/

namespace CSV

/-- Questions and answers so far, the last one first. -/
abbrev Transcript := List (Bytes × Bytes32)

/-- The first answer to a question. -/
def Transcript.answer (m : Transcript) (x : Bytes) : Option Bytes32 := (m.find? fun e => e.1 == x).map Prod.snd

/-- `n` questions asked by `ask` with answers from the tape, after the questions and answers `m`. -/
def Transcript.run (ask : Transcript → Bytes) : Nat → List Bytes32 → Transcript → Transcript
  | 0, _, m => m
  | n + 1, tape, m =>
    match m.answer (ask m) with
    | some y => Transcript.run ask n tape ((ask m, y) :: m)
    | none =>
      match tape with
      | [] => m
      | y :: tape => Transcript.run ask n tape ((ask m, y) :: m)

/-- The strings asked for. -/
def Transcript.strings (m : Transcript) : List Bytes := m.map Prod.fst

/-- A hash function which gives these answers. -/
def Transcript.Of (m : Transcript) (e : Env) : Prop := ∀ x ∈ m, e.sha256 x.1 = x.2

end CSV
