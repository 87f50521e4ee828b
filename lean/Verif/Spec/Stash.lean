import Verif.Spec.History

/-!
# Specification: a store of blocks by commitment

What a user of the library does with blocks and proofs of many commitments that arrive one after the other.
-/

namespace CSV

/-- The store: at most one block for each commitment. -/
abbrev Stash := Commitment → Option MerkleBlock

/-- Nothing stored. -/
def Stash.empty : Stash := fun _ => none

/-- Replaces the block of a commitment. -/
def Stash.set (s : Stash) (c : Commitment) (b : MerkleBlock) : Stash := fun x => if x = c then some b else s x

/-- What arrives. -/
inductive Arrival where
  /-- a block -/
  | block (b : MerkleBlock)
  /-- a message with its proof -/
  | proof (pr : MerkleProof) (p : ProtocolId) (m : Message)

/-- The block that arrives, or the error of a proof for another position. -/
def Arrival.open : Arrival → Exec (Except InvalidProof MerkleBlock)
  | .block b => .ok (.ok b)
  | .proof pr p m => MerkleBlock.with pr p m

/-- Stores what arrives: merged into the block with the same commitment if there is one. Returns the error of the
merge or of the proof. -/
def Stash.add [Env] (s : Stash) (x : Arrival) : Exec (Stash × Option MergeError) := do
  let r ← x.open
  match r with
  | .error e => .ok (s, some (.invalidProof e))
  | .ok b => do
    let c ← b.commitId
    match s c with
    | none => .ok (s.set c b, none)
    | some b0 => do
      let (b', r) ← b0.mergeReveal b
      match r with
      | .ok _ => .ok (s.set c b', none)
      | .error e => .ok (s.set c b', some e)

/-- Stores all that arrives, and collects the errors. -/
def Stash.addAll [Env] (s : Stash) : List Arrival → Exec (Stash × List MergeError)
  | [] => .ok (s, [])
  | x :: xs => do
    let (s', e) ← s.add x
    let (s'', es) ← s'.addAll xs
    .ok (s'', e.toList ++ es)

/-- Block `b` with commitment `c` arrives. -/
def Arrival.Brings [Env] (x : Arrival) (c : Commitment) (b : MerkleBlock) : Prop :=
  x.open = .ok (.ok b) ∧ b.commitId = .ok c

/-- What arrives is a block, or the proof of a message, of the tree that `T` assigns to its commitment. -/
def Arrival.Of [Env] (T : Commitment → MerkleTree) (x : Arrival) : Prop :=
  ∃ c b, x.Brings c b ∧ b.OfTree (T c)

end CSV
