import Verif.Spec.History

/-!
# Specification: parties who exchange blocks and proofs
-/

namespace CSV

/-- Parties are numbered; each holds a block. -/
abbrev Net := Nat → MerkleBlock

/-- Party `i` now holds `b`. -/
def Net.set (s : Net) (i : Nat) (b : MerkleBlock) : Net := fun k => if k = i then b else s k

/-- What may happen in a network. -/
inductive Event where
  /-- party `i` sends its block to party `j`, who merges it -/
  | share (i j : Nat)
  /-- party `i` sends a copy with all protocols but `ps` concealed, if it knows them, and `j` merges it -/
  | disclose (i j : Nat) (ps : List ProtocolId)
  /-- party `i` sends a message with its proof, if it knows the message, and `j` merges them -/
  | prove (i j : Nat) (p : ProtocolId)
  /-- party `i` conceals something or merges something received from elsewhere -/
  | act (i : Nat) (op : BlockOp)

/-- Runs an event with the functions of the library. Errors returned by a merge are ignored. -/
def Event.step [Env] (s : Net) : Event → Exec Net
  | .share i j => do
    let (b, _) ← (s j).mergeReveal (s i)
    .ok (s.set j b)
  | .disclose i j ps => do
    let (copy, r) ← (s i).concealExcept ps
    match r with
    | .error _ => .ok s
    | .ok _ => do
      let (b, _) ← (s j).mergeReveal copy
      .ok (s.set j b)
  | .prove i j p =>
    match (s i).knownMessages.find? (fun e => decide (e.1 = p)) with
    | none => .ok s
    | some (_, m) => do
      let r ← (s i).toMerkleProof p
      match r with
      | .error _ => .ok s
      | .ok pr => do
        let (b, _) ← (s j).mergeRevealPath pr p m
        .ok (s.set j b)
  | .act i op => do
    let b ← op.step (s i)
    .ok (s.set i b)

/-- Runs events one after the other. -/
def Net.run [Env] (s : Net) : List Event → Exec Net
  | [] => .ok s
  | e :: es => do let s' ← e.step s; s'.run es

/-- What the parties know. -/
abbrev Knowledge := Nat → ProtocolId × Message → Prop

/-- The intended effect of an event on what the parties know of a tree with commitment `c`. -/
def Event.learn [Env] (c : Commitment) (K : Knowledge) : Event → Knowledge
  | .share i j => fun k e => K k e ∨ (k = j ∧ K i e)
  | .disclose i j ps => fun k e => K k e ∨ (k = j ∧ K i e ∧ e.1 ∈ ps ∧ ∀ p ∈ ps, ∃ m, K i (p, m))
  | .prove i j p => fun k e => K k e ∨ (k = j ∧ K i e ∧ e.1 = p)
  | .act i op => fun k e => if k = i then op.effect c (K i) e else K k e

/-- The intended effect of events. -/
def learnAll [Env] (c : Commitment) (K : Knowledge) : List Event → Knowledge
  | [] => K
  | e :: es => learnAll c (e.learn c K) es

/-- The event carries the message `e` from inside of the group `S`, or from elsewhere, to a party that is not in the
group. -/
def Event.Leaks (S : Nat → Prop) (e : ProtocolId × Message) : Event → Prop
  | .share i j => S i ∧ ¬ S j
  | .disclose i j ps => S i ∧ ¬ S j ∧ e.1 ∈ ps
  | .prove i j p => S i ∧ ¬ S j ∧ e.1 = p
  | .act i (.mergeReveal o) => ¬ S i ∧ e ∈ o.knownMessages
  | .act i (.mergeRevealPath _ p m) => ¬ S i ∧ e = (p, m)
  | .act _ (.concealExcept _) => False
  | .act _ (.concealOther _) => False

/-- Which initial blocks have reached a party, directly or through others, after blocks were sent as listed (sender
and receiver). -/
def reached (R : Nat → Nat → Prop) : List (Nat × Nat) → Nat → Nat → Prop
  | [] => R
  | (i, j) :: es => reached (fun k a => R k a ∨ (k = j ∧ R i a)) es

end CSV
