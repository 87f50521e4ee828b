import Verif.Spec.Record
import Verif.Spec.Proof
import Verif.Model.Seals

/-!
# Specification: histories of a contract

What client-side validation is for: a contract is a set of transitions kept by its users. A transition
closes seals defined by earlier transitions and defines new ones; its id is the message of the protocol
of the contract in a multi-protocol commitment, which the published witness of the closed seals carries.
-/

namespace CSV

/-- A contract: the seals it uses, what is published about them, and the records its transitions are. -/
structure Contract (Seal Pub PubId PubErr : Type) where
  /-- the seals and their witnesses -/
  scheme : SealScheme Seal (ProtocolId × Message) Pub MerkleProof Commitment PubId PubErr InvalidProof
  /-- the published witness of a seal, if there is one -/
  ledger : Seal → Option Pub
  /-- the protocol of the contract -/
  protocol : ProtocolId
  /-- type of transitions -/
  record : Record
  /-- type of ids of transitions -/
  idType : IdType
  /-- seals closed by a transition -/
  closes : record.Val → List Seal
  /-- seals defined by a transition -/
  defines : record.Val → List Seal

variable {Seal Pub PubId PubErr : Type}

/-- Strings hashed when a transition is validated. -/
def Contract.inputs [Env] (k : Contract Seal Pub PubId PubErr) (t : k.record.Val × MerkleProof) : List Bytes :=
  match k.record.id k.idType t.1 with
  | .ok m => k.record.inputs k.idType t.1 ++ proofInputs t.2 k.protocol m
  | .error _ => []

/-- A validator accepts a transition and its proof while the seals `unspent` can be closed: it closes some
of them, all with one published witness, over its own id; and does not define such a seal again. -/
def Contract.Accepts [Env] (k : Contract Seal Pub PubId PubErr) (unspent : Seal → Prop)
    (t : k.record.Val × MerkleProof) : Prop :=
  k.record.Sound t.1 ∧ t.2.path.length ≤ 31 ∧ k.closes t.1 ≠ [] ∧ (∀ x ∈ k.closes t.1, unspent x) ∧
  (∀ x ∈ k.defines t.1, ¬ unspent x) ∧
  ∃ pub m, (∀ x ∈ k.closes t.1, k.ledger x = some pub) ∧ k.record.id k.idType t.1 = .ok m ∧
    k.scheme.verifySealsClosing ⟨pub, t.2⟩ (k.closes t.1) (k.protocol, m) = .ok ()

/-- The seals that can be closed after a transition. -/
def Contract.after (k : Contract Seal Pub PubId PubErr) (unspent : Seal → Prop)
    (t : k.record.Val × MerkleProof) (x : Seal) : Prop :=
  (unspent x ∧ x ∉ k.closes t.1) ∨ x ∈ k.defines t.1

/-- The seals that can be closed after a history. -/
def Contract.afterAll (k : Contract Seal Pub PubId PubErr) :
    (Seal → Prop) → List (k.record.Val × MerkleProof) → Seal → Prop
  | unspent, [] => unspent
  | unspent, t :: h => k.afterAll (k.after unspent t) h

/-- A history all of whose transitions are accepted, one after the other. -/
def Contract.Valid [Env] (k : Contract Seal Pub PubId PubErr) :
    (Seal → Prop) → List (k.record.Val × MerkleProof) → Prop
  | _, [] => True
  | unspent, t :: h => k.Accepts unspent t ∧ k.Valid (k.after unspent t) h

end CSV
