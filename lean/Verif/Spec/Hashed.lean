import Verif.Spec.Merklize
import Verif.Spec.Block
import Verif.Spec.Record
import Verif.Spec.Hiding

/-!
# Specification: which strings are hashed
-/

namespace CSV

/-- The two hash functions agree on the strings of the list. The build profiles may differ. -/
def SameHashes (e e' : Env) (l : List Bytes) : Prop := ∀ x ∈ l, e'.sha256 x = e.sha256 x

/-- The strings of the two tags, which are hashed for the tag prefix. -/
def tagStrings : List Bytes := [utf8 MERKLE_TAG, utf8 MPC_TAG]

/-- In its build profile, the computation depends on the hash function only through its values at the two tags
and at `n` or fewer other strings: with any other function that has these values it gives the same result, the
same error or the same panic. -/
def Needs (e : Env) (n : Nat) {α : Type} (f : Env → α) : Prop :=
  ∃ l : List Bytes, l.length ≤ n ∧
    ∀ e' : Env, e'.debug = e.debug → SameHashes e e' (tagStrings ++ l) → f e' = f e

/-- In the build profile `debug` the computation can be carried out by hashing the two tags and at most `n` other
strings, one after the other and each chosen from the hashes so far: somebody who knows the hash function only by
asking for hashes obtains the result, the error or the panic, whatever the hash function is. -/
def Hashes (debug : Bool) (n : Nat) {α : Type} (f : Env → α) : Prop :=
  ∃ o : Bytes32 → Bytes32 → Observer α, ∀ e : Env, e.debug = debug →
    (o (e.sha256 (utf8 MERKLE_TAG)) (e.sha256 (utf8 MPC_TAG))).run e = f e ∧
    ((o (e.sha256 (utf8 MERKLE_TAG)) (e.sha256 (utf8 MPC_TAG))).asked e).length ≤ n

/-- The strings of the tags of all records nested in a record type. -/
def Record.tags : Record → List Bytes
  | .nil => []
  | .serialized _ _ rest => rest.tags
  | .option _ _ rest => rest.tags
  | .concealed _ _ _ _ _ rest => rest.tags
  | .list _ _ _ _ rest => rest.tags
  | .set _ _ _ _ rest => rest.tags
  | .map _ _ _ _ _ _ rest => rest.tags
  | .hash _ _ id sub rest => utf8 id.tag :: (sub.tags ++ rest.tags)
  | .merkle _ _ sub rest => utf8 MERKLE_TAG :: (sub.tags ++ rest.tags)

/-- The confidential fields, at any depth, have the same concealed form with both hash functions. -/
def Record.SameConcealed (e e' : Env) : (r : Record) → r.Val → Prop
  | .nil, _ => True
  | .serialized _ _ rest, v => rest.SameConcealed e e' v.2
  | .option _ _ rest, v => rest.SameConcealed e e' v.2
  | .concealed _ _ _ co _ rest, v =>
    @Conceal.conceal _ _ co e' v.1 = @Conceal.conceal _ _ co e v.1 ∧ rest.SameConcealed e e' v.2
  | .list _ _ _ _ rest, v => rest.SameConcealed e e' v.2
  | .set _ _ _ _ rest, v => rest.SameConcealed e e' v.2
  | .map _ _ _ _ _ _ rest, v => rest.SameConcealed e e' v.2
  | .hash _ _ _ sub rest, v => sub.SameConcealed e e' v.1 ∧ rest.SameConcealed e e' v.2
  | .merkle _ _ sub rest, v =>
    (∀ x ∈ v.1, sub.SameConcealed e e' x) ∧ rest.SameConcealed e e' v.2

end CSV
