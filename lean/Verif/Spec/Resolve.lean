import Verif.Spec.Api

/-!
# Resolvers: memory, caches, time

Vocabulary for what users do with resolvers of seals; nothing here is used by the model.
-/

namespace CSV

variable {State Seal Issue : Type}

/-- What a resolver answers does not depend on what it was asked before: there is a condition on its state
which every question preserves, and under which the answers are `ans`. -/
def Resolver.AnswersAs (r : Resolver State Seal Issue) (Inv : State → Prop)
    (ans : Seal → Except Issue Unit) : Prop :=
  ∀ st, Inv st → ∀ x, Inv (r st x).1 ∧ (r st x).2 = ans x

/-- A resolver without any state. -/
def Resolver.stateless (ans : Seal → Except Issue Unit) : Resolver Unit Seal Issue :=
  fun _ x => ((), ans x)

/-- Put a cache before a resolver: answers are remembered, and nothing is asked twice. -/
def Resolver.cached [DecidableEq Seal] (r : Resolver State Seal Issue) :
    Resolver (State × List (Seal × Except Issue Unit)) Seal Issue :=
  fun (st, cache) x =>
    match cache.lookup x with
    | some a => ((st, cache), a)
    | none => (((r st x).1, (x, (r st x).2) :: cache), (r st x).2)

/-- The answer is that the seal is closed. -/
def Resolved (a : Except Issue Unit) : Bool :=
  match a with
  | .ok () => true
  | .error _ => false

end CSV
