import Verif.Model.Tree
import Verif.Spec.Calls
import Verif.Spec.History

/-!
# Specification: a release build does what a debug build does

`Refines x y`: whatever `x` returns, `y` returns; `y` may return where `x` panics.
-/

namespace CSV

/-- The second computation returns whatever the first one returns. -/
def Refines {α : Type} (x y : Exec α) : Prop := ∀ a, x = .ok a → y = .ok a

/-- A commitment encoding that a release build computes as a debug build does, if that does not
panic. Implementations may be written by users and test the build profile; those do not count. -/
def SteadyEncode (α : Type) [CommitEncode α] : Prop :=
  ∀ (e : Env) (x : α) (en : CommitEngine),
    Refines (@CommitEncode.commitEncode α _ (profile e true) x en)
      (@CommitEncode.commitEncode α _ (profile e false) x en)

/-- A concealing operation that a release build computes as a debug build does, if that does not
panic. -/
def SteadyConceal (α β : Type) [Conceal α β] : Prop :=
  ∀ (e : Env) (x : α),
    Refines (@Conceal.conceal α β _ (profile e true) x) (@Conceal.conceal α β _ (profile e false) x)

/-- Calls of the commitment engine with data whose own encoding is steady. -/
def Call.Steady : Call → Prop
  | .hash (α := α) _ _ _ => SteadyEncode α
  | .merkle (α := α) _ _ _ => SteadyEncode α
  | .concealed (α := α) (β := β) _ _ _ _ => SteadyConceal α β
  | _ => True

end CSV
