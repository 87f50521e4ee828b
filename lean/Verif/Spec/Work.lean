import Verif.Spec.Commit
import Verif.Spec.Block
import Verif.Model.Tree

/-!
# Specification: how much work is done

A loop that is limited to `n` rounds either ends within them or reports `Panic.fuel`.
-/

namespace CSV

/-- `conceal_except` (`MerkleBlock.concealExcept`) with its outer loop stopped after `n` rounds,
`/repo/commit_verify/src/mpc/block.rs:315-425`. Each round goes once over the cross-section. -/
def MerkleBlock.concealWithin [Env] (n : Nat) (b : MerkleBlock) (protocols : List ProtocolId) :
    Exec (MerkleBlock × Except LeafNotKnown Nat) := do
  let (cs, count, notFound) ← concealLeaves b.depth protocols b.crossSection 0 (bsetOfList protocols)
  let b := { b with entropy := none, crossSection := cs }
  match notFound with
  | protocolId :: _ => .ok (b, .error ⟨protocolId⟩)
  | [] => do
    let (cs, count) ← concealOuter b.depth n cs count
    .ok ({ b with crossSection := cs }, .ok count)

/-- Height of the tallest part of the tree without revealed leaves. -/
def PT.hiddenHeight : PT → Nat
  | .hidden _ => 0
  | .leaf _ _ => 0
  | .node l r =>
    max l.hiddenHeight r.hiddenHeight + if l.known = [] ∧ r.known = [] then 1 else 0

/-- The pairs of depth and cofactor tried for `n` messages, in the order of attempts. -/
def attempts (n minDepth : Nat) : List (Nat × Nat) :=
  (List.range 32).flatMap fun d =>
    if minDepth ≤ d ∧ n ≤ 2 ^ d then (List.range (maxCofactor minDepth d + 1)).map fun c => (d, c)
    else []

end CSV
