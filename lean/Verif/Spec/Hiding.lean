import Verif.Spec.Commit
import Verif.Spec.Tree
import Verif.Model.Block
import Verif.Model.Tree

/-!
# Specification: what an observer can find out

An observer who does not know the hash function as a formula can only ask for the hashes of strings of
their choice. Two committed trees are indistinguishable to them if there is a second hash function, the
same but for a permutation of the strings of hidden leaves, under which the second tree is disclosed
just as the first one is. (If the hash function is drawn at random, both are equally probable.)
-/

namespace CSV

/-- Leaves of a tree which do not hold messages of the protocols `ps`: the other messages and the
entropy in the unused slots. -/
def MerkleTree.hiddenLeaves (T : MerkleTree) (ps : List ProtocolId) : List Leaf :=
  (List.range (2 ^ T.depth.val)).filterMap fun i =>
    match T.map.get (UInt32.ofNat i) with
    | some (p, m) => if p ∈ ps then none else some (.inhabited p m)
    | none => some (.entropy T.entropy (UInt32.ofNat i))

/-- The program with another hash function: strings are renamed by `f` before they are hashed. -/
@[instance_reducible]
def renamed (env : Env) (f : Bytes → Bytes) : Env := ⟨fun x => env.sha256 (f x), env.debug⟩

/-- An observer: gives an answer, or asks for a hash and goes on depending on it. -/
inductive Observer (α : Type) where
  | answer (a : α)
  | ask (x : Bytes) (next : Bytes32 → Observer α)

/-- The answer of an observer. -/
def Observer.run {α : Type} (env : Env) : Observer α → α
  | .answer a => a
  | .ask x next => (next (env.sha256 x)).run env

/-- The strings an observer asks for. -/
def Observer.asked {α : Type} (env : Env) : Observer α → List Bytes
  | .answer _ => []
  | .ask x next => x :: (next (env.sha256 x)).asked env

/-- Whoever gets the commitment, the block concealed up to the protocols `ps` and the proofs for `ps`
gets the same from the first tree, committed to with the first hash function, as from the second tree
with the second one. -/
def SameView (env1 env2 : Env) (T1 T2 : MerkleTree) (ps : List ProtocolId) : Prop :=
  ∃ full1 full2 b n1 n2 c,
    @MerkleBlock.fromTree env1 T1 = .ok full1 ∧
    @MerkleBlock.fromTree env2 T2 = .ok full2 ∧
    @MerkleBlock.concealExcept env1 full1 ps = .ok (b, .ok n1) ∧
    @MerkleBlock.concealExcept env2 full2 ps = .ok (b, .ok n2) ∧
    @MerkleTree.commitId env1 T1 = .ok c ∧ @MerkleTree.commitId env2 T2 = .ok c ∧
    ∀ p ∈ ps, ∃ pr, @MerkleBlock.toMerkleProof env1 full1 p = .ok (.ok pr) ∧
      @MerkleBlock.toMerkleProof env2 full2 p = .ok (.ok pr)

/-- The leaves hidden in one of two trees only. -/
def differing (T1 T2 : MerkleTree) (ps : List ProtocolId) : List Leaf :=
  (T1.hiddenLeaves ps).filter (· ∉ T2.hiddenLeaves ps) ++ (T2.hiddenLeaves ps).filter (· ∉ T1.hiddenLeaves ps)

/-- Nobody who gets the commitment, the block concealed up to the protocols `ps` and the proofs for
`ps` can tell the two trees apart, unless they ask for the hash of a leaf hidden in one of them and not
in the other. For some renaming `π` of the strings of these leaves which is its own inverse, the second
tree under the renamed hash function gives the same as the first under the given one. An observer who
asks for none of them answers the same under both. -/
def Alike (env : Env) (T1 T2 : MerkleTree) (ps : List ProtocolId) : Prop :=
  ∃ π : Bytes → Bytes, (∀ x, π (π x) = x) ∧
    (∀ x, π x ≠ x → x ∈ (differing T1 T2 ps).map (@leafInput env)) ∧
    SameView env (renamed env π) T1 T2 ps ∧
    ∀ (α : Type) (o : Observer α),
      (∀ x ∈ o.asked env, x ∉ (differing T1 T2 ps).map (@leafInput env)) →
      o.run (renamed env π) = o.run env

/-- A hash function that answers `h i` for each string `x i` and is another one elsewhere. -/
structure Programmed {ι : Type} (env : Env) (x : ι → Bytes) (h : ι → Bytes32) (env' : Env) : Prop where
  debug : env'.debug = env.debug
  at_x : ∀ i, env'.sha256 (x i) = h i
  other : ∀ y, (∀ i, y ≠ x i) → env'.sha256 y = env.sha256 y

end CSV
