import Verif.Model.Tree

/-!
# Second transcription of the loops

The main loops of the multi-protocol commitments once more, statement by statement, with the iterators,
closures and mutable variables of the code. `Proofs/Literal.lean` shows that the definitions used everywhere
else compute the same.
-/

namespace CSV.Literal

/-- `Iterator::next` on an iterator with the given remaining items. -/
def next {α : Type} : List α → Option α × List α
  | [] => (none, [])
  | x :: l => (some x, l)

/-- `iter.by_ref().take_while(f)` run to its end, with a closure `f` that owns the variables `σ`. The item
for which the closure says `false` is consumed. Returns the variables, the items taken and the items left. -/
def takeWhile {σ α : Type} (f : σ → α → Exec (σ × Bool)) : σ → List α → Exec (σ × List α × List α)
  | s, iter =>
    match iter with
    | [] => .ok (s, [], [])
    | x :: iter => do
      let (s, keep) ← f s x
      if keep then do
        let (s, taken, iter) ← takeWhile f s iter
        .ok (s, x :: taken, iter)
      else .ok (s, [], iter)

/-- Variables changed by the closures, `/repo/commit_verify/src/mpc/block.rs:487-489, 505-507`. -/
structure Captured where
  /-- `buoy` -/
  buoy : Buoy
  /-- `stop` -/
  stop : Bool
  /-- `last_b` or `last_a` -/
  last : Option TreeNode

/-- The closures given to `take_while`, `/repo/commit_verify/src/mpc/block.rs:490-500, 508-518`. -/
def closure (depth limit : U5) (s : Captured) (n : TreeNode) : Exec (Captured × Bool) :=
  if s.stop then .ok ({ s with last := some n }, false)
  else do
    let (buoy, _) ← s.buoy.push (n.depthOr depth)
    let stop := if buoy.level ≤ limit then true else s.stop
    .ok ({ s with buoy := buoy, stop := stop }, true)

/-- Variables of the main loop of `merge_reveal`, `/repo/commit_verify/src/mpc/block.rs:453-459`. -/
structure MergeVars where
  /-- `cross_section` -/
  crossSection : List TreeNode
  /-- what is left of the iterator `a` -/
  a : List TreeNode
  /-- what is left of the iterator `b` -/
  b : List TreeNode
  /-- `last_a` -/
  lastA : Option TreeNode
  /-- `last_b` -/
  lastB : Option TreeNode

/-- Body of the main loop of `merge_reveal`, `/repo/commit_verify/src/mpc/block.rs:461-521`. -/
def mergeBody (depth : U5) (n1 n2 : TreeNode) (v : MergeVars) : Exec MergeVars :=
  let n1Depth := n1.depthOr depth
  let n2Depth := n2.depthOr depth
  if n1Depth = n2Depth then
    if n1 = n2 then
      let v := { v with crossSection := v.crossSection ++ [n1] }
      let (lastA, a) := next v.a
      let (lastB, b) := next v.b
      .ok { v with lastA := lastA, a := a, lastB := lastB, b := b }
    else do
      let v ← match n1.isLeaf, n2.isLeaf with
        | true, false => .ok { v with crossSection := v.crossSection ++ [n1] }
        | false, true => .ok { v with crossSection := v.crossSection ++ [n2] }
        | false, false => .ok v
        | true, true => .error .unreachable
      let (lastA, a) := next v.a
      let (lastB, b) := next v.b
      .ok { v with lastA := lastA, a := a, lastB := lastB, b := b }
  else if n1Depth < n2Depth then do
    let v := { v with crossSection := v.crossSection ++ [n2] }
    let (s, taken, b) ← takeWhile (closure depth n1Depth) ⟨Buoy.new n2Depth, false, none⟩ v.b
    let v := { v with crossSection := v.crossSection ++ taken, b := b, lastB := s.last }
    let (lastA, a) := next v.a
    .ok { v with lastA := lastA, a := a }
  else do
    let v := { v with crossSection := v.crossSection ++ [n1] }
    let (s, taken, a) ← takeWhile (closure depth n2Depth) ⟨Buoy.new n1Depth, false, none⟩ v.a
    let v := { v with crossSection := v.crossSection ++ taken, a := a, lastA := s.last }
    let (lastB, b) := next v.b
    .ok { v with lastB := lastB, b := b }

/-- `while let (Some(n1), Some(n2)) = (last_a, last_b)`, `/repo/commit_verify/src/mpc/block.rs:460-522`, with a
bound on the number of rounds. -/
def mergeWhile (depth : U5) : (fuel : Nat) → MergeVars → Exec MergeVars
  | fuel, v =>
    match v.lastA, v.lastB with
    | some n1, some n2 =>
      match fuel with
      | 0 => .error .fuel
      | fuel + 1 => do
        let v ← mergeBody depth n1 n2 v
        mergeWhile depth fuel v
    | _, _ => .ok v

/-- The new cross-section of `merge_reveal`, `/repo/commit_verify/src/mpc/block.rs:453-524`. -/
def mergeNodes (depth : U5) (self other : List TreeNode) : Exec (List TreeNode) := do
  let (lastA, a) := next self
  let (lastB, b) := next other
  let v ← mergeWhile depth self.length ⟨[], a, b, lastA, lastB⟩
  .ok (v.crossSection ++ v.a ++ v.b)

/-- `MerkleBlock::merge_reveal`, `/repo/commit_verify/src/mpc/block.rs:442-553`. The iterator adaptors of the
sum are lazy: a node is mapped when it is added. -/
def mergeReveal [Env] (self other : MerkleBlock) : Exec (MerkleBlock × Except MergeError UInt16) := do
  let baseRoot ← self.commitId
  let mergedRoot ← other.commitId
  if baseRoot ≠ mergedRoot then .ok (self, .error (.unrelatedBlocks baseRoot mergedRoot))
  else do
    let crossSection ← mergeNodes self.depth self.crossSection other.crossSection
    let crossSection ← nonEmptyVec crossSection
    let self := { self with crossSection := crossSection }
    let sum ← self.crossSection.foldlM (fun acc n => do
      let height ← u8Sub dbg self.depth.val (n.depthOr self.depth).val
      let width ← u32Pow2 dbg height
      u32Add dbg acc width) 0
    assert' (decide (sum = widthLimit self.depth))
    let root ← self.commitId
    assert' (decide (baseRoot = root))
    .ok (self, .ok (UInt16.ofNat self.crossSection.length))

/-- What `MerkleBuoy` asks of the type of depths besides equality, `/repo/commit_verify/src/merkle.rs:247,
252`: `Default` and `SubAssign<u8>`, of which only the subtraction of 1 is used. -/
class BuoyDepth (D : Type) where
  /-- `D::default()` -/
  default : D
  /-- `d -= 1` -/
  subOne : D → Exec D

/-- Depths of type `u5` -/
instance : BuoyDepth U5 := ⟨0, fun d => u5Sub d 1⟩

/-- Depths of type `u8` -/
instance [Env] : BuoyDepth UInt8 :=
  ⟨0, fun d => do
    let x ← u8Sub dbg d.toNat 1
    .ok (UInt8.ofNat x)⟩

/-- `MerkleBuoy`, `/repo/commit_verify/src/merkle.rs:246-250`, with the fields of the code. -/
inductive MerkleBuoy (D : Type) where
  | mk (buoy : D) (stack : Option (MerkleBuoy D))

section
variable {D : Type}

/-- `MerkleBuoy::new`, `/repo/commit_verify/src/merkle.rs:253-258`. -/
def MerkleBuoy.new (top : D) : MerkleBuoy D := .mk top none

/-- `MerkleBuoy::level`, `/repo/commit_verify/src/merkle.rs:261-267`. -/
def MerkleBuoy.level : MerkleBuoy D → D
  | .mk buoy stack =>
    match stack with
    | some stack => stack.level
    | none => buoy

/-- `MerkleBuoy::push`, `/repo/commit_verify/src/merkle.rs:275-298`. Returns the changed buoy and the result. -/
def MerkleBuoy.push [DecidableEq D] [BuoyDepth D] : MerkleBuoy D → D → Exec (MerkleBuoy D × Bool)
  | .mk buoy none, depth =>
    if depth = BuoyDepth.default then .ok (.mk buoy none, false)
    else if depth = buoy then do
      let buoy ← BuoyDepth.subOne buoy
      .ok (.mk buoy none, true)
    else .ok (.mk buoy (some (MerkleBuoy.new depth)), false)
  | .mk buoy (some stack), depth =>
    if depth = BuoyDepth.default then .ok (.mk buoy (some stack), false)
    else do
      let (stack, surfaced) ← stack.push depth
      if surfaced then (MerkleBuoy.mk buoy none).push stack.level
      else .ok (.mk buoy (some stack), false)
termination_by b => b
decreasing_by
  · decreasing_tactic
  · have : ∀ b : MerkleBuoy D, 0 < sizeOf b := fun b => by cases b; simp; omega
    rename_i stack₀ _
    have := this stack₀
    simp
    omega

end

/-- `BTreeMap::insert` gives the value that was there. -/
def insert {α β : Type} [OrdKey α] (m : List (α × β)) (k : α) (v : β) : List (α × β) × Option β :=
  (bmapInsert k v m, bmapGet k m)

/-- `Iterator::all` with a closure that owns the variables `σ`. -/
def all {σ α : Type} (f : σ → α → σ × Bool) : σ → List α → σ × Bool
  | s, [] => (s, true)
  | s, x :: iter =>
    let (s, r) := f s x
    if r then all f s iter else (s, false)

/-- Variables of `try_commit`, `/repo/commit_verify/src/mpc/tree.rs:148-151`. -/
structure CommitVars where
  /-- `map` -/
  map : List (UInt32 × (ProtocolId × Message))
  /-- `depth` -/
  depth : U5
  /-- `prev_width` -/
  prevWidth : Nat

/-- `for cofactor in ..`, `/repo/commit_verify/src/mpc/tree.rs:155-170`: the variable `map` and the tree
returned from inside the loop, if any. -/
def forCofactor (source : MultiSource) (entropy : UInt64) (depth : U5) :
    (cofactors : List Nat) → (map : List (UInt32 × (ProtocolId × Message))) →
    Exec (List (UInt32 × (ProtocolId × Message)) × Option MerkleTree)
  | [], map => .ok (map, none)
  | c :: cofactors, _ =>
    let cofactor := UInt16.ofNat c
    let (map, r) := all (fun map (protocol, message) =>
      let pos := protocolIdPos protocol cofactor depth
      let (map, old) := insert map pos (protocol, message)
      (map, old.isNone)) [] source.messages.entries
    if r then
      match OrdMap.tryFrom MEDIUM_MAX map with
      | some map' => .ok (map, some ⟨source.method, depth, entropy, cofactor, source.messages, map'⟩)
      | none => .error .expect
    else forCofactor source entropy depth cofactors map

/-- `loop` of `try_commit`, `/repo/commit_verify/src/mpc/tree.rs:152-177`, with a bound on the number of
rounds. -/
def commitLoop (source : MultiSource) (entropy : UInt64) :
    (fuel : Nat) → CommitVars → Exec (Except CommitError MerkleTree)
  | 0, _ => .error .fuel
  | fuel + 1, v => do
    let msgCount := source.messages.entries.length
    let width := 2 ^ v.depth.val
    let (map, found) ←
      if width ≥ msgCount then
        forCofactor source entropy v.depth (List.range (min v.prevWidth COFACTOR_ATTEMPTS + 1)) v.map
      else .ok (v.map, none)
    match found with
    | some tree => .ok (.ok tree)
    | none =>
      let prevWidth := width
      if h : v.depth.val + 1 < 32 then commitLoop source entropy fuel ⟨map, ⟨v.depth.val + 1, h⟩, prevWidth⟩
      else .ok (.error (.cantFitInMaxSlots msgCount))

/-- `MerkleTree::try_commit`, `/repo/commit_verify/src/mpc/tree.rs:125-178`. -/
def tryCommit (rng : Option UInt64) (source : MultiSource) : Exec (Except CommitError MerkleTree) := do
  let msgCount := source.messages.entries.length
  if source.minDepth = 0 ∧ source.messages.entries.isEmpty then .ok (.error .empty)
  else if msgCount > 2 ^ 31 then .ok (.error (.tooManyMessages msgCount))
  else do
    let entropy ← match source.staticEntropy with
      | some e => .ok e
      | none =>
        match rng with
        | some e => .ok e
        | none => .error .expect
    commitLoop source entropy 32 ⟨[], source.minDepth, 1⟩

end CSV.Literal
