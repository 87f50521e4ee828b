import Verif.Cases.Base
import Verif.Props.Commit
import Verif.Props.Fit
import Verif.Props.Join
import Verif.Props.Monotone
import Verif.Props.Reference
import Verif.Props.SmallDepth
import Verif.Props.Typical
import Verif.Props.TreeBinding
import Verif.Props.Update
import Verif.Props.Source
import Verif.Props.ReceivedTree
import Verif.Props.Hiding

/-!
# Cases for the theorems on sources and trees
-/

namespace CSV

open Sample

/-! ## Committing -/

example := C01_slots none source tree commits
example : (∃ p m, source.messages.get p = some m ∧ slotOf p 1 2 = 3 ∧ tree.leafAt 3 = .inhabited p m) ∨
    ((∀ p m, source.messages.get p = some m → slotOf p 1 2 ≠ 3) ∧ tree.leafAt 3 = .entropy 77 3) :=
  C01_leaves none source tree commits 3 (by decide)
example := C02_first_fit none source tree commits
example := C02_independent_of_rng none (some 5) source tree tree commits (by rfl)
example [Env] := C07_factored_width none source tree commits
example [Env] := C07_derived none source tree commits
example [Env] := C07_decoded tree block1 rfl rfl
example := C08_static_entropy source 77 rfl none (some 5) tree
example : ∃ t, MerkleTree.tryCommit none source = .ok (.ok t) := C04_small_sets_fit none source rfl (.inr (by decide)) (by decide +kernel)

/-! ## The shape of trees -/

/-- The source without protocol 5. -/
def Sample.fewer : MultiSource := { source with messages := ⟨[(p1, m1), (p6, m6)], by decide, by decide⟩ }

example := C91_fewer none none source fewer tree commits rfl
  (fun p m h => by
    have hm : (p, m) ∈ fewer.messages.entries := bmapGet_mem h
    simp only [fewer, List.mem_cons, Prod.mk.injEq, List.not_mem_nil, or_false] at hm
    rcases hm with ⟨rfl, rfl⟩ | ⟨rfl, rfl⟩
    · exact ⟨m1, by decide⟩
    · exact ⟨m6, by decide⟩) rfl (.inl (by decide))
example := C92_partial none source 1 tree commits (by decide) (.inl (by decide))
example := C92_unchanged none source 2 tree commits (by decide) (.inr ⟨rfl, by decide⟩)
example := C92_unchanged_iff none source 2 tree commits (by decide) (by decide)
example : ∃ t, MerkleTree.tryCommit none source = .ok (.ok t) ∧ t.depth.val ≤ 3 :=
  C87_depth none source 3 rfl (.inl (by decide)) (by decide) (by decide) (by decide +kernel)
example : ∃ t, MerkleTree.tryCommit none source = .ok (.ok t) ∧ t.depth.val ≤ 10 :=
  C93_table none source rfl (by decide) (by decide) 3 10 (by decide) (by decide)

/-! ## Protocols which join, and messages which change -/

/-- With protocol 3 besides: its slot modulo 3 is taken. -/
def Sample.more : MessageMap :=
  ⟨[(p1, m1), (Bytes32.ofNat 3, m1), (p5, m5), (p6, m6)], by decide, by decide⟩

theorem Sample.more_other (q : ProtocolId) (hq : q ≠ Bytes32.ofNat 3) : more.get q = source.messages.get q := by
  have : ¬ OrdKey.key q = OrdKey.key (Bytes32.ofNat 3 : ProtocolId) := fun e => hq (OrdKey.inj e)
  simp [more, source, messages, OrdMap.get, bmapGet, this]

example [Env] := C101_room none source tree commits more (Bytes32.ofNat 3) m1 (by decide) (by decide) more_other

/-- With another message of protocol 5. -/
def Sample.changed : MessageMap := ⟨[(p1, m1), (p5, m6), (p6, m6)], by decide, by decide⟩

theorem Sample.changed_other (q : ProtocolId) (hq : q ≠ p5) : changed.get q = source.messages.get q := by
  have : ¬ OrdKey.key q = OrdKey.key p5 := fun e => hq (OrdKey.inj e)
  simp [changed, source, messages, OrdMap.get, bmapGet, this]

example [Env] := C100_own_proof none source tree commits changed p5 m5 m6 (by decide) (by decide) changed_other

/-! ## Trees, the published procedure, worlds that look alike -/

example [Env] := C60_determined tree tree' rfl rfl rfl (fun _ _ => rfl)
example [Env] : Reference.commit source.messages.entries 2 77 = some tree.specCommitment :=
  (C69_commit none source 77 rfl tree.specCommitment).1 ⟨tree, commits, committed⟩
example [Env] := (C69_verify proof1 short1' p1 m1 tree.specCommitment).1 proof1_convolve
example [Env] := C21_source none source tree _ commits committed
example [Env] := C97_provable badTree _ (tree_commitId badTree) p1 m1
example [Env] := C97_into_proofs badTree _ (tree_commitId badTree)

end CSV
