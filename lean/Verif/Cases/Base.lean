import Verif.Props.Conceal
import Verif.Props.Proof
import Verif.Props.Unique

/-!
# Cases for the theorems: more of the sample

The files in this directory apply theorems to concrete data, so that their hypotheses are seen to be met by a
case which is not trivial: three protocols, two of which collide at the first attempt, blocks in which some of
them are concealed, proofs of them, and the real SHA256 wherever absence of collisions is assumed. Cases of the
other theorems are beside them in `Verif/Props`.
-/

namespace CSV.Sample

theorem concealed1 [Env] : block.concealExcept [p1] = .ok (block1, .ok 3) := conceals.2.1

/-- The block with only the message of protocol 5 revealed. -/
def block5 [Env] : MerkleBlock :=
  ⟨.sha256t, 2, 1, [.concealed 1 (branchHash 1 4 (leafHash (.inhabited p6 m6)) (leafHash (.inhabited p1 m1))),
    .leaf p5 m5, .concealed 2 (leafHash (.entropy 77 3))], none⟩

/-- What `block5` shows. -/
def pt5 [Env] : PT := .node (.hidden (branchHash 1 4 (leafHash (.inhabited p6 m6)) (leafHash (.inhabited p1 m1))))
  (.node (.leaf p5 m5) (.hidden (leafHash (.entropy 77 3))))

theorem shows_block5 [Env] : block5.Shows pt5 :=
  ⟨rfl, (by decide : 1 ≤ 2), rfl, (by decide : 2 ≤ 2)⟩

theorem view_block5 [Env] : block5.OfTree tree :=
  ⟨rfl, rfl, rfl, pt5, shows_block5, rfl, rfl, rfl⟩

theorem concealed5 [Env] : block.concealExcept [p5] = .ok (block5, .ok 3) := by
  rcases concealExcept_cases shows_tree [p5] with ⟨n, -, h, -, hn⟩ | ⟨q, hq, hk, h, -⟩
  · rw [h]
    have : n = 3 := by
      have h1 : (((tree.pt.hideLeaves (List.contains [p5])).canon (2 ^ block.depth.val) 0).frontier 0).length = 3 := by
        rfl
      have h2 : block.crossSection.length + tree.pt.known.countP (fun e => !List.contains [p5] e.1) = 6 := by rfl
      omega
    rw [this]
    rfl
  · simp only [List.mem_cons, List.not_mem_nil, or_false] at hq
    subst hq
    exact absurd (by decide : p5 ∈ [p6, p1, p5]) hk

theorem valid1 [Env] : block1.Valid := ⟨_, shows_block1⟩
theorem valid5 [Env] : block5.Valid := ⟨_, shows_block5⟩

theorem committed [Env] : tree.commitId = .ok tree.specCommitment := tree_commitId tree
theorem committed0 [Env] : block.commitId = .ok tree.specCommitment := ofTree_commitId view_block
theorem committed1 [Env] : block1.commitId = .ok tree.specCommitment := ofTree_commitId view_block1
theorem committed5 [Env] : block5.commitId = .ok tree.specCommitment := ofTree_commitId view_block5

theorem placed [Env] : block.Placed tree.pt := ofTree_placed holds rfl rfl shows_tree view_refl

theorem known [Env] : (p1, m1) ∈ block.knownMessages ∧ (p5, m5) ∈ block.knownMessages ∧
    (p6, m6) ∈ block.knownMessages := by
  show (p1, m1) ∈ [(p6, m6), (p1, m1), (p5, m5)] ∧ (p5, m5) ∈ [(p6, m6), (p1, m1), (p5, m5)] ∧
    (p6, m6) ∈ [(p6, m6), (p1, m1), (p5, m5)]
  decide

theorem known_ids [Env] : p1 ∈ block.knownProtocolIds ∧ p5 ∈ block.knownProtocolIds ∧
    p6 ∈ block.knownProtocolIds ∧ p9 ∉ block.knownProtocolIds ∧ p1 ∈ block1.knownProtocolIds ∧
    p5 ∈ block5.knownProtocolIds := by
  show p1 ∈ [p6, p1, p5] ∧ p5 ∈ [p6, p1, p5] ∧ p6 ∈ [p6, p1, p5] ∧ p9 ∉ [p6, p1, p5] ∧ p1 ∈ [p1] ∧ p5 ∈ [p5]
  decide

/-- The proof of protocol 5. -/
def proof5 [Env] : MerkleProof :=
  ⟨.sha256t, 2, 1, [branchHash 1 4 (leafHash (.inhabited p6 m6)) (leafHash (.inhabited p1 m1)),
    leafHash (.entropy 77 3)]⟩

theorem proof1_made [Env] : block.toMerkleProof p1 = .ok (.ok proof1) := by
  rw [toMerkleProof_eq placed known.1]; rfl

theorem proof5_made [Env] : block.toMerkleProof p5 = .ok (.ok proof5) := by
  have hp : block.protocolIdPos p5 = 2 := (by decide +kernel : protocolIdPos p5 1 2 = 2)
  rw [toMerkleProof_eq placed known.2.1, hp]
  rfl

theorem proof5_convolve [Env] : proof5.convolve p5 m5 = .ok (.ok tree.specCommitment) := by
  obtain ⟨pr, m, c, h1, -, h2, h3, h4, -⟩ := C16_complete tree holds block view_block p5 known_ids.2.1
  rw [committed] at h3
  cases h3
  have h1' : tree.messages.get p5 = some m5 := by decide
  rw [h1'] at h1
  cases h1
  rw [proof5_made] at h2
  cases h2
  exact h4

theorem short1 [Env] : proof1.path.length ≤ 31 := (by decide : 2 ≤ 31)
theorem short1' [Env] : proof1.path.length ≤ 32 := (by decide : 2 ≤ 32)
theorem short5 [Env] : proof5.path.length ≤ 31 := (by decide : 2 ≤ 31)
theorem short5' [Env] : proof5.path.length ≤ 32 := (by decide : 2 ≤ 32)

theorem fits0 [Env] : tree.pt.Fits (min (block.depth.val + 1) 31) block.depth.val 0 :=
  ⟨⟨rfl, rfl⟩, rfl, (by decide : 2 ≤ 3)⟩
theorem fits1 [Env] : pt1.Fits (min (block1.depth.val + 1) 31) block1.depth.val 0 :=
  ⟨⟨(by decide : 2 ≤ 3), rfl⟩, (by decide : 1 ≤ 3)⟩
theorem fits5 [Env] : pt5.Fits (min (block5.depth.val + 1) 31) block5.depth.val 0 :=
  ⟨(by decide : 1 ≤ 3), rfl, (by decide : 2 ≤ 3)⟩

theorem misplaced [Env] : slotOf p5 proof1.cofactor.toNat proof1.path.length ≠ proof1.pos.toNat :=
  (by decide +kernel : slotOf p5 1 2 ≠ 1)

end CSV.Sample
