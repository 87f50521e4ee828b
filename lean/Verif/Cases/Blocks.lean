import Verif.Cases.Base
import Verif.Props.AnyBlock
import Verif.Props.Block
import Verif.Props.Merge
import Verif.Props.Work
import Verif.Props.Size
import Verif.Props.Disclose
import Verif.Props.KnownMap
import Verif.Props.Profiles
import Verif.Props.Smallest
import Verif.Props.Tests

/-!
# Cases for the theorems on blocks and proofs, for every hash function
-/

namespace CSV

open Sample

/-! ## Concealing -/

example [Env] := C10_conceal_keeps_commitment block valid [p1, p9]
example [Env] := C10_any_number_of_calls block valid [[p1, p5], [p9], [p1]]
example [Env] := C10_conceal_other block valid p5
example [Env] : ∃ t, block1.Shows t ∧ t.Minimal := C12_minimal block block1 valid [p1] 3 concealed1
example [Env] := C12_set_of_ids block [p1, p5, p1] [p5, p1] (by simp)
example [Env] : block1.concealExcept [p1] = .ok (block1, .ok 0) := C12_idempotent block block1 valid [p1] 3 concealed1
example [Env] : ∃ b1 n k, block.concealExcept [p5, p1] = .ok (b1, .ok n) ∧ b1.concealExcept [p1] = .ok (block1, .ok k) := by
  obtain ⟨b3, k, l, -, h⟩ := C75_join block block5 block1 valid [p5] [p1] 3 3 concealed5 concealed1
  obtain ⟨j, hj⟩ := C12_stepwise block b3 block1 valid [p1] [p5, p1] l 3 (by decide) h concealed1
  exact ⟨b3, l, j, h, hj⟩
example [Env] := C14_partial block _ valid [p9, p1] _ conceals.2.2
example [Env] := C14_exact block _ [p9, p1] _ conceals.2.2
example [Env] : ∃ c, block1.commitId = .ok c := C29_valid block1 valid1
example [Env] := C79_tree block tree.pt shows_tree.1 fits0 [p1, p9]
example [Env] := C79_any block _ [p9, p1] _ conceals.2.2
example [Env] := C79_iff block _ [p9, p1] _ conceals.2.2 tree.specCommitment
example [Env] := C79_conceals block1 _ committed1 [p1]
example [Env] := C80_proofs block tree.pt shows_tree.1 fits0 _ committed0 p5
example [Env] := C85_conceal_rounds block tree.pt shows_tree [p1] (by simpa using known_ids.1) 2
example [Env] := C85_conceal block valid [p1]
example [Env] : block1.crossSection.length ≤ 1 * 2 + 1 := (C66_nodes block block1 valid [p1] 3 concealed1).1
example [Env] : block1.enc.length ≤ 43 + 1 * (34 * 2 + 31) := C66_bytes block block1 valid [p1] 3 concealed1
example [Env] : block1 ≠ block5 :=
  fun h => absurd ((C75_order block block1 block5 valid [p1] [p5] 3 3 concealed1 concealed5).1.1 h p1) (by decide)
example [Env] : block1.enc.length ≤ block.enc.length :=
  (C111_smallest tree holds block block1 view_block [p1] 3 concealed1 block view_block (by simpa using known_ids.1)).2.1

/-! ## Proofs -/

example [Env] := C16_committed_trees none source tree commits
example [Env] := C16_placed block tree.pt placed p5 m5 known.2.1
example [Env] := C16_complete tree holds block5 view_block5 p5 known_ids.2.2.2.2.2
example [Env] := C16_into_known_proofs tree holds block view_block
example [Env] : ∃ pr, block.toMerkleProof p1 = .ok (.ok pr) ∧ block1.toMerkleProof p1 = .ok (.ok pr) :=
  C17_same_proof tree holds block block1 view_block view_block1 p1 known_ids.1 known_ids.2.2.2.2.1
example [Env] : ∃ r, proof1.convolve p1 m1 = .ok r := (C20_partial proof1 short1' p1 m1).1.2 short1
example [Env] := C22_rebuilt_is_concealed tree holds block view_block p5 m5 known.2.1 proof5 proof5_made
example [Env] : ∃ c, block1.commitId = .ok c ∧ block.commitId = .ok c :=
  (C57_hidden_parts block1 block pt1 tree.pt (ofTree_placed holds rfl rfl shows_block1 ⟨⟨rfl, rfl⟩, rfl⟩) placed rfl rfl
    (view_compat (T := tree.pt) ⟨⟨rfl, rfl⟩, rfl⟩ view_refl)).1
example [Env] := C57_proof_content tree holds block1 view_block1 p1 known_ids.2.2.2.2.1

/-! ## Blocks of a tree -/

example [Env] := C30_partial tree holds block view_block
example [Env] := C55_starts tree holds
example [Env] := C70_of_tree tree holds block5 view_block5
example [Env] := C70_source none source tree commits
example := C70_any_order [(p1, m1), (p5, m5)] [(p5, m5), (p1, m1)] (List.Perm.swap ..) (by decide)
example [Env] := C102_conceal tree block from_tree

/-! ## Merging -/

example [Env] : ∃ b n, block1.mergeReveal block5 = .ok (b, .ok n) ∧ b.OfTree tree ∧
    ∀ e, e ∈ b.knownMessages ↔ e ∈ block1.knownMessages ∨ e ∈ block5.knownMessages :=
  C23_of_tree tree block1 block5 view_block1 view_block5
example [Env] := C24_wrong_position block proof1 p5 m5 short1 misplaced
example [Env] : ∃ n, block1.mergeReveal block1 = .ok (block1, .ok n) := C25_idempotent block1 valid1
example [Env] := C26_all_proofs tree holds block view_block proof1 p1 m1 [(proof5, p5, m5)] (by
  intro x hx
  simp only [List.mem_cons, List.not_mem_nil, or_false] at hx
  rcases hx with rfl | rfl
  · exact ⟨known.1, proof1_made⟩
  · exact ⟨known.2.1, proof5_made⟩)
example [Env] : ∃ b n, block1.mergeReveal block5 = .ok (b, .ok n) ∧ n.toNat = b.crossSection.length % 65536 := by
  obtain ⟨b, n, h, -⟩ := C23_of_tree tree block1 block5 view_block1 view_block5
  exact ⟨b, n, h, (C27_partial block1 block5 b n h).1⟩

/-! ## Profiles -/

example (e : Env) := C56_conceal_except e (@block e) (@valid e) [p1]
example (e : Env) := C56_block_commitment e (@block1 e) (@valid1 e)
example (e : Env) := C56_to_merkle_proof e (@block e) (@valid e) p5
  (by show ([p6, p1, p5].filter (· = p5)).length ≤ 1; decide)
example (e : Env) := C56_verification e (@proof5 e) (@short5' e) p5 m5

end CSV
