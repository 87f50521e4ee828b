import Verif.Spec.Sample
import Verif.Proofs.Tree
import Verif.Proofs.Commit

/-!
# Facts about the sample
-/

namespace CSV.Sample

theorem from_tree [Env] : MerkleBlock.fromTree tree = .ok block := by rw [fromTree_eq]; rfl

theorem shows_tree [Env] : block.Shows tree.pt := by
  have := fromTree_shows tree
  exact ⟨rfl, this.2⟩

theorem valid [Env] : block.Valid := ⟨_, shows_tree⟩

/-- What `block1` shows. -/
def pt1 [Env] : PT := .node (.node (.hidden (leafHash (.inhabited p6 m6))) (.leaf p1 m1))
  (.hidden (branchHash 1 4 (leafHash (.inhabited p5 m5)) (leafHash (.entropy 77 3))))

theorem shows_block1 [Env] : block1.Shows pt1 :=
  ⟨rfl, ⟨(by decide : 2 ≤ 2), rfl⟩, (by decide : 1 ≤ 2)⟩

theorem view_block1 [Env] : block1.OfTree tree :=
  ⟨rfl, rfl, rfl, pt1, shows_block1, ⟨rfl, rfl⟩, rfl⟩

theorem view_block [Env] : block.OfTree tree :=
  ⟨rfl, rfl, rfl, tree.pt, shows_tree, ⟨rfl, rfl⟩, ⟨rfl, rfl⟩⟩

theorem holds : tree.Holds := by
  rcases tryCommit_spec none source with ⟨_, _, h'⟩ | ⟨_, _, h'⟩ | ⟨_, e, he, ⟨t', h', hc⟩ | ⟨h', _⟩⟩
  all_goals rw [commits] at h'
  all_goals cases h'
  exact hc.holds

end CSV.Sample
