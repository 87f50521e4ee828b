import Verif.Cases.Base
import Verif.Props.Absence
import Verif.Props.AnyBlock
import Verif.Props.Block
import Verif.Props.Hashed
import Verif.Props.Matches
import Verif.Props.Merge
import Verif.Props.MergeIff
import Verif.Props.Profiles
import Verif.Props.Received
import Verif.Props.ReceivedTree
import Verif.Props.Release
import Verif.Props.Smallest
import Verif.Props.Source
import Verif.Props.TreeBinding
import Verif.Props.Unique
import Verif.Props.Hiding

/-!
# Cases for the theorems: with the real SHA256

The strings hashed for the sample, its blocks and its proofs are seen not to collide by hashing them.
-/

namespace CSV

open Sample

local instance real : Env := realEnv true

theorem Sample.apart : NoCollision tree.inputs := by decide +kernel

private theorem picked {l : List Bytes} (is : List Nat) (hi : ∀ i ∈ is, i < l.length) :
    ∀ a ∈ is.map (l.getD · []), a ∈ l := by
  intro a h
  obtain ⟨i, h1, rfl⟩ := List.mem_map.1 h
  simp [List.getElem?_eq_getElem (hi i h1)]

theorem Sample.inputs0 [Env] : ∀ a ∈ blockInputs 2 1 tree.pt, a ∈ tree.inputs :=
  fun _ h => List.mem_append_left _ h
theorem Sample.inputs1 [Env] : ∀ a ∈ blockInputs 2 1 pt1, a ∈ tree.inputs :=
  picked (l := tree.inputs) [0, 1, 2, 4] (by show ∀ i ∈ [0, 1, 2, 4], i < 11; decide)
theorem Sample.inputs5 [Env] : ∀ a ∈ blockInputs 2 1 pt5, a ∈ tree.inputs :=
  picked (l := tree.inputs) [0, 1, 5, 6] (by show ∀ i ∈ [0, 1, 5, 6], i < 11; decide)
theorem Sample.inputs1' [Env] : ∀ a ∈ proofInputs proof1 p1 m1, a ∈ tree.inputs := inputs1
theorem Sample.inputs5' [Env] : ∀ a ∈ proofInputs proof5 p5 m5, a ∈ tree.inputs := inputs5

theorem Sample.inputs [Env] : ∀ a ∈ tree.inputs, a ∈ tree.inputs := fun _ h => h

/-- What is hashed for the blocks and proofs is part of what is hashed for the tree. -/
theorem Sample.both {l l' : List Bytes} (h : ∀ a ∈ l, a ∈ tree.inputs) (h' : ∀ a ∈ l', a ∈ tree.inputs) :
    NoCollision (l ++ l') :=
  apart.mono fun a ha => (List.mem_append.1 ha).elim (h a) (h' a)

/-! ## Proofs -/

example := C18_binding proof1 proof1 p1 m1 m1 _ short1' short1' (both inputs1' inputs1') proof1_convolve proof1_convolve
example := C21_only_committed tree holds proof1 short1' p1 m1 _ (both inputs1' inputs) committed proof1_convolve
example := (C21_source none source tree _ commits committed).2 proof5 p5 m5 short5' proof5_convolve
  (both inputs5' inputs)
example := C26_verified_proofs tree holds _ committed proof1 p1 m1 [(proof5, p5, m5)]
  (List.forall_mem_cons.2 ⟨⟨short1', proof1_convolve, both inputs1' inputs⟩,
    List.forall_mem_cons.2 ⟨⟨short5', proof5_convolve, both inputs5' inputs⟩, List.forall_mem_nil _⟩⟩)
example := C31_halves tree holds apart block block view_block view_block p1 p5 proof1 proof5 proof1_made proof5_made
example := (C97_provable tree _ committed p1 m1).2 proof1 short1' (both inputs1' inputs) proof1_convolve
example := C86_slot proof1 proof1 p1 p1 m1 m1 _ short1' short1' rfl (both inputs1' inputs1') proof1_convolve
  proof1_convolve

/-! ## Blocks -/

example := C23_union block1 block5 pt1 pt5 shows_block1 shows_block5 _ committed1 committed5 (both inputs1 inputs5)
example := C23_slots block1 block5 pt1 pt5 shows_block1 shows_block5 _ committed1 committed5 (both inputs1 inputs5)
example := C25_commutative block1 block5 pt1 pt5 shows_block1 shows_block5 _ committed1 committed5
  (both inputs1 inputs5)
example := C25_associative block1 block5 block pt1 pt5 tree.pt shows_block1 shows_block5 shows_tree _ committed1
  committed5 committed0 (both (fun a h => (List.mem_append.1 h).elim (inputs1 a) (inputs5 a)) inputs0)
example := C30_valid_blocks tree holds block1 pt1 shows_block1 _ committed committed1 (both inputs1 inputs)
example := (C55_starts tree holds).2 proof1 p1 m1 _ short1' committed proof1_convolve (both inputs1' inputs)
example := C111_received tree holds block block1 view_block [p1] 3 concealed1 block tree.pt shows_tree rfl
  (both inputs0 inputs) (List.forall_mem_cons.2 ⟨known_ids.1, List.forall_mem_nil _⟩)
example := C56_merge_reveal real block1 block5 pt1 pt5 shows_block1 shows_block5 (both inputs1 inputs5)
example := C56_merge_reveal_path real block1 pt1 shows_block1 proof5 short5' p5 m5 (both inputs1 inputs5')
example := C84_merge real block1 block5 pt1 pt5 shows_block1 shows_block5 (both inputs1 inputs5) real (fun _ _ => rfl)

/-! ## Trees and received blocks -/

private theorem same1 {t : PT} (h : block1.crossSection = t.frontier 0) (hf : t.Fits 3 2 0) : t = pt1 :=
  (frontier_inj (r1 := []) (r2 := []) (by decide) (by decide) hf fits1
    ((List.append_nil _).trans ((h.symm.trans shows_block1.1).trans (List.append_nil _).symm))).1
private theorem same5 {t : PT} (h : block5.crossSection = t.frontier 0) (hf : t.Fits 3 2 0) : t = pt5 :=
  (frontier_inj (r1 := []) (r2 := []) (by decide) (by decide) hf fits5
    ((List.append_nil _).trans ((h.symm.trans shows_block5.1).trans (List.append_nil _).symm))).1

example := C60_binding tree tree _ committed committed (both inputs inputs)
example := C63_received tree block1 _ committed committed1
example := C63_begins tree block1 (committed1.trans committed.symm)
example := C29_debug rfl block1 tree.specCommitment
example := C64_partial rfl tree block5 block1 view_block5 _ committed1 (fun t h f => by
  have : t = pt1 := same1 h f
  subst this
  exact both inputs1 inputs)
example := C64_debug_iff rfl block5 block1 (fun t u h f h' f' => by
  have : t = pt5 := same5 h f
  subst this
  have : u = pt1 := same1 h' f'
  subst this
  exact both inputs5 inputs1)
example := C84_block real block1 pt1 shows_block1.1 fits1
example := C84_debug real rfl block1 _ committed1
example := C84_proof real proof1 short1' p1 m1
example := C84_conceal real block1 pt1 shows_block1 real rfl (fun _ _ => rfl)
example := C81_hiding real tree { tree with entropy := 78 } holds holds rfl rfl rfl [p1]
  (List.forall_mem_cons.2 ⟨⟨m1, by decide, by decide⟩, List.forall_mem_nil _⟩)

end CSV
