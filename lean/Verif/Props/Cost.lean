import Verif.Proofs.LeafNeeded
import Verif.Props.Size

/-!
# C99: received data cause work in proportion to their size

`Hashes debug n f` says that `f` can be computed by hashing the two tags and at most `n` other strings, each chosen
from the hashes so far. The upper bounds hold for whatever comes out of deserialization, well-formed or not. `Needs e
n f` says less: for the hash function `e` there are `n` strings whose hashes determine the result of `f`. The lower
bounds are about that, so they hold for every way to compute the same result, also for one that guesses which
strings to hash.
-/

namespace CSV

/-- **C99** Operations of a block - any block, with any nodes, in both build profiles, whether they succeed, fail or
panic - can be carried out by hashing at most so many strings. -/
theorem C99_blocks (debug : Bool) (b : MerkleBlock) :
    (Hashes debug (2 * b.crossSection.length) fun e' => @MerkleBlock.commitId e' b) ∧
    (∀ ps, Hashes debug (2 * b.crossSection.length - 1) fun e' => @MerkleBlock.concealExcept e' b ps) ∧
    (∀ p, Hashes debug (2 * b.crossSection.length - 1) fun e' => @MerkleBlock.toMerkleProof e' b p) ∧
    (Hashes debug (b.knownProtocolIds.length * (2 * b.crossSection.length - 1)) fun e' =>
      @MerkleBlock.intoKnownProofs e' b) ∧
    (∀ o : MerkleBlock, Hashes debug (4 * (b.crossSection.length + o.crossSection.length)) fun e' =>
      @MerkleBlock.mergeReveal e' b o) ∧
    (∀ (pr : MerkleProof) (p : ProtocolId) (m : Message),
      Hashes debug (4 * (b.crossSection.length + (pr.path.length + 1))) fun e' =>
        @MerkleBlock.mergeRevealPath e' b pr p m) :=
  ⟨hashes_commitId b, hashes_concealExcept b, hashes_toMerkleProof b, hashes_intoKnownProofs b, hashes_mergeReveal b,
    hashes_mergeRevealPath b⟩

private theorem block_nodes {bs rest : Bytes} {b : MerkleBlock} (h : decMerkleBlock bs = some (b, rest)) :
    34 * b.crossSection.length ≤ bs.length := by
  have h1 := congrArg List.length ((C39_canonical bs rest).2.2.2.2.2.2.1 b h).2
  rw [List.length_append, C66_block_bytes] at h1
  omega

/-- **C99** What is read from `n` bytes as a block causes at most `n / 17` strings to be hashed for its commitment,
for concealing it and for the extraction of a proof, and at most `4 n / 34` for a merge of two blocks. -/
theorem C99_block_bytes (debug : Bool) (bs rest : Bytes) (b : MerkleBlock) (h : decMerkleBlock bs = some (b, rest)) :
    (Hashes debug (bs.length / 17) fun e' => @MerkleBlock.commitId e' b) ∧
    (∀ ps, Hashes debug (bs.length / 17) fun e' => @MerkleBlock.concealExcept e' b ps) ∧
    (∀ p, Hashes debug (bs.length / 17) fun e' => @MerkleBlock.toMerkleProof e' b p) ∧
    (∀ (bs' rest' : Bytes) (o : MerkleBlock), decMerkleBlock bs' = some (o, rest') →
      Hashes debug (4 * (bs.length + bs'.length) / 34) fun e' => @MerkleBlock.mergeReveal e' b o) := by
  have hn := block_nodes h
  have hle : 2 * b.crossSection.length ≤ bs.length / 17 := by omega
  obtain ⟨h1, h2, h3, -, h5, -⟩ := C99_blocks debug b
  refine ⟨h1.mono hle, fun ps => (h2 ps).mono (by omega), fun p => (h3 p).mono (by omega), fun bs' rest' o ho => ?_⟩
  have hm := block_nodes ho
  exact (h5 o).mono (by omega)

private theorem proof_path {bs rest : Bytes} {pr : MerkleProof} (h : decMerkleProof bs = some (pr, rest)) :
    pr.path.length ≤ 32 ∧ 8 + 32 * pr.path.length ≤ bs.length := by
  obtain ⟨hc, h1⟩ := (C39_canonical bs rest).2.2.2.2.2.2.2 pr h
  have h2 := congrArg List.length h1
  have h3 : ∀ l : List MerkleHash, (l.flatMap encBytes32).length = 32 * l.length := by
    intro l
    induction l with
    | nil => rfl
    | cons a l ih => simp only [List.flatMap_cons, List.length_append, encBytes32, a.len, List.length_cons, ih]; omega
  simp only [MerkleProof.enc, encList, encU8, encU32, encU16, List.length_append, leBytes_length, h3,
    List.length_cons, List.length_nil, show lenPrefix 32 = 1 from rfl] at h2
  exact ⟨hc, by omega⟩

/-- **C99** What is read from `n` bytes as a proof causes at most `n / 32 + 2` strings to be hashed for its
verification, and never more than 34. -/
theorem C99_proof_bytes (debug : Bool) (bs rest : Bytes) (pr : MerkleProof)
    (h : decMerkleProof bs = some (pr, rest)) (p : ProtocolId) (m : Message) :
    (Hashes debug (min (bs.length / 32 + 2) 34) fun e' => @MerkleProof.convolve e' pr p m) := by
  obtain ⟨h1, h2⟩ := proof_path h
  exact (hashes_convolve pr h1 p m).mono (by omega)

/-- **C99** Any tree: its root and its commitment can be computed by hashing fewer than, respectively at most,
twice as many strings as the tree has slots. -/
theorem C99_tree_hashes (debug : Bool) (T : MerkleTree) :
    (Hashes debug (2 ^ (T.depth.val + 1) - 1) fun e' => @MerkleTree.root e' T) ∧
    (Hashes debug (2 ^ (T.depth.val + 1)) fun e' => @MerkleTree.commitId e' T) :=
  ⟨hashes_tree_root T, hashes_tree_commitId T⟩

private theorem needed_count (e : Env) (T : MerkleTree) (n : Nat) (q : List Nat) (hq : q.Nodup)
    (hb : ∀ i ∈ q, i < 2 ^ T.depth.val) (hinj : ∀ i ∈ q, ∀ j ∈ q, i ≠ j → T.leafAt i ≠ T.leafAt j)
    (h : Needs e n fun e' => @MerkleTree.commitId e' T) : q.length ≤ n := by
  obtain ⟨l, hl, hdet⟩ := h
  have hlen : q.length ≤ 2 ^ T.depth.val := by
    have := length_le_of_subset q (List.range (2 ^ T.depth.val)) hq fun i hi => List.mem_range.2 (hb i hi)
    rwa [List.length_range] at this
  by_cases hs : 3 * l.length + 1 < 2 ^ 256
  · have := length_le_of_subset (q.map fun i => @leafInput e (T.leafAt i)) l (by
      rw [List.Nodup, List.pairwise_map]
      refine List.Pairwise.imp_of_mem ?_ hq
      exact fun {i j} hi hj hij heq => hinj i hi j hj hij (@leafInput_inj e _ _ heq)) (by
      intro x hx
      obtain ⟨i, hi, rfl⟩ := List.mem_map.1 hx
      exact leaf_needed e T l hs hdet i (hb i hi))
    rw [List.length_map] at this
    omega
  · have : 2 ^ T.depth.val ≤ 2 ^ 31 := Nat.pow_le_pow_right (by decide) (by have := T.depth.isLt; omega)
    omega

/-- **C99** The commitment of a tree needs the hashes of all of its different leaves. -/
theorem C99_tree_distinct (e : Env) (T : MerkleTree) (n : Nat)
    (hinj : ∀ i j, i < 2 ^ T.depth.val → j < 2 ^ T.depth.val → i ≠ j → T.leafAt i ≠ T.leafAt j)
    (h : Needs e n fun e' => @MerkleTree.commitId e' T) : 2 ^ T.depth.val ≤ n := by
  have := needed_count e T n (List.range (2 ^ T.depth.val)) List.nodup_range (fun i hi => List.mem_range.1 hi)
    (fun i hi j hj hij => hinj i j (List.mem_range.1 hi) (List.mem_range.1 hj) hij) h
  rwa [List.length_range] at this

private theorem get_mem {κ α : Type} [OrdKey κ] (k : κ) : ∀ (m : List (κ × α)) (v : α), bmapGet k m = some v →
    OrdKey.key k ∈ m.map fun x => OrdKey.key x.1 := by
  intro m
  induction m with
  | nil => intro v h; cases h
  | cons x m ih =>
    obtain ⟨k', v'⟩ := x
    intro v h
    simp only [bmapGet] at h
    split at h
    · rename_i hk
      exact List.mem_cons.2 (.inl (by first | exact hk | exact hk.symm))
    · exact List.mem_cons_of_mem _ (ih v h)

private theorem length_filter_split {α : Type} (f : α → Bool) (l : List α) :
    l.length = (l.filter f).length + (l.filter fun a => !f a).length := by
  induction l with
  | nil => rfl
  | cons a l ih =>
    cases h : f a <;> simp only [List.filter_cons, h, List.length_cons, Bool.not_true, Bool.not_false, if_true,
      Bool.false_eq_true, if_false] <;> omega

/-- **C99** For every tree, whatever is in its maps: to compute its commitment one has to know the hashes of all its
free slots, that is of at least `2 ^ depth` strings less the number of messages. -/
theorem C99_tree (e : Env) (T : MerkleTree) (n : Nat) (h : Needs e n fun e' => @MerkleTree.commitId e' T) :
    2 ^ T.depth.val ≤ n + T.map.entries.length := by
  have hdep : 2 ^ T.depth.val ≤ 2 ^ 31 := Nat.pow_le_pow_right (by decide) (by have := T.depth.isLt; omega)
  have hof : ∀ i j, i < 2 ^ T.depth.val → j < 2 ^ T.depth.val → UInt32.ofNat i = UInt32.ofNat j → i = j := by
    intro i j hi hj hij
    have := congrArg UInt32.toNat hij
    rw [UInt32.toNat_ofNat', UInt32.toNat_ofNat', Nat.mod_eq_of_lt (by omega), Nat.mod_eq_of_lt (by omega)] at this
    exact this
  have hsplit := length_filter_split (fun i => (T.map.get (UInt32.ofNat i)).isNone) (List.range (2 ^ T.depth.val))
  rw [List.length_range] at hsplit
  have hfree := needed_count e T n
    ((List.range (2 ^ T.depth.val)).filter fun i => (T.map.get (UInt32.ofNat i)).isNone)
    (List.nodup_range.filter _)
    (fun i hi => List.mem_range.1 (List.mem_filter.1 hi).1)
    (fun i hi j hj hij heq => by
      obtain ⟨hi1, hi2⟩ := List.mem_filter.1 hi
      obtain ⟨hj1, hj2⟩ := List.mem_filter.1 hj
      simp only [Option.isNone_iff_eq_none] at hi2 hj2
      simp only [MerkleTree.leafAt, hi2, hj2] at heq
      injection heq with _ heq
      exact hij (hof i j (List.mem_range.1 hi1) (List.mem_range.1 hj1) heq)) h
  have htaken := length_le_of_subset
    (((List.range (2 ^ T.depth.val)).filter fun i => !(T.map.get (UInt32.ofNat i)).isNone).map fun i =>
      OrdKey.key (UInt32.ofNat i))
    (T.map.entries.map fun x => OrdKey.key x.1)
    (by
      rw [List.Nodup, List.pairwise_map]
      refine List.Pairwise.imp_of_mem ?_ (List.nodup_range.filter _)
      intro i j hi hj hij heq
      exact hij (hof i j (List.mem_range.1 (List.mem_filter.1 hi).1) (List.mem_range.1 (List.mem_filter.1 hj).1)
        (OrdKey.inj heq)))
    (by
      intro x hx
      obtain ⟨i, hi, rfl⟩ := List.mem_map.1 hx
      have := (List.mem_filter.1 hi).2
      cases hg : T.map.get (UInt32.ofNat i) with
      | none => rw [hg] at this; cases this
      | some v => exact get_mem _ _ v hg)
  rw [List.length_map, List.length_map] at htaken
  omega

/-- **C99** In particular whoever computes the commitment of a tree, whichever way, hashes so many strings. -/
theorem C99_tree_work (debug : Bool) (T : MerkleTree) (n : Nat)
    (h : Hashes debug n fun e' => @MerkleTree.commitId e' T) : 2 ^ T.depth.val ≤ n + T.map.entries.length :=
  C99_tree ⟨fun _ => Bytes32.fill 0, debug⟩ T n (h.needs _ rfl)

/-- The serialization of a tree of depth 31 without messages. -/
private def deepBytes : Bytes := [0, 31, 0, 0, 0, 0, 0, 0, 0, 0, 0, 0, 0, 0, 0, 0, 0, 0]

private def deepTree : MerkleTree :=
  ⟨.sha256t, ⟨31, by decide⟩, 0, 0, ⟨[], List.Pairwise.nil, by decide⟩, ⟨[], List.Pairwise.nil, by decide⟩⟩

/-- **C99** Received trees are different: there is a serialization of 18 bytes from which a tree is deserialized
whose commitment needs the hashes of 2^31 strings - in this code and in any other that computes the same. So no
factor smaller than a hundred million bounds the number of hashes by the number of bytes. -/
theorem C99_false : ∃ (bs : Bytes) (T : MerkleTree), bs.length = 18 ∧ deserialize decMerkleTree bs = some T ∧
    (∀ (e : Env) (n : Nat), (Needs e n fun e' => @MerkleTree.commitId e' T) → 2 ^ 31 ≤ n) ∧
    (∀ e : Env, ¬ Needs e (100000000 * bs.length) fun e' => @MerkleTree.commitId e' T) ∧
    ∀ debug, ¬ Hashes debug (100000000 * bs.length) fun e' => @MerkleTree.commitId e' T := by
  have key : ∀ (e : Env) (n : Nat), (Needs e n fun e' => @MerkleTree.commitId e' deepTree) → 2 ^ 31 ≤ n :=
    fun e n h => C99_tree e deepTree n h
  have h18 : deepBytes.length = 18 := rfl
  have key' : ∀ e : Env, ¬ Needs e (100000000 * deepBytes.length) fun e' => @MerkleTree.commitId e' deepTree := by
    intro e h
    have := key e _ h
    rw [h18] at this
    omega
  exact ⟨deepBytes, deepTree, rfl, rfl, key, key', fun debug h => key' ⟨fun _ => Bytes32.fill 0, debug⟩ (h.needs _ rfl)⟩

/-- **C99** What holds of it: blocks and proofs cause work in proportion to their size, trees as many hashes as they
have slots, which is not bounded by the size but known once they are read. -/
theorem C99_partial (debug : Bool) (bs rest : Bytes) :
    (∀ b, decMerkleBlock bs = some (b, rest) → Hashes debug (bs.length / 17) fun e' => @MerkleBlock.commitId e' b) ∧
    (∀ pr, decMerkleProof bs = some (pr, rest) → ∀ p m,
      Hashes debug (bs.length / 32 + 2) fun e' => @MerkleProof.convolve e' pr p m) ∧
    (∀ T, decMerkleTree bs = some (T, rest) →
      Hashes debug (2 ^ (T.depth.val + 1)) fun e' => @MerkleTree.commitId e' T) := by
  exact ⟨fun b h => (C99_block_bytes debug bs rest b h).1,
    fun pr h p m => (C99_proof_bytes debug bs rest pr h p m).mono (Nat.min_le_left _ _), fun T _ => (C99_tree_hashes debug T).2⟩

private def h (n : Nat) : Bytes32 := Bytes32.ofNat n

/-- Non-vacuity: a malformed block - its nodes do not fit together - is read from 111 bytes (and two bytes remain);
its commitment, a panic in a debug build, needs at most 6 hashes. -/
example : ∃ b : MerkleBlock, decMerkleBlock ([0, 3, 0, 0, 3, 0, 0, 0] ++ (0 :: 1 :: (h 1).bytes) ++
      (0 :: 1 :: (h 2).bytes) ++ (0 :: 1 :: (h 3).bytes) ++ [0] ++ [7, 7]) = some (b, [7, 7]) ∧
    b.crossSection = [.concealed 1 (h 1), .concealed 1 (h 2), .concealed 1 (h 3)] ∧
    @MerkleBlock.commitId (realEnv true) b = .error .debugAssert ∧
    Hashes true 6 fun e' => @MerkleBlock.commitId e' b := by
  let b : MerkleBlock := ⟨.sha256t, 3, 0, [.concealed 1 (h 1), .concealed 1 (h 2), .concealed 1 (h 3)], none⟩
  refine ⟨b, by decide +kernel, rfl, ?_, (C99_blocks true b).1⟩
  have : (match @MerkleBlock.commitId (realEnv true) b with
    | .error .debugAssert => true
    | _ => false) = true := by decide +kernel
  split at this
  · assumption
  · cases this

/-- Non-vacuity: a proof with a path of two hashes. -/
example : ∃ pr : MerkleProof, decMerkleProof ([0, 1, 0, 0, 0, 0, 0, 2] ++ (h 1).bytes ++ (h 2).bytes) = some (pr, []) ∧
    pr.path = [h 1, h 2] ∧ ∀ p m, Hashes true 4 fun e' => @MerkleProof.convolve e' pr p m := by
  refine ⟨⟨.sha256t, 1, 0, [h 1, h 2]⟩, by decide +kernel, rfl, fun p m => ?_⟩
  exact (C99_proof_bytes true ([0, 1, 0, 0, 0, 0, 0, 2] ++ (h 1).bytes ++ (h 2).bytes) [] _
    (by decide +kernel) p m).mono (by decide +kernel)

private def smallTree : MerkleTree :=
  ⟨.sha256t, 3, 5, 0, ⟨[(h 4, h 9)], by decide +kernel, by decide⟩, ⟨[(4, (h 4, h 9))], by decide +kernel, by decide⟩⟩

/-- Non-vacuity: a tree of depth 3 with one message, for which the bounds are 16 and 8 (the tree has different
leaves). -/
example : smallTree.map.entries.length = 1 ∧
    (Hashes true 16 fun e' => @MerkleTree.commitId e' smallTree) ∧
    ¬ Needs (realEnv true) 7 fun e' => @MerkleTree.commitId e' smallTree := by
  refine ⟨rfl, (C99_tree_hashes true smallTree).2, fun hn => ?_⟩
  · have hd : ∀ i j : Fin 8, i ≠ j → smallTree.leafAt i ≠ smallTree.leafAt j := by decide +kernel
    have := C99_tree_distinct (realEnv true) smallTree 7 (fun i j hi hj hij =>
      hd ⟨i, hi⟩ ⟨j, hj⟩ fun he => hij (Fin.mk.inj he)) hn
    exact absurd this (by decide)

end CSV
