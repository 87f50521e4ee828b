import Verif.Spec.Hashed
import Verif.Proofs.Canon
import Verif.Proofs.Tree
import Verif.Proofs.Proof
import Verif.Proofs.Merklize
import Verif.Props.Conceal
import Verif.Props.Commit
import Verif.Props.Merge

/-!
# C84: which strings are hashed, and how many
-/

namespace CSV

section
variable {e e' : Env}

theorem SameHashes.same_sub {l m : List Bytes} (h : SameHashes e e' m) (hs : ∀ x ∈ l, x ∈ m) :
    SameHashes e e' l := fun x hx => h x (hs x hx)

private theorem input_agree {tag : String} {data : Bytes} (h : e'.sha256 (utf8 tag) = e.sha256 (utf8 tag)) :
    @taggedInput e' tag data = @taggedInput e tag data := by
  simp only [taggedInput, sha, h]

theorem SameHashes.hash_agree {tag : String} {data : Bytes} (h : e'.sha256 (utf8 tag) = e.sha256 (utf8 tag))
    (hs : e'.sha256 (@taggedInput e tag data) = e.sha256 (@taggedInput e tag data)) :
    @taggedSha e' tag data = @taggedSha e tag data := by
  show e'.sha256 _ = e.sha256 _
  rw [input_agree h, hs]

variable (ht : SameHashes e e' tagStrings)
include ht

private theorem merkle_tag : e'.sha256 (utf8 MERKLE_TAG) = e.sha256 (utf8 MERKLE_TAG) :=
  ht _ (List.mem_cons_self ..)

private theorem mpc_tag : e'.sha256 (utf8 MPC_TAG) = e.sha256 (utf8 MPC_TAG) :=
  ht _ (List.mem_cons_of_mem _ (List.mem_cons_self ..))

private theorem root_agree {w : Nat} : ∀ (t : PT) (d : Nat), SameHashes e e' (@PT.inputs e w t d) →
    @PT.root e' w t d = @PT.root e w t d := by
  intro t
  induction t with
  | hidden _ => intro d _; rfl
  | leaf p m => intro d h; exact SameHashes.hash_agree (merkle_tag ht) (h _ (List.mem_cons_self ..))
  | node l r ihl ihr =>
    intro d h
    simp only [PT.root]
    rw [ihl _ (SameHashes.same_sub h fun x hx => by simp [PT.inputs, hx]),
      ihr _ (SameHashes.same_sub h fun x hx => by simp [PT.inputs, hx])]
    exact SameHashes.hash_agree (merkle_tag ht) (h _ (List.mem_cons_self ..))

theorem commitment_agree {D : U5} {c : UInt16} {t : PT}
    (h : SameHashes e e' (@blockInputs e D c t)) :
    @commitmentHash e' ⟨D, c, @PT.root e' (2 ^ D.val) t 0⟩
      = @commitmentHash e ⟨D, c, @PT.root e (2 ^ D.val) t 0⟩ := by
  rw [root_agree ht t 0 (SameHashes.same_sub h fun x hx => List.mem_cons_of_mem _ hx)]
  exact SameHashes.hash_agree (mpc_tag ht) (h _ (List.mem_cons_self ..))

private theorem hide_agree {w : Nat} {f : ProtocolId → Bool} : ∀ (t : PT) (d : Nat),
    SameHashes e e' (@PT.inputs e w t d) → @PT.hideLeaves e' f t = @PT.hideLeaves e f t := by
  intro t
  induction t with
  | hidden _ => intro d _; rfl
  | leaf p m =>
    intro d h
    simp only [PT.hideLeaves]
    split
    · rfl
    · exact congrArg PT.hidden (SameHashes.hash_agree (merkle_tag ht) (h _ (List.mem_cons_self ..)))
  | node l r ihl ihr =>
    intro d h
    simp only [PT.hideLeaves]
    rw [ihl (d + 1) (SameHashes.same_sub h fun x hx => by simp [PT.inputs, hx]),
      ihr (d + 1) (SameHashes.same_sub h fun x hx => by simp [PT.inputs, hx])]

private theorem canon_agree {w : Nat} {f : ProtocolId → Bool} : ∀ (t : PT) (d : Nat),
    SameHashes e e' (@PT.inputs e w t d) →
    @PT.canon e' w (@PT.hideLeaves e f t) d = @PT.canon e w (@PT.hideLeaves e f t) d := by
  intro t
  induction t with
  | hidden _ => intro d _; rfl
  | leaf p m =>
    intro d h
    simp only [PT.hideLeaves]
    split <;> rfl
  | node l r ihl ihr =>
    intro d h
    simp only [PT.hideLeaves, PT.canon]
    rw [ihl _ (SameHashes.same_sub h fun x hx => by simp [PT.inputs, hx]),
      ihr _ (SameHashes.same_sub h fun x hx => by simp [PT.inputs, hx])]
    have hl := @PT.root_canon e w (@PT.hideLeaves e f l) (d + 1)
    have hr := @PT.root_canon e w (@PT.hideLeaves e f r) (d + 1)
    rw [@PT.root_hideLeaves e] at hl hr
    generalize @PT.canon e w (@PT.hideLeaves e f l) (d + 1) = l' at hl ⊢
    generalize @PT.canon e w (@PT.hideLeaves e f r) (d + 1) = r' at hr ⊢
    cases l' with
    | hidden h1 =>
      cases r' with
      | hidden h2 =>
        simp only [PT.root] at hl hr
        subst hl hr
        exact congrArg PT.hidden (SameHashes.hash_agree (merkle_tag ht) (h _ (List.mem_cons_self ..)))
      | leaf _ _ => rfl
      | node _ _ => rfl
    | leaf _ _ => rfl
    | node _ _ => rfl

private theorem compat_agree {w : Nat} : ∀ (t1 t2 : PT) (d : Nat), SameHashes e e' (@PT.inputs e w t1 d) →
    SameHashes e e' (@PT.inputs e w t2 d) → @PT.Compat e w t1 t2 d → @PT.Compat e' w t1 t2 d := by
  intro t1
  induction t1 with
  | hidden _ =>
    intro t2 d _ h2 hc
    simp only [PT.Compat] at hc ⊢
    rw [root_agree ht t2 d h2, hc]
  | leaf p m =>
    intro t2 d h1 _ hc
    cases t2 with
    | hidden _ =>
      simp only [PT.Compat] at hc ⊢
      rw [root_agree ht _ d h1, hc]
    | leaf _ _ => exact hc
    | node _ _ => exact hc
  | node l r ihl ihr =>
    intro t2 d h1 h2 hc
    cases t2 with
    | hidden _ =>
      simp only [PT.Compat] at hc ⊢
      rw [root_agree ht _ d h1, hc]
    | leaf _ _ => exact hc
    | node l2 r2 =>
      exact ⟨ihl l2 _ (SameHashes.same_sub h1 fun x hx => by simp [PT.inputs, hx])
          (SameHashes.same_sub h2 fun x hx => by simp [PT.inputs, hx]) hc.1,
        ihr r2 _ (SameHashes.same_sub h1 fun x hx => by simp [PT.inputs, hx])
          (SameHashes.same_sub h2 fun x hx => by simp [PT.inputs, hx]) hc.2⟩

private theorem mroot_agree {w : Nat} : ∀ (t : MTree) (d : Nat), SameHashes e e' (@MTree.inputs e w t d) →
    @MTree.root e' w t d = @MTree.root e w t d := by
  intro t
  induction t with
  | empty => intro d h; exact SameHashes.hash_agree (merkle_tag ht) (h _ (List.mem_cons_self ..))
  | lone _ => intro d h; exact SameHashes.hash_agree (merkle_tag ht) (h _ (List.mem_cons_self ..))
  | pair _ _ => intro d h; exact SameHashes.hash_agree (merkle_tag ht) (h _ (List.mem_cons_self ..))
  | fork l r ihl ihr =>
    intro d h
    simp only [MTree.root]
    rw [ihl _ (SameHashes.same_sub h fun x hx => by simp [MTree.inputs, hx]),
      ihr _ (SameHashes.same_sub h fun x hx => by simp [MTree.inputs, hx])]
    exact SameHashes.hash_agree (merkle_tag ht) (h _ (List.mem_cons_self ..))

theorem SameHashes.listRoot_agree (l : List MerkleHash) (h : SameHashes e e' (@listInputs e l)) :
    @listRoot e' l = @listRoot e l := by
  unfold listRoot
  split
  · rfl
  · rename_i hne
    refine mroot_agree ht _ 0 ?_
    have : @listInputs e l = @MTree.inputs e l.length (MTree.of l) 0 := by
      unfold listInputs
      split
      · exact absurd rfl (hne _)
      · rfl
    rwa [this] at h

private theorem slot_agree {T : MerkleTree} {i : Nat}
    (h : e'.sha256 (@leafInput e (T.leafAt i)) = e.sha256 (@leafInput e (T.leafAt i))) :
    @MerkleTree.slot e' T i = @MerkleTree.slot e T i := by
  unfold MerkleTree.slot
  unfold MerkleTree.leafAt at h
  cases hg : T.map.get (UInt32.ofNat i) with
  | some pm => rfl
  | none =>
    rw [hg] at h
    exact congrArg PT.hidden (SameHashes.hash_agree (merkle_tag ht) h)

end

private theorem full_congr {f g : Nat → PT} : ∀ (n lo : Nat), (∀ i, lo ≤ i → i < lo + 2 ^ n → f i = g i) →
    PT.full f n lo = PT.full g n lo := by
  intro n
  induction n with
  | zero => intro lo h; exact h lo (Nat.le_refl _) (by simp)
  | succ n ih =>
    intro lo h
    have h2 : 2 ^ (n + 1) = 2 ^ n + 2 ^ n := by rw [Nat.pow_succ]; omega
    simp only [PT.full]
    rw [ih lo fun i h1 h3 => h i h1 (by omega), ih (lo + 2 ^ n) fun i h1 h3 => h i (by omega) (by omega)]

/-- Strings hashed for the inner nodes alone. -/
private def PT.branches [Env] (w : Nat) : PT → (d : Nat) → List Bytes
  | .hidden _, _ => []
  | .leaf _ _, _ => []
  | .node l r, d =>
    branchInput d w (l.root w (d + 1)) (r.root w (d + 1)) ::
      (l.branches w (d + 1) ++ r.branches w (d + 1))

private theorem mem_inputs [Env] {w : Nat} {x : Bytes} : ∀ (t : PT) (d : Nat), x ∈ t.inputs w d ↔
    x ∈ t.branches w d ∨ ∃ p m, (p, m) ∈ t.known ∧ x = leafInput (.inhabited p m) := by
  intro t
  induction t with
  | hidden _ => intro d; simp [PT.inputs, PT.branches, PT.known]
  | leaf p m =>
    intro d
    simp only [PT.inputs, PT.branches, PT.known, List.mem_singleton, List.not_mem_nil, false_or,
      Prod.mk.injEq]
    exact ⟨fun h => ⟨p, m, ⟨rfl, rfl⟩, h⟩, fun ⟨_, _, ⟨h1, h2⟩, h⟩ => by rw [h, h1, h2]⟩
  | node l r ihl ihr =>
    intro d
    simp only [PT.inputs, PT.branches, PT.known, List.mem_cons, List.mem_append, ihl, ihr]
    constructor
    · rintro (h | (h | ⟨p, m, h, h'⟩) | (h | ⟨p, m, h, h'⟩))
      · exact .inl (.inl h)
      · exact .inl (.inr (.inl h))
      · exact .inr ⟨p, m, .inl h, h'⟩
      · exact .inl (.inr (.inr h))
      · exact .inr ⟨p, m, .inr h, h'⟩
    · rintro ((h | h | h) | ⟨p, m, h | h, h'⟩)
      · exact .inl h
      · exact .inr (.inl (.inl h))
      · exact .inr (.inr (.inl h))
      · exact .inr (.inl (.inr ⟨p, m, h, h'⟩))
      · exact .inr (.inr (.inr ⟨p, m, h, h'⟩))

private theorem branches_full [Env] {w : Nat} {f : Nat → PT} (hf : ∀ i d, (f i).branches w d = []) :
    ∀ (n lo d : Nat), ((PT.full f n lo).branches w d).length + 1 = 2 ^ n := by
  intro n
  induction n with
  | zero => intro lo d; simp [PT.full, hf]
  | succ n ih =>
    intro lo d
    have h1 := ih lo (d + 1)
    have h2 := ih (lo + 2 ^ n) (d + 1)
    simp only [PT.full, PT.branches, List.length_cons, List.length_append, Nat.pow_succ]
    omega

private theorem full_known_mem {f : Nat → PT} {x : ProtocolId × Message} : ∀ (n lo : Nat),
    x ∈ (PT.full f n lo).known → ∃ i, lo ≤ i ∧ i < lo + 2 ^ n ∧ x ∈ (f i).known := by
  intro n
  induction n with
  | zero => intro lo h; exact ⟨lo, Nat.le_refl _, by simp, h⟩
  | succ n ih =>
    intro lo h
    have h2 : 2 ^ (n + 1) = 2 ^ n + 2 ^ n := by rw [Nat.pow_succ]; omega
    simp only [PT.full, PT.known, List.mem_append] at h
    rcases h with h | h
    · obtain ⟨i, h1, h3, h4⟩ := ih _ h
      exact ⟨i, h1, by omega, h4⟩
    · obtain ⟨i, h1, h3, h4⟩ := ih _ h
      exact ⟨i, by omega, by omega, h4⟩

private theorem slot_known_leaf [Env] {T : MerkleTree} {i : Nat} {p : ProtocolId} {m : Message}
    (h : (p, m) ∈ (T.slot i).known) : T.leafAt i = .inhabited p m := by
  unfold MerkleTree.slot at h
  unfold MerkleTree.leafAt
  cases hg : T.map.get (UInt32.ofNat i) with
  | some pm =>
    rw [hg] at h
    obtain ⟨a, b⟩ := pm
    simp only [PT.known, List.mem_singleton, Prod.mk.injEq] at h
    simp only [h.1, h.2]
  | none => rw [hg] at h; simp [PT.known] at h

private theorem slot_branches [Env] (T : MerkleTree) (w i d : Nat) : (T.slot i).branches w d = [] := by
  unfold MerkleTree.slot
  split <;> rfl

private theorem inputs_length [Env] {w : Nat} : ∀ (t : PT) (d k : Nat),
    (t.inputs w d).length + 1 ≤ 2 * (t.frontier k).length := by
  intro t
  induction t with
  | hidden _ => intro d k; simp [PT.inputs, PT.frontier]
  | leaf _ _ => intro d k; simp [PT.inputs, PT.frontier]
  | node l r ihl ihr =>
    intro d k
    have h1 := ihl (d + 1) (k + 1)
    have h2 := ihr (d + 1) (k + 1)
    simp only [PT.inputs, PT.frontier, List.length_cons, List.length_append]
    omega

private theorem path_inputs_length [Env] {w : Nat} {p : ProtocolId} {m : Message} :
    ∀ (path : List MerkleHash) (pos d : Nat),
    ((PT.path p m pos path).inputs w d).length = path.length + 1 := by
  intro path
  induction path with
  | nil => intro pos d; rfl
  | cons h rest ih =>
    intro pos d
    simp only [PT.path]
    split <;> simp [PT.inputs, ih]

private theorem minputs_length [Env] {w : Nat} : ∀ (t : MTree) (d : Nat), t.Balanced → t.leaves ≠ [] →
    (t.inputs w d).length + 1 ≤ 2 * t.leaves.length := by
  intro t
  induction t with
  | empty => intro d _ h; exact absurd rfl h
  | lone _ => intro d _ _; simp [MTree.inputs, MTree.leaves]
  | pair _ _ => intro d _ _; simp [MTree.inputs, MTree.leaves]
  | fork l r ihl ihr =>
    intro d hb _
    obtain ⟨bl, br, h3, hlr⟩ := hb
    have h1 := ihl (d + 1) bl (fun h => by rw [h, List.length_nil] at h3 hlr; omega)
    have h2 := ihr (d + 1) br (fun h => by rw [h, List.length_nil] at h3 hlr; omega)
    simp only [MTree.inputs, MTree.leaves, List.length_cons, List.length_append]
    omega

/-- **C84** The commitment and the root of a tree depend on the hash function only through the hashes of the
two tags and of at most `2 ^ (depth + 1)` strings; these are the strings of which binding properties
assume that no two collide. -/
theorem C84_tree (e : Env) (T : MerkleTree) :
    ∃ l : List Bytes, l.length ≤ 2 ^ (T.depth.val + 1) ∧ (∀ x, x ∈ l ↔ x ∈ @MerkleTree.inputs e T) ∧
      ∀ e' : Env, SameHashes e e' (tagStrings ++ l) →
        @MerkleTree.commitId e' T = @MerkleTree.commitId e T ∧
        @MerkleTree.root e' T = @MerkleTree.root e T := by
  refine ⟨@commitmentInput e ⟨T.depth, T.cofactor, @PT.root e (2 ^ T.depth.val) (@MerkleTree.pt e T) 0⟩ ::
    (@PT.branches e (2 ^ T.depth.val) (@MerkleTree.pt e T) 0 ++
      (List.range (2 ^ T.depth.val)).map fun i => @leafInput e (T.leafAt i)), ?_, fun x => ?_, fun e' h => ?_⟩
  · have h1 := @branches_full e (2 ^ T.depth.val) (@MerkleTree.slot e T) (fun i d => @slot_branches e T _ i d) T.depth.val 0 0
    simp only [MerkleTree.pt, List.length_cons, List.length_append, List.length_map, List.length_range,
      Nat.pow_succ]
    omega
  · simp only [MerkleTree.inputs, blockInputs, List.mem_cons, List.mem_append, @mem_inputs e]
    constructor
    · rintro (h | h | h)
      · exact .inl (.inl h)
      · exact .inl (.inr (.inl h))
      · exact .inr h
    · rintro ((h | h | ⟨p, m, h, hx⟩) | h)
      · exact .inl h
      · exact .inr (.inl h)
      · obtain ⟨i, -, hi, hk⟩ := full_known_mem _ _ h
        refine .inr (.inr (List.mem_map.2 ⟨i, List.mem_range.2 (by omega), ?_⟩))
        rw [@slot_known_leaf e _ _ _ _ hk, hx]
      · exact .inr (.inr h)
  · have ht : SameHashes e e' tagStrings := SameHashes.same_sub h fun x hx => List.mem_append_left _ hx
    have hl := SameHashes.same_sub h fun x hx => List.mem_append_right tagStrings hx
    have hpt : @MerkleTree.pt e' T = @MerkleTree.pt e T := by
      refine full_congr _ _ fun i _ hi => slot_agree ht (hl _ ?_)
      exact List.mem_cons_of_mem _ (List.mem_append_right _
        (List.mem_map.2 ⟨i, List.mem_range.2 (by omega), rfl⟩))
    have hin : SameHashes e e' (@blockInputs e T.depth T.cofactor (@MerkleTree.pt e T)) := by
      refine SameHashes.same_sub hl fun x hx => ?_
      rcases List.mem_cons.1 hx with hx | hx
      · exact hx ▸ List.mem_cons_self ..
      · refine List.mem_cons_of_mem _ (List.mem_append.2 ?_)
        rcases (@mem_inputs e _ _ _ _).1 hx with hx | ⟨p, m, hx, hx'⟩
        · exact .inl hx
        · obtain ⟨i, -, hi, hk⟩ := full_known_mem _ _ hx
          refine .inr (List.mem_map.2 ⟨i, List.mem_range.2 (by omega), ?_⟩)
          rw [@slot_known_leaf e _ _ _ _ hk, hx']
    constructor
    · rw [@tree_commitId e', @tree_commitId e]
      simp only [MerkleTree.specCommitment, MerkleTree.specRoot]
      rw [hpt, commitment_agree ht hin]
    · rw [@tree_root e', @tree_root e]
      simp only [MerkleTree.specRoot]
      rw [hpt, root_agree ht _ 0 (SameHashes.same_sub hin fun x hx => List.mem_cons_of_mem _ hx)]

/-- **C84** The commitment of a block made of a complete tree, in either profile, depends on the hash function
only through the hashes of the two tags and of at most two strings for each of its nodes. -/
theorem C84_block (e : Env) (b : MerkleBlock) (t : PT) (hcs : b.crossSection = t.frontier 0)
    (hf : t.Fits (min (b.depth.val + 1) 31) b.depth.val 0) :
    (@blockInputs e b.depth b.cofactor t).length ≤ 2 * b.crossSection.length ∧
    ∀ e' : Env, SameHashes e e' (tagStrings ++ @blockInputs e b.depth b.cofactor t) →
      @MerkleBlock.commitId e' b = @MerkleBlock.commitId e b := by
  refine ⟨?_, fun e' h => ?_⟩
  · have := @inputs_length e (2 ^ b.depth.val) t 0 0
    rw [hcs]
    simp only [blockInputs, List.length_cons]
    omega
  · have ht : SameHashes e e' tagStrings := SameHashes.same_sub h fun x hx => List.mem_append_left _ hx
    have hl := SameHashes.same_sub h fun x hx => List.mem_append_right tagStrings hx
    rw [(@C29_both_profiles e' b).1 t hcs hf, (@C29_both_profiles e b).1 t hcs hf, commitment_agree ht hl]

/-- **C84** In a debug build so does every block that has a commitment. -/
theorem C84_debug (e : Env) (hd : e.debug = true) (b : MerkleBlock) (c : Commitment)
    (hc : @MerkleBlock.commitId e b = .ok c) :
    ∃ l : List Bytes, l.length ≤ 2 * b.crossSection.length ∧
      ∀ e' : Env, SameHashes e e' (tagStrings ++ l) → @MerkleBlock.commitId e' b = .ok c := by
  obtain ⟨t, hcs, hf, -⟩ := (@C29_debug e hd b c).1 hc
  obtain ⟨h1, h2⟩ := C84_block e b t hcs hf
  exact ⟨_, h1, fun e' h => by rw [h2 e' h, hc]⟩

/-- **C84** Verifying a proof - accepting, rejecting or panicking - depends on the hash function only through the
hashes of the two tags, of one string for the leaf, one for each hash of the path, and a last one. -/
theorem C84_proof (e : Env) (pr : MerkleProof) (hl : pr.path.length ≤ 32) (p : ProtocolId) (m : Message) :
    (@proofInputs e pr p m).length = pr.path.length + 2 ∧
    ∀ e' : Env, SameHashes e e' (tagStrings ++ @proofInputs e pr p m) →
      @MerkleProof.convolve e' pr p m = @MerkleProof.convolve e pr p m := by
  refine ⟨?_, fun e' h => ?_⟩
  · simp only [proofInputs, blockInputs, List.length_cons]
    rw [@path_inputs_length e]
  · have ht : SameHashes e e' tagStrings := SameHashes.same_sub h fun x hx => List.mem_append_left _ hx
    have hl' := SameHashes.same_sub h fun x hx => List.mem_append_right tagStrings hx
    by_cases h32 : pr.path.length = 32
    · rw [@convolve_panic e' pr p m h32, @convolve_panic e pr p m h32]
    · have hlt : pr.path.length < 32 := by omega
      rw [@convolve_eq e' pr p m hlt, @convolve_eq e pr p m hlt]
      have := commitment_agree ht hl'
      rw [toU5_val hlt] at this
      rw [this]

private theorem collect_agree {e e' : Env} (hd : e'.debug = e.debug) : ∀ (cs : List TreeNode)
    (m : List (U5 × MerkleHash)), @collectPath e' cs m = @collectPath e cs m := by
  intro cs
  induction cs with
  | nil => intro m; rfl
  | cons a cs ih =>
    intro m
    cases a with
    | leaf _ _ => exact ih m
    | concealed d h => simp only [collectPath, dbg, hd, ih]

/-- **C84** Concealing and extracting a proof from a structurally valid block depend on the hash function only
through the strings hashed for its commitment, the result as well as the changed block. -/
theorem C84_conceal (e : Env) (b : MerkleBlock) (t : PT) (hb : b.Shows t) (e' : Env)
    (hd : e'.debug = e.debug) (h : SameHashes e e' (tagStrings ++ @blockInputs e b.depth b.cofactor t)) :
    (∀ ps, @MerkleBlock.concealExcept e' b ps = @MerkleBlock.concealExcept e b ps) ∧
    (∀ p, @MerkleBlock.toMerkleProof e' b p = @MerkleBlock.toMerkleProof e b p) := by
  have ht : SameHashes e e' tagStrings := SameHashes.same_sub h fun x hx => List.mem_append_left _ hx
  have hl := SameHashes.same_sub h fun x hx => List.mem_append_right tagStrings (List.mem_cons_of_mem _ hx)
  have hc : ∀ ps, @MerkleBlock.concealExcept e' b ps = @MerkleBlock.concealExcept e b ps := by
    intro ps
    have h1 := hide_agree ht (f := ps.contains) t 0 hl
    have h2 := canon_agree ht (f := ps.contains) t 0 hl
    cases hm : missing b ps with
    | nil =>
      obtain ⟨n', e1, l1⟩ := @concealExcept_shows e' b t hb ps hm
      obtain ⟨n, e2, l2⟩ := @concealExcept_shows e b t hb ps hm
      rw [widthLimit, h1, h2] at e1 l1
      rw [widthLimit] at e2 l2
      rw [e1, e2]
      have : n' = n := by omega
      rw [this]
    | cons q l =>
      rw [@concealExcept_err e' b t hb ps q l hm, @concealExcept_err e b t hb ps q l hm, h1]
  refine ⟨hc, fun p => ?_⟩
  simp only [MerkleBlock.toMerkleProof, MerkleBlock.concealOther, hc, collect_agree hd, dbg, hd]

/-- **C84** Merging structurally valid blocks depends on the hash function only through the strings hashed for the
two commitments, if no two of them collide. -/
theorem C84_merge (e : Env) (b1 b2 : MerkleBlock) (t1 t2 : PT) (h1 : b1.Shows t1) (h2 : b2.Shows t2)
    (hn : @NoCollision e (@blockInputs e b1.depth b1.cofactor t1 ++ @blockInputs e b2.depth b2.cofactor t2))
    (e' : Env) (h : SameHashes e e' (tagStrings ++
      (@blockInputs e b1.depth b1.cofactor t1 ++ @blockInputs e b2.depth b2.cofactor t2))) :
    @MerkleBlock.mergeReveal e' b1 b2 = @MerkleBlock.mergeReveal e b1 b2 := by
  have ht : SameHashes e e' tagStrings := SameHashes.same_sub h fun x hx => List.mem_append_left _ hx
  have i1 := SameHashes.same_sub h fun x hx => List.mem_append_right tagStrings (List.mem_append_left _ hx)
  have i2 := SameHashes.same_sub h fun x hx => List.mem_append_right tagStrings (List.mem_append_right _ hx)
  have c1 := commitment_agree ht i1
  have c2 := commitment_agree ht i2
  have k1 := @shows_commitId e b1 t1 h1
  have k2 := @shows_commitId e b2 t2 h2
  have k1' := @shows_commitId e' b1 t1 h1
  have k2' := @shows_commitId e' b2 t2 h2
  rw [widthLimit] at k1 k2 k1' k2'
  rw [c1] at k1'
  rw [c2] at k2'
  by_cases hc : @commitmentHash e ⟨b1.depth, b1.cofactor, @PT.root e (2 ^ b1.depth.val) t1 0⟩
      = @commitmentHash e ⟨b2.depth, b2.cofactor, @PT.root e (2 ^ b2.depth.val) t2 0⟩
  · obtain ⟨hd, hco, hcomp⟩ := @PT.Compat.ofRoot e b1 b2 t1 t2 h1 hn hc
    have hcomp' := compat_agree ht t1 t2 0 (SameHashes.same_sub i1 fun x hx => List.mem_cons_of_mem _ hx)
      (by rw [hd]; exact SameHashes.same_sub i2 fun x hx => List.mem_cons_of_mem _ hx) hcomp
    rw [(@mergeReveal_compat e' b1 b2 t1 t2 h1 h2 hd hco hcomp').1,
      (@mergeReveal_compat e b1 b2 t1 t2 h1 h2 hd hco hcomp).1]
  · rw [@mergeReveal_unrelated e' _ _ _ _ k1' k2' hc, @mergeReveal_unrelated e _ _ _ _ k1 k2 hc]

/-- **C84** Merklization of a list of leaves depends on the hash function only through the hashes of the tags, of
the leaves and of fewer than two strings per leaf for the nodes. -/
theorem C84_merklize {α : Type} (ce : CommitEncode α) (enc : α → Bytes)
    (henc : ∀ e : Env, @LeafEncoding e α ce enc) (e : Env) (l : List α) (hl : l.length < 2 ^ 32) :
    (@leavesInputs e α enc l).length ≤ max 1 (3 * l.length) ∧
    ∀ e' : Env, SameHashes e e' (tagStrings ++ @leavesInputs e α enc l) →
      @merklize e' α ce l = @merklize e α ce l := by
  refine ⟨?_, fun e' h => ?_⟩
  · simp only [leavesInputs, List.length_append, List.length_map]
    have key : ∀ ids : List MerkleHash, (@listInputs e ids).length + ids.length ≤ max 1 (3 * ids.length) := by
      intro ids
      unfold listInputs
      split
      · simp
      · by_cases h0 : ids = []
        · subst h0; exact Nat.le_refl 1
        · obtain ⟨hle, hb⟩ := MTree.of_spec ids
          have := @minputs_length e ids.length (MTree.of ids) 0 hb (by rw [hle]; exact h0)
          rw [hle] at this
          have := List.length_pos_iff.2 h0
          omega
    have := key (l.map fun x => @taggedSha e MERKLE_TAG (enc x))
    rw [List.length_map] at this
    omega
  · have ht : SameHashes e e' tagStrings := SameHashes.same_sub h fun x hx => List.mem_append_left _ hx
    have hl' := SameHashes.same_sub h fun x hx => List.mem_append_right tagStrings hx
    rw [@merklize_eq e' α ce _ (henc e') l hl, @merklize_eq e α ce _ (henc e) l hl]
    have hm : (l.map fun x => @taggedSha e' MERKLE_TAG (enc x))
        = l.map fun x => @taggedSha e MERKLE_TAG (enc x) := by
      refine List.map_congr_left fun x hx => SameHashes.hash_agree (merkle_tag ht) (hl' _ ?_)
      exact List.mem_append_left _ (List.mem_map.2 ⟨x, hx, rfl⟩)
    rw [hm, SameHashes.listRoot_agree ht _ (SameHashes.same_sub hl' fun x hx => List.mem_append_right _ hx)]

/-- Another hash function, which differs from SHA256 on the empty string. -/
@[instance_reducible] private def otherEnv : Env := ⟨fun x => if x = [] then Bytes32.fill 0 else (realEnv true).sha256 x, true⟩

/-- Non-vacuity of C84: different hash functions that agree on the strings hashed for a tree. -/
example : otherEnv.sha256 [] ≠ (realEnv true).sha256 [] ∧
    SameHashes (realEnv true) otherEnv (tagStrings ++ @MerkleTree.inputs (realEnv true) Sample.tree) ∧
    (@MerkleTree.inputs (realEnv true) Sample.tree).length = 11 := by
  refine ⟨by decide +kernel, ?_, by decide +kernel⟩
  show ∀ x ∈ _, _
  decide +kernel

end CSV
