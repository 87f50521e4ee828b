import Verif.Spec.Refines
import Verif.Props.Profiles

/-!
# What a debug build returns, a release build returns (C83)

For all inputs, well formed or not. In contrast to C56 (equality of both profiles, for well-formed
data) nothing is assumed about the data.
-/

namespace CSV

namespace Refines

variable {α β : Type}

theorem refl (x : Exec α) : Refines x x := fun _ h => h

theorem bind {x y : Exec α} {f g : α → Exec β} (h : Refines x y) (hf : ∀ a, Refines (f a) (g a)) :
    Refines (x >>= f) (y >>= g) := by
  intro b hb
  obtain ⟨a, h1, h2⟩ := bind_ok_iff.1 hb
  rw [h a h1]
  exact hf a b h2

theorem assert (c : Bool) : Refines (debugAssert true c) (debugAssert false c) := by
  intro a h
  cases a
  rfl

theorem add (a b : Nat) : Refines (u32Add true a b) (u32Add false a b) := by
  intro r h
  unfold u32Add at h ⊢
  split at h
  · rename_i hc
    rw [if_pos hc]
    exact h
  · cases h

theorem sub (a b : Nat) : Refines (u32Sub true a b) (u32Sub false a b) := by
  intro r h
  unfold u32Sub at h ⊢
  split at h
  · rename_i hc
    rw [if_pos hc]
    exact h
  · cases h

theorem pow (a : Nat) : Refines (u32Pow2 true a) (u32Pow2 false a) := by
  intro r h
  unfold u32Pow2 at h ⊢
  split at h
  · rename_i hc
    rw [if_pos hc]
    exact h
  · cases h

theorem sub8 (a b : Nat) : Refines (u8Sub true a b) (u8Sub false a b) := by
  intro r h
  unfold u8Sub at h ⊢
  split at h
  · rename_i hc
    rw [if_pos hc]
    exact h
  · cases h

theorem ite {c : Prop} [Decidable c] {x y x' y' : Exec α} (h : Refines x x') (k : Refines y y') :
    Refines (if c then x else y) (if c then x' else y') := by
  split
  · exact h
  · exact k

theorem mapM {f g : α → Exec β} (h : ∀ a, Refines (f a) (g a)) : ∀ l : List α,
    Refines (l.mapM f) (l.mapM g)
  | [] => by
    rw [List.mapM_nil, List.mapM_nil]
    exact refl _
  | a :: l => by
    rw [List.mapM_cons, List.mapM_cons]
    exact (h a).bind fun b => (mapM h l).bind fun bs => refl _

end Refines

open Refines

variable {α β γ : Type}

private theorem r_inner (e : Env) (en : CommitEngine) (n : Nat) (bs : Bytes) :
    Refines (@CommitEngine.innerCommitTo (profile e true) en n bs)
      (@CommitEngine.innerCommitTo (profile e false) en n bs) := by
  unfold CommitEngine.innerCommitTo
  exact (assert _).bind fun _ => ite (refl _) ((assert _).bind fun _ => refl _)

private theorem r_serialized (e : Env) [StrictEncode α] (en : CommitEngine) (v : α) :
    Refines (@CommitEngine.commitToSerialized (profile e true) α _ en v)
      (@CommitEngine.commitToSerialized (profile e false) α _ en v) := by
  unfold CommitEngine.commitToSerialized
  exact (refl _).bind fun _ => (assert _).bind fun _ => (assert _).bind fun _ => (refl _).bind fun _ =>
    r_inner e _ _ _

private theorem r_concealed (e : Env) [StrictType α] [Conceal α β] [StrictEncode β] (hc : SteadyConceal α β)
    (en : CommitEngine) (v : α) :
    Refines (@CommitEngine.commitToConcealed (profile e true) α β _ _ _ en v)
      (@CommitEngine.commitToConcealed (profile e false) α β _ _ _ en v) := by
  unfold CommitEngine.commitToConcealed
  exact (refl _).bind fun _ => (refl _).bind fun _ => (hc e v).bind fun _ => r_inner e _ _ _

private theorem r_commit (e : Env) [CommitEncode α] (hc : SteadyEncode α) (v : α) :
    Refines (@commit (profile e true) α _ v) (@commit (profile e false) α _ v) := by
  unfold commit
  exact (hc e v _).bind fun _ => refl _

private theorem r_commitId (e : Env) [CommitEncode α] (hc : SteadyEncode α) (v : α) :
    Refines (@commitId (profile e true) α _ v) (@commitId (profile e false) α _ v) := by
  unfold commitId
  exact (r_commit e hc v).bind fun _ => refl _

private theorem steady_node : SteadyEncode MerkleNode := fun e x en => r_serialized e en x

private theorem steady_leaf : SteadyEncode Leaf := fun e x en => r_serialized e en x

private theorem r_branches (e : Env) (d : U5) (w : Nat) (a b : MerkleHash) :
    Refines (@MerkleHash.branches (profile e true) d w a b) (@MerkleHash.branches (profile e false) d w a b) :=
  r_commitId e steady_node _

private theorem r_go (e : Env) : ∀ (fuel : Nat) (l : List MerkleHash) (d : U5) (w v : Nat),
    Refines (@merklizeGo (profile e true) fuel l d w v) (@merklizeGo (profile e false) fuel l d w v)
  | 0, _, _, _, _ => by
    unfold merklizeGo
    exact refl _
  | fuel + 1, l, d, w, v => by
    unfold merklizeGo
    refine ite ?_ ?_
    · split
      · exact r_commitId e steady_node _
      · exact r_commitId e steady_node _
      · exact r_branches e _ _ _ _
    · exact (refl _).bind fun _ => (r_go e fuel _ _ _ _).bind fun _ => (r_go e fuel _ _ _ _).bind fun _ =>
        r_branches e _ _ _ _

private theorem r_merklize (e : Env) [CommitEncode α] (hc : SteadyEncode α) (l : List α) :
    Refines (@merklize (profile e true) α _ l) (@merklize (profile e false) α _ l) := by
  unfold merklize
  refine (mapM (fun a => r_commitId e hc a) l).bind fun nodes => ?_
  unfold merklizeHashes
  refine ite ?_ (refl _)
  split
  · exact refl _
  · exact r_go e _ _ _ _ _

private theorem r_merkle (e : Env) [StrictType α] [CommitEncode α] (hc : SteadyEncode α)
    (en : CommitEngine) (l : List α) :
    Refines (@CommitEngine.commitToMerkle (profile e true) α _ _ en l)
      (@CommitEngine.commitToMerkle (profile e false) α _ _ en l) := by
  unfold CommitEngine.commitToMerkle
  exact (refl _).bind fun _ => (refl _).bind fun _ => (r_merklize e hc l).bind fun _ => r_inner e _ _ _

private theorem r_call (e : Env) (en : CommitEngine) (c : Call) (hc : c.Steady) :
    Refines (@Call.run (profile e true) en c) (@Call.run (profile e false) en c) := by
  cases c with
  | serialized se v => exact r_serialized e en v
  | option se v =>
    simp only [Call.run, CommitEngine.commitToOption]
    exact (refl _).bind fun _ => (refl _).bind fun _ => r_inner e _ _ _
  | hash st ce v =>
    simp only [Call.run, CommitEngine.commitToHash]
    exact (refl _).bind fun _ => (refl _).bind fun _ => (r_commitId e hc v).bind fun _ => r_inner e _ _ _
  | merkle st ce l => exact r_merkle e hc en l
  | concealed st co se v => exact r_concealed e hc en v
  | list se min max l =>
    simp only [Call.run, CommitEngine.commitToLinearList]
    exact (refl _).bind fun _ => (refl _).bind fun _ => r_inner e _ _ _
  | set se min max l =>
    simp only [Call.run, CommitEngine.commitToLinearSet]
    exact (refl _).bind fun _ => (refl _).bind fun _ => r_inner e _ _ _
  | map sk se min max l =>
    simp only [Call.run, CommitEngine.commitToLinearMap]
    exact (refl _).bind fun _ => (refl _).bind fun _ => (refl _).bind fun _ => r_inner e _ _ _

/-! ## Blocks -/

private theorem r_toMerkleNode (e : Env) (n : TreeNode) :
    Refines (@TreeNode.toMerkleNode (profile e true) n) (@TreeNode.toMerkleNode (profile e false) n) := by
  cases n with
  | concealed d h => exact refl _
  | leaf p m => exact r_commitId e steady_leaf _

private theorem r_leaves (e : Env) (D : U5) (ps : List ProtocolId) : ∀ (l : List TreeNode) (n : Nat)
    (nf : List ProtocolId), Refines (@concealLeaves (profile e true) D ps l n nf)
      (@concealLeaves (profile e false) D ps l n nf)
  | [], _, _ => by
    unfold concealLeaves
    exact refl _
  | .concealed d h :: rest, n, nf => by
    unfold concealLeaves
    exact (r_leaves e D ps rest n nf).bind fun _ => refl _
  | .leaf p m :: rest, n, nf => by
    unfold concealLeaves
    exact ite ((r_leaves e D ps rest _ _).bind fun _ => refl _)
      ((r_toMerkleNode e _).bind fun _ => (r_leaves e D ps rest _ _).bind fun _ => refl _)

private theorem r_step (e : Env) (D : U5) (s : ConcealState) :
    Refines (@concealStep (profile e true) D s) (@concealStep (profile e false) D s) := by
  unfold concealStep
  have tail : ∀ d1 : U5, Refines
      (do let e ← u32Sub true D.val d1.val
          let p ← u32Pow2 true e
          let offset ← u32Add true s.offset p
          (.ok { s with offset := offset, pos := s.pos + 1 } : Exec ConcealState))
      (do let e ← u32Sub false D.val d1.val
          let p ← u32Pow2 false e
          let offset ← u32Add false s.offset p
          .ok { s with offset := offset, pos := s.pos + 1 }) := fun d1 =>
    (sub _ _).bind fun _ => (pow _).bind fun _ => (add _ _).bind fun _ => refl _
  split
  · exact refl _
  · refine ite ?_ (tail _)
    refine (refl _).bind fun _ => (sub _ _).bind fun _ => (pow _).bind fun _ => (refl _).bind fun _ =>
      ite (tail _) ?_
    refine Refines.bind ?_ fun _ => ite (refl _) ((add _ _).bind fun _ => refl _)
    unfold TreeNode.with
    exact (r_branches e _ _ _ _).bind fun _ => refl _
  · exact tail _
  · exact (add _ _).bind fun _ => refl _
  · exact (sub _ _).bind fun _ => (pow _).bind fun _ => (add _ _).bind fun _ => (add _ _).bind fun _ => refl _
  · exact (add _ _).bind fun _ => refl _
  · exact (add _ _).bind fun _ => refl _

private theorem r_innerLoop (e : Env) (D : U5) : ∀ (fuel : Nat) (s : ConcealState),
    Refines (@concealInner (profile e true) D fuel s) (@concealInner (profile e false) D fuel s)
  | 0, s => by
    unfold concealInner
    exact refl _
  | fuel + 1, s => by
    unfold concealInner
    exact ite ((r_step e D s).bind fun s' => r_innerLoop e D fuel s') (refl _)

private theorem r_outer (e : Env) (D : U5) : ∀ (fuel : Nat) (cs : List TreeNode) (n : Nat),
    Refines (@concealOuter (profile e true) D fuel cs n) (@concealOuter (profile e false) D fuel cs n)
  | 0, _, _ => by
    unfold concealOuter
    exact refl _
  | fuel + 1, cs, n => by
    unfold concealOuter
    exact (assert _).bind fun _ => (r_innerLoop e D _ _).bind fun s => ite (refl _)
      ((assert _).bind fun _ => r_outer e D fuel _ _)

private theorem r_concealExcept (e : Env) (b : MerkleBlock) (ps : List ProtocolId) :
    Refines (@MerkleBlock.concealExcept (profile e true) b ps)
      (@MerkleBlock.concealExcept (profile e false) b ps) := by
  unfold MerkleBlock.concealExcept
  refine (r_leaves e _ _ _ _ _).bind fun x => ?_
  obtain ⟨cs, n, nf⟩ := x
  cases nf with
  | cons p l => exact refl _
  | nil => exact (r_outer e _ _ _ _).bind fun _ => refl _

private theorem r_conceal (e : Env) (b : MerkleBlock) :
    Refines (@MerkleBlock.conceal (profile e true) b) (@MerkleBlock.conceal (profile e false) b) := by
  unfold MerkleBlock.conceal
  refine (r_concealExcept e b []).bind fun x => ?_
  obtain ⟨b', r⟩ := x
  cases r with
  | error _ => exact refl _
  | ok _ => exact (assert _).bind fun _ => refl _

private theorem steady_mc : SteadyConceal MerkleConcealed MerkleConcealed :=
  fun _ _ => refl _

private theorem steady_block : SteadyEncode MerkleBlock := fun e x en =>
  (r_conceal e x).bind fun _ => r_concealed e steady_mc en _

private theorem r_block (e : Env) (b : MerkleBlock) :
    Refines (@MerkleBlock.commitId (profile e true) b) (@MerkleBlock.commitId (profile e false) b) :=
  r_commitId e steady_block b

private theorem r_sum (e : Env) (D : U5) : ∀ (l : List TreeNode) (acc : Nat),
    Refines (@sumWidths (profile e true) D l acc) (@sumWidths (profile e false) D l acc)
  | [], _ => by
    unfold sumWidths
    exact refl _
  | n :: l, acc => by
    unfold sumWidths
    exact (sub8 _ _).bind fun _ => (pow _).bind fun _ => (add _ _).bind fun _ => r_sum e D l _

private theorem r_merge (e : Env) (a b : MerkleBlock) :
    Refines (@MerkleBlock.mergeReveal (profile e true) a b)
      (@MerkleBlock.mergeReveal (profile e false) a b) := by
  unfold MerkleBlock.mergeReveal
  exact (r_block e a).bind fun _ => (r_block e b).bind fun _ => ite (refl _)
    ((refl _).bind fun _ => (refl _).bind fun _ => (r_sum e _ _ _).bind fun _ => (refl _).bind fun _ =>
      (r_block e _).bind fun _ => (refl _).bind fun _ => refl _)

private theorem r_mergePath (e : Env) (a : MerkleBlock) (pr : MerkleProof) (p : ProtocolId) (m : Message) :
    Refines (@MerkleBlock.mergeRevealPath (profile e true) a pr p m)
      (@MerkleBlock.mergeRevealPath (profile e false) a pr p m) := by
  unfold MerkleBlock.mergeRevealPath
  refine (refl _).bind fun r => ?_
  cases r with
  | error _ => exact refl _
  | ok b => exact r_merge e a b

private theorem r_collect (e : Env) : ∀ (l : List TreeNode) (m : List (U5 × MerkleHash)),
    Refines (@collectPath (profile e true) l m) (@collectPath (profile e false) l m)
  | [], _ => by
    unfold collectPath
    exact refl _
  | .leaf p m :: l, acc => by
    unfold collectPath
    exact r_collect e l acc
  | .concealed d h :: l, acc => by
    unfold collectPath
    exact (assert _).bind fun _ => r_collect e l _

private theorem r_other (e : Env) (b : MerkleBlock) (p : ProtocolId) :
    Refines (@MerkleBlock.concealOther (profile e true) b p)
      (@MerkleBlock.concealOther (profile e false) b p) := by
  unfold MerkleBlock.concealOther
  exact (r_concealExcept e b [p]).bind fun _ => refl _

private theorem r_proof (e : Env) (b : MerkleBlock) (p : ProtocolId) :
    Refines (@MerkleBlock.toMerkleProof (profile e true) b p)
      (@MerkleBlock.toMerkleProof (profile e false) b p) := by
  unfold MerkleBlock.toMerkleProof
  refine (r_other e b p).bind fun x => ?_
  obtain ⟨b', r⟩ := x
  cases r with
  | error _ => exact refl _
  | ok _ => exact (r_collect e _ _).bind fun _ => (assert _).bind fun _ => refl _

private theorem r_proofs (e : Env) (b : MerkleBlock) :
    Refines (@MerkleBlock.intoKnownProofs (profile e true) b)
      (@MerkleBlock.intoKnownProofs (profile e false) b) := by
  unfold MerkleBlock.intoKnownProofs
  exact mapM (fun p => (r_proof e b p).bind fun _ => refl _) _

private theorem r_convolve (e : Env) (pr : MerkleProof) (p : ProtocolId) (m : Message) :
    Refines (@MerkleProof.convolve (profile e true) pr p m)
      (@MerkleProof.convolve (profile e false) pr p m) := by
  unfold MerkleProof.convolve
  refine (refl _).bind fun r => ?_
  cases r with
  | error _ => exact refl _
  | ok b => exact (r_block e b).bind fun _ => refl _

private theorem r_fromTree (e : Env) (T : MerkleTree) :
    Refines (@MerkleBlock.fromTree (profile e true) T) (@MerkleBlock.fromTree (profile e false) T) := by
  unfold MerkleBlock.fromTree
  refine (mapM (fun i => ?_) _).bind fun _ => refl _
  unfold MerkleTree.nodeAt
  split
  · exact refl _
  · exact (r_commitId e steady_leaf _).bind
      fun _ => refl _

private theorem r_treeConceal (e : Env) (T : MerkleTree) :
    Refines (@MerkleTree.conceal (profile e true) T) (@MerkleTree.conceal (profile e false) T) := by
  unfold MerkleTree.conceal
  exact (r_fromTree e T).bind fun _ => r_conceal e _

private theorem steady_tree : SteadyEncode MerkleTree := fun e x en =>
  (r_treeConceal e x).bind fun _ => r_concealed e steady_mc en _

/-! ## C83 -/

/-- **C83** The commitment engine: sequences of calls with any data, starting from any engine, also a
finished one. -/
theorem C83_engine (e : Env) (en : CommitEngine) (cs : List Call) (hc : ∀ c ∈ cs, c.Steady) :
    Refines (@CommitEngine.runAll (profile e true) en cs) (@CommitEngine.runAll (profile e false) en cs) := by
  induction cs generalizing en with
  | nil => exact refl _
  | cons c cs ih =>
    simp only [CommitEngine.runAll]
    exact (r_call e en c (hc c (List.mem_cons_self ..))).bind fun en' =>
      ih en' fun c' h => hc c' (List.mem_cons_of_mem _ h)

/-- **C83** Commitment ids, layouts and merkle roots of values of any type whose commitment encoding is
steady. -/
theorem C83_ids (e : Env) {α : Type} [CommitEncode α] (hc : SteadyEncode α) (x : α) (l : List α) :
    Refines (@commit (profile e true) α _ x) (@commit (profile e false) α _ x) ∧
    Refines (@commitId (profile e true) α _ x) (@commitId (profile e false) α _ x) ∧
    Refines (@commitmentLayout (profile e true) α _ x) (@commitmentLayout (profile e false) α _ x) ∧
    Refines (@merklize (profile e true) α _ l) (@merklize (profile e false) α _ l) := by
  refine ⟨r_commit e hc x, r_commitId e hc x, ?_, r_merklize e hc l⟩
  unfold commitmentLayout
  exact (r_commit e hc x).bind fun _ => refl _

/-- **C83** Commitment encodings made of calls, the derived ones and those of the library are
steady. -/
theorem C83_steady {α β γ : Type} (id : IdType) :
    (∀ (_ : CommitEncode α) (calls : α → List Call), ByCalls α calls →
      (∀ x, ∀ c ∈ calls x, c.Steady) → SteadyEncode α) ∧
    (∀ _ : StrictEncode α, @SteadyEncode α (deriveStrict α id)) ∧
    (∀ (_ : StrictEncode β) (inner : α → β), @SteadyEncode α (deriveTransparent inner id)) ∧
    (∀ (_ : StrictType β) (_ : CommitEncode β) (leaves : α → List β), SteadyEncode β →
      @SteadyEncode α (deriveMerklize leaves id)) ∧
    (∀ (_ : Conceal α β) (_ : StrictType β) (_ : Conceal β γ) (_ : StrictEncode γ), SteadyConceal α β →
      SteadyConceal β γ → @SteadyEncode α (deriveConceal α id)) ∧
    SteadyEncode MerkleNode ∧ SteadyEncode Leaf ∧ SteadyEncode MerkleConcealed ∧
    SteadyEncode MerkleBlock ∧ SteadyEncode MerkleTree ∧ SteadyConceal MerkleBlock MerkleConcealed ∧
    SteadyConceal MerkleTree MerkleConcealed ∧ SteadyConceal MerkleConcealed MerkleConcealed := by
  refine ⟨?_, fun _ e x en => r_serialized e en x, fun _ inner e x en => r_serialized e en (inner x),
    fun _ _ leaves hc e x en => r_merkle e hc en (leaves x), ?_, steady_node, steady_leaf,
    fun e x en => r_serialized e en x, steady_block, steady_tree, r_conceal, r_treeConceal, steady_mc⟩
  · intro ce calls hby hc e x en
    rw [hby (profile e true), hby (profile e false)]
    exact C83_engine e en _ (hc x)
  · intro _ _ _ _ hc hc' e x en
    exact (hc e x).bind fun c => r_concealed e hc' en c

/-- **C83** Operations on blocks and proofs, whatever the data. -/
theorem C83_blocks (e : Env) (b o : MerkleBlock) (pr : MerkleProof) (ps : List ProtocolId) (p : ProtocolId)
    (m : Message) :
    Refines (@MerkleBlock.concealExcept (profile e true) b ps) (@MerkleBlock.concealExcept (profile e false) b ps) ∧
    Refines (@MerkleBlock.concealOther (profile e true) b p) (@MerkleBlock.concealOther (profile e false) b p) ∧
    Refines (@MerkleBlock.conceal (profile e true) b) (@MerkleBlock.conceal (profile e false) b) ∧
    Refines (@MerkleBlock.commitId (profile e true) b) (@MerkleBlock.commitId (profile e false) b) ∧
    Refines (@MerkleBlock.matches (profile e true) b o) (@MerkleBlock.matches (profile e false) b o) ∧
    Refines (@MerkleBlock.mergeReveal (profile e true) b o) (@MerkleBlock.mergeReveal (profile e false) b o) ∧
    Refines (@MerkleBlock.mergeRevealPath (profile e true) b pr p m)
      (@MerkleBlock.mergeRevealPath (profile e false) b pr p m) ∧
    Refines (@MerkleBlock.toMerkleProof (profile e true) b p) (@MerkleBlock.toMerkleProof (profile e false) b p) ∧
    Refines (@MerkleBlock.intoKnownProofs (profile e true) b) (@MerkleBlock.intoKnownProofs (profile e false) b) ∧
    Refines (@MerkleBlock.factoredWidth (profile e true) b) (@MerkleBlock.factoredWidth (profile e false) b) ∧
    Refines (@MerkleProof.convolve (profile e true) pr p m) (@MerkleProof.convolve (profile e false) pr p m) ∧
    Refines (@MerkleProof.factoredWidth (profile e true) pr) (@MerkleProof.factoredWidth (profile e false) pr) :=
  ⟨r_concealExcept e b ps, r_other e b p, r_conceal e b, r_block e b,
    (r_block e b).bind fun _ => (r_block e o).bind fun _ => refl _, r_merge e b o, r_mergePath e b pr p m,
    r_proof e b p, r_proofs e b, sub _ _, r_convolve e pr p m, (refl _).bind fun _ => sub _ _⟩

/-- **C83** Operations on trees. -/
theorem C83_trees (e : Env) (T U : MerkleTree) :
    Refines (@MerkleTree.root (profile e true) T) (@MerkleTree.root (profile e false) T) ∧
    Refines (@MerkleBlock.fromTree (profile e true) T) (@MerkleBlock.fromTree (profile e false) T) ∧
    Refines (@MerkleTree.conceal (profile e true) T) (@MerkleTree.conceal (profile e false) T) ∧
    Refines (@MerkleTree.commitId (profile e true) T) (@MerkleTree.commitId (profile e false) T) ∧
    Refines (@MerkleTree.matches (profile e true) T U) (@MerkleTree.matches (profile e false) T U) ∧
    Refines (@MerkleTree.intoProofs (profile e true) T) (@MerkleTree.intoProofs (profile e false) T) ∧
    Refines (@MerkleTree.factoredWidth (profile e true) T) (@MerkleTree.factoredWidth (profile e false) T) := by
  refine ⟨?_, r_fromTree e T, r_treeConceal e T, r_commitId e steady_tree T,
    (r_commitId e steady_tree T).bind fun _ => (r_commitId e steady_tree U).bind fun _ => refl _,
    (r_fromTree e T).bind fun b => r_proofs e b, sub _ _⟩
  unfold MerkleTree.root
  exact ite ((assert _).bind fun _ => r_merklize e
    steady_leaf _) (refl _)

/-- **C83** Histories of operations on any block: a release build arrives at the block at which a debug
build arrives, if no operation panics there. -/
theorem C83_histories (e : Env) (b : MerkleBlock) (ops : List BlockOp) :
    Refines (@MerkleBlock.run (profile e true) b ops) (@MerkleBlock.run (profile e false) b ops) := by
  induction ops generalizing b with
  | nil => exact refl _
  | cons op ops ih =>
    simp only [MerkleBlock.run]
    refine Refines.bind ?_ fun b' => ih b'
    cases op with
    | concealExcept ps => exact (r_concealExcept e b ps).bind fun _ => refl _
    | concealOther p => exact (r_other e b p).bind fun _ => refl _
    | mergeReveal o => exact (r_merge e b o).bind fun _ => refl _
    | mergeRevealPath pr p m => exact (r_mergePath e b pr p m).bind fun _ => refl _

/-- C83, why not the converse: there are blocks with a commitment in release builds for which a debug
build panics. -/
theorem C83_one_way (e : Env) : ∃ b : MerkleBlock,
    (∃ c, @MerkleBlock.commitId (profile e false) b = .ok c) ∧
    (∃ x, @MerkleBlock.commitId (profile e true) b = .error x) ∧
    ∃ en : CommitEngine, ∃ c : Call, c.Steady ∧ (∃ en', @Call.run (profile e false) en c = .ok en') ∧
      ∃ x, @Call.run (profile e true) en c = .error x :=
  ⟨⟨.sha256t, 1, 0, [.concealed 0 (Bytes32.fill 1), .concealed 1 (Bytes32.fill 2)], none⟩, ⟨_, rfl⟩, ⟨_, rfl⟩,
    ⟨true, [], []⟩, .serialized (inferInstance : StrictEncode Leaf) (.entropy 1 2), trivial, ⟨_, rfl⟩, ⟨_, rfl⟩⟩

/-- Non-vacuity of C83: a history on a block that is not structurally valid returns in a debug build, and
the last operation changes the block. -/
example (e : Env) : ∃ (b : MerkleBlock) (ops : List BlockOp) (b' : MerkleBlock), ¬ b.Valid ∧
    @MerkleBlock.run (profile e true) b ops = .ok b' ∧ b' ≠ b := by
  refine ⟨⟨.sha256t, 1, 0, [.leaf Sample.p1 Sample.m1], some 7⟩, [.concealExcept []], _, ?_, rfl, ?_⟩
  · rintro ⟨t, h1, h2⟩
    cases t with
    | hidden _ => cases h1
    | leaf _ _ => cases h2
    | node l r =>
      have := congrArg List.length h1
      have h3 := frontier_pos l (0 + 1)
      have h4 := frontier_pos r (0 + 1)
      simp only [PT.frontier, List.length_append, List.length_cons, List.length_nil] at this
      omega
  · intro h
    have := congrArg MerkleBlock.entropy h
    cases this

end CSV
