import Verif.Proofs.Proof
import Verif.Proofs.Sample
import Verif.Props.Commit

/-!
# Merkle proofs (C16 - C22, C31, C57)

`T.Holds` says that each message of the tree sits in the slot of its protocol; every tree
returned by `try_commit` has this property (`C16_committed_trees`). `b.OfTree T` says
that the block shows the tree with some parts replaced by their hashes; the block of the tree is
one, and concealing and merging lead to others (`Props/Block.lean`).
-/

namespace CSV

/-! ## C16 -/

/-- Trees built by `try_commit` hold their messages at their slots, and their block is a view of
them: the hypotheses of the theorems below. -/
theorem C16_committed_trees [Env] (rng : Option UInt64) (s : MultiSource) (T : MerkleTree)
    (h : MerkleTree.tryCommit rng s = .ok (.ok T)) :
    T.Holds ∧ T.messages = s.messages ∧ ∃ b, MerkleBlock.fromTree T = .ok b ∧ b.OfTree T := by
  obtain ⟨-, hm, -⟩ := C01_slots rng s T h
  refine ⟨?_, hm, _, fromTree_eq T, rfl, rfl, rfl, _, fromTree_shows T, view_refl⟩
  rcases tryCommit_spec rng s with ⟨_, _, h'⟩ | ⟨_, _, h'⟩ | ⟨_, e, he, ⟨t', h', hc⟩ | ⟨h', _⟩⟩
  all_goals rw [h] at h'
  all_goals cases h'
  exact hc.holds

private theorem known_shows {b : MerkleBlock} {t : PT} (hs : b.Shows t) {p : ProtocolId}
    (h : p ∈ b.knownProtocolIds) : ∃ m, (p, m) ∈ t.known := by
  rw [knownIds_map, shows_known hs, List.mem_map] at h
  obtain ⟨⟨q, m⟩, h, rfl⟩ := h
  exact ⟨m, h⟩

/-- **C16** A block in which each revealed leaf sits at its slot gives for each revealed message
a proof that verifies against the commitment of the block. -/
theorem C16_placed [Env] (b : MerkleBlock) (t : PT) (hb : b.Placed t) (p : ProtocolId) (m : Message)
    (h : (p, m) ∈ b.knownMessages) :
    ∃ pr c, b.toMerkleProof p = .ok (.ok pr) ∧ b.commitId = .ok c ∧
      pr.convolve p m = .ok (.ok c) ∧ pr.method = b.method ∧ pr.cofactor = b.cofactor ∧
      pr.pos = b.protocolIdPos p ∧ pr.path.length = b.depth.val := by
  rw [shows_known hb.1] at h
  have hlen := (concealExcept_one hb h).1
  have hpr := toMerkleProof_eq hb h
  refine ⟨_, _, hpr, shows_commitId hb.1, ?_, rfl, rfl, rfl, hlen⟩
  have hU : toU5 b.depth.val = b.depth := toU5_of_val rfl
  rw [convolve_eq _ _ _ (by rw [hlen]; exact b.depth.isLt)]
  dsimp only
  rw [hlen, hU, if_neg (by simp [MerkleBlock.protocolIdPos]), (placed_path hb h).2]
  rfl

/-- **C16** Every message revealed by a block of a committed tree can be proven: the proof is
extracted, has depth and cofactor of the tree and the position of the protocol, and verifies to the
commitment of the tree. -/
theorem C16_complete [Env] (T : MerkleTree) (hT : T.Holds) (b : MerkleBlock) (hb : b.OfTree T)
    (p : ProtocolId) (hp : p ∈ b.knownProtocolIds) :
    ∃ pr m c, T.messages.get p = some m ∧ (p, m) ∈ b.knownMessages ∧
      b.toMerkleProof p = .ok (.ok pr) ∧ T.commitId = .ok c ∧ pr.convolve p m = .ok (.ok c) ∧
      pr.cofactor = T.cofactor ∧ pr.pos = T.protocolIdPos p ∧ pr.path.length = T.depth.val := by
  obtain ⟨hm, hd, hc, t, hs, hv⟩ := hb
  have hpl := ofTree_placed hT hd hc hs hv
  obtain ⟨m, hk⟩ := known_shows hs hp
  have hk' : (p, m) ∈ b.knownMessages := by rw [shows_known hs]; exact hk
  obtain ⟨pr, c, h1, h2, h3, -, h4, h5, h6⟩ := C16_placed b t hpl p m hk'
  refine ⟨pr, m, c, mem_bmapGet T.messages.sorted ((holds_known hT).1 (view_known hv hk)), hk', h1,
    ?_, h3, by rw [h4, hc], ?_, by rw [h6, hd]⟩
  · rw [shows_commitId hs] at h2
    rw [tree_commitId, MerkleTree.specCommitment, MerkleTree.specRoot, ← view_root hv, ← h2, hd, hc]
    rfl
  · rw [h5, MerkleBlock.protocolIdPos, MerkleTree.protocolIdPos, hc, hd]

private theorem mapM_proofs [Env] (b : MerkleBlock) (f : ProtocolId → MerkleProof) :
    ∀ (ids : List ProtocolId), (∀ p ∈ ids, b.toMerkleProof p = .ok (.ok (f p))) →
    (ids.mapM fun id => (do
      let r ← b.toMerkleProof id
      match r with
      | .ok proof => .ok (id, proof)
      | .error _ => .error .expect : Exec (ProtocolId × MerkleProof)))
      = .ok (ids.map fun p => (p, f p))
  | [], _ => rfl
  | p :: ids, h => by
    rw [List.mapM_cons, h p (List.mem_cons_self ..), mapM_proofs b f ids
      (fun q hq => h q (List.mem_cons_of_mem _ hq))]
    rfl

/-- **C16** `into_known_proofs` never panics on blocks of committed trees and gives a valid proof for
each revealed protocol, in order. -/
theorem C16_into_known_proofs [Env] (T : MerkleTree) (hT : T.Holds) (b : MerkleBlock)
    (hb : b.OfTree T) :
    ∃ l c, b.intoKnownProofs = .ok l ∧ T.commitId = .ok c ∧
      l.map Prod.fst = b.knownProtocolIds ∧
      ∀ p pr, (p, pr) ∈ l → ∃ m, T.messages.get p = some m ∧ pr.convolve p m = .ok (.ok c) ∧
        b.toMerkleProof p = .ok (.ok pr) := by
  have hex : ∀ p, ∃ pr : MerkleProof, p ∈ b.knownProtocolIds → ∃ m, T.messages.get p = some m ∧
      pr.convolve p m = .ok (.ok T.specCommitment) ∧ b.toMerkleProof p = .ok (.ok pr) := by
    intro p
    by_cases hp : p ∈ b.knownProtocolIds
    · obtain ⟨pr, m, c, h1, -, h2, h3, h4, -⟩ := C16_complete T hT b hb p hp
      rw [tree_commitId] at h3
      cases h3
      exact ⟨pr, fun _ => ⟨m, h1, h4, h2⟩⟩
    · exact ⟨⟨.sha256t, 0, 0, []⟩, fun h => absurd h hp⟩
  let f := fun p => Classical.choose (hex p)
  have hf := fun p => Classical.choose_spec (hex p)
  refine ⟨b.knownProtocolIds.map fun p => (p, f p), T.specCommitment, ?_, tree_commitId T, ?_, ?_⟩
  · refine mapM_proofs b f _ fun p hp => ?_
    obtain ⟨m, -, -, h⟩ := hf p hp
    exact h
  · rw [List.map_map]
    exact List.map_id _
  · intro p pr h
    rw [List.mem_map] at h
    obtain ⟨q, hq, he⟩ := h
    cases he
    exact hf p hq

/-- **C16** `into_proofs` of a committed tree gives a valid proof for each message of the source. -/
theorem C16_into_proofs [Env] (T : MerkleTree) (hT : T.Holds) :
    ∃ l c, T.intoProofs = .ok l ∧ T.commitId = .ok c ∧
      (∀ p m, T.messages.get p = some m → ∃ pr, (p, pr) ∈ l) ∧
      ∀ p pr, (p, pr) ∈ l → ∃ m, T.messages.get p = some m ∧ pr.convolve p m = .ok (.ok c) := by
  have hv : MerkleBlock.OfTree ⟨T.method, T.depth, T.cofactor, T.pt.frontier 0, some T.entropy⟩ T :=
    ⟨rfl, rfl, rfl, _, fromTree_shows T, view_refl⟩
  obtain ⟨l, c, h1, h2, h3, h4⟩ := C16_into_known_proofs T hT _ hv
  refine ⟨l, c, ?_, h2, ?_, fun p pr h => ?_⟩
  · rw [MerkleTree.intoProofs, fromTree_eq]
    exact h1
  · intro p m hm
    have hk : (p, m) ∈ T.pt.known := (holds_known hT).2 (bmapGet_mem hm)
    have : p ∈ l.map Prod.fst := by
      rw [h3, knownIds_map, shows_known (fromTree_shows T), List.mem_map]
      exact ⟨_, hk, rfl⟩
    rw [List.mem_map] at this
    obtain ⟨⟨q, pr⟩, h, rfl⟩ := this
    exact ⟨pr, h⟩
  · obtain ⟨m, h5, h6, -⟩ := h4 p pr h
    exact ⟨m, h5, h6⟩

/-- Non-vacuity of C16: the proof of protocol 1 in the sample. -/
example [Env] : Sample.tree.Holds ∧ Sample.block.OfTree Sample.tree ∧
    Sample.p1 ∈ Sample.block.knownProtocolIds :=
  ⟨Sample.holds, Sample.view_block, by
    show Sample.p1 ∈ [Sample.p6, Sample.p1, Sample.p5]; decide⟩

/-! ## C17 -/

/-- **C17** The proof of a protocol is the same from any two blocks of one tree that reveal it. -/
theorem C17_same_proof [Env] (T : MerkleTree) (hT : T.Holds) (b1 b2 : MerkleBlock)
    (h1 : b1.OfTree T) (h2 : b2.OfTree T) (p : ProtocolId)
    (hp1 : p ∈ b1.knownProtocolIds) (hp2 : p ∈ b2.knownProtocolIds) :
    ∃ pr, b1.toMerkleProof p = .ok (.ok pr) ∧ b2.toMerkleProof p = .ok (.ok pr) := by
  obtain ⟨hm1, hd1, hc1, t1, hs1, hv1⟩ := h1
  obtain ⟨hm2, hd2, hc2, t2, hs2, hv2⟩ := h2
  obtain ⟨m1, hk1⟩ := known_shows hs1 hp1
  obtain ⟨m2, hk2⟩ := known_shows hs2 hp2
  have hpl1 := ofTree_placed hT hd1 hc1 hs1 hv1
  have hpl2 := ofTree_placed hT hd2 hc2 hs2 hv2
  have s1 := (placed_path hpl1 hk1).1
  have s2 := (placed_path hpl2 hk2).1
  have e1 := toMerkleProof_eq hpl1 hk1
  have e2 := toMerkleProof_eq hpl2 hk2
  obtain ⟨me1, de1, co1, cs1, en1⟩ := b1
  obtain ⟨me2, de2, co2, cs2, en2⟩ := b2
  dsimp only at hm1 hd1 hc1 hm2 hd2 hc2
  subst hm1 hd1 hc1 hm2 hd2 hc2
  refine ⟨_, e1, ?_⟩
  rw [e2]
  have : t1.siblings (2 ^ T.depth.val) 0 T.depth.val (protocolIdPos p T.cofactor T.depth).toNat
      = t2.siblings (2 ^ T.depth.val) 0 T.depth.val (protocolIdPos p T.cofactor T.depth).toNat :=
    compat_siblings (view_compat hv1 hv2) hs1.2 hs2.2 s1 s2
  simp only [MerkleBlock.protocolIdPos, this]

/-- **C17** A block rebuilt from a proof gives the same proof. -/
theorem C17_rebuilt [Env] (pr : MerkleProof) (p : ProtocolId) (m : Message) (b : MerkleBlock)
    (hl : pr.path.length < 32) (h : MerkleBlock.with pr p m = .ok (.ok b)) :
    b.toMerkleProof p = .ok (.ok pr) := by
  rw [with_eq pr p m hl] at h
  by_cases hp : protocolIdPos p pr.cofactor (toU5 pr.path.length) = pr.pos
  · rw [if_neg (by simpa using hp)] at h
    cases h
    have hk : (p, m) ∈ (PT.path p m pr.pos.toNat pr.path).known := by
      rw [path_known]; exact List.mem_singleton.2 rfl
    rw [toMerkleProof_eq (with_placed pr p m hl hp) hk]
    have hlt := (protocolIdPos_lt p pr.cofactor (toU5 pr.path.length)).2
    rw [hp, toU5_val hl] at hlt
    simp only [MerkleBlock.protocolIdPos, hp, toU5_val hl]
    rw [path_siblings _ _ _ _ _ hlt]
  · rw [if_pos (by simpa using hp)] at h
    cases h

/-- Non-vacuity of C17: two different blocks of one tree. -/
example [Env] : Sample.p1 ∈ Sample.block.knownProtocolIds ∧ Sample.p1 ∈ Sample.block1.knownProtocolIds ∧
    Sample.block.OfTree Sample.tree ∧ Sample.block1.OfTree Sample.tree :=
  ⟨by show Sample.p1 ∈ [Sample.p6, Sample.p1, Sample.p5]; decide,
   by show Sample.p1 ∈ [Sample.p1]; decide, Sample.view_block, Sample.view_block1⟩

/-! ## C18 -/

/-- **C18** Two proofs that verify for one protocol to one commitment prove the same message and are
equal, unless two different strings hashed in the two verifications have the same hash. -/
theorem C18_binding [Env] (pr1 pr2 : MerkleProof) (p : ProtocolId) (m1 m2 : Message) (c : Commitment)
    (hl1 : pr1.path.length ≤ 32) (hl2 : pr2.path.length ≤ 32)
    (hn : NoCollision (proofInputs pr1 p m1 ++ proofInputs pr2 p m2))
    (h1 : pr1.convolve p m1 = .ok (.ok c)) (h2 : pr2.convolve p m2 = .ok (.ok c)) :
    m1 = m2 ∧ pr1 = pr2 := by
  obtain ⟨l1, p1, c1⟩ := convolve_ok hl1 h1
  obtain ⟨l2, p2, c2⟩ := convolve_ok hl2 h2
  have hU1 := toU5_val l1
  have hU2 := toU5_val l2
  have := PT.Compat.ofRoot (with_shows pr1 p m1 l1)
    (b2 := ⟨pr2.method, toU5 pr2.path.length, pr2.cofactor,
      (PT.path p m2 pr2.pos.toNat pr2.path).frontier 0, none⟩)
    (t2 := PT.path p m2 pr2.pos.toNat pr2.path) hn (by dsimp only; rw [hU1, hU2, ← c1, ← c2])
  obtain ⟨hd, hc, hcomp⟩ := this
  dsimp only at hd hc hcomp
  have hlen : pr1.path.length = pr2.path.length := toU5_inj l1 l2 hd
  have hpos : pr1.pos = pr2.pos := by rw [← p1, ← p2, hc, hlen]
  rw [hpos] at hcomp
  obtain ⟨hpath, hm⟩ := path_compat hlen hcomp
  refine ⟨hm, ?_⟩
  obtain ⟨a1, b1, c1, d1⟩ := pr1
  obtain ⟨a2, b2, c2, d2⟩ := pr2
  dsimp only at hc hpos hpath
  subst hc hpos hpath
  cases a1; cases a2
  rfl

/-- The strings hashed by a verification of a proof of depth `d`: the leaf, one string per level and
the final one. -/
theorem C18_inputs [Env] (pr : MerkleProof) (p : ProtocolId) (m : Message) :
    (proofInputs pr p m).length = pr.path.length + 2 := by
  have : ∀ (w : Nat) (l : List MerkleHash) (pos d : Nat),
      ((PT.path p m pos l).inputs w d).length = l.length + 1 := by
    intro w l
    induction l with
    | nil => intro pos d; rfl
    | cons h l ih =>
      intro pos d
      rw [path_cons]
      split
      · simp [PT.inputs, ih]
      · simp [PT.inputs, ih]
  simp [proofInputs, blockInputs, this]

/-- A proof of the sample. -/
def Sample.proof1 [Env] : MerkleProof :=
  ⟨.sha256t, 1, 1, [branchHash 1 4 (leafHash (.inhabited Sample.p5 Sample.m5))
    (leafHash (.entropy 77 3)), leafHash (.inhabited Sample.p6 Sample.m6)]⟩

/-- Non-vacuity of C16 - C18, C22: this is the proof of protocol 1, and with real SHA256 there are no
collisions in its verification. -/
example : (∀ _ : Env, Sample.block.toMerkleProof Sample.p1 = .ok (.ok Sample.proof1)) ∧
    @NoCollision (realEnv true) (@proofInputs (realEnv true) (@Sample.proof1 (realEnv true))
      Sample.p1 Sample.m1) := by
  refine ⟨fun _ => ?_, by decide +kernel⟩
  have hpl := ofTree_placed Sample.holds rfl rfl Sample.shows_tree view_refl
  rw [toMerkleProof_eq hpl (p := Sample.p1) (m := Sample.m1) (by
    show (Sample.p1, Sample.m1) ∈ [(Sample.p6, Sample.m6), (Sample.p1, Sample.m1),
      (Sample.p5, Sample.m5)]
    decide)]
  rfl

/-! ## C19 -/

/-- **C19** `MerkleBlock::with` and `convolve` check the position of the leaf: they return
`InvalidProof`, with expected and actual positions and the width, exactly if the position of the
proof is not the slot of the protocol; otherwise they succeed. -/
theorem C19_position_checked [Env] (pr : MerkleProof) (p : ProtocolId) (m : Message)
    (hl : pr.path.length ≤ 31) (e : InvalidProof) :
    (MerkleBlock.with pr p m = .ok (.error e) ↔
      slotOf p pr.cofactor.toNat pr.path.length ≠ pr.pos.toNat ∧
      e = ⟨p, UInt32.ofNat (slotOf p pr.cofactor.toNat pr.path.length), pr.pos,
        2 ^ pr.path.length⟩) ∧
    (pr.convolve p m = .ok (.error e) ↔ MerkleBlock.with pr p m = .ok (.error e)) ∧
    ((∃ b, MerkleBlock.with pr p m = .ok (.ok b)) ↔
      slotOf p pr.cofactor.toNat pr.path.length = pr.pos.toNat) ∧
    ((∃ c, pr.convolve p m = .ok (.ok c)) ↔
      slotOf p pr.cofactor.toNat pr.path.length = pr.pos.toNat) := by
  have hl' : pr.path.length < 32 := by omega
  have hpos := protocolIdPos_lt p pr.cofactor (toU5 pr.path.length)
  rw [toU5_val hl'] at hpos
  have hval : (protocolIdPos p pr.cofactor (toU5 pr.path.length)).toNat
      = slotOf p pr.cofactor.toNat pr.path.length := hpos.1
  have heq : protocolIdPos p pr.cofactor (toU5 pr.path.length) = pr.pos ↔
      slotOf p pr.cofactor.toNat pr.path.length = pr.pos.toNat := by
    rw [← hval]
    exact UInt32.toNat_inj.symm
  have hof : UInt32.ofNat (slotOf p pr.cofactor.toNat pr.path.length)
      = protocolIdPos p pr.cofactor (toU5 pr.path.length) := by
    rw [← hval]; simp
  rw [with_eq pr p m hl', convolve_eq pr p m hl', hof]
  by_cases h : protocolIdPos p pr.cofactor (toU5 pr.path.length) = pr.pos
  · have h' := heq.1 h
    rw [if_neg (by simpa using h), if_neg (by simpa using h)]
    simp [h']
  · have h' : ¬ slotOf p pr.cofactor.toNat pr.path.length = pr.pos.toNat := fun x => h (heq.2 x)
    rw [if_pos (by simpa using h), if_pos (by simpa using h)]
    simp only [h', iff_false, Except.ok.injEq, Except.error.injEq, ne_eq, not_false_eq_true,
      true_and]
    refine ⟨⟨Eq.symm, Eq.symm⟩, ?_, ?_⟩
    · rintro ⟨b, hb⟩; cases hb
    · rintro ⟨b, hb⟩; cases hb

/-- Non-vacuity of C19: a proof at the right and at a wrong position. -/
example : slotOf Sample.p1 1 2 = 1 ∧ slotOf Sample.p5 1 2 ≠ 1 := by decide +kernel

/-! ## C20 -/

/-- **C20 is false of the code**: the path of a proof may have 32 elements, and then verification
panics, in both profiles. -/
theorem C20_false : ∃ pr : MerkleProof, pr.path.length ≤ 32 ∧
    ∀ (_ : Env) (p : ProtocolId) (m : Message), ∃ e, pr.convolve p m = .error e :=
  ⟨⟨.sha256t, 0, 0, List.replicate 32 (Bytes32.fill 0)⟩, by simp,
    fun _ p m => ⟨_, convolve_panic _ p m (by simp)⟩⟩

/-- **C20**, the part that holds: verification panics exactly for paths of 32 elements, never for
shorter ones. Missing: the path type admits 32 elements. -/
theorem C20_partial [Env] (pr : MerkleProof) (hl : pr.path.length ≤ 32) (p : ProtocolId) (m : Message) :
    ((∃ r, pr.convolve p m = .ok r) ↔ pr.path.length ≤ 31) ∧
    ((∃ r, MerkleBlock.with pr p m = .ok r) ↔ pr.path.length ≤ 31) := by
  rcases Nat.lt_or_ge pr.path.length 32 with h | h
  · rw [convolve_eq pr p m h, with_eq pr p m h]
    refine ⟨⟨fun _ => by omega, fun _ => ?_⟩, ⟨fun _ => by omega, fun _ => ?_⟩⟩
    · split
      · exact ⟨_, rfl⟩
      · exact ⟨_, rfl⟩
    · split
      · exact ⟨_, rfl⟩
      · exact ⟨_, rfl⟩
  · rw [convolve_panic pr p m (by omega), with_panic pr p m (by omega)]
    constructor
    · exact ⟨fun ⟨r, hr⟩ => (nomatch hr), fun h' => by omega⟩
    · exact ⟨fun ⟨r, hr⟩ => (nomatch hr), fun h' => by omega⟩

/-! ## C21 -/

/-- **C21** Whatever verifies against the commitment of a committed tree is a message of its source,
and the proof is the one extracted from the tree - unless two different strings hashed by the
committer and the verifier have the same hash. -/
theorem C21_only_committed [Env] (T : MerkleTree) (hT : T.Holds) (pr : MerkleProof)
    (hl : pr.path.length ≤ 32) (p : ProtocolId) (m : Message) (c : Commitment)
    (hn : NoCollision (proofInputs pr p m ++ T.inputs))
    (hc : T.commitId = .ok c) (h : pr.convolve p m = .ok (.ok c)) :
    T.messages.get p = some m ∧
    ∃ b, MerkleBlock.fromTree T = .ok b ∧ b.toMerkleProof p = .ok (.ok pr) := by
  obtain ⟨hlt, hpos, hcc⟩ := convolve_ok hl h
  rw [tree_commitId] at hc
  cases hc
  have hs := with_shows pr p m hlt
  have hU := toU5_val hlt
  obtain ⟨hd, hco, hv⟩ := view_of_commitment (T := T) hs hn (by dsimp only; rw [hU, ← hcc])
  have hk : (p, m) ∈ (PT.path p m pr.pos.toNat pr.path).known := by
    rw [path_known]; exact List.mem_singleton.2 rfl
  have hkT := (holds_known hT).1 (view_known hv hk)
  refine ⟨mem_bmapGet T.messages.sorted hkT, _, fromTree_eq T, ?_⟩
  have hb1 : MerkleBlock.OfTree ⟨T.method, T.depth, T.cofactor, T.pt.frontier 0, some T.entropy⟩ T :=
    ⟨rfl, rfl, rfl, _, fromTree_shows T, view_refl⟩
  have hb2 : MerkleBlock.OfTree ⟨pr.method, toU5 pr.path.length, pr.cofactor,
      (PT.path p m pr.pos.toNat pr.path).frontier 0, none⟩ T :=
    ⟨by cases pr.method; cases T.method; rfl, hd, hco, _, hs, hv⟩
  obtain ⟨pr', h1, h2⟩ := C17_same_proof T hT _ _ hb1 hb2 p (by
      rw [knownIds_map, shows_known (fromTree_shows T), List.mem_map]
      exact ⟨_, (holds_known hT).2 hkT, rfl⟩) (by
      rw [knownIds_map, shows_known hs, List.mem_map]
      exact ⟨_, hk, rfl⟩)
  rw [h1]
  rw [C17_rebuilt pr p m _ hlt (by rw [with_eq pr p m hlt, if_neg (by simpa using hpos)])] at h2
  exact h2.symm

/-- **C21** together with C16: every committed message is provable. -/
theorem C21_all_committed [Env] (T : MerkleTree) (hT : T.Holds) (p : ProtocolId) (m : Message)
    (c : Commitment) (hc : T.commitId = .ok c) (h : T.messages.get p = some m) :
    ∃ pr : MerkleProof, pr.path.length ≤ 32 ∧ pr.convolve p m = .ok (.ok c) := by
  have hk : (p, m) ∈ T.pt.known := (holds_known hT).2 (bmapGet_mem h)
  obtain ⟨pr, m', c', h1, -, -, h2, h3, -, -, h4⟩ := C16_complete T hT
    ⟨T.method, T.depth, T.cofactor, T.pt.frontier 0, some T.entropy⟩
    ⟨rfl, rfl, rfl, _, fromTree_shows T, view_refl⟩ p (by
      rw [knownIds_map, shows_known (fromTree_shows T), List.mem_map]
      exact ⟨_, hk, rfl⟩)
  rw [h] at h1
  rw [hc] at h2
  cases h1
  cases h2
  exact ⟨pr, by have := T.depth.isLt; omega, h3⟩

/-- Non-vacuity of C21: no collisions among all strings hashed by committer and verifier. -/
example : @NoCollision (realEnv true) (@proofInputs (realEnv true) (@Sample.proof1 (realEnv true))
      Sample.p1 Sample.m1 ++ @MerkleTree.inputs (realEnv true) Sample.tree) := by decide +kernel

/-! ## C22 -/

/-- **C22** The block rebuilt from a proof extracted from a block is that block with everything else
concealed. -/
theorem C22_rebuilt_is_concealed [Env] (T : MerkleTree) (hT : T.Holds) (b : MerkleBlock)
    (hb : b.OfTree T) (p : ProtocolId) (m : Message) (hp : (p, m) ∈ b.knownMessages)
    (pr : MerkleProof) (h : b.toMerkleProof p = .ok (.ok pr)) :
    ∃ b' n, MerkleBlock.with pr p m = .ok (.ok b') ∧ b.concealExcept [p] = .ok (b', .ok n) := by
  obtain ⟨hm, hd, hc, t, hs, hv⟩ := hb
  have hpl := ofTree_placed hT hd hc hs hv
  rw [shows_known hs] at hp
  obtain ⟨hlen, n, hce⟩ := concealExcept_one hpl hp
  rw [toMerkleProof_eq hpl hp] at h
  cases h
  have hU : toU5 b.depth.val = b.depth := toU5_of_val rfl
  refine ⟨_, n, ?_, hce⟩
  rw [with_eq _ _ _ (by rw [hlen]; exact b.depth.isLt)]
  dsimp only
  rw [hlen, hU, if_neg (by simp [MerkleBlock.protocolIdPos])]

/-! ## C31 -/

/-- **C31 is false of the code**, in both directions: there are matching proofs with different
commitments for one protocol and message, and two proofs extracted from one tree that do not
match. (The hash function is the real SHA256.) -/
theorem C31_false :
    (∃ (pr1 pr2 : MerkleProof) (p : ProtocolId) (m : Message) (c1 c2 : Commitment),
      pr1.matches pr2 = true ∧ @MerkleProof.convolve (realEnv true) pr1 p m = .ok (.ok c1) ∧
      @MerkleProof.convolve (realEnv true) pr2 p m = .ok (.ok c2) ∧ c1 ≠ c2) ∧
    (∃ (T : MerkleTree) (pr1 pr2 : MerkleProof) (p1 p2 : ProtocolId) (m1 m2 : Message)
      (c : Commitment), T.Holds ∧ @MerkleTree.commitId (realEnv true) T = .ok c ∧
      @MerkleProof.convolve (realEnv true) pr1 p1 m1 = .ok (.ok c) ∧
      @MerkleProof.convolve (realEnv true) pr2 p2 m2 = .ok (.ok c) ∧
      pr1.matches pr2 = false) := by
  constructor
  · let pr1 : MerkleProof := ⟨.sha256t, 0, 0, [Bytes32.fill 1, Bytes32.fill 2]⟩
    let pr2 : MerkleProof := ⟨.sha256t, 0, 0, [Bytes32.fill 1, Bytes32.fill 3]⟩
    refine ⟨pr1, pr2, Bytes32.fill 0, Bytes32.fill 9, _, _, by decide +kernel,
      (@convolve_eq (realEnv true) pr1 _ _ (by decide)).trans (if_neg (by decide +kernel)),
      (@convolve_eq (realEnv true) pr2 _ _ (by decide)).trans (if_neg (by decide +kernel)), ?_⟩
    decide +kernel
  · letI : Env := realEnv true
    obtain ⟨pr1, m1, c1, a1, -, a2, a3, a4, -⟩ := C16_complete Sample.tree Sample.holds Sample.block
      Sample.view_block Sample.p1 (by show Sample.p1 ∈ [Sample.p6, Sample.p1, Sample.p5]; decide)
    obtain ⟨pr2, m2, c2, b1, -, b2, b3, b4, -⟩ := C16_complete Sample.tree Sample.holds Sample.block
      Sample.view_block Sample.p5 (by show Sample.p5 ∈ [Sample.p6, Sample.p1, Sample.p5]; decide)
    rw [a3] at b3
    cases b3
    refine ⟨Sample.tree, pr1, pr2, Sample.p1, Sample.p5, m1, m2, c1, Sample.holds, a3, a4, b4, ?_⟩
    have hpl := ofTree_placed Sample.holds rfl rfl Sample.shows_tree view_refl
    rw [toMerkleProof_eq hpl (p := Sample.p1) (m := Sample.m1) (by
      show (Sample.p1, Sample.m1) ∈ [(Sample.p6, Sample.m6), (Sample.p1, Sample.m1),
        (Sample.p5, Sample.m5)]
      decide)] at a2
    rw [toMerkleProof_eq hpl (p := Sample.p5) (m := Sample.m5) (by
      show (Sample.p5, Sample.m5) ∈ [(Sample.p6, Sample.m6), (Sample.p1, Sample.m1),
        (Sample.p5, Sample.m5)]
      decide)] at b2
    cases a2
    cases b2
    decide +kernel

/-- **C31**, the part that holds for proofs: matching is equality of the cofactors and of the first
path elements - an equivalence relation; and two proofs of one protocol with one commitment
match (given no collision). Missing: agreement with equality of commitments. -/
theorem C31_partial [Env] :
    (∀ p q : MerkleProof, p.matches q = true ↔
      p.cofactor = q.cofactor ∧ p.path.head? = q.path.head?) ∧
    (∀ p : MerkleProof, p.matches p = true) ∧
    (∀ p q : MerkleProof, p.matches q = q.matches p) ∧
    (∀ p q r : MerkleProof, p.matches q = true → q.matches r = true → p.matches r = true) ∧
    (∀ (pr1 pr2 : MerkleProof) (p : ProtocolId) (m1 m2 : Message) (c : Commitment),
      pr1.path.length ≤ 32 → pr2.path.length ≤ 32 →
      NoCollision (proofInputs pr1 p m1 ++ proofInputs pr2 p m2) →
      pr1.convolve p m1 = .ok (.ok c) → pr2.convolve p m2 = .ok (.ok c) →
      pr1.matches pr2 = true) := by
  have key : ∀ p q : MerkleProof, p.matches q = true ↔
      p.cofactor = q.cofactor ∧ p.path.head? = q.path.head? := by
    intro p q
    rw [MerkleProof.matches, Bool.and_eq_true, decide_eq_true_eq, decide_eq_true_eq]
    rfl
  refine ⟨key, fun p => (key p p).2 ⟨rfl, rfl⟩, ?_, ?_, ?_⟩
  · intro p q
    rw [Bool.eq_iff_iff, key, key]
    exact ⟨fun ⟨a, b⟩ => ⟨a.symm, b.symm⟩, fun ⟨a, b⟩ => ⟨a.symm, b.symm⟩⟩
  · intro p q r h1 h2
    rw [key] at *
    exact ⟨h1.1.trans h2.1, h1.2.trans h2.2⟩
  · intro pr1 pr2 p m1 m2 c hl1 hl2 hn h1 h2
    obtain ⟨-, rfl⟩ := C18_binding pr1 pr2 p m1 m2 c hl1 hl2 hn h1 h2
    exact (key _ _).2 ⟨rfl, rfl⟩

/-- **C31** For trees and for structurally valid blocks `matches` is equality of commitments. -/
theorem C31_trees_and_blocks [Env] :
    (∀ s t : MerkleTree, ∃ cs ct, s.commitId = .ok cs ∧ t.commitId = .ok ct ∧
      s.matches t = .ok (decide (cs = ct))) ∧
    (∀ a b : MerkleBlock, a.Valid → b.Valid → ∃ ca cb, a.commitId = .ok ca ∧ b.commitId = .ok cb ∧
      a.matches b = .ok (decide (ca = cb))) := by
  constructor
  · intro s t
    refine ⟨_, _, tree_commitId s, tree_commitId t, ?_⟩
    rw [MerkleTree.matches, tree_commitId, tree_commitId]
    rfl
  · rintro a b ⟨s, hs⟩ ⟨t, ht⟩
    refine ⟨_, _, shows_commitId hs, shows_commitId ht, ?_⟩
    rw [MerkleBlock.matches, shows_commitId hs, shows_commitId ht]
    rfl

/-! ## C57 -/

/-- **C57** Two blocks that agree outside hidden parts, whose hidden parts have equal hashes
(`PT.Compat`), have the same commitment and the same proofs for protocols revealed by both. -/
theorem C57_hidden_parts [Env] (b1 b2 : MerkleBlock) (t1 t2 : PT) (h1 : b1.Placed t1)
    (h2 : b2.Placed t2) (hd : b1.depth = b2.depth) (hc : b1.cofactor = b2.cofactor)
    (hcomp : t1.Compat (2 ^ b1.depth.val) t2 0) :
    (∃ c, b1.commitId = .ok c ∧ b2.commitId = .ok c) ∧
    ∀ p, p ∈ b1.knownProtocolIds → p ∈ b2.knownProtocolIds →
      ∃ pr, b1.toMerkleProof p = .ok (.ok pr) ∧ b2.toMerkleProof p = .ok (.ok pr) := by
  constructor
  · refine ⟨_, shows_commitId h1.1, ?_⟩
    obtain ⟨r1, r2⟩ := join_root hcomp
    rw [shows_commitId h2.1, ← hd, ← hc]
    simp only [widthLimit, ← r1, ← r2]
  · intro p hp1 hp2
    obtain ⟨m1, hk1⟩ := known_shows h1.1 hp1
    obtain ⟨m2, hk2⟩ := known_shows h2.1 hp2
    have s1 := (placed_path h1 hk1).1
    have s2 := (placed_path h2 hk2).1
    have e1 := toMerkleProof_eq h1 hk1
    have e2 := toMerkleProof_eq h2 hk2
    refine ⟨_, e1, ?_⟩
    rw [e2]
    obtain ⟨me1, de1, co1, cs1, en1⟩ := b1
    obtain ⟨me2, de2, co2, cs2, en2⟩ := b2
    dsimp only at hd hc
    subst hd hc
    have : t1.siblings (2 ^ de1.val) 0 de1.val (protocolIdPos p co1 de1).toNat
        = t2.siblings (2 ^ de1.val) 0 de1.val (protocolIdPos p co1 de1).toNat :=
      compat_siblings hcomp h1.1.2 h2.1.2 s1 s2
    simp only [MerkleBlock.protocolIdPos, this]

/-- **C57** A proof consists of the position of the protocol, the cofactor and the hashes of the
siblings on the way from the root to its slot, and nothing else. -/
theorem C57_proof_content [Env] (T : MerkleTree) (hT : T.Holds) (b : MerkleBlock) (hb : b.OfTree T)
    (p : ProtocolId) (hp : p ∈ b.knownProtocolIds) :
    b.toMerkleProof p = .ok (.ok ⟨T.method, T.protocolIdPos p, T.cofactor,
      T.pt.siblings (2 ^ T.depth.val) 0 T.depth.val (T.protocolIdPos p).toNat⟩) := by
  obtain ⟨hm, hd, hc, t, hs, hv⟩ := hb
  have hpl := ofTree_placed hT hd hc hs hv
  obtain ⟨m, hk⟩ := known_shows hs hp
  have h1 := (placed_path hpl hk).1
  rw [toMerkleProof_eq hpl hk]
  obtain ⟨me1, de1, co1, cs1, en1⟩ := b
  dsimp only at hm hd hc
  subst hm hd hc
  have := view_siblings (n := T.depth.val) (lo := 0) (pos := (protocolIdPos p T.cofactor T.depth).toNat)
    hv hs.2 (Nat.zero_add _) (by rw [Nat.zero_add]; exact h1)
  simp only [MerkleBlock.protocolIdPos, MerkleTree.protocolIdPos, this]

/-- **C57** Two trees with the same depth, cofactor and sibling hashes along the path of a protocol
both trees hold give the same proof for it. -/
theorem C57_siblings_determine [Env] (T1 T2 : MerkleTree) (h1 : T1.Holds) (h2 : T2.Holds)
    (hd : T1.depth = T2.depth) (hc : T1.cofactor = T2.cofactor) (b1 b2 : MerkleBlock)
    (hb1 : b1.OfTree T1) (hb2 : b2.OfTree T2) (p : ProtocolId) (hp1 : p ∈ b1.knownProtocolIds)
    (hp2 : p ∈ b2.knownProtocolIds)
    (hs : T1.pt.siblings (2 ^ T1.depth.val) 0 T1.depth.val (T1.protocolIdPos p).toNat
      = T2.pt.siblings (2 ^ T1.depth.val) 0 T1.depth.val (T1.protocolIdPos p).toNat) :
    b1.toMerkleProof p = b2.toMerkleProof p := by
  rw [C57_proof_content T1 h1 b1 hb1 p hp1, C57_proof_content T2 h2 b2 hb2 p hp2, hs]
  have : T1.method = T2.method := by cases T1.method; cases T2.method; rfl
  simp only [MerkleTree.protocolIdPos, hd, hc, this]

/-- Non-vacuity of C57: the sample block and the same block with two of three leaves hidden. -/
example [Env] : Sample.tree.pt.Compat (2 ^ 2) Sample.pt1 0 ∧ Sample.tree.pt ≠ Sample.pt1 :=
  ⟨⟨⟨rfl, rfl, rfl⟩, rfl⟩, by intro h; cases h⟩

end CSV
