import Verif.Spec.Absence
import Verif.Props.Proof
import Verif.Props.AnyBlock
import Verif.Props.Release

/-!
# C86: one protocol per slot, and how to show that a protocol is absent
-/

namespace CSV

private theorem path_slotAt [Env] {w : Nat} {p : ProtocolId} {m : Message} : ∀ {l : List MerkleHash} {t s : PT}
    {pos d : Nat}, (PT.path p m pos l).Compat w t d → t.slotAt l.length pos = some s →
    (PT.leaf p m).Compat w s (d + l.length) := by
  intro l
  induction l with
  | nil =>
    intro t s pos d h hs
    rw [List.length_nil, PT.slotAt] at hs
    cases hs
    exact h
  | cons a l ih =>
    intro t s pos d h hs
    rw [List.length_cons] at hs ⊢
    cases t with
    | hidden _ => rw [PT.slotAt] at hs; cases hs
    | leaf _ _ => rw [PT.slotAt] at hs; cases hs
    | node L R =>
      rw [PT.slotAt] at hs
      rw [path_cons] at h
      rw [show d + (l.length + 1) = d + 1 + l.length by omega]
      split at hs
      · rename_i hp
        rw [if_pos hp] at h
        simp only [PT.Compat] at h
        exact ih h.2 hs
      · rename_i hp
        rw [if_neg hp] at h
        simp only [PT.Compat] at h
        exact ih h.1 hs

private theorem slotAt_path {p : ProtocolId} {m : Message} : ∀ {l : List MerkleHash} {pos : Nat},
    (PT.path p m pos l).slotAt l.length pos = some (.leaf p m) := by
  intro l
  induction l with
  | nil => intro pos; rfl
  | cons a l ih =>
    intro pos
    rw [path_cons, List.length_cons]
    split
    · rename_i h
      rw [PT.slotAt, if_pos h, ih]
    · rename_i h
      rw [PT.slotAt, if_neg h, ih]

private theorem path_leafInput [Env] {w : Nat} {p : ProtocolId} {m : Message} : ∀ {l : List MerkleHash} {pos d : Nat},
    leafInput (.inhabited p m) ∈ (PT.path p m pos l).inputs w d := by
  intro l
  induction l with
  | nil => intro pos d; simp [PT.path, PT.inputs]
  | cons a l ih =>
    intro pos d
    rw [path_cons]
    split <;> simp [PT.inputs, ih]

/-- **C86** A commitment has one protocol per slot: two proofs for one slot that verify to one commitment are
equal and are for the same protocol and message - unless two different strings hashed in the two
verifications have one hash. So a proof for one protocol excludes proofs for all others that
have the same slot. -/
theorem C86_slot [Env] (pr1 pr2 : MerkleProof) (p1 p2 : ProtocolId) (m1 m2 : Message) (c : Commitment)
    (hl1 : pr1.path.length ≤ 32) (hl2 : pr2.path.length ≤ 32) (hp : pr1.pos = pr2.pos)
    (hn : NoCollision (proofInputs pr1 p1 m1 ++ proofInputs pr2 p2 m2))
    (h1 : pr1.convolve p1 m1 = .ok (.ok c)) (h2 : pr2.convolve p2 m2 = .ok (.ok c)) :
    p1 = p2 ∧ m1 = m2 ∧ pr1 = pr2 := by
  obtain ⟨l1, q1, c1⟩ := convolve_ok hl1 h1
  obtain ⟨l2, q2, c2⟩ := convolve_ok hl2 h2
  have hU1 := toU5_val l1
  have hU2 := toU5_val l2
  have := PT.Compat.ofRoot (with_shows pr1 p1 m1 l1)
    (b2 := ⟨pr2.method, toU5 pr2.path.length, pr2.cofactor,
      (PT.path p2 m2 pr2.pos.toNat pr2.path).frontier 0, none⟩)
    (t2 := PT.path p2 m2 pr2.pos.toNat pr2.path) hn (by dsimp only; rw [hU1, hU2, ← c1, ← c2])
  obtain ⟨hd, hc, hcomp⟩ := this
  dsimp only at hd hc hcomp
  have hlen : pr1.path.length = pr2.path.length := toU5_inj l1 l2 hd
  obtain ⟨rfl, rfl⟩ := path_slotAt hcomp (s := .leaf p2 m2) (by rw [hlen, hp, slotAt_path])
  obtain ⟨-, h⟩ := C18_binding pr1 pr2 p1 m1 m1 c hl1 hl2 hn h1 h2
  exact ⟨rfl, rfl, h⟩

/-- **C86** Soundness of absence: if a block with commitment `c` - however it was obtained - shows at the slot of
a protocol a message of another protocol or the filling of an unused slot, then no proof for that protocol
verifies to `c`, with any message - unless two different strings hashed for the two, or for the filling, have
one hash. -/
theorem C86_absent [Env] (b : MerkleBlock) (t : PT) (rest : List TreeNode) (c : Commitment)
    (hcs : b.crossSection = t.frontier 0 ++ rest)
    (hf : t.Fits (min (b.depth.val + 1) 31) b.depth.val 0) (hc : b.commitId = .ok c) (p : ProtocolId)
    (e : UInt64) (hx : t.Excludes b.depth.val (b.protocolIdPos p).toNat p e)
    (pr : MerkleProof) (hl : pr.path.length ≤ 32) (m : Message)
    (hn : NoCollision (proofInputs pr p m ++ (leafInput (.entropy e (b.protocolIdPos p)) ::
      blockInputs b.depth b.cofactor t))) :
    pr.convolve p m ≠ .ok (.ok c) := by
  intro h
  obtain ⟨l1, q1, c1⟩ := convolve_ok hl h
  obtain ⟨t', rest', hcs', hf', hc'⟩ := (C29_both_profiles b).2 c hc
  have hD := b.depth.isLt
  obtain ⟨rfl, -⟩ := frontier_inj (by omega) (by omega) hf hf' (hcs.symm.trans hcs')
  have hU1 := toU5_val l1
  have := PT.Compat.ofRoot (with_shows pr p m l1) (b2 := b) (t2 := t) (hn.mono (by
    intro a ha
    rcases List.mem_append.1 ha with ha | ha
    · exact List.mem_append_left _ ha
    · exact List.mem_append_right _ (List.mem_cons_of_mem _ ha))) (by dsimp only; rw [hU1, ← c1, ← hc'])
  obtain ⟨hd, hco, hcomp⟩ := this
  dsimp only at hd hco hcomp
  have hlen : pr.path.length = b.depth.val := by rw [← hd, hU1]
  have hpos : b.protocolIdPos p = pr.pos := by rw [← q1, hco, hd]; rfl
  rw [hpos, ← hlen] at hx
  rcases hx with ⟨q, m', h1, h2⟩ | h1
  · have := path_slotAt hcomp h1
    exact h2 this.1.symm
  · have := path_slotAt hcomp h1
    rw [← hpos, UInt32.ofNat_toNat] at this
    simp only [PT.Compat, PT.root] at this
    have := hn (leafInput (.inhabited p m)) ?_ (leafInput (.entropy e (b.protocolIdPos p))) ?_ this
    · cases leafInput_inj this
    · refine List.mem_append_left _ (List.mem_cons_of_mem _ ?_)
      exact path_leafInput
    · exact List.mem_append_right _ (List.mem_cons_self ..)

private theorem slotAt_full {f : Nat → PT} : ∀ {n lo pos : Nat}, pos < 2 ^ n →
    (PT.full f n lo).slotAt n pos = some (f (lo + pos)) := by
  intro n
  induction n with
  | zero =>
    intro lo pos h
    have : pos = 0 := by simpa using h
    subst this
    rw [PT.full, PT.slotAt, Nat.add_zero]
  | succ n ih =>
    intro lo pos h
    rw [PT.full, PT.slotAt]
    rw [Nat.pow_succ] at h
    split
    · rw [ih (by omega)]
      congr 2
      omega
    · rw [ih (by omega)]

/-- **C86** Completeness of absence: the block of a committed tree shows of every protocol without a message
that it is absent, with the entropy it carries. -/
theorem C86_complete [Env] (T : MerkleTree) (hT : T.Holds) (p : ProtocolId) (hp : T.messages.get p = none) :
    ∃ (b : MerkleBlock) (t : PT) (e : UInt64), MerkleBlock.fromTree T = .ok b ∧ b.Shows t ∧
      b.commitId = T.commitId ∧ b.entropy = some e ∧
      t.Excludes b.depth.val (b.protocolIdPos p).toNat p e := by
  refine ⟨_, T.pt, T.entropy, fromTree_eq T, fromTree_shows T, ?_, rfl, ?_⟩
  · rw [tree_commitId, shows_commitId (fromTree_shows T)]
    rfl
  · dsimp only
    have hlt := (protocolIdPos_lt p T.cofactor T.depth).2
    have hs : T.pt.slotAt T.depth.val (CSV.protocolIdPos p T.cofactor T.depth).toNat =
        some (T.slot (CSV.protocolIdPos p T.cofactor T.depth).toNat) := by
      rw [MerkleTree.pt, slotAt_full hlt, Nat.zero_add]
    unfold PT.Excludes MerkleBlock.protocolIdPos
    dsimp only
    rw [hs]
    unfold MerkleTree.slot
    split
    · rename_i q m hq
      refine .inl ⟨q, m, rfl, ?_⟩
      rintro rfl
      have := mem_bmapGet T.messages.sorted ((hT _ _).1 hq).1
      rw [show T.messages.get q = bmapGet q T.messages.entries from rfl] at hp
      simp_all
    · exact .inr rfl

private theorem view_slotAt [Env] {w : Nat} : ∀ {n : Nat} {t T s : PT} {pos d : Nat}, t.View w T d →
    t.slotAt n pos = some s → ∃ S, T.slotAt n pos = some S ∧ s.View w S (d + n) := by
  intro n
  induction n with
  | zero =>
    intro t T s pos d h hs
    rw [PT.slotAt] at hs
    cases hs
    exact ⟨T, by rw [PT.slotAt], h⟩
  | succ n ih =>
    intro t T s pos d h hs
    cases t with
    | hidden _ => rw [PT.slotAt] at hs; cases hs
    | leaf _ _ => rw [PT.slotAt] at hs; cases hs
    | node l r =>
      cases T with
      | hidden _ => exact absurd h (by simp [PT.View])
      | leaf _ _ => exact absurd h (by simp [PT.View])
      | node L R =>
        simp only [PT.View] at h
        rw [PT.slotAt] at hs ⊢
        rw [show d + (n + 1) = d + 1 + n by omega]
        split at hs
        · rename_i hp
          rw [if_pos hp]
          exact ih h.2 hs
        · rename_i hp
          rw [if_neg hp]
          exact ih h.1 hs

theorem fits_mono {H H' D : Nat} (hH : H ≤ H') : ∀ {t : PT} {d : Nat}, t.Fits H D d → t.Fits H' D d := by
  intro t
  induction t with
  | hidden _ => intro d h; exact Nat.le_trans h hH
  | leaf _ _ => intro d h; exact h
  | node l r ihl ihr => intro d h; exact ⟨ihl h.1, ihr h.2⟩

/-- **C86** A received block with the commitment of a committed tree that shows absence of a protocol tells the
truth: the tree has no message for it - unless two different strings hashed have one hash. -/
theorem C86_received [Env] (T : MerkleTree) (hT : T.Holds) (b : MerkleBlock) (t : PT) (rest : List TreeNode)
    (hcs : b.crossSection = t.frontier 0 ++ rest) (hf : t.Fits (min (b.depth.val + 1) 31) b.depth.val 0)
    (hb : b.commitId = T.commitId) (p : ProtocolId) (e : UInt64)
    (hx : t.Excludes b.depth.val (b.protocolIdPos p).toNat p e)
    (hn : NoCollision (leafInput (.entropy e (b.protocolIdPos p)) ::
      (blockInputs b.depth b.cofactor t ++ T.inputs))) :
    T.messages.get p = none := by
  obtain ⟨t', rest', hcs', hf', hv⟩ := C63_begins T b hb
  have hD := b.depth.isLt
  obtain ⟨rfl, -⟩ := frontier_inj (by omega) (by omega) hf hf' (hcs.symm.trans hcs')
  obtain ⟨u, hu, hbeg⟩ := hv (hn.mono fun a ha => List.mem_cons_of_mem _ ha)
  obtain ⟨-, hd, hco, -, hfu, hview⟩ := hbeg
  obtain ⟨rfl, -⟩ := frontier_inj (r1 := []) (r2 := []) (by omega) (by omega) hf
    (fits_mono (by omega) (hd ▸ hfu)) (by rw [hu])
  cases hg : T.messages.get p with
  | none => rfl
  | some m =>
    exfalso
    have hpos : b.protocolIdPos p = CSV.protocolIdPos p T.cofactor T.depth := by
      rw [MerkleBlock.protocolIdPos, hd, hco]
    have hmap : T.map.get (CSV.protocolIdPos p T.cofactor T.depth) = some (p, m) :=
      (hT _ _).2 ⟨bmapGet_mem hg, (protocolIdPos_lt p T.cofactor T.depth).1⟩
    have hlt := (protocolIdPos_lt p T.cofactor T.depth).2
    have hslot : T.pt.slotAt T.depth.val (CSV.protocolIdPos p T.cofactor T.depth).toNat = some (.leaf p m) := by
      rw [MerkleTree.pt, slotAt_full hlt, Nat.zero_add, MerkleTree.slot, UInt32.ofNat_toNat, hmap]
    rw [hpos, hd] at hx
    rcases hx with ⟨q, m', h1, h2⟩ | h1
    · obtain ⟨S, h3, h4⟩ := view_slotAt hview h1
      rw [hslot] at h3
      cases h3
      simp only [PT.View, PT.leaf.injEq] at h4
      exact h2 h4.1.symm
    · obtain ⟨S, h3, h4⟩ := view_slotAt hview h1
      rw [hslot] at h3
      cases h3
      simp only [PT.View, PT.root, UInt32.ofNat_toNat] at h4
      have := hn (leafInput (.inhabited p m)) (List.mem_cons_of_mem _ (List.mem_append_right _ ?_))
        (leafInput (.entropy e (b.protocolIdPos p))) (List.mem_cons_self ..) (by rw [hpos]; exact h4)
      · cases leafInput_inj this
      · refine List.mem_append_right _ (List.mem_map.2
          ⟨(CSV.protocolIdPos p T.cofactor T.depth).toNat, List.mem_range.2 hlt, ?_⟩)
        rw [MerkleTree.leafAt, UInt32.ofNat_toNat, hmap]

/-- **C86** From the source: the block of the tree shows exactly of the protocols without a message that
they are absent. -/
theorem C86_source [Env] (rng : Option UInt64) (s : MultiSource) (T : MerkleTree)
    (h : MerkleTree.tryCommit rng s = .ok (.ok T)) (p : ProtocolId) :
    ∃ (b : MerkleBlock) (t : PT) (e : UInt64), MerkleBlock.fromTree T = .ok b ∧ b.Shows t ∧ b.entropy = some e ∧
      (t.Excludes b.depth.val (b.protocolIdPos p).toNat p e ↔ s.messages.get p = none) := by
  obtain ⟨hT, hm, -⟩ := C16_committed_trees rng s T h
  refine ⟨_, T.pt, T.entropy, fromTree_eq T, fromTree_shows T, rfl, ?_, fun hp => ?_⟩
  · intro hx
    cases hg : s.messages.get p with
    | none => rfl
    | some m =>
      exfalso
      rw [← hm] at hg
      have hmap : T.map.get (CSV.protocolIdPos p T.cofactor T.depth) = some (p, m) :=
        (hT _ _).2 ⟨bmapGet_mem hg, (protocolIdPos_lt p T.cofactor T.depth).1⟩
      have hlt := (protocolIdPos_lt p T.cofactor T.depth).2
      have hslot : T.pt.slotAt T.depth.val (CSV.protocolIdPos p T.cofactor T.depth).toNat = some (.leaf p m) := by
        rw [MerkleTree.pt, slotAt_full hlt, Nat.zero_add, MerkleTree.slot, UInt32.ofNat_toNat, hmap]
      unfold PT.Excludes MerkleBlock.protocolIdPos at hx
      dsimp only at hx
      rw [hslot] at hx
      rcases hx with ⟨q, m', h1, h2⟩ | h1
      · cases h1
        exact h2 rfl
      · cases h1
  · obtain ⟨b, t, e, h1, h2, -, h3, h4⟩ := C86_complete T hT p (by rw [hm]; exact hp)
    rw [fromTree_eq] at h1
    cases h1
    cases h3
    obtain ⟨rfl⟩ := shows_unique (fromTree_shows T) h2
    exact h4

/-- The tree shown by the block of the sample. -/
private def sampleTree [Env] : PT :=
  .node (.node (.leaf Sample.p6 Sample.m6) (.leaf Sample.p1 Sample.m1))
    (.node (.leaf Sample.p5 Sample.m5) (.hidden (leafHash (.entropy 77 3))))

/-- A tree with one message, in slot 1 of 2. -/
private def smallTree : MerkleTree :=
  ⟨.sha256t, 1, 77, 0, ⟨[(Sample.p1, Sample.m1)], by decide, by decide⟩,
    ⟨[(1, (Sample.p1, Sample.m1))], by decide, by decide⟩⟩

private theorem pos9 : CSV.protocolIdPos Sample.p9 1 2 = 0 := by decide +kernel

private theorem pos5 : CSV.protocolIdPos Sample.p5 1 2 = 2 := by decide +kernel

/-- Non-vacuity of C86: in the sample the slot of protocol 9 is taken by protocol 6. -/
example [Env] : Sample.block.crossSection = sampleTree.frontier 0 ++ [] ∧
    sampleTree.Fits (min (Sample.block.depth.val + 1) 31) Sample.block.depth.val 0 ∧
    Sample.block.commitId = Sample.tree.commitId ∧
    sampleTree.Excludes Sample.block.depth.val (Sample.block.protocolIdPos Sample.p9).toNat Sample.p9 77 ∧
    ¬ sampleTree.Excludes Sample.block.depth.val (Sample.block.protocolIdPos Sample.p5).toNat Sample.p5 77 := by
  refine ⟨rfl, by simp [sampleTree, PT.Fits, Sample.block], ?_, ?_, ?_⟩
  · rw [tree_commitId, shows_commitId Sample.shows_tree]
    rfl
  · rw [show Sample.block.protocolIdPos Sample.p9 = 0 from pos9]
    exact .inl ⟨Sample.p6, Sample.m6, rfl, by decide⟩
  · rw [show Sample.block.protocolIdPos Sample.p5 = 2 from pos5]
    have : sampleTree.slotAt 2 2 = some (.leaf Sample.p5 Sample.m5) := rfl
    rintro (⟨q, m, h1, h2⟩ | h1)
    · cases this.symm.trans h1
      exact h2 rfl
    · cases this.symm.trans h1

/-- With real SHA256 there are no collisions among the strings hashed there. -/
example : @NoCollision (realEnv true) (@proofInputs (realEnv true) (@Sample.proof1 (realEnv true))
    Sample.p9 Sample.m1 ++ (@leafInput (realEnv true) (.entropy 77 0) ::
      @blockInputs (realEnv true) 2 1 (@sampleTree (realEnv true)))) := by decide +kernel

/-- The same for the committer. -/
example : @NoCollision (realEnv true) (@leafInput (realEnv true) (.entropy 77 0) ::
    (@blockInputs (realEnv true) 2 1 (@sampleTree (realEnv true)) ++
      @MerkleTree.inputs (realEnv true) Sample.tree)) := by decide +kernel

/-- In the small tree the slot of protocol 6 is filled with entropy. -/
example [Env] : MerkleTree.tryCommit none ⟨.sha256t, 1, smallTree.messages, some 77⟩ = .ok (.ok smallTree) ∧
    smallTree.pt.Excludes 1 (slotOf Sample.p6 0 1) Sample.p6 77 :=
  ⟨rfl, .inr rfl⟩

end CSV
