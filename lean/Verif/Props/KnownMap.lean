import Verif.Props.Source
import Verif.Props.Codec

/-!
# C70: the messages of a block as a map
-/

namespace CSV

private theorem foldl_insert {κ α : Type} [OrdKey κ] [DecidableEq κ] (l : List (κ × α)) :
    ∀ m : List (κ × α), BMapOk m →
      BMapOk (l.foldl (fun m e => bmapInsert e.1 e.2 m) m) ∧
      ∀ k, bmapGet k (l.foldl (fun m e => bmapInsert e.1 e.2 m) m)
        = ((l.reverse.find? (fun e => e.1 = k)).map Prod.snd).or (bmapGet k m) := by
  induction l with
  | nil => intro m h; exact ⟨h, fun k => by simp⟩
  | cons e l ih =>
    intro m h
    have := ih (bmapInsert e.1 e.2 m) (bmapInsert_sorted h)
    refine ⟨this.1, fun k => ?_⟩
    rw [List.foldl_cons, this.2 k, List.reverse_cons, List.find?_append]
    cases hf : l.reverse.find? (fun e => decide (e.1 = k)) with
    | some x => simp
    | none =>
      by_cases hk : e.1 = k
      · subst hk
        simp [bmapGet_insert_self]
      · rw [bmapGet_insert_ne (Ne.symm hk)]
        simp [hk]

private theorem ofList_sorted {κ α : Type} [OrdKey κ] [DecidableEq κ] (l : List (κ × α)) :
    BMapOk (bmapOfList l) := (foldl_insert l [] List.Pairwise.nil).1

private theorem get_ofList {κ α : Type} [OrdKey κ] [DecidableEq κ] (l : List (κ × α)) (k : κ) :
    bmapGet k (bmapOfList l) = (l.reverse.find? (fun e => e.1 = k)).map Prod.snd := by
  rw [bmapOfList, (foldl_insert l [] List.Pairwise.nil).2 k]
  simp [bmapGet]

private theorem keys_nodup {κ α : Type} [OrdKey κ] {m : List (κ × α)} (h : BMapOk m) :
    (m.map Prod.fst).Nodup := by
  rw [List.Nodup, List.pairwise_map]
  refine List.Pairwise.imp ?_ h
  intro a b hab e
  rw [e] at hab
  exact absurd hab (Nat.lt_irrefl _)

private theorem mem_keys {κ α : Type} [OrdKey κ] [DecidableEq κ] (l : List (κ × α)) (k : κ) :
    k ∈ (bmapOfList l).map Prod.fst ↔ k ∈ l.map Prod.fst := by
  have := bmapGet_eq_none (k := k) (m := bmapOfList l)
  rw [get_ofList] at this
  simp only [Option.map_eq_none_iff, List.find?_eq_none, List.mem_reverse, decide_eq_true_eq] at this
  constructor
  · intro h
    apply Classical.byContradiction
    intro h2
    refine this.1 (fun x hx e => h2 ?_) h
    rw [← e]; exact List.mem_map_of_mem hx
  · intro h
    apply Classical.byContradiction
    intro h2
    obtain ⟨x, hx, rfl⟩ := List.mem_map.1 h
    exact this.2 h2 x hx rfl

theorem nodup_length {α : Type} [DecidableEq α] : ∀ (a b : List α), a.Nodup → (∀ x ∈ a, x ∈ b) →
    a.length ≤ b.length
  | [], _, _, _ => by simp
  | x :: a, b, hn, hs => by
    have h1 := List.nodup_cons.1 hn
    have := nodup_length a (b.erase x) h1.2 (fun y hy => by
      rw [List.mem_erase_of_ne]
      · exact hs y (by simp [hy])
      · rintro rfl; exact h1.1 hy)
    have hx : x ∈ b := hs x (by simp)
    rw [List.length_erase_of_mem hx] at this
    have := List.length_pos_of_mem hx
    simp; omega

/-- **C70** The map of the known messages of any block: it has the protocols the block reveals, each with
the message in the last leaf of the protocol; there is no map, and the call panics, exactly if the block
reveals more than 2^24 - 1 different protocols. -/
theorem C70_map (b : MerkleBlock) :
    (∀ m, b.toKnownMessageMap = .ok m → ∀ p,
      m.get p = (b.knownMessages.reverse.find? (fun e => e.1 = p)).map Prod.snd) ∧
    (b.toKnownMessageMap = .error .expect ↔
      ∃ ids : List ProtocolId, ids.Nodup ∧ (∀ p ∈ ids, p ∈ b.knownProtocolIds) ∧ 2 ^ 24 ≤ ids.length) ∧
    ((∃ m, b.toKnownMessageMap = .ok m) ∨ b.toKnownMessageMap = .error .expect) := by
  have hdef : b.toKnownMessageMap = match OrdMap.tryFrom MEDIUM_MAX (bmapOfList b.knownMessages) with
    | some m => .ok m
    | none => .error .expect := rfl
  have hids := knownIds_map b
  have hmem := mem_keys b.knownMessages
  have hnd := keys_nodup (ofList_sorted b.knownMessages)
  rw [hdef, OrdMap.tryFrom]
  by_cases hl : (bmapOfList b.knownMessages).length ≤ MEDIUM_MAX
  · rw [dif_pos ⟨ofList_sorted _, hl⟩]
    refine ⟨fun m h p => ?_, ⟨fun h => (by cases h), fun ⟨ids, h1, h2, h3⟩ => ?_⟩, Or.inl ⟨_, rfl⟩⟩
    · cases h
      exact get_ofList _ _
    · exfalso
      have := nodup_length ids ((bmapOfList b.knownMessages).map Prod.fst) h1
        (fun p hp => by rw [hmem, ← hids]; exact h2 p hp)
      rw [List.length_map] at this
      simp only [MEDIUM_MAX] at hl
      omega
  · rw [dif_neg (fun h => hl h.2)]
    refine ⟨fun m h => (by cases h), ⟨fun _ => ⟨_, hnd, fun p hp => ?_, ?_⟩, fun _ => rfl⟩, Or.inr rfl⟩
    · rw [hids, ← hmem]; exact hp
    · rw [List.length_map]
      simp only [MEDIUM_MAX] at hl
      omega

/-- **C70** For a block of a tree there always is a map, with exactly the messages the block shows, all of
them messages of the tree; for the block made from a committed source it is the map of the source. -/
theorem C70_of_tree [Env] (T : MerkleTree) (hT : T.Holds) (b : MerkleBlock) (hb : b.OfTree T) :
    ∃ m, b.toKnownMessageMap = .ok m ∧ (∀ p x, m.get p = some x ↔ (p, x) ∈ b.knownMessages) ∧
      ∀ p x, m.get p = some x → T.messages.get p = some x := by
  obtain ⟨-, -, -, t, hs, hv⟩ := hb
  have hsub : ∀ p x, (p, x) ∈ b.knownMessages → T.messages.get p = some x := fun p x h => by
    rw [shows_known hs] at h
    exact mem_bmapGet T.messages.sorted ((holds_known hT).1 (view_known hv h))
  obtain ⟨h1, h2, h3⟩ := C70_map b
  rcases h3 with ⟨m, hm⟩ | he
  · have hiff : ∀ p x, m.get p = some x ↔ (p, x) ∈ b.knownMessages := by
      intro p x
      rw [h1 m hm p]
      constructor
      · intro h
        obtain ⟨⟨q, y⟩, hf, rfl⟩ := Option.map_eq_some_iff.1 h
        have hq : q = p := by simpa using List.find?_some hf
        subst hq
        exact List.mem_reverse.1 (List.mem_of_find?_eq_some hf)
      · intro h
        cases hf : b.knownMessages.reverse.find? (fun e => decide (e.1 = p)) with
        | none =>
          have := List.find?_eq_none.1 hf _ (List.mem_reverse.2 h)
          simp at this
        | some e =>
          obtain ⟨q, y⟩ := e
          have hq : q = p := by simpa using List.find?_some hf
          subst hq
          have e1 := hsub _ _ (List.mem_reverse.1 (List.mem_of_find?_eq_some hf))
          rw [hsub _ _ h] at e1
          exact e1.symm
    exact ⟨m, hm, hiff, fun p x h => hsub p x ((hiff p x).1 h)⟩
  · exfalso
    obtain ⟨ids, g1, g2, g3⟩ := h2.1 he
    have := nodup_length ids (T.messages.entries.map Prod.fst) g1 (fun p hp => by
      have := g2 p hp
      rw [knownIds_map, List.mem_map] at this
      obtain ⟨⟨q, x⟩, hq, rfl⟩ := this
      exact List.mem_map.2 ⟨_, bmapGet_mem (hsub _ _ hq), rfl⟩)
    have hbd := T.messages.bound
    rw [List.length_map] at this
    simp only [MEDIUM_MAX] at hbd
    omega

/-- **C70** From a source to the map of the block of the committed tree and back. -/
theorem C70_source [Env] (rng : Option UInt64) (s : MultiSource) (T : MerkleTree)
    (h : MerkleTree.tryCommit rng s = .ok (.ok T)) :
    ∃ b, MerkleBlock.fromTree T = .ok b ∧ b.toKnownMessageMap = .ok s.messages := by
  obtain ⟨hT, hm, b, hb, hof⟩ := C16_committed_trees rng s T h
  refine ⟨b, hb, ?_⟩
  obtain ⟨m, h1, h2, h3⟩ := C70_of_tree T hT b hof
  rw [h1, ← hm]
  congr 1
  apply OrdMap.ext'
  apply BMapOk.ext m.sorted T.messages.sorted
  intro k
  rw [fromTree_eq] at hb
  cases hb
  have key : ∀ x, m.get k = some x ↔ T.messages.get k = some x := fun x => by
    rw [h2 k x, shows_known (fromTree_shows T), holds_known hT]
    exact ⟨fun hk => mem_bmapGet T.messages.sorted hk, fun hk => bmapGet_mem hk⟩
  exact Option.ext key

/-- **C70** The same messages in another order make the same map, hence the same commitment. -/
theorem C70_any_order (l l' : List (ProtocolId × Message)) (hp : l.Perm l')
    (hn : (l.map Prod.fst).Nodup) : bmapOfList l = bmapOfList l' := by
  apply BMapOk.ext (ofList_sorted l) (ofList_sorted l')
  intro k
  rw [get_ofList, get_ofList]
  have hn' : (l'.map Prod.fst).Nodup := (hp.map Prod.fst).nodup_iff.1 hn
  have key : ∀ (l : List (ProtocolId × Message)), (l.map Prod.fst).Nodup → ∀ x,
      (l.reverse.find? (fun e => e.1 = k)).map Prod.snd = some x ↔ (k, x) ∈ l := by
    intro l hn x
    constructor
    · intro h
      obtain ⟨⟨q, y⟩, hf, rfl⟩ := Option.map_eq_some_iff.1 h
      have hq : q = k := by simpa using List.find?_some hf
      subst hq
      exact List.mem_reverse.1 (List.mem_of_find?_eq_some hf)
    · intro h
      cases hf : l.reverse.find? (fun e => decide (e.1 = k)) with
      | none =>
        have := List.find?_eq_none.1 hf _ (List.mem_reverse.2 h)
        simp at this
      | some e =>
        obtain ⟨q, y⟩ := e
        have hq : q = k := by simpa using List.find?_some hf
        subst hq
        have hm := List.mem_reverse.1 (List.mem_of_find?_eq_some hf)
        have : ∀ (l : List (ProtocolId × Message)), (l.map Prod.fst).Nodup → (q, x) ∈ l → (q, y) ∈ l → y = x := by
          intro l
          induction l with
          | nil => simp
          | cons a l ih =>
            intro hn h1 h2
            rw [List.map_cons, List.nodup_cons] at hn
            rcases List.mem_cons.1 h1 with h1 | h1 <;> rcases List.mem_cons.1 h2 with h2 | h2
            · rw [← h1] at h2; cases h2; rfl
            · exact absurd (List.mem_map.2 ⟨_, h2, by rw [← h1]⟩) hn.1
            · exact absurd (List.mem_map.2 ⟨_, h1, by rw [← h2]⟩) hn.1
            · exact ih hn.2 h1 h2
        simp [this l hn h hm]
  exact Option.ext fun x => (key l hn x).trans (hp.mem_iff.trans (key l' hn' x).symm)

private def manyLeaves (i : Nat) : PT := .leaf (Bytes32.ofNat i) (Bytes32.ofNat i)

/-- All 2^24 slots of a tree of depth 24 with a message. -/
private def manyBlock : MerkleBlock := ⟨.sha256t, 24, 0, (PT.full manyLeaves 24 0).frontier 0, none⟩

private theorem many_frontier : manyBlock.crossSection =
    (List.range' 0 (2 ^ 24)).map fun i => .leaf (Bytes32.ofNat i) (Bytes32.ofNat i) :=
  frontier_full (fun _ => rfl) 24 0 0 rfl

private theorem many_placed : manyBlock.Placed (PT.full manyLeaves 24 0) := by
  refine ⟨⟨rfl, fits_full (f := manyLeaves) (D := 24) (fun _ => show 24 = 24 from rfl) 24 0 0 rfl⟩, fun i p m h => ?_⟩
  obtain ⟨-, hi, he⟩ := (slots_full (f := manyLeaves) (fun i => Or.inr ⟨_, _, rfl⟩)).1 h
  simp only [manyLeaves, PT.leaf.injEq] at he
  rw [← he.1, protocolIdPos_eq, slotOf, Bytes32.toNat_ofNat (Nat.lt_trans hi (by decide))]
  exact (Nat.mod_eq_of_lt (Nat.lt_of_lt_of_le hi (by decide))).symm

/-- **C70** The panic occurs: there is a block that can be received, with every leaf at the slot of its
protocol and with proofs that verify for all its messages, whose map cannot be taken. -/
theorem C70_panics [Env] : ∃ b c, deserialize decMerkleBlock b.enc = some b ∧ (∃ t, b.Placed t) ∧
    b.commitId = .ok c ∧
    (∀ p m, (p, m) ∈ b.knownMessages → ∃ pr, b.toMerkleProof p = .ok (.ok pr) ∧
      pr.convolve p m = .ok (.ok c)) ∧
    b.toKnownMessageMap = .error .expect := by
  refine ⟨manyBlock, _, C38_block_serialized _ ?_, ⟨_, many_placed⟩, shows_commitId many_placed.1,
    fun p m h => ?_, (C70_map _).2.1.2 ⟨(List.range' 0 (2 ^ 24)).map Bytes32.ofNat, ?_, ?_, ?_⟩⟩
  · rw [MerkleBlock.Confined, many_frontier, List.length_map, List.length_range']
    decide
  · obtain ⟨pr, c, h1, h2, h3, -⟩ := C16_placed _ _ many_placed p m h
    rw [shows_commitId many_placed.1] at h2
    cases h2
    exact ⟨pr, h1, h3⟩
  · rw [List.Nodup, List.pairwise_map]
    refine List.Pairwise.imp_of_mem ?_ (List.pairwise_lt_range' (s := 0) (n := 2 ^ 24) 1)
    intro a b ha hb hab e
    have ha := (List.mem_range'_1.1 ha).2
    have hb := (List.mem_range'_1.1 hb).2
    have := congrArg Bytes32.toNat e
    rw [Bytes32.toNat_ofNat (Nat.lt_trans ha (by decide)),
      Bytes32.toNat_ofNat (Nat.lt_trans hb (by decide))] at this
    omega
  · intro p hp
    obtain ⟨i, hi, rfl⟩ := List.mem_map.1 hp
    rw [MerkleBlock.knownProtocolIds, many_frontier, List.mem_filterMap]
    exact ⟨_, List.mem_map_of_mem hi, rfl⟩
  · rw [List.length_map, List.length_range']; exact Nat.le_refl _

/-- Non-vacuity of C70: the sample, and a block with two leaves of one protocol, the last of which counts. -/
example [Env] : MerkleTree.tryCommit none Sample.source = .ok (.ok Sample.tree) ∧
    (∃ m, MerkleBlock.toKnownMessageMap ⟨.sha256t, 1, 0, [.leaf Sample.p1 Sample.m1, .leaf Sample.p1 Sample.m5],
      none⟩ = .ok m ∧ m.get Sample.p1 = some Sample.m5) :=
  ⟨Sample.commits, _, rfl, by decide⟩

end CSV
