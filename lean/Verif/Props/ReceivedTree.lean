import Verif.Props.AnyBlock
import Verif.Props.Absence
import Verif.Props.TreeBinding
import Verif.Props.Source
import Verif.Props.Codec

/-!
# C97: trees from storage or from somebody else

A deserialized `MerkleTree` may hold any messages in any slots: neither the slots nor the stored copy of the
messages are checked.
-/

namespace CSV

private theorem full_path [Env] {f : Nat → PT} {p : ProtocolId} {m : Message} {w i : Nat} (hi : f i = .leaf p m) :
    ∀ (n lo d : Nat), lo ≤ i → i < lo + 2 ^ n → ∃ path : List MerkleHash, path.length = n ∧
      (PT.path p m (i - lo) path).root w d = (PT.full f n lo).root w d
  | 0, lo, d, h1, h2 => by
    have : i = lo := by simp at h2; omega
    subst this
    exact ⟨[], rfl, by simp only [PT.path, PT.full, hi]⟩
  | n + 1, lo, d, h1, h2 => by
    have e2 : 2 ^ (n + 1) = 2 ^ n + 2 ^ n := by rw [Nat.pow_succ]; omega
    by_cases h : lo + 2 ^ n ≤ i
    · obtain ⟨path, hl, hp⟩ := full_path (w := w) hi n (lo + 2 ^ n) (d + 1) h (by omega)
      refine ⟨(PT.full f n lo).root w (d + 1) :: path, by simp [hl], ?_⟩
      rw [path_cons, if_pos (by rw [hl]; omega), hl, show i - lo - 2 ^ n = i - (lo + 2 ^ n) by omega]
      simp only [PT.root, PT.full, hp]
    · obtain ⟨path, hl, hp⟩ := full_path (w := w) hi n lo (d + 1) h1 (by omega)
      refine ⟨(PT.full f n (lo + 2 ^ n)).root w (d + 1) :: path, by simp [hl], ?_⟩
      rw [path_cons, if_neg (by rw [hl]; omega)]
      simp only [PT.root, PT.full, hp]

private theorem slot_of_get [Env] {U : MerkleTree} {k : UInt32} {p : ProtocolId} {m : Message} :
    U.slot k.toNat = .leaf p m ↔ U.map.get k = some (p, m) := by
  rw [MerkleTree.slot, UInt32.ofNat_toNat]
  cases h : U.map.get k with
  | none => simp
  | some e => obtain ⟨q, x⟩ := e; simp

/-- **C97** Against the commitment of any tree, however obtained, exactly those messages can be proven that sit in
the slot of their protocol; no message elsewhere can be proven by anybody (unless two different strings hashed
have one hash). -/
theorem C97_provable [Env] (U : MerkleTree) (c : Commitment) (hc : U.commitId = .ok c) (p : ProtocolId)
    (m : Message) :
    (U.map.get (U.protocolIdPos p) = some (p, m) →
      ∃ pr : MerkleProof, pr.path.length = U.depth.val ∧ pr.convolve p m = .ok (.ok c)) ∧
    (∀ pr : MerkleProof, pr.path.length ≤ 32 → NoCollision (proofInputs pr p m ++ U.inputs) →
      pr.convolve p m = .ok (.ok c) → U.map.get (U.protocolIdPos p) = some (p, m)) := by
  have hD := U.depth.isLt
  constructor
  · intro h
    have hlt := (C06_position p U.cofactor U.depth).2.1
    obtain ⟨path, hl, hr⟩ := full_path (w := 2 ^ U.depth.val) (slot_of_get.2 h) U.depth.val 0 0 (by omega)
      (by rw [Nat.zero_add]; exact hlt)
    refine ⟨⟨U.method, U.protocolIdPos p, U.cofactor, path⟩, hl, ?_⟩
    have hu : toU5 path.length = U.depth := toU5_of_val hl.symm
    rw [convolve_eq _ _ _ (show path.length < 32 by omega)]
    simp only [hu]
    simp only [hl]
    rw [if_neg (by simp [MerkleTree.protocolIdPos]), ← Nat.sub_zero (U.protocolIdPos p).toNat, hr]
    rw [tree_commitId] at hc
    cases hc
    rfl
  · intro pr hl hn h
    obtain ⟨hlt, hpos, hcc⟩ := convolve_ok hl h
    rw [tree_commitId] at hc
    cases hc
    have hs := with_shows pr p m hlt
    have hU := toU5_val hlt
    obtain ⟨hd, hco, hv⟩ := view_of_commitment (T := U) hs hn (by dsimp only; rw [hU, ← hcc])
    dsimp only at hd hco
    have hp : (U.protocolIdPos p) = pr.pos := by rw [MerkleTree.protocolIdPos, ← hd, ← hco, hpos]
    have hlen : pr.path.length = U.depth.val := by rw [← hd, hU]
    have hlt' := (C06_position p U.cofactor U.depth).2.1
    have hs' := path_slots p m pr.path pr.pos.toNat 0 (by rw [hlen, ← hp]; exact hlt')
    have := view_slots (n := pr.path.length) (lo := 0) (e := (0 + pr.pos.toNat, (p, m))) hv (by rw [hs']; simp)
    rw [hlen, pt_slots, Nat.zero_add, UInt32.ofNat_toNat] at this
    rw [hp]
    exact this.2

/-- The protocols in the slots of a tree, by slot. -/
def MerkleTree.seated (U : MerkleTree) : List ProtocolId :=
  (List.range (2 ^ U.depth.val)).filterMap fun i => (U.map.get (UInt32.ofNat i)).map Prod.fst

private theorem known_seated [Env] (U : MerkleTree) (b : MerkleBlock) (h : MerkleBlock.fromTree U = .ok b) :
    b.knownProtocolIds = U.seated := by
  rw [fromTree_eq] at h
  cases h
  rw [knownIds_map, shows_known (fromTree_shows U), MerkleTree.pt, known_full, MerkleTree.seated,
    List.range_eq_range', List.map_flatMap]
  induction List.range' 0 (2 ^ U.depth.val) with
  | nil => rfl
  | cons i l ih =>
    rw [List.flatMap_cons, List.filterMap_cons, ih, MerkleTree.slot]
    cases U.map.get (UInt32.ofNat i) with
    | none => rfl
    | some e => rfl

private theorem mapM_iff {α β : Type} (f : α → Exec β) : ∀ l : List α,
    (∃ r, l.mapM f = .ok r) ↔ ∀ a ∈ l, ∃ x, f a = .ok x
  | [] => by simp; exact ⟨_, rfl⟩
  | a :: l => by
    have ih := mapM_iff f l
    rw [List.mapM_cons]
    constructor
    · rintro ⟨r, hr⟩
      rw [bind_ok_iff] at hr
      obtain ⟨x, h1, h2⟩ := hr
      rw [bind_ok_iff] at h2
      obtain ⟨xs, h2, -⟩ := h2
      intro b hb
      rcases List.mem_cons.1 hb with rfl | hb
      · exact ⟨x, h1⟩
      · exact ih.1 ⟨xs, h2⟩ b hb
    · intro h
      obtain ⟨x, hx⟩ := h a (List.mem_cons_self ..)
      obtain ⟨xs, hxs⟩ := ih.2 fun b hb => h b (List.mem_cons_of_mem _ hb)
      exact ⟨x :: xs, by rw [hx, hxs]; rfl⟩

private theorem mapM_mem {α β : Type} (f : α → Exec β) (k : β → α) (hk : ∀ a x, f a = .ok x → k x = a) :
    ∀ (l : List α) (r : List β), l.mapM f = .ok r → r.map k = l ∧ ∀ x ∈ r, f (k x) = .ok x
  | [], r, h => by cases h; exact ⟨rfl, nofun⟩
  | a :: l, r, h => by
    rw [List.mapM_cons, bind_ok_iff] at h
    obtain ⟨x, h1, h2⟩ := h
    rw [bind_ok_iff] at h2
    obtain ⟨xs, h2, h3⟩ := h2
    cases h3
    obtain ⟨i1, i2⟩ := mapM_mem f k hk l xs h2
    refine ⟨by rw [List.map_cons, i1, hk _ _ h1], fun y hy => ?_⟩
    rcases List.mem_cons.1 hy with rfl | hy
    · rw [hk _ _ h1]; exact h1
    · exact i2 y hy

private theorem seated_once {U : MerkleTree} {p : ProtocolId} (h : U.seated.count p = 1) {i j : Nat} {m n : Message}
    (hi : i < 2 ^ U.depth.val) (hj : j < 2 ^ U.depth.val) (gi : U.map.get (UInt32.ofNat i) = some (p, m))
    (gj : U.map.get (UInt32.ofNat j) = some (p, n)) : i = j := by
  apply Classical.byContradiction
  intro hne
  rw [MerkleTree.seated, List.count_filterMap, List.countP_eq_length_filter] at h
  have : [i, j].Nodup := by simp [hne]
  have := this.length_le_of_subset (l₂ := (List.range (2 ^ U.depth.val)).filter fun a =>
    (U.map.get (UInt32.ofNat a)).map Prod.fst == some p) (by
      intro a ha
      rw [List.mem_filter, List.mem_range]
      rcases List.mem_cons.1 ha with rfl | ha
      · exact ⟨hi, by rw [gi]; simp⟩
      · rw [List.mem_singleton] at ha; subst ha
        exact ⟨hj, by rw [gj]; simp⟩)
  rw [h] at this
  simp at this

/-- **C97** `into_proofs` on any tree, however obtained: a release build always returns, a debug build exactly if no
protocol sits in two slots. There is one proof for each message, in the order of the slots; a proof verifies exactly
for the message that sits in the slot of its protocol, if there is one and the protocol sits nowhere else (unless two
different strings hashed have one hash). -/
theorem C97_into_proofs [Env] (U : MerkleTree) (c : Commitment) (hc : U.commitId = .ok c) :
    ((∃ l, U.intoProofs = .ok l) ↔ dbg = false ∨ U.seated.Nodup) ∧
    ∀ l, U.intoProofs = .ok l → l.map Prod.fst = U.seated ∧
      ∀ p pr, (p, pr) ∈ l → ∀ m, NoCollision (proofInputs pr p m ++ U.inputs) →
        (pr.convolve p m = .ok (.ok c) ↔
          U.map.get (U.protocolIdPos p) = some (p, m) ∧ U.seated.count p = 1) := by
  have hb := fromTree_eq U
  have hk := known_seated U _ hb
  have hbc : MerkleBlock.commitId ⟨U.method, U.depth, U.cofactor, U.pt.frontier 0, some U.entropy⟩ = .ok c := by
    obtain ⟨b, x, y, z, h1, -, h2, h3, -⟩ := C09_one_commitment U
    rw [hb] at h1
    cases h1
    rw [hc] at h2
    cases h2
    exact h3
  have hD := U.depth.isLt
  have hf := fits_mono (show U.depth.val ≤ min (U.depth.val + 1) 31 by omega) (fromTree_shows U).2
  have hi : U.intoProofs = MerkleBlock.intoKnownProofs ⟨U.method, U.depth, U.cofactor, U.pt.frontier 0,
      some U.entropy⟩ := by rw [MerkleTree.intoProofs, hb]; rfl
  generalize hbd : (⟨U.method, U.depth, U.cofactor, U.pt.frontier 0, some U.entropy⟩ : MerkleBlock) = b at *
  have hbD : b.depth = U.depth := by rw [← hbd]
  have hbC : b.cofactor = U.cofactor := by rw [← hbd]
  have h80 := C80_proofs b U.pt (by rw [← hbd]) (by rw [hbD] at hf ⊢; exact hf) c hbc
  rw [hk] at h80
  rw [hi, MerkleBlock.intoKnownProofs, hk]
  have hpos : ∀ p ∈ U.seated, 0 < U.seated.count p := fun p hp => List.count_pos_iff.2 hp
  constructor
  · rw [mapM_iff]
    constructor
    · intro h
      cases hdb : dbg with
      | false => exact .inl rfl
      | true =>
        refine .inr (List.nodup_iff_count.2 fun p => ?_)
        apply Classical.byContradiction
        intro h2
        have hp : p ∈ U.seated := List.count_pos_iff.1 (by omega)
        obtain ⟨x, hx⟩ := h p hp
        rw [((h80 p).2.2 (by omega)).1 hdb] at hx
        cases hx
    · intro h p hp
      rcases Nat.lt_or_ge (U.seated.count p) 2 with h1 | h1
      · have := hpos p hp
        obtain ⟨i, m, path, -, -, e, -⟩ := (h80 p).2.1 (by omega)
        exact ⟨_, by rw [e]; rfl⟩
      · rcases h with h | h
        · obtain ⟨pr, e, -⟩ := ((h80 p).2.2 h1).2 h
          exact ⟨_, by rw [e]; rfl⟩
        · have := List.nodup_iff_count.1 h p
          omega
  · intro l hl
    obtain ⟨a1, a2⟩ := mapM_mem _ Prod.fst (fun a x hx => by
      rw [bind_ok_iff] at hx
      obtain ⟨r, -, hr⟩ := hx
      cases r with
      | ok pr => cases hr; rfl
      | error e => cases hr) _ _ hl
    refine ⟨a1, fun p pr hp m hn => ?_⟩
    have hx := a2 _ hp
    rw [bind_ok_iff] at hx
    obtain ⟨r, hr, hr'⟩ := hx
    cases r with
    | error e => cases hr'
    | ok pr' =>
      cases hr'
      have hps : p ∈ U.seated := by rw [← a1]; exact List.mem_map_of_mem (f := Prod.fst) hp
      have h0 := hpos p hps
      dsimp only at hr
      rcases Nat.lt_or_ge (U.seated.count p) 2 with h1 | h1
      · have h1' : U.seated.count p = 1 := by omega
        obtain ⟨i, m', path, hs, hlen, e, hv⟩ := (h80 p).2.1 h1'
        rw [hr] at e
        cases e
        rw [hbD, pt_slots] at hs
        constructor
        · intro h
          exact ⟨(C97_provable U c hc p m).2 _ (by show path.length ≤ 32; omega) hn h, h1'⟩
        · rintro ⟨h, -⟩
          have hlt := (C06_position p U.cofactor U.depth).2.1
          have hpp : b.protocolIdPos p = U.protocolIdPos p := by
            rw [MerkleBlock.protocolIdPos, MerkleTree.protocolIdPos, hbD, hbC]
          have := seated_once h1' hs.1 hlt hs.2 (by
            rw [UInt32.ofNat_toNat]; exact h)
          subst this
          rw [UInt32.ofNat_toNat] at hs
          have e2 := hs.2.symm.trans h
          cases e2
          refine hv ?_
          rw [hpp]; rfl
      · refine ⟨fun h => ?_, fun h => by omega⟩
        cases hdb : dbg with
        | true => rw [((h80 p).2.2 h1).1 hdb] at hr; cases hr
        | false =>
          obtain ⟨pr'', e, hlen, hno⟩ := ((h80 p).2.2 h1).2 hdb
          rw [hr] at e
          cases e
          refine absurd h (hno m (hn.mono fun a ha => ?_))
          rw [hbD, hbC] at ha
          simp only [MerkleTree.inputs, List.mem_append] at ha ⊢
          rcases ha with ha | ha
          · exact .inl ha
          · exact .inr (.inl ha)

private theorem full_congr {f g : Nat → PT} : ∀ (n lo : Nat), (∀ i, lo ≤ i → i < lo + 2 ^ n → f i = g i) →
    PT.full f n lo = PT.full g n lo
  | 0, lo, h => h lo (Nat.le_refl _) (by simp)
  | n + 1, lo, h => by
    have e2 : 2 ^ (n + 1) = 2 ^ n + 2 ^ n := by rw [Nat.pow_succ]; omega
    simp only [PT.full]
    rw [full_congr n lo fun i h1 h2 => h i h1 (by omega),
      full_congr n (lo + 2 ^ n) fun i h1 h2 => h i (by omega) (by omega)]

private theorem free_slot {rng : Option UInt64} {s : MultiSource} {T : MerkleTree}
    (h : MerkleTree.tryCommit rng s = .ok (.ok T)) (hl : s.messages.entries.length < 2 ^ T.depth.val) :
    ∃ pos : UInt32, pos.toNat < 2 ^ T.depth.val ∧ T.map.get pos = none := by
  obtain ⟨-, -, -, -, b1, -⟩ := C01_slots rng s T h
  apply Classical.byContradiction
  intro hno
  have h31 : (2:Nat) ^ T.depth.val ≤ 2 ^ 31 :=
    Nat.pow_le_pow_right (by decide) (by have := T.depth.isLt; omega)
  have hsub : List.range (2 ^ T.depth.val) ⊆
      s.messages.entries.map fun e => (T.protocolIdPos e.1).toNat := by
    intro i hi
    rw [List.mem_range] at hi
    have hu : (UInt32.ofNat i).toNat = i :=
      UInt32.toNat_ofNat_of_lt' (by show i < 4294967296; omega)
    cases hg : T.map.get (UInt32.ofNat i) with
    | none => exact absurd ⟨_, by rw [hu]; exact hi, hg⟩ hno
    | some e =>
      obtain ⟨p, m⟩ := e
      obtain ⟨g1, g2⟩ := b1 _ _ _ hg
      rw [List.mem_map]
      exact ⟨(p, m), bmapGet_mem g1, by rw [← g2, hu]⟩
  have := List.nodup_range.length_le_of_subset hsub
  rw [List.length_range, List.length_map] at this
  omega

private theorem proofs_entropy [Env] (b : MerkleBlock) (e : Option UInt64) :
    ({ b with entropy := e } : MerkleBlock).intoKnownProofs = b.intoKnownProofs := rfl

/-- **C97** A tree, however obtained, with the commitment of a committed source has the slots of the tree of that
source: it gives the same proofs and the same block, up to the entropy if no slot is free (unless two different
strings hashed have one hash). -/
theorem C97_source [Env] (rng : Option UInt64) (s : MultiSource) (T U : MerkleTree)
    (h : MerkleTree.tryCommit rng s = .ok (.ok T)) (c : Commitment) (hT : T.commitId = .ok c)
    (hU : U.commitId = .ok c) (hn : NoCollision (T.inputs ++ U.inputs)) :
    U.intoProofs = T.intoProofs ∧
    ∃ b b', MerkleBlock.fromTree T = .ok b ∧ MerkleBlock.fromTree U = .ok b' ∧
      { b' with entropy := b.entropy } = b ∧ (s.messages.entries.length < 2 ^ T.depth.val → b' = b) := by
  obtain ⟨hd, hco, hm, he⟩ := C60_binding T U c hT hU hn
  have h31 : (2:Nat) ^ T.depth.val ≤ 2 ^ 31 :=
    Nat.pow_le_pow_right (by decide) (by have := T.depth.isLt; omega)
  have hpt : U.pt = T.pt := by
    simp only [MerkleTree.pt, ← hd]
    refine full_congr _ _ fun i _ hi => ?_
    rw [Nat.zero_add] at hi
    have hu : (UInt32.ofNat i).toNat = i := UInt32.toNat_ofNat_of_lt' (by show i < 4294967296; omega)
    have hg := hm (UInt32.ofNat i) (by rw [hu]; exact hi)
    rw [MerkleTree.slot, MerkleTree.slot, ← hg]
    cases hx : T.map.get (UInt32.ofNat i) with
    | none => rw [he ⟨_, by rw [hu]; exact hi, hx⟩]
    | some e => rfl
  have hme : U.method = T.method := by cases U.method; cases T.method; rfl
  refine ⟨?_, _, _, fromTree_eq T, fromTree_eq U, ?_, fun hl => ?_⟩
  · rw [MerkleTree.intoProofs, MerkleTree.intoProofs, fromTree_eq, fromTree_eq, hpt, ← hd, ← hco, hme]
    rfl
  · rw [hpt, ← hd, ← hco, hme]
  · rw [hpt, ← hd, ← hco, hme, he (free_slot h hl)]

/-- **C97** Nothing protects the rest of a tree: for each tree there is another one which deserializes, with the same
commitment, the same block and the same proofs, but another copy of the messages. -/
theorem C97_unprotected [Env] (T : MerkleTree) : ∃ U : MerkleTree, U ≠ T ∧ U.messages ≠ T.messages ∧
    decMerkleTree U.enc = some (U, []) ∧ U.commitId = T.commitId ∧
    MerkleBlock.fromTree U = MerkleBlock.fromTree T ∧ U.intoProofs = T.intoProofs := by
  have key : ∀ ms : MessageMap, MerkleBlock.fromTree { T with messages := ms } = MerkleBlock.fromTree T := by
    intro ms
    rw [fromTree_eq, fromTree_eq]
    rfl
  have hex : ∃ ms : MessageMap, ms ≠ T.messages := by
    by_cases h : T.messages = ⟨[], by decide, by decide⟩
    · refine ⟨⟨[(Bytes32.fill 0, Bytes32.fill 0)], by decide, by decide⟩, fun e => ?_⟩
      rw [h] at e
      have := congrArg (fun x => x.entries.length) e
      cases this
    · exact ⟨_, fun e => h e.symm⟩
  obtain ⟨ms, hms⟩ := hex
  refine ⟨{ T with messages := ms }, fun e => hms (congrArg MerkleTree.messages e), hms, ?_, ?_, key ms, ?_⟩
  · have := (C38_round_trip []).2.2.2.2.2.1 { T with messages := ms }
    rwa [List.append_nil] at this
  · rw [tree_commitId, tree_commitId]
    rfl
  · rw [MerkleTree.intoProofs, MerkleTree.intoProofs, key ms]

/-- A tree with the first protocol of the sample in its slot and in another one, and the second one in a
wrong slot only. -/
def Sample.badTree : MerkleTree := { Sample.tree with map := ⟨[(0, (Sample.p5, Sample.m5)), (1, (Sample.p1, Sample.m1)),
  (3, (Sample.p1, Sample.m5))], by decide, by decide⟩ }

/-- Non-vacuity of `C97_provable` and `C97_into_proofs`: the tree deserializes, `into_proofs` panics in a debug build. -/
example : decMerkleTree Sample.badTree.enc = some (Sample.badTree, []) ∧ Sample.badTree.seated.count Sample.p1 = 2 ∧
    Sample.badTree.map.get (Sample.badTree.protocolIdPos Sample.p1) = some (Sample.p1, Sample.m1) ∧
    Sample.badTree.map.get (Sample.badTree.protocolIdPos Sample.p5) ≠ some (Sample.p5, Sample.m5) := by
  decide +kernel

/-- Non-vacuity of `C97_source`: a tree with another copy of the messages (free of collisions with the first,
see C60). -/
example [Env] : MerkleTree.tryCommit none Sample.source = .ok (.ok Sample.tree) ∧ Sample.tree' ≠ Sample.tree ∧
    ∃ c, Sample.tree.commitId = .ok c ∧ Sample.tree'.commitId = .ok c :=
  ⟨Sample.commits, by decide, _, tree_commitId _, tree_commitId _⟩

end CSV
