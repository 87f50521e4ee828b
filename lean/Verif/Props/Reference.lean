import Verif.Spec.Reference
import Verif.Props.TypeLib
import Verif.Props.Commit
import Verif.Props.Conceal
import Verif.Props.Source
import Verif.Props.Merkle

/-!
# C69: agreement with the published procedure

The procedure is in `Spec/Reference.lean`.
-/

namespace CSV

/-! ## Parameters -/

private theorem find_first {α : Type} (R : α → α → Prop) (hR : ∀ a b, R a b → ¬ R b a) (p : α → Bool) :
    ∀ (l : List α), l.Pairwise R → ∀ a, l.find? p = some a ↔
      a ∈ l ∧ p a = true ∧ ∀ b ∈ l, R b a → p b = false
  | [], _, a => by simp
  | x :: l, hl, a => by
    have hx := (List.pairwise_cons.1 hl).1
    have ih := find_first R hR p l (List.pairwise_cons.1 hl).2 a
    rw [List.find?_cons]
    cases hp : p x with
    | true =>
      simp only [Option.some.injEq, List.mem_cons]
      constructor
      · rintro rfl
        refine ⟨Or.inl rfl, hp, fun b hb hr => ?_⟩
        rcases hb with rfl | hb
        · exact absurd hr (hR _ _ hr)
        · exact absurd hr (hR _ _ (hx b hb))
      · rintro ⟨ha | ha, _, h3⟩
        · exact ha.symm
        · have := h3 x (Or.inl rfl) (hx a ha)
          rw [hp] at this; cases this
    | false =>
      simp only [ih, List.mem_cons]
      constructor
      · rintro ⟨h1, h2, h3⟩
        refine ⟨Or.inr h1, h2, fun b hb hr => ?_⟩
        rcases hb with rfl | hb
        · exact hp
        · exact h3 b hb hr
      · rintro ⟨rfl | h1, h2, h3⟩
        · rw [hp] at h2; cases h2
        · exact ⟨h1, h2, fun b hb => h3 b (Or.inr hb)⟩

private theorem mem_attempts (n minDepth d c : Nat) :
    (d, c) ∈ Reference.attempts n minDepth ↔ Attempt n minDepth d c := by
  simp only [Reference.attempts, List.mem_flatMap, List.mem_range]
  constructor
  · rintro ⟨d', hd, hm⟩
    split at hm
    · rename_i hc
      simp only [List.mem_map, List.mem_range, Prod.mk.injEq] at hm
      obtain ⟨c', hc', rfl, rfl⟩ := hm
      refine ⟨hc.1, by omega, hc.2, ?_⟩
      rw [maxCofactor]
      split at hc'
      · rename_i he; rw [if_pos he]; omega
      · rename_i he
        rw [if_neg he]
        have : 2 ^ d' / 2 = 2 ^ (d' - 1) := by
          have : d' = d' - 1 + 1 := by omega
          rw [this, Nat.pow_succ, Nat.mul_div_cancel _ (by decide)]; simp
        omega
    · simp at hm
  · rintro ⟨h1, h2, h3, h4⟩
    refine ⟨d, by omega, ?_⟩
    rw [if_pos ⟨h1, h3⟩]
    refine List.mem_map.2 ⟨c, List.mem_range.2 ?_, rfl⟩
    rw [maxCofactor] at h4
    split at h4
    · rename_i he; rw [if_pos he]; omega
    · rename_i he
      rw [if_neg he]
      have : 2 ^ d / 2 = 2 ^ (d - 1) := by
        have : d = d - 1 + 1 := by omega
        rw [this, Nat.pow_succ, Nat.mul_div_cancel _ (by decide)]; simp
      omega

private theorem attempts_order (n minDepth : Nat) :
    (Reference.attempts n minDepth).Pairwise fun a b => Earlier a.1 a.2 b.1 b.2 := by
  rw [Reference.attempts, List.pairwise_flatMap]
  constructor
  · intro d _
    split
    · rw [List.pairwise_map]
      exact List.pairwise_lt_range.imp fun h => Or.inr ⟨rfl, h⟩
    · exact .nil
  · refine List.pairwise_lt_range.imp fun {a b} hab x hx y hy => Or.inl ?_
    have e : ∀ (d : Nat) (z : Nat × Nat), z ∈ (if minDepth ≤ d ∧ n ≤ 2 ^ d then
        (List.range ((if d = minDepth then 1 else min (2 ^ d / 2) 500) + 1)).map fun c => (d, c)
        else []) → z.1 = d := by
      intro d z hz
      split at hz
      · simp only [List.mem_map] at hz
        obtain ⟨c, _, rfl⟩ := hz
        rfl
      · simp at hz
    rw [e a x hx, e b y hy]
    exact hab

private theorem parameters_iff (ids : List Bytes32) (minDepth d c : Nat) :
    Reference.parameters ids minDepth = some (d, c) ↔
      Attempt ids.length minDepth d c ∧ Separates ids d c ∧
      ∀ d' c', Attempt ids.length minDepth d' c' → Earlier d' c' d c → ¬ Separates ids d' c' := by
  rw [Reference.parameters, find_first (fun a b : Nat × Nat => Earlier a.1 a.2 b.1 b.2)
    (fun a b h => by unfold Earlier at *; omega) _ _ (attempts_order _ _), mem_attempts]
  have e : ∀ d c, decide (List.Pairwise (fun p q => Reference.slot d c p ≠ Reference.slot d c q) ids)
      = decide (Separates ids d c) := fun _ _ => rfl
  simp only [e, decide_eq_true_eq, decide_eq_false_iff_not, Prod.forall, mem_attempts]

/-! ## Hashes -/

theorem ref_leaf [Env] (l : Leaf) :
    Reference.hash Reference.NODE (Published.Leaf l.val) = some (leafHash l) := by
  rw [C68_hashed.1 l]; rfl

theorem ref_inner [Env] (k : NodeBranching) (kind : String) (hk : k.val = .variant kind) (w d : Nat)
    (l r : Bytes32) (hw : w < 2 ^ 256) (hd : d ≤ 31) :
    Reference.inner kind w d l.bytes r.bytes = some (sha (nodeInput k d w l r)) := by
  have h := C68_hashed.2.1 ⟨k, UInt8.ofNat d, BitVec.ofNat 256 w, l, r⟩
  have e1 : (UInt8.ofNat d).toNat = d := by
    rw [UInt8.toNat_ofNat']; exact Nat.mod_eq_of_lt (by omega)
  have e2 : (BitVec.ofNat 256 w).toNat = w := by
    rw [BitVec.toNat_ofNat]
    exact Nat.mod_eq_of_lt hw
  simp only [MerkleNode.val, e1, e2, Bytes32.val, hk] at h
  rw [Reference.inner, h]
  rfl

theorem ref_branch [Env] (D d : Nat) (l r : Bytes32) (hD : D ≤ 31) (hd : d ≤ 31) :
    Reference.branch D d l r = some (branchHash d (2 ^ D) l r) := by
  rw [Reference.branch, ref_inner .branch _ rfl _ _ _ _ (Nat.pow_lt_pow_right (by decide) (by omega)) hd]
  rfl

private theorem ref_close [Env] (d : U5) (c : UInt16) (root : Bytes32) :
    Reference.close d.val c.toNat root = some (commitmentHash ⟨d, c, root⟩) := by
  have h := C68_hashed.2.2 ⟨d, c, root⟩
  simp only [MerkleConcealed.val, Bytes32.val] at h
  rw [Reference.close, h]
  rfl

private theorem ref_node [Env] (leaves : Nat → Val) (D : Nat) (hD : D ≤ 31) (f : Nat → Leaf) :
    ∀ (h i : Nat), h ≤ D → (∀ j, i * 2 ^ h ≤ j → j < (i + 1) * 2 ^ h → leaves j = (f j).val) →
      Reference.node leaves D h i =
        some ((PT.full (fun i => .hidden (leafHash (f i))) h (i * 2 ^ h)).root (2 ^ D) (D - h))
  | 0, i, _, hl => by
    rw [Reference.node, hl i (by simp) (by simp), ref_leaf]
    simp [PT.full, PT.root]
  | h + 1, i, hh, hl => by
    have e1 : 2 * i * 2 ^ h = i * 2 ^ (h + 1) := by rw [Nat.pow_succ]; ac_rfl
    have e2 : (2 * i + 1) * 2 ^ h = i * 2 ^ (h + 1) + 2 ^ h := by rw [Nat.add_mul, e1, Nat.one_mul]
    have e3 : (i + 1) * 2 ^ (h + 1) = i * 2 ^ (h + 1) + 2 ^ h + 2 ^ h := by
      rw [Nat.add_mul, Nat.one_mul, Nat.pow_succ]; omega
    have e4 : (2 * i + 1 + 1) * 2 ^ h = i * 2 ^ (h + 1) + 2 ^ h + 2 ^ h := by
      rw [Nat.add_mul, e2, Nat.one_mul]
    rw [Reference.node,
      ref_node leaves D hD f h (2 * i) (by omega) (fun j h1 h2 => hl j (by omega) (by omega)),
      ref_node leaves D hD f h (2 * i + 1) (by omega) (fun j h1 h2 => hl j (by omega) (by omega)),
      e1, e2]
    simp only [Option.bind_eq_bind, Option.bind_some]
    rw [ref_branch _ _ _ _ hD (by omega)]
    have e5 : D - (h + 1) + 1 = D - h := by omega
    rw [PT.full, PT.root, e5]

/-! ## C69 -/

private theorem ref_leaves (rng : Option UInt64) (s : MultiSource) (t : MerkleTree)
    (h : MerkleTree.tryCommit rng s = .ok (.ok t)) (i : Nat) (hi : i < 2 ^ t.depth.val) :
    Reference.leaf s.messages.entries t.entropy.toNat t.depth.val t.cofactor.toNat i
      = (t.leafAt i).val := by
  have hd := t.depth.isLt
  have hlt : i < 2 ^ 32 := Nat.lt_of_lt_of_le hi (Nat.pow_le_pow_right (by decide) (by omega))
  have hpos : (UInt32.ofNat i).toNat = i := by
    rw [UInt32.toNat_ofNat']; exact Nat.mod_eq_of_lt hlt
  rw [Reference.leaf]
  split
  · rename_i p m hf
    have hm := List.mem_of_find?_eq_some hf
    have hsl : slotOf p t.cofactor.toNat t.depth.val = i := by
      have := List.find?_some hf
      exact of_decide_eq_true this
    have hg : s.messages.get p = some m := mem_bmapGet s.messages.sorted hm
    rcases C01_leaves rng s t h i hi with ⟨p', m', hg', hs', hl⟩ | ⟨hn, _⟩
    · have : p' = p := by
        have hinj := (C01_slots rng s t h).2.2.2.2.2 p' m' p m hg' hg
        apply hinj
        apply UInt32.toNat_inj.1
        have e1 := (C06_position p' t.cofactor t.depth)
        have e2 := (C06_position p t.cofactor t.depth)
        rw [e1.2.2.2.1 t rfl rfl, e2.2.2.2.1 t rfl rfl, e1.1, e2.1]
        exact hs'.trans hsl.symm
      subst this
      rw [hg] at hg'
      cases hg'
      rw [hl]; rfl
    · exact absurd hsl (hn p m hg)
  · rename_i hf
    rcases C01_leaves rng s t h i hi with ⟨p', m', hg', hs', hl⟩ | ⟨_, hl⟩
    · have hm : (p', m') ∈ s.messages.entries := bmapGet_mem hg'
      have := List.find?_eq_none.1 hf _ hm
      exact absurd (decide_eq_true hs') this
    · rw [hl, Leaf.val, hpos]

/-- **C69** The library commits to a set of messages exactly if the published procedure does, and to
the same value. -/
theorem C69_commit [Env] (rng : Option UInt64) (s : MultiSource) (e : UInt64)
    (he : s.staticEntropy.or rng = some e) (c : Commitment) :
    (∃ t, MerkleTree.tryCommit rng s = .ok (.ok t) ∧ t.commitId = .ok c) ↔
      Reference.commit s.messages.entries s.minDepth.val e.toNat = some c := by
  have forward : ∀ t, MerkleTree.tryCommit rng s = .ok (.ok t) →
      Reference.commit s.messages.entries s.minDepth.val e.toNat
        = some (commitmentHash ⟨t.depth, t.cofactor, t.specRoot⟩) := by
    intro t h
    have hne : ¬ (s.minDepth.val = 0 ∧ s.messages.entries = []) := fun hc => by
      rw [(C03_empty_iff rng s).2 hc] at h
      cases h
    have hp := (parameters_iff s.ids s.minDepth.val _ _).2 (C02_first_fit rng s t h)
    have hent : t.entropy = e := by
      have := (C01_slots rng s t h).2.2.1
      rw [he] at this
      exact (Option.some.inj this).symm
    rw [Reference.commit, if_neg hne]
    have hp' : Reference.parameters (s.messages.entries.map Prod.fst) s.minDepth.val
        = some (t.depth.val, t.cofactor.toNat) := hp
    have hd := t.depth.isLt
    have hn := ref_node (Reference.leaf s.messages.entries t.entropy.toNat t.depth.val t.cofactor.toNat)
      t.depth.val (by omega) t.leafAt t.depth.val 0 (Nat.le_refl _)
      (fun j _ h2 => ref_leaves rng s t h j (by simpa using h2))
    simp only [Option.bind_eq_bind, hp', Option.bind_some, ← hent, hn, ref_close]
    simp [(C09_values t).2.2]
  constructor
  · rintro ⟨t, h, hc⟩
    rw [forward t h]
    rw [(C09_values t).2.1] at hc
    cases hc; rfl
  · intro hr
    have hne : ¬ (s.minDepth.val = 0 ∧ s.messages.entries = []) := fun hc => by
      rw [Reference.commit, if_pos hc] at hr
      cases hr
    obtain ⟨r, h⟩ := C03_no_panic rng s (by rw [he]; rfl)
    cases r with
    | ok t =>
      rw [forward t h] at hr
      refine ⟨t, h, ?_⟩
      rw [(C09_values t).2.1]
      cases hr; rfl
    | error err =>
      exfalso
      cases err with
      | empty => exact hne ((C03_empty_iff rng s).1 h)
      | tooManyMessages n => exact C03_never_too_many rng s n h
      | cantFitInMaxSlots n =>
        have hall := ((C03_cant_fit_iff rng s n (by rw [he]; rfl)).1 h).2
        rw [Reference.commit, if_neg hne] at hr
        simp only [Option.bind_eq_bind] at hr
        cases hp : Reference.parameters (s.messages.entries.map Prod.fst) s.minDepth.val with
        | none => rw [hp] at hr; cases hr
        | some x =>
          obtain ⟨d, k⟩ := x
          have := (parameters_iff _ _ _ _).1 hp
          refine hall d k ?_ this.2.1
          have := this.1
          rwa [List.length_map] at this

private theorem ref_climb [Env] (p : ProtocolId) (m : Message) (D pos : Nat) (hD : D ≤ 31) :
    ∀ (d : Nat) (path : List Bytes32), d + path.length = D →
      Reference.climb (leafHash (.inhabited p m)) D pos d path =
        some ((PT.path p m (pos % 2 ^ path.length) path).root (2 ^ D) d)
  | d, [], _ => rfl
  | d, h :: rest, hl => by
    have hl' : d + 1 + rest.length = D := by simp at hl; omega
    rw [Reference.climb, ref_climb p m D pos hD (d + 1) rest hl']
    simp only [Option.bind_eq_bind, Option.bind_some]
    have hb : pos % 2 ^ (rest.length + 1) = pos % 2 ^ rest.length + 2 ^ rest.length * (pos / 2 ^ rest.length % 2) := by
      rw [Nat.pow_succ, Nat.mod_mul]
    have hlt : pos % 2 ^ rest.length < 2 ^ rest.length := Nat.mod_lt _ (Nat.two_pow_pos _)
    rw [List.length_cons, hb, PT.path]
    have h2 := Nat.mod_two_eq_zero_or_one (pos / 2 ^ rest.length)
    rcases h2 with h2 | h2
    · rw [if_pos h2, h2, if_neg (by simp; omega), ref_branch _ _ _ _ hD (by omega)]
      simp [PT.root]
    · rw [if_neg (by omega), h2, if_pos (by omega), ref_branch _ _ _ _ hD (by omega)]
      simp [PT.root]

/-- **C69** A proof is accepted exactly if the published procedure accepts it, and leads to the same
commitment. -/
theorem C69_verify [Env] (pr : MerkleProof) (hc : pr.Confined) (p : ProtocolId) (m : Message)
    (c : Commitment) :
    pr.convolve p m = .ok (.ok c) ↔
      Reference.verify pr.pos.toNat pr.cofactor.toNat pr.path p m = some c := by
  by_cases hl : pr.path.length < 32
  · have hslot : (protocolIdPos p pr.cofactor (toU5 pr.path.length)).toNat
        = Reference.slot pr.path.length pr.cofactor.toNat p := by
      rw [(C06_position p pr.cofactor (toU5 pr.path.length)).1, toU5_val hl]
      rfl
    rw [convolve_eq pr p m hl]
    by_cases hp : protocolIdPos p pr.cofactor (toU5 pr.path.length) = pr.pos
    · rw [if_neg (by simpa using hp), Reference.verify,
        if_neg (by rw [← hslot, hp]; simp; omega)]
      have hlf : Reference.hash Reference.NODE (Published.Leaf (Reference.inhabited p m))
          = some (leafHash (.inhabited p m)) := ref_leaf (.inhabited p m)
      have hmod : pr.pos.toNat % 2 ^ pr.path.length = pr.pos.toNat := by
        apply Nat.mod_eq_of_lt
        rw [← hp, hslot, Reference.slot]
        have := Nat.two_pow_pos pr.path.length
        exact Nat.lt_of_lt_of_le (Nat.mod_lt _ (by omega)) (by omega)
      have hcl := ref_close (toU5 pr.path.length) pr.cofactor
        ((PT.path p m pr.pos.toNat pr.path).root (2 ^ pr.path.length) 0)
      rw [toU5_val hl] at hcl
      simp only [Option.bind_eq_bind, Option.bind_some, hlf,
        ref_climb p m pr.path.length pr.pos.toNat (by omega) 0 pr.path (by simp), hmod, hcl]
      simp
    · rw [if_pos (by simpa using hp), Reference.verify, if_pos]
      · simp
      · right
        intro e
        apply hp
        apply UInt32.toNat_inj.1
        rw [hslot, e]
  · have hl' : pr.path.length = 32 := by
      have : pr.path.length ≤ 32 := hc
      omega
    rw [convolve_panic pr p m hl', Reference.verify, if_pos (Or.inl (by omega))]
    simp

private theorem ref_subtree [Env] (w : Nat) (hw : w < 2 ^ 256) :
    ∀ (n d : Nat) (l : List Bytes32), n + d ≤ 31 → l.length ≤ 2 ^ (n + 1) →
      Reference.subtree w n d l = some ((MTree.build n l).root w d) := by
  intro n
  induction n with
  | zero =>
    intro d l hd hl
    match l, hl with
    | [], _ => exact ref_inner .void _ rfl w d (Bytes32.fill 0xFF) (Bytes32.fill 0xFF) hw (by omega)
    | [a], _ => exact ref_inner .single _ rfl w d a (Bytes32.fill 0xFF) hw (by omega)
    | [a, b], _ => exact ref_inner .branch _ rfl w d a b hw (by omega)
    | _ :: _ :: _ :: _, h => simp at h
  | succ n ih =>
    intro d l hd hl
    match l, hl with
    | [], _ => exact ref_inner .void _ rfl w d (Bytes32.fill 0xFF) (Bytes32.fill 0xFF) hw (by omega)
    | [a], _ => exact ref_inner .single _ rfl w d a (Bytes32.fill 0xFF) hw (by omega)
    | [a, b], _ => exact ref_inner .branch _ rfl w d a b hw (by omega)
    | a :: b :: c :: rest, h =>
      have h' : (a :: b :: c :: rest).length ≤ 2 * 2 ^ (n + 1) := by rw [Nat.pow_succ] at h; omega
      rw [Reference.subtree, ih (d + 1) _ (by omega) (by rw [List.length_take]; omega),
        ih (d + 1) _ (by omega) (by rw [List.length_drop]; omega)]
      · simp only [Option.bind_eq_bind, Option.bind_some]
        rw [ref_inner .branch _ rfl w d _ _ hw (by omega)]
        rfl
      all_goals simp

/-- **C69** The library has a merkle root for a list of leaves exactly if the published procedure has, and
the same. -/
theorem C69_merkle_root [Env] (leaves : List MerkleHash) (h : MerkleHash) :
    merklizeHashes leaves = .ok h ↔ Reference.merkleRoot leaves = some h := by
  by_cases hw : leaves.length < 2 ^ 32
  · rw [merklizeHashes_eq hw]
    have hs := ref_subtree leaves.length (Nat.lt_trans hw (by decide)) 31 0 leaves (by omega) (by omega)
    rw [build_eq_of (n := 31) (by omega)] at hs
    match leaves, hw, hs with
    | [], _, hs => rw [Reference.merkleRoot, if_pos (by simp), hs]; simp [listRoot]; simp
    | [a], _, _ => simp [Reference.merkleRoot, listRoot]
    | a :: b :: l, hw, hs => rw [Reference.merkleRoot, if_pos hw, hs]; simp [listRoot]; simp
  · match leaves, hw with
    | [], hw => exact absurd (by simp) hw
    | [a], hw => exact absurd (by simp) hw
    | a :: b :: l, hw =>
      rw [(C32_limits (a :: b :: l)).2 (by omega), Reference.merkleRoot, if_neg hw]
      · simp
      · simp

/-- **C69** Two implementations work together: whatever the library commits to, the published procedure
verifies with the proofs of the library against the value it computes itself, and it accepts nothing but
the messages of the source (unless two different strings hashed have one hash). -/
theorem C69_interoperable [Env] (rng : Option UInt64) (s : MultiSource) (e : UInt64)
    (he : s.staticEntropy.or rng = some e) (T : MerkleTree)
    (h : MerkleTree.tryCommit rng s = .ok (.ok T)) :
    ∃ c, Reference.commit s.messages.entries s.minDepth.val e.toNat = some c ∧
      (∃ l, T.intoProofs = .ok l ∧ (∀ p m, s.messages.get p = some m → ∃ pr, (p, pr) ∈ l) ∧
        ∀ p pr, (p, pr) ∈ l → ∃ m, s.messages.get p = some m ∧
          Reference.verify pr.pos.toNat pr.cofactor.toNat pr.path p m = some c) ∧
      ∀ (pr : MerkleProof) p m, pr.Confined →
        Reference.verify pr.pos.toNat pr.cofactor.toNat pr.path p m = some c →
        NoCollision (proofInputs pr p m ++ T.inputs) → s.messages.get p = some m := by
  obtain ⟨hT, hm, b, hb, hof⟩ := C16_committed_trees rng s T h
  rw [fromTree_eq] at hb
  cases hb
  obtain ⟨l, c, h1, h2, h3, h4⟩ := C16_into_known_proofs T hT _ hof
  obtain ⟨l', c', g1, g2, g3, -⟩ := C16_into_proofs T hT
  have hl : T.intoProofs = .ok l := by rw [MerkleTree.intoProofs, fromTree_eq]; exact h1
  rw [hl] at g1
  cases g1
  refine ⟨c, (C69_commit rng s e he c).1 ⟨T, h, h2⟩, ⟨l, hl, ?_, fun p pr hp => ?_⟩, ?_⟩
  · rw [← hm]; exact g3
  · obtain ⟨m, h5, h6, h7⟩ := h4 p pr hp
    rw [← hm]
    refine ⟨m, h5, (C69_verify pr ?_ p m c).1 h6⟩
    have hk := List.mem_map_of_mem (f := Prod.fst) hp
    rw [h3] at hk
    obtain ⟨pr', -, -, -, -, k1, -, -, -, -, k2⟩ := C16_complete T hT _ hof p hk
    rw [h7] at k1
    cases k1
    have := T.depth.isLt
    show pr.path.length ≤ 32
    omega
  · intro pr p m hl' hv hn
    exact (C21_source rng s T c h h2).2 pr p m hl' ((C69_verify pr hl' p m c).2 hv) hn

/-- Non-vacuity of C69: the sample is committed to, the second attempt being the first that separates. -/
example [Env] : Sample.source.staticEntropy.or none = some 77 ∧
    MerkleTree.tryCommit none Sample.source = .ok (.ok Sample.tree) ∧
    Reference.parameters Sample.source.ids 2 = some (2, 1) ∧
    (∃ c, Reference.commit Sample.source.messages.entries 2 77 = some c) := by
  refine ⟨rfl, Sample.commits, by decide +kernel, ?_⟩
  obtain ⟨c, hc, -⟩ := C69_interoperable none Sample.source 77 rfl Sample.tree Sample.commits
  exact ⟨c, hc⟩

/-- The procedure refuses what the library refuses: nothing to commit to, a wrong position. -/
example [Env] : Reference.commit [] 0 77 = none ∧
    Reference.verify 1 0 [Bytes32.fill 7, Bytes32.fill 8] (Bytes32.fill 0) (Bytes32.fill 1) = none := by
  constructor
  · simp [Reference.commit]
  · rw [Reference.verify, if_pos (Or.inr (by decide +kernel))]; rfl

end CSV
