import Verif.Spec.Hiding
import Verif.Props.Proof
import Verif.Props.Conceal

/-!
# How two trees look under two hash functions
-/

namespace CSV

/-- Hidden slots of a tree. -/
def hides (T : MerkleTree) (ps : List ProtocolId) (i : Nat) : Bool :=
  match T.map.get (UInt32.ofNat i) with
  | some (p, _) => !ps.contains p
  | none => true

theorem hiddenLeaves_eq (T : MerkleTree) (ps : List ProtocolId) :
    T.hiddenLeaves ps = ((List.range (2 ^ T.depth.val)).filter (hides T ps)).map T.leafAt := by
  rw [MerkleTree.hiddenLeaves, ← List.filterMap_eq_map, List.filterMap_filter]
  congr 1
  funext i
  cases h : T.map.get (UInt32.ofNat i) with
  | none => simp [hides, MerkleTree.leafAt, h]
  | some e => by_cases hp : e.1 ∈ ps <;> simp [hides, MerkleTree.leafAt, h, hp]

/-- A leaf is in one slot only, whichever of the two trees. -/
theorem leafAt_slot {T1 T2 : MerkleTree} (h1 : T1.Holds) (h2 : T2.Holds) (hd : T1.depth = T2.depth)
    (hc : T1.cofactor = T2.cofactor) {i j : Nat} (hi : i < 2 ^ T1.depth.val) (hj : j < 2 ^ T1.depth.val)
    (h : T1.leafAt i = T2.leafAt j) : i = j := by
  have hw := (widthLimit_pos T1.depth).2
  simp only [widthLimit] at hw
  have ni : (UInt32.ofNat i).toNat = i := UInt32.toNat_ofNat_of_lt' (by show i < 4294967296; omega)
  have nj : (UInt32.ofNat j).toNat = j := UInt32.toNat_ofNat_of_lt' (by show j < 4294967296; omega)
  simp only [MerkleTree.leafAt] at h
  cases e1 : T1.map.get (UInt32.ofNat i) with
  | none =>
    cases e2 : T2.map.get (UInt32.ofNat j) with
    | none =>
      rw [e1, e2] at h
      simp only [Leaf.entropy.injEq] at h
      rw [← ni, h.2, nj]
    | some e => rw [e1, e2] at h; cases h
  | some e =>
    cases e2 : T2.map.get (UInt32.ofNat j) with
    | none => rw [e1, e2] at h; cases h
    | some e' =>
      rw [e1, e2] at h
      have k1 := ((h1 _ _).1 e1).2
      have k2 := ((h2 _ _).1 e2).2
      simp only [Leaf.inhabited.injEq] at h
      rw [ni] at k1
      rw [nj] at k2
      rw [k1, k2, h.1, hd, hc]

theorem root_full {e1 e2 : Env} {f1 f2 : Nat → PT} {w : Nat}
    (hb : ∀ d a b, @branchHash e2 d w a b = @branchHash e1 d w a b) :
    ∀ (n lo d : Nat), (∀ i, lo ≤ i → i < lo + 2 ^ n → ∀ d, @PT.root e1 w (f1 i) d = @PT.root e2 w (f2 i) d) →
    @PT.root e1 w (PT.full f1 n lo) d = @PT.root e2 w (PT.full f2 n lo) d := by
  intro n
  induction n with
  | zero => intro lo d h; exact h lo (Nat.le_refl _) (by omega) d
  | succ n ih =>
    intro lo d h
    have := Nat.two_pow_pos n
    rw [Nat.pow_succ] at h
    simp only [PT.full, PT.root]
    rw [hb, ih lo (d + 1) fun i h1 h2 => h i h1 (by omega),
      ih (lo + 2 ^ n) (d + 1) fun i h1 h2 => h i (by omega) (by omega)]

theorem siblings_full {e1 e2 : Env} {f1 f2 : Nat → PT} {w : Nat}
    (hb : ∀ d a b, @branchHash e2 d w a b = @branchHash e1 d w a b)
    (hs1 : ∀ i d n pos, @PT.siblings e1 w (f1 i) d n pos = [])
    (hs2 : ∀ i d n pos, @PT.siblings e2 w (f2 i) d n pos = []) :
    ∀ (n lo d pos : Nat),
    (∀ i, lo ≤ i → i < lo + 2 ^ n → ∀ d, @PT.root e1 w (f1 i) d = @PT.root e2 w (f2 i) d) →
    @PT.siblings e1 w (PT.full f1 n lo) d n pos = @PT.siblings e2 w (PT.full f2 n lo) d n pos := by
  intro n
  induction n with
  | zero => intro lo d pos h; rw [PT.full, PT.full, hs1, hs2]
  | succ n ih =>
    intro lo d pos h
    have := Nat.two_pow_pos n
    rw [Nat.pow_succ] at h
    have hl : ∀ i, lo ≤ i → i < lo + 2 ^ n → ∀ d, @PT.root e1 w (f1 i) d = @PT.root e2 w (f2 i) d :=
      fun i h1 h2 => h i h1 (by omega)
    have hr : ∀ i, lo + 2 ^ n ≤ i → i < lo + 2 ^ n + 2 ^ n → ∀ d,
        @PT.root e1 w (f1 i) d = @PT.root e2 w (f2 i) d := fun i h1 h2 => h i (by omega) (by omega)
    simp only [PT.full, PT.siblings, Nat.add_sub_cancel]
    rw [root_full hb n lo (d + 1) hl, root_full hb n (lo + 2 ^ n) (d + 1) hr,
      ih lo (d + 1) pos hl, ih (lo + 2 ^ n) (d + 1) _ hr]

theorem canon_full {e1 e2 : Env} {f1 f2 : Nat → PT} {w : Nat} {keep : ProtocolId → Bool}
    (hb : ∀ d a b, @branchHash e2 d w a b = @branchHash e1 d w a b) :
    ∀ (n lo d : Nat), (∀ i, lo ≤ i → i < lo + 2 ^ n → ∀ d, @PT.canon e1 w (@PT.hideLeaves e1 keep (f1 i)) d =
      @PT.canon e2 w (@PT.hideLeaves e2 keep (f2 i)) d) →
    @PT.canon e1 w (@PT.hideLeaves e1 keep (PT.full f1 n lo)) d =
      @PT.canon e2 w (@PT.hideLeaves e2 keep (PT.full f2 n lo)) d := by
  intro n
  induction n with
  | zero => intro lo d h; exact h lo (Nat.le_refl _) (by omega) d
  | succ n ih =>
    intro lo d h
    have := Nat.two_pow_pos n
    rw [Nat.pow_succ] at h
    simp only [PT.full, PT.hideLeaves, PT.canon]
    rw [ih lo (d + 1) fun i h1 h2 => h i h1 (by omega),
      ih (lo + 2 ^ n) (d + 1) fun i h1 h2 => h i (by omega) (by omega)]
    split <;> simp only [hb]

/-- The lengths of the strings hashed for leaves. -/
theorem leafInput_length [Env] (l : Leaf) : (leafInput l).length = 77 ∨ (leafInput l).length = 129 := by
  rw [leafInput, taggedInput_length]
  cases l <;> simp [Leaf.enc, encU64, encU32, encBytes32_length, leBytes_length]

theorem slot_siblings [Env] (T : MerkleTree) (i w d n pos : Nat) :
    (T.slot i).siblings w d n pos = [] := by
  rw [MerkleTree.slot]
  split <;> rfl

theorem full_known [Env] {T : MerkleTree} (hT : T.Holds) {p : ProtocolId} {m : Message}
    (h : T.messages.get p = some m) : p ∈ MerkleBlock.knownProtocolIds
      ⟨T.method, T.depth, T.cofactor, T.pt.frontier 0, some T.entropy⟩ := by
  rw [knownIds_map, shows_known (fromTree_shows T)]
  exact List.mem_map_of_mem (f := Prod.fst) ((holds_known hT).2 (bmapGet_mem h))

section
variable {T1 T2 : MerkleTree} {ps : List ProtocolId} (h1 : T1.Holds) (h2 : T2.Holds) (hd : T1.depth = T2.depth)
  (hc : T1.cofactor = T2.cofactor)
  (hp : ∀ p ∈ ps, ∃ m, T1.messages.get p = some m ∧ T2.messages.get p = some m)
include h1 h2 hd hc hp

/-- A slot that is not hidden holds the same in both trees. -/
theorem shown_slot {i : Nat} (h : hides T1 ps i = false) : ∃ p m, p ∈ ps ∧
    T1.map.get (UInt32.ofNat i) = some (p, m) ∧ T2.map.get (UInt32.ofNat i) = some (p, m) := by
  rw [hides] at h
  cases e : T1.map.get (UInt32.ofNat i) with
  | none => rw [e] at h; cases h
  | some x =>
    obtain ⟨p, m⟩ := x
    rw [e] at h
    have hps : p ∈ ps := by simpa using h
    refine ⟨p, m, hps, rfl, ?_⟩
    obtain ⟨k1, k2⟩ := (h1 _ _).1 e
    obtain ⟨n, g1, g2⟩ := hp p hps
    have : n = m := by
      have := mem_bmapGet T1.messages.sorted k1
      rw [OrdMap.get, this] at g1
      exact (Option.some.inj g1).symm
    subst this
    exact (h2 _ _).2 ⟨bmapGet_mem g2, by rw [k2, hd, hc]⟩

theorem hides_same {i : Nat} (h : hides T1 ps i = true) : hides T2 ps i = true := by
  cases h' : hides T2 ps i with
  | true => rfl
  | false =>
    obtain ⟨p, m, hps, -, g⟩ := shown_slot h2 h1 hd.symm hc.symm
      (fun p hps => by obtain ⟨m, a, b⟩ := hp p hps; exact ⟨m, b, a⟩) h'
    rw [hides, g] at h
    simp [hps] at h

theorem slot_canon2 {e1 e2 : Env} {i w : Nat}
    (hl : @leafHash e1 (T1.leafAt i) = @leafHash e2 (T2.leafAt i)) (d : Nat) :
    @PT.canon e1 w (@PT.hideLeaves e1 ps.contains (@MerkleTree.slot e1 T1 i)) d =
      @PT.canon e2 w (@PT.hideLeaves e2 ps.contains (@MerkleTree.slot e2 T2 i)) d := by
  have key : ∀ (e : Env) (T : MerkleTree), hides T ps i = true →
      @PT.canon e w (@PT.hideLeaves e ps.contains (@MerkleTree.slot e T i)) d =
        .hidden (@leafHash e (T.leafAt i)) := by
    intro e T h
    rw [hides] at h
    rw [MerkleTree.slot, MerkleTree.leafAt]
    cases g : T.map.get (UInt32.ofNat i) with
    | none => rfl
    | some x =>
      rw [g] at h
      have : ps.contains x.1 = false := by simpa using h
      simp only [PT.hideLeaves, this]
      rfl
  cases h : hides T1 ps i with
  | true => rw [key _ _ h, key _ _ (hides_same h1 h2 hd hc hp h), hl]
  | false =>
    obtain ⟨p, m, hps, g1, g2⟩ := shown_slot h1 h2 hd hc hp h
    simp only [MerkleTree.slot, g1, g2, PT.hideLeaves, List.contains_iff_mem.2 hps, if_true, PT.canon]

/-- Trees of one shape with one hash for the leaves of a slot are disclosed in the same way. -/
theorem view_same {e1 e2 : Env} (hm : T1.method = T2.method)
    (hb : ∀ d w a b, @branchHash e2 d w a b = @branchHash e1 d w a b)
    (hcm : ∀ c, @commitmentHash e2 c = @commitmentHash e1 c)
    (hl : ∀ i, i < 2 ^ T1.depth.val → @leafHash e1 (T1.leafAt i) = @leafHash e2 (T2.leafAt i)) :
    SameView e1 e2 T1 T2 ps := by
  have hsr : ∀ (i w : Nat), i < 2 ^ T1.depth.val → ∀ d,
      @PT.root e1 w (@MerkleTree.slot e1 T1 i) d = @PT.root e2 w (@MerkleTree.slot e2 T2 i) d := by
    intro i w hi d
    rw [@slot_root e1, @slot_root e2, hl i hi]
  have hroot : @MerkleTree.specRoot e1 T1 = @MerkleTree.specRoot e2 T2 := by
    simp only [MerkleTree.specRoot, MerkleTree.pt]
    rw [← hd]
    exact root_full (fun d a b => hb d _ a b) _ _ _ fun i _ hi => hsr i _ (by omega)
  obtain ⟨n1, c1, -⟩ := @concealExcept_shows e1 _ _ (@fromTree_shows e1 T1) ps
    (missing_eq_nil.2 fun p hps => by
      obtain ⟨m, a, -⟩ := hp p hps
      exact @full_known e1 _ h1 _ _ a)
  obtain ⟨n2, c2, -⟩ := @concealExcept_shows e2 _ _ (@fromTree_shows e2 T2) ps
    (missing_eq_nil.2 fun p hps => by
      obtain ⟨m, -, a⟩ := hp p hps
      exact @full_known e2 _ h2 _ _ a)
  have hcs : @PT.canon e1 (widthLimit T1.depth) (@PT.hideLeaves e1 ps.contains (@MerkleTree.pt e1 T1)) 0 =
      @PT.canon e2 (widthLimit T2.depth)
        (@PT.hideLeaves e2 ps.contains (@MerkleTree.pt e2 T2)) 0 := by
    simp only [MerkleTree.pt]
    rw [← hd]
    exact canon_full (fun d a b => hb d _ a b) _ _ _ fun i _ hi =>
      slot_canon2 h1 h2 hd hc hp (hl i (by omega))
  refine ⟨_, _, _, n1, n2, _, @fromTree_eq e1 T1, @fromTree_eq e2 T2, c1, ?_,
    @tree_commitId e1 T1, ?_, ?_⟩
  · refine c2.trans ?_
    simp only [hm, hc, hd] at hcs ⊢
    rw [hcs]
  · refine (@tree_commitId e2 T2).trans ?_
    simp only [MerkleTree.specCommitment]
    rw [← hroot, hcm, hd, hc]
  · intro p hps
    obtain ⟨m, a, b⟩ := hp p hps
    refine ⟨_, @C57_proof_content e1 T1 h1 _ ⟨rfl, rfl, rfl, _, @fromTree_shows e1 T1, @view_refl e1 _ _ _⟩ p
      (@full_known e1 _ h1 _ _ a), ?_⟩
    refine (@C57_proof_content e2 T2 h2 _
      ⟨rfl, rfl, rfl, _, @fromTree_shows e2 T2, @view_refl e2 _ _ _⟩ p
      (@full_known e2 _ h2 _ _ b)).trans ?_
    have hpos : T1.protocolIdPos p = T2.protocolIdPos p := by
      simp only [MerkleTree.protocolIdPos, hd, hc]
    simp only [MerkleTree.pt]
    rw [← hpos, ← hd, siblings_full (fun d a b => hb d _ a b) (@slot_siblings e1 T1 · _)
      (@slot_siblings e2 T2 · _) _ _ _ _ fun i _ hi => hsr i _ (by omega), hm, hc]

end

/-! ## Strings that are not leaves -/

/-- Hash functions that agree on all strings but those with the lengths of leaves. -/
def LeavesOnly (e1 e2 : Env) : Prop :=
  ∀ x : Bytes, x.length ≠ 77 → x.length ≠ 129 → e2.sha256 x = e1.sha256 x

theorem LeavesOnly.tagged {e1 e2 : Env} (h : LeavesOnly e1 e2) (tag : String) (ht : (utf8 tag).length < 64)
    (data : Bytes) : @taggedInput e2 tag data = @taggedInput e1 tag data := by
  have : @sha e2 (utf8 tag) = @sha e1 (utf8 tag) := h _ (by omega) (by omega)
  simp only [taggedInput, this]

theorem LeavesOnly.leafInput {e1 e2 : Env} (h : LeavesOnly e1 e2) (l : Leaf) :
    @leafInput e2 l = @leafInput e1 l :=
  h.tagged _ (by decide +kernel) _

theorem LeavesOnly.sha_tagged {e1 e2 : Env} (h : LeavesOnly e1 e2) (tag : String) (ht : (utf8 tag).length < 64)
    (data : Bytes) (h1 : data.length ≠ 13) (h2 : data.length ≠ 65) :
    @sha e2 (@taggedInput e2 tag data) = @sha e1 (@taggedInput e1 tag data) := by
  rw [h.tagged tag ht]
  exact h _ (by rw [@taggedInput_length e1]; omega) (by rw [@taggedInput_length e1]; omega)

theorem LeavesOnly.branchHash {e1 e2 : Env} (h : LeavesOnly e1 e2) (d w : Nat) (a b : MerkleHash) :
    @branchHash e2 d w a b = @branchHash e1 d w a b :=
  h.sha_tagged _ (by decide +kernel) _ (by rw [MerkleNode.enc_length]; omega)
    (by rw [MerkleNode.enc_length]; omega)

theorem LeavesOnly.commitmentHash {e1 e2 : Env} (h : LeavesOnly e1 e2) (c : MerkleConcealed) :
    @commitmentHash e2 c = @commitmentHash e1 c :=
  h.sha_tagged _ (by decide +kernel) _ (by rw [MerkleConcealed.enc_length]; omega)
    (by rw [MerkleConcealed.enc_length]; omega)

/-- An observer answers the same under hash functions that agree on what they ask for. -/
theorem observer_same {α : Type} {e1 e2 : Env} : ∀ (o : Observer α),
    (∀ x ∈ o.asked e1, e2.sha256 x = e1.sha256 x) → o.run e2 = o.run e1 := by
  intro o
  induction o with
  | answer a => intro _; rfl
  | ask x next ih =>
    intro h
    simp only [Observer.asked, List.mem_cons, forall_eq_or_imp] at h
    show (next (e2.sha256 x)).run _ = (next (e1.sha256 x)).run _
    rw [h.1]
    exact ih _ h.2

end CSV
