import Verif.Props.Monotone
import Verif.Props.Reference
import Verif.Spec.Update

/-!
# C100: what changes when one message changes
-/

namespace CSV

theorem slot_siblings [Env] (T : MerkleTree) (i w d n pos : Nat) : (T.slot i).siblings w d n pos = [] := by
  rw [MerkleTree.slot]
  split <;> rfl

theorem full_congr {f g : Nat → PT} : ∀ (n lo : Nat), (∀ i, lo ≤ i → i < lo + 2 ^ n → f i = g i) →
    PT.full f n lo = PT.full g n lo
  | 0, lo, h => h lo (Nat.le_refl _) (by simp)
  | n + 1, lo, h => by
    have h2 : 2 ^ (n + 1) = 2 ^ n + 2 ^ n := by rw [Nat.pow_succ]; omega
    simp only [PT.full]
    rw [full_congr n lo fun i h3 h4 => h i h3 (by omega),
      full_congr n (lo + 2 ^ n) fun i h3 h4 => h i (by omega) (by omega)]

/-- Trees that differ in one slot have the same siblings on the way to it. -/
theorem siblings_own [Env] {f g : Nat → PT} (hf : ∀ i w d n pos, (f i).siblings w d n pos = [])
    (hg : ∀ i w d n pos, (g i).siblings w d n pos = []) (w : Nat) : ∀ (n lo d a : Nat), a < 2 ^ n →
    (∀ i, lo ≤ i → i < lo + 2 ^ n → i ≠ lo + a → f i = g i) →
    (PT.full f n lo).siblings w d n a = (PT.full g n lo).siblings w d n a
  | 0, lo, d, a, _, _ => by simp only [PT.full, hf, hg]
  | n + 1, lo, d, a, ha, h => by
    have h2 : 2 ^ (n + 1) = 2 ^ n + 2 ^ n := by rw [Nat.pow_succ]; omega
    simp only [PT.full, PT.siblings, Nat.add_sub_cancel]
    by_cases hp : 2 ^ n ≤ a
    · rw [if_pos hp, if_pos hp, full_congr n lo fun i h3 h4 => h i h3 (by omega) (by omega),
        siblings_own hf hg w n (lo + 2 ^ n) (d + 1) (a - 2 ^ n) (by omega)
          fun i h3 h4 h5 => h i (by omega) (by omega) (by omega)]
    · rw [if_neg hp, if_neg hp, full_congr n (lo + 2 ^ n) fun i h3 h4 => h i (by omega) (by omega) (by omega),
        siblings_own hf hg w n lo (d + 1) a (by omega) fun i h3 h4 h5 => h i h3 (by omega) h5]

theorem siblings_length [Env] {f : Nat → PT} (hf : ∀ i w d n pos, (f i).siblings w d n pos = [])
    (w : Nat) : ∀ (n lo d a : Nat), ((PT.full f n lo).siblings w d n a).length = n
  | 0, lo, d, a => by simp only [PT.full, hf, List.length_nil]
  | n + 1, lo, d, a => by
    simp only [PT.full, PT.siblings, Nat.add_sub_cancel]
    split <;> simp [siblings_length hf w n]

/-- Climbing from a slot gives the root. -/
theorem climb_full [Env] {f : Nat → PT} (hf : ∀ i w d n pos, (f i).siblings w d n pos = [])
    (D P : Nat) (hD : D ≤ 31) : ∀ (n lo d a : Nat), a < 2 ^ n → d + n ≤ D → P % 2 ^ n = a →
    Reference.climb ((f (lo + a)).root (2 ^ D) (d + n)) D P d ((PT.full f n lo).siblings (2 ^ D) d n a)
      = some ((PT.full f n lo).root (2 ^ D) d)
  | 0, lo, d, a, ha, _, _ => by
    have : a = 0 := by simpa using ha
    subst this
    simp only [PT.full, hf, Reference.climb, Nat.add_zero]
  | n + 1, lo, d, a, ha, hd, hP => by
    have h2 : 2 ^ (n + 1) = 2 ^ n + 2 ^ n := by rw [Nat.pow_succ]; omega
    have hb : P % 2 ^ (n + 1) = P % 2 ^ n + 2 ^ n * (P / 2 ^ n % 2) := by rw [Nat.pow_succ, Nat.mod_mul]
    have hlt : P % 2 ^ n < 2 ^ n := Nat.mod_lt _ (Nat.two_pow_pos _)
    have hbit := Nat.mod_two_eq_zero_or_one (P / 2 ^ n)
    simp only [PT.full, PT.siblings, Nat.add_sub_cancel]
    by_cases hp : 2 ^ n ≤ a
    · have h1 : P / 2 ^ n % 2 = 1 := by
        rcases hbit with h | h
        · rw [h] at hb; omega
        · exact h
      rw [h1] at hb
      have hc := climb_full hf D P hD n (lo + 2 ^ n) (d + 1) (a - 2 ^ n) (by omega) (by omega) (by omega)
      rw [show lo + 2 ^ n + (a - 2 ^ n) = lo + a by omega, show d + 1 + n = d + (n + 1) by omega] at hc
      rw [if_pos hp, Reference.climb, hc, siblings_length hf]
      simp only [Option.bind_eq_bind, Option.bind_some]
      rw [if_neg (by omega), ref_branch _ _ _ _ hD (by omega)]
      rfl
    · have h1 : P / 2 ^ n % 2 = 0 := by
        rcases hbit with h | h
        · exact h
        · rw [h] at hb; omega
      rw [h1] at hb
      have hc := climb_full hf D P hD n lo (d + 1) a (by omega) (by omega) (by omega)
      rw [show d + 1 + n = d + (n + 1) by omega] at hc
      rw [if_neg hp, Reference.climb, hc, siblings_length hf]
      simp only [Option.bind_eq_bind, Option.bind_some]
      rw [if_pos h1, ref_branch _ _ _ _ hD (by omega)]
      rfl

private theorem shift_div {x n i : Nat} (hx : 2 ^ n ≤ x) (hi : i ≤ n) :
    x / 2 ^ i = (x - 2 ^ n) / 2 ^ i + 2 ^ (n - i) := by
  have : x = (x - 2 ^ n) + 2 ^ (n - i) * 2 ^ i := by rw [← Nat.pow_add, Nat.sub_add_cancel hi]; omega
  conv => lhs; rw [this]
  exact Nat.add_mul_div_right _ _ (Nat.two_pow_pos i)

/-- On the way to another slot exactly one sibling is replaced, by what climbing from the changed slot
gives at this level. -/
theorem siblings_other [Env] {f g : Nat → PT} (hf : ∀ i w d n pos, (f i).siblings w d n pos = [])
    (hg : ∀ i w d n pos, (g i).siblings w d n pos = []) (D P : Nat) (hD : D ≤ 31) :
    ∀ (n lo d a q : Nat), a < 2 ^ n → q < 2 ^ n → a ≠ q → d + n ≤ D → P % 2 ^ n = a →
    (∀ i, lo ≤ i → i < lo + 2 ^ n → i ≠ lo + a → f i = g i) →
    ∃ i x, i < n ∧ a / 2 ^ (n - i) = q / 2 ^ (n - i) ∧ a / 2 ^ (n - 1 - i) ≠ q / 2 ^ (n - 1 - i) ∧
      Reference.climb ((g (lo + a)).root (2 ^ D) (d + n)) D P (d + i + 1)
        (((PT.full g n lo).siblings (2 ^ D) d n a).drop (i + 1)) = some x ∧
      (PT.full g n lo).siblings (2 ^ D) d n q = ((PT.full f n lo).siblings (2 ^ D) d n q).set i x
  | 0, lo, d, a, q, ha, hq, hne, _, _, _ => by
    exfalso
    have h1 : a = 0 := by simpa using ha
    have h2 : q = 0 := by simpa using hq
    omega
  | n + 1, lo, d, a, q, ha, hq, hne, hd, hP, h => by
    have h2 : 2 ^ (n + 1) = 2 ^ n + 2 ^ n := by rw [Nat.pow_succ]; omega
    have hb : P % 2 ^ (n + 1) = P % 2 ^ n + 2 ^ n * (P / 2 ^ n % 2) := by rw [Nat.pow_succ, Nat.mod_mul]
    have hlt : P % 2 ^ n < 2 ^ n := Nat.mod_lt _ (Nat.two_pow_pos _)
    have hbit := Nat.mod_two_eq_zero_or_one (P / 2 ^ n)
    simp only [PT.full, PT.siblings, Nat.add_sub_cancel]
    by_cases hp : 2 ^ n ≤ a
    · have h1 : P / 2 ^ n % 2 = 1 := by
        rcases hbit with h | h
        · rw [h] at hb; omega
        · exact h
      rw [h1] at hb
      have hleft := full_congr (f := f) (g := g) n lo fun i h3 h4 => h i h3 (by omega) (by omega)
      by_cases hp' : 2 ^ n ≤ q
      · obtain ⟨i, x, e1, e2, e3, e4, e5⟩ := siblings_other hf hg D P hD n (lo + 2 ^ n) (d + 1) (a - 2 ^ n)
          (q - 2 ^ n) (by omega) (by omega) (by omega) (by omega) (by omega)
          fun i h3 h4 h5 => h i (by omega) (by omega) (by omega)
        rw [show lo + 2 ^ n + (a - 2 ^ n) = lo + a by omega, show d + 1 + n = d + (n + 1) by omega,
          show d + 1 + i + 1 = d + (i + 1) + 1 by omega] at e4
        refine ⟨i + 1, x, by omega, ?_, ?_, ?_, ?_⟩
        · rw [show n + 1 - (i + 1) = n - i by omega, shift_div hp (by omega), shift_div hp' (by omega), e2]
        · rw [show n - (i + 1) = n - 1 - i by omega, shift_div hp (by omega), shift_div hp' (by omega)]
          omega
        · rw [if_pos hp]
          exact e4
        · rw [if_pos hp', if_pos hp', hleft, e5]
          rfl
      · refine ⟨0, (PT.full g n (lo + 2 ^ n)).root (2 ^ D) (d + 1), by omega, ?_, ?_, ?_, ?_⟩
        · rw [Nat.sub_zero, Nat.div_eq_of_lt ha, Nat.div_eq_of_lt hq]
        · rw [Nat.sub_zero, Nat.div_eq_of_lt (a := q) (by omega)]
          have := (Nat.div_pos_iff (a := a) (b := 2 ^ n)).2 ⟨Nat.two_pow_pos n, hp⟩
          omega
        · rw [if_pos hp]
          have hc := climb_full hg D P hD n (lo + 2 ^ n) (d + 1) (a - 2 ^ n) (by omega) (by omega) (by omega)
          rw [show lo + 2 ^ n + (a - 2 ^ n) = lo + a by omega, show d + 1 + n = d + (n + 1) by omega] at hc
          exact hc
        · rw [if_neg hp', if_neg hp', hleft]
          rfl
    · have h1 : P / 2 ^ n % 2 = 0 := by
        rcases hbit with h | h
        · exact h
        · rw [h] at hb; omega
      rw [h1] at hb
      have hright := full_congr (f := f) (g := g) n (lo + 2 ^ n) fun i h3 h4 => h i (by omega) (by omega) (by omega)
      by_cases hp' : 2 ^ n ≤ q
      · refine ⟨0, (PT.full g n lo).root (2 ^ D) (d + 1), by omega, ?_, ?_, ?_, ?_⟩
        · rw [Nat.sub_zero, Nat.div_eq_of_lt ha, Nat.div_eq_of_lt hq]
        · rw [Nat.sub_zero, Nat.div_eq_of_lt (a := a) (by omega)]
          have := (Nat.div_pos_iff (a := q) (b := 2 ^ n)).2 ⟨Nat.two_pow_pos n, hp'⟩
          omega
        · rw [if_neg hp]
          have hc := climb_full hg D P hD n lo (d + 1) a (by omega) (by omega) (by omega)
          rw [show d + 1 + n = d + (n + 1) by omega] at hc
          exact hc
        · rw [if_pos hp', if_pos hp', hright]
          rfl
      · obtain ⟨i, x, e1, e2, e3, e4, e5⟩ := siblings_other hf hg D P hD n lo (d + 1) a q (by omega) (by omega)
          hne (by omega) (by omega) fun i h3 h4 h5 => h i h3 (by omega) h5
        rw [show d + 1 + n = d + (n + 1) by omega, show d + 1 + i + 1 = d + (i + 1) + 1 by omega] at e4
        refine ⟨i + 1, x, by omega, ?_, ?_, ?_, ?_⟩
        · rw [show n + 1 - (i + 1) = n - i by omega, e2]
        · rw [show n - (i + 1) = n - 1 - i by omega]; exact e3
        · rw [if_neg hp]
          exact e4
        · rw [if_neg hp', if_neg hp', hright, e5]
          rfl

/-- The trees of two sources that differ in one message. -/
private theorem updated [Env] (rng : Option UInt64) (s : MultiSource) (T : MerkleTree)
    (h : MerkleTree.tryCommit rng s = .ok (.ok T)) (ms : MessageMap) (p : ProtocolId) (m m' : Message)
    (hp : s.messages.get p = some m) (hp' : ms.get p = some m')
    (ho : ∀ q, q ≠ p → ms.get q = s.messages.get q) :
    ∃ T', MerkleTree.tryCommit rng { s with messages := ms } = .ok (.ok T') ∧ T'.method = T.method ∧
      T'.depth = T.depth ∧ T'.cofactor = T.cofactor ∧ T'.entropy = T.entropy ∧
      (∀ q, T'.protocolIdPos q = T.protocolIdPos q) ∧
      T'.slot (T.protocolIdPos p).toNat = .leaf p m' ∧
      ∀ i, i < 2 ^ T.depth.val → i ≠ (T.protocolIdPos p).toNat → T.slot i = T'.slot i := by
  have hsome : ∀ q, (ms.get q).isSome ↔ (s.messages.get q).isSome := fun q => by
    by_cases e : q = p
    · rw [e, hp, hp']; simp
    · rw [ho q e]
  obtain ⟨sm, -, se, a1, b1, -⟩ := C01_slots rng s T h
  obtain ⟨T', h', -⟩ := C91_fewer rng rng s { s with messages := ms } T h rfl
    (fun q k hq => Option.isSome_iff_exists.1 ((hsome q).1 (by rw [hq]; rfl)))
    (by rw [se]; rfl)
    (Or.inr fun e => by
      have : ms.get p = none := by rw [OrdMap.get, show ms.entries = [] from e]; rfl
      rw [this] at hp'; cases hp')
  obtain ⟨hd, hc, hpos, -⟩ := C91_contents rng rng s { s with messages := ms } T T' h h' rfl hsome
  obtain ⟨sm', -, se', a2, b2, -⟩ := C01_slots rng _ T' h'
  have he : T'.entropy = T.entropy := by
    have : some T.entropy = some T'.entropy := se.symm.trans se'
    exact (Option.some.inj this).symm
  refine ⟨T', h', sm'.trans sm.symm, hd, hc, he, hpos, ?_, ?_⟩
  · have := a2 p m' hp'
    rw [hpos p] at this
    rw [MerkleTree.slot, UInt32.ofNat_toNat, this]
  · intro i hi hne
    have h31 : (2:Nat) ^ T.depth.val ≤ 2 ^ 31 :=
      Nat.pow_le_pow_right (by decide) (by have := T.depth.isLt; omega)
    have hu : (UInt32.ofNat i).toNat = i := UInt32.toNat_ofNat_of_lt' (by show i < 4294967296; omega)
    have hmap : T.map.get (UInt32.ofNat i) = T'.map.get (UInt32.ofNat i) := by
      cases hx : T.map.get (UInt32.ofNat i) with
      | some e =>
        obtain ⟨q, k⟩ := e
        obtain ⟨c1, c2⟩ := b1 _ q k hx
        have hq : q ≠ p := fun e => hne (by rw [← hu, c2, e])
        have := a2 q k ((ho q hq).trans c1)
        rw [hpos q, ← c2] at this
        exact this.symm
      | none =>
        cases hy : T'.map.get (UInt32.ofNat i) with
        | none => rfl
        | some e =>
          obtain ⟨q, k⟩ := e
          obtain ⟨c1, c2⟩ := b2 _ q k hy
          rw [hpos q] at c2
          have hq : q ≠ p := fun e => hne (by rw [← hu, c2, e])
          have := a1 q k ((ho q hq).symm.trans c1)
          rw [← c2, hx] at this
          cases this
    rw [MerkleTree.slot, MerkleTree.slot, hmap, he]

theorem tree_pos_lt (T : MerkleTree) (p : ProtocolId) : (T.protocolIdPos p).toNat < 2 ^ T.depth.val :=
  (C06_position p T.cofactor T.depth).2.1

theorem full_block [Env] {rng : Option UInt64} {s : MultiSource} {T : MerkleTree}
    (h : MerkleTree.tryCommit rng s = .ok (.ok T)) :
    ∃ b, MerkleBlock.fromTree T = .ok b ∧ b.OfTree T ∧
      ∀ p m, s.messages.get p = some m → p ∈ b.knownProtocolIds := by
  obtain ⟨hT, hm, b, hb, hof⟩ := C16_committed_trees rng s T h
  refine ⟨b, hb, hof, fun p m hp => ?_⟩
  rw [fromTree_eq] at hb
  cases hb
  rw [knownIds_map, shows_known (fromTree_shows T)]
  rw [← hm] at hp
  exact List.mem_map.2 ⟨(p, m), (holds_known hT).2 (bmapGet_mem hp), rfl⟩

/-- **C100** A source is committed to again with the message of one protocol replaced. This succeeds with the same depth,
cofactor and slots. The proof of the protocol is the same as before, and with the new message it leads to the new
commitment: a proof tells what the commitment would be with another message. -/
theorem C100_own_proof [Env] (rng : Option UInt64) (s : MultiSource) (T : MerkleTree)
    (h : MerkleTree.tryCommit rng s = .ok (.ok T)) (ms : MessageMap) (p : ProtocolId) (m m' : Message)
    (hp : s.messages.get p = some m) (hp' : ms.get p = some m')
    (ho : ∀ q, q ≠ p → ms.get q = s.messages.get q) :
    ∃ T' b b' pr c c', MerkleTree.tryCommit rng { s with messages := ms } = .ok (.ok T') ∧
      T'.depth = T.depth ∧ T'.cofactor = T.cofactor ∧ (∀ q, T'.protocolIdPos q = T.protocolIdPos q) ∧
      MerkleBlock.fromTree T = .ok b ∧ MerkleBlock.fromTree T' = .ok b' ∧
      b.toMerkleProof p = .ok (.ok pr) ∧ b'.toMerkleProof p = .ok (.ok pr) ∧
      T.commitId = .ok c ∧ T'.commitId = .ok c' ∧
      pr.convolve p m = .ok (.ok c) ∧ pr.convolve p m' = .ok (.ok c') ∧
      (m' ≠ m → NoCollision (proofInputs pr p m ++ proofInputs pr p m') → c' ≠ c) := by
  obtain ⟨T', h', e1, e2, e3, e4, e5, e6, e7⟩ := updated rng s T h ms p m m' hp hp' ho
  obtain ⟨hT, hm, -⟩ := C16_committed_trees rng s T h
  obtain ⟨hT', hm', -⟩ := C16_committed_trees rng _ T' h'
  obtain ⟨b, g1, g2, g3⟩ := full_block h
  obtain ⟨b', g1', g2', g3'⟩ := full_block h'
  have hk := g3 p m hp
  have hk' := g3' p m' hp'
  have hd := T.depth.isLt
  have hc := C57_proof_content T hT b g2 p hk
  have hc' := C57_proof_content T' hT' b' g2' p hk'
  rw [e1, e3, e5 p, MerkleTree.pt, e2, ← siblings_own (slot_siblings T) (slot_siblings T') _ _ 0 0 _ (tree_pos_lt T p)
    (fun i _ h4 h5 => e7 i (by simpa using h4) (by simpa using h5))] at hc'
  obtain ⟨pr, n, c, f1, -, f2, f3, f4, -, -, f5⟩ := C16_complete T hT b g2 p hk
  obtain ⟨pr', n', c', f1', -, f2', f3', f4', -⟩ := C16_complete T' hT' b' g2' p hk'
  have hpr : pr' = pr := by
    rw [hc] at f2
    rw [hc'] at f2'
    cases f2; cases f2'; rfl
  subst hpr
  rw [hm, hp] at f1
  rw [hm'] at f1'
  have f1'' : some m' = some n' := hp'.symm.trans f1'
  cases f1
  cases f1''
  refine ⟨T', b, b', pr', c, c', h', e2, e3, e5, g1, g1', f2, f2', f3, f3', f4, f4', fun hne hn e => ?_⟩
  subst e
  exact hne (C18_binding pr' pr' p m m' c' (by omega) (by omega) hn f4 f4').1.symm

theorem fork_eq {D a b i : Nat} (hi : i < D) (h1 : a / 2 ^ (D - i) = b / 2 ^ (D - i))
    (h2 : a / 2 ^ (D - 1 - i) ≠ b / 2 ^ (D - 1 - i)) : Reference.fork D a b = some i := by
  rw [Reference.fork, List.find?_range_eq_some]
  refine ⟨by simpa using h2, by simpa using hi, fun j hj => ?_⟩
  have : ∀ x, x / 2 ^ (D - 1 - j) = x / 2 ^ (D - i) / 2 ^ (i - 1 - j) := fun x => by
    rw [Nat.div_div_eq_div_mul, ← Nat.pow_add]
    congr 2
    omega
  simp [this, h1]

/-- Two trees of one shape that differ in one slot: the proofs of a protocol in another slot. -/
theorem proofs_differ [Env] {T T' : MerkleTree} (hT : T.Holds) (hT' : T'.Holds) (e1 : T'.method = T.method)
    (e2 : T'.depth = T.depth) (e3 : T'.cofactor = T.cofactor) {p q : ProtocolId}
    (hslots : T.protocolIdPos p ≠ T.protocolIdPos q)
    (e7 : ∀ i, i < 2 ^ T.depth.val → i ≠ (T.protocolIdPos p).toNat → T.slot i = T'.slot i) {b b' : MerkleBlock}
    (g2 : b.OfTree T) (g2' : b'.OfTree T') (hk : q ∈ b.knownProtocolIds) (hk' : q ∈ b'.knownProtocolIds) :
    ∃ own new i x, b.toMerkleProof q = .ok (.ok own) ∧ b'.toMerkleProof q = .ok (.ok new) ∧
      i < T.depth.val ∧ own.pos = T.protocolIdPos q ∧ own.path.length = T.depth.val ∧
      own.pos.toNat / 2 ^ (T.depth.val - i) = (T.protocolIdPos p).toNat / 2 ^ (T.depth.val - i) ∧
      own.pos.toNat / 2 ^ (T.depth.val - 1 - i) ≠ (T.protocolIdPos p).toNat / 2 ^ (T.depth.val - 1 - i) ∧
      new = { own with path := own.path.set i x } ∧
      ∀ leaf, Reference.hash Reference.NODE (Published.Leaf leaf)
          = some ((T'.slot (T.protocolIdPos p).toNat).root (2 ^ T.depth.val) T.depth.val) →
        Reference.follow own.pos.toNat own.path (T.protocolIdPos p).toNat
          (T'.pt.siblings (2 ^ T.depth.val) 0 T.depth.val (T.protocolIdPos p).toNat) leaf = some new.path := by
  have hd := T.depth.isLt
  have e5 : T'.protocolIdPos q = T.protocolIdPos q := by simp only [MerkleTree.protocolIdPos, e2, e3]
  have hc := C57_proof_content T hT b g2 q hk
  have hc' := C57_proof_content T' hT' b' g2' q hk'
  obtain ⟨i, x, i1, i2, i3, i4, i5⟩ := siblings_other (slot_siblings T) (slot_siblings T') T.depth.val
    (T.protocolIdPos p).toNat (by omega) T.depth.val 0 0 _ _ (tree_pos_lt T p) (tree_pos_lt T q)
    (fun e => hslots (UInt32.toNat_inj.1 e)) (by omega)
    (Nat.mod_eq_of_lt (tree_pos_lt T p)) (fun i _ h4 h5 => e7 i (by simpa using h4) (by simpa using h5))
  rw [e1, e3, e5, MerkleTree.pt, e2, i5] at hc'
  rw [MerkleTree.pt] at hc
  simp only [Nat.zero_add] at i4
  have hlen := siblings_length (slot_siblings T) (2 ^ T.depth.val) T.depth.val 0 0 (T.protocolIdPos q).toNat
  refine ⟨_, _, i, x, hc, hc', i1, rfl, hlen, i2.symm, i3.symm, rfl, fun leaf hl => ?_⟩
  dsimp only
  rw [Reference.follow, hlen, fork_eq i1 i2.symm i3.symm, hl, MerkleTree.pt, e2]
  simp only [Option.bind_eq_bind, Option.bind_some, i4]

theorem set_same {α : Type} {l : List α} {i : Nat} {x : α} (h : l[i]? = some x) : l.set i x = l := by
  apply List.ext_getElem?
  intro j
  rw [List.getElem?_set]
  split
  · rename_i e
    subst e
    have := (List.getElem?_eq_some_iff.1 h).1
    rw [if_pos this, h]
  · rfl

/-- **C100** The proof of every other protocol changes in exactly one hash, the one at the level where the ways to the two
slots part. The new hash can be computed from the proof of the protocol whose message was replaced, and from the new message:
whoever keeps a proof can bring it up to date by themselves. Without doing so they cannot use it any more (unless
two different strings hashed have one hash). -/
theorem C100_other_proofs [Env] (rng : Option UInt64) (s : MultiSource) (T : MerkleTree)
    (h : MerkleTree.tryCommit rng s = .ok (.ok T)) (ms : MessageMap) (p q : ProtocolId) (m m' k : Message)
    (hp : s.messages.get p = some m) (hp' : ms.get p = some m')
    (ho : ∀ r, r ≠ p → ms.get r = s.messages.get r) (hne : q ≠ p) (hq : s.messages.get q = some k) :
    ∃ T' b b' own other new c c' i x, MerkleTree.tryCommit rng { s with messages := ms } = .ok (.ok T') ∧
      MerkleBlock.fromTree T = .ok b ∧ MerkleBlock.fromTree T' = .ok b' ∧
      b.toMerkleProof p = .ok (.ok other) ∧ b.toMerkleProof q = .ok (.ok own) ∧
      b'.toMerkleProof q = .ok (.ok new) ∧ T.commitId = .ok c ∧ T'.commitId = .ok c' ∧
      new.convolve q k = .ok (.ok c') ∧
      i < T.depth.val ∧
      own.pos.toNat / 2 ^ (T.depth.val - i) = other.pos.toNat / 2 ^ (T.depth.val - i) ∧
      own.pos.toNat / 2 ^ (T.depth.val - 1 - i) ≠ other.pos.toNat / 2 ^ (T.depth.val - 1 - i) ∧
      new = { own with path := own.path.set i x } ∧
      Reference.follow own.pos.toNat own.path other.pos.toNat other.path (Reference.inhabited p m') = some new.path ∧
      (m' ≠ m → NoCollision (proofInputs other p m ++ proofInputs other p m') →
        own.path[i]? ≠ some x ∧ own.convolve q k = .ok (.ok c) ∧ c ≠ c') := by
  obtain ⟨T', h', e1, e2, e3, e4, e5, e6, e7⟩ := updated rng s T h ms p m m' hp hp' ho
  obtain ⟨U, b0, b0', other, c0, c0', u1, -, -, -, u2, u3, u4, u5, u6, u7, -, -, u8⟩ :=
    C100_own_proof rng s T h ms p m m' hp hp' ho
  obtain ⟨hT, hm, -⟩ := C16_committed_trees rng s T h
  obtain ⟨hT', hm', -⟩ := C16_committed_trees rng _ T' h'
  obtain ⟨b, g1, g2, g3⟩ := full_block h
  obtain ⟨b', g1', g2', g3'⟩ := full_block h'
  rw [h'] at u1
  cases u1
  cases Except.ok.inj (u2.symm.trans g1)
  cases Except.ok.inj (u3.symm.trans g1')
  have hq' : ms.get q = some k := (ho q hne).trans hq
  have hop := C57_proof_content T' hT' b0' g2' p (g3' p m' hp')
  rw [u5, e1, e3, e5 p, e2] at hop
  have hop' := Except.ok.inj (Except.ok.inj hop)
  obtain ⟨own, new, i, x, f2, f2', i1, -, -, i2, i3, hset, hfollow⟩ := proofs_differ hT hT' e1 e2 e3
    (fun e => hne ((C01_slots rng s T h).2.2.2.2.2 q k p m hq hp e.symm)) e7 g2 g2' (g3 q k hq) (g3' q k hq')
  obtain ⟨new', n', c', k1', -, j2', f3', f4', -⟩ := C16_complete T' hT' b0' g2' q (g3' q k hq')
  obtain ⟨own', n, c, k1, -, j2, f3, f4, -⟩ := C16_complete T hT b0 g2 q (g3 q k hq)
  cases Except.ok.inj (Except.ok.inj (j2.symm.trans f2))
  cases Except.ok.inj (Except.ok.inj (j2'.symm.trans f2'))
  rw [hm, hq] at k1
  rw [hm'] at k1'
  have k2 : some k = some n' := hq'.symm.trans k1'
  cases k1
  cases k2
  rw [f3] at u6
  rw [f3'] at u7
  cases u6
  cases u7
  refine ⟨T', b0, b0', own, other, new, _, _, i, x, h', g1, g1', u4, f2, f2', f3, f3', f4', i1, ?_, ?_, hset, ?_, ?_⟩
  · rw [hop']; exact i2
  · rw [hop']; exact i3
  · rw [hop']
    refine hfollow _ ?_
    rw [e6]
    exact ref_leaf (.inhabited p m')
  · intro hmm hn
    have hcc := u8 hmm hn
    refine ⟨fun hx => hcc ?_, f4, hcc.symm⟩
    rw [hset, set_same hx, f4] at f4'
    cases f4'
    rfl

/-- The messages of the sample with that of protocol 1 replaced. -/
private def replaced : MessageMap := ⟨[(Sample.p1, Sample.m5), (Sample.p5, Sample.m5), (Sample.p6, Sample.m6)], by decide, by decide⟩

private theorem replaced_others (r : ProtocolId) (hr : r ≠ Sample.p1) : replaced.get r = Sample.messages.get r := by
  have : ¬ OrdKey.key r = OrdKey.key Sample.p1 := fun e => hr (OrdKey.inj e)
  simp [OrdMap.get, replaced, Sample.messages, bmapGet, this]

/-- Non-vacuity of C100: in the sample the message of protocol 1 is replaced; protocol 5 is elsewhere in the tree. -/
example : MerkleTree.tryCommit none Sample.source = .ok (.ok Sample.tree) ∧
    Sample.source.messages.get Sample.p1 = some Sample.m1 ∧ replaced.get Sample.p1 = some Sample.m5 ∧
    (∀ r, r ≠ Sample.p1 → replaced.get r = Sample.source.messages.get r) ∧
    Sample.p5 ≠ Sample.p1 ∧ Sample.source.messages.get Sample.p5 = some Sample.m5 ∧ Sample.m5 ≠ Sample.m1 :=
  ⟨rfl, rfl, rfl, replaced_others, by decide, rfl, by decide⟩

example : @NoCollision (realEnv true)
    (@proofInputs (realEnv true) (@Sample.proof1 (realEnv true)) Sample.p1 Sample.m1 ++
      @proofInputs (realEnv true) (@Sample.proof1 (realEnv true)) Sample.p1 Sample.m5) := by decide +kernel

end CSV
