import Verif.Spec.Smallest
import Verif.Props.Disclose
import Verif.Props.Size

/-!
# C111: the smallest disclosure
-/

namespace CSV

private theorem range_split (k : Nat) : List.range (2 ^ (k + 1)) = List.range (2 ^ k) ++ (List.range (2 ^ k)).map (2 ^ k + ·) := by
  rw [Nat.pow_succ, Nat.mul_two, List.range_add]

private theorem nodesAbove_congr {n : Nat} {A B : List Nat} (h : ∀ s, s ∈ A ↔ s ∈ B) (k : Nat) :
    nodesAbove n A k = nodesAbove n B k := by
  unfold nodesAbove
  congr 2
  funext x
  rw [Bool.eq_iff_iff]
  simp [h]

private theorem nodesAbove_zero {n : Nat} {A : List Nat} (hA : A ≠ []) (h : ∀ s ∈ A, s < 2 ^ n) : nodesAbove n A 0 = 1 := by
  obtain ⟨s, A, rfl⟩ := List.exists_cons_of_ne_nil hA
  have : s / 2 ^ n = 0 := Nat.div_eq_of_lt (h s (by simp))
  simp [nodesAbove, this]

private theorem nodesAbove_succ {n k : Nat} (hk : k < n) {A B : List Nat} (hA : ∀ s ∈ A, s < 2 ^ n) :
    nodesAbove (n + 1) (A ++ B.map (2 ^ n + ·)) (k + 1) = nodesAbove n A k + nodesAbove n B k := by
  have hp : 2 ^ n = 2 ^ (n - k) * 2 ^ k := by rw [← Nat.pow_add]; congr 1; omega
  have hpos : 0 < 2 ^ (n - k) := Nat.two_pow_pos _
  have hlt : ∀ s, s < 2 ^ n → s / 2 ^ (n - k) < 2 ^ k := fun s hs => by
    rw [Nat.div_lt_iff_lt_mul hpos, Nat.mul_comm, ← hp]; exact hs
  have hadd : ∀ s, (2 ^ n + s) / 2 ^ (n - k) = 2 ^ k + s / 2 ^ (n - k) := fun s => by
    rw [hp, Nat.mul_add_div hpos]
  unfold nodesAbove
  rw [range_split, List.filter_append, List.length_append, List.filter_map, List.length_map,
    show n + 1 - (k + 1) = n - k by omega]
  congr 2
  · refine List.filter_congr fun x hx => ?_
    rw [Bool.eq_iff_iff]
    simp only [List.any_append, List.any_map, Bool.or_eq_true, List.any_eq_true, Function.comp, beq_iff_eq, hadd]
    refine ⟨?_, Or.inl⟩
    rintro (h | ⟨s, -, h⟩)
    · exact h
    · rw [← h] at hx
      exact absurd (List.mem_range.1 hx) (Nat.not_lt.2 (Nat.le_add_right ..))
  · refine List.filter_congr fun x hx => ?_
    rw [Bool.eq_iff_iff]
    simp only [List.any_append, List.any_map, Bool.or_eq_true, List.any_eq_true, Function.comp, beq_iff_eq, hadd]
    constructor
    · rintro (⟨s, hs, h⟩ | ⟨s, hs, h⟩)
      · have := hlt s (hA s hs)
        omega
      · exact ⟨s, hs, by omega⟩
    · rintro ⟨s, hs, h⟩
      exact .inr ⟨s, hs, by omega⟩

private theorem slots_shift : ∀ (t : PT) (n lo : Nat), (t.slots n lo).map Prod.fst = ((t.slots n 0).map Prod.fst).map (lo + ·) := by
  intro t
  induction t with
  | hidden h => intro n lo; rfl
  | leaf p m => intro n lo; rfl
  | node l r ihl ihr =>
    intro n lo
    simp only [PT.slots, List.map_append, Nat.zero_add]
    rw [ihl (n - 1) lo, ihr (n - 1) (lo + 2 ^ (n - 1)), ihr (n - 1) (2 ^ (n - 1))]
    simp [Function.comp_def, Nat.add_assoc]

private theorem slots_below {D : Nat} : ∀ {t : PT} {d n : Nat}, t.Fits D D d → d + n = D →
    ∀ s ∈ (t.slots n 0).map Prod.fst, s < 2 ^ n := by
  intro t
  induction t with
  | hidden h => intro d n _ _ s hs; simp [PT.slots] at hs
  | leaf p m =>
    intro d n _ _ s hs
    simp only [PT.slots, List.map_cons, List.map_nil, List.mem_singleton] at hs
    rw [hs]
    exact Nat.two_pow_pos _
  | node l r ihl ihr =>
    intro d n hf hd s hs
    have hn : n ≠ 0 := by
      rintro rfl
      have : ∀ {t : PT} {e : Nat}, t.Fits D D e → e ≤ D := by
        intro t
        induction t with
        | hidden h => intro e h; exact h
        | leaf p m => intro e h; exact Nat.le_of_eq h
        | node l r ihl _ => intro e h; have := ihl h.1; omega
      have := this hf.1
      omega
    obtain ⟨k, rfl⟩ : ∃ k, n = k + 1 := ⟨n - 1, by omega⟩
    simp only [PT.slots, List.map_append, Nat.zero_add, Nat.add_sub_cancel] at hs
    rw [slots_shift r] at hs
    rw [Nat.pow_succ]
    rcases List.mem_append.1 hs with h | h
    · have := ihl hf.1 (by omega) s h
      omega
    · obtain ⟨x, hx, rfl⟩ := List.mem_map.1 h
      have := ihr hf.2 (by omega) x hx
      omega

private theorem sum_add (l : List Nat) (f g : Nat → Nat) : (l.map fun k => f k + g k).sum = (l.map f).sum + (l.map g).sum := by
  induction l with
  | nil => rfl
  | cons x l ih => simp only [List.map_cons, List.sum_cons, ih]; omega

private theorem minimal_nodes {D : Nat} : ∀ {t : PT} {d n : Nat}, t.Minimal → t.Fits D D d → d + n = D →
    (t.frontier d).length = 1 + ((List.range n).map (nodesAbove n ((t.slots n 0).map Prod.fst))).sum := by
  intro t
  induction t with
  | hidden h =>
    intro d n _ _ _
    have : ∀ l : List Nat, (l.map (nodesAbove n [])).sum = 0 := by
      intro l
      induction l with
      | nil => rfl
      | cons x l ih => simp only [List.map_cons, List.sum_cons, ih]; simp [nodesAbove]
    simp [PT.frontier, PT.slots, this]
  | leaf p m =>
    intro d n _ hf hd
    have : d = D := hf
    obtain rfl : n = 0 := by omega
    simp [PT.frontier]
  | node l r ihl ihr =>
    intro d n hm hf hd
    have hb := slots_below hf hd
    have hne : n ≠ 0 := by
      rintro rfl
      have : ∀ {t : PT} {e : Nat}, t.Fits D D e → e ≤ D := by
        intro t
        induction t with
        | hidden h => intro e h; exact h
        | leaf p m => intro e h; exact Nat.le_of_eq h
        | node l r ihl _ => intro e h; have := ihl h.1; omega
      have := this hf.1
      omega
    obtain ⟨k, rfl⟩ : ∃ k, n = k + 1 := ⟨n - 1, by omega⟩
    have hnil : ((PT.node l r).slots (k + 1) 0).map Prod.fst ≠ [] := by
      intro h
      have h1 : (PT.node l r).slots (k + 1) 0 = [] := List.map_eq_nil_iff.1 h
      have h2 := slots_known (t := .node l r) (n := k + 1) (lo := 0)
      rw [h1] at h2
      have hz : ∀ {t : PT}, t.Minimal → t.known = [] → t.isHidden = true := by
        intro t
        induction t with
        | hidden h => intro _ _; rfl
        | leaf p m => intro _ h; cases h
        | node a b iha ihb =>
          intro hm hk
          obtain ⟨e1, e2⟩ := List.append_eq_nil_iff.1 hk
          exact absurd ⟨iha hm.2.1 e1, ihb hm.2.2 e2⟩ hm.1
      cases hz hm h2.symm
    have e1 := ihl hm.2.1 hf.1 (show d + 1 + k = D by omega)
    have e2 := ihr hm.2.2 hf.2 (show d + 1 + k = D by omega)
    have hl := slots_below hf.1 (show d + 1 + k = D by omega)
    rw [List.range_succ_eq_map, List.map_cons, List.sum_cons, nodesAbove_zero hnil hb, List.map_map]
    have hs : ((PT.node l r).slots (k + 1) 0).map Prod.fst =
        (l.slots k 0).map Prod.fst ++ ((r.slots k 0).map Prod.fst).map (2 ^ k + ·) := by
      simp only [PT.slots, List.map_append, Nat.zero_add, Nat.add_sub_cancel]
      rw [slots_shift r k (2 ^ k)]
    have hc : (List.range k).map (nodesAbove (k + 1) (((PT.node l r).slots (k + 1) 0).map Prod.fst) ∘ Nat.succ) =
        (List.range k).map fun j => nodesAbove k ((l.slots k 0).map Prod.fst) j +
          nodesAbove k ((r.slots k 0).map Prod.fst) j := by
      refine List.map_congr_left fun j hj => ?_
      rw [Function.comp, hs]
      exact nodesAbove_succ (List.mem_range.1 hj) hl
    rw [hc, sum_add, PT.frontier, List.length_append, e1, e2]
    omega

private theorem hide_length [Env] {f : ProtocolId → Bool} : ∀ {t : PT} {d : Nat},
    ((t.hideLeaves f).frontier d).length = (t.frontier d).length := by
  intro t
  induction t with
  | hidden h => intro d; rfl
  | leaf p m =>
    intro d
    simp only [PT.hideLeaves]
    split <;> rfl
  | node l r ihl ihr => intro d; simp only [PT.hideLeaves, PT.frontier, List.length_append, ihl, ihr]

private theorem canon_length [Env] {w : Nat} : ∀ {t : PT} {d : Nat},
    ((t.canon w d).frontier d).length ≤ (t.frontier d).length ∧
    (((t.canon w d).frontier d).length = (t.frontier d).length → t.canon w d = t) := by
  intro t
  induction t with
  | hidden h => intro d; exact ⟨Nat.le_refl _, fun _ => rfl⟩
  | leaf p m => intro d; exact ⟨Nat.le_refl _, fun _ => rfl⟩
  | node l r ihl ihr =>
    intro d
    obtain ⟨l1, l2⟩ := ihl (d := d + 1)
    obtain ⟨r1, r2⟩ := ihr (d := d + 1)
    simp only [PT.canon]
    split
    · rename_i h1 h2 e1 e2
      rw [e1] at l1
      rw [e2] at r1
      simp only [PT.frontier, List.length_append, List.length_singleton] at l1 r1 ⊢
      exact ⟨by omega, fun h => by omega⟩
    · simp only [PT.frontier, List.length_append]
      refine ⟨by omega, fun h => ?_⟩
      rw [l2 (by omega), r2 (by omega)]

private theorem hide_join [Env] {f : ProtocolId → Bool} : ∀ {t : PT} {w d : Nat},
    t.join ((t.hideLeaves f).canon w d) = t := by
  intro t
  induction t with
  | hidden h => intro w d; rfl
  | leaf p m =>
    intro w d
    simp only [PT.hideLeaves]
    split <;> rfl
  | node l r ihl ihr =>
    intro w d
    have hl := ihl (w := w) (d := d + 1)
    have hr := ihr (w := w) (d := d + 1)
    simp only [PT.hideLeaves, PT.canon]
    split
    · rfl
    · simp only [PT.join, hl, hr]

private theorem hide_all [Env] {f : ProtocolId → Bool} : ∀ {t : PT}, (t.hideLeaves f).known.length = t.known.length →
    t.hideLeaves f = t := by
  have hle : ∀ {t : PT}, (t.hideLeaves f).known.length ≤ t.known.length := fun {t} => by
    rw [PT.known_hideLeaves]
    exact List.length_filter_le ..
  intro t
  induction t with
  | hidden h => intro _; rfl
  | leaf p m =>
    intro h
    simp only [PT.hideLeaves] at h ⊢
    split at h
    · rw [if_pos ‹_›]
    · simp [PT.known] at h
  | node l r ihl ihr =>
    intro h
    have a := hle (t := l)
    have b := hle (t := r)
    simp only [PT.hideLeaves, PT.known, List.length_append] at h ⊢
    rw [ihl (by omega), ihr (by omega)]

/-- **C111** Of all blocks of a committed tree that reveal some protocols, the one with all others concealed has the
fewest nodes, and it is the only one with the shortest serialization. It can be obtained from each of the others,
and adds nothing to them. -/
theorem C111_smallest [Env] (T : MerkleTree) (hT : T.Holds) (b r : MerkleBlock) (hb : b.OfTree T)
    (ps : List ProtocolId) (n : Nat) (hr : b.concealExcept ps = .ok (r, .ok n)) (o : MerkleBlock) (ho : o.OfTree T)
    (hps : ∀ p ∈ ps, p ∈ o.knownProtocolIds) :
    r.crossSection.length ≤ o.crossSection.length ∧ r.enc.length ≤ o.enc.length ∧
    (r.enc.length = o.enc.length → o = r) ∧
    (∃ k, o.concealExcept ps = .ok (r, .ok k)) ∧ ∃ k, o.mergeReveal r = .ok (o, .ok k) := by
  have ⟨hm, hd, hc, u, hs, hv⟩ := ho
  rcases concealExcept_cases hs ps with ⟨k, -, e, es, -⟩ | ⟨q, hq, hk, -⟩
  · have er := C12_canonical T hT o b _ r ho hb ps ps k n (fun _ => Iff.rfl) e hr
    rw [er] at e es
    have ecs : r.crossSection = ((u.hideLeaves ps.contains).canon (2 ^ o.depth.val) 0).frontier 0 := es.1
    obtain ⟨g1, g2⟩ := canon_length (w := 2 ^ o.depth.val) (t := u.hideLeaves ps.contains) (d := 0)
    rw [hide_length] at g1 g2
    have hlen : r.crossSection.length ≤ o.crossSection.length := by rw [ecs, hs.1]; exact g1
    have hkn : r.knownMessages.length ≤ o.knownMessages.length := by
      rw [(C11_reveals_exactly o r ⟨u, hs⟩ ps k e).1]
      exact List.length_filter_le ..
    have hent : r.entropy = none := (C11_reveals_exactly o r ⟨u, hs⟩ ps k e).2.2.2.1
    have hb1 := C66_block_bytes r
    have hb2 := C66_block_bytes o
    rw [hent] at hb1
    simp only [Option.isSome_none, Bool.false_eq_true, if_false] at hb1
    have h9 : 9 ≤ (if o.entropy.isSome then 17 else 9) := by split <;> omega
    refine ⟨hlen, by omega, fun he => ?_, ⟨k, e⟩, ?_⟩
    · have h1 : r.crossSection.length = o.crossSection.length := by omega
      have h2 : r.knownMessages.length = o.knownMessages.length := by omega
      have h3 : o.entropy = none := by
        cases ho : o.entropy with
        | none => rfl
        | some x =>
          rw [ho] at hb2
          simp only [Option.isSome_some, if_true] at hb2
          omega
      have h4 := g2 (by rw [← ecs, ← hs.1]; exact h1)
      have h5 : u.hideLeaves ps.contains = u := by
        refine hide_all ?_
        rw [shows_known es, shows_known hs, PT.known_canon] at h2
        exact h2
      rw [← er, h4, h5, ← hs.1]
      cases o
      simp only at h3
      rw [h3]
    · obtain ⟨e1, -, -⟩ := merge_view hs es hd hc (er ▸ hd) (er ▸ hc) hv (by rw [hd]; exact view_canon (view_hide hv))
      rw [hide_join, ← hs.1] at e1
      exact ⟨_, e1⟩
  · exact absurd (hps q hq) hk

/-- **C111** The same for any structurally valid block with the commitment, wherever it comes from (no collision among
the strings hashed): nobody can reveal these protocols with fewer nodes or bytes. -/
theorem C111_received [Env] (T : MerkleTree) (hT : T.Holds) (b r : MerkleBlock) (hb : b.OfTree T)
    (ps : List ProtocolId) (n : Nat) (hr : b.concealExcept ps = .ok (r, .ok n)) (o : MerkleBlock) (u : PT)
    (ho : o.Shows u) (hc : o.commitId = b.commitId)
    (hn : NoCollision (blockInputs o.depth o.cofactor u ++ T.inputs))
    (hps : ∀ p ∈ ps, p ∈ o.knownProtocolIds) :
    r.crossSection.length ≤ o.crossSection.length ∧ r.enc.length ≤ o.enc.length ∧
    (r.enc.length = o.enc.length → o = r) := by
  rw [shows_commitId ho, ofTree_commitId hb] at hc
  obtain ⟨h1, h2, h3⟩ := view_of_commitment ho hn (Except.ok.inj hc)
  obtain ⟨g1, g2, g3, -⟩ := C111_smallest T hT b r hb ps n hr o ⟨rfl, h1, h2, u, ho, h3⟩ hps
  exact ⟨g1, g2, g3⟩

/-- **C111** How many nodes are needed: one more than there are inner nodes of the tree above the slots of the
protocols revealed. -/
theorem C111_nodes [Env] (T : MerkleTree) (hT : T.Holds) (b r : MerkleBlock) (hb : b.OfTree T)
    (ps : List ProtocolId) (n : Nat) (hr : b.concealExcept ps = .ok (r, .ok n)) :
    r.crossSection.length = 1 + ((List.range T.depth.val).map
      (nodesAbove T.depth.val (ps.map fun p => slotOf p T.cofactor.toNat T.depth.val))).sum := by
  have ⟨hm, hd, hc, t, hs, hv⟩ := hb
  obtain ⟨g1, g2, g3, -⟩ := C11_reveals_exactly b r ⟨t, hs⟩ ps n hr
  rcases concealExcept_cases hs ps with ⟨k, -, e, es, -⟩ | ⟨q, hq, hk, e, -⟩
  · rw [e] at hr
    have er := (Prod.mk.inj (Except.ok.inj hr)).1
    rw [er] at es
    have hdr : r.depth = T.depth := er ▸ hd
    have hf := es.2
    rw [hdr] at hf
    have hv' : ((t.hideLeaves ps.contains).canon (2 ^ b.depth.val) 0).View (2 ^ T.depth.val) T.pt 0 := by
      rw [hd]; exact view_canon (view_hide hv)
    have hmin : ((t.hideLeaves ps.contains).canon (2 ^ b.depth.val) 0).Minimal := PT.minimal_canon
    rw [es.1, minimal_nodes (n := T.depth.val) hmin hf (Nat.zero_add _)]
    congr 2
    refine List.map_congr_left fun j _ => nodesAbove_congr (fun s => ?_) j
    have hkn := shows_known es
    rw [← slots_known (n := T.depth.val) (lo := 0)] at hkn
    rw [List.mem_map, List.mem_map]
    constructor
    · rintro ⟨⟨i, p, m⟩, hi, rfl⟩
      have hp : (p, m) ∈ r.knownMessages := by rw [hkn]; exact List.mem_map_of_mem (f := Prod.snd) hi
      rw [g1, List.mem_filter] at hp
      exact ⟨p, by simpa using hp.2, ((holds_slots hT).mp (view_slots hv' hi)).2.symm⟩
    · rintro ⟨p, hp, rfl⟩
      have := g3 p hp
      rw [knownIds_map, hkn, List.map_map] at this
      obtain ⟨⟨i, q, m⟩, hi, he⟩ := List.mem_map.1 this
      simp only [Function.comp] at he
      subst he
      exact ⟨_, hi, ((holds_slots hT).mp (view_slots hv' hi)).2⟩
  · rw [e] at hr
    cases hr

/-- Non-vacuity of C111: a block of the sample tree that reveals more than asked for, and is larger. -/
example [Env] : ∃ r n, Sample.block.concealExcept [Sample.p5] = .ok (r, .ok n) ∧
    Sample.p5 ∈ Sample.block.knownProtocolIds ∧ r.crossSection.length < Sample.block.crossSection.length := by
  rcases concealExcept_cases (b := Sample.block) Sample.valid.choose_spec [Sample.p5] with ⟨n, hk, e, -⟩ | ⟨q, hq, hk, -⟩
  · refine ⟨_, n, e, hk _ (by simp), ?_⟩
    have := C111_nodes Sample.tree Sample.holds Sample.block _ Sample.view_block [Sample.p5] n e
    rw [this, show Sample.block.crossSection.length = 4 from rfl]
    decide
  · obtain rfl := List.mem_singleton.1 hq
    rw [show Sample.block.knownProtocolIds = [Sample.p6, Sample.p1, Sample.p5] from rfl] at hk
    exact absurd (by simp) hk

end CSV
