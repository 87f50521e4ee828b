import Verif.Spec.Network
import Verif.Props.Disclose

/-!
# C108: parties who exchange blocks and proofs of one commitment, in any order
-/

namespace CSV

private theorem known_iff {b : MerkleBlock} {p : ProtocolId} : p ∈ b.knownProtocolIds ↔ ∃ m, (p, m) ∈ b.knownMessages := by
  rw [knownIds_map, List.mem_map]
  exact ⟨fun ⟨⟨q, m⟩, h, e⟩ => ⟨m, e ▸ h⟩, fun ⟨m, h⟩ => ⟨_, h, rfl⟩⟩

private theorem step_net [Env] {T : MerkleTree} (hT : T.Holds) {s : Net} (hs : ∀ i, (s i).OfTree T) (ev : Event)
    (ha : ∀ i op, ev = .act i op → op.Admissible T) :
    ∃ s', ev.step s = .ok s' ∧ (∀ i, (s' i).OfTree T) ∧
      ∀ k e, e ∈ (s' k).knownMessages ↔ ev.learn T.specCommitment (fun k e => e ∈ (s k).knownMessages) k e := by
  have hset : ∀ (j : Nat) (b : MerkleBlock), b.OfTree T → ∀ i, (s.set j b i).OfTree T := by
    intro j b hb i
    unfold Net.set
    split
    · exact hb
    · exact hs i
  cases ev with
  | share i j =>
    obtain ⟨b, n, h1, h2, h3⟩ := C23_of_tree T (s j) (s i) (hs j) (hs i)
    refine ⟨s.set j b, by simp only [Event.step, h1, ok_bind], hset j b h2, fun k e => ?_⟩
    simp only [Event.learn, Net.set]
    split
    · rename_i h
      subst h
      rw [h3]
      simp
    · rename_i h
      simp [h]
  | disclose i j ps =>
    obtain ⟨hm, hd, hc, t, hsh, hv⟩ := hs i
    rcases concealExcept_cases hsh ps with ⟨n, hk, h', hs', -⟩ | ⟨q, hq, hk, h', -⟩
    · have hof : MerkleBlock.OfTree { s i with
          crossSection := (PT.canon (2 ^ (s i).depth.val) (PT.hideLeaves ps.contains t) 0).frontier 0
          entropy := none } T :=
        ⟨hm, hd, hc, _, hs', by rw [hd]; exact view_canon (view_hide hv)⟩
      obtain ⟨b, n', h1, h2, h3⟩ := C23_of_tree T (s j) _ (hs j) hof
      refine ⟨s.set j b, by simp only [Event.step, h', h1, ok_bind], hset j b h2, fun k e => ?_⟩
      have hkn : ∀ p ∈ ps, ∃ m, (p, m) ∈ (s i).knownMessages := fun p hp => known_iff.1 (hk p hp)
      simp only [Event.learn, Net.set]
      split
      · rename_i h
        subst h
        rw [h3, shows_known hs', PT.known_canon, PT.known_hideLeaves, List.mem_filter, ← shows_known hsh]
        simp only [List.contains_iff_mem, true_and]
        exact or_congr Iff.rfl ⟨fun h => ⟨h.1, h.2, hkn⟩, fun h => ⟨h.1, h.2.1⟩⟩
      · rename_i h
        simp [h]
    · refine ⟨s, by simp only [Event.step, h', ok_bind], hs, fun k e => ?_⟩
      simp only [Event.learn]
      constructor
      · exact Or.inl
      · rintro (h | ⟨-, -, -, h⟩)
        · exact h
        · exact absurd (known_iff.2 (h q hq)) hk
  | prove i j p =>
    cases hf : (s i).knownMessages.find? (fun e => decide (e.1 = p)) with
    | none =>
      refine ⟨s, by simp only [Event.step, hf], hs, fun k e => ?_⟩
      simp only [Event.learn]
      constructor
      · exact Or.inl
      · rintro (h | ⟨-, h1, h2⟩)
        · exact h
        · have := List.find?_eq_none.1 hf e h1
          simp [h2] at this
    | some x =>
      obtain ⟨q, m⟩ := x
      have hq : q = p := by simpa using List.find?_some hf
      subst hq
      have hmem : (q, m) ∈ (s i).knownMessages := List.mem_of_find?_eq_some hf
      obtain ⟨pr, m', c, hget, hmem', hpr, -⟩ := C16_complete T hT (s i) (hs i) q (known_iff.2 ⟨m, hmem⟩)
      obtain ⟨hh1, -⟩ := C30_partial T hT (s i) (hs i)
      obtain ⟨b0, n0, hw, hce⟩ := C22_rebuilt_is_concealed T hT (s i) (hs i) q m hmem pr hpr
      obtain ⟨hm, hd, hc, t, hsh, hv⟩ := hs i
      rcases concealExcept_cases hsh [q] with ⟨n, hk, h', hs', -⟩ | ⟨r, hr, hk, h', -⟩
      · rw [hce] at h'
        have hb0 := (Prod.mk.inj (Except.ok.inj h')).1
        rw [← hb0] at hs'
        obtain ⟨b, n', h1, h2, h3⟩ := C23_of_tree T (s j) b0 (hs j)
          ⟨rfl, by rw [hb0]; exact hd, by rw [hb0]; exact hc, _, hs',
            by rw [hd]; exact view_canon (view_hide hv)⟩
        refine ⟨s.set j b, ?_, hset j b h2, fun k e => ?_⟩
        · simp only [Event.step, hf, hpr, ok_bind, MerkleBlock.mergeRevealPath, hw, h1]
        · simp only [Event.learn, Net.set]
          split
          · rename_i h
            subst h
            rw [h3, shows_known hs', PT.known_canon, PT.known_hideLeaves, List.mem_filter, ← shows_known hsh]
            simp
          · rename_i h
            simp [h]
      · rw [hce] at h'
        cases h'
  | act i op =>
    obtain ⟨b, h1, h2, h3⟩ := step_ofTree (hs i) (ha i op rfl)
    refine ⟨s.set i b, by simp only [Event.step, h1, ok_bind], hset i b h2, fun k e => ?_⟩
    simp only [Event.learn, Net.set]
    split
    · exact h3 e
    · exact Iff.rfl

private theorem learn_congr [Env] {c : Commitment} {K L : Knowledge} (h : ∀ k e, K k e ↔ L k e) (ev : Event) :
    ∀ k e, ev.learn c K k e ↔ ev.learn c L k e := by
  intro k e
  cases ev with
  | act i op =>
    simp only [Event.learn]
    split
    · exact effect_congr (h i) op e
    · exact h k e
  | _ => simp only [Event.learn, h]

private theorem learnAll_congr [Env] {c : Commitment} : ∀ (evs : List Event) {K L : Knowledge},
    (∀ k e, K k e ↔ L k e) → ∀ k e, learnAll c K evs k e ↔ learnAll c L evs k e
  | [], _, _, h => h
  | ev :: evs, _, _, h => learnAll_congr evs (learn_congr h ev)

private theorem run_net [Env] {T : MerkleTree} (hT : T.Holds) : ∀ (evs : List Event) {s : Net}, (∀ i, (s i).OfTree T) →
    (∀ i op, Event.act i op ∈ evs → op.Admissible T) →
    ∃ s', s.run evs = .ok s' ∧ (∀ i, (s' i).OfTree T) ∧
      ∀ k e, e ∈ (s' k).knownMessages ↔
        learnAll T.specCommitment (fun k e => e ∈ (s k).knownMessages) evs k e
  | [], s, hs, _ => ⟨s, rfl, hs, fun _ _ => Iff.rfl⟩
  | ev :: evs, s, hs, ha => by
    obtain ⟨s1, h1, h2, h3⟩ := step_net hT hs ev (fun i op e => ha i op (by simp [e]))
    obtain ⟨s2, h4, h5, h6⟩ := run_net hT evs h2 (fun i op h => ha i op (by simp [h]))
    refine ⟨s2, by simp only [Net.run, h1, ok_bind, h4], h5, fun k e => ?_⟩
    rw [h6]
    exact learnAll_congr evs h3 k e

/-- **C108** Whatever is exchanged between parties who hold blocks of one tree, in whatever order, and whatever else
they receive and conceal in between: nothing panics, all blocks keep the commitment and remain blocks of the tree, each
party can prove what it knows, and it knows exactly what it was sent: what a sender knew at the time and disclosed. -/
theorem C108_run [Env] (T : MerkleTree) (hT : T.Holds) (s : Net) (hs : ∀ i, (s i).OfTree T) (evs : List Event)
    (ha : ∀ i op, Event.act i op ∈ evs → op.Admissible T) :
    ∃ s' c, s.run evs = .ok s' ∧ T.commitId = .ok c ∧
      ∀ k, (s' k).OfTree T ∧ (s' k).commitId = .ok c ∧
        (∀ e, e ∈ (s' k).knownMessages ↔ learnAll c (fun k e => e ∈ (s k).knownMessages) evs k e) ∧
        (∀ p m, (p, m) ∈ (s' k).knownMessages → T.messages.get p = some m ∧
          ∃ pr, (s' k).toMerkleProof p = .ok (.ok pr) ∧ pr.convolve p m = .ok (.ok c)) := by
  obtain ⟨s', h1, h2, h3⟩ := run_net hT evs hs ha
  refine ⟨s', _, h1, tree_commitId T, fun k => ⟨h2 k, ofTree_commitId (h2 k), h3 k, fun p m h => ?_⟩⟩
  obtain ⟨pr, m', c, g1, -, g3, g4, g5, -⟩ := C16_complete T hT (s' k) (h2 k) p (known_iff.2 ⟨m, h⟩)
  have hm := (C30_partial T hT (s' k) (h2 k)).1 p m h
  rw [g1] at hm
  cases hm
  rw [tree_commitId] at g4
  cases g4
  exact ⟨g1, pr, g3, g5⟩

/-- **C108** A message known within a group only, of which no event carries it out of the group and which nobody else
brings, stays within the group. -/
theorem C108_confined [Env] (T : MerkleTree) (hT : T.Holds) (s s' : Net) (hs : ∀ i, (s i).OfTree T) (evs : List Event)
    (ha : ∀ i op, Event.act i op ∈ evs → op.Admissible T) (hr : s.run evs = .ok s') (S : Nat → Prop)
    (e : ProtocolId × Message) (h0 : ∀ k, e ∈ (s k).knownMessages → S k) (hl : ∀ ev ∈ evs, ¬ ev.Leaks S e) :
    ∀ k, e ∈ (s' k).knownMessages → S k := by
  obtain ⟨s'', h1, -, h3⟩ := run_net hT evs hs ha
  rw [hr] at h1
  cases h1
  have key : ∀ (evs : List Event) (K : Knowledge), (∀ ev ∈ evs, ¬ ev.Leaks S e) → (∀ k, K k e → S k) →
      ∀ k, learnAll T.specCommitment K evs k e → S k := by
    intro evs
    induction evs with
    | nil => exact fun K _ h => h
    | cons ev evs ih =>
      intro K hl h k
      refine ih _ (fun ev' h' => hl ev' (by simp [h'])) (fun k hk => ?_) k
      have hle := hl ev (by simp)
      cases ev with
      | share i j =>
        rcases hk with hk | ⟨rfl, hk⟩
        · exact h k hk
        · exact Classical.byContradiction fun hS => hle ⟨h i hk, hS⟩
      | disclose i j ps =>
        rcases hk with hk | ⟨rfl, hk, hp, -⟩
        · exact h k hk
        · exact Classical.byContradiction fun hS => hle ⟨h i hk, hS, hp⟩
      | prove i j p =>
        rcases hk with hk | ⟨rfl, hk, hp⟩
        · exact h k hk
        · exact Classical.byContradiction fun hS => hle ⟨h i hk, hS, hp⟩
      | act i op =>
        simp only [Event.learn] at hk
        split at hk
        · rename_i hki
          subst hki
          cases op with
          | concealExcept ps => exact h k hk.1
          | concealOther p => exact h k hk.1
          | mergeReveal o =>
            rcases hk with hk | ⟨-, hk⟩
            · exact h k hk
            · exact Classical.byContradiction fun hS => hle ⟨hS, hk⟩
          | mergeRevealPath pr p m =>
            rcases hk with hk | ⟨-, hk⟩
            · exact h k hk
            · exact Classical.byContradiction fun hS => hle ⟨hS, hk⟩
        · exact h k hk
  intro k hk
  exact key evs _ hl h0 k ((h3 k e).1 hk)

/-- The trees shown after blocks were shared. -/
private theorem share_trees [Env] {T : MerkleTree} (t0 : Nat → PT) (h0 : ∀ i, (t0 i).View (2 ^ T.depth.val) T.pt 0) :
    ∀ (l : List (Nat × Nat)) (s : Net) (t : Nat → PT) (R : Nat → Nat → Prop),
      (∀ k, (s k).method = T.method ∧ (s k).depth = T.depth ∧ (s k).cofactor = T.cofactor ∧ (s k).Shows (t k) ∧
        (t k).View (2 ^ T.depth.val) T.pt 0) →
      (∀ k i, R k i → (t k).join (t0 i) = t k) →
      (∀ k (u : PT), u.View (2 ^ T.depth.val) T.pt 0 → (∀ i, R k i → u.join (t0 i) = u) → u.join (t k) = u) →
      ∃ (s' : Net) (t' : Nat → PT), s.run (l.map fun x => .share x.1 x.2) = .ok s' ∧
        (∀ k, (s' k).method = T.method ∧ (s' k).depth = T.depth ∧ (s' k).cofactor = T.cofactor ∧
          (s' k).entropy = (s k).entropy ∧ (s' k).Shows (t' k) ∧ (t' k).View (2 ^ T.depth.val) T.pt 0) ∧
        (∀ k i, reached R l k i → (t' k).join (t0 i) = t' k) ∧
        (∀ k (u : PT), u.View (2 ^ T.depth.val) T.pt 0 → (∀ i, reached R l k i → u.join (t0 i) = u) →
          u.join (t' k) = u)
  | [], s, t, R, hs, h1, h2 => by
    refine ⟨s, t, rfl, fun k => ?_, h1, h2⟩
    obtain ⟨a, b, c, d, e⟩ := hs k
    exact ⟨a, b, c, rfl, d, e⟩
  | (i, j) :: l, s, t, R, hs, h1, h2 => by
    obtain ⟨am, ad, ac, as, av⟩ := hs j
    obtain ⟨bm, bd, bc, bs, bv⟩ := hs i
    obtain ⟨e1, e2, e3⟩ := merge_view as bs ad ac bd bc av bv
    let s1 : Net := s.set j { s j with crossSection := ((t j).join (t i)).frontier 0 }
    let t1 : Nat → PT := fun k => if k = j then (t j).join (t i) else t k
    have hs1 : ∀ k, (s1 k).method = T.method ∧ (s1 k).depth = T.depth ∧ (s1 k).cofactor = T.cofactor ∧
        (s1 k).Shows (t1 k) ∧ (t1 k).View (2 ^ T.depth.val) T.pt 0 := by
      intro k
      by_cases hk : k = j
      · have hs1k : s1 k = { s j with crossSection := ((t j).join (t i)).frontier 0 } := if_pos hk
        have ht1k : t1 k = (t j).join (t i) := if_pos hk
        rw [hs1k, ht1k]
        exact ⟨am, ad, ac, e2, e3⟩
      · have hs1k : s1 k = s k := if_neg hk
        have ht1k : t1 k = t k := if_neg hk
        rw [hs1k, ht1k]
        exact hs k
    obtain ⟨s', t', g1, g2, g3, g4⟩ := share_trees t0 h0 l s1 t1 (fun k a => R k a ∨ (k = j ∧ R i a)) hs1
      (by
        intro k a hR
        simp only [t1]
        split
        · rename_i hk
          subst hk
          rcases hR with hR | ⟨-, hR⟩
          · rw [join_comm (view_compat av bv),
              join_assoc (view_compat bv av) (view_compat av (h0 a)) (view_compat bv (h0 a)), h1 _ _ hR]
          · rw [join_assoc (view_compat av bv) (view_compat bv (h0 a)) (view_compat av (h0 a)), h1 _ _ hR]
        · rename_i hk
          exact h1 k a (hR.resolve_right fun h => hk h.1))
      (by
        intro k u hu hR
        simp only [t1]
        split
        · rename_i hk
          subst hk
          have a1 := h2 k u hu (fun a ha => hR a (.inl ha))
          have a2 := h2 i u hu (fun a ha => hR a (.inr ⟨rfl, ha⟩))
          rw [← join_assoc (view_compat hu av) (view_compat av bv) (view_compat hu bv), a1, a2]
        · exact h2 k u hu (fun a ha => hR a (.inl ha)))
    refine ⟨s', t', ?_, fun k => ?_, g3, g4⟩
    · simp only [List.map_cons, Net.run, Event.step, e1, ok_bind]
      exact g1
    · obtain ⟨b1, b2, b3, b4, b5, b6⟩ := g2 k
      refine ⟨b1, b2, b3, ?_, b5, b6⟩
      rw [b4]
      simp only [s1, Net.set]
      split
      · rename_i hk
        rw [hk]
      · rfl

/-- **C108** Convergence: parties that were reached by the same blocks - directly or through others, in any order, once
or many times, in one and the same or in different runs - hold the same nodes; each keeps its own entropy. -/
theorem C108_converge [Env] (T : MerkleTree) (s : Net) (hs : ∀ i, (s i).OfTree T) (l l' : List (Nat × Nat)) :
    ∃ s1 s2, s.run (l.map fun x => .share x.1 x.2) = .ok s1 ∧ s.run (l'.map fun x => .share x.1 x.2) = .ok s2 ∧
      (∀ k, (s1 k).entropy = (s k).entropy) ∧
      ∀ k k', (∀ i, reached (fun a b => a = b) l k i ↔ reached (fun a b => a = b) l' k' i) →
        (s1 k).crossSection = (s2 k').crossSection ∧ (s1 k).method = (s2 k').method ∧ (s1 k).depth = (s2 k').depth ∧
        (s1 k).cofactor = (s2 k').cofactor := by
  have hex : ∀ i, ∃ t : PT, (s i).method = T.method ∧ (s i).depth = T.depth ∧ (s i).cofactor = T.cofactor ∧
      (s i).Shows t ∧ t.View (2 ^ T.depth.val) T.pt 0 := by
    intro i
    obtain ⟨hm, hd, hc, t, h1, h2⟩ := hs i
    exact ⟨t, hm, hd, hc, h1, h2⟩
  let t0 : Nat → PT := fun i => Classical.choose (hex i)
  have ht0 : ∀ i, (s i).method = T.method ∧ (s i).depth = T.depth ∧ (s i).cofactor = T.cofactor ∧
      (s i).Shows (t0 i) ∧ (t0 i).View (2 ^ T.depth.val) T.pt 0 := fun i => Classical.choose_spec (hex i)
  have hv0 : ∀ i, (t0 i).View (2 ^ T.depth.val) T.pt 0 := fun i => (ht0 i).2.2.2.2
  have hA : ∀ k i, k = i → (t0 k).join (t0 i) = t0 k := by
    rintro k _ rfl
    exact join_self _
  have hB : ∀ k (u : PT), u.View (2 ^ T.depth.val) T.pt 0 → (∀ i, k = i → u.join (t0 i) = u) → u.join (t0 k) = u :=
    fun k u _ h => h k rfl
  obtain ⟨s1, t1, a1, a2, a3, a4⟩ := share_trees t0 hv0 l s t0 (fun a b => a = b) ht0 hA hB
  obtain ⟨s2, t2, b1, b2, b3, b4⟩ := share_trees t0 hv0 l' s t0 (fun a b => a = b) ht0 hA hB
  refine ⟨s1, s2, a1, b1, fun k => (a2 k).2.2.2.1, fun k k' hR => ?_⟩
  obtain ⟨m1, d1, c1, -, sh1, v1⟩ := a2 k
  obtain ⟨m2, d2, c2, -, sh2, v2⟩ := b2 k'
  have e1 : (t1 k).join (t2 k') = t1 k := b4 k' (t1 k) v1 (fun i hi => a3 k i ((hR i).2 hi))
  have e2 : (t2 k').join (t1 k) = t2 k' := a4 k (t2 k') v2 (fun i hi => b3 k' i ((hR i).1 hi))
  have e : t1 k = t2 k' := by rw [← e1, join_comm (view_compat v1 v2), e2]
  refine ⟨?_, m1.trans m2.symm, by rw [d1, d2], by rw [c1, c2]⟩
  rw [sh1.1, sh2.1, e]

/-- **C108** After blocks were shared a party knows exactly what the holders of the blocks that reached it knew in the
beginning. -/
theorem C108_union [Env] (T : MerkleTree) (hT : T.Holds) (s s' : Net) (hs : ∀ i, (s i).OfTree T) (l : List (Nat × Nat))
    (hr : s.run (l.map fun x => .share x.1 x.2) = .ok s') (k : Nat) (e : ProtocolId × Message) :
    e ∈ (s' k).knownMessages ↔ ∃ i, reached (fun a b => a = b) l k i ∧ e ∈ (s i).knownMessages := by
  have key : ∀ (l : List (Nat × Nat)) (K : Knowledge) (R : Nat → Nat → Prop),
      (∀ k e, K k e ↔ ∃ i, R k i ∧ e ∈ (s i).knownMessages) → ∀ k e,
      learnAll T.specCommitment K (l.map fun x => .share x.1 x.2) k e ↔
        ∃ i, reached R l k i ∧ e ∈ (s i).knownMessages := by
    intro l
    induction l with
    | nil => exact fun K R h => h
    | cons x l ih =>
      intro K R h
      refine ih _ _ (fun k e => ?_)
      simp only [Event.learn, h]
      constructor
      · rintro (⟨a, h1, h2⟩ | ⟨hk, a, h1, h2⟩)
        · exact ⟨a, .inl h1, h2⟩
        · exact ⟨a, .inr ⟨hk, h1⟩, h2⟩
      · rintro ⟨a, h1 | ⟨hk, h1⟩, h2⟩
        · exact .inl ⟨a, h1, h2⟩
        · exact .inr ⟨hk, a, h1, h2⟩
  obtain ⟨s'', h1, -, h3⟩ := run_net hT (l.map fun x => Event.share x.1 x.2) hs
    (fun i op h => by simp only [List.mem_map, reduceCtorEq, and_false, exists_const] at h)
  rw [hr] at h1
  cases h1
  rw [h3]
  exact key l _ _ (fun k e => ⟨fun h => ⟨k, rfl, h⟩, fun ⟨i, h1, h2⟩ => h1 ▸ h2⟩) k e

/-- Non-vacuity of C108: party 0 knows three messages, the others one. Party 0 discloses a second one to party 1 and
forgets it, party 1 shares its block with party 2, which tries to prove to party 3 the third and proves the second. -/
def Sample.events : List Event :=
  [.disclose 0 1 [Sample.p5], .act 0 (.concealExcept [Sample.p6]), .share 1 2, .prove 2 3 Sample.p6,
    .prove 2 3 Sample.p5]

/-- See above. -/
def Sample.net [Env] : Net := fun k => if k = 0 then Sample.block else Sample.block1

private theorem Sample.net_ofTree [Env] (i : Nat) : (Sample.net i).OfTree Sample.tree := by
  unfold Sample.net
  split
  · exact Sample.view_block
  · exact Sample.view_block1

example [Env] : ∃ s', Sample.net.run Sample.events = .ok s' ∧
    (∀ e, e ∈ (s' 3).knownMessages ↔ e = (Sample.p1, Sample.m1) ∨ e = (Sample.p5, Sample.m5)) ∧
    (Sample.p6, Sample.m6) ∈ (s' 0).knownMessages ∧ (Sample.p5, Sample.m5) ∉ (s' 0).knownMessages ∧
    ∀ k, (Sample.p6, Sample.m6) ∈ (s' k).knownMessages → k = 0 := by
  have ha : ∀ i op, Event.act i op ∈ Sample.events → op.Admissible Sample.tree := by
    intro i op h
    simp only [Sample.events, List.mem_cons, List.not_mem_nil, or_false, reduceCtorEq, false_or, Event.act.injEq] at h
    rw [h.2]
    trivial
  obtain ⟨s', c, h1, -, h2⟩ := C108_run Sample.tree Sample.holds Sample.net Sample.net_ofTree Sample.events ha
  have hk0 : (Sample.net 0).knownMessages =
    [(Sample.p6, Sample.m6), (Sample.p1, Sample.m1), (Sample.p5, Sample.m5)] := rfl
  have hk : ∀ k, (Sample.net (k + 1)).knownMessages = [(Sample.p1, Sample.m1)] := fun k => rfl
  have e15 : Sample.p1 ≠ Sample.p5 := by decide
  have e16 : Sample.p1 ≠ Sample.p6 := by decide
  have e56 : Sample.p5 ≠ Sample.p6 := by decide
  refine ⟨s', h1, fun e => ?_, ?_, ?_, ?_⟩
  · rw [(h2 3).2.2.1]
    obtain ⟨p, m⟩ := e
    simp only [Sample.events, learnAll, Event.learn, hk0, hk 0, hk 1, hk 2, List.mem_cons, List.not_mem_nil, or_false,
      Prod.mk.injEq, BlockOp.effect]
    grind
  · rw [(h2 0).2.2.1]
    simp only [Sample.events, learnAll, Event.learn, hk0, hk 0, hk 1, List.mem_cons, List.not_mem_nil, or_false,
      Prod.mk.injEq, BlockOp.effect]
    grind
  · rw [(h2 0).2.2.1]
    simp only [Sample.events, learnAll, Event.learn, hk0, hk 0, hk 1, List.mem_cons, List.not_mem_nil, or_false,
      Prod.mk.injEq, BlockOp.effect]
    grind
  · refine C108_confined Sample.tree Sample.holds Sample.net s' Sample.net_ofTree Sample.events ha h1 (fun k => k = 0) _
      (fun k h => ?_) (fun ev hev => ?_)
    · cases k with
      | zero => rfl
      | succ k =>
        rw [hk] at h
        simp only [List.mem_cons, Prod.mk.injEq, List.not_mem_nil, or_false] at h
        exact absurd h.1.symm e16
    · simp only [Sample.events, List.mem_cons, List.not_mem_nil, or_false] at hev
      rcases hev with rfl | rfl | rfl | rfl | rfl <;> simp only [Event.Leaks] <;> grind

/-- Non-vacuity of C108: two ways to tell everybody. -/
example [Env] : ∃ s1 s2, Sample.net.run [.share 0 1, .share 1 2] = .ok s1 ∧
    Sample.net.run [.share 1 2, .share 0 2, .share 2 1, .share 0 2] = .ok s2 ∧
    (s1 2).crossSection = (s2 1).crossSection ∧
    (∀ e, e ∈ (s1 2).knownMessages ↔ e ∈ Sample.block.knownMessages) := by
  obtain ⟨s1, s2, h1, h2, -, h3⟩ := C108_converge Sample.tree Sample.net Sample.net_ofTree [(0, 1), (1, 2)]
    [(1, 2), (0, 2), (2, 1), (0, 2)]
  refine ⟨s1, s2, h1, h2, (h3 2 1 fun i => ?_).1, fun e => ?_⟩
  · simp only [reached]
    grind
  · rw [C108_union Sample.tree Sample.holds Sample.net s1 Sample.net_ofTree [(0, 1), (1, 2)] h1]
    have hk0 : (Sample.net 0).knownMessages = Sample.block.knownMessages := rfl
    have hk : ∀ k, (Sample.net (k + 1)).knownMessages = [(Sample.p1, Sample.m1)] := fun k => rfl
    have h1 : (Sample.p1, Sample.m1) ∈ Sample.block.knownMessages := by
      show _ ∈ [(Sample.p6, Sample.m6), (Sample.p1, Sample.m1), (Sample.p5, Sample.m5)]
      simp
    constructor
    · rintro ⟨i, -, h⟩
      cases i with
      | zero => exact h
      | succ i =>
        rw [hk] at h
        rw [List.mem_singleton.1 h]
        exact h1
    · exact fun h => ⟨0, by simp only [reached]; grind, h⟩

end CSV
