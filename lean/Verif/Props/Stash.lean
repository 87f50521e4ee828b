import Verif.Spec.Stash
import Verif.Props.Disclose
import Verif.Props.MergeAny

/-!
# C110: a store of blocks by commitment
-/

namespace CSV

private theorem known_iff {b : MerkleBlock} {p : ProtocolId} : p ∈ b.knownProtocolIds ↔ ∃ m, (p, m) ∈ b.knownMessages := by
  rw [knownIds_map, List.mem_map]
  exact ⟨fun ⟨⟨q, m⟩, h, e⟩ => ⟨m, e ▸ h⟩, fun ⟨m, h⟩ => ⟨_, h, rfl⟩⟩

/-- `u` absorbs the trees in `Q`, and whatever absorbs these absorbs `u`. -/
private def Lub [Env] (T : MerkleTree) (Q : PT → Prop) (u : PT) : Prop :=
  u.View (2 ^ T.depth.val) T.pt 0 ∧ (∀ t, Q t → u.join t = u) ∧
  ∀ w : PT, w.View (2 ^ T.depth.val) T.pt 0 → (∀ t, Q t → w.join t = w) → w.join u = w

/-- The trees that arrived for a commitment. -/
private def Trees [Env] (T : Commitment → MerkleTree) (xs : List Arrival) (c : Commitment) (t : PT) : Prop :=
  ∃ x ∈ xs, ∃ b : MerkleBlock, x.Brings c b ∧ b.Shows t ∧ t.View (2 ^ (T c).depth.val) (T c).pt 0

/-- The state of the store after `xs`. -/
private def Stash.After [Env] (T : Commitment → MerkleTree) (s : Stash) (xs : List Arrival) : Prop :=
  ∀ c, (s c = none ↔ ∀ x ∈ xs, ∀ b, ¬ x.Brings c b) ∧
    ∀ b, s c = some b → b.depth = (T c).depth ∧ b.cofactor = (T c).cofactor ∧
      (∃ u, b.Shows u ∧ Lub (T c) (Trees T xs c) u) ∧
      ∀ e, e ∈ b.knownMessages ↔ ∃ x ∈ xs, ∃ b', x.Brings c b' ∧ e ∈ b'.knownMessages

private theorem Arrival.Brings.unique [Env] {x : Arrival} {c c' : Commitment} {b b' : MerkleBlock} (h : x.Brings c b)
    (h' : x.Brings c' b') : c = c' ∧ b = b' := by
  have e := h.1.symm.trans h'.1
  simp only [Except.ok.injEq] at e
  subst e
  have e := h.2.symm.trans h'.2
  simp only [Except.ok.injEq] at e
  exact ⟨e, rfl⟩

private theorem Lub.unique [Env] {T : MerkleTree} {Q R : PT → Prop} {u v : PT} (h : ∀ t, Q t ↔ R t) (hu : Lub T Q u)
    (hv : Lub T R v) : u = v := by
  have e1 : u.join v = u := hv.2.2 u hu.1 fun t ht => hu.2.1 t ((h t).2 ht)
  have e2 : v.join u = v := hu.2.2 v hv.1 fun t ht => hv.2.1 t ((h t).1 ht)
  rw [← e1, join_comm (view_compat hu.1 hv.1), e2]

private theorem add_after [Env] {T : Commitment → MerkleTree} {s : Stash} {xs : List Arrival} (hs : s.After T xs)
    {x : Arrival} (hx : x.Of T) : ∃ s', s.add x = .ok (s', none) ∧ s'.After T (xs ++ [x]) := by
  obtain ⟨c, b, hb, hm, hd, hc, t, hsh, hv⟩ := hx
  have hother : ∀ c', c' ≠ c → ∀ b', ¬ x.Brings c' b' := fun c' hne b' h => hne (h.unique hb).1
  have hmem : ∀ (c' : Commitment) (P : MerkleBlock → Prop), (∃ y ∈ xs ++ [x], ∃ b', y.Brings c' b' ∧ P b') ↔
      (∃ y ∈ xs, ∃ b', y.Brings c' b' ∧ P b') ∨ (c' = c ∧ P b) := by
    intro c' P
    constructor
    · rintro ⟨y, hy, b', h1, h2⟩
      rcases List.mem_append.1 hy with hy | hy
      · exact .inl ⟨y, hy, b', h1, h2⟩
      · rw [List.mem_singleton.1 hy] at h1
        obtain ⟨e1, e2⟩ := h1.unique hb
        exact .inr ⟨e1, e2 ▸ h2⟩
    · rintro (⟨y, hy, h⟩ | ⟨rfl, h⟩)
      · exact ⟨y, by simp [hy], h⟩
      · exact ⟨x, by simp, b, hb, h⟩
  have hnone : ∀ c', (∀ y ∈ xs ++ [x], ∀ b', ¬ y.Brings c' b') ↔ (∀ y ∈ xs, ∀ b', ¬ y.Brings c' b') ∧ c' ≠ c := by
    intro c'
    constructor
    · refine fun h => ⟨fun y hy => h y (by simp [hy]), ?_⟩
      rintro rfl
      exact h x (by simp) b hb
    · rintro ⟨h1, h2⟩ y hy b' h
      rcases List.mem_append.1 hy with hy | hy
      · exact h1 y hy b' h
      · rw [List.mem_singleton.1 hy] at h
        exact h2 (h.unique hb).1
  have htrees : ∀ c' u, Trees T (xs ++ [x]) c' u ↔ Trees T xs c' u ∨ (c' = c ∧ u = t) := by
    intro c' u
    unfold Trees
    rw [hmem c' (fun b' => b'.Shows u ∧ u.View (2 ^ (T c').depth.val) (T c').pt 0)]
    refine or_congr Iff.rfl ⟨fun h => ⟨h.1, shows_unique h.2.1 hsh⟩, ?_⟩
    rintro ⟨rfl, rfl⟩
    exact ⟨rfl, hsh, hv⟩
  -- the other commitments
  have hrest : ∀ (b' : MerkleBlock) c', c' ≠ c → ((s.set c b') c' = none ↔ ∀ y ∈ xs ++ [x], ∀ b, ¬ y.Brings c' b) ∧
      ∀ b0, (s.set c b') c' = some b0 → b0.depth = (T c').depth ∧ b0.cofactor = (T c').cofactor ∧
      (∃ u, b0.Shows u ∧ Lub (T c') (Trees T (xs ++ [x]) c') u) ∧
      ∀ e, e ∈ b0.knownMessages ↔ ∃ y ∈ xs ++ [x], ∃ b', y.Brings c' b' ∧ e ∈ b'.knownMessages := by
    intro b' c' hne
    have e1 : (s.set c b') c' = s c' := if_neg hne
    rw [e1, hnone]
    obtain ⟨h1, h2⟩ := hs c'
    refine ⟨by rw [h1]; exact ⟨fun h => ⟨h, hne⟩, fun h => h.1⟩, fun b0 hb0 => ?_⟩
    obtain ⟨g1, g2, ⟨u, g3, g4⟩, g5⟩ := h2 b0 hb0
    have hq : Trees T (xs ++ [x]) c' = Trees T xs c' := by
      funext u
      exact propext ((htrees c' u).trans ⟨fun h => h.resolve_right fun h => hne h.1, Or.inl⟩)
    refine ⟨g1, g2, ⟨u, g3, hq ▸ g4⟩, fun e => ?_⟩
    rw [hmem c' (fun b' => e ∈ b'.knownMessages), g5]
    exact ⟨Or.inl, fun h => h.resolve_right fun h => hne h.1⟩
  obtain ⟨h1, h2⟩ := hs c
  cases hsc : s c with
  | none =>
    refine ⟨s.set c b, by simp only [Stash.add, hb.1, hb.2, hsc, ok_bind], fun c' => ?_⟩
    by_cases hne : c' = c
    · subst hne
      have e1 : (s.set c' b) c' = some b := if_pos rfl
      rw [e1, hnone]
      refine ⟨⟨fun h => (by cases h), fun h => absurd rfl h.2⟩, fun b0 hb0 => ?_⟩
      cases hb0
      have hno := h1.1 hsc
      refine ⟨hd, hc, ⟨t, hsh, hv, fun w hw => ?_, fun w _ h => h t ((htrees _ _).2 (.inr ⟨rfl, rfl⟩))⟩, fun e => ?_⟩
      · rcases (htrees _ _).1 hw with ⟨y, hy, b', hy', -⟩ | ⟨-, rfl⟩
        · exact absurd hy' (hno y hy b')
        · exact join_self _
      · rw [hmem c' (fun b' => e ∈ b'.knownMessages)]
        refine ⟨fun h => .inr ⟨rfl, h⟩, ?_⟩
        rintro (⟨y, hy, b', hy', -⟩ | h)
        · exact absurd hy' (hno y hy b')
        · exact h.2
    · exact hrest b c' hne
  | some b0 =>
    obtain ⟨g1, g2, ⟨u, g3, g4, g5, g6⟩, g7⟩ := h2 b0 hsc
    obtain ⟨e1, e2, e3⟩ := merge_view g3 hsh g1 g2 hd hc g4 hv
    refine ⟨s.set c _, by simp only [Stash.add, hb.1, hb.2, hsc, ok_bind, e1]; rfl, fun c' => ?_⟩
    by_cases hne : c' = c
    · subst hne
      have e4 : ∀ b', (s.set c' b') c' = some b' := fun b' => if_pos rfl
      rw [e4, hnone]
      refine ⟨⟨fun h => (by cases h), fun h => absurd rfl h.2⟩, fun b1 hb1 => ?_⟩
      cases hb1
      refine ⟨g1, g2, ⟨_, e2, e3, fun w hw => ?_, fun w hw h => ?_⟩, fun e => ?_⟩
      · rcases (htrees _ _).1 hw with hw | ⟨-, rfl⟩
        · obtain ⟨y, hy, b', hy', hs', hw'⟩ := hw
          rw [join_comm (view_compat g4 hv), join_assoc (view_compat hv g4) (view_compat g4 hw') (view_compat hv hw'),
            g5 w ⟨y, hy, b', hy', hs', hw'⟩]
        · rw [join_assoc (view_compat g4 hv) (view_compat hv hv) (view_compat g4 hv), join_self]
      · rw [← join_assoc (view_compat hw g4) (view_compat g4 hv) (view_compat hw hv),
          g6 w hw (fun v hv => h v ((htrees _ _).2 (.inl hv))), h t ((htrees _ _).2 (.inr ⟨rfl, rfl⟩))]
      · rw [hmem c' (fun b' => e ∈ b'.knownMessages), ← g7, shows_known e2, join_known (view_compat g4 hv), shows_known g3,
          shows_known hsh]
        simp
    · exact hrest _ c' hne

private theorem addAll_after [Env] {T : Commitment → MerkleTree} : ∀ (ys : List Arrival) {s : Stash} {xs : List Arrival},
    s.After T xs → (∀ x ∈ ys, x.Of T) → ∃ s', s.addAll ys = .ok (s', []) ∧ s'.After T (xs ++ ys)
  | [], s, xs, h, _ => ⟨s, rfl, by simpa using h⟩
  | y :: ys, s, xs, h, hy => by
    obtain ⟨s1, h1, h2⟩ := add_after h (hy y (by simp))
    obtain ⟨s2, h3, h4⟩ := addAll_after ys h2 (fun x hx => hy x (by simp [hx]))
    refine ⟨s2, by simp only [Stash.addAll, h1, h3, ok_bind]; rfl, ?_⟩
    simpa using h4

private theorem empty_after [Env] (T : Commitment → MerkleTree) : Stash.empty.After T [] :=
  fun c => ⟨⟨fun _ x hx => by simp at hx, fun _ => rfl⟩, fun b hb => by cases hb⟩

/-- **C110** Blocks and proofs of any number of trees, in any order: all are stored without error or panic; for each
commitment there is a block exactly if something arrived for it, which has this commitment, is a block of its tree and
knows exactly the messages that arrived. -/
theorem C110_store [Env] (T : Commitment → MerkleTree) (xs : List Arrival) (h : ∀ x ∈ xs, x.Of T) :
    ∃ s, Stash.empty.addAll xs = .ok (s, []) ∧ ∀ c,
      (s c = none ↔ ∀ x ∈ xs, ∀ b, ¬ x.Brings c b) ∧
      ∀ b, s c = some b → b.OfTree (T c) ∧ b.commitId = .ok c ∧
        ∀ e, e ∈ b.knownMessages ↔ ∃ x ∈ xs, ∃ b', x.Brings c b' ∧ e ∈ b'.knownMessages := by
  obtain ⟨s, h1, h2⟩ := addAll_after xs (empty_after T) h
  refine ⟨s, h1, fun c => ?_⟩
  obtain ⟨g1, g2⟩ := h2 c
  refine ⟨by simpa using g1, fun b hb => ?_⟩
  obtain ⟨e1, e2, ⟨u, e3, e4⟩, e5⟩ := g2 b hb
  have hof : b.OfTree (T c) := ⟨rfl, e1, e2, u, e3, e4.1⟩
  refine ⟨hof, ?_, by simpa using e5⟩
  -- something arrived, a block of the same tree
  have hne : ¬ ∀ x ∈ xs, ∀ b, ¬ x.Brings c b := fun hno => by
    have := g1.2 (by simpa using hno)
    rw [hb] at this
    cases this
  apply Classical.byContradiction
  intro hc
  refine hne fun x hx b' hb' => hc ?_
  obtain ⟨c', b'', h3, h4⟩ := h x hx
  obtain ⟨rfl, rfl⟩ := hb'.unique h3
  rw [ofTree_commitId hof, ← ofTree_commitId h4, hb'.2]

/-- **C110** Neither order nor repetitions matter: the same arrivals give the same nodes for each commitment. -/
theorem C110_order [Env] (T : Commitment → MerkleTree) (xs ys : List Arrival) (h : ∀ x ∈ xs, x.Of T)
    (hset : ∀ x, x ∈ xs ↔ x ∈ ys) :
    ∃ s s', Stash.empty.addAll xs = .ok (s, []) ∧ Stash.empty.addAll ys = .ok (s', []) ∧
      ∀ c, (s c).map (fun b => (b.depth, b.cofactor, b.crossSection)) =
        (s' c).map (fun b => (b.depth, b.cofactor, b.crossSection)) := by
  obtain ⟨s, h1, h2⟩ := addAll_after xs (empty_after T) h
  obtain ⟨s', h1', h2'⟩ := addAll_after ys (empty_after T) fun x hx => h x ((hset x).2 hx)
  refine ⟨s, s', h1, h1', fun c => ?_⟩
  simp only [List.nil_append] at h2 h2'
  obtain ⟨g1, g2⟩ := h2 c
  obtain ⟨g1', g2'⟩ := h2' c
  simp only [hset] at g1
  cases hs : s c with
  | none => rw [g1'.2 (g1.1 hs)]
  | some b =>
    cases hs' : s' c with
    | none =>
      have := g1.2 (g1'.1 hs')
      rw [hs] at this
      cases this
    | some b' =>
      obtain ⟨e1, e2, ⟨u, e3, e4⟩, -⟩ := g2 b hs
      obtain ⟨f1, f2, ⟨v, f3, f4⟩, -⟩ := g2' b' hs'
      have huv : u = v := e4.unique (fun t => by unfold Trees; simp only [hset]) f4
      subst huv
      simp only [Option.map_some, e1, e2, f1, f2, e3.1, f3.1]

/-- **C110** Everything in the store can be proven against the commitment under which it is stored, if the trees
were committed. -/
theorem C110_prove [Env] (T : Commitment → MerkleTree) (xs : List Arrival) (h : ∀ x ∈ xs, x.Of T) (s : Stash)
    (hs : Stash.empty.addAll xs = .ok (s, [])) (c : Commitment) (hT : (T c).Holds) (b : MerkleBlock) (hb : s c = some b)
    (p : ProtocolId) (m : Message) (hm : (p, m) ∈ b.knownMessages) :
    (T c).messages.get p = some m ∧ ∃ pr, b.toMerkleProof p = .ok (.ok pr) ∧ pr.convolve p m = .ok (.ok c) := by
  obtain ⟨s', h1, h2⟩ := C110_store T xs h
  rw [hs] at h1
  cases h1
  obtain ⟨h3, h4, -⟩ := (h2 c).2 b hb
  obtain ⟨pr, m', c', g1, -, g3, g4, g5, -⟩ := C16_complete _ hT b h3 p (known_iff.2 ⟨m, hm⟩)
  have hm := (C30_partial _ hT b h3).1 p m hm
  rw [g1] at hm
  cases hm
  have : c' = c := by
    have := ofTree_commitId h3
    rw [h4] at this
    rw [tree_commitId, ← this] at g4
    exact (Except.ok.inj g4).symm
  exact ⟨g1, pr, g3, this ▸ g5⟩

/-- **C110** Whatever is stored, a proof with a wrong position is refused and changes nothing. -/
theorem C110_refused [Env] (s : Stash) (pr : MerkleProof) (p : ProtocolId) (m : Message) (hl : pr.path.length ≤ 31)
    (h : slotOf p pr.cofactor.toNat pr.path.length ≠ pr.pos.toNat) :
    s.add (.proof pr p m) = .ok (s, some (.invalidProof
      ⟨p, UInt32.ofNat (slotOf p pr.cofactor.toNat pr.path.length), pr.pos, 2 ^ pr.path.length⟩)) := by
  have := ((C19_position_checked pr p m hl _).1).2 ⟨h, rfl⟩
  simp only [Stash.add, Arrival.open, this, ok_bind]

/-- **C110** Whatever is stored under its commitment and whatever arrives, malformed data included: if nothing panics,
blocks of other commitments are not touched, what is stored under a commitment has it, its nodes were stored
before or arrived with that commitment, and a merge is never refused: the only errors are those of proofs for other
positions. -/
theorem C110_separate [Env] (s s' : Stash) (hs : ∀ c b, s c = some b → b.commitId = .ok c) (x : Arrival)
    (e : Option MergeError) (h : s.add x = .ok (s', e)) :
    (∀ c b, s' c = some b → b.commitId = .ok c) ∧ (∀ c, (∀ b, ¬ x.Brings c b) → s' c = s c) ∧
    (∀ c b, s' c = some b → ∀ n ∈ b.crossSection, (∃ b0, s c = some b0 ∧ n ∈ b0.crossSection) ∨
      ∃ b1, x.Brings c b1 ∧ n ∈ b1.crossSection) ∧
    ∀ err, e = some err → s' = s ∧ ∃ ip, err = .invalidProof ip ∧ x.open = .ok (.error ip) := by
  unfold Stash.add at h
  obtain ⟨r, hr, h⟩ := (bind_ok_iff ..).1 h
  cases r with
  | error ip =>
    cases h
    refine ⟨hs, fun _ _ => rfl, fun c b hb n hn => .inl ⟨b, hb, hn⟩, fun err he => ?_⟩
    cases he
    exact ⟨rfl, ip, rfl, hr⟩
  | ok b =>
    obtain ⟨c, hc, h⟩ := (bind_ok_iff ..).1 h
    have hbr : x.Brings c b := ⟨hr, hc⟩
    cases hsc : s c with
    | none =>
      rw [hsc] at h
      cases h
      refine ⟨fun c' b' hb' => ?_, fun c' hn => ?_, fun c' b' hb' n hn => ?_, fun err he => by cases he⟩
      · unfold Stash.set at hb'
        split at hb'
        · rename_i hcc
          cases hb'
          rw [hcc]
          exact hc
        · exact hs c' b' hb'
      · refine if_neg ?_
        rintro rfl
        exact hn b hbr
      · unfold Stash.set at hb'
        split at hb'
        · rename_i hcc
          cases hb'
          rw [hcc]
          exact .inr ⟨b, hbr, hn⟩
        · exact .inl ⟨b', hb', hn⟩
    | some b0 =>
      rw [hsc] at h
      obtain ⟨⟨b1, r1⟩, h1, h⟩ := (bind_ok_iff ..).1 h
      obtain ⟨c1, c2, k1, k2, k3, -, -, -, -, k4, -, k5⟩ := C72_any b0 b b1 r1 h1
      rw [hs c b0 hsc] at k1
      rw [hc] at k2
      cases k1
      cases k2
      cases r1 with
      | error e1 => exact absurd rfl (k5 e1 rfl).1
      | ok n1 =>
        cases h
        refine ⟨fun c' b' hb' => ?_, fun c' hn => ?_, fun c' b' hb' n hn => ?_, fun err he => by cases he⟩
        · unfold Stash.set at hb'
          split at hb'
          · rename_i hcc
            cases hb'
            rw [hcc]
            exact k3
          · exact hs c' b' hb'
        · refine if_neg ?_
          rintro rfl
          exact hn b hbr
        · unfold Stash.set at hb'
          split at hb'
          · rename_i hcc
            cases hb'
            subst hcc
            rcases k4 n hn with hn | hn
            · exact .inl ⟨b0, hsc, hn⟩
            · exact .inr ⟨b, hbr, hn⟩
          · exact .inl ⟨b', hb', hn⟩

/-- **C110** Likewise for any number of arrivals: what is stored under a commitment has it, and all of its nodes arrived
with that commitment. -/
theorem C110_origin [Env] (xs : List Arrival) (s : Stash) (es : List MergeError)
    (h : Stash.empty.addAll xs = .ok (s, es)) (c : Commitment) (b : MerkleBlock) (hb : s c = some b) :
    b.commitId = .ok c ∧ (∀ n ∈ b.crossSection, ∃ x ∈ xs, ∃ b1, x.Brings c b1 ∧ n ∈ b1.crossSection) ∧
    ∀ e ∈ es, ∃ x ∈ xs, ∃ ip, e = .invalidProof ip ∧ x.open = .ok (.error ip) := by
  have key : ∀ (xs : List Arrival) (s0 s : Stash) (es : List MergeError), (∀ c b, s0 c = some b → b.commitId = .ok c) →
      s0.addAll xs = .ok (s, es) → (∀ c b, s c = some b → b.commitId = .ok c ∧ ∀ n ∈ b.crossSection,
        (∃ b0, s0 c = some b0 ∧ n ∈ b0.crossSection) ∨ ∃ x ∈ xs, ∃ b1, x.Brings c b1 ∧ n ∈ b1.crossSection) ∧
      ∀ e ∈ es, ∃ x ∈ xs, ∃ ip, e = .invalidProof ip ∧ x.open = .ok (.error ip) := by
    intro xs
    induction xs with
    | nil =>
      intro s0 s es h0 h
      cases h
      exact ⟨fun c b hb => ⟨h0 c b hb, fun n hn => .inl ⟨b, hb, hn⟩⟩, fun e he => by simp at he⟩
    | cons x xs ih =>
      intro s0 s es h0 h
      unfold Stash.addAll at h
      obtain ⟨⟨s1, e1⟩, h1, h⟩ := (bind_ok_iff ..).1 h
      obtain ⟨⟨s2, es2⟩, h2, h⟩ := (bind_ok_iff ..).1 h
      cases h
      obtain ⟨g1, -, g3, g4⟩ := C110_separate s0 s1 h0 x e1 h1
      obtain ⟨k1, k2⟩ := ih s1 s es2 g1 h2
      refine ⟨fun c b hb => ⟨(k1 c b hb).1, fun n hn => ?_⟩, fun e he => ?_⟩
      · rcases (k1 c b hb).2 n hn with ⟨b0, hb0, hn0⟩ | ⟨y, hy, hy'⟩
        · rcases g3 c b0 hb0 n hn0 with hn0 | hn0
          · exact .inl hn0
          · exact .inr ⟨x, by simp, hn0⟩
        · exact .inr ⟨y, by simp [hy], hy'⟩
      · rcases List.mem_append.1 he with he | he
        · cases e1 with
          | none => simp at he
          | some err =>
            simp only [Option.toList_some, List.mem_singleton] at he
            subst he
            exact ⟨x, by simp, (g4 _ rfl).2⟩
        · obtain ⟨y, hy, hy'⟩ := k2 e he
          exact ⟨y, by simp [hy], hy'⟩
  obtain ⟨k1, k2⟩ := key xs Stash.empty s es (fun c b hb => by cases hb) h
  refine ⟨(k1 c b hb).1, fun n hn => ?_, k2⟩
  rcases (k1 c b hb).2 n hn with ⟨b0, hb0, -⟩ | h
  · cases hb0
  · exact h

/-- Non-vacuity of C110: a part of a block and a proof arrive in either order. -/
example [Env] : ∃ (T : Commitment → MerkleTree) (pr : MerkleProof),
    (∀ x ∈ [Arrival.block Sample.block1, .proof pr Sample.p5 Sample.m5], x.Of T) ∧
    ∃ s c b, Stash.empty.addAll [.block Sample.block1, .proof pr Sample.p5 Sample.m5] = .ok (s, []) ∧ s c = some b ∧
      (Sample.p1, Sample.m1) ∈ b.knownMessages ∧ (Sample.p5, Sample.m5) ∈ b.knownMessages ∧
      ∀ m, (Sample.p6, m) ∉ b.knownMessages := by
  have hk : Sample.block.knownMessages =
    [(Sample.p6, Sample.m6), (Sample.p1, Sample.m1), (Sample.p5, Sample.m5)] := rfl
  have hk1 : Sample.block1.knownMessages = [(Sample.p1, Sample.m1)] := rfl
  have h5 : (Sample.p5, Sample.m5) ∈ Sample.block.knownMessages := by rw [hk]; simp
  obtain ⟨pr, m, c, -, -, hpr, -⟩ := C16_complete Sample.tree Sample.holds Sample.block Sample.view_block Sample.p5
    (known_iff.2 ⟨_, h5⟩)
  obtain ⟨b0, n0, hw, hce⟩ := C22_rebuilt_is_concealed Sample.tree Sample.holds Sample.block Sample.view_block Sample.p5
    Sample.m5 h5 pr hpr
  have hb0 := C11_reveals_exactly _ _ Sample.valid _ _ hce
  have hof : b0.OfTree Sample.tree := by
    obtain ⟨hm, hd, hc, t, hsh, hv⟩ := Sample.view_block
    rcases concealExcept_cases hsh [Sample.p5] with ⟨n, -, h', hs', -⟩ | ⟨r, -, -, h', -⟩
    · rw [hce] at h'
      have e := (Prod.mk.inj (Except.ok.inj h')).1
      rw [← e] at hs'
      exact ⟨rfl, by rw [e]; exact hd, by rw [e]; exact hc, _, hs', by rw [hd]; exact view_canon (view_hide hv)⟩
    · rw [hce] at h'
      cases h'
  have hbr1 : (Arrival.block Sample.block1).Brings Sample.tree.specCommitment Sample.block1 :=
    ⟨rfl, ofTree_commitId Sample.view_block1⟩
  have hbr2 : (Arrival.proof pr Sample.p5 Sample.m5).Brings Sample.tree.specCommitment b0 :=
    ⟨hw, ofTree_commitId hof⟩
  have hall : ∀ x ∈ [Arrival.block Sample.block1, .proof pr Sample.p5 Sample.m5], x.Of (fun _ => Sample.tree) := by
    intro x hx
    simp only [List.mem_cons, List.not_mem_nil, or_false] at hx
    rcases hx with rfl | rfl
    · exact ⟨_, _, hbr1, Sample.view_block1⟩
    · exact ⟨_, _, hbr2, hof⟩
  refine ⟨fun _ => Sample.tree, pr, hall, ?_⟩
  obtain ⟨s, h1, h2⟩ := C110_store _ _ hall
  obtain ⟨g1, g2⟩ := h2 Sample.tree.specCommitment
  cases hs : s Sample.tree.specCommitment with
  | none => exact absurd hbr1 (g1.1 hs _ (by simp) _)
  | some b =>
    obtain ⟨-, -, g3⟩ := g2 b hs
    refine ⟨s, _, b, h1, hs, (g3 _).2 ⟨_, by simp, _, hbr1, by rw [hk1]; simp⟩,
      (g3 _).2 ⟨_, List.mem_cons_of_mem _ (by simp), _, hbr2, ?_⟩, fun m hm => ?_⟩
    · rw [hb0.1, List.mem_filter]
      exact ⟨h5, by simp⟩
    · obtain ⟨x, hx, b', hb', hm⟩ := (g3 _).1 hm
      simp only [List.mem_cons, List.not_mem_nil, or_false] at hx
      rcases hx with rfl | rfl
      · obtain ⟨-, rfl⟩ := hb'.unique hbr1
        rw [hk1] at hm
        simp only [List.mem_cons, Prod.mk.injEq, List.not_mem_nil, or_false] at hm
        exact absurd hm.1 (by decide)
      · obtain ⟨-, rfl⟩ := hb'.unique hbr2
        rw [hb0.1, List.mem_filter] at hm
        have : Sample.p6 = Sample.p5 := by simpa using hm.2
        exact absurd this (by decide)

end CSV
