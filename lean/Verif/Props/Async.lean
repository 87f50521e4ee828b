import Verif.Spec.Async
import Verif.Props.Network

/-!
# C109: exchange of blocks and proofs over a network which delays, reorders, repeats and loses
-/

namespace CSV

private theorem known_iff {b : MerkleBlock} {p : ProtocolId} : p ∈ b.knownProtocolIds ↔ ∃ m, (p, m) ∈ b.knownMessages := by
  rw [knownIds_map, List.mem_map]
  exact ⟨fun ⟨⟨q, m⟩, h, e⟩ => ⟨m, e ▸ h⟩, fun ⟨m, h⟩ => ⟨_, h, rfl⟩⟩

/-- The packet tells `k` about the tree. -/
private def Content.Tells [Env] (T : MerkleTree) (k : ProtocolId × Message → Prop) : Content → Prop
  | .block b => b.OfTree T ∧ ∀ e, e ∈ b.knownMessages ↔ k e
  | .proof pr p m => ∃ b, MerkleBlock.with pr p m = .ok (.ok b) ∧ b.OfTree T ∧ ∀ e, e ∈ b.knownMessages ↔ k e
  | .nothing => ∀ e, ¬ k e

/-- States and what is meant to be known in them. -/
private def Mail.Meets [Env] (T : MerkleTree) (s : Mail) (K : MailK) : Prop :=
  (∀ i, (s.parties i).OfTree T ∧ ∀ e, e ∈ (s.parties i).knownMessages ↔ K.parties i e) ∧
  s.sent.length = K.sent.length ∧
  ∀ (n : Nat) (x : Nat × Content) (y : Nat × (ProtocolId × Message → Prop)), s.sent[n]? = some x → K.sent[n]? = some y →
    x.1 = y.1 ∧ x.2.Tells T y.2

private theorem Mail.Meets.push [Env] {T : MerkleTree} {s : Mail} {K : MailK} (h : s.Meets T K) {j : Nat} {c : Content}
    {k : ProtocolId × Message → Prop} (hc : c.Tells T k) :
    ({ s with sent := s.sent ++ [(j, c)] } : Mail).Meets T { K with sent := K.sent ++ [(j, k)] } := by
  obtain ⟨h1, h2, h3⟩ := h
  refine ⟨h1, by simp [h2], fun n x y hx hy => ?_⟩
  simp only [List.getElem?_append] at hx hy
  rw [← h2] at hy
  split at hx
  · rename_i hn
    rw [if_pos hn] at hy
    exact h3 n x y hx hy
  · rename_i hn
    rw [if_neg hn] at hy
    rw [List.getElem?_singleton] at hx hy
    split at hx
    · rename_i hz
      rw [if_pos hz] at hy
      cases hx
      cases hy
      exact ⟨rfl, hc⟩
    · cases hx

private theorem Mail.Meets.set [Env] {T : MerkleTree} {s : Mail} {K : MailK} (h : s.Meets T K) {j : Nat} {b : MerkleBlock}
    {P : Knowledge} (hb : b.OfTree T) (h1 : ∀ e, e ∈ b.knownMessages ↔ P j e) (h2 : ∀ i, i ≠ j → ∀ e, P i e ↔ K.parties i e) :
    ({ s with parties := s.parties.set j b } : Mail).Meets T { K with parties := P } := by
  refine ⟨fun i => ?_, h.2.1, h.2.2⟩
  show (s.parties.set j b i).OfTree T ∧ ∀ e, e ∈ (s.parties.set j b i).knownMessages ↔ P i e
  by_cases hi : i = j
  · have : s.parties.set j b i = b := if_pos hi
    rw [this, hi]
    exact ⟨hb, h1⟩
  · have : s.parties.set j b i = s.parties i := if_neg hi
    rw [this]
    exact ⟨(h.1 i).1, fun e => ((h.1 i).2 e).trans (h2 i hi e).symm⟩

private theorem merge_tells [Env] {T : MerkleTree} {b : MerkleBlock} (hb : b.OfTree T) {c : Content}
    {k : ProtocolId × Message → Prop} (hc : c.Tells T k) :
    ∃ b', c.merge b = .ok b' ∧ b'.OfTree T ∧ ∀ e, e ∈ b'.knownMessages ↔ e ∈ b.knownMessages ∨ k e := by
  cases c with
  | block o =>
    obtain ⟨b', n, h1, h2, h3⟩ := C23_of_tree T b o hb hc.1
    exact ⟨b', by simp only [Content.merge, h1, ok_bind], h2, fun e => by rw [h3, hc.2]⟩
  | proof pr p m =>
    obtain ⟨o, hw, ho, hk⟩ := hc
    obtain ⟨b', n, h1, h2, h3⟩ := C23_of_tree T b o hb ho
    exact ⟨b', by simp only [Content.merge, MerkleBlock.mergeRevealPath, hw, h1, ok_bind], h2, fun e => by rw [h3, hk]⟩
  | nothing => exact ⟨b, rfl, hb, fun e => ⟨Or.inl, fun h => h.resolve_right (hc e)⟩⟩

private theorem copy_tells [Env] {T : MerkleTree} {b : MerkleBlock} (hb : b.OfTree T) (ps : List ProtocolId) :
    (∃ b' n, b.concealExcept ps = .ok (b', .ok n) ∧ b'.OfTree T ∧ (∀ p ∈ ps, ∃ m, (p, m) ∈ b.knownMessages) ∧
      ∀ e, e ∈ b'.knownMessages ↔ e ∈ b.knownMessages ∧ e.1 ∈ ps) ∨
    ∃ b' q, b.concealExcept ps = .ok (b', .error ⟨q⟩) ∧ q ∈ ps ∧ ∀ m, (q, m) ∉ b.knownMessages := by
  obtain ⟨hm, hd, hc, t, hsh, hv⟩ := hb
  rcases concealExcept_cases hsh ps with ⟨n, hk, h', hs', -⟩ | ⟨q, hq, hk, h', -⟩
  · have hof : MerkleBlock.OfTree { b with
        crossSection := (PT.canon (2 ^ b.depth.val) (PT.hideLeaves ps.contains t) 0).frontier 0
        entropy := none } T :=
      ⟨hm, hd, hc, _, hs', by rw [hd]; exact view_canon (view_hide hv)⟩
    refine .inl ⟨_, n, h', hof, fun p hp => known_iff.1 (hk p hp), fun e => ?_⟩
    rw [shows_known hs', PT.known_canon, PT.known_hideLeaves, List.mem_filter, ← shows_known hsh]
    simp only [List.contains_iff_mem]
  · exact .inr ⟨_, q, h', hq, fun m hm => hk (known_iff.2 ⟨m, hm⟩)⟩

private theorem step_mail [Env] {T : MerkleTree} (hT : T.Holds) {s : Mail} {K : MailK} (h : s.Meets T K) (a : Action)
    (ha : ∀ i op, a = .act i op → op.Admissible T) :
    ∃ s', a.step s = .ok s' ∧ s'.Meets T (a.learn T.specCommitment K) := by
  cases a with
  | send i j => exact ⟨_, rfl, h.push (h.1 i)⟩
  | sendExcept i j ps =>
    obtain ⟨hi, hk⟩ := h.1 i
    rcases copy_tells hi ps with ⟨b', n, h1, h2, h3, h4⟩ | ⟨b', q, h1, h2, h3⟩
    · refine ⟨_, by simp only [Action.step, h1, ok_bind], h.push (c := .block b') ⟨h2, fun e => ?_⟩⟩
      simp only [h4, hk] at h3 ⊢
      exact ⟨fun g => ⟨g.1, g.2, h3⟩, fun g => ⟨g.1, g.2.1⟩⟩
    · refine ⟨_, by simp only [Action.step, h1, ok_bind], h.push (c := .nothing) fun e g => ?_⟩
      obtain ⟨m, hm⟩ := g.2.2 q h2
      exact h3 m ((hk _).2 hm)
  | sendProof i j p =>
    obtain ⟨hi, hk⟩ := h.1 i
    cases hf : (s.parties i).knownMessages.find? (fun e => decide (e.1 = p)) with
    | none =>
      refine ⟨_, by simp only [Action.step, hf], h.push (c := .nothing) fun e g => ?_⟩
      have := List.find?_eq_none.1 hf e ((hk e).2 g.1)
      simp [g.2] at this
    | some x =>
      obtain ⟨q, m⟩ := x
      have hq : q = p := by simpa using List.find?_some hf
      subst hq
      have hmem : (q, m) ∈ (s.parties i).knownMessages := List.mem_of_find?_eq_some hf
      obtain ⟨pr, m', c, -, -, hpr, -⟩ := C16_complete T hT _ hi q (known_iff.2 ⟨m, hmem⟩)
      obtain ⟨b0, n0, hw, hce⟩ := C22_rebuilt_is_concealed T hT _ hi q m hmem pr hpr
      rcases copy_tells hi [q] with ⟨b', n, h1, h2, -, h4⟩ | ⟨b', r, h1, -, -⟩
      · rw [hce] at h1
        cases h1
        refine ⟨_, by simp only [Action.step, hf, hpr, ok_bind], h.push (c := .proof pr q m) ⟨b0, hw, h2, fun e => ?_⟩⟩
        rw [h4, hk, List.mem_singleton]
      · rw [hce] at h1
        cases h1
  | deliver n =>
    simp only [Action.step, Action.learn]
    cases hs : s.sent[n]? with
    | none =>
      have hK : K.sent[n]? = none := by
        rw [List.getElem?_eq_none_iff] at hs ⊢
        rw [← h.2.1]
        exact hs
      rw [hK]
      exact ⟨s, rfl, h⟩
    | some x =>
      obtain ⟨j, c⟩ := x
      cases hK : K.sent[n]? with
      | none =>
        rw [List.getElem?_eq_none_iff, ← h.2.1, ← List.getElem?_eq_none_iff, hs] at hK
        cases hK
      | some y =>
        obtain ⟨j', k⟩ := y
        obtain ⟨hj, hc⟩ := h.2.2 n _ _ hs hK
        have hj : j = j' := hj
        subst hj
        obtain ⟨b, h1, h2, h3⟩ := merge_tells (h.1 j).1 hc
        refine ⟨_, by simp only [h1, ok_bind]; rfl, h.set h2 (fun e => ?_) fun i hi e => ?_⟩
        · rw [h3, (h.1 j).2]
          simp
        · simp [hi]
  | act i op =>
    obtain ⟨b, h1, h2, h3⟩ := step_ofTree (h.1 i).1 (ha i op rfl)
    refine ⟨_, by simp only [Action.step, h1, ok_bind]; rfl, h.set h2 (fun e => ?_) fun x hx e => ?_⟩
    · rw [h3, if_pos rfl]
      exact effect_congr (h.1 i).2 op e
    · rw [if_neg hx]

private theorem run_mail [Env] {T : MerkleTree} (hT : T.Holds) : ∀ (as : List Action) {s : Mail} {K : MailK}, s.Meets T K →
    (∀ i op, Action.act i op ∈ as → op.Admissible T) →
    ∃ s', s.run as = .ok s' ∧ s'.Meets T (K.after T.specCommitment as)
  | [], s, _, h, _ => ⟨s, rfl, h⟩
  | a :: as, s, K, h, ha => by
    obtain ⟨s1, h1, h2⟩ := step_mail hT h a (fun i op e => ha i op (by simp [e]))
    obtain ⟨s2, h3, h4⟩ := run_mail hT as h2 (fun i op h => ha i op (by simp [h]))
    exact ⟨s2, by simp only [Mail.run, h1, ok_bind, h3], h4⟩

private theorem meets_start [Env] {T : MerkleTree} {s : Net} (hs : ∀ i, (s i).OfTree T) :
    (⟨s, []⟩ : Mail).Meets T ⟨fun i e => e ∈ (s i).knownMessages, []⟩ :=
  ⟨fun i => ⟨hs i, fun _ => Iff.rfl⟩, rfl, fun n x y hx _ => by simp at hx⟩

/-- **C109** However blocks, disclosed copies and proofs are sent between parties who hold blocks of one tree, and
however the packets are delayed, reordered, repeated and lost, and whatever else the parties receive and conceal in
between: nothing panics, all blocks keep the commitment and remain blocks of the tree, each party can prove what it
knows, and it knows exactly what it had and what the packets that arrived told. -/
theorem C109_run [Env] (T : MerkleTree) (hT : T.Holds) (s : Net) (hs : ∀ i, (s i).OfTree T) (as : List Action)
    (ha : ∀ i op, Action.act i op ∈ as → op.Admissible T) :
    ∃ s' c, (⟨s, []⟩ : Mail).run as = .ok s' ∧ T.commitId = .ok c ∧
      ∀ k, (s'.parties k).OfTree T ∧ (s'.parties k).commitId = .ok c ∧
        (∀ e, e ∈ (s'.parties k).knownMessages ↔
          (MailK.after c ⟨fun i e => e ∈ (s i).knownMessages, []⟩ as).parties k e) ∧
        (∀ p m, (p, m) ∈ (s'.parties k).knownMessages → T.messages.get p = some m ∧
          ∃ pr, (s'.parties k).toMerkleProof p = .ok (.ok pr) ∧ pr.convolve p m = .ok (.ok c)) := by
  obtain ⟨s', h1, h2, -⟩ := run_mail hT as (meets_start hs) ha
  refine ⟨s', _, h1, tree_commitId T, fun k => ⟨(h2 k).1, ofTree_commitId (h2 k).1, (h2 k).2, fun p m h => ?_⟩⟩
  obtain ⟨pr, m', c, g1, -, g3, g4, g5, -⟩ := C16_complete T hT _ (h2 k).1 p (known_iff.2 ⟨m, h⟩)
  have hm := (C30_partial T hT _ (h2 k).1).1 p m h
  rw [g1] at hm
  cases hm
  rw [tree_commitId] at g4
  cases g4
  exact ⟨g1, pr, g3, g5⟩

/-- **C109** A message that no action addresses to anybody outside of the group that knows it stays in the group,
however packets are delivered. -/
theorem C109_confined [Env] (T : MerkleTree) (hT : T.Holds) (s : Net) (s' : Mail) (hs : ∀ i, (s i).OfTree T)
    (as : List Action) (ha : ∀ i op, Action.act i op ∈ as → op.Admissible T) (hr : (⟨s, []⟩ : Mail).run as = .ok s')
    (S : Nat → Prop) (e : ProtocolId × Message) (h0 : ∀ k, e ∈ (s k).knownMessages → S k)
    (hl : ∀ a ∈ as, ¬ a.Leaks S e) : ∀ k, e ∈ (s'.parties k).knownMessages → S k := by
  obtain ⟨s'', h1, h2, -⟩ := run_mail hT as (meets_start hs) ha
  rw [hr] at h1
  cases h1
  have key : ∀ (as : List Action) (K : MailK), (∀ a ∈ as, ¬ a.Leaks S e) → (∀ k, K.parties k e → S k) →
      (∀ x ∈ K.sent, x.2 e → S x.1) → ∀ k, (K.after T.specCommitment as).parties k e → S k := by
    intro as
    induction as with
    | nil => exact fun K _ h _ => h
    | cons a as ih =>
      intro K hl h hx k
      have hle := hl a (by simp)
      have push : ∀ (j : Nat) (q : ProtocolId × Message → Prop), (q e → S j) →
          ∀ x ∈ K.sent ++ [(j, q)], x.2 e → S x.1 := by
        intro j q hq x hxm
        rcases List.mem_append.1 hxm with hxm | hxm
        · exact hx x hxm
        · rw [List.mem_singleton.1 hxm]
          exact hq
      refine ih _ (fun a' h' => hl a' (by simp [h'])) ?_ ?_ k
      · intro k hk
        cases a with
        | send i j => exact h k hk
        | sendExcept i j ps => exact h k hk
        | sendProof i j p => exact h k hk
        | deliver n =>
          simp only [Action.learn] at hk
          split at hk
          · exact h k hk
          · rename_i j q hn
            rcases hk with hk | ⟨rfl, hk⟩
            · exact h k hk
            · exact hx _ (List.mem_of_getElem? hn) hk
        | act i op =>
          simp only [Action.learn] at hk
          split at hk
          · rename_i hki
            subst hki
            cases op with
            | concealExcept ps => exact h k hk.1
            | concealOther p => exact h k hk.1
            | mergeReveal o =>
              rcases hk with hk | ⟨-, hk⟩
              · exact h k hk
              · exact Classical.byContradiction fun hS => hle ⟨hS, hk⟩
            | mergeRevealPath pr p m =>
              rcases hk with hk | ⟨-, hk⟩
              · exact h k hk
              · exact Classical.byContradiction fun hS => hle ⟨hS, hk⟩
          · exact h k hk
      · cases a with
        | send i j => exact push j _ fun hk => Classical.byContradiction fun hS => hle ⟨h i hk, hS⟩
        | sendExcept i j ps => exact push j _ fun hk => Classical.byContradiction fun hS => hle ⟨h i hk.1, hS, hk.2.1⟩
        | sendProof i j p => exact push j _ fun hk => Classical.byContradiction fun hS => hle ⟨h i hk.1, hS, hk.2⟩
        | deliver n =>
          simp only [Action.learn]
          split
          · exact hx
          · exact hx
        | act i op => exact hx
  intro k hk
  exact key as _ hl h0 (by simp) k (((h2 k).2 e).1 hk)

/-- The packet holds a block that shows the tree `u`, a view of `T`. -/
private def Content.Has [Env] (T : MerkleTree) (u : PT) (c : Content) : Prop :=
  ∃ b : MerkleBlock, c = .block b ∧ b.depth = T.depth ∧ b.cofactor = T.cofactor ∧ b.Shows u ∧
    u.View (2 ^ T.depth.val) T.pt 0

/-- `u` absorbs the initial trees of a past, and whatever absorbs these absorbs `u`. -/
private def Sums [Env] (T : MerkleTree) (t0 : Nat → PT) (q : Nat → Prop) (u : PT) : Prop :=
  (∀ i, q i → u.join (t0 i) = u) ∧
  ∀ w : PT, w.View (2 ^ T.depth.val) T.pt 0 → (∀ i, q i → w.join (t0 i) = w) → w.join u = w

private theorem Sums.join [Env] {T : MerkleTree} {t0 : Nat → PT} (h0 : ∀ i, (t0 i).View (2 ^ T.depth.val) T.pt 0)
    {q r : Nat → Prop} {u v : PT} (hu : u.View (2 ^ T.depth.val) T.pt 0) (hv : v.View (2 ^ T.depth.val) T.pt 0)
    (h1 : Sums T t0 q u) (h2 : Sums T t0 r v) : Sums T t0 (fun a => q a ∨ r a) (u.join v) := by
  refine ⟨fun i hi => ?_, fun w hw h => ?_⟩
  · rcases hi with hi | hi
    · rw [join_comm (view_compat hu hv), join_assoc (view_compat hv hu) (view_compat hu (h0 i)) (view_compat hv (h0 i)),
        h1.1 i hi]
    · rw [join_assoc (view_compat hu hv) (view_compat hv (h0 i)) (view_compat hu (h0 i)), h2.1 i hi]
  · rw [← join_assoc (view_compat hw hu) (view_compat hu hv) (view_compat hw hv),
      h1.2 w hw (fun a ha => h a (.inl ha)), h2.2 w hw (fun a ha => h a (.inr ha))]

/-- States with the initial blocks that went into them. -/
private def Mail.Holds [Env] (T : MerkleTree) (t0 : Nat → PT) (s0 : Net) (s : Mail) (R : Pasts) : Prop :=
  (∀ k, (s.parties k).depth = T.depth ∧ (s.parties k).cofactor = T.cofactor ∧
    (s.parties k).entropy = (s0 k).entropy ∧ ∃ u : PT, (s.parties k).Shows u ∧ u.View (2 ^ T.depth.val) T.pt 0 ∧
      Sums T t0 (R.parties k) u) ∧
  s.sent.length = R.sent.length ∧
  ∀ (n : Nat) (x : Nat × Content) (y : Nat × (Nat → Prop)), s.sent[n]? = some x → R.sent[n]? = some y →
    x.1 = y.1 ∧ ∃ u : PT, x.2.Has T u ∧ Sums T t0 y.2 u

private theorem run_post [Env] {T : MerkleTree} {t0 : Nat → PT} (h0 : ∀ i, (t0 i).View (2 ^ T.depth.val) T.pt 0)
    {s0 : Net} : ∀ (as : List Post) (s : Mail) (R : Pasts), s.Holds T t0 s0 R →
    ∃ s', s.run (as.map Post.action) = .ok s' ∧ s'.Holds T t0 s0 (R.after as)
  | [], s, _, h => ⟨s, rfl, h⟩
  | .send i j :: as, s, R, h => by
    refine run_post h0 as { s with sent := s.sent ++ [(j, .block (s.parties i))] }
      { R with sent := R.sent ++ [(j, R.parties i)] } ⟨h.1, by simp [h.2.1], fun n x y hx hy => ?_⟩
    simp only [List.getElem?_append] at hx hy
    rw [← h.2.1] at hy
    split at hx
    · rename_i hn
      rw [if_pos hn] at hy
      exact h.2.2 n x y hx hy
    · rename_i hn
      rw [if_neg hn] at hy
      rw [List.getElem?_singleton] at hx hy
      split at hx
      · rename_i hz
        rw [if_pos hz] at hy
        cases hx
        cases hy
        obtain ⟨a1, a2, -, u, a3, a4, a5⟩ := h.1 i
        exact ⟨rfl, u, ⟨_, rfl, a1, a2, a3, a4⟩, a5⟩
      · cases hx
  | .deliver n :: as, s, R, h => by
    simp only [List.map_cons, Post.action, Mail.run, Action.step, Pasts.after]
    cases hs : s.sent[n]? with
    | none =>
      have hR : R.sent[n]? = none := by
        rw [List.getElem?_eq_none_iff] at hs ⊢
        rw [← h.2.1]
        exact hs
      rw [hR]
      exact run_post h0 as s R h
    | some x =>
      obtain ⟨j, c⟩ := x
      cases hR : R.sent[n]? with
      | none =>
        rw [List.getElem?_eq_none_iff, ← h.2.1, ← List.getElem?_eq_none_iff, hs] at hR
        cases hR
      | some y =>
        obtain ⟨j', q⟩ := y
        obtain ⟨hj, u, ⟨o, ho, b1, b2, b3, b4⟩, b5⟩ := h.2.2 n _ _ hs hR
        have hj : j = j' := hj
        have ho : c = .block o := ho
        subst hj
        subst ho
        obtain ⟨a1, a2, a3, v, a4, a5, a6⟩ := h.1 j
        obtain ⟨e1, e2, e3⟩ := merge_view a4 b3 a1 a2 b1 b2 a5 b4
        simp only [Content.merge, e1, ok_bind]
        refine run_post h0 as _ _ ⟨fun k => ?_, h.2.1, h.2.2⟩
        by_cases hk : k = j
        · subst hk
          simp only [Net.set, if_pos]
          refine ⟨a1, a2, a3, _, e2, e3, ?_⟩
          have := a6.join h0 a5 b4 b5
          simpa only [true_and] using this
        · simp only [Net.set, if_neg hk]
          obtain ⟨g1, g2, g3, w, g4, g5, g6⟩ := h.1 k
          refine ⟨g1, g2, g3, w, g4, g5, ?_⟩
          have hq : (fun a => R.parties k a ∨ (k = j ∧ q a)) = R.parties k :=
            funext fun a => propext ⟨fun g => g.resolve_right fun g => hk g.1, Or.inl⟩
          rw [hq]
          exact g6

/-- **C109** Convergence: however whole blocks are sent and delivered, two parties that the same initial blocks have
reached - directly or through others, in one or in different runs - hold the same nodes, and each keeps its own entropy. -/
theorem C109_converge [Env] (T : MerkleTree) (s : Net) (hs : ∀ i, (s i).OfTree T) (l l' : List Post) :
    ∃ s1 s2, (⟨s, []⟩ : Mail).run (l.map Post.action) = .ok s1 ∧ (⟨s, []⟩ : Mail).run (l'.map Post.action) = .ok s2 ∧
      (∀ k, (s1.parties k).entropy = (s k).entropy) ∧
      ∀ k k', (∀ i, (Pasts.start.after l).parties k i ↔ (Pasts.start.after l').parties k' i) →
        (s1.parties k).crossSection = (s2.parties k').crossSection ∧
        (s1.parties k).depth = (s2.parties k').depth ∧ (s1.parties k).cofactor = (s2.parties k').cofactor := by
  have hex : ∀ i, ∃ t : PT, (s i).depth = T.depth ∧ (s i).cofactor = T.cofactor ∧
      (s i).Shows t ∧ t.View (2 ^ T.depth.val) T.pt 0 := by
    intro i
    obtain ⟨hm, hd, hc, t, h1, h2⟩ := hs i
    exact ⟨t, hd, hc, h1, h2⟩
  let t0 : Nat → PT := fun i => Classical.choose (hex i)
  have ht0 : ∀ i, (s i).depth = T.depth ∧ (s i).cofactor = T.cofactor ∧
      (s i).Shows (t0 i) ∧ (t0 i).View (2 ^ T.depth.val) T.pt 0 := fun i => Classical.choose_spec (hex i)
  have h0 : ∀ i, (t0 i).View (2 ^ T.depth.val) T.pt 0 := fun i => (ht0 i).2.2.2
  have hst : (⟨s, []⟩ : Mail).Holds T t0 s Pasts.start := by
    refine ⟨fun k => ?_, rfl, fun n x y hx _ => by simp at hx⟩
    obtain ⟨a, b, c, d⟩ := ht0 k
    refine ⟨a, b, rfl, t0 k, c, d, ?_, fun w _ h => h k rfl⟩
    rintro i (rfl : k = i)
    exact join_self _
  obtain ⟨s1, a1, a2, -⟩ := run_post h0 l _ _ hst
  obtain ⟨s2, b1, b2, -⟩ := run_post h0 l' _ _ hst
  refine ⟨s1, s2, a1, b1, fun k => (a2 k).2.2.1, fun k k' hR => ?_⟩
  obtain ⟨d1, c1, -, u, sh1, v1, m1⟩ := a2 k
  obtain ⟨d2, c2, -, w, sh2, v2, m2⟩ := b2 k'
  have e1 : u.join w = u := m2.2 u v1 (fun i hi => m1.1 i ((hR i).2 hi))
  have e2 : w.join u = w := m1.2 w v2 (fun i hi => m2.1 i ((hR i).1 hi))
  have e : u = w := by rw [← e1, join_comm (view_compat v1 v2), e2]
  refine ⟨?_, by rw [d1, d2], by rw [c1, c2]⟩
  rw [sh1.1, sh2.1, e]

/-- **C109** After whole blocks were sent and delivered a party knows exactly what the first holders of the blocks that
reached it knew in the beginning. -/
theorem C109_union [Env] (T : MerkleTree) (hT : T.Holds) (s : Net) (s' : Mail) (hs : ∀ i, (s i).OfTree T) (l : List Post)
    (hr : (⟨s, []⟩ : Mail).run (l.map Post.action) = .ok s') (k : Nat) (e : ProtocolId × Message) :
    e ∈ (s'.parties k).knownMessages ↔ ∃ i, (Pasts.start.after l).parties k i ∧ e ∈ (s i).knownMessages := by
  have key : ∀ (l : List Post) (K : MailK) (R : Pasts),
      (∀ k, K.parties k e ↔ ∃ i, R.parties k i ∧ e ∈ (s i).knownMessages) →
      K.sent.length = R.sent.length →
      (∀ (n : Nat) (x : Nat × (ProtocolId × Message → Prop)) (y : Nat × (Nat → Prop)), K.sent[n]? = some x →
        R.sent[n]? = some y → x.1 = y.1 ∧ (x.2 e ↔ ∃ i, y.2 i ∧ e ∈ (s i).knownMessages)) → ∀ k,
      (K.after T.specCommitment (l.map Post.action)).parties k e ↔
        ∃ i, (R.after l).parties k i ∧ e ∈ (s i).knownMessages := by
    intro l
    induction l with
    | nil => exact fun K R h _ _ => h
    | cons x l ih =>
      intro K R h hlen hsent
      cases x with
      | send i j =>
        refine ih { K with sent := K.sent ++ [(j, K.parties i)] } { R with sent := R.sent ++ [(j, R.parties i)] } h
          (by simp [hlen]) (fun n x y hx hy => ?_)
        simp only [List.getElem?_append] at hx hy
        rw [← hlen] at hy
        split at hx
        · rename_i hn
          rw [if_pos hn] at hy
          exact hsent n x y hx hy
        · rename_i hn
          rw [if_neg hn] at hy
          rw [List.getElem?_singleton] at hx hy
          split at hx
          · rename_i hz
            rw [if_pos hz] at hy
            cases hx
            cases hy
            exact ⟨rfl, h i⟩
          · cases hx
      | deliver n =>
        simp only [List.map_cons, Post.action, MailK.after, Action.learn, Pasts.after]
        cases hK : K.sent[n]? with
        | none =>
          have hR : R.sent[n]? = none := by
            rw [List.getElem?_eq_none_iff] at hK ⊢
            rw [← hlen]
            exact hK
          rw [hR]
          exact ih K R h hlen hsent
        | some x =>
          obtain ⟨j, q⟩ := x
          cases hR : R.sent[n]? with
          | none =>
            rw [List.getElem?_eq_none_iff, ← hlen, ← List.getElem?_eq_none_iff, hK] at hR
            cases hR
          | some y =>
            obtain ⟨j', r⟩ := y
            obtain ⟨hj, hq⟩ := hsent n _ _ hK hR
            have hj : j = j' := hj
            subst hj
            refine ih _ _ (fun k => ?_) hlen hsent
            simp only [h k]
            simp only at hq
            rw [hq]
            constructor
            · rintro (⟨a, h1, h2⟩ | ⟨hk, a, h1, h2⟩)
              · exact ⟨a, .inl h1, h2⟩
              · exact ⟨a, .inr ⟨hk, h1⟩, h2⟩
            · rintro ⟨a, h1 | ⟨hk, h1⟩, h2⟩
              · exact .inl ⟨a, h1, h2⟩
              · exact .inr ⟨hk, a, h1, h2⟩
  obtain ⟨s'', h1, h2, -⟩ := run_mail hT (l.map Post.action) (meets_start hs) (fun i op h => by
    obtain ⟨x, -, hx⟩ := List.mem_map.1 h
    cases x <;> cases hx)
  rw [hr] at h1
  cases h1
  rw [(h2 k).2]
  exact key l _ _ (fun k => ⟨fun h => ⟨k, rfl, h⟩, fun ⟨i, h1, h2⟩ => (show k = i from h1) ▸ h2⟩) rfl
    (fun n x y hx _ => by simp at hx) k

private theorem run_append [Env] : ∀ (as bs : List Action) (s : Mail), s.run (as ++ bs) = (do let s' ← s.run as; s'.run bs)
  | [], _, _ => rfl
  | a :: as, bs, s => by
    simp only [List.cons_append, Mail.run]
    cases a.step s with
    | error _ => rfl
    | ok s' => exact run_append as bs s'

private theorem map_bind {α β γ : Type} (x : Exec α) (f : α → Exec β) (g : β → γ) :
    (x >>= f).map g = x >>= fun a => (f a).map g := by
  cases x <;> rfl

/-- How many packets an event takes. -/
private def Event.packets : Event → Nat
  | .act _ _ => 0
  | _ => 1

/-- One event, by immediate delivery. -/
private theorem event_actions [Env] (s : Mail) (ev : Event) :
    ∃ f : Net → Mail, (∀ n, (f n).parties = n ∧ (f n).sent.length = s.sent.length + ev.packets) ∧
      s.run (ev.actions s.sent.length) = (ev.step s.parties).map f := by
  have hget : ∀ x : Nat × Content, (s.sent ++ [x])[s.sent.length]? = some x := fun x => by simp
  have hpush : ∀ (x : Nat × Content), (∀ n : Net, (⟨n, s.sent ++ [x]⟩ : Mail).parties = n ∧
      (⟨n, s.sent ++ [x]⟩ : Mail).sent.length = s.sent.length + 1) := fun x n => ⟨rfl, by simp⟩
  cases ev with
  | share i j =>
    refine ⟨fun n => ⟨n, s.sent ++ [(j, .block (s.parties i))]⟩, hpush _, ?_⟩
    simp only [Event.actions, Event.step, Mail.run, Action.step, ok_bind, hget, Content.merge]
    cases (s.parties j).mergeReveal (s.parties i) <;> rfl
  | disclose i j ps =>
    cases hc : (s.parties i).concealExcept ps with
    | error x =>
      refine ⟨fun n => ⟨n, s.sent ++ [(j, .nothing)]⟩, hpush _, ?_⟩
      simp only [Event.actions, Event.step, Mail.run, Action.step, hc]
      rfl
    | ok x =>
      obtain ⟨b, r⟩ := x
      cases r with
      | error q =>
        refine ⟨fun n => ⟨n, s.sent ++ [(j, .nothing)]⟩, hpush _, ?_⟩
        simp only [Event.actions, Event.step, Mail.run, Action.step, hc, ok_bind, hget, Content.merge]
        have : s.parties.set j (s.parties j) = s.parties := by
          funext k
          unfold Net.set
          split
          · rename_i h
            rw [h]
          · rfl
        rw [this]
        rfl
      | ok q =>
        refine ⟨fun n => ⟨n, s.sent ++ [(j, .block b)]⟩, hpush _, ?_⟩
        simp only [Event.actions, Event.step, Mail.run, Action.step, hc, ok_bind, hget, Content.merge]
        cases (s.parties j).mergeReveal b <;> rfl
  | prove i j p =>
    have hself : s.parties.set j (s.parties j) = s.parties := by
      funext k
      unfold Net.set
      split
      · rename_i h
        rw [h]
      · rfl
    cases hf : (s.parties i).knownMessages.find? (fun e => decide (e.1 = p)) with
    | none =>
      refine ⟨fun n => ⟨n, s.sent ++ [(j, .nothing)]⟩, hpush _, ?_⟩
      simp only [Event.actions, Event.step, Mail.run, Action.step, hf, ok_bind, hget, Content.merge, hself]
      rfl
    | some x =>
      obtain ⟨q, m⟩ := x
      cases hp : (s.parties i).toMerkleProof p with
      | error x =>
        refine ⟨fun n => ⟨n, s.sent ++ [(j, .nothing)]⟩, hpush _, ?_⟩
        simp only [Event.actions, Event.step, Mail.run, Action.step, hf, hp]
        rfl
      | ok r =>
        cases r with
        | error y =>
          refine ⟨fun n => ⟨n, s.sent ++ [(j, .nothing)]⟩, hpush _, ?_⟩
          simp only [Event.actions, Event.step, Mail.run, Action.step, hf, hp, ok_bind, hget, Content.merge, hself]
          rfl
        | ok pr =>
          refine ⟨fun n => ⟨n, s.sent ++ [(j, .proof pr p m)]⟩, hpush _, ?_⟩
          simp only [Event.actions, Event.step, Mail.run, Action.step, hf, hp, ok_bind, hget, Content.merge]
          cases (s.parties j).mergeRevealPath pr p m <;> rfl
  | act i op =>
    refine ⟨fun n => ⟨n, s.sent⟩, fun n => ⟨rfl, rfl⟩, ?_⟩
    simp only [Event.actions, Event.step, Mail.run, Action.step]
    cases op.step (s.parties i) <;> rfl

/-- **C109** The network of C108 is the one where each packet arrives at once: for all blocks and events, panics
included. -/
theorem C109_immediate [Env] : ∀ (evs : List Event) (s : Mail),
    (s.run (actionsOf s.sent.length evs)).map Mail.parties = s.parties.run evs
  | [], _ => rfl
  | ev :: evs, s => by
    obtain ⟨f, hf, h⟩ := event_actions s ev
    have hsplit : actionsOf s.sent.length (ev :: evs) = ev.actions s.sent.length ++
        actionsOf (s.sent.length + ev.packets) evs := by
      cases ev <;> rfl
    rw [hsplit, run_append, h, Net.run]
    cases ev.step s.parties with
    | error _ => rfl
    | ok n =>
      show (Mail.run (f n) _).map Mail.parties = n.run evs
      rw [← (hf n).2, C109_immediate evs (f n), (hf n).1]

/-- Non-vacuity of C109: party 0 sends its block to party 1 and a copy to party 2, then conceals its own; the copy
arrives twice, party 2 proves what it got to party 3, and only then the block arrives, of which party 1 had sent
nothing on before. A packet that does not exist arrives, and one is lost. -/
def Sample.actions : List Action :=
  [.send 0 1, .sendExcept 0 2 [Sample.p5], .act 0 (.concealExcept []), .send 1 3, .deliver 1, .sendProof 2 3 Sample.p5,
    .deliver 1, .sendProof 2 3 Sample.p6, .deliver 3, .deliver 4, .deliver 2, .deliver 77, .deliver 0, .send 1 2]

example [Env] : ∃ s', (⟨Sample.net, []⟩ : Mail).run Sample.actions = .ok s' ∧
    (s'.parties 0).knownMessages = [] ∧
    (∀ e, e ∈ (s'.parties 1).knownMessages ↔ e ∈ Sample.block.knownMessages) ∧
    (∀ e, e ∈ (s'.parties 3).knownMessages ↔ e = (Sample.p1, Sample.m1) ∨ e = (Sample.p5, Sample.m5)) ∧
    ∀ k, (Sample.p6, Sample.m6) ∈ (s'.parties k).knownMessages → k ≤ 1 := by
  have ha : ∀ i op, Action.act i op ∈ Sample.actions → op.Admissible Sample.tree := by
    intro i op h
    simp only [Sample.actions, List.mem_cons, List.not_mem_nil, or_false, reduceCtorEq, false_or, Action.act.injEq] at h
    rw [h.2]
    trivial
  have hs : ∀ i, (Sample.net i).OfTree Sample.tree := by
    intro i
    unfold Sample.net
    split
    · exact Sample.view_block
    · exact Sample.view_block1
  obtain ⟨s', c, h1, -, h2⟩ := C109_run Sample.tree Sample.holds Sample.net hs Sample.actions ha
  have hb : Sample.block.knownMessages =
    [(Sample.p6, Sample.m6), (Sample.p1, Sample.m1), (Sample.p5, Sample.m5)] := rfl
  have hk0 : (Sample.net 0).knownMessages =
    [(Sample.p6, Sample.m6), (Sample.p1, Sample.m1), (Sample.p5, Sample.m5)] := rfl
  have hk : ∀ k, (Sample.net (k + 1)).knownMessages = [(Sample.p1, Sample.m1)] := fun k => rfl
  have e15 : Sample.p1 ≠ Sample.p5 := by decide
  have e16 : Sample.p1 ≠ Sample.p6 := by decide
  have e56 : Sample.p5 ≠ Sample.p6 := by decide
  refine ⟨s', h1, List.eq_nil_iff_forall_not_mem.2 fun e => ?_, fun e => ?_, fun e => ?_, fun k hkn => ?_⟩
  · rw [(h2 0).2.2.1]
    obtain ⟨p, m⟩ := e
    simp [Sample.actions, MailK.after, Action.learn, BlockOp.effect]
  · rw [(h2 1).2.2.1, hb]
    obtain ⟨p, m⟩ := e
    simp [Sample.actions, MailK.after, Action.learn, BlockOp.effect, hk0, hk 0]
    grind
  · rw [(h2 3).2.2.1]
    obtain ⟨p, m⟩ := e
    simp [Sample.actions, MailK.after, Action.learn, BlockOp.effect, hk0, hk 0, hk 1, hk 2]
    grind
  · have : k = 0 ∨ k = 1 ∨ k = 2 ∨ k = 3 ∨ 4 ≤ k := by omega
    rcases this with rfl | rfl | rfl | rfl | h4
    · exact Nat.zero_le _
    · exact Nat.le_refl _
    · rw [(h2 2).2.2.1] at hkn
      simp [Sample.actions, MailK.after, Action.learn, BlockOp.effect, hk0, hk 1] at hkn
      grind
    · rw [(h2 3).2.2.1] at hkn
      simp [Sample.actions, MailK.after, Action.learn, BlockOp.effect, hk0, hk 0, hk 1, hk 2] at hkn
      grind
    · obtain ⟨j, rfl⟩ : ∃ j, k = j + 3 + 1 := ⟨k - 4, by omega⟩
      rw [(h2 _).2.2.1] at hkn
      simp [Sample.actions, MailK.after, Action.learn, BlockOp.effect] at hkn
      have hn := hk (j + 3)
      rw [hn] at hkn
      simp at hkn
      exact absurd hkn.1.symm e16

/-- Non-vacuity of C109: blocks that arrive in another order or through somebody else give the same nodes. -/
example [Env] : ∃ s1 s2, (⟨Sample.net, []⟩ : Mail).run [.send 0 2, .send 1 2, .deliver 1, .deliver 0] = .ok s1 ∧
    (⟨Sample.net, []⟩ : Mail).run [.send 0 1, .send 1 2, .deliver 1, .deliver 0, .send 1 2, .deliver 2] = .ok s2 ∧
    (s1.parties 2).crossSection = (s2.parties 2).crossSection := by
  obtain ⟨s1, s2, h1, h2, -, h3⟩ := C109_converge Sample.tree Sample.net (fun i => by
    unfold Sample.net
    split
    · exact Sample.view_block
    · exact Sample.view_block1) [.send 0 2, .send 1 2, .deliver 1, .deliver 0]
    [.send 0 1, .send 1 2, .deliver 1, .deliver 0, .send 1 2, .deliver 2]
  refine ⟨s1, s2, h1, h2, (h3 2 2 fun i => ?_).1⟩
  simp [Pasts.start, Pasts.after]
  grind

end CSV
