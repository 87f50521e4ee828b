import Verif.Spec.History
import Verif.Proofs.Proof

/-!
# Lemmas: merging and histories
-/

namespace CSV

theorem hide_slots [Env] {f : ProtocolId → Bool} {e : Nat × (ProtocolId × Message)} :
    ∀ {t : PT} {n lo : Nat}, e ∈ (t.hideLeaves f).slots n lo ↔ e ∈ t.slots n lo ∧ f e.2.1 = true := by
  intro t
  induction t with
  | hidden h => intro n lo; simp [PT.hideLeaves, PT.slots]
  | leaf p m =>
    intro n lo
    simp only [PT.hideLeaves]
    split
    · rename_i h
      simp only [PT.slots, List.mem_singleton]
      constructor
      · rintro rfl; exact ⟨rfl, h⟩
      · exact fun h => h.1
    · rename_i h
      simp only [PT.slots, List.not_mem_nil, List.mem_singleton, false_iff]
      rintro ⟨rfl, h'⟩
      exact h h'
  | node l r ihl ihr =>
    intro n lo
    simp only [PT.hideLeaves, PT.slots, List.mem_append, ihl, ihr]
    constructor
    · rintro (⟨h1, h2⟩ | ⟨h1, h2⟩)
      · exact ⟨Or.inl h1, h2⟩
      · exact ⟨Or.inr h1, h2⟩
    · rintro ⟨h1 | h1, h2⟩
      · exact Or.inl ⟨h1, h2⟩
      · exact Or.inr ⟨h1, h2⟩

theorem canon_slots [Env] {w : Nat} : ∀ {t : PT} {d n lo : Nat},
    (t.canon w d).slots n lo = t.slots n lo := by
  intro t
  induction t with
  | hidden h => intro d n lo; rfl
  | leaf p m => intro d n lo; rfl
  | node l r ihl ihr =>
    intro d n lo
    have h1 := @ihl (d + 1) (n - 1) lo
    have h2 := @ihr (d + 1) (n - 1) (lo + 2 ^ (n - 1))
    simp only [PT.canon, PT.slots]
    rw [← h1, ← h2]
    split
    · rename_i e1 e2
      rw [e1, e2]
      rfl
    · rfl

/-- The known leaves of the union. -/
theorem join_known [Env] {w : Nat} {t1 t2 : PT} {d : Nat} (h : t1.Compat w t2 d)
    (e : ProtocolId × Message) : e ∈ (t1.join t2).known ↔ e ∈ t1.known ∨ e ∈ t2.known := by
  rw [← slots_known (t := t1.join t2) (n := 0) (lo := 0), ← slots_known (t := t1) (n := 0) (lo := 0),
    ← slots_known (t := t2) (n := 0) (lo := 0)]
  simp only [List.mem_map, join_slots h]
  constructor
  · rintro ⟨a, h1 | h1, rfl⟩
    · exact Or.inl ⟨a, h1, rfl⟩
    · exact Or.inr ⟨a, h1, rfl⟩
  · rintro (⟨a, h1, rfl⟩ | ⟨a, h1, rfl⟩)
    · exact ⟨a, Or.inl h1, rfl⟩
    · exact ⟨a, Or.inr h1, rfl⟩

theorem join_sublist_left [Env] {w : Nat} : ∀ {t1 t2 : PT} {d : Nat}, t1.Compat w t2 d →
    t1.known.Sublist (t1.join t2).known := by
  intro t1
  induction t1 with
  | hidden h => intro t2 d _; exact List.nil_sublist _
  | leaf p m => intro t2 d hc; cases t2 <;> exact List.Sublist.refl _
  | node l r ihl ihr =>
    intro t2 d hc
    cases t2 with
    | hidden h => exact List.Sublist.refl _
    | leaf p m => exact hc.elim
    | node l2 r2 => exact (ihl hc.1).append (ihr hc.2)

theorem join_sublist_right [Env] {w : Nat} {t1 t2 : PT} {d : Nat} (hc : t1.Compat w t2 d) :
    t2.known.Sublist (t1.join t2).known := by
  rw [join_comm hc]
  exact join_sublist_left (compat_symm hc)

/-- Nodes of the union are nodes of one of the two. -/
theorem join_frontier [Env] {w : Nat} {n : TreeNode} : ∀ {t1 t2 : PT} {d : Nat}, t1.Compat w t2 d →
    n ∈ (t1.join t2).frontier d → n ∈ t1.frontier d ∨ n ∈ t2.frontier d := by
  intro t1
  induction t1 with
  | hidden h => intro t2 d _ h; exact Or.inr h
  | leaf p m => intro t2 d hc h; cases t2 <;> exact Or.inl h
  | node l r ihl ihr =>
    intro t2 d hc h
    cases t2 with
    | hidden h' => exact Or.inl h
    | leaf p m => exact hc.elim
    | node l2 r2 =>
      simp only [PT.join, PT.frontier, List.mem_append] at h ⊢
      rcases h with h | h
      · rcases ihl hc.1 h with h | h
        · exact Or.inl (Or.inl h)
        · exact Or.inr (Or.inl h)
      · rcases ihr hc.2 h with h | h
        · exact Or.inl (Or.inr h)
        · exact Or.inr (Or.inr h)

theorem frontier_pos (t : PT) (d : Nat) : 1 ≤ (t.frontier d).length := by
  induction t generalizing d with
  | hidden h => exact Nat.le_refl _
  | leaf p m => exact Nat.le_refl _
  | node l r ihl ihr => simp only [PT.frontier, List.length_append]; have := ihl (d + 1); omega

theorem join_length [Env] {w : Nat} : ∀ {t1 t2 : PT} {d : Nat}, t1.Compat w t2 d →
    (t1.frontier d).length ≤ ((t1.join t2).frontier d).length := by
  intro t1
  induction t1 with
  | hidden h => intro t2 d _; exact frontier_pos t2 d
  | leaf p m => intro t2 d hc; cases t2 <;> exact Nat.le_refl _
  | node l r ihl ihr =>
    intro t2 d hc
    cases t2 with
    | hidden h => exact Nat.le_refl _
    | leaf p m => exact hc.elim
    | node l2 r2 =>
      simp only [PT.join, PT.frontier, List.length_append]
      have := ihl hc.1
      have := ihr hc.2
      omega

/-- The block rebuilt from the proof of a message of a tree. -/
theorem with_view [Env] {T : MerkleTree} (hT : T.Holds) {b : MerkleBlock} (hb : b.OfTree T)
    {p : ProtocolId} {m : Message} (hk : (p, m) ∈ b.knownMessages) {pr : MerkleProof}
    (hpr : b.toMerkleProof p = .ok (.ok pr)) :
    ∃ t : PT, MerkleBlock.with pr p m =
        .ok (.ok ⟨T.method, T.depth, T.cofactor, t.frontier 0, none⟩) ∧
      t.View (2 ^ T.depth.val) T.pt 0 ∧ t.Minimal ∧ t.known = [(p, m)] := by
  obtain ⟨hm, hd, hc, t, hs, hv⟩ := hb
  have hpl := ofTree_placed hT hd hc hs hv
  rw [shows_known hs] at hk
  obtain ⟨hi, -⟩ := placed_path hpl hk
  rw [toMerkleProof_eq hpl hk] at hpr
  cases hpr
  obtain ⟨me, de, co, cs, en⟩ := b
  dsimp only at hm hd hc
  subst hm hd hc
  have hcp := conceal_path (p := p) (m := m) (w := 2 ^ T.depth.val) (n := T.depth.val) (lo := 0)
    (pos := (MerkleBlock.protocolIdPos ⟨T.method, T.depth, T.cofactor, cs, en⟩ p).toNat) hs.2
    (Nat.zero_add _) (by rw [Nat.zero_add]; exact hi)
    (fun j m' hj => by rw [Nat.zero_add]; exact hpl.2 _ _ _ hj)
  obtain ⟨h1, h2⟩ := hcp
  simp only [MerkleBlock.protocolIdPos] at h1 h2
  have hU : toU5 T.depth.val = T.depth := toU5_of_val rfl
  have hw := with_eq ⟨T.method, protocolIdPos p T.cofactor T.depth, T.cofactor,
    t.siblings (2 ^ T.depth.val) 0 T.depth.val (protocolIdPos p T.cofactor T.depth).toNat⟩ p m
    (by dsimp only; rw [h2]; exact T.depth.isLt)
  dsimp only at hw
  rw [h2, hU, if_neg (by simp)] at hw
  exact ⟨_, hw, by rw [← h1]; exact view_canon (view_hide hv),
    (path_minimal p m _ _).2, path_known p m _ _⟩

/-- Merging a view into a block of the same tree. -/
theorem merge_view [Env] {T : MerkleTree} {b o : MerkleBlock} {t u : PT} (hb : b.Shows t)
    (ho : o.Shows u) (hd : b.depth = T.depth) (hc : b.cofactor = T.cofactor) (hd' : o.depth = T.depth)
    (hc' : o.cofactor = T.cofactor) (hv : t.View (2 ^ T.depth.val) T.pt 0)
    (hv' : u.View (2 ^ T.depth.val) T.pt 0) :
    b.mergeReveal o = .ok ({ b with crossSection := (t.join u).frontier 0 },
      .ok (UInt16.ofNat ((t.join u).frontier 0).length)) ∧
    MerkleBlock.Shows { b with crossSection := (t.join u).frontier 0 } (t.join u) ∧
    (t.join u).View (2 ^ T.depth.val) T.pt 0 := by
  have h := mergeReveal_compat hb ho (hd.trans hd'.symm) (hc.trans hc'.symm)
    (by rw [hd]; exact view_compat hv hv')
  exact ⟨h.1, h.2, view_join hv hv'⟩

theorem ofTree_commitId [Env] {T : MerkleTree} {b : MerkleBlock} (hb : b.OfTree T) :
    b.commitId = .ok T.specCommitment := by
  obtain ⟨-, hd, hc, t, hs, hv⟩ := hb
  rw [shows_commitId hs, hd, hc, MerkleTree.specCommitment, MerkleTree.specRoot, ← view_root hv]
  rfl

/-- A structurally valid block with the commitment of the tree is a view of it. -/
theorem ofTree_of_commitment [Env] {T : MerkleTree} {b : MerkleBlock} {t : PT} (hs : b.Shows t)
    (hn : NoCollision (blockInputs b.depth b.cofactor t ++ T.inputs))
    (hc : b.commitId = .ok T.specCommitment) : b.OfTree T := by
  rw [shows_commitId hs] at hc
  obtain ⟨h1, h2, h3⟩ := view_of_commitment hs hn (Except.ok.inj hc)
  exact ⟨by cases b.method; cases T.method; rfl, h1, h2, t, hs, h3⟩

theorem mergeReveal_unrelated [Env] {a b : MerkleBlock} {ca cb : Commitment} (ha : a.commitId = .ok ca)
    (hb : b.commitId = .ok cb) (h : ca ≠ cb) :
    a.mergeReveal b = .ok (a, .error (.unrelatedBlocks ca cb)) := by
  rw [MerkleBlock.mergeReveal, ha, hb]
  simp only [ok_bind]
  rw [if_pos h]

/-- One step of a history. -/
theorem step_ofTree [Env] {T : MerkleTree} {b : MerkleBlock} (hb : b.OfTree T)
    {op : BlockOp} (ha : op.Admissible T) :
    ∃ b', op.step b = .ok b' ∧ b'.OfTree T ∧
      ∀ e, e ∈ b'.knownMessages ↔ op.effect T.specCommitment (· ∈ b.knownMessages) e := by
  have hconceal : ∀ ps, ∃ b' r, b.concealExcept ps = .ok (b', r) ∧ b'.OfTree T ∧
      ∀ e, e ∈ b'.knownMessages ↔ e ∈ b.knownMessages ∧ e.1 ∈ ps := by
    intro ps
    obtain ⟨hm, hd, hc, t, hs, hv⟩ := hb
    rcases concealExcept_cases hs ps with ⟨n, hk, h', hs', -⟩ | ⟨q, hq, hk, h', hs'⟩
    · refine ⟨_, _, h', ⟨hm, hd, hc, _, hs', ?_⟩, fun e => ?_⟩
      · rw [hd]
        exact view_canon (view_hide hv)
      · rw [shows_known hs', shows_known hs, PT.known_canon, PT.known_hideLeaves, List.mem_filter]
        simp
    · refine ⟨_, _, h', ⟨hm, hd, hc, _, hs', view_hide hv⟩, fun e => ?_⟩
      rw [shows_known hs', shows_known hs, PT.known_hideLeaves, List.mem_filter]
      simp
  have hmerge : ∀ o : MerkleBlock, (o.OfTree T ∨ ∃ t : PT, o.Shows t ∧
        NoCollision (blockInputs o.depth o.cofactor t ++ T.inputs)) →
      ∃ b' r, b.mergeReveal o = .ok (b', r) ∧ b'.OfTree T ∧
      ∀ e, e ∈ b'.knownMessages ↔
        e ∈ b.knownMessages ∨ (o.commitId = .ok T.specCommitment ∧ e ∈ o.knownMessages) := by
    intro o ho
    have hcb := ofTree_commitId hb
    by_cases hco : o.commitId = .ok T.specCommitment
    · have hoT : o.OfTree T := by
        rcases ho with ho | ⟨u, hu, hn⟩
        · exact ho
        · exact ofTree_of_commitment hu hn hco
      obtain ⟨hm, hd, hc, t, hs, hv⟩ := hb
      obtain ⟨hm', hd', hc', u, hu, hv'⟩ := hoT
      obtain ⟨h1, h2, h3⟩ := merge_view hs hu hd hc hd' hc' hv hv'
      refine ⟨_, _, h1, ⟨hm, hd, hc, _, h2, h3⟩, fun e => ?_⟩
      rw [shows_known h2, shows_known hs, shows_known hu, join_known (view_compat hv hv')]
      simp [hco]
    · have : ∃ c, o.commitId = .ok c := by
        rcases ho with ho | ⟨u, hu, -⟩
        · exact absurd (ofTree_commitId ho) hco
        · exact ⟨_, shows_commitId hu⟩
      obtain ⟨c, hc⟩ := this
      have hne : T.specCommitment ≠ c := fun h => hco (by rw [hc, h])
      exact ⟨_, _, mergeReveal_unrelated hcb hc hne, hb, fun e => by simp [hco]⟩
  cases op with
  | concealExcept ps =>
    obtain ⟨b', r, h1, h2, h3⟩ := hconceal ps
    exact ⟨b', by simp only [BlockOp.step, h1, ok_bind], h2, h3⟩
  | concealOther p =>
    obtain ⟨b', r, h1, h2, h3⟩ := hconceal [p]
    refine ⟨b', by simp only [BlockOp.step, MerkleBlock.concealOther, h1, ok_bind], h2, fun e => ?_⟩
    rw [h3]
    simp [BlockOp.effect]
  | mergeReveal o =>
    obtain ⟨b', r, h1, h2, h3⟩ := hmerge o ha
    exact ⟨b', by simp only [BlockOp.step, h1, ok_bind], h2, h3⟩
  | mergeRevealPath pr p m =>
    obtain ⟨hl, hn⟩ := ha
    have hl' : pr.path.length < 32 := by omega
    have hw := with_eq pr p m hl'
    have hcv := convolve_eq pr p m hl'
    have hs := with_shows pr p m hl'
    by_cases hpos : protocolIdPos p pr.cofactor (toU5 pr.path.length) = pr.pos
    · rw [if_neg (by simpa using hpos)] at hw hcv
      obtain ⟨b', r, h1, h2, h3⟩ := hmerge _ (Or.inr ⟨_, hs, hn⟩)
      refine ⟨b', by simp only [BlockOp.step, MerkleBlock.mergeRevealPath, hw, h1, ok_bind], h2, ?_⟩
      intro e
      rw [h3, shows_known hs, path_known]
      have hcc := shows_commitId hs
      dsimp only at hcc
      simp only [BlockOp.effect, List.mem_singleton]
      have : MerkleBlock.commitId ⟨pr.method, toU5 pr.path.length, pr.cofactor,
          (PT.path p m pr.pos.toNat pr.path).frontier 0, none⟩ = .ok T.specCommitment ↔
          pr.convolve p m = .ok (.ok T.specCommitment) := by
        rw [hcc, hcv, widthLimit, toU5_val hl']
        simp
      rw [this]
    · rw [if_pos (by simpa using hpos)] at hw hcv
      refine ⟨b, by simp only [BlockOp.step, MerkleBlock.mergeRevealPath, hw, ok_bind], hb, fun e => ?_⟩
      simp only [BlockOp.effect]
      rw [hcv]
      simp

theorem effect_congr [Env] {c : Commitment} {K L : ProtocolId × Message → Prop} (h : ∀ e, K e ↔ L e)
    (op : BlockOp) : ∀ e, op.effect c K e ↔ op.effect c L e := by
  intro e
  cases op <;> simp only [BlockOp.effect, h]

theorem effects_congr [Env] {c : Commitment} : ∀ (ops : List BlockOp) {K L : ProtocolId × Message → Prop},
    (∀ e, K e ↔ L e) → ∀ e, effects c K ops e ↔ effects c L ops e
  | [], _, _, h => h
  | op :: ops, _, _, h => effects_congr ops (effect_congr h op)

theorem run_ofTree [Env] {T : MerkleTree} : ∀ (ops : List BlockOp) {b : MerkleBlock}, b.OfTree T →
    (∀ op ∈ ops, op.Admissible T) →
    ∃ b', b.run ops = .ok b' ∧ b'.OfTree T ∧
      ∀ e, e ∈ b'.knownMessages ↔ effects T.specCommitment (· ∈ b.knownMessages) ops e
  | [], b, hb, _ => ⟨b, rfl, hb, fun _ => Iff.rfl⟩
  | op :: ops, b, hb, ha => by
    obtain ⟨b1, h1, h2, h3⟩ := step_ofTree hb (ha op (List.mem_cons_self ..))
    obtain ⟨b2, h4, h5, h6⟩ := run_ofTree ops h2 (fun o ho => ha o (List.mem_cons_of_mem _ ho))
    refine ⟨b2, by simp only [MerkleBlock.run, h1, ok_bind, h4], h5, fun e => ?_⟩
    rw [h6]
    exact effects_congr ops h3 e

end CSV
