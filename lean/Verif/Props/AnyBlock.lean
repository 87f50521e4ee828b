import Verif.Proofs.Settle
import Verif.Props.Conceal
import Verif.Proofs.CommitChar
import Verif.Props.KnownMap
import Verif.Proofs.History

/-!
# C79, C80: concealing and proving with blocks that are known only to have a commitment

A block received from elsewhere need not be structurally valid; all that can be checked by hashing is that
it has a commitment (C29). This is enough for concealing to work, in both profiles; and in a debug
build it is known exactly for which protocols proofs can be taken from the block. For proofs in release
builds see `ReleaseProofs`.
-/

namespace CSV

/-- Hidden pairs below the leaves do not survive the aggregation. -/
theorem fits_minimal {D : Nat} : ∀ {t : PT} {d : Nat}, t.Fits (min (D + 1) 31) D d → t.Minimal →
    d ≤ D → t.Fits D D d := by
  intro t
  induction t with
  | hidden h => intro d _ _ hd; exact hd
  | leaf p m => intro d hf _ _; exact hf
  | node l r ihl ihr =>
    intro d hf hm hd
    by_cases h : d + 1 ≤ D
    · exact ⟨ihl hf.1 hm.2.1 h, ihr hf.2 hm.2.2 h⟩
    · exfalso
      have : d = D := by omega
      subst this
      obtain ⟨h1, rfl⟩ := PT.fits_last (by omega) hf.1
      obtain ⟨h2, rfl⟩ := PT.fits_last (by omega) hf.2
      exact hm.1 ⟨rfl, rfl⟩

/-- What `conceal_except` does to a block made of any complete tree. -/
private theorem concealExcept_tree [Env] {b : MerkleBlock} {t : PT} (hcs : b.crossSection = t.frontier 0)
    (hf : t.Fits (min (b.depth.val + 1) 31) b.depth.val 0) (ps : List ProtocolId) :
    (∃ n, (∀ p ∈ ps, p ∈ b.knownProtocolIds) ∧
      b.concealExcept ps = .ok ({ b with
        crossSection := ((t.hideLeaves ps.contains).canon (2 ^ b.depth.val) 0).frontier 0
        entropy := none }, .ok n)) ∨
    (∃ p, p ∈ ps ∧ p ∉ b.knownProtocolIds ∧
      b.concealExcept ps = .ok ({ b with
        crossSection := (t.hideLeaves ps.contains).frontier 0, entropy := none }, .error ⟨p⟩)) := by
  have hD := b.depth.isLt
  cases hm : missing b ps with
  | nil =>
    left
    obtain ⟨k, h1, -⟩ := concealOuter_tree (H := min (b.depth.val + 1) 31) (D := b.depth) (by omega) (by omega)
      (((t.hideLeaves ps.contains).frontier 0).length + 1) (t.hideLeaves ps.contains)
      (t.known.countP (fun e => !ps.contains e.1)) (PT.fits_hideLeaves (by omega) hf) (by omega)
    refine ⟨t.known.countP (fun e => !ps.contains e.1) + k, missing_eq_nil.1 hm, ?_⟩
    rw [concealExcept_eq, hm]
    simp only
    rw [hcs, map_hideNode_frontier hf, revealed_frontier, h1]
    rfl
  | cons p l =>
    right
    have hp := mem_missing.1 (show p ∈ missing b ps by rw [hm]; exact List.mem_cons_self ..)
    refine ⟨p, hp.1, hp.2, ?_⟩
    rw [concealExcept_eq, hm]
    simp only
    rw [hcs, map_hideNode_frontier hf]

/-- Trees with one root have one commitment. -/
private theorem commit_same [Env] {b b' : MerkleBlock} {t u : PT} (hcs : b'.crossSection = u.frontier 0)
    (hd : b'.depth = b.depth) (hc : b'.cofactor = b.cofactor)
    (hf : u.Fits (min (b.depth.val + 1) 31) b.depth.val 0)
    (hr : u.root (2 ^ b.depth.val) 0 = t.root (2 ^ b.depth.val) 0) :
    b'.commitId = .ok (commitmentHash ⟨b.depth, b.cofactor, t.root (2 ^ b.depth.val) 0⟩) := by
  rw [(C29_both_profiles b').1 u hcs (by rw [hd]; exact hf), hd, hc, hr]

/-! ## C79 -/

/-- **C79** Concealing works on every block made of a complete binary tree, also one with hidden nodes a level
below the leaves (in both profiles): it does not panic, keeps the commitment, method, depth and
cofactor, leaves exactly the requested messages revealed, succeeds exactly if all of them were revealed,
and the block it makes when it succeeds is structurally valid and minimal. -/
theorem C79_tree [Env] (b : MerkleBlock) (t : PT) (hcs : b.crossSection = t.frontier 0)
    (hf : t.Fits (min (b.depth.val + 1) 31) b.depth.val 0) (ps : List ProtocolId) :
    ∃ b' r c, b.concealExcept ps = .ok (b', r) ∧ b.commitId = .ok c ∧ b'.commitId = .ok c ∧
      b'.method = b.method ∧ b'.depth = b.depth ∧ b'.cofactor = b.cofactor ∧ b'.entropy = none ∧
      b'.knownMessages = b.knownMessages.filter (fun e => e.1 ∈ ps) ∧
      ((∃ n, r = .ok n) ↔ ∀ p ∈ ps, p ∈ b.knownProtocolIds) ∧
      (∀ n, r = .ok n → ∃ u, b'.Shows u ∧ u.Minimal) := by
  have hfilter : ∀ u : PT, u.known = t.known.filter (fun e => ps.contains e.1) →
      revealed (u.frontier 0) = b.knownMessages.filter (fun e => e.1 ∈ ps) := by
    intro u hu
    rw [revealed_frontier, hu, knownMessages_eq, hcs, revealed_frontier]
    congr 1
    funext e
    rw [Bool.eq_iff_iff]
    simp
  rcases concealExcept_tree hcs hf ps with ⟨n, hk, h⟩ | ⟨p, hp, hk, h⟩
  · refine ⟨_, _, _, h, (C29_both_profiles b).1 t hcs hf, ?_, rfl, rfl, rfl, rfl, ?_, ?_, ?_⟩
    · exact commit_same rfl rfl rfl (PT.fits_canon (PT.fits_hideLeaves (by omega) hf))
        (by rw [PT.root_canon, PT.root_hideLeaves])
    · exact hfilter _ (by rw [PT.known_canon, PT.known_hideLeaves])
    · exact ⟨fun _ => hk, fun _ => ⟨n, rfl⟩⟩
    · intro _ _
      exact ⟨_, ⟨rfl, fits_minimal (PT.fits_canon (PT.fits_hideLeaves (by omega) hf)) PT.minimal_canon
        (Nat.zero_le _)⟩, PT.minimal_canon⟩
  · refine ⟨_, _, _, h, (C29_both_profiles b).1 t hcs hf, ?_, rfl, rfl, rfl, rfl, ?_, ?_, ?_⟩
    · exact commit_same rfl rfl rfl (PT.fits_hideLeaves (by omega) hf) PT.root_hideLeaves
    · exact hfilter _ PT.known_hideLeaves
    · exact ⟨fun ⟨_, h⟩ => (nomatch h), fun h => absurd (h p hp) hk⟩
    · intro _ h; nomatch h

/-- Hence, in a debug build, on every block that has a commitment. -/
private theorem conceals_debug [Env] (hd : dbg = true) (b : MerkleBlock) (c : Commitment) (hc : b.commitId = .ok c)
    (ps : List ProtocolId) :
    ∃ b' r, b.concealExcept ps = .ok (b', r) ∧ b'.commitId = .ok c ∧
      b'.method = b.method ∧ b'.depth = b.depth ∧ b'.cofactor = b.cofactor ∧ b'.entropy = none ∧
      b'.knownMessages = b.knownMessages.filter (fun e => e.1 ∈ ps) ∧
      ((∃ n, r = .ok n) ↔ ∀ p ∈ ps, p ∈ b.knownProtocolIds) ∧
      (∀ n, r = .ok n → ∃ u, b'.Shows u ∧ u.Minimal) := by
  obtain ⟨t, hcs, hf, -⟩ := (C29_debug hd b c).1 hc
  obtain ⟨b', r, c', h1, h2, h3, h⟩ := C79_tree b t hcs hf ps
  rw [hc] at h2
  cases h2
  exact ⟨b', r, h1, h3, h⟩

private theorem iff_debug [Env] (hd : dbg = true) (b b' : MerkleBlock) (ps : List ProtocolId)
    (r : Except LeafNotKnown Nat) (h : b.concealExcept ps = .ok (b', r)) (c : Commitment) :
    b'.commitId = .ok c ↔ b.commitId = .ok c := by
  constructor
  · intro hc
    have key : b'.depth = b.depth ∧ b'.cofactor = b.cofactor ∧ ∀ root,
        IsTree b.depth root b'.crossSection →
        IsTree b.depth root (b.crossSection.map (hideNode b.depth ps.contains)) := by
      rw [concealExcept_eq] at h
      cases hm : missing b ps with
      | cons p l =>
        rw [hm] at h
        cases h
        exact ⟨rfl, rfl, fun _ h => h⟩
      | nil =>
        rw [hm] at h
        simp only at h
        rw [bind_ok_iff] at h
        obtain ⟨⟨cs, n⟩, ho, h⟩ := h
        cases h
        exact ⟨rfl, rfl, fun root h => concealOuter_undo _ IsTree.expand _ _ _ ho h⟩
    obtain ⟨t, h1, h2, h3⟩ := (C29_debug hd b' c).1 hc
    obtain ⟨k1, k2, k3⟩ := key
    rw [k1] at h2 h3
    obtain ⟨u, e1, e2, e3⟩ := k3 _ ⟨t, h1, h2, rfl⟩
    obtain ⟨v, f1, f2, f3⟩ := unhide e1 e2
    rw [(C29_debug hd b c)]
    refine ⟨v, f1, f2, ?_⟩
    rw [h3, k2]
    show commitmentHash ⟨_, _, t.root (widthLimit b.depth) 0⟩ = commitmentHash ⟨_, _, v.root (widthLimit b.depth) 0⟩
    rw [f3, e3]
  · intro hc
    obtain ⟨b1, r1, h1, h2, -⟩ := conceals_debug hd b c hc ps
    rw [h] at h1
    cases h1
    exact h2

/-- Undoing joins reveals nothing. -/
private theorem Expand.revealed [Env] {D : U5} {a b : List TreeNode} (h : Expand D a b) :
    CSV.revealed b = CSV.revealed a := by
  induction h with
  | nil => rfl
  | @keep n a b _ ih =>
    rw [show n :: b = [n] ++ b from rfl, show n :: a = [n] ++ a from rfl, revealed_append, revealed_append, ih]
  | pair _ _ _ ih => exact ih

private theorem revealed_hide [Env] {D : U5} {keep : ProtocolId → Bool} : ∀ cs : List TreeNode,
    revealed (cs.map (hideNode D keep)) = (revealed cs).filter (fun e => keep e.1)
  | [] => rfl
  | .concealed d h :: cs => revealed_hide cs
  | .leaf p m :: cs => by
    have ih := revealed_hide (D := D) (keep := keep) cs
    rw [List.map_cons, show TreeNode.leaf p m :: cs = [.leaf p m] ++ cs from rfl, revealed_append,
      List.filter_append, ← ih, show ∀ x (l : List TreeNode), x :: l = [x] ++ l from fun _ _ => rfl,
      revealed_append]
    congr 1
    simp only [hideNode]
    by_cases hk : keep p
    · simp [hk, revealed]
    · simp [hk, revealed]

/-- **C79** In both profiles and whatever the block, also one with no commitment: if `conceal_except`
returns, the block keeps method, depth and cofactor, has no entropy and reveals exactly the requested
messages it revealed; the call is successful exactly if it revealed all of them; and if the block has a
commitment before and afterwards, it is the same. -/
theorem C79_any [Env] (b b' : MerkleBlock) (ps : List ProtocolId)
    (r : Except LeafNotKnown Nat) (h : b.concealExcept ps = .ok (b', r)) :
    b'.method = b.method ∧ b'.depth = b.depth ∧ b'.cofactor = b.cofactor ∧ b'.entropy = none ∧
    b'.knownMessages = b.knownMessages.filter (fun e => e.1 ∈ ps) ∧
    ((∃ n, r = .ok n) ↔ ∀ p ∈ ps, p ∈ b.knownProtocolIds) ∧
    b'.crossSection.length ≤ b.crossSection.length ∧
    ∀ c c', b.commitId = .ok c → b'.commitId = .ok c' → c = c' := by
  have hmiss : missing b ps = [] ↔ ∀ p ∈ ps, p ∈ b.knownProtocolIds := by
    rw [missing, List.filter_eq_nil_iff, knownIds_map, knownMessages_eq]
    simp [mem_bsetOfList]
  have key : (b'.method = b.method ∧ b'.depth = b.depth ∧ b'.cofactor = b.cofactor ∧ b'.entropy = none) ∧
      revealed b'.crossSection = revealed (b.crossSection.map (hideNode b.depth ps.contains)) ∧
      ((∃ n, r = .ok n) ↔ missing b ps = []) ∧ b'.crossSection.length ≤ b.crossSection.length ∧
      ∀ root, StartsWith b.depth root b'.crossSection →
        StartsWith b.depth root (b.crossSection.map (hideNode b.depth ps.contains)) := by
    rw [concealExcept_eq] at h
    cases hm : missing b ps with
    | cons p l =>
      rw [hm] at h
      cases h
      refine ⟨⟨rfl, rfl, rfl, rfl⟩, rfl, by simp, by simp, fun _ h => h⟩
    | nil =>
      rw [hm] at h
      simp only at h
      rw [bind_ok_iff] at h
      obtain ⟨⟨cs, n⟩, ho, h⟩ := h
      cases h
      refine ⟨⟨rfl, rfl, rfl, rfl⟩, ?_, by simp, ?_, fun root h => concealOuter_undo _ StartsWith.expand _ _ _ ho h⟩
      · have := concealOuter_undo (fun l => revealed l = revealed cs) (fun a b he ha => he.revealed.trans ha)
          _ _ _ ho rfl
        exact this.symm
      · have := concealOuter_undo (fun l => cs.length ≤ l.length) (fun a b he ha => ?_) _ _ _ ho (Nat.le_refl _)
        · simpa using this
        · refine Nat.le_trans ha ?_
          clear ha
          induction he with
          | nil => exact Nat.le_refl _
          | keep _ ih => simp only [List.length_cons]; omega
          | pair _ _ _ ih => simp only [List.length_cons]; omega
  obtain ⟨⟨k1, k2, k3, k4⟩, k5, k6, k7, k8⟩ := key
  refine ⟨k1, k2, k3, k4, ?_, k6.trans hmiss, k7, fun c c' hc hc' => ?_⟩
  · rw [knownMessages_eq, knownMessages_eq, k5, revealed_hide]
    congr 1
    funext e
    rw [Bool.eq_iff_iff]
    simp
  · obtain ⟨t, rest, e1, f1, g1⟩ := (C29_both_profiles b).2 c hc
    obtain ⟨t', rest', e2, f2, g2⟩ := (C29_both_profiles b').2 c' hc'
    rw [k2] at f2
    obtain ⟨u, restu, e3, f3, g3⟩ := k8 _ ⟨t', rest', e2, f2, rfl⟩
    rw [List.map_eq_append_iff] at e3
    obtain ⟨c1, c2, e4, e5, e6⟩ := e3
    obtain ⟨v, rfl, f4, g4⟩ := unhide e5 f3
    have hD := b.depth.isLt
    obtain ⟨rfl, -⟩ := frontier_inj (by omega) (by omega) f1 f4 (e1.symm.trans e4)
    rw [g1, g2, k2, k3]
    show commitmentHash ⟨_, _, t.root (widthLimit b.depth) 0⟩ = commitmentHash ⟨_, _, t'.root (widthLimit b.depth) 0⟩
    rw [g4, g3]

/-- In a release build: equal results of joining are equal commitments. -/
private theorem commit_of_settle [Env] (hd : dbg = false) {b b' : MerkleBlock} (h1 : b'.depth = b.depth)
    (h2 : b'.cofactor = b.cofactor) (h : settle b.depth [] (b'.crossSection.map (hideAll b.depth)) =
      settle b.depth [] (b.crossSection.map (hideAll b.depth))) (c : Commitment) :
    b'.commitId = .ok c ↔ b.commitId = .ok c := by
  rw [MerkleBlock.commitId_eq, MerkleBlock.commitId_eq, bind_ok_iff, bind_ok_iff]
  constructor
  · rintro ⟨x, hx, hc⟩
    rw [conceal_settle hd, h1, h2, h, ← conceal_settle hd] at hx
    exact ⟨x, hx, hc⟩
  · rintro ⟨x, hx, hc⟩
    rw [conceal_settle hd, ← h, ← h1, ← h2, ← conceal_settle hd] at hx
    exact ⟨x, hx, hc⟩

/-- **C79** Concealing does not give a commitment to a block that has none, nor another one: in both profiles,
whatever the block, if `conceal_except` returns - successfully or not - the block has a commitment
exactly if it had it before. -/
theorem C79_iff [Env] (b b' : MerkleBlock) (ps : List ProtocolId)
    (r : Except LeafNotKnown Nat) (h : b.concealExcept ps = .ok (b', r)) (c : Commitment) :
    b'.commitId = .ok c ↔ b.commitId = .ok c := by
  cases hd : dbg with
  | true => exact iff_debug hd b b' ps r h c
  | false =>
    obtain ⟨-, h1, h2, -⟩ := C79_any b b' ps r h
    have hs := concealExcept_settle hd b ps
    rw [h] at hs
    exact commit_of_settle hd h1 h2 hs c

/-- **C79** Having a commitment is enough: in both profiles `conceal_except` does not panic on a block that has
one, keeps it, and does what it should; and in a debug build the block it makes when it succeeds is
structurally valid and minimal. -/
theorem C79_conceals [Env] (b : MerkleBlock) (c : Commitment) (hc : b.commitId = .ok c) (ps : List ProtocolId) :
    ∃ b' r, b.concealExcept ps = .ok (b', r) ∧ b'.commitId = .ok c ∧
      b'.method = b.method ∧ b'.depth = b.depth ∧ b'.cofactor = b.cofactor ∧ b'.entropy = none ∧
      b'.knownMessages = b.knownMessages.filter (fun e => e.1 ∈ ps) ∧
      ((∃ n, r = .ok n) ↔ ∀ p ∈ ps, p ∈ b.knownProtocolIds) ∧
      (dbg = true → ∀ n, r = .ok n → ∃ u, b'.Shows u ∧ u.Minimal) := by
  cases hd : dbg with
  | true =>
    obtain ⟨b', r, h1, h2, h3, h4, h5, h6, h7, h8, h9⟩ := conceals_debug hd b c hc ps
    exact ⟨b', r, h1, h2, h3, h4, h5, h6, h7, h8, fun _ => h9⟩
  | false =>
    have hs := concealExcept_settle hd b ps
    cases h : b.concealExcept ps with
    | error e =>
      exfalso
      rw [h] at hs
      rw [MerkleBlock.commitId_eq, bind_ok_iff] at hc
      obtain ⟨x, hx, -⟩ := hc
      obtain ⟨_, _, h', -⟩ := (conceal_settle hd b x).1 hx
      rw [hs] at h'
      cases h'
    | ok x =>
      obtain ⟨b', r⟩ := x
      obtain ⟨h1, h2, h3, h4, h5, h6, -⟩ := C79_any b b' ps r h
      exact ⟨b', r, rfl, (C79_iff b b' ps r h c).2 hc, h1, h2, h3, h4, h5, h6, fun h => by cases h⟩

/-- **C14** Exactly what a failed `conceal_except` does, to any block and in both profiles: the leaves that
were not requested are replaced by their hashes, and the entropy is dropped. So the block is
unchanged exactly if it has no entropy and reveals nothing but requested messages. -/
theorem C14_exact [Env] (b b' : MerkleBlock) (ps : List ProtocolId) (e : LeafNotKnown)
    (h : b.concealExcept ps = .ok (b', .error e)) :
    b' = { b with
      entropy := none
      crossSection := b.crossSection.map fun
        | .concealed d x => .concealed d x
        | .leaf p m => if p ∈ ps then .leaf p m else .concealed b.depth (leafHash (.inhabited p m)) } ∧
    (b' = b ↔ b.entropy = none ∧ ∀ x ∈ b.knownMessages, x.1 ∈ ps) := by
  have key : b' = { b with entropy := none, crossSection := b.crossSection.map (hideNode b.depth ps.contains) } := by
    rw [concealExcept_eq] at h
    cases hm : missing b ps with
    | cons p l =>
      rw [hm] at h
      cases h
      rfl
    | nil =>
      rw [hm] at h
      simp only at h
      rw [bind_ok_iff] at h
      obtain ⟨⟨cs, n⟩, -, h⟩ := h
      cases h
  refine ⟨?_, ?_⟩
  · rw [key]
    congr 1
    apply List.map_congr_left
    intro n _
    cases n with
    | concealed d x => rfl
    | leaf p m => simp [hideNode]
  · have hk : (∀ x ∈ b.knownMessages, x.1 ∈ ps) ↔
        b.crossSection.map (hideNode b.depth ps.contains) = b.crossSection := by
      rw [knownMessages_eq]
      induction b.crossSection with
      | nil => simp [revealed]
      | cons n cs ih =>
        rw [List.map_cons, List.cons.injEq, ← ih, show n :: cs = [n] ++ cs from rfl, revealed_append]
        simp only [List.mem_append, or_imp, forall_and]
        refine and_congr_left fun _ => ?_
        cases n with
        | concealed d x => simp [revealed, hideNode]
        | leaf p m => simp [revealed, hideNode]
    rw [hk, key]
    constructor
    · intro h
      exact ⟨(congrArg MerkleBlock.entropy h).symm, congrArg MerkleBlock.crossSection h⟩
    · rintro ⟨h1, h2⟩
      rw [h2, ← h1]

/-- **C14** Exactly what a failed `conceal_other` does, to any block and in both profiles: all leaves are replaced by their
hashes, and the entropy is dropped. So the block is unchanged exactly if it has no entropy and reveals nothing. -/
theorem C14_conceal_other [Env] (b b' : MerkleBlock) (p : ProtocolId) (e : LeafNotKnown)
    (h : b.concealOther p = .ok (b', .error e)) :
    e = ⟨p⟩ ∧ p ∉ b.knownProtocolIds ∧
    b' = { b with
      entropy := none
      crossSection := b.crossSection.map fun
        | .concealed d x => .concealed d x
        | .leaf q m => .concealed b.depth (leafHash (.inhabited q m)) } ∧
    (b' = b ↔ b.entropy = none ∧ b.knownProtocolIds = []) := by
  obtain ⟨⟨b1, r⟩, hx, h⟩ := (bind_ok_iff ..).1 h
  cases r with
  | ok n => cases h
  | error e' =>
    cases h
    obtain ⟨h1, h2⟩ := C14_exact b b' [p] e hx
    have h3 : e = ⟨p⟩ ∧ p ∉ b.knownProtocolIds := by
      rw [concealExcept_eq] at hx
      cases hm : missing b [p] with
      | nil =>
        rw [hm] at hx
        simp only at hx
        obtain ⟨⟨cs, n⟩, -, hx⟩ := (bind_ok_iff ..).1 hx
        cases hx
      | cons q l =>
        have hq : q ∈ missing b [p] := by rw [hm]; exact List.mem_cons_self
        obtain ⟨hq1, hq2⟩ := mem_missing.1 hq
        rw [List.mem_singleton] at hq1
        subst hq1
        rw [hm] at hx
        cases hx
        exact ⟨rfl, hq2⟩
    refine ⟨h3.1, h3.2, ?_, ?_⟩
    · rw [h1]
      congr 1
      apply List.map_congr_left
      intro n hn
      cases n with
      | concealed d x => rfl
      | leaf q m =>
        have : q ≠ p := by
          rintro rfl
          exact h3.2 (by
            rw [MerkleBlock.knownProtocolIds]
            exact List.mem_filterMap.2 ⟨_, hn, rfl⟩)
        simp [this]
    · rw [h2]
      refine and_congr_right fun _ => ?_
      rw [knownIds_map]
      constructor
      · intro hk
        cases hb : b.knownMessages with
        | nil => rfl
        | cons x l =>
          have h4 := hk x (by rw [hb]; exact List.mem_cons_self)
          rw [List.mem_singleton] at h4
          refine absurd ?_ h3.2
          rw [knownIds_map, hb, ← h4]
          exact List.mem_cons_self
      · intro hk x hx
        rw [List.map_eq_nil_iff.1 hk] at hx
        cases hx

/-- Non-vacuity: asked to conceal all but a protocol that it does not reveal, the sample block fails and hides all its
messages. -/
example [Env] : ∃ b' e, Sample.block.concealOther Sample.p9 = .ok (b', .error e) ∧ b' ≠ Sample.block := by
  obtain ⟨b', r, -, h, -, -, -, -, -, hr⟩ := C10_conceal_other Sample.block Sample.valid Sample.p9
  have h1 : r = .error ⟨Sample.p9⟩ := hr.2 (by simp [MerkleBlock.knownProtocolIds, Sample.block]; decide)
  subst h1
  refine ⟨b', _, h, fun hb => ?_⟩
  have := ((C14_conceal_other _ _ _ _ h).2.2.2.1 hb).2
  cases this

/-! ## C80 -/

/-- In a minimal tree, below a node with two revealed leaves there is a depth with no hidden node. -/
private theorem depth_gap {D : Nat} : ∀ {t : PT} {d : Nat}, t.Fits D D d → t.Minimal → d ≤ D → D < 32 →
    (t.isHidden = false → ∀ e h, TreeNode.concealed e h ∈ t.frontier d → d < e.val ∧ e.val ≤ D) ∧
    (2 ≤ t.known.length → ∃ g, d < g ∧ g ≤ D ∧ ∀ e h, TreeNode.concealed e h ∈ t.frontier d → e.val ≠ g) := by
  intro t
  induction t with
  | hidden h => intro d _ _ _ _; exact ⟨by simp [PT.isHidden], by simp [PT.known]⟩
  | leaf p m => intro d _ _ _ _; exact ⟨by simp [PT.frontier], by simp [PT.known]⟩
  | node l r ihl ihr =>
    intro d hf hm hd hD
    have hd1 : d + 1 ≤ D := by
      rcases Nat.lt_or_ge d D with h | h
      · exact h
      · exfalso
        have : d = D := by omega
        subst this
        obtain ⟨h1, rfl⟩ := PT.fits_last (H := d) (by omega) hf.1
        obtain ⟨h2, rfl⟩ := PT.fits_last (H := d) (by omega) hf.2
        exact hm.1 ⟨rfl, rfl⟩
    obtain ⟨l1, l2⟩ := ihl hf.1 hm.2.1 hd1 hD
    obtain ⟨r1, r2⟩ := ihr hf.2 hm.2.2 hd1 hD
    have hid : ∀ (x : PT) (e : U5) (h : MerkleHash), x.isHidden = true →
        TreeNode.concealed e h ∈ x.frontier (d + 1) → e.val = d + 1 := by
      intro x e h hx he
      cases x with
      | hidden h' =>
        simp only [PT.frontier, List.mem_cons, TreeNode.concealed.injEq, List.not_mem_nil, or_false] at he
        rw [he.1, toU5_val (by omega)]
      | leaf p m => simp [PT.isHidden] at hx
      | node a b => simp [PT.isHidden] at hx
    have hrange : ∀ (x : PT), (x.isHidden = false → ∀ e h, TreeNode.concealed e h ∈ x.frontier (d + 1) →
        d + 1 < e.val ∧ e.val ≤ D) → ∀ e h, TreeNode.concealed e h ∈ x.frontier (d + 1) →
        d < e.val ∧ e.val ≤ D := by
      intro x hx e h he
      cases hh : x.isHidden with
      | true => have := hid x e h hh he; omega
      | false => have := hx hh e h he; omega
    constructor
    · intro _ e h he
      simp only [PT.frontier, List.mem_append] at he
      exact he.elim (hrange l l1 e h) (hrange r r1 e h)
    · intro hk
      simp only [PT.known, List.length_append] at hk
      cases hl : l.isHidden with
      | true =>
        cases l with
        | hidden h' =>
          obtain ⟨g, g1, g2, g3⟩ := r2 (by simpa [PT.known] using hk)
          refine ⟨g, by omega, g2, fun e h he => ?_⟩
          simp only [PT.frontier, List.mem_append] at he
          rcases he with he | he
          · have := hid (.hidden h') e h rfl (by simpa [PT.frontier] using he); omega
          · exact g3 e h he
        | leaf p m => simp [PT.isHidden] at hl
        | node a b => simp [PT.isHidden] at hl
      | false =>
        cases hr : r.isHidden with
        | true =>
          cases r with
          | hidden h' =>
            obtain ⟨g, g1, g2, g3⟩ := l2 (by simpa [PT.known] using hk)
            refine ⟨g, by omega, g2, fun e h he => ?_⟩
            simp only [PT.frontier, List.mem_append] at he
            rcases he with he | he
            · exact g3 e h he
            · have := hid (.hidden h') e h rfl (by simpa [PT.frontier] using he); omega
          | leaf p m => simp [PT.isHidden] at hr
          | node a b => simp [PT.isHidden] at hr
        | false =>
          refine ⟨d + 1, by omega, hd1, fun e h he => ?_⟩
          simp only [PT.frontier, List.mem_append] at he
          rcases he with he | he
          · have := l1 hl e h he; omega
          · have := r1 hr e h he; omega

/-- What `collectPath` returns. -/
theorem collectPath_keys [Env] : ∀ (cs : List TreeNode) (m : List (U5 × MerkleHash)), BMapOk m →
    (∃ m', collectPath cs m = .ok m' ∧ BMapOk m' ∧
      ∀ k ∈ m'.map Prod.fst, k ∈ m.map Prod.fst ∨ ∃ h, TreeNode.concealed k h ∈ cs) ∨
    (dbg = true ∧ collectPath cs m = .error .debugAssert) := by
  intro cs
  induction cs with
  | nil => intro m hm; exact .inl ⟨m, rfl, hm, fun k hk => .inl hk⟩
  | cons x cs ih =>
    intro m hm
    cases x with
    | leaf p s =>
      rcases ih m hm with ⟨m', h1, h2, h3⟩ | ⟨h1, h2⟩
      · exact .inl ⟨m', h1, h2, fun k hk => (h3 k hk).imp id fun ⟨h, hh⟩ => ⟨h, List.mem_cons_of_mem _ hh⟩⟩
      · exact .inr ⟨h1, h2⟩
    | concealed d h =>
      rw [collectPath]
      by_cases hi : dbg = true ∧ (bmapGet d m).isNone = false
      · right
        refine ⟨hi.1, ?_⟩
        simp only [debugAssert, hi.1, hi.2]
        rfl
      · have : debugAssert dbg (bmapGet d m).isNone = .ok () := by
          rw [debugAssert, if_neg]
          simpa using hi
        simp only [this, ok_bind]
        rcases ih (bmapInsert d h m) (bmapInsert_sorted hm) with ⟨m', h1, h2, h3⟩ | ⟨h1, h2⟩
        · refine .inl ⟨m', h1, h2, fun k hk => ?_⟩
          rcases h3 k hk with h4 | ⟨h', h4⟩
          · rcases mem_bmapInsert_key.1 h4 with rfl | h5
            · exact .inr ⟨h, List.mem_cons_self ..⟩
            · exact .inl h5
          · exact .inr ⟨h', List.mem_cons_of_mem _ h4⟩
        · exact .inr ⟨h1, h2⟩

/-- Extracting a proof from a block which reveals the protocol more than once. -/
private theorem toMerkleProof_twice [Env] {b b1 : MerkleBlock} {u : PT} {p : ProtocolId} {n : Nat}
    (hc : b.concealExcept [p] = .ok (b1, .ok n)) (hm : b1.method = b.method) (hd : b1.depth = b.depth)
    (hco : b1.cofactor = b.cofactor) (hs : b1.Shows u) (hmin : u.Minimal) (hk : 2 ≤ u.known.length) :
    (dbg = true → b.toMerkleProof p = .error .debugAssert) ∧
    (dbg = false → ∃ path : List MerkleHash, path.length < b.depth.val ∧
      b.toMerkleProof p = .ok (.ok ⟨b.method, b.protocolIdPos p, b.cofactor, path⟩)) := by
  have hD := b.depth.isLt
  obtain ⟨hcs, hf⟩ := hs
  rw [hd] at hf
  obtain ⟨g1, g2⟩ := depth_gap hf hmin (Nat.zero_le _) hD
  obtain ⟨g, ga, gb, gc⟩ := g2 hk
  have hnh : u.isHidden = false := by
    cases u with
    | hidden h => simp [PT.known] at hk
    | leaf _ _ => rfl
    | node _ _ => rfl
  have hpre : b.toMerkleProof p = (do
      let map ← collectPath (u.frontier 0) []
      debugAssert dbg (decide (b.depth.val = map.length))
      let path := map.map Prod.snd
      if path.length ≤ 32 then
        .ok (.ok ⟨b.method, b.protocolIdPos p, b.cofactor, path⟩)
      else .error .expect) := by
    rw [MerkleBlock.toMerkleProof, MerkleBlock.concealOther, hc]
    simp only [ok_bind, Except.map, hcs, hd, hm, hco, MerkleBlock.protocolIdPos]
  rcases collectPath_keys (u.frontier 0) [] (by simp [BMapOk]) with ⟨m', h1, h2, h3⟩ | ⟨h1, h2⟩
  · have hlt : m'.length < b.depth.val := by
      have hn : (m'.map fun e => e.1.val).Nodup := by
        rw [List.Nodup, List.pairwise_map]
        exact List.Pairwise.imp (fun h => Nat.ne_of_lt h) h2
      have hsub : ∀ x ∈ m'.map (fun e => e.1.val), x ∈ (List.range' 1 b.depth.val).erase g := by
        intro x hx
        obtain ⟨e, he, rfl⟩ := List.mem_map.1 hx
        rcases h3 e.1 (List.mem_map_of_mem he) with h4 | ⟨h, h4⟩
        · simp at h4
        · have h5 := g1 hnh e.1 h h4
          have h6 := gc e.1 h h4
          rw [List.mem_erase_of_ne h6, List.mem_range'_1]
          omega
      have := nodup_length _ _ hn hsub
      rw [List.length_map, List.length_erase_of_mem (by rw [List.mem_range'_1]; omega), List.length_range'] at this
      omega
    rw [hpre, h1, ok_bind]
    constructor
    · intro hdbg
      have : debugAssert dbg (decide (b.depth.val = m'.length)) = .error .debugAssert := by
        rw [debugAssert, if_pos]
        rw [hdbg]
        simp
        omega
      rw [this]
      rfl
    · intro hdbg
      have : debugAssert dbg (decide (b.depth.val = m'.length)) = .ok () := by
        rw [debugAssert, if_neg]
        rw [hdbg]
        simp
      rw [this]
      refine ⟨m'.map Prod.snd, by rw [List.length_map]; exact hlt, ?_⟩
      simp only [ok_bind]
      rw [if_pos (by rw [List.length_map]; omega)]
  · rw [hpre, h2]
    refine ⟨fun _ => rfl, fun h => ?_⟩
    rw [h1] at h
    cases h

/-- Extracting a proof from a block which reveals the protocol once. -/
private theorem toMerkleProof_once [Env] {b b1 : MerkleBlock} {u : PT} {p : ProtocolId} {m : Message} {n : Nat}
    (hc : b.concealExcept [p] = .ok (b1, .ok n)) (hm : b1.method = b.method) (hd : b1.depth = b.depth)
    (hco : b1.cofactor = b.cofactor) (hs : b1.Shows u) (hmin : u.Minimal) (hk : u.known = [(p, m)]) :
    ∃ (i : Nat) (path : List MerkleHash), (i, (p, m)) ∈ u.slots b.depth.val 0 ∧ path.length = b.depth.val ∧
      u = PT.path p m i path ∧
      b.toMerkleProof p = .ok (.ok ⟨b.method, b.protocolIdPos p, b.cofactor, path⟩) := by
  have hD := b.depth.isLt
  obtain ⟨hcs, hf⟩ := hs
  rw [hd] at hf
  obtain ⟨i, hi⟩ := known_slot (show (p, m) ∈ u.known by rw [hk]; simp) b.depth.val 0
  have hone : ∀ j m', (j, (p, m')) ∈ u.slots b.depth.val 0 → j = i := by
    have hl : (u.slots b.depth.val 0).length = 1 := by
      rw [← List.length_map (f := Prod.snd), slots_known, hk]; rfl
    intro j m' hj
    match hsl : u.slots b.depth.val 0, hl with
    | [x], _ =>
      rw [hsl, List.mem_singleton] at hi hj
      rw [← hi] at hj
      exact congrArg Prod.fst hj
  obtain ⟨h1, h2⟩ := conceal_path (p := p) (m := m) (w := 2 ^ b.depth.val) (n := b.depth.val) (lo := 0) (pos := i)
    hf (by omega) (by simpa using hi) (fun j m' hj => by have := hone j m' hj; omega)
  have hkeep : u.hideLeaves (List.contains [p]) = u := by
    have : ∀ v : PT, (∀ e ∈ v.known, e.1 = p) → v.hideLeaves (List.contains [p]) = v := by
      intro v
      induction v with
      | hidden _ => intro _; rfl
      | leaf q x =>
        intro hv
        have := hv (q, x) (by simp [PT.known])
        simp only at this
        rw [PT.hideLeaves, if_pos (by simp [this])]
      | node l r ihl ihr =>
        intro hv
        simp only [PT.known, List.mem_append] at hv
        rw [PT.hideLeaves, ihl (fun e he => hv e (.inl he)), ihr (fun e he => hv e (.inr he))]
    exact this u (by rw [hk]; simp)
  rw [hkeep, PT.canon_of_minimal hmin] at h1
  refine ⟨i, _, hi, h2, h1, ?_⟩
  generalize u.siblings (2 ^ b.depth.val) 0 b.depth.val i = path at h1 h2 ⊢
  rw [MerkleBlock.toMerkleProof, MerkleBlock.concealOther, hc]
  simp only [ok_bind, Except.map, hcs, hd, hm, hco, MerkleBlock.protocolIdPos]
  rw [h1, collectPath_path p m _ _ _ _ (by omega) (by simp), ok_bind]
  have hlen : (depthMap (0 + 1) path).length = b.depth.val := by
    have := congrArg List.length (depthMap_snd path (0 + 1))
    rw [List.length_map] at this
    omega
  rw [debugAssert_ok (by simp only [List.nil_append, hlen, decide_true]), ok_bind]
  simp only [List.nil_append, depthMap_snd]
  rw [if_pos (by omega)]

private theorem count_filter (l : List (ProtocolId × Message)) (p : ProtocolId) :
    (l.filter (fun e => e.1 ∈ [p])).length = (l.map Prod.fst).count p := by
  induction l with
  | nil => rfl
  | cons e l ih =>
    simp only [List.mem_singleton] at ih ⊢
    rw [List.map_cons, List.count_cons, List.filter_cons]
    by_cases h : e.1 = p
    · simp [h, ih]
    · simp [h, ih]

/-- **C80** Which proofs can be taken from a block made of a complete binary tree with hidden nodes at most
one level below the leaves. A protocol that is not revealed is reported. For one that is revealed once there is a
proof with as many hashes as the block is deep, which gives the commitment of the block if the leaf is
at the slot of the protocol. For one that is revealed more than once the call panics in a debug build and
in a release build gives a proof that is too short, and which does not give the commitment of the block with any
message (unless two different strings hashed have one hash). -/
theorem C80_proofs [Env] (b : MerkleBlock) (t : PT) (hcs : b.crossSection = t.frontier 0)
    (hf : t.Fits (min (b.depth.val + 1) 31) b.depth.val 0) (c : Commitment) (hc : b.commitId = .ok c)
    (p : ProtocolId) :
    (b.knownProtocolIds.count p = 0 → b.toMerkleProof p = .ok (.error ⟨p⟩)) ∧
    (b.knownProtocolIds.count p = 1 → ∃ (i : Nat) (m : Message) (path : List MerkleHash),
      (i, (p, m)) ∈ t.slots b.depth.val 0 ∧ path.length = b.depth.val ∧
      b.toMerkleProof p = .ok (.ok ⟨b.method, b.protocolIdPos p, b.cofactor, path⟩) ∧
      (i = (b.protocolIdPos p).toNat →
        MerkleProof.convolve ⟨b.method, b.protocolIdPos p, b.cofactor, path⟩ p m = .ok (.ok c))) ∧
    (2 ≤ b.knownProtocolIds.count p →
      (dbg = true → b.toMerkleProof p = .error .debugAssert) ∧
      (dbg = false → ∃ pr, b.toMerkleProof p = .ok (.ok pr) ∧ pr.path.length < b.depth.val ∧
        ∀ m, NoCollision (proofInputs pr p m ++ blockInputs b.depth b.cofactor t) →
          pr.convolve p m ≠ .ok (.ok c))) := by
  have hD := b.depth.isLt
  have hcount : b.knownProtocolIds.count p = (b.knownMessages.filter (fun e => e.1 ∈ [p])).length := by
    rw [knownIds_map, count_filter]
  have hcv : c = commitmentHash ⟨b.depth, b.cofactor, t.root (2 ^ b.depth.val) 0⟩ := by
    rw [(C29_both_profiles b).1 t hcs hf] at hc
    exact (Except.ok.inj hc).symm
  constructor
  · intro h0
    have hp : p ∉ b.knownProtocolIds := List.count_eq_zero.1 h0
    rcases concealExcept_tree hcs hf [p] with ⟨n, hk, h⟩ | ⟨q, hq, hk, h⟩
    · exact absurd (hk p (by simp)) hp
    · rw [List.mem_singleton] at hq
      subst hq
      rw [MerkleBlock.toMerkleProof, MerkleBlock.concealOther, h]
      rfl
  · rw [hcount]
    rcases concealExcept_tree hcs hf [p] with ⟨n, hk, h⟩ | ⟨q, hq, hk, h⟩
    · have hmin : ((t.hideLeaves (List.contains [p])).canon (2 ^ b.depth.val) 0).Minimal := PT.minimal_canon
      have hfit := fits_minimal (PT.fits_canon (w := 2 ^ b.depth.val)
        (PT.fits_hideLeaves (keep := List.contains [p]) (by omega) hf)) hmin (Nat.zero_le _)
      have hknown : ((t.hideLeaves (List.contains [p])).canon (2 ^ b.depth.val) 0).known =
          b.knownMessages.filter (fun e => e.1 ∈ [p]) := by
        rw [PT.known_canon, PT.known_hideLeaves, knownMessages_eq, hcs, revealed_frontier]
        congr 1
        funext e
        rw [Bool.eq_iff_iff]
        simp
      have hroot : ((t.hideLeaves (List.contains [p])).canon (2 ^ b.depth.val) 0).root (2 ^ b.depth.val) 0 =
          t.root (2 ^ b.depth.val) 0 := by rw [PT.root_canon, PT.root_hideLeaves]
      have hslots : ∀ e, e ∈ ((t.hideLeaves (List.contains [p])).canon (2 ^ b.depth.val) 0).slots b.depth.val 0 →
          e ∈ t.slots b.depth.val 0 := by
        intro e he
        rw [canon_slots] at he
        exact (hide_slots.1 he).1
      rw [← hknown]
      generalize (t.hideLeaves (List.contains [p])).canon (2 ^ b.depth.val) 0 = u at *
      constructor
      · intro h1
        obtain ⟨m, hm⟩ : ∃ m, u.known = [(p, m)] := by
          match hx : u.known, h1 with
          | [(q, m)], _ =>
            have : (q, m) ∈ b.knownMessages.filter (fun e => e.1 ∈ [p]) := by rw [← hknown, hx]; simp
            simp only [List.mem_filter, List.mem_singleton, decide_eq_true_eq] at this
            exact ⟨m, by rw [this.2]⟩
        obtain ⟨i, path, e1, e2, e3, e4⟩ := toMerkleProof_once h rfl rfl rfl ⟨rfl, hfit⟩ hmin hm
        refine ⟨i, m, path, hslots _ e1, e2, e4, fun hi => ?_⟩
        have hu : toU5 path.length = b.depth := toU5_of_val e2.symm
        rw [convolve_eq _ _ _ (show path.length < 32 by omega)]
        simp only [hu]
        rw [if_neg (by simp [MerkleBlock.protocolIdPos]), ← hi, ← e3, e2, hroot, hcv]
      · intro h2
        obtain ⟨d1, d2⟩ := toMerkleProof_twice h rfl rfl rfl ⟨rfl, hfit⟩ hmin h2
        refine ⟨d1, fun hdbg => ?_⟩
        obtain ⟨path, l1, l2⟩ := d2 hdbg
        refine ⟨_, l2, l1, fun m hn hcon => ?_⟩
        obtain ⟨k1, k2, k3⟩ := convolve_ok (show path.length ≤ 32 by omega) hcon
        rw [hcv] at k3
        have := commitmentInput_inj (hn _ (by simp [blockInputs]) _ (by
          simp [proofInputs, blockInputs, toU5_val (show path.length < 32 by omega)]) k3)
        have := congrArg (fun x => x.depth.val) this
        simp only [toU5_val k1] at this
        omega
    · have : (b.knownMessages.filter (fun e => e.1 ∈ [p])).length = 0 := by
        rw [← hcount]
        rw [List.mem_singleton] at hq
        subst hq
        exact List.count_eq_zero.2 hk
      omega

/-- **C80** In a debug build, for every block that has a commitment: a proof is returned exactly for the protocols
revealed once, the others being reported if they are not revealed and panicking if they are revealed
more than once; all proofs can be taken from a block exactly if it does not reveal a protocol twice. -/
theorem C80_debug [Env] (hd : dbg = true) (b : MerkleBlock) (c : Commitment) (hc : b.commitId = .ok c) :
    (∀ p, (∃ pr, b.toMerkleProof p = .ok (.ok pr)) ↔ b.knownProtocolIds.count p = 1) ∧
    (∀ p, b.toMerkleProof p = .ok (.error ⟨p⟩) ↔ p ∉ b.knownProtocolIds) ∧
    (∀ p, (∃ e, b.toMerkleProof p = .error e) ↔ 2 ≤ b.knownProtocolIds.count p) ∧
    ((∃ l, b.intoKnownProofs = .ok l) ↔ b.knownProtocolIds.Nodup) := by
  obtain ⟨t, hcs, hf, -⟩ := (C29_debug hd b c).1 hc
  have cases : ∀ p, (b.knownProtocolIds.count p = 0 ∧ b.toMerkleProof p = .ok (.error ⟨p⟩)) ∨
      (b.knownProtocolIds.count p = 1 ∧ ∃ pr, b.toMerkleProof p = .ok (.ok pr)) ∨
      (2 ≤ b.knownProtocolIds.count p ∧ b.toMerkleProof p = .error .debugAssert) := by
    intro p
    obtain ⟨h0, h1, h2⟩ := C80_proofs b t hcs hf c hc p
    rcases Nat.lt_or_ge (b.knownProtocolIds.count p) 2 with h | h
    · rcases Nat.lt_or_ge (b.knownProtocolIds.count p) 1 with h' | h'
      · exact .inl ⟨by omega, h0 (by omega)⟩
      · have h'' : b.knownProtocolIds.count p = 1 := by omega
        obtain ⟨_, _, _, _, _, e, _⟩ := h1 h''
        exact .inr (.inl ⟨h'', _, e⟩)
    · exact .inr (.inr ⟨h, (h2 h).1 hd⟩)
  refine ⟨fun p => ?_, fun p => ?_, fun p => ?_, ?_⟩
  · rcases cases p with ⟨h, e⟩ | ⟨h, e⟩ | ⟨h, e⟩
    · rw [e]; simp; omega
    · exact ⟨fun _ => h, fun _ => e⟩
    · rw [e]; simp; omega
  · rw [← List.count_eq_zero]
    rcases cases p with ⟨h, e⟩ | ⟨h, pr, e⟩ | ⟨h, e⟩
    · exact ⟨fun _ => h, fun _ => e⟩
    · rw [e]; simp; omega
    · rw [e]; simp; omega
  · rcases cases p with ⟨h, e⟩ | ⟨h, pr, e⟩ | ⟨h, e⟩
    · rw [e]; simp; omega
    · rw [e]; simp; omega
    · exact ⟨fun _ => h, fun _ => ⟨_, e⟩⟩
  · have key : ∀ l : List ProtocolId, (∃ r, l.mapM (m := Exec) (fun id => do
        let r ← b.toMerkleProof id
        match r with
        | .ok proof => .ok (id, proof)
        | .error _ => .error .expect) = .ok r) ↔ ∀ p ∈ l, b.knownProtocolIds.count p = 1 := by
      intro l
      induction l with
      | nil => simp; exact ⟨_, rfl⟩
      | cons q l ih =>
        rw [List.mapM_cons]
        rcases cases q with ⟨h, e⟩ | ⟨h, pr, e⟩ | ⟨h, e⟩
        · rw [e]
          simp only [ok_bind, error_bind, List.mem_cons, forall_eq_or_imp]
          constructor
          · rintro ⟨_, h⟩; cases h
          · rintro ⟨h', _⟩; omega
        · rw [e]
          simp only [ok_bind, List.mem_cons, forall_eq_or_imp, h, true_and, ← ih]
          constructor
          · rintro ⟨r, hr⟩
            rw [bind_ok_iff] at hr
            obtain ⟨l', h1, -⟩ := hr
            exact ⟨l', h1⟩
          · rintro ⟨r, hr⟩
            rw [hr]
            exact ⟨_, rfl⟩
        · rw [e]
          simp only [error_bind, List.mem_cons, forall_eq_or_imp]
          constructor
          · rintro ⟨_, h⟩; cases h
          · rintro ⟨h', _⟩; omega
    refine (key b.knownProtocolIds).trans ?_
    rw [List.nodup_iff_count]
    constructor
    · intro h p
      by_cases hp : p ∈ b.knownProtocolIds
      · exact Nat.le_of_eq (h p hp)
      · rw [List.count_eq_zero.2 hp]; omega
    · intro h p hp
      have := h p
      have := List.count_pos_iff.2 hp
      omega

/-- Non-vacuity of C79, C80: a block of depth one with two hidden nodes below its leaves has a commitment though
it is not structurally valid; concealing it as it is joins them. A block that reveals one protocol
twice has a commitment as well. -/
example [Env] (a h : MerkleHash) :
    let b : MerkleBlock := ⟨.sha256t, 1, 0, [.leaf Sample.p1 Sample.m1, .concealed 2 a, .concealed 2 h], none⟩
    (∃ c, b.commitId = .ok c) ∧ ¬ b.Valid ∧
    b.concealExcept [Sample.p1] = .ok ({ b with crossSection :=
      [.leaf Sample.p1 Sample.m1, .concealed 1 (branchHash 1 2 a h)] }, .ok 1) ∧
    ∃ (d : MerkleBlock) (c : Commitment), d.commitId = .ok c ∧ d.knownProtocolIds.count Sample.p1 = 2 := by
  intro b
  have hcs : b.crossSection = (PT.node (.leaf Sample.p1 Sample.m1) (.node (.hidden a) (.hidden h))).frontier 0 := rfl
  have hf : (PT.node (.leaf Sample.p1 Sample.m1) (.node (.hidden a) (.hidden h))).Fits (min (b.depth.val + 1) 31)
      b.depth.val 0 := ⟨rfl, Nat.le_refl 2, Nat.le_refl 2⟩
  refine ⟨⟨_, (C29_both_profiles b).1 _ hcs hf⟩, ?_, ?_, ?_⟩
  · rintro ⟨t, h1, h2⟩
    have : TreeNode.concealed 2 a ∈ t.frontier 0 := by rw [← h1]; simp [b]
    have hle : ∀ (u : PT) (d : Nat), u.Fits 1 1 d → ∀ e x, TreeNode.concealed e x ∈ u.frontier d → e.val ≤ 1 := by
      intro u
      induction u with
      | hidden y =>
        intro d hd e x he
        simp only [PT.Fits] at hd
        simp only [PT.frontier, List.mem_cons, TreeNode.concealed.injEq, List.not_mem_nil, or_false] at he
        rw [he.1, toU5_val (by omega)]
        exact hd
      | leaf _ _ => intro d _ e x he; simp [PT.frontier] at he
      | node l r ihl ihr =>
        intro d hd e x he
        simp only [PT.frontier, List.mem_append] at he
        exact he.elim (ihl _ hd.1 e x) (ihr _ hd.2 e x)
    have := hle t 0 h2 2 a this
    exact absurd this (by decide)
  · rcases concealExcept_tree hcs hf [Sample.p1] with ⟨n, -, h1⟩ | ⟨p, hp, hk, -⟩
    · have := (C15_terminates_and_counts b [Sample.p1]).2 _ n h1
      have hn : n = 1 := by
        have e1 : (b.knownMessages.filter (fun e => ¬ e.1 ∈ [Sample.p1])).length = 0 := by rfl
        have e2 : b.crossSection.length = 3 := rfl
        have e3 : (((PT.node (.leaf Sample.p1 Sample.m1) (.node (.hidden a) (.hidden h))).hideLeaves
          (List.contains [Sample.p1])).canon (2 ^ b.depth.val) 0).frontier 0 =
          [.leaf Sample.p1 Sample.m1, .concealed 1 (branchHash 1 2 a h)] := rfl
        rw [e1, e2, e3] at this
        simp only [List.length_cons, List.length_nil] at this
        omega
      rw [h1, hn]
      rfl
    · rw [List.mem_singleton] at hp
      subst hp
      exact absurd (by decide : Sample.p1 ∈ [Sample.p1]) hk
  · exact ⟨⟨.sha256t, 1, 0, [.leaf Sample.p1 Sample.m1, .leaf Sample.p1 Sample.m5], none⟩, _,
      (C29_both_profiles _).1 (.node (.leaf Sample.p1 Sample.m1) (.leaf Sample.p1 Sample.m5)) rfl ⟨rfl, rfl⟩,
      by decide⟩

end CSV
