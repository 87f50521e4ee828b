import Verif.Props.ReleaseProofs
import Verif.Proofs.RowCanon

/-!
# C29, C79, C80: blocks made of a row of subtrees in release builds

Which blocks have a commitment in a release build, what is left of them when all but some messages are concealed,
and which proofs are taken from them.
-/

namespace CSV

/-- **C29** In a release build computing the commitment of a block returns exactly if the nodes are those of a row of
subtrees, of which the first is at the root and no two neighbours are the halves of a larger one. The commitment
is that of the first. Otherwise it panics. -/
theorem C29_release [Env] (hd : dbg = false) (b : MerkleBlock) (c : Commitment) :
    b.commitId = .ok c ↔ ∃ (t : PT) (row : List (PT × Nat)), b.crossSection = rowNodes ((t, 0) :: row) ∧
      Row b.depth.val 0 ((t, 0) :: row) ∧
      c = commitmentHash ⟨b.depth, b.cofactor, t.root (2 ^ b.depth.val) 0⟩ := by
  rw [MerkleBlock.commitId_eq, bind_ok_iff]
  constructor
  · rintro ⟨x, hx, hc⟩
    cases hc
    obtain ⟨S, root, hs, rfl⟩ := (conceal_settle hd b x).1 hx
    obtain ⟨row, h1, h2, h3⟩ := row_of_settle (D := b.depth) b.crossSection [] _ trivial hs
    cases row with
    | nil => simp [rowStack] at h2
    | cons x row =>
      obtain ⟨t, d⟩ := x
      have hd : d < 32 := by
        cases row with
        | nil => exact placed_lt h1
        | cons y row => exact placed_lt h1.1
      have h4 : rowStack b.depth ((t, d) :: row) = rowStack b.depth row ++ [rootNode b.depth t d] := by simp [rowStack]
      rw [h4] at h2
      have h5 := (List.append_inj_right' h2 rfl)
      simp only [rootNode, List.cons.injEq, TreeNode.concealed.injEq, and_true] at h5
      obtain ⟨h5, h6⟩ := h5
      have h7 := congrArg Fin.val h5
      rw [toU5_val hd] at h7
      cases h7
      exact ⟨t, row, by simpa [rowNodes] using h3.symm, h1, by rw [h6]; rfl⟩
  · rintro ⟨t, row, h1, h2, rfl⟩
    refine ⟨⟨b.depth, b.cofactor, t.root (2 ^ b.depth.val) 0⟩, ?_, rfl⟩
    rw [conceal_settle hd]
    refine ⟨(row.map fun x => rootNode b.depth x.1 x.2).reverse, _, ?_, rfl⟩
    have hp : Placed b.depth.val (coverage b.depth []) t 0 := by
      cases row with
      | nil => exact h2
      | cons y row => exact h2.1
    rw [h1, rowNodes, List.flatMap_cons, List.map_append, settle_append, settle_placed hp (fun _ _ h => nomatch h)]
    exact settle_row row t 0 [] h2

/-- Non-vacuity: a tree with a revealed leaf, then a node of depth 1, one of depth 7, two of depth 2 that are no siblings,
and a subtree in the place of a sibling of its left half. In a release build the block has the commitment of the tree,
with any hashes. -/
example [Env] (hd : dbg = false) (x y z : MerkleHash) :
    let t : PT := .node (.node (.leaf Sample.p1 Sample.m1) (.hidden x)) (.hidden y)
    let b : MerkleBlock := ⟨.sha256t, 2, 0, t.frontier 0 ++
      [.concealed 2 x, .concealed 7 y, .concealed 1 z, .concealed 3 x, .concealed 3 z, .leaf Sample.p1 Sample.m5], none⟩
    b.commitId = .ok (commitmentHash ⟨2, 0, t.root 4 0⟩) := by
  intro t b
  rw [C29_release hd]
  refine ⟨t, [(.hidden x, 2), (.hidden y, 7), (.hidden z, 1), (.node (.hidden x) (.hidden z), 2), (.leaf Sample.p1 Sample.m5, 2)],
    rfl, ?_, rfl⟩
  show Row 2 0 _
  simp [t, Row, Placed, Apart, PT.Fits, PT.isNode, PT.firstDepth, under]

/-- Two nodes after the root that are siblings are joined to a second root, which panics. -/
example [Env] (hd : dbg = false) (x y z : MerkleHash) :
    let b : MerkleBlock := ⟨.sha256t, 2, 0, [.concealed 0 x, .concealed 1 y, .concealed 1 z], none⟩
    ∀ c, b.commitId ≠ .ok c := by
  intro b c h
  rw [MerkleBlock.commitId_eq, bind_ok_iff] at h
  obtain ⟨v, hv, -⟩ := h
  obtain ⟨S, root, hs, -⟩ := (conceal_settle hd b v).1 hv
  have : settle b.depth [] (b.crossSection.map (hideAll b.depth)) = none := by
    simp [b, hideNode, settle, push, coverage, toU5, TreeNode.depthOr]
  rw [this] at hs
  cases hs

private theorem map_hideNode_row [Env] {D : U5} {keep : ProtocolId → Bool} : ∀ (row : List (PT × Nat)) (o : Nat), Row D.val o row →
    (rowNodes row).map (hideNode D keep) = rowNodes (row.map fun x => (x.1.hideLeaves keep, x.2)) := by
  intro row
  induction row with
  | nil => intro o _; rfl
  | cons x row ih =>
    obtain ⟨t, d⟩ := x
    intro o h
    have hp : Placed D.val o t d := by
      cases row with
      | nil => exact h
      | cons y row => exact h.1
    have hr : ∃ o', Row D.val o' row := by
      cases row with
      | nil => exact ⟨0, trivial⟩
      | cons y row => exact ⟨_, h.2.2⟩
    obtain ⟨o', hr⟩ := hr
    have := ih o' hr
    simp only [rowNodes] at this
    simp only [rowNodes, List.flatMap_cons, List.map_cons, List.map_append, this, map_hideNode_frontier hp.1]

/-- **C79** Exactly what is left in a release build of a block that consists of a row of subtrees, if all the messages to be
kept are revealed: the same row, with all other leaves hidden and hidden siblings joined within each subtree. -/
theorem C79_release [Env] (hd : dbg = false) (b : MerkleBlock) (row : List (PT × Nat)) (hb : b.crossSection = rowNodes row)
    (hr : Row b.depth.val 0 row) (ps : List ProtocolId) (hps : ∀ p ∈ ps, p ∈ b.knownProtocolIds) :
    ∃ n, b.concealExcept ps = .ok ({ b with
      crossSection := rowNodes (hideRow b.depth.val ps.contains row), entropy := none }, .ok n) := by
  have hm : missing b ps = [] := missing_eq_nil.2 hps
  rw [concealExcept_eq, hm]
  simp only
  have hs := concealOuter_eq hd b.depth (b.crossSection.map (hideNode b.depth ps.contains))
    ((revealed b.crossSection).countP (fun e => !ps.contains e.1))
  have hc : settle b.depth [] (b.crossSection.map (hideNode b.depth ps.contains)) =
      some (rowNodes (hideRow b.depth.val ps.contains row)).reverse := by
    rw [hb, map_hideNode_row row 0 hr, settle_canon_row _ (row_hideLeaves row 0 hr)]
    simp only [canonRow, hideRow, List.map_map]
    rfl
  rw [hc] at hs
  obtain ⟨n, hn⟩ := hs
  rw [List.reverse_reverse] at hn
  rw [hn]
  exact ⟨n, rfl⟩

private theorem bmapGet_collect [Env] (hd : dbg = false) : ∀ (cs : List TreeNode) (m : List (U5 × MerkleHash)), BMapOk m →
    ∃ m', collectPath cs m = .ok m' ∧ BMapOk m' ∧ ∀ d : U5, bmapGet d m' = (lastHash d.val cs).or (bmapGet d m) := by
  intro cs
  induction cs with
  | nil => intro m hm; exact ⟨m, rfl, hm, fun _ => rfl⟩
  | cons x cs ih =>
    intro m hm
    cases x with
    | leaf p q => exact ih m hm
    | concealed e h =>
      have h1 : ∀ x, debugAssert dbg x = .ok () := by intro x; rw [hd]; rfl
      obtain ⟨m', h2, h3, h4⟩ := ih (bmapInsert e h m) (bmapInsert_sorted hm)
      refine ⟨m', ?_, h3, fun d => ?_⟩
      · rw [collectPath]
        simp only [h1, ok_bind]
        exact h2
      · rw [h4, lastHash]
        by_cases he : d = e
        · subst he
          rw [bmapGet_insert_self, if_pos rfl]
          cases lastHash d.val cs <;> rfl
        · rw [bmapGet_insert_ne he, if_neg fun h => he (Fin.ext h.symm)]
          cases lastHash d.val cs <;> rfl

private theorem filterMap_same {α β : Type} {f g : α → Option β} : ∀ {l : List α}, (∀ x ∈ l, f x = g x) → l.filterMap f = l.filterMap g
  | [], _ => rfl
  | a :: l, h => by
    rw [List.filterMap_cons, List.filterMap_cons, h a (by simp), filterMap_same fun x hx => h x (by simp [hx])]

private theorem values_eq : ∀ (n a : Nat) (m : List (U5 × MerkleHash)), BMapOk m → a + n = 32 → (∀ e ∈ m, a ≤ e.1.val) →
    m.map Prod.snd = (List.range' a n).filterMap fun d => bmapGet (toU5 d) m := by
  intro n
  induction n with
  | zero =>
    intro a m hm ha hl
    cases m with
    | nil => rfl
    | cons e m => have := hl e (by simp); have := e.1.isLt; omega
  | succ n ih =>
    intro a m hm ha hl
    have hv : (toU5 a).val = a := toU5_val (by omega)
    rw [List.range'_succ, List.filterMap_cons]
    cases m with
    | nil => simp [bmapGet]
    | cons e m =>
      obtain ⟨k, v⟩ := e
      have hk := hl (k, v) (by simp)
      simp only at hk
      have hm' : BMapOk m ∧ ∀ x ∈ m, k.val < x.1.val := by
        have := List.pairwise_cons.mp hm
        exact ⟨this.2, fun x hx => this.1 x hx⟩
      by_cases he : k.val = a
      · have hka : toU5 a = k := Fin.ext (by rw [hv, he])
        have hg : bmapGet (toU5 a) ((k, v) :: m) = some v := by rw [bmapGet, if_pos (by rw [hka])]
        rw [hg]
        simp only [List.map_cons]
        congr 1
        rw [ih (a + 1) m hm'.1 (by omega) (fun x hx => by have := hm'.2 x hx; omega)]
        apply filterMap_same
        intro d hd
        rw [List.mem_range'_1] at hd
        rw [bmapGet, if_neg]
        intro hcon
        have hcon : (toU5 d).val = k.val := hcon
        rw [toU5_val (by omega)] at hcon
        omega
      · have hg : bmapGet (toU5 a) ((k, v) :: m) = none := by
          rw [bmapGet_eq_none]
          intro hmem
          simp only [List.map_cons, List.mem_cons, List.mem_map] at hmem
          rcases hmem with hmem | ⟨x, hx, hxa⟩
          · exact he (by rw [← hmem, hv])
          · have := hm'.2 x hx
            rw [hxa, hv] at this
            omega
        rw [hg]
        exact ih (a + 1) _ hm (by omega) (by
          intro x hx
          rcases List.mem_cons.mp hx with rfl | hx
          · simp only; omega
          · have := hm'.2 x hx; omega)

/-- **C80** Exactly which proof a release build takes from a block that consists of a row of subtrees: after hiding the other
messages, its path has for each depth at which there is a hidden node the hash of the last of them. -/
theorem C80_release_exact [Env] (hd : dbg = false) (b : MerkleBlock) (row : List (PT × Nat)) (hb : b.crossSection = rowNodes row)
    (hr : Row b.depth.val 0 row) (p : ProtocolId) (hp : p ∈ b.knownProtocolIds) :
    b.toMerkleProof p = .ok (.ok ⟨b.method, protocolIdPos p b.cofactor b.depth, b.cofactor,
      lastHashes (rowNodes (hideRow b.depth.val (· == p) row))⟩) := by
  have h1 : ∀ x, debugAssert dbg x = .ok () := by intro x; rw [hd]; rfl
  obtain ⟨n, hn⟩ := C79_release hd b row hb hr [p] (by simpa using hp)
  have hk : (List.contains [p]) = (· == p) := by funext q; simp only [List.contains, List.elem]; cases q == p <;> rfl
  rw [hk] at hn
  rw [MerkleBlock.toMerkleProof, MerkleBlock.concealOther, hn]
  simp only [ok_bind, Except.map, h1]
  obtain ⟨m, h2, h3, h4⟩ := bmapGet_collect hd (rowNodes (hideRow b.depth.val (· == p) row)) [] (by simp [BMapOk])
  rw [h2]
  have h5 := values_eq 32 0 m h3 rfl (fun _ _ => Nat.zero_le _)
  have h6 : m.map Prod.snd = lastHashes (rowNodes (hideRow b.depth.val (· == p) row)) := by
    rw [h5, lastHashes, List.range_eq_range']
    apply filterMap_same
    intro d hd
    rw [List.mem_range'_1] at hd
    rw [h4, toU5_val (by omega)]
    cases lastHash d _ <;> rfl
  simp only [ok_bind, h6]
  rw [if_pos]
  · rfl
  · rw [lastHashes]
    have := List.length_filterMap_le (fun d => lastHash d (rowNodes (hideRow b.depth.val (· == p) row))) (List.range 32)
    simpa using this

/-- Non-vacuity: the proof taken from a tree followed by a node of depth 1 and one of depth 7 has the hash of the former in place of the
one of the tree and is too long. -/
example [Env] (hd : dbg = false) (x y z v : MerkleHash) :
    let t : PT := .node (.node (.leaf Sample.p1 Sample.m1) (.hidden x)) (.hidden y)
    let b : MerkleBlock := ⟨.sha256t, 2, 0, t.frontier 0 ++ [.concealed 1 z, .concealed 7 v], none⟩
    b.toMerkleProof Sample.p1 = .ok (.ok ⟨.sha256t, 1, 0, [z, x, v]⟩) := by
  intro t b
  rw [C80_release_exact hd b [(t, 0), (.hidden z, 1), (.hidden v, 7)] rfl (by
    show Row 2 0 _
    simp [t, Row, Placed, Apart, PT.Fits, PT.isNode, PT.firstDepth, under]) Sample.p1 (by
    simp [b, t, MerkleBlock.knownProtocolIds, PT.frontier])]
  simp [b, t, hideRow, PT.hideLeaves, PT.canon, rowNodes, PT.frontier, lastHashes, lastHash, List.range_eq_range', List.range', toU5]
  exact ⟨by decide +kernel, rfl, rfl, rfl⟩

/-- **C83** Exactly which blocks have a commitment in release builds and panic in debug builds: those that have further
subtrees after the first. -/
theorem C83_commitments (e : Env) (b : MerkleBlock) :
    ((∃ c, @MerkleBlock.commitId (profile e false) b = .ok c) ∧ (∃ x, @MerkleBlock.commitId (profile e true) b = .error x)) ↔
      ∃ (t : PT) (x : PT × Nat) (row : List (PT × Nat)), b.crossSection = rowNodes ((t, 0) :: x :: row) ∧
        Row b.depth.val 0 ((t, 0) :: x :: row) := by
  have hf : ∀ {t : PT}, Placed b.depth.val 0 t 0 → t.Fits (min (b.depth.val + 1) 31) b.depth.val 0 := by
    intro t ht
    cases t with
    | node l r => exact ht.1
    | hidden h => exact Nat.zero_le _
    | leaf p m => exact ht.1
  constructor
  · rintro ⟨⟨c, hc⟩, ⟨x, hx⟩⟩
    obtain ⟨t, row, h1, h2, -⟩ := (@C29_release (profile e false) rfl b c).1 hc
    cases row with
    | nil =>
      have := (@C29_debug (profile e true) rfl b _).2 ⟨t, by simpa [rowNodes] using h1, hf h2, rfl⟩
      rw [hx] at this
      cases this
    | cons y row => exact ⟨t, y, row, h1, h2⟩
  · rintro ⟨t, x, row, h1, h2⟩
    refine ⟨⟨_, (@C29_release (profile e false) rfl b _).2 ⟨t, x :: row, h1, h2, rfl⟩⟩, ?_⟩
    cases hc : @MerkleBlock.commitId (profile e true) b with
    | error x => exact ⟨x, rfl⟩
    | ok c =>
      exfalso
      obtain ⟨t', h3, h4, -⟩ := (@C29_debug (profile e true) rfl b c).1 hc
      rw [h1, rowNodes, List.flatMap_cons, ← List.append_nil (t'.frontier 0)] at h3
      obtain ⟨-, h5⟩ := frontier_inj (H := min (b.depth.val + 1) 31) (by omega) (by omega) (hf h2.1) h4 h3
      have h6 := frontier_pos x.1 x.2
      rw [List.flatMap_cons, List.append_eq_nil_iff] at h5
      rw [h5.1] at h6
      cases h6

/-- Non-vacuity: a tree of one hidden node, then a node of depth 1. -/
example (e : Env) (x y : MerkleHash) :
    let b : MerkleBlock := ⟨.sha256t, 2, 0, [.concealed 0 x, .concealed 1 y], none⟩
    (∃ c, @MerkleBlock.commitId (profile e false) b = .ok c) ∧ (∃ x, @MerkleBlock.commitId (profile e true) b = .error x) := by
  intro b
  rw [C83_commitments]
  refine ⟨.hidden x, (.hidden y, 1), [], rfl, ?_⟩
  show Row 2 0 _
  simp [Row, Placed, Apart, PT.Fits, PT.isNode, PT.firstDepth, under]

end CSV
