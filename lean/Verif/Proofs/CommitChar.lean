import Verif.Proofs.ConcealExcept

/-!
# Which blocks have a commitment

The converse direction: from a successful run of the aggregation loop the partial tree is
recovered by undoing the joins.
-/

namespace CSV

/-- Undoing some joins. -/
inductive Expand [Env] (D : U5) : List TreeNode → List TreeNode → Prop
  | nil : Expand D [] []
  | keep {n : TreeNode} {a b : List TreeNode} : Expand D a b → Expand D (n :: a) (n :: b)
  | pair {d : Nat} {h1 h2 : MerkleHash} {a b : List TreeNode} : d ≤ D.val → d + 1 < 32 →
      Expand D a b →
      Expand D (.concealed (toU5 d) (branchHash d (widthLimit D) h1 h2) :: a)
        (.concealed (toU5 (d + 1)) h1 :: .concealed (toU5 (d + 1)) h2 :: b)

theorem Expand.refl [Env] {D : U5} : ∀ {l : List TreeNode}, Expand D l l
  | [] => .nil
  | _ :: _ => .keep Expand.refl

theorem Expand.append_left [Env] {D : U5} : ∀ {a b c : List TreeNode}, Expand D (a ++ b) c →
    ∃ c1 c2, c = c1 ++ c2 ∧ Expand D a c1 ∧ Expand D b c2
  | [], b, c, h => ⟨[], c, rfl, .nil, h⟩
  | x :: a, b, c, h => by
    generalize hg : (x :: a) ++ b = l at h
    cases h with
    | nil => simp at hg
    | keep h =>
      simp only [List.cons_append, List.cons.injEq] at hg
      obtain ⟨rfl, rfl⟩ := hg
      obtain ⟨c1, c2, h1, h2, h3⟩ := Expand.append_left h
      exact ⟨x :: c1, c2, by rw [h1]; rfl, .keep h2, h3⟩
    | pair hd hd' h =>
      simp only [List.cons_append, List.cons.injEq] at hg
      obtain ⟨rfl, rfl⟩ := hg
      obtain ⟨c1, c2, h1, h2, h3⟩ := Expand.append_left h
      exact ⟨_ :: _ :: c1, c2, by rw [h1]; rfl, .pair hd hd' h2, h3⟩

/-- Undoing joins in the frontier of a tree gives the frontier of a tree. -/
theorem Expand.frontier [Env] {D : U5} : ∀ {t : PT} {d : Nat} {c : List TreeNode},
    Expand D (t.frontier d) c → t.Fits (min (D.val + 1) 31) D.val d →
    ∃ t' : PT, c = t'.frontier d ∧ t'.Fits (min (D.val + 1) 31) D.val d ∧
      t'.root (widthLimit D) d = t.root (widthLimit D) d := by
  intro t
  induction t with
  | hidden h =>
    intro d c he hf
    simp only [PT.Fits] at hf
    generalize hg : PT.frontier (.hidden h) d = l at he
    cases he with
    | nil => simp [PT.frontier] at hg
    | keep he =>
      simp only [PT.frontier, List.cons.injEq] at hg
      obtain ⟨rfl, rfl⟩ := hg
      cases he
      exact ⟨.hidden h, rfl, hf, rfl⟩
    | @pair e h1 h2 _ _ he he' hr =>
      simp only [PT.frontier, List.cons.injEq, TreeNode.concealed.injEq] at hg
      obtain ⟨⟨hd, rfl⟩, rfl⟩ := hg
      have := toU5_inj (by omega) (by omega) hd
      subst this
      cases hr
      refine ⟨.node (.hidden h1) (.hidden h2), rfl, ⟨?_, ?_⟩, rfl⟩ <;>
        simp only [PT.Fits] <;> omega
  | leaf p m =>
    intro d c he hf
    generalize hg : PT.frontier (.leaf p m) d = l at he
    cases he with
    | nil => simp [PT.frontier] at hg
    | keep he =>
      simp only [PT.frontier, List.cons.injEq] at hg
      obtain ⟨rfl, rfl⟩ := hg
      cases he
      exact ⟨.leaf p m, rfl, hf, rfl⟩
    | pair he he' hr => simp [PT.frontier] at hg
  | node l r ihl ihr =>
    intro d c he hf
    obtain ⟨c1, c2, rfl, h1, h2⟩ := Expand.append_left he
    obtain ⟨l', rfl, hl, hl'⟩ := ihl h1 hf.1
    obtain ⟨r', rfl, hr, hr'⟩ := ihr h2 hf.2
    exact ⟨.node l' r', rfl, ⟨hl, hr⟩, by simp [PT.root, hl', hr']⟩

/-- A join happens only at or above the leaves, in both profiles: elsewhere the power is zero or
its computation panics. -/
theorem join_depth {dbg' : Bool} {D d : U5} {height pow off rm : Nat}
    (h1 : u32Sub dbg' D.val d.val = .ok height) (h2 : u32Pow2 dbg' height = .ok pow)
    (h3 : u32Rem off pow = .ok rm) : d.val ≤ D.val := by
  have := d.isLt
  have := D.isLt
  by_cases h : d.val ≤ D.val
  · exact h
  · exfalso
    simp only [u32Sub, if_neg h] at h1
    split at h1
    · simp at h1
    · simp only [Except.ok.injEq] at h1
      have hh : ¬ height < 32 := by omega
      simp only [u32Pow2, if_neg hh] at h2
      split at h2
      · simp at h2
      · simp only [Except.ok.injEq] at h2
        simp [u32Rem, ← h2] at h3

theorem u5Sub_one {d1 d : U5} (h : u5Sub d1 1 = .ok d) : d1.val = d.val + 1 := by
  simp only [u5Sub, u5With] at h
  split at h
  · split at h
    · simp only [Except.ok.injEq] at h
      subst h
      simp only; omega
    · simp at h
  · simp at h

theorem toU5_of_val {d : U5} {n : Nat} (h : d.val = n) : toU5 n = d := by
  subst h
  apply Fin.ext
  rw [toU5_val d.isLt]

theorem passL_expand [Env] {D : U5} (cs : List TreeNode) (off : Nat) :
    ∀ {r : List TreeNode} {k o : Nat}, passL D cs off = .ok (r, k, o) → Expand D r cs := by
  fun_induction passL D cs off
  case case1 =>
    intro r k o h
    simp only [Except.ok.injEq, Prod.mk.injEq] at h
    rw [← h.1]
    exact .nil
  case case2 ih =>
    intro r k o h
    simp only [bind_ok_iff, Except.ok.injEq, Prod.mk.injEq] at h
    obtain ⟨o1, _, ⟨a, b, c⟩, h2, rfl, _⟩ := h
    exact .keep (ih o1 h2)
  case case3 =>
    intro r k o h
    simp only [bind_ok_iff, Except.ok.injEq, Prod.mk.injEq] at h
    obtain ⟨_, _, _, _, _, _, rfl, _⟩ := h
    exact .refl
  case case4 ih =>
    intro r k o h
    simp only [bind_ok_iff, Except.ok.injEq, Prod.mk.injEq] at h
    obtain ⟨_, _, _, _, o1, _, ⟨a, b, c⟩, h2, rfl, _⟩ := h
    exact .keep (ih o1 h2)
  case case5 h1 d1 h2 rest off ih1 ih2 =>
    intro r k o h
    rw [bind_ok_iff] at h
    obtain ⟨d, hd, h⟩ := h
    rw [bind_ok_iff] at h
    obtain ⟨height, hh, h⟩ := h
    rw [bind_ok_iff] at h
    obtain ⟨pow, hp, h⟩ := h
    rw [bind_ok_iff] at h
    obtain ⟨rm, hr, h⟩ := h
    split at h
    · simp only [bind_ok_iff, Except.ok.injEq, Prod.mk.injEq] at h
      obtain ⟨_, _, _, _, o1, _, ⟨a, b, c⟩, h2, rfl, _⟩ := h
      exact .keep (ih1 o1 h2)
    · simp only [bind_ok_iff, Except.ok.injEq, Prod.mk.injEq] at h
      obtain ⟨o1, _, ⟨a, b, c⟩, h3, rfl, _⟩ := h
      have h4 := join_depth hh hp hr
      have h5 := u5Sub_one hd
      have hl := d1.isLt
      have := Expand.pair (D := D) (d := d.val) (h1 := h1) (h2 := h2) h4 (by omega) (ih2 o1 h3)
      rwa [toU5_of_val rfl, toU5_of_val h5] at this
  case case6 ih =>
    intro r k o h
    simp only [bind_ok_iff, Except.ok.injEq, Prod.mk.injEq] at h
    obtain ⟨_, _, _, _, o1, _, ⟨a, b, c⟩, h2, rfl, _⟩ := h
    exact .keep (ih o1 h2)

/-- Undoing any number of passes. -/
theorem concealOuter_undo [Env] {D : U5} (P : List TreeNode → Prop)
    (hP : ∀ a b, Expand D a b → P a → P b) : ∀ (fuel : Nat) (cs : List TreeNode) (c : Nat)
    {r : List TreeNode} {n : Nat}, concealOuter D fuel cs c = .ok (r, n) → P r → P cs := by
  intro fuel
  induction fuel with
  | zero => intro cs c r n h; simp [concealOuter] at h
  | succ fuel ih =>
    intro cs c r n h hr
    rw [concealOuter_succ, bind_ok_iff] at h
    obtain ⟨_, _, h⟩ := h
    rw [bind_ok_iff] at h
    obtain ⟨⟨r', k, o⟩, hp, h⟩ := h
    simp only at h
    split at h
    · simp only [Except.ok.injEq, Prod.mk.injEq] at h
      rwa [h.1]
    · rw [bind_ok_iff] at h
      obtain ⟨_, _, h⟩ := h
      exact hP _ _ (passL_expand cs 0 hp) (ih r' (c + k) h hr)

/-- A cross-section starting with a complete partial tree of the given root. -/
def StartsWith [Env] (D : U5) (root : MerkleHash) (cs : List TreeNode) : Prop :=
  ∃ t rest, cs = PT.frontier t 0 ++ rest ∧ t.Fits (min (D.val + 1) 31) D.val 0 ∧
    t.root (widthLimit D) 0 = root

/-- A cross-section which is a complete partial tree of the given root. -/
def IsTree [Env] (D : U5) (root : MerkleHash) (cs : List TreeNode) : Prop :=
  ∃ t, cs = PT.frontier t 0 ∧ t.Fits (min (D.val + 1) 31) D.val 0 ∧
    t.root (widthLimit D) 0 = root

theorem StartsWith.expand [Env] {D : U5} {root : MerkleHash} (a b : List TreeNode)
    (h : Expand D a b) (ha : StartsWith D root a) : StartsWith D root b := by
  obtain ⟨t, rest, rfl, hf, hr⟩ := ha
  obtain ⟨c1, c2, rfl, h1, h2⟩ := h.append_left
  obtain ⟨t', rfl, hf', hr'⟩ := h1.frontier hf
  exact ⟨t', c2, rfl, hf', hr'.trans hr⟩

theorem IsTree.expand [Env] {D : U5} {root : MerkleHash} (a b : List TreeNode)
    (h : Expand D a b) (ha : IsTree D root a) : IsTree D root b := by
  obtain ⟨t, rfl, hf, hr⟩ := ha
  obtain ⟨t', rfl, hf', hr'⟩ := h.frontier hf
  exact ⟨t', rfl, hf', hr'.trans hr⟩

/-- Undoing the first loop. -/
theorem unhide [Env] {D : U5} {keep : ProtocolId → Bool} : ∀ {t : PT} {d : Nat} {c : List TreeNode},
    c.map (hideNode D keep) = t.frontier d → t.Fits (min (D.val + 1) 31) D.val d →
    ∃ t' : PT, c = t'.frontier d ∧ t'.Fits (min (D.val + 1) 31) D.val d ∧
      t'.root (widthLimit D) d = t.root (widthLimit D) d := by
  intro t
  induction t with
  | hidden h =>
    intro d c hc hf
    match c with
    | [] => simp [PT.frontier] at hc
    | _ :: _ :: _ => simp [PT.frontier] at hc
    | [.concealed e h'] =>
      simp only [PT.frontier, List.map_cons, List.map_nil, hideNode] at hc
      exact ⟨.hidden h, hc, hf, rfl⟩
    | [.leaf p m] =>
      simp only [PT.frontier, List.map_cons, List.map_nil, hideNode] at hc
      split at hc
      · simp at hc
      · simp only [List.cons.injEq, TreeNode.concealed.injEq, and_true] at hc
        refine ⟨.leaf p m, rfl, ?_, hc.2⟩
        simp only [PT.Fits] at hf ⊢
        have := congrArg Fin.val hc.1
        rw [toU5_val (by omega)] at this
        omega
  | leaf p m =>
    intro d c hc hf
    match c with
    | [] => simp [PT.frontier] at hc
    | _ :: _ :: _ => simp [PT.frontier] at hc
    | [.concealed e h'] =>
      simp [PT.frontier, hideNode] at hc
    | [.leaf p' m'] =>
      simp only [PT.frontier, List.map_cons, List.map_nil, hideNode] at hc
      split at hc
      · exact ⟨.leaf p m, hc, hf, rfl⟩
      · simp at hc
  | node l r ihl ihr =>
    intro d c hc hf
    simp only [PT.frontier] at hc
    rw [List.map_eq_append_iff] at hc
    obtain ⟨c1, c2, rfl, h1, h2⟩ := hc
    obtain ⟨l', rfl, hl, hl'⟩ := ihl h1 hf.1
    obtain ⟨r', rfl, hr, hr'⟩ := ihr h2 hf.2
    exact ⟨.node l' r', rfl, ⟨hl, hr⟩, by simp [PT.root, hl', hr']⟩

/-- In both profiles: a concealed block starts with a complete tree with the root returned. -/
theorem conceal_startsWith [Env] {b : MerkleBlock} {c : MerkleConcealed} (h : b.conceal = .ok c) :
    c.depth = b.depth ∧ c.cofactor = b.cofactor ∧ StartsWith b.depth c.merkleRoot b.crossSection := by
  rw [MerkleBlock.conceal, concealExcept_eq, missing_nil] at h
  simp only [bind_assoc] at h
  rw [bind_ok_iff] at h
  obtain ⟨⟨cs', n⟩, ho, h⟩ := h
  simp only [ok_bind] at h
  rw [bind_ok_iff] at h
  obtain ⟨_, _, h⟩ := h
  cases cs' with
  | nil => simp at h
  | cons x rest =>
    cases x with
    | leaf p m => simp at h
    | concealed e root =>
      simp only [List.head?_cons] at h
      split at h
      · rename_i he
        simp only [Except.ok.injEq] at h
        subst he
        have hs : StartsWith b.depth root (.concealed 0 root :: rest) :=
          ⟨.hidden root, rest, rfl, by simp [PT.Fits], rfl⟩
        have := concealOuter_undo _ (StartsWith.expand) _ _ _ ho hs
        subst h
        obtain ⟨t, rest', h1, h2, h3⟩ := this
        rw [List.map_eq_append_iff] at h1
        obtain ⟨c1, c2, h4, h5, h6⟩ := h1
        obtain ⟨t', rfl, h7, h8⟩ := unhide h5 h2
        exact ⟨rfl, rfl, t', c2, h4, h7, h8.trans h3⟩
      · simp at h

/-- In the debug profile a concealed block is a complete tree. -/
theorem conceal_isTree [Env] (hd : dbg = true) {b : MerkleBlock} {c : MerkleConcealed}
    (h : b.conceal = .ok c) : IsTree b.depth c.merkleRoot b.crossSection := by
  rw [MerkleBlock.conceal, concealExcept_eq, missing_nil] at h
  simp only [bind_assoc] at h
  rw [bind_ok_iff] at h
  obtain ⟨⟨cs', n⟩, ho, h⟩ := h
  simp only [ok_bind] at h
  rw [bind_ok_iff] at h
  obtain ⟨_, ha, h⟩ := h
  simp only [debugAssert, hd, Bool.true_and, Bool.not_eq_eq_eq_not, Bool.not_true,
    decide_eq_false_iff_not, ite_not] at ha
  split at ha
  · rename_i hl
    match cs', hl with
    | [.leaf p m], _ => simp at h
    | [.concealed e root], _ =>
      simp only [List.head?_cons] at h
      split at h
      · rename_i he
        simp only [Except.ok.injEq] at h
        subst he
        have hs : IsTree b.depth root [.concealed 0 root] :=
          ⟨.hidden root, rfl, by simp [PT.Fits], rfl⟩
        have := concealOuter_undo _ (IsTree.expand) _ _ _ ho hs
        subst h
        obtain ⟨t, h1, h2, h3⟩ := this
        obtain ⟨t', h4, h7, h8⟩ := unhide h1 h2
        exact ⟨t', h4, h7, h8.trans h3⟩
      · simp at h
  · simp at ha

/-- In both profiles every complete tree can be concealed. -/
theorem isTree_conceal [Env] {b : MerkleBlock} {root : MerkleHash}
    (h : IsTree b.depth root b.crossSection) : b.conceal = .ok ⟨b.depth, b.cofactor, root⟩ := by
  obtain ⟨t, hcs, hf, hr⟩ := h
  have hD := b.depth.isLt
  obtain ⟨k, h1, _⟩ := concealOuter_tree (H := min (b.depth.val + 1) 31) (D := b.depth) (by omega)
    (by omega) (((t.hideLeaves (List.contains [])).frontier 0).length + 1)
    (t.hideLeaves (List.contains [])) (t.known.countP (fun e => !List.contains [] e.1))
    (PT.fits_hideLeaves (by omega) hf) (by omega)
  have hk : (t.hideLeaves (List.contains [])).known = [] := by
    rw [PT.known_hideLeaves]; simp
  rw [PT.canon_of_known_nil hk, PT.root_hideLeaves, hr] at h1
  rw [MerkleBlock.conceal, concealExcept_eq, missing_nil]
  simp only
  rw [hcs, map_hideNode_frontier hf, revealed_frontier, h1]
  simp only [ok_bind, PT.frontier, List.length_cons, List.length_nil, decide_true,
    debugAssert_true, List.head?_cons]
  rw [if_pos (by decide)]

end CSV
