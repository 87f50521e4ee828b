import Verif.Proofs.Binding
import Verif.Proofs.CommitChar

/-!
# `MerkleBuoy` and `merge_reveal`
-/

namespace CSV

/-! ## Buoys -/

/-- Adds one more nested buoy. -/
def Buoy.pile : Buoy → U5 → Buoy
  | .leaf b, e => .stacked b (.leaf e)
  | .stacked b s, e => .stacked b (s.pile e)

theorem Buoy.level_pile : ∀ (s : Buoy) (e : U5), (s.pile e).level = e
  | .leaf _, _ => rfl
  | .stacked _ s, e => by simp only [Buoy.pile, Buoy.level]; exact Buoy.level_pile s e

theorem Buoy.push_zero : ∀ (s : Buoy), s.push 0 = .ok (s, false)
  | .leaf _ => by simp [Buoy.push, Buoy.pushLeaf]
  | .stacked _ _ => by simp [Buoy.push]

theorem u5Sub_pos {b : U5} (h : b ≠ 0) : u5Sub b 1 = .ok (toU5 (b.val - 1)) := by
  have hb := b.isLt
  have h1 : 1 ≤ b.val := by
    rcases Nat.eq_zero_or_pos b.val with h2 | h2
    · exact absurd (Fin.ext h2) h
    · exact h2
  rw [u5Sub, if_pos h1, u5With_ok (by omega)]

/-- Pushing never panics. -/
theorem Buoy.push_total : ∀ (s : Buoy) (e : U5), ∃ r, s.push e = .ok r := by
  have hl : ∀ b e : U5, ∃ r, Buoy.pushLeaf b e = .ok r := by
    intro b e
    unfold Buoy.pushLeaf
    split
    · exact ⟨_, rfl⟩
    · split
      · rename_i h1 h2
        rw [u5Sub_pos (by rw [← h2]; exact h1)]
        exact ⟨_, rfl⟩
      · exact ⟨_, rfl⟩
  intro s
  induction s with
  | leaf b => intro e; exact hl b e
  | stacked b s ih =>
    intro e
    simp only [Buoy.push]
    split
    · exact ⟨_, rfl⟩
    · obtain ⟨⟨s', f⟩, h⟩ := ih e
      rw [h]
      simp only [ok_bind]
      split
      · exact hl _ _
      · exact ⟨_, rfl⟩

theorem Buoy.push_deeper : ∀ (s : Buoy) (e : U5), s.level.val < e.val →
    s.push e = .ok (s.pile e, false) := by
  intro s
  induction s with
  | leaf b =>
    intro e h
    simp only [Buoy.level] at h
    have h0 : e ≠ 0 := by rintro rfl; simp at h
    have h1 : e ≠ b := by rintro rfl; omega
    simp [Buoy.push, Buoy.pushLeaf, h0, h1, Buoy.pile]
  | stacked b s ih =>
    intro e h
    simp only [Buoy.level] at h
    have h0 : e ≠ 0 := by rintro rfl; simp at h
    simp only [Buoy.push, if_neg h0, ih e h, ok_bind, Buoy.pile]
    simp

/-- Completing a pair of children is the same as pushing their parent. -/
theorem Buoy.push_pair {e : Nat} (he : e + 1 < 32) : ∀ (s : Buoy),
    (s.pile (toU5 (e + 1))).push (toU5 (e + 1)) = s.push (toU5 e) := by
  have hv : (toU5 (e + 1)).val = e + 1 := toU5_val he
  have h0 : toU5 (e + 1) ≠ 0 := by
    intro h; have := congrArg Fin.val h; simp [hv] at this
  have hleaf : Buoy.pushLeaf (toU5 (e + 1)) (toU5 (e + 1)) = .ok (.leaf (toU5 e), true) := by
    simp only [Buoy.pushLeaf, if_neg h0, if_true, u5Sub_toU5 he, ok_bind]
  intro s
  induction s with
  | leaf b =>
    simp only [Buoy.pile, Buoy.push, if_neg h0, hleaf, ok_bind, if_true, Buoy.level]
  | stacked b s ih =>
    simp only [Buoy.pile, Buoy.push, if_neg h0, ih]
    by_cases hz : toU5 e = 0
    · rw [if_pos hz, hz, Buoy.push_zero]
      simp [ok_bind]
    · rw [if_neg hz]

/-- A node that is not a leaf is above the deepest level of the tree. -/
theorem fits_node_lt' {H D : Nat} (hDH : D ≤ H) : ∀ {l r : PT} {d : Nat}, (PT.node l r).Fits H D d → d < H
  | .hidden _, _, d, h => h.1
  | .leaf _ _, _, d, h => by have := h.1; simp only [PT.Fits] at this; omega
  | .node _ _, _, d, h => by have := fits_node_lt' hDH h.1; omega

theorem fits_node_lt {D : Nat} {l r : PT} {d : Nat} (hf : (PT.node l r).Fits D D d) : d < D :=
  fits_node_lt' (Nat.le_refl D) hf

/-- The nodes of a subtree at depth `e` act on a buoy like one node of depth `e`. -/
theorem takeBuoy_subtree {H : Nat} {D limit : U5} (hDH : D.val ≤ H) (hH : H < 32) : ∀ (t : PT) (e : Nat) (s : Buoy) (rest : List TreeNode),
    t.Fits H D.val e → limit.val < e → e < 32 → s.level.val ≤ e →
    takeBuoy D limit s (t.frontier e ++ rest) = (do
      let (s', _) ← s.push (toU5 e)
      if s'.level ≤ limit then .ok (t.frontier e, rest)
      else do
        let (taken, rest) ← takeBuoy D limit s' rest
        .ok (t.frontier e ++ taken, rest)) := by
  intro t
  induction t with
  | hidden h =>
    intro e s rest hf hlim he hs
    simp only [PT.frontier, List.cons_append, List.nil_append, takeBuoy, TreeNode.depthOr]
  | leaf p m =>
    intro e s rest hf hlim he hs
    simp only [PT.Fits] at hf
    have : toU5 e = D := toU5_of_val hf.symm
    simp only [PT.frontier, List.cons_append, List.nil_append, takeBuoy, TreeNode.depthOr, this]
  | node l r ihl ihr =>
    intro e s rest hf hlim he hs
    have he1 : e + 1 < 32 := by have := fits_node_lt' hDH hf; omega
    have hv : (toU5 (e + 1)).val = e + 1 := toU5_val he1
    rw [PT.frontier, List.append_assoc, ihl (e + 1) s _ hf.1 (by omega) he1 (by omega),
      Buoy.push_deeper s _ (by omega), ok_bind]
    simp only [Buoy.level_pile]
    rw [if_neg (by rw [Fin.le_def, hv]; omega),
      ihr (e + 1) _ rest hf.2 (by omega) he1 (by rw [Buoy.level_pile, hv]; omega),
      Buoy.push_pair he1, bind_assoc]
    obtain ⟨⟨s', f⟩, h⟩ := Buoy.push_total s (toU5 e)
    simp only [h, ok_bind]
    split
    · rfl
    · cases takeBuoy D limit s' rest with
      | error e => rfl
      | ok x => simp [ok_bind]

theorem frontier_cons' {H : Nat} {D : U5} (hDH : D.val ≤ H) (hH : H < 32) : ∀ {t : PT} {d : Nat}, t.Fits H D.val d → d < 32 →
    ∃ n tl, t.frontier d = n :: tl ∧ d ≤ (n.depthOr D).val ∧
      (∀ l r, t = .node l r → d < (n.depthOr D).val) ∧
      (t.isHidden = true → tl = [] ∧ n.depthOr D = toU5 d) := by
  intro t
  induction t with
  | hidden h =>
    intro d hf hd
    exact ⟨_, _, rfl, by simp [TreeNode.depthOr, toU5_val hd], by simp, by simp [TreeNode.depthOr]⟩
  | leaf p m =>
    intro d hf hd
    simp only [PT.Fits] at hf
    exact ⟨_, _, rfl, by simp [TreeNode.depthOr, hf], by simp, by simp [PT.isHidden]⟩
  | node l r ihl ihr =>
    intro d hf hd
    have h2 := fits_node_lt' hDH hf
    obtain ⟨n, tl, e, h3, _, _⟩ := ihl hf.1 (by omega)
    exact ⟨n, tl ++ r.frontier (d + 1), by rw [PT.frontier, e]; rfl, by omega,
      fun _ _ _ => by omega, by simp [PT.isHidden]⟩

theorem frontier_cons {D : U5} {t : PT} {d : Nat} (hf : t.Fits D.val D.val d) (hd : d < 32) :
    ∃ n tl, t.frontier d = n :: tl ∧ d ≤ (n.depthOr D).val ∧
      (∀ l r, t = .node l r → d < (n.depthOr D).val) ∧
      (t.isHidden = true → tl = [] ∧ n.depthOr D = toU5 d) :=
  frontier_cons' (Nat.le_refl _) D.isLt hf hd

theorem Buoy.push_new {e : Nat} (he : e + 1 < 32) :
    (Buoy.new (toU5 (e + 1))).push (toU5 (e + 1)) = .ok (Buoy.new (toU5 e), true) := by
  have hv : (toU5 (e + 1)).val = e + 1 := toU5_val he
  have h0 : toU5 (e + 1) ≠ 0 := by
    intro h; have := congrArg Fin.val h; simp [hv] at this
  simp only [Buoy.new, Buoy.push, Buoy.pushLeaf, if_neg h0, if_true, u5Sub_toU5 he, ok_bind]

/-- Once the first node of a subtree at depth `e` was used to create a buoy, the other nodes of
the subtree bring it to `e`. -/
theorem takeBuoy_tail {H : Nat} {D limit : U5} (hDH : D.val ≤ H) (hH : H < 32) : ∀ (t : PT) (e : Nat) (n : TreeNode) (tl rest : List TreeNode),
    t.Fits H D.val e → limit.val < e → e < 32 → t.frontier e = n :: tl →
    takeBuoy D limit (Buoy.new (n.depthOr D)) (tl ++ rest) = (do
      let (taken, rest) ← takeBuoy D limit (Buoy.new (toU5 e)) rest
      .ok (tl ++ taken, rest)) := by
  intro t
  have hid : ∀ x : Exec (List TreeNode × List TreeNode),
      (x >>= fun (a, b) => Except.ok (([] : List TreeNode) ++ a, b)) = x := by
    intro x; cases x <;> rfl
  induction t with
  | hidden h =>
    intro e n tl rest hf hlim he heq
    simp only [PT.frontier, List.cons.injEq] at heq
    obtain ⟨rfl, rfl⟩ := heq
    exact (hid _).symm
  | leaf p m =>
    intro e n tl rest hf hlim he heq
    simp only [PT.frontier, List.cons.injEq] at heq
    obtain ⟨rfl, rfl⟩ := heq
    simp only [PT.Fits] at hf
    have : toU5 e = D := toU5_of_val hf.symm
    rw [this]
    exact (hid _).symm
  | node l r ihl ihr =>
    intro e n tl rest hf hlim he heq
    have h1 := D.isLt
    have h2 := fits_node_lt' hDH hf
    obtain ⟨n', tl', hl, _⟩ := frontier_cons' hDH hH hf.1 (by omega)
    rw [PT.frontier, hl, List.cons_append, List.cons.injEq] at heq
    obtain ⟨rfl, rfl⟩ := heq
    rw [List.append_assoc, ihl (e + 1) _ tl' _ hf.1 (by omega) (by omega) hl,
      takeBuoy_subtree hDH hH r (e + 1) _ rest hf.2 (by omega) (by omega)
        (by simp only [Buoy.new, Buoy.level]; rw [toU5_val (by omega)]; omega),
      Buoy.push_new (by omega), ok_bind]
    have hlv : ¬ (Buoy.new (toU5 e)).level ≤ limit := by
      simp only [Buoy.new, Buoy.level, Fin.le_def]; rw [toU5_val he]; omega
    simp only [hlv, if_false]
    cases takeBuoy D limit (Buoy.new (toU5 e)) rest with
    | error e => rfl
    | ok x => simp [ok_bind]

/-- `merge_reveal` takes exactly the nodes of the subtree hidden in the other block. -/
theorem takeBuoy_node' {H : Nat} {D : U5} (hDH : D.val ≤ H) (hH : H < 32) {l r : PT} {d : Nat} {n : TreeNode} {tl rest : List TreeNode}
    (hf : (PT.node l r).Fits H D.val d) (h : (PT.node l r).frontier d = n :: tl) :
    takeBuoy D (toU5 d) (Buoy.new (n.depthOr D)) (tl ++ rest) = .ok (tl, rest) := by
  have h1 := D.isLt
  have h2 := fits_node_lt' hDH hf
  have hv : (toU5 d).val = d := toU5_val (by omega)
  obtain ⟨n', tl', hl, _⟩ := frontier_cons' hDH hH hf.1 (by omega)
  rw [PT.frontier, hl, List.cons_append, List.cons.injEq] at h
  obtain ⟨rfl, rfl⟩ := h
  rw [List.append_assoc, takeBuoy_tail hDH hH l (d + 1) _ tl' _ hf.1 (by omega) (by omega) hl,
    takeBuoy_subtree hDH hH r (d + 1) _ rest hf.2 (by omega) (by omega)
      (by simp only [Buoy.new, Buoy.level]; rw [toU5_val (by omega)]; omega),
    Buoy.push_new (by omega), ok_bind]
  simp [Buoy.new, Buoy.level, ok_bind]

theorem takeBuoy_node {D : U5} {l r : PT} {d : Nat} {n : TreeNode} {tl rest : List TreeNode}
    (hf : (PT.node l r).Fits D.val D.val d) (h : (PT.node l r).frontier d = n :: tl) :
    takeBuoy D (toU5 d) (Buoy.new (n.depthOr D)) (tl ++ rest) = .ok (tl, rest) :=
  takeBuoy_node' (Nat.le_refl _) D.isLt hf h

/-! ## The main loop -/

theorem takeBuoy_length {D limit : U5} : ∀ (l : List TreeNode) (s : Buoy),
    Holds (takeBuoy D limit s l) fun x => x.2.length ≤ l.length := by
  intro l
  induction l with
  | nil => intro s; exact Nat.le_refl _
  | cons n l ih =>
    intro s
    simp only [takeBuoy]
    obtain ⟨⟨s', f⟩, h⟩ := Buoy.push_total s (n.depthOr D)
    rw [h, ok_bind]
    simp only
    split
    · show l.length ≤ l.length + 1
      omega
    · refine (ih s').bind fun ⟨a, b⟩ hab => ?_
      simp only at hab
      show b.length ≤ l.length + 1
      omega

/-- Enough fuel is enough. -/
theorem mergeLoop_fuel {D : U5} : ∀ (n f1 f2 : Nat) (a b : List TreeNode), a.length ≤ n →
    a.length ≤ f1 → a.length ≤ f2 → mergeLoop D f1 a b = mergeLoop D f2 a b := by
  intro n
  induction n with
  | zero =>
    intro f1 f2 a b hn h1 h2
    cases a with
    | nil => cases f1 <;> cases f2 <;> cases b <;> rfl
    | cons x a => simp at hn
  | succ n ih =>
    intro f1 f2 a b hn h1 h2
    cases a with
    | nil => cases f1 <;> cases f2 <;> cases b <;> rfl
    | cons x a =>
      cases b with
      | nil => cases f1 <;> cases f2 <;> rfl
      | cons y b =>
        simp only [List.length_cons] at hn h1 h2
        cases f1 with
        | zero => omega
        | succ f1 =>
          cases f2 with
          | zero => omega
          | succ f2 =>
            simp only [mergeLoop, ih f1 f2 a _ (by omega) (by omega) (by omega)]
            have h3 := takeBuoy_length (D := D) (limit := y.depthOr D) a (Buoy.new (x.depthOr D))
            cases h4 : takeBuoy D (y.depthOr D) (Buoy.new (x.depthOr D)) a with
            | error e => rfl
            | ok r =>
              have h5 := h3.of_ok h4
              simp only [ok_bind, ih f1 f2 r.2 _ (by omega) (by omega) (by omega)]

/-- The loop with its own bound. -/
def mergeL (D : U5) (a b : List TreeNode) : Exec (List TreeNode) := mergeLoop D a.length a b

theorem mergeLoop_eq {D : U5} {f : Nat} {a b : List TreeNode} (h : a.length ≤ f) :
    mergeLoop D f a b = mergeL D a b :=
  mergeLoop_fuel f _ _ _ _ h h (Nat.le_refl _)

theorem mergeL_equal {D : U5} {n1 n2 : TreeNode} {a b : List TreeNode}
    (hd : n1.depthOr D = n2.depthOr D) (h : n1 = n2) :
    mergeL D (n1 :: a) (n2 :: b) = (do let r ← mergeL D a b; .ok (n1 :: r)) := by
  subst h
  simp only [mergeL, List.length_cons, mergeLoop, if_true]

theorem mergeL_leaf1 {D : U5} {n1 n2 : TreeNode} {a b : List TreeNode}
    (hd : n1.depthOr D = n2.depthOr D) (h1 : n1.isLeaf = true) (h2 : n2.isLeaf = false) :
    mergeL D (n1 :: a) (n2 :: b) = (do let r ← mergeL D a b; .ok (n1 :: r)) := by
  have hne : n1 ≠ n2 := by rintro rfl; rw [h1] at h2; cases h2
  simp only [mergeL, List.length_cons, mergeLoop, if_pos hd, if_neg hne, h1, h2]

theorem mergeL_leaf2 {D : U5} {n1 n2 : TreeNode} {a b : List TreeNode}
    (hd : n1.depthOr D = n2.depthOr D) (h1 : n1.isLeaf = false) (h2 : n2.isLeaf = true) :
    mergeL D (n1 :: a) (n2 :: b) = (do let r ← mergeL D a b; .ok (n2 :: r)) := by
  have hne : n1 ≠ n2 := by rintro rfl; rw [h1] at h2; cases h2
  simp only [mergeL, List.length_cons, mergeLoop, if_pos hd, if_neg hne, h1, h2]

theorem mergeL_less {D : U5} {n1 n2 : TreeNode} {a b taken rest : List TreeNode}
    (hd : n1.depthOr D < n2.depthOr D)
    (h : takeBuoy D (n1.depthOr D) (Buoy.new (n2.depthOr D)) b = .ok (taken, rest)) :
    mergeL D (n1 :: a) (n2 :: b) = (do let r ← mergeL D a rest; .ok (n2 :: taken ++ r)) := by
  simp only [mergeL, List.length_cons, mergeLoop, if_neg (Fin.ne_of_lt hd), if_pos hd, h, ok_bind]

theorem mergeL_greater {D : U5} {n1 n2 : TreeNode} {a b taken rest : List TreeNode}
    (hd : n2.depthOr D < n1.depthOr D)
    (h : takeBuoy D (n2.depthOr D) (Buoy.new (n1.depthOr D)) a = .ok (taken, rest)) :
    mergeL D (n1 :: a) (n2 :: b) = (do let r ← mergeL D rest b; .ok (n1 :: taken ++ r)) := by
  have h1 : ¬ n1.depthOr D < n2.depthOr D := by
    rw [Fin.lt_def] at hd ⊢; omega
  have h2 := (takeBuoy_length (D := D) (limit := n2.depthOr D) a (Buoy.new (n1.depthOr D))).of_ok h
  simp only [mergeL, List.length_cons, mergeLoop, if_neg (Fin.ne_of_gt hd), if_neg h1, h, ok_bind]
  rw [mergeLoop_eq h2]
  rfl

/-- Merging the nodes of two views of one subtree gives the nodes of their union, also if the views reach
below the leaves. -/
theorem mergeL_join' [Env] {H : Nat} {D : U5} {w : Nat} (hDH : D.val ≤ H) (hH : H < 32) : ∀ (t1 t2 : PT) (d : Nat) (A B : List TreeNode),
    t1.Fits H D.val d → t2.Fits H D.val d → d < 32 → t1.Compat w t2 d →
    mergeL D (t1.frontier d ++ A) (t2.frontier d ++ B) =
      (do let r ← mergeL D A B; .ok ((t1.join t2).frontier d ++ r)) := by
  intro t1
  induction t1 with
  | hidden h =>
    intro t2 d A B hf1 hf2 hd hc
    cases t2 with
    | hidden h' =>
      simp only [PT.Compat, PT.root] at hc
      subst hc
      exact mergeL_equal rfl rfl
    | leaf p m =>
      simp only [PT.Fits] at hf2
      exact mergeL_leaf2 (by simp [TreeNode.depthOr, toU5_of_val hf2.symm]) rfl rfl
    | node l r =>
      obtain ⟨n, tl, e, _, h3, _⟩ := frontier_cons' hDH hH hf2 hd
      rw [e, PT.join, e]
      refine mergeL_less ?_ (takeBuoy_node' hDH hH hf2 e)
      simp only [TreeNode.depthOr, Fin.lt_def, toU5_val hd]
      exact h3 l r rfl
  | leaf p m =>
    intro t2 d A B hf1 hf2 hd hc
    simp only [PT.Fits] at hf1
    cases t2 with
    | hidden h' =>
      exact mergeL_leaf1 (by simp [TreeNode.depthOr, toU5_of_val hf1.symm]) rfl rfl
    | leaf q n =>
      obtain ⟨rfl, rfl⟩ := hc
      exact mergeL_equal rfl rfl
    | node l r => exact hc.elim
  | node l1 r1 ihl ihr =>
    intro t2 d A B hf1 hf2 hd hc
    cases t2 with
    | hidden h' =>
      obtain ⟨n, tl, e, _, h3, _⟩ := frontier_cons' hDH hH hf1 hd
      rw [e, PT.join, e]
      · refine mergeL_greater ?_ (takeBuoy_node' hDH hH hf1 e)
        simp only [TreeNode.depthOr, Fin.lt_def, toU5_val hd]
        exact h3 l1 r1 rfl
      · simp
    | leaf q n => exact hc.elim
    | node l2 r2 =>
      have := fits_node_lt' hDH hf1
      have := D.isLt
      simp only [PT.frontier, PT.join, List.append_assoc]
      rw [ihl l2 (d + 1) _ _ hf1.1 hf2.1 (by omega) hc.1,
        ihr r2 (d + 1) _ _ hf1.2 hf2.2 (by omega) hc.2]
      cases mergeL D A B <;> simp [ok_bind, error_bind]

/-- Merging the nodes of two views of one subtree gives the nodes of their union. -/
theorem mergeL_join [Env] {D : U5} {w : Nat} (t1 t2 : PT) (d : Nat) (A B : List TreeNode)
    (hf1 : t1.Fits D.val D.val d) (hf2 : t2.Fits D.val D.val d) (hd : d < 32) (hc : t1.Compat w t2 d) :
    mergeL D (t1.frontier d ++ A) (t2.frontier d ++ B) =
      (do let r ← mergeL D A B; .ok ((t1.join t2).frontier d ++ r)) :=
  mergeL_join' (Nat.le_refl _) D.isLt t1 t2 d A B hf1 hf2 hd hc

theorem u8Sub_ok {d : Bool} {a b : Nat} (h : b ≤ a) : u8Sub d a b = .ok (a - b) := by
  simp [u8Sub, h]

theorem sumWidths_frontier [Env] {D : U5} : ∀ (t : PT) (d acc : Nat) (rest : List TreeNode),
    t.Fits D.val D.val d → d ≤ D.val → acc + 2 ^ (D.val - d) < 2 ^ 32 →
    sumWidths D (t.frontier d ++ rest) acc = sumWidths D rest (acc + 2 ^ (D.val - d)) := by
  intro t
  have hD := D.isLt
  induction t with
  | hidden h =>
    intro d acc rest hf hd ha
    simp only [PT.frontier, List.cons_append, List.nil_append, sumWidths, TreeNode.depthOr,
      toU5_val (show d < 32 by omega), u8Sub_ok hd, ok_bind,
      u32Pow2_ok (show D.val - d < 32 by omega), u32Add_ok ha]
  | leaf p m =>
    intro d acc rest hf hd ha
    simp only [PT.Fits] at hf
    subst hf
    simp only [Nat.sub_self] at ha ⊢
    simp only [PT.frontier, List.cons_append, List.nil_append, sumWidths, TreeNode.depthOr,
      u8Sub_ok (Nat.le_refl _), ok_bind, Nat.sub_self,
      u32Pow2_ok (show 0 < 32 by omega), u32Add_ok ha]
  | node l r ihl ihr =>
    intro d acc rest hf hd ha
    have h2 := fits_node_lt hf
    have h3 := pow_split (show d + 1 ≤ D.val by omega)
    have h4 := Nat.two_pow_pos (D.val - (d + 1))
    rw [PT.frontier, List.append_assoc, ihl (d + 1) acc _ hf.1 (by omega) (by omega),
      ihr (d + 1) _ _ hf.2 (by omega) (by omega)]
    congr 1
    omega

theorem PT.Compat.ofRoot [Env] {b1 b2 : MerkleBlock} {t1 t2 : PT} (h1 : b1.Shows t1)
    (hn : NoCollision (blockInputs b1.depth b1.cofactor t1 ++ blockInputs b2.depth b2.cofactor t2))
    (he : commitmentHash ⟨b1.depth, b1.cofactor, t1.root (2 ^ b1.depth.val) 0⟩ =
      commitmentHash ⟨b2.depth, b2.cofactor, t2.root (2 ^ b2.depth.val) 0⟩) :
    b1.depth = b2.depth ∧ b1.cofactor = b2.cofactor ∧ t1.Compat (2 ^ b1.depth.val) t2 0 := by
  have hD := b1.depth.isLt
  have hc := commitmentInput_inj (hn _ (by simp [blockInputs]) _ (by simp [blockInputs]) he)
  simp only [MerkleConcealed.mk.injEq] at hc
  obtain ⟨hd, hco, hr⟩ := hc
  refine ⟨hd, hco, ?_⟩
  have hw : 2 ^ b1.depth.val < 2 ^ 256 := Nat.pow_lt_pow_right (by omega) (by omega)
  refine compat_of_root hw (by omega) h1.2 (hn.mono ?_) (by rw [hr, hd])
  intro a ha
  rw [List.mem_append] at ha ⊢
  rcases ha with ha | ha
  · exact Or.inl (List.mem_cons_of_mem _ ha)
  · rw [hd] at ha
    exact Or.inr (List.mem_cons_of_mem _ ha)

theorem mergeReveal_compat [Env] {b1 b2 : MerkleBlock} {t1 t2 : PT} (h1 : b1.Shows t1)
    (h2 : b2.Shows t2) (hd : b1.depth = b2.depth) (hco : b1.cofactor = b2.cofactor)
    (hc : t1.Compat (2 ^ b1.depth.val) t2 0) :
    b1.mergeReveal b2 = .ok ({ b1 with crossSection := (t1.join t2).frontier 0 },
      .ok (UInt16.ofNat ((t1.join t2).frontier 0).length)) ∧
    MerkleBlock.Shows { b1 with crossSection := (t1.join t2).frontier 0 } (t1.join t2) := by
  have hD := b1.depth.isLt
  have hr := join_root hc
  have hw := widthLimit_pos b1.depth
  have hf2 : t2.Fits b1.depth.val b1.depth.val 0 := by rw [hd]; exact h2.2
  have hf := join_fits hc h1.2 hf2
  have hs : MerkleBlock.Shows { b1 with crossSection := (t1.join t2).frontier 0 } (t1.join t2) :=
    ⟨rfl, hf⟩
  refine ⟨?_, hs⟩
  have e1 : widthLimit b1.depth = 2 ^ b1.depth.val := rfl
  rw [MerkleBlock.mergeReveal, shows_commitId h1, shows_commitId h2, ok_bind, ok_bind, ← hd, ← hco,
    e1, ← hr.1, ← hr.2]
  simp only [ne_eq, not_true_eq_false, if_false]
  rw [mergeLoop_eq (Nat.le_refl _), h1.1, h2.1]
  have := mergeL_join t1 t2 0 [] [] h1.2 hf2 (by omega) hc
  rw [List.append_nil, List.append_nil] at this
  rw [this, show mergeL b1.depth [] [] = .ok [] from rfl, ok_bind, ok_bind, List.append_nil,
    nonEmptyVec_frontier hf, ok_bind]
  have := sumWidths_frontier (D := b1.depth) (t1.join t2) 0 0 [] hf (by omega)
    (by simp only [Nat.zero_add, Nat.sub_zero]; rw [← e1]; omega)
  rw [List.append_nil] at this
  rw [this, shows_commitId hs]
  simp [sumWidths, ok_bind, assert', widthLimit]

end CSV
