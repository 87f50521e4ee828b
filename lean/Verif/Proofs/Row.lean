import Verif.Spec.Row
import Verif.Proofs.Settle
import Verif.Proofs.Merge

/-!
# Lemmas: the nodes of a block joined to a row of subtrees
-/

namespace CSV

private theorem settle_one [Env] {D : U5} (S : List TreeNode) (y : TreeNode) : settle D S [y] = push D S y := by
  rw [settle]
  cases push D S y <;> rfl

theorem settle_append [Env] {D : U5} : ∀ (l r S : List TreeNode),
    settle D S (l ++ r) = (settle D S l).bind fun S => settle D S r
  | [], r, S => rfl
  | x :: l, r, S => by
    simp only [List.cons_append, settle]
    cases push D S x with
    | none => rfl
    | some S' => exact settle_append l r S'

/-- The root of a subtree as a node. -/
def rootNode [Env] (D : U5) (t : PT) (d : Nat) : TreeNode := .concealed (toU5 d) (t.root (widthLimit D) d)

theorem toU5_self (D : U5) : toU5 D.val = D := Fin.ext (toU5_val D.isLt)

theorem nodeCov_root [Env] {D : U5} {t : PT} {d : Nat} (hd : d < 32) : nodeCov D (rootNode D t d) = under D.val d := by
  simp [nodeCov, rootNode, TreeNode.depthOr, under, toU5_val hd]

private theorem fits_tip [Env] {H : Nat} {D : U5} {t : PT} {d : Nat} (hf : t.Fits H D.val d) (ht : t.isNode = false) :
    (t.frontier d).map (hideAll D) = [rootNode D t d] := by
  cases t with
  | hidden h => rfl
  | leaf p m =>
    have hf : d = D.val := hf
    subst hf
    simp only [PT.frontier, List.map_cons, List.map_nil, rootNode, PT.root, toU5_self]
    rfl
  | node l r => cases ht

theorem fits_31 {H D : Nat} (hH : H ≤ 31) (hD : D ≤ 31) : ∀ {t : PT} {d : Nat}, t.Fits H D d → d < 32 := by
  intro t
  induction t with
  | hidden h => intro d hf; have : d ≤ H := hf; omega
  | leaf p m => intro d hf; have : d = D := hf; omega
  | node l r ih _ => intro d hf; have := ih hf.1; omega

private theorem mod_half {c n : Nat} (h : c % 2 ^ n = 0) (k : Nat) (hk : k ≤ n) : c % 2 ^ k = 0 :=
  Nat.mod_eq_zero_of_dvd (Nat.dvd_trans (Nat.pow_dvd_pow 2 hk) (Nat.dvd_of_mod_eq_zero h))

/-- The frontier of a subtree at an aligned position is joined to its root. -/
theorem settle_tree [Env] {D : U5} : ∀ (t : PT) (d : Nat) (S : List TreeNode), t.Fits (min (D.val + 1) 31) D.val d →
    (t.isNode = true → coverage D S % 2 ^ (D.val - d) = 0 ∧ ∀ s S', S = s :: S' → IsDeep D s → t.firstDepth d ≠ D.val + 1) →
    settle D S ((t.frontier d).map (hideAll D)) = push D S (rootNode D t d) := by
  have hD := D.isLt
  intro t
  induction t with
  | hidden h => intro d S hf _; rw [fits_tip hf rfl, settle_one]
  | leaf p m => intro d S hf _; rw [fits_tip hf rfl, settle_one]
  | node l r ihl ihr =>
    intro d S hf ha
    obtain ⟨ha, hdeep⟩ := ha rfl
    have hdlt := fits_node_lt' (by omega) hf
    have hv : (toU5 (d + 1)).val = d + 1 := toU5_val (by omega)
    rw [PT.frontier, List.map_append, settle_append, ihl (d + 1) S hf.1 (fun _ => ⟨mod_half ha _ (by omega), hdeep⟩)]
    have hpush : push D S (rootNode D l (d + 1)) = some (rootNode D l (d + 1) :: S) := by
      by_cases hle : d + 1 ≤ D.val
      · apply push_aligned
        · rw [hv]; exact hle
        · rw [hv]; omega
        · rw [hv]; exact mod_half ha _ (by omega)
      · have hl : l.firstDepth (d + 1) = D.val + 1 := by
          cases l with
          | hidden _ => simp only [PT.firstDepth]; omega
          | leaf _ _ => simp only [PT.firstDepth]; omega
          | node a b => have := fits_node_lt' (by omega) hf.1; omega
        cases S with
        | nil => rfl
        | cons s S =>
          cases s with
          | leaf p m => rfl
          | concealed d1 h1 =>
            rw [rootNode, push, if_pos]
            intro he
            exact hdeep _ _ rfl (by rw [IsDeep, he, hv]; omega) hl
    rw [hpush, Option.bind_some, ihr (d + 1) _ hf.2]
    · rw [rootNode, rootNode, push, if_neg (by simp), if_neg (by rw [hv]; omega), if_neg (by
        rw [hv]; simpa using mod_half ha _ (by omega))]
      rw [rootNode, hv, PT.root]
      rfl
    · intro hr
      have hlt : d + 2 ≤ min (D.val + 1) 31 := by
        cases r with
        | hidden _ => cases hr
        | leaf _ _ => cases hr
        | node a b => have := fits_node_lt' (by omega) hf.2; omega
      constructor
      · rw [coverage_cons', nodeCov_root (by omega), under, if_pos (by omega), Nat.add_mod, Nat.mod_self,
          mod_half ha _ (by omega)]
        simp
      · rintro s S' he hs
        cases he
        simp only [IsDeep, rootNode, hv] at hs
        omega

/-- A placed subtree is joined to its root. -/
theorem settle_placed [Env] {D : U5} {t : PT} {d : Nat} {S : List TreeNode} (hp : Placed D.val (coverage D S) t d)
    (hdeep : ∀ s S', S = s :: S' → IsDeep D s → t.firstDepth d ≠ D.val + 1) :
    settle D S ((t.frontier d).map (hideAll D)) = push D S (rootNode D t d) := by
  obtain ⟨hf, ha⟩ := hp
  by_cases hn : t.isNode = true
  · rw [if_pos hn] at hf
    exact settle_tree t d S hf fun h => ⟨ha h, hdeep⟩
  · rw [fits_tip hf (by simpa using hn), settle_one]

theorem placed_lt {D : U5} {o : Nat} {t : PT} {d : Nat} (hp : Placed D.val o t d) : d < 32 := by
  have hD := D.isLt
  exact fits_31 (by split <;> omega) (by omega) hp.1

theorem push_apart [Env] {D : U5} {t u : PT} {d e : Nat} {S : List TreeNode} (hd : d < 32) (he : e < 32)
    (ha : Apart D.val (coverage D S) d u e) :
    push D (rootNode D t d :: S) (rootNode D u e) = some (rootNode D u e :: rootNode D t d :: S) := by
  rw [rootNode, rootNode, push]
  by_cases h : d = e
  · obtain ⟨h1, h2, h3⟩ := ha.1 h
    subst h
    rw [if_neg (by simp), if_neg (by rw [toU5_val hd]; omega), if_pos (by rw [toU5_val hd]; exact h3)]
  · rw [if_pos]
    intro hc
    have := congrArg Fin.val hc
    rw [toU5_val hd, toU5_val he] at this
    exact h this

/-- The nodes of a row are joined to the roots of its subtrees. -/
theorem settle_row [Env] {D : U5} : ∀ (row : List (PT × Nat)) (t : PT) (d : Nat) (S : List TreeNode),
    Row D.val (coverage D S) ((t, d) :: row) →
    settle D (rootNode D t d :: S) ((rowNodes row).map (hideAll D)) =
      some ((row.map fun x => rootNode D x.1 x.2).reverse ++ rootNode D t d :: S)
  | [], t, d, S, _ => rfl
  | (u, e) :: row, t, d, S, h => by
    obtain ⟨hp, ha, hr⟩ := h
    have hd := placed_lt hp
    have hc : coverage D (rootNode D t d :: S) = coverage D S + under D.val d := by
      rw [coverage_cons', nodeCov_root hd, Nat.add_comm]
    rw [← hc] at hr
    have hu : Placed D.val (coverage D (rootNode D t d :: S)) u e := by
      cases row with
      | nil => exact hr
      | cons x row => exact hr.1
    rw [rowNodes, List.flatMap_cons, List.map_append, settle_append, settle_placed hu, push_apart hd (placed_lt hu) ha,
      Option.bind_some]
    · rw [show (row.flatMap fun x => x.1.frontier x.2) = rowNodes row from rfl, settle_row row u e _ hr]
      simp
    · intro s S' hs hdp
      cases hs
      apply ha.2
      rw [rootNode, IsDeep, toU5_val hd] at hdp
      exact hdp

/-- Leaves under a row. -/
def rowCov (D : Nat) (row : List (PT × Nat)) : Nat := (row.map fun x => under D x.2).sum

theorem row_snoc {D : Nat} : ∀ (row : List (PT × Nat)) (o : Nat) (t u : PT) (d e : Nat),
    Row D o (row ++ [(t, d)] ++ [(u, e)]) ↔ Row D o (row ++ [(t, d)]) ∧ Apart D (o + rowCov D row) d u e ∧
      Placed D (o + rowCov D row + under D d) u e
  | [], o, t, u, d, e => by simp [Row, rowCov]
  | [(t0, d0)], o, t, u, d, e => by
    simp only [List.cons_append, List.nil_append, Row, rowCov, List.map_cons, List.map_nil, List.sum_cons, List.sum_nil,
      Nat.add_zero, and_assoc]
  | (t0, d0) :: (t1, d1) :: row, o, t, u, d, e => by
    have ih := row_snoc (D := D) ((t1, d1) :: row) (o + under D d0) t u d e
    have hc : rowCov D ((t0, d0) :: (t1, d1) :: row) = under D d0 + rowCov D ((t1, d1) :: row) := by simp [rowCov]
    rw [hc, ← Nat.add_assoc]
    simp only [List.cons_append, Row] at ih ⊢
    rw [ih]
    simp only [and_assoc]

theorem row_placed {D : Nat} : ∀ (row : List (PT × Nat)) (o : Nat) (t : PT) (d : Nat), Row D o (row ++ [(t, d)]) →
    Placed D (o + rowCov D row) t d ∧ Row D o row
  | [], o, t, d, h => ⟨h, trivial⟩
  | [(t0, d0)], o, t, d, h => by
    obtain ⟨h1, h2, h3⟩ := h
    have h3 : Placed D (o + under D d0) t d := h3
    exact ⟨by simpa [rowCov] using h3, h1⟩
  | (t0, d0) :: (t1, d1) :: row, o, t, d, h => by
    obtain ⟨h1, h2, h3⟩ := h
    have := row_placed ((t1, d1) :: row) _ t d h3
    refine ⟨?_, h1, h2, this.2⟩
    have hc : rowCov D ((t0, d0) :: (t1, d1) :: row) = under D d0 + rowCov D ((t1, d1) :: row) := by simp [rowCov]
    rw [hc, ← Nat.add_assoc]
    exact this.1

/-- The roots of a row, the last first. -/
def rowStack [Env] (D : U5) (row : List (PT × Nat)) : List TreeNode := row.reverse.map fun x => rootNode D x.1 x.2

theorem rowStack_snoc [Env] (D : U5) (row : List (PT × Nat)) (t : PT) (d : Nat) :
    rowStack D (row ++ [(t, d)]) = rootNode D t d :: rowStack D row := by
  simp [rowStack]

theorem rowNodes_snoc (row : List (PT × Nat)) (t : PT) (d : Nat) :
    rowNodes (row ++ [(t, d)]) = rowNodes row ++ t.frontier d := by
  simp [rowNodes]

theorem list_snoc {α : Type} : ∀ (n : Nat) (l : List α), l.length = n → l = [] ∨ ∃ r x, l = r ++ [x] ∧ r.length + 1 = n := by
  intro n l h
  rcases List.eq_nil_or_concat l with h1 | ⟨r, x, h1⟩
  · exact Or.inl h1
  · refine Or.inr ⟨r, x, by simpa using h1, ?_⟩
    subst h1
    simp at h
    omega

theorem coverage_row [Env] {D : U5} : ∀ (n : Nat) (row : List (PT × Nat)), row.length = n → Row D.val 0 row →
    coverage D (rowStack D row) = rowCov D.val row := by
  intro n
  induction n with
  | zero =>
    intro row hn h
    rw [List.length_eq_zero_iff.mp hn]
    rfl
  | succ n ih =>
    intro row hn h
    rcases list_snoc _ row hn with h0 | ⟨r, ⟨t, d⟩, rfl, hl⟩
    · rw [h0]; rfl
    · obtain ⟨hp, hr⟩ := row_placed r 0 t d h
      rw [rowStack_snoc, coverage_cons', nodeCov_root (placed_lt hp), ih r (by omega) hr]
      simp [rowCov, Nat.add_comm]

/-- What is left after putting a subtree on a row is a row. -/
theorem push_row [Env] {D : U5} : ∀ (n : Nat) (row : List (PT × Nat)), row.length = n → Row D.val 0 row →
    ∀ (t : PT) (e : Nat) (S' : List TreeNode), Placed D.val (rowCov D.val row) t e →
    (∀ r u, row = r ++ [(u, D.val + 1)] → e = D.val + 1 ∨ t.firstDepth e ≠ D.val + 1) →
    push D (rowStack D row) (rootNode D t e) = some S' →
    ∃ row', Row D.val 0 row' ∧ S' = rowStack D row' ∧ rowNodes row' = rowNodes row ++ t.frontier e := by
  have hD := D.isLt
  intro n
  induction n with
  | zero =>
    intro row hn h t e S' hp _ hs
    cases List.length_eq_zero_iff.mp hn
    cases hs
    exact ⟨[(t, e)], hp, rfl, by simp [rowNodes]⟩
  | succ n ih =>
    intro row hn h t e S' hp hdeep hs
    rcases list_snoc _ row hn with h0 | ⟨r, ⟨u, d⟩, rfl, hl⟩
    · rw [h0] at hn; cases hn
    obtain ⟨hu, hr⟩ := row_placed r 0 u d h
    have hd := placed_lt hu
    have he := placed_lt hp
    have hcov := coverage_row (D := D) n r (by omega) hr
    have hcs : rowCov D.val (r ++ [(u, d)]) = rowCov D.val r + under D.val d := by simp [rowCov]
    have keep : Apart D.val (rowCov D.val r) d t e →
        S' = rootNode D t e :: rootNode D u d :: rowStack D r →
        ∃ row', Row D.val 0 row' ∧ S' = rowStack D row' ∧ rowNodes row' = rowNodes (r ++ [(u, d)]) ++ t.frontier e := by
      intro ha hS
      refine ⟨r ++ [(u, d)] ++ [(t, e)], (row_snoc ..).2 ⟨h, ?_, ?_⟩, ?_, rowNodes_snoc ..⟩
      · simpa using ha
      · simpa [hcs] using hp
      · rw [hS, rowStack_snoc, rowStack_snoc]
    rw [rowStack_snoc, rootNode, rootNode, push, hcov] at hs
    by_cases hde : d = e
    · subst hde
      rw [if_neg (by simp), toU5_val hd] at hs
      by_cases hb : d = 0 ∨ D.val + 1 < d
      · rw [if_pos hb] at hs; cases hs
      rw [if_neg hb] at hs
      by_cases hm : rowCov D.val r % 2 ^ (D.val + 1 - d) ≠ 0
      · rw [if_pos hm] at hs
        have hne : d ≠ D.val + 1 := by
          rintro rfl
          simp [Nat.mod_one] at hm
        exact keep ⟨fun _ => ⟨by omega, by omega, hm⟩, fun h => absurd h hne⟩ (Option.some.inj hs).symm
      · rw [if_neg hm] at hs
        have hm : rowCov D.val r % 2 ^ (D.val + 1 - d) = 0 := by omega
        obtain ⟨d, rfl⟩ : ∃ k, d = k + 1 := ⟨d - 1, by omega⟩
        have hfit : ∀ {o : Nat} {x : PT}, Placed D.val o x (d + 1) → x.Fits (min (D.val + 1) 31) D.val (d + 1) := by
          intro o x hx
          cases x with
          | hidden _ => show d + 1 ≤ min (D.val + 1) 31; omega
          | leaf _ _ => exact hx.1
          | node _ _ => exact hx.1
        have hroot : TreeNode.concealed (toU5 (d + 1 - 1)) (branchHash (d + 1 - 1) (widthLimit D) (u.root (widthLimit D) (d + 1))
            (t.root (widthLimit D) (d + 1))) = rootNode D (.node u t) d := rfl
        rw [hroot] at hs
        obtain ⟨row', h1, h2, h3⟩ := ih r (by omega) hr (.node u t) d S' ⟨⟨hfit hu, hfit hp⟩, fun _ => by
          rw [show D.val - d = D.val + 1 - (d + 1) by omega]; exact hm⟩ (by
            rintro r' v rfl
            right
            have := ((row_snoc ..).1 h).2.1.2 rfl
            exact this) hs
        refine ⟨row', h1, h2, ?_⟩
        rw [h3, rowNodes_snoc, PT.frontier, List.append_assoc]
    · rw [if_pos (by
        intro hc
        have := congrArg Fin.val hc
        rw [toU5_val hd, toU5_val he] at this
        exact hde this)] at hs
      refine keep ⟨fun h => absurd h hde, fun h1 => ?_⟩ (Option.some.inj hs).symm
      rcases hdeep r u (by rw [h1]) with h2 | h2
      · omega
      · exact h2

/-- What is left of joining the nodes of a block is a row of subtrees. -/
theorem row_of_settle [Env] {D : U5} : ∀ (l : List TreeNode) (row : List (PT × Nat)) (S : List TreeNode), Row D.val 0 row →
    settle D (rowStack D row) (l.map (hideAll D)) = some S →
    ∃ row', Row D.val 0 row' ∧ S = rowStack D row' ∧ rowNodes row' = rowNodes row ++ l
  | [], row, S, h, hs => ⟨row, h, (Option.some.inj hs).symm, by simp⟩
  | y :: l, row, S, h, hs => by
    have hD := D.isLt
    rw [List.map_cons, settle] at hs
    obtain ⟨t, e, hy, hp, hf, hfr⟩ : ∃ (t : PT) (e : Nat), hideAll D y = rootNode D t e ∧ Placed D.val (rowCov D.val row) t e ∧
        t.firstDepth e = e ∧ t.frontier e = [y] := by
      cases y with
      | concealed d h =>
        have := d.isLt
        exact ⟨.hidden h, d.val, by rw [rootNode, toU5_self]; rfl, ⟨show d.val ≤ 31 by omega, nofun⟩, rfl,
          by rw [PT.frontier, toU5_self]⟩
      | leaf p m => exact ⟨.leaf p m, D.val, by rw [rootNode, toU5_self]; rfl, ⟨rfl, nofun⟩, rfl, rfl⟩
    rw [hy] at hs
    obtain ⟨S1, h1, h2⟩ := Option.bind_eq_some_iff.mp hs
    obtain ⟨row1, g1, g2, g3⟩ := push_row _ row rfl h t e S1 hp (fun _ _ _ => by rw [hf]; exact Decidable.em _) h1
    subst g2
    obtain ⟨row', k1, k2, k3⟩ := row_of_settle l row1 S g1 h2
    exact ⟨row', k1, k2, by rw [k3, g3, hfr]; simp⟩

end CSV
