import Verif.Proofs.Row
import Verif.Props.AnyBlock
import Verif.Props.MergeAny

/-!
# Lemmas: what is left of a row of subtrees when leaves are kept
-/

namespace CSV

private theorem settle_one [Env] {D : U5} (S : List TreeNode) (y : TreeNode) : settle D S [y] = push D S y := by
  rw [settle]
  cases push D S y <;> rfl

private theorem mod_half {c n : Nat} (h : c % 2 ^ n = 0) (k : Nat) (hk : k ≤ n) : c % 2 ^ k = 0 :=
  Nat.mod_eq_zero_of_dvd (Nat.dvd_trans (Nat.pow_dvd_pow 2 hk) (Nat.dvd_of_mod_eq_zero h))

theorem coverage_append' (D : U5) (l r : List TreeNode) : coverage D (l ++ r) = coverage D l + coverage D r := by
  simp [coverage]

theorem coverage_reverse' (D : U5) (l : List TreeNode) : coverage D l.reverse = coverage D l := by
  rw [coverage, coverage, List.filter_reverse, List.map_reverse, List.sum_reverse]

/-- Depths of the nodes of a subtree. -/
theorem frontier_depths {H D : Nat} (hH : H ≤ 31) : ∀ {t : PT} {d : Nat}, t.Fits H D d → ∀ {k : U5} {h : MerkleHash},
    TreeNode.concealed k h ∈ t.frontier d → d ≤ k.val ∧ k.val ≤ H ∧ (t.isHidden = false → d < k.val) := by
  intro t
  induction t with
  | hidden x =>
    intro d hf k h hm
    have hf : d ≤ H := hf
    simp only [PT.frontier, List.mem_singleton, TreeNode.concealed.injEq] at hm
    rw [hm.1, toU5_val (by omega)]
    exact ⟨Nat.le_refl _, hf, fun h => by cases h⟩
  | leaf p m => intro d hf k h hm; simp [PT.frontier] at hm
  | node l r ihl ihr =>
    intro d hf k h hm
    rw [PT.frontier, List.mem_append] at hm
    rcases hm with hm | hm
    · have := ihl hf.1 hm; exact ⟨by omega, this.2.1, fun _ => by omega⟩
    · have := ihr hf.2 hm; exact ⟨by omega, this.2.1, fun _ => by omega⟩

/-- The top of a stack after the nodes of a subtree is a node of it. -/
theorem top_frontier {t : PT} {d : Nat} {S S' : List TreeNode} {x : TreeNode} (h : (t.frontier d).reverse ++ S = x :: S') :
    x ∈ t.frontier d := by
  cases hr : (t.frontier d).reverse with
  | nil => exact absurd (List.reverse_eq_nil_iff.mp hr) (PT.frontier_ne_nil t d)
  | cons y l =>
    rw [hr] at h
    cases h
    rw [← List.mem_reverse, hr]
    exact List.mem_cons_self ..

theorem canon_fits [Env] {D : U5} {t : PT} {d w : Nat} (hf : t.Fits (min (D.val + 1) 31) D.val d) (hd : d ≤ D.val) :
    (t.canon w d).Fits D.val D.val d :=
  fits_minimal (PT.fits_canon hf) PT.minimal_canon hd

/-- The nodes of a subtree at an aligned position become those of the minimal subtree; if that is a single hash it is joined with
what was there before. -/
theorem settle_canon [Env] {D : U5} : ∀ (t : PT) (d : Nat) (S : List TreeNode), t.Fits (min (D.val + 1) 31) D.val d →
    (t.isNode = true → coverage D S % 2 ^ (D.val - d) = 0 ∧ ∀ s S', S = s :: S' → IsDeep D s → t.firstDepth d ≠ D.val + 1) →
    (∀ h, t.canon (widthLimit D) d = .hidden h → settle D S (t.frontier d) = push D S (.concealed (toU5 d) h)) ∧
    ((t.canon (widthLimit D) d).isHidden = false →
      settle D S (t.frontier d) = some (((t.canon (widthLimit D) d).frontier d).reverse ++ S)) := by
  have hD := D.isLt
  intro t
  induction t with
  | hidden h => intro d S hf _; exact ⟨fun h' e => by cases e; exact settle_one .., fun h => by cases h⟩
  | leaf p m =>
    intro d S hf _
    refine ⟨fun h' e => (by cases e), fun _ => ?_⟩
    show settle D S [.leaf p m] = _
    rw [settle_one]
    cases S with
    | nil => rfl
    | cons s S => cases s <;> rfl
  | node l r ihl ihr =>
    intro d S hf ha
    obtain ⟨ha, hdeep⟩ := ha rfl
    have hdlt := fits_node_lt' (by omega) hf
    have hv : (toU5 (d + 1)).val = d + 1 := toU5_val (by omega)
    obtain ⟨hl1, hl2⟩ := ihl (d + 1) S hf.1 (fun _ => ⟨mod_half ha _ (by omega), hdeep⟩)
    have hpush : ∀ h, push D S (.concealed (toU5 (d + 1)) h) = some (.concealed (toU5 (d + 1)) h :: S) := by
      intro h
      by_cases hle : d + 1 ≤ D.val
      · apply push_aligned
        · rw [hv]; exact hle
        · rw [hv]; omega
        · rw [hv]; exact mod_half ha _ (by omega)
      · have hl : l.firstDepth (d + 1) = D.val + 1 := by
          cases l with
          | hidden _ => simp only [PT.firstDepth]; omega
          | leaf _ _ => simp only [PT.firstDepth]; omega
          | node a b => have := fits_node_lt' (by omega) hf.1; omega
        cases S with
        | nil => rfl
        | cons s S =>
          cases s with
          | leaf p m => rfl
          | concealed d1 h1 =>
            rw [push, if_pos]
            intro he
            exact hdeep _ _ rfl (by rw [IsDeep, he, hv]; omega) hl
    -- the left half
    have hleft : settle D S (l.frontier (d + 1)) = some (((l.canon (widthLimit D) (d + 1)).frontier (d + 1)).reverse ++ S) := by
      cases hc : (l.canon (widthLimit D) (d + 1)).isHidden with
      | false => exact hl2 hc
      | true =>
        cases hv : l.canon (widthLimit D) (d + 1) with
        | hidden h => rw [hl1 h hv, hpush]; rfl
        | leaf _ _ => rw [hv] at hc; cases hc
        | node _ _ => rw [hv] at hc; cases hc
    -- the right half
    have hr := ihr (d + 1) (((l.canon (widthLimit D) (d + 1)).frontier (d + 1)).reverse ++ S) hf.2 (by
      intro hr
      have hlt : d + 2 ≤ min (D.val + 1) 31 := by
        cases r with
        | hidden _ => cases hr
        | leaf _ _ => cases hr
        | node a b => have := fits_node_lt' (by omega) hf.2; omega
      have hfl := canon_fits (w := widthLimit D) hf.1 (by omega)
      constructor
      · rw [coverage_append', coverage_reverse', coverage_frontier hfl (by omega), Nat.add_mod, Nat.mod_self,
          mod_half ha _ (by omega)]
        simp
      · rintro s S' he hs
        have hm := top_frontier he
        cases s with
        | leaf _ _ => exact hs.elim
        | concealed k h =>
          have := (frontier_depths (by omega) hfl hm).2.1
          have hs : k.val = D.val + 1 := hs
          omega)
    have hsplit : settle D S ((PT.node l r).frontier d) = settle D (((l.canon (widthLimit D) (d + 1)).frontier (d + 1)).reverse ++ S)
        (r.frontier (d + 1)) := by
      rw [PT.frontier, settle_append, hleft, Option.bind_some]
    rw [hsplit]
    by_cases hboth : (l.canon (widthLimit D) (d + 1)).isHidden = true ∧ (r.canon (widthLimit D) (d + 1)).isHidden = true
    · obtain ⟨x, hx⟩ : ∃ x, l.canon (widthLimit D) (d + 1) = .hidden x := by
        cases hv : l.canon (widthLimit D) (d + 1) with
        | hidden h => exact ⟨_, rfl⟩
        | leaf _ _ => rw [hv] at hboth; cases hboth.1
        | node _ _ => rw [hv] at hboth; cases hboth.1
      obtain ⟨y, hy⟩ : ∃ x, r.canon (widthLimit D) (d + 1) = .hidden x := by
        cases hv : r.canon (widthLimit D) (d + 1) with
        | hidden h => exact ⟨_, rfl⟩
        | leaf _ _ => rw [hv] at hboth; cases hboth.2
        | node _ _ => rw [hv] at hboth; cases hboth.2
      rw [PT.canon_node_hidden hx hy]
      refine ⟨fun h he => ?_, fun h => by cases h⟩
      cases he
      rw [hr.1 y hy, hx]
      show push D (.concealed (toU5 (d + 1)) x :: S) _ = _
      rw [push, if_neg (by simp), if_neg (by rw [hv]; omega), if_neg (by
        rw [hv]; simpa using mod_half ha _ (by omega)), hv]
      rfl
    · rw [PT.canon_node hboth]
      refine ⟨fun h he => (by cases he), fun _ => ?_⟩
      rw [PT.frontier, List.reverse_append, List.append_assoc]
      cases hc : (r.canon (widthLimit D) (d + 1)).isHidden with
      | false => exact hr.2 hc
      | true =>
        have hlc : (l.canon (widthLimit D) (d + 1)).isHidden = false := by
          cases h : (l.canon (widthLimit D) (d + 1)).isHidden with
          | false => rfl
          | true => exact absurd ⟨h, hc⟩ hboth
        cases hy : r.canon (widthLimit D) (d + 1) with
        | hidden y =>
          rw [hr.1 y hy]
          show _ = some (_ :: _)
          cases hT : ((l.canon (widthLimit D) (d + 1)).frontier (d + 1)).reverse ++ S with
          | nil => rfl
          | cons s T =>
            have hm := top_frontier hT
            cases s with
            | leaf _ _ => rfl
            | concealed k x =>
              have := (frontier_depths (by omega) (PT.fits_canon (w := widthLimit D) hf.1) hm).2.2 hlc
              rw [push, if_pos]
              · rfl
              intro he
              rw [he, hv] at this
              omega
        | leaf _ _ => rw [hy] at hc; cases hc
        | node _ _ => rw [hy] at hc; cases hc

/-- The minimal subtrees of a row. -/
def canonRow [Env] (D : U5) (row : List (PT × Nat)) : List (PT × Nat) :=
  row.map fun x => (x.1.canon (widthLimit D) x.2, x.2)

theorem placed_coverage [Env] {D : U5} {o : Nat} {t : PT} {d : Nat} (hp : Placed D.val o t d) :
    coverage D ((t.canon (widthLimit D) d).frontier d) = under D.val d := by
  have hD := D.isLt
  cases t with
  | hidden h =>
    have h1 : d < 32 := placed_lt hp
    simp only [PT.canon, PT.frontier]
    rw [coverage_cons']
    simp [nodeCov, TreeNode.depthOr, toU5_val h1, under, coverage]
  | leaf p m =>
    have h1 : d = D.val := hp.1
    simp only [PT.canon, PT.frontier]
    rw [coverage_cons', h1]
    simp [nodeCov, TreeNode.depthOr, under, coverage]
  | node l r =>
    have hf : (PT.node l r).Fits (min (D.val + 1) 31) D.val d := hp.1
    have := fits_node_lt' (by omega) hf
    rw [coverage_frontier (canon_fits hf (by omega)) (by omega), under, if_pos (by omega)]

/-- What is left of a placed subtree is put on the stack without joining, if it is apart from the one before. -/
theorem settle_canon_placed [Env] {D : U5} {t u : PT} {d e : Nat} {S : List TreeNode} (hp : Placed D.val (coverage D S) t d)
    (ha : Apart D.val (coverage D S) d u e) (hu : Placed D.val (coverage D S + under D.val d) u e) :
    settle D (((t.canon (widthLimit D) d).frontier d).reverse ++ S) (u.frontier e) =
      some (((u.canon (widthLimit D) e).frontier e).reverse ++ (((t.canon (widthLimit D) d).frontier d).reverse ++ S)) := by
  have hD := D.isLt
  have hd := placed_lt hp
  have he := placed_lt hu
  have hcT : coverage D (((t.canon (widthLimit D) d).frontier d).reverse ++ S) = coverage D S + under D.val d := by
    rw [coverage_append', coverage_reverse', placed_coverage hp, Nat.add_comm]
  -- a hidden node that follows
  have hpush : ∀ h, push D (((t.canon (widthLimit D) d).frontier d).reverse ++ S) (.concealed (toU5 e) h) =
      some (.concealed (toU5 e) h :: (((t.canon (widthLimit D) d).frontier d).reverse ++ S)) := by
    intro h
    cases hc : (t.canon (widthLimit D) d).isHidden with
    | true =>
      cases hx : t.canon (widthLimit D) d with
      | leaf _ _ => rw [hx] at hc; cases hc
      | node _ _ => rw [hx] at hc; cases hc
      | hidden x =>
        show push D (rootNode D (.hidden x) d :: S) (rootNode D (.hidden h) e) = _
        by_cases h1 : d = e
        · obtain ⟨h2, h3, h4⟩ := ha.1 h1
          subst h1
          rw [rootNode, rootNode, push, if_neg (by simp), if_neg (by rw [toU5_val hd]; omega),
            if_pos (by rw [toU5_val hd]; exact h4)]
          rfl
        · rw [rootNode, rootNode, push, if_pos]
          · rfl
          intro hcon
          have := congrArg Fin.val hcon
          rw [toU5_val hd, toU5_val he] at this
          exact h1 this
    | false =>
      cases hT : ((t.canon (widthLimit D) d).frontier d).reverse ++ S with
      | nil => rfl
      | cons s T =>
        have hm := top_frontier hT
        cases s with
        | leaf _ _ => rfl
        | concealed k x =>
          cases t with
          | hidden _ => cases hc
          | leaf _ _ => simp [PT.canon, PT.frontier] at hm
          | node l r =>
            have hf : (PT.node l r).Fits (min (D.val + 1) 31) D.val d := hp.1
            have hal : coverage D S % 2 ^ (D.val - d) = 0 := hp.2 rfl
            have hdlt := fits_node_lt' (by omega) hf
            obtain ⟨h1, h2, h3⟩ := frontier_depths (by omega) (canon_fits (w := widthLimit D) hf (by omega)) hm
            have h3 := h3 hc
            rw [push]
            by_cases hk : k = toU5 e
            · rw [hT, coverage_cons', nodeCov_concealed h2, under, if_pos (by omega)] at hcT
              rw [if_neg (by simpa using hk), if_neg (by omega), if_pos]
              intro hz
              have e1 : (coverage D S + 2 ^ (D.val - d)) % 2 ^ (D.val + 1 - k.val) = 0 := by
                rw [Nat.add_mod, mod_half hal _ (by omega), mod_half (Nat.mod_self _) _ (by omega)]
                simp
              rw [← hcT, Nat.add_mod, hz, Nat.add_zero, Nat.mod_mod, Nat.mod_eq_of_lt
                (Nat.pow_lt_pow_right (by omega) (by omega))] at e1
              have := Nat.two_pow_pos (D.val - k.val)
              omega
            · rw [if_pos hk]
  have main : u.Fits (min (D.val + 1) 31) D.val e →
      settle D (((t.canon (widthLimit D) d).frontier d).reverse ++ S) (u.frontier e) =
      some (((u.canon (widthLimit D) e).frontier e).reverse ++ (((t.canon (widthLimit D) d).frontier d).reverse ++ S)) := by
    intro hf
    obtain ⟨h1, h2⟩ := settle_canon u e (((t.canon (widthLimit D) d).frontier d).reverse ++ S) hf (by
      intro hn
      refine ⟨by rw [hcT]; exact hu.2 hn, fun s S' hs hsd => ?_⟩
      have hm := top_frontier hs
      cases s with
      | leaf _ _ => exact hsd.elim
      | concealed k x =>
        have hsd : k.val = D.val + 1 := hsd
        cases t with
        | hidden y =>
          simp only [PT.canon, PT.frontier, List.mem_singleton, TreeNode.concealed.injEq] at hm
          apply ha.2
          rw [← hsd, hm.1, toU5_val hd]
        | leaf _ _ => simp [PT.canon, PT.frontier] at hm
        | node l r =>
          have hf : (PT.node l r).Fits (min (D.val + 1) 31) D.val d := hp.1
          have := fits_node_lt' (by omega) hf
          have := (frontier_depths (by omega) (canon_fits (w := widthLimit D) hf (by omega)) hm).2.1
          omega)
    cases hc : (u.canon (widthLimit D) e).isHidden with
    | false => exact h2 hc
    | true =>
      cases hx : u.canon (widthLimit D) e with
      | leaf _ _ => rw [hx] at hc; cases hc
      | node _ _ => rw [hx] at hc; cases hc
      | hidden x => rw [h1 x hx, hpush]; rfl
  cases u with
  | hidden x => rw [PT.canon, PT.frontier, settle_one, hpush]; rfl
  | leaf p m => exact main hu.1
  | node l r => exact main hu.1

theorem settle_canonRow [Env] {D : U5} : ∀ (row : List (PT × Nat)) (t : PT) (d : Nat) (S : List TreeNode),
    Row D.val (coverage D S) ((t, d) :: row) →
    settle D (((t.canon (widthLimit D) d).frontier d).reverse ++ S) (rowNodes row) =
      some ((rowNodes (canonRow D row)).reverse ++ (((t.canon (widthLimit D) d).frontier d).reverse ++ S))
  | [], t, d, S, _ => rfl
  | (u, e) :: row, t, d, S, h => by
    obtain ⟨hp, ha, hr⟩ := h
    have hu : Placed D.val (coverage D S + under D.val d) u e := by
      cases row with
      | nil => exact hr
      | cons x row => exact hr.1
    have hc : coverage D (((t.canon (widthLimit D) d).frontier d).reverse ++ S) = coverage D S + under D.val d := by
      rw [coverage_append', coverage_reverse', placed_coverage hp, Nat.add_comm]
    rw [← hc] at hr
    have ih := settle_canonRow row u e _ hr
    rw [rowNodes, List.flatMap_cons, settle_append, settle_canon_placed hp ha hu, Option.bind_some]
    refine ih.trans ?_
    simp [rowNodes, canonRow]

/-- What is left of a row. -/
theorem settle_canon_row [Env] {D : U5} (row : List (PT × Nat)) (h : Row D.val 0 row) :
    settle D [] (rowNodes row) = some (rowNodes (canonRow D row)).reverse := by
  have hD := D.isLt
  cases row with
  | nil => rfl
  | cons x row =>
    obtain ⟨t, d⟩ := x
    have hp : Placed D.val 0 t d := by
      cases row with
      | nil => exact h
      | cons x row => exact h.1
    have h0 : settle D [] (t.frontier d) = some (((t.canon (widthLimit D) d).frontier d).reverse ++ []) := by
      cases t with
      | hidden y => rfl
      | leaf p m => rfl
      | node l r =>
        have hf : (PT.node l r).Fits (min (D.val + 1) 31) D.val d := hp.1
        obtain ⟨h1, h2⟩ := settle_canon (.node l r) d [] hf fun _ => ⟨Nat.zero_mod _, fun _ _ h => nomatch h⟩
        cases hc : ((PT.node l r).canon (widthLimit D) d).isHidden with
        | false => exact h2 hc
        | true =>
          cases hx : (PT.node l r).canon (widthLimit D) d with
          | leaf _ _ => rw [hx] at hc; cases hc
          | node _ _ => rw [hx] at hc; cases hc
          | hidden x => rw [h1 x hx]; rfl
    rw [rowNodes, List.flatMap_cons, settle_append, h0, Option.bind_some]
    refine (settle_canonRow row t d [] h).trans ?_
    simp [rowNodes, canonRow]

/-- Hiding leaves does not change the shape of a row. -/
theorem row_hideLeaves [Env] {D : U5} {keep : ProtocolId → Bool} : ∀ (row : List (PT × Nat)) (o : Nat), Row D.val o row →
    Row D.val o (row.map fun x => (x.1.hideLeaves keep, x.2)) := by
  have hD := D.isLt
  have hn : ∀ t : PT, (t.hideLeaves keep).isNode = t.isNode := by
    intro t
    cases t with
    | leaf p m => rw [PT.hideLeaves]; split <;> rfl
    | _ => rfl
  have hp : ∀ {o : Nat} {t : PT} {d : Nat}, Placed D.val o t d → Placed D.val o (t.hideLeaves keep) d := by
    intro o t d h
    rw [Placed, hn]
    exact ⟨PT.fits_hideLeaves (by split <;> omega) h.1, h.2⟩
  have hfd : ∀ (t : PT) (d : Nat), (t.hideLeaves keep).firstDepth d = t.firstDepth d := by
    intro t
    induction t with
    | hidden _ => intro d; rfl
    | leaf p m => intro d; rw [PT.hideLeaves]; split <;> rfl
    | node l r ih _ => intro d; exact ih _
  intro row
  induction row with
  | nil => intro o h; trivial
  | cons x row ih =>
    obtain ⟨t, d⟩ := x
    intro o h
    cases row with
    | nil => exact hp h
    | cons y row =>
      obtain ⟨h1, h2, h3⟩ := h
      refine ⟨hp h1, ⟨h2.1, fun h => ?_⟩, ih _ h3⟩
      have := h2.2 h
      rw [hfd]
      exact this

end CSV
