import Verif.Proofs.Conceal

/-!
# One pass over the frontier of a partial tree
-/

namespace CSV

/-- Joins pairs of hidden siblings, one level (what a single pass does). -/
def PT.step [Env] (w : Nat) : PT → (d : Nat) → PT
  | .hidden h, _ => .hidden h
  | .leaf p m, _ => .leaf p m
  | .node (.hidden h1) (.hidden h2), d => .hidden (branchHash d w h1 h2)
  | .node l r, d => .node (l.step w (d + 1)) (r.step w (d + 1))

/-- Number of pairs joined by `step`. -/
def PT.joins : PT → Nat
  | .hidden _ => 0
  | .leaf _ _ => 0
  | .node (.hidden _) (.hidden _) => 1
  | .node l r => l.joins + r.joins

theorem u32Add_ok {d : Bool} {a b : Nat} (h : a + b < 2 ^ 32) : u32Add d a b = .ok (a + b) := by
  simp only [u32Add, if_pos h]

theorem u32Sub_ok {d : Bool} {a b : Nat} (h : b ≤ a) : u32Sub d a b = .ok (a - b) := by
  simp [u32Sub, h]

theorem u32Pow2_ok {d : Bool} {e : Nat} (h : e < 32) : u32Pow2 d e = .ok (2 ^ e) := by
  simp [u32Pow2, h]

theorem u32Rem_ok {a b : Nat} (h : b ≠ 0) : u32Rem a b = .ok (a % b) := by
  simp [u32Rem, h]

theorem toU5_val {d : Nat} (h : d < 32) : (toU5 d).val = d := by
  simp [toU5, Nat.mod_eq_of_lt h]

theorem u5Sub_toU5 {d : Nat} (h : d + 1 < 32) : u5Sub (toU5 (d + 1)) 1 = .ok (toU5 d) := by
  have h1 : (toU5 (d + 1)).val = d + 1 := toU5_val h
  have h2 : (toU5 d).val = d := toU5_val (by omega)
  simp only [u5Sub, u5With, h1]
  rw [if_pos (by omega), dif_pos (by omega)]
  congr 1
  apply Fin.ext
  simp [h2]

theorem PT.fits_le {H D : Nat} (hH : H ≤ D + 1) : ∀ {t : PT} {d : Nat}, t.Fits H D d → d ≤ D + 1
  | .hidden _, _, h => by simp only [PT.Fits] at h; omega
  | .leaf _ _, _, h => by simp only [PT.Fits] at h; omega
  | .node l _, _, h => by
    have := PT.fits_le hH (t := l) h.1
    omega

theorem PT.fits_node_le {H D : Nat} (hH : H ≤ D + 1) {l r : PT} {d : Nat}
    (h : (PT.node l r).Fits H D d) : d ≤ D := by
  have := PT.fits_le hH h.1
  omega

/-- Below the last level there are only hidden nodes. -/
theorem PT.fits_last {H D : Nat} (hH : H ≤ D + 1) : ∀ {t : PT}, t.Fits H D (D + 1) → ∃ h, t = .hidden h
  | .hidden h, _ => ⟨h, rfl⟩
  | .leaf _ _, h => by simp [PT.Fits] at h
  | .node l _, h => by
    have := PT.fits_le hH (t := l) h.1
    omega

/-- The first node on the frontier. -/
theorem PT.frontier_head {H D : Nat} (hH : H ≤ D + 1) (hD : H < 32) : ∀ {t : PT} {d : Nat},
    t.Fits H D d → t.isHidden = false → ∀ {rest : List TreeNode},
    (∃ p m l, t.frontier d ++ rest = .leaf p m :: l) ∨
    (∃ e h l, t.frontier d ++ rest = .concealed (toU5 e) h :: l ∧ d < e ∧ e < 32)
  | .hidden _, _, _, h, _ => by simp [PT.isHidden] at h
  | .leaf p m, _, _, _, rest => by left; exact ⟨p, m, rest, rfl⟩
  | .node (.hidden h) r, d, hf, _, rest => by
    right
    refine ⟨d + 1, h, r.frontier (d + 1) ++ rest, by simp [PT.frontier], by omega, ?_⟩
    have := hf.1
    simp only [PT.Fits] at this
    omega
  | .node (.leaf p m) r, d, hf, _, rest => by
    left
    exact ⟨p, m, r.frontier (d + 1) ++ rest, by simp [PT.frontier]⟩
  | .node (.node a b) r, d, hf, _, rest => by
    have := PT.frontier_head hH hD (t := .node a b) hf.1 rfl (rest := r.frontier (d + 1) ++ rest)
    rcases this with ⟨p, m, l, h⟩ | ⟨e, h, l, h1, h2, h3⟩
    · left; exact ⟨p, m, l, by rw [← h]; simp [PT.frontier]⟩
    · right; exact ⟨e, h, l, by rw [← h1]; simp [PT.frontier], by omega, h3⟩

theorem toU5_inj {a b : Nat} (ha : a < 32) (hb : b < 32) (h : toU5 a = toU5 b) : a = b := by
  have := congrArg Fin.val h
  rwa [toU5_val ha, toU5_val hb] at this

/-- A hidden node that is not joined with the next one is skipped. -/
theorem passL_skip [Env] {D : U5} {d off : Nat} {h : MerkleHash} {rest : List TreeNode}
    (hd : d ≤ D.val) (ho : off + 2 ^ (D.val - d) < 2 ^ 32)
    (hj : ∀ h' l, rest = .concealed (toU5 d) h' :: l → 0 < d ∧ off % 2 ^ (D.val - d + 1) ≠ 0) :
    passL D (.concealed (toU5 d) h :: rest) off =
      (do
        let (r, k, o) ← passL D rest (off + 2 ^ (D.val - d))
        .ok (.concealed (toU5 d) h :: r, k, o)) := by
  have hD := D.isLt
  have hv : (toU5 d).val = d := toU5_val (by omega)
  have h1 : u32Sub dbg D.val (toU5 d).val = .ok (D.val - d) := by rw [hv, u32Sub_ok hd]
  have h2 : u32Pow2 dbg (D.val - d) = .ok (2 ^ (D.val - d)) := u32Pow2_ok (by omega)
  have h3 : u32Add dbg off (2 ^ (D.val - d)) = .ok (off + 2 ^ (D.val - d)) := u32Add_ok ho
  match rest with
  | [] => simp only [passL, h1, h2, h3, ok_bind]
  | .leaf p m :: l =>
    rw [passL.eq_4]
    simp only [h1, h2, h3, ok_bind]
  | .concealed d2 h2' :: l =>
    rw [passL]
    by_cases he : toU5 d = d2
    · rw [if_pos he]
      obtain ⟨hpos, hmod⟩ := hj h2' l (by rw [he])
      obtain ⟨d', rfl⟩ : ∃ d', d = d' + 1 := ⟨d - 1, by omega⟩
      have e1 : u5Sub (toU5 (d' + 1)) 1 = .ok (toU5 d') := u5Sub_toU5 (by omega)
      have e2 : u32Sub dbg D.val (toU5 d').val = .ok (D.val - d') := by
        rw [toU5_val (by omega), u32Sub_ok (by omega)]
      have e3 : u32Pow2 dbg (D.val - d') = .ok (2 ^ (D.val - d')) := u32Pow2_ok (by omega)
      have e4 : u32Rem off (2 ^ (D.val - d')) = .ok (off % 2 ^ (D.val - d')) :=
        u32Rem_ok (by have := Nat.two_pow_pos (D.val - d'); omega)
      have e5 : off % 2 ^ (D.val - d') ≠ 0 := by
        rwa [show D.val - (d' + 1) + 1 = D.val - d' by omega] at hmod
      simp only [e1, e2, e3, e4, ok_bind]
      rw [if_pos e5]
      simp only [h1, h2, h3, ok_bind]
    · rw [if_neg he]
      simp only [h1, h2, h3, ok_bind]

/-- Two hidden siblings are joined. -/
theorem passL_join [Env] {D : U5} {d off : Nat} {h1 h2 : MerkleHash} {rest : List TreeNode}
    (hd : d ≤ D.val) (hd' : d + 1 < 32) (ho : off + 2 ^ (D.val - d) < 2 ^ 32)
    (hm : off % 2 ^ (D.val - d) = 0) :
    passL D (.concealed (toU5 (d + 1)) h1 :: .concealed (toU5 (d + 1)) h2 :: rest) off =
      (do
        let (r, k, o) ← passL D rest (off + 2 ^ (D.val - d))
        .ok (.concealed (toU5 d) (branchHash d (widthLimit D) h1 h2) :: r, k + 1, o)) := by
  have hD := D.isLt
  have e1 : u5Sub (toU5 (d + 1)) 1 = .ok (toU5 d) := u5Sub_toU5 (by omega)
  have e2 : u32Sub dbg D.val (toU5 d).val = .ok (D.val - d) := by
    rw [toU5_val (by omega), u32Sub_ok (by omega)]
  have e3 : u32Pow2 dbg (D.val - d) = .ok (2 ^ (D.val - d)) := u32Pow2_ok (by omega)
  have e4 : u32Rem off (2 ^ (D.val - d)) = .ok (off % 2 ^ (D.val - d)) :=
    u32Rem_ok (by have := Nat.two_pow_pos (D.val - d); omega)
  have e5 : u32Add dbg off (2 ^ (D.val - d)) = .ok (off + 2 ^ (D.val - d)) := u32Add_ok ho
  rw [passL, if_pos rfl]
  simp only [e1, e2, e3, e4, ok_bind]
  rw [if_neg (by simp [hm])]
  simp only [e5, ok_bind, toU5_val (show d < 32 by omega)]

theorem pow_split {D d : Nat} (h : d + 1 ≤ D) : 2 ^ (D - d) = 2 ^ (D - (d + 1)) + 2 ^ (D - (d + 1)) := by
  rw [show D - d = (D - (d + 1)) + 1 by omega, Nat.pow_succ]; omega

theorem PT.step_node [Env] {w : Nat} {l r : PT} {d : Nat}
    (h : ¬ (l.isHidden = true ∧ r.isHidden = true)) :
    (PT.node l r).step w d = .node (l.step w (d + 1)) (r.step w (d + 1)) := by
  cases l <;> cases r <;> simp_all [PT.step, PT.isHidden]

theorem PT.joins_node {l r : PT} (h : ¬ (l.isHidden = true ∧ r.isHidden = true)) :
    (PT.node l r).joins = l.joins + r.joins := by
  cases l <;> cases r <;> simp_all [PT.joins, PT.isHidden]

/-- One pass over the frontier of `t` (followed by `rest`) joins each pair of hidden siblings of
`t` once and advances the offset by the width of `t`. -/
theorem passL_frontier [Env] {H : Nat} {D : U5} (hH : H ≤ D.val + 1) (hH' : H < 32) :
    ∀ (t : PT) (d off : Nat) (rest : List TreeNode),
    t.Fits H D.val d → d ≤ D.val → off % 2 ^ (D.val - d) = 0 →
    off + 2 ^ (D.val - d) ≤ 2 ^ D.val →
    (∀ h, t = .hidden h → ∀ h' l, rest = .concealed (toU5 d) h' :: l →
      0 < d ∧ off % 2 ^ (D.val - d + 1) ≠ 0) →
    passL D (t.frontier d ++ rest) off =
      (do
        let (r, k, o) ← passL D rest (off + 2 ^ (D.val - d))
        .ok ((t.step (widthLimit D) d).frontier d ++ r, t.joins + k, o)) := by
  have hD := D.isLt
  have hpow : 2 ^ D.val < 2 ^ 32 := Nat.pow_lt_pow_right (by omega) hD
  intro t
  induction t with
  | hidden h =>
    intro d off rest hf hd hm ho hj
    simp only [PT.frontier, List.cons_append, List.nil_append, PT.step, PT.joins, Nat.zero_add]
    exact passL_skip hd (by omega) (hj h rfl)
  | leaf p m =>
    intro d off rest hf hd hm ho hj
    simp only [PT.Fits] at hf
    subst hf
    simp only [PT.frontier, List.cons_append, List.nil_append, PT.step, PT.joins, Nat.zero_add,
      Nat.sub_self, Nat.pow_zero] at *
    rw [passL, u32Add_ok (by omega)]
    rfl
  | node l r ihl ihr =>
    intro d off rest hf hd hm ho _
    have hfl := hf.1
    have hfr := hf.2
    by_cases hb : l.isHidden = true ∧ r.isHidden = true
    · obtain ⟨h1, rfl⟩ : ∃ h, l = .hidden h := by
        cases l <;> simp [PT.isHidden] at hb ⊢
      obtain ⟨h2, rfl⟩ : ∃ h, r = .hidden h := by
        cases r <;> simp [PT.isHidden] at hb ⊢
      simp only [PT.Fits] at hfl
      simp only [PT.frontier, List.cons_append, List.nil_append, PT.step, PT.joins]
      rw [passL_join hd (by omega) (by omega) hm]
      apply bind_congr'
      intro a
      simp [Nat.add_comm]
    · have hd1 : d + 1 ≤ D.val := by
        rcases Nat.lt_or_ge d D.val with h | h
        · omega
        · exfalso
          have hdD : d = D.val := by omega
          subst hdD
          obtain ⟨a, ha⟩ := PT.fits_last hH hfl
          obtain ⟨b, hb'⟩ := PT.fits_last hH hfr
          exact hb (by simp [ha, hb', PT.isHidden])
      have hsp := pow_split hd1
      have hdvd : 2 ^ (D.val - d) = 2 * 2 ^ (D.val - (d + 1)) := by omega
      have hm1 : off % 2 ^ (D.val - (d + 1)) = 0 := by
        rw [hdvd] at hm
        exact Nat.mod_eq_zero_of_dvd
          (Nat.dvd_trans (Nat.dvd_mul_left _ _) (Nat.dvd_of_mod_eq_zero hm))
      have hp := Nat.two_pow_pos (D.val - (d + 1))
      simp only [PT.frontier, List.append_assoc]
      rw [ihl (d + 1) off (r.frontier (d + 1) ++ rest) hfl hd1 hm1 (by omega) ?_,
        ihr (d + 1) (off + 2 ^ (D.val - (d + 1))) rest hfr hd1 ?_ (by omega) ?_]
      · rw [PT.step_node hb, PT.joins_node hb, hsp, ← Nat.add_assoc, bind_assoc]
        apply bind_congr'
        intro a
        simp [ok_bind, PT.frontier, Nat.add_assoc]
      · rw [Nat.add_mod, hm1]; simp
      · intro h _ h' l' _
        refine ⟨by omega, ?_⟩
        rw [show D.val - (d + 1) + 1 = D.val - d by omega]
        rw [Nat.add_mod, hm, Nat.zero_add, Nat.mod_mod, Nat.mod_eq_of_lt (by omega)]
        omega
      · intro h hl h' l' hl'
        exfalso
        have hr : r.isHidden = false := by
          cases hh : r.isHidden
          · rfl
          · exact absurd ⟨by simp [hl, PT.isHidden], hh⟩ hb
        rcases PT.frontier_head hH hH' hfr hr (rest := rest) with ⟨p, m, l2, h2⟩ | ⟨e, h2, l2, h3, h4, h5⟩
        · rw [h2] at hl'; simp at hl'
        · rw [h3] at hl'
          simp only [List.cons.injEq, TreeNode.concealed.injEq] at hl'
          have := toU5_inj h5 (by omega) hl'.1.1
          omega

end CSV
