import Verif.Proofs.ConcealTree

/-!
# The outer loop of `conceal_except`
-/

namespace CSV

/-! ## Partial correctness and fuel -/

/-- The computation does not run out of fuel, and its result, if it does not panic,
satisfies `P`. -/
def Holds {α : Type} (x : Exec α) (P : α → Prop) : Prop :=
  match x with
  | .ok a => P a
  | .error e => e ≠ .fuel

theorem Holds.bind {α β : Type} {x : Exec α} {f : α → Exec β} {P : α → Prop} {Q : β → Prop}
    (hx : Holds x P) (hf : ∀ a, P a → Holds (f a) Q) : Holds (x >>= f) Q := by
  cases x with
  | error e => exact hx
  | ok a => exact hf a hx

theorem Holds.mono {α : Type} {x : Exec α} {P Q : α → Prop} (hx : Holds x P)
    (h : ∀ a, P a → Q a) : Holds x Q := by
  cases x with
  | error e => exact hx
  | ok a => exact h a hx

theorem holds_ok {α : Type} {a : α} {P : α → Prop} (h : P a) : Holds (.ok a) P := h

theorem Holds.of_ok {α : Type} {x : Exec α} {P : α → Prop} (hx : Holds x P) {a : α}
    (h : x = .ok a) : P a := by
  subst h; exact hx

theorem Holds.ne_fuel {α : Type} {x : Exec α} {P : α → Prop} (hx : Holds x P) :
    x ≠ .error .fuel := by
  rintro rfl; exact hx rfl

theorem holds_u32Add {d : Bool} {a b : Nat} : Holds (u32Add d a b) fun _ => True := by
  unfold u32Add; split
  · trivial
  · split <;> simp [Holds]

theorem holds_u32Sub {d : Bool} {a b : Nat} : Holds (u32Sub d a b) fun _ => True := by
  unfold u32Sub; split
  · trivial
  · split <;> simp [Holds]

theorem holds_u8Sub {d : Bool} {a b : Nat} : Holds (u8Sub d a b) fun _ => True := by
  unfold u8Sub; split
  · trivial
  · split <;> simp [Holds]

theorem holds_u32Pow2 {d : Bool} {a : Nat} : Holds (u32Pow2 d a) fun _ => True := by
  unfold u32Pow2; split
  · trivial
  · split <;> simp [Holds]

theorem holds_u32Rem {a b : Nat} : Holds (u32Rem a b) fun _ => True := by
  unfold u32Rem; split <;> simp [Holds]

theorem holds_u5With {a : Nat} : Holds (u5With a) fun _ => True := by
  unfold u5With; split <;> simp [Holds]

theorem holds_u5Add {a : U5} {b : Nat} : Holds (u5Add a b) fun _ => True := holds_u5With

theorem holds_u5Sub {a : U5} {b : Nat} : Holds (u5Sub a b) fun _ => True := by
  unfold u5Sub; split
  · exact holds_u5With
  · simp [Holds]

theorem holds_debugAssert {d c : Bool} : Holds (debugAssert d c) fun _ => True := by
  unfold debugAssert; split <;> simp [Holds]

theorem holds_assert' {c : Bool} : Holds (assert' c) fun _ => True := by
  unfold assert'; split <;> simp [Holds]

/-! ## On every input -/

/-- A pass shortens the list by the number of pairs it joined. -/
theorem passL_spec [Env] (D : U5) (cs : List TreeNode) (off : Nat) :
    Holds (passL D cs off) fun x => x.1.length + x.2.1 = cs.length ∧ (x.2.1 = 0 → x.1 = cs) := by
  fun_induction passL D cs off
  case case1 => exact ⟨rfl, fun _ => rfl⟩
  case case2 ih =>
    exact holds_u32Add.bind fun o _ => (ih o).bind fun ⟨_, _, _⟩ hx => holds_ok
      ⟨by have := hx.1; simp only [List.length_cons] at *; omega, fun h => congrArg _ (hx.2 h)⟩
  case case3 =>
    exact holds_u32Sub.bind fun _ _ => holds_u32Pow2.bind fun _ _ => holds_u32Add.bind fun _ _ =>
      ⟨rfl, fun _ => rfl⟩
  case case4 ih =>
    exact holds_u32Sub.bind fun _ _ => holds_u32Pow2.bind fun _ _ => holds_u32Add.bind fun o _ =>
      (ih o).bind fun ⟨_, _, _⟩ hx => holds_ok
        ⟨by have := hx.1; simp only [List.length_cons] at *; omega, fun h => congrArg _ (hx.2 h)⟩
  case case5 ih1 ih2 =>
    refine holds_u5Sub.bind fun _ _ => holds_u32Sub.bind fun _ _ => holds_u32Pow2.bind fun _ _ =>
      holds_u32Rem.bind fun _ _ => ?_
    split
    · exact holds_u32Sub.bind fun _ _ => holds_u32Pow2.bind fun _ _ =>
        holds_u32Add.bind fun o _ => (ih1 o).bind fun ⟨_, _, _⟩ hx => holds_ok
        ⟨by have := hx.1; simp only [List.length_cons] at *; omega, fun h => congrArg _ (hx.2 h)⟩
    · exact holds_u32Add.bind fun o _ => (ih2 o).bind fun ⟨_, _, _⟩ hx => holds_ok
        ⟨by have := hx.1; simp only [List.length_cons] at *; omega, fun h => by simp at h⟩
  case case6 ih =>
    exact holds_u32Sub.bind fun _ _ => holds_u32Pow2.bind fun _ _ => holds_u32Add.bind fun o _ =>
      (ih o).bind fun ⟨_, _, _⟩ hx => holds_ok
        ⟨by have := hx.1; simp only [List.length_cons] at *; omega, fun h => congrArg _ (hx.2 h)⟩

/-- The outer loop in terms of list passes. -/
theorem concealOuter_succ [Env] (D : U5) (fuel : Nat) (cs : List TreeNode) (c : Nat) :
    concealOuter D (fuel + 1) cs c = (do
      debugAssert dbg (!cs.isEmpty)
      let (r, k, o) ← passL D cs 0
      if k = 0 then .ok (cs, c)
      else do
        debugAssert dbg (decide (o = widthLimit D))
        concealOuter D fuel r (c + k)) := by
  have := concealInner_eq_passL D cs.length cs [] c 0 cs.length rfl (Nat.le_refl _)
  simp only [List.nil_append, List.length_nil, Nat.zero_add] at this
  simp only [concealOuter, this]
  apply bind_congr'
  intro _
  have hs := passL_spec D cs 0
  cases hp : passL D cs 0 with
  | error e => rfl
  | ok x =>
    obtain ⟨r, k, o⟩ := x
    have hs := hs.of_ok hp
    simp only [Except.map, ok_bind, liftPass, List.nil_append]
    by_cases hk : k = 0
    · subst hk
      simp only [Nat.add_zero, if_true]
      rw [show r = cs from hs.2 rfl]
    · rw [if_neg (by omega), if_neg hk]

/-- The outer loop never exhausts its fuel and each concealment shortens the cross-section by
one node. -/
theorem concealOuter_spec [Env] (D : U5) : ∀ (fuel : Nat) (cs : List TreeNode) (c : Nat),
    cs.length < fuel →
    Holds (concealOuter D fuel cs c) fun x => x.1.length + x.2 = cs.length + c := by
  intro fuel
  induction fuel with
  | zero => intro cs c h; omega
  | succ fuel ih =>
    intro cs c h
    rw [concealOuter_succ]
    refine holds_debugAssert.bind fun _ _ => (passL_spec D cs 0).bind fun x hx => ?_
    obtain ⟨r, k, o⟩ := x
    simp only at hx ⊢
    split
    · exact holds_ok (by simp)
    · exact holds_debugAssert.bind fun _ _ => (ih r (c + k) (by omega)).mono fun y hy => by omega

/-! ## On partial trees -/

theorem PT.frontier_ne_nil : ∀ (t : PT) (d : Nat), t.frontier d ≠ []
  | .hidden _, _ => by simp [PT.frontier]
  | .leaf _ _, _ => by simp [PT.frontier]
  | .node l r, d => by
    have := PT.frontier_ne_nil l (d + 1)
    simp [PT.frontier, this]

theorem PT.step_fits [Env] {H D w : Nat} : ∀ {t : PT} {d : Nat}, t.Fits H D d →
    (t.step w d).Fits H D d := by
  intro t
  induction t with
  | hidden h => intro d hf; exact hf
  | leaf p m => intro d hf; exact hf
  | node l r ihl ihr =>
    intro d hf
    by_cases hb : l.isHidden = true ∧ r.isHidden = true
    · cases l <;> cases r <;> simp [PT.isHidden] at hb
      simp only [PT.step, PT.Fits] at hf ⊢
      omega
    · rw [PT.step_node hb]
      exact ⟨ihl hf.1, ihr hf.2⟩

theorem PT.step_length [Env] {w : Nat} : ∀ {t : PT} {d : Nat},
    ((t.step w d).frontier d).length + t.joins = (t.frontier d).length := by
  intro t
  induction t with
  | hidden h => intro d; rfl
  | leaf p m => intro d; rfl
  | node l r ihl ihr =>
    intro d
    by_cases hb : l.isHidden = true ∧ r.isHidden = true
    · cases l <;> cases r <;> simp [PT.isHidden] at hb
      rfl
    · rw [PT.step_node hb, PT.joins_node hb]
      have h1 := ihl (d := d + 1)
      have h2 := ihr (d := d + 1)
      simp only [PT.frontier, List.length_append]
      omega

theorem PT.canon_node [Env] {w : Nat} {l r : PT} {d : Nat}
    (h : ¬ ((l.canon w (d + 1)).isHidden = true ∧ (r.canon w (d + 1)).isHidden = true)) :
    (PT.node l r).canon w d = .node (l.canon w (d + 1)) (r.canon w (d + 1)) := by
  rw [PT.canon]
  cases hl : l.canon w (d + 1) <;> cases hr : r.canon w (d + 1) <;> simp_all [PT.isHidden]

theorem PT.canon_node_hidden [Env] {w : Nat} {l r : PT} {d : Nat} {h1 h2 : MerkleHash}
    (hl : l.canon w (d + 1) = .hidden h1) (hr : r.canon w (d + 1) = .hidden h2) :
    (PT.node l r).canon w d = .hidden (branchHash d w h1 h2) := by
  rw [PT.canon, hl, hr]

theorem PT.canon_step [Env] {w : Nat} : ∀ {t : PT} {d : Nat},
    (t.step w d).canon w d = t.canon w d := by
  intro t
  induction t with
  | hidden h => intro d; rfl
  | leaf p m => intro d; rfl
  | node l r ihl ihr =>
    intro d
    by_cases hb : l.isHidden = true ∧ r.isHidden = true
    · cases l <;> cases r <;> simp [PT.isHidden] at hb
      rfl
    · rw [PT.step_node hb, PT.canon, PT.canon, ihl, ihr]

theorem PT.joins_zero [Env] {w : Nat} : ∀ {t : PT} {d : Nat}, t.joins = 0 →
    t.canon w d = t := by
  intro t
  induction t with
  | hidden h => intro d _; rfl
  | leaf p m => intro d _; rfl
  | node l r ihl ihr =>
    intro d h
    by_cases hb : l.isHidden = true ∧ r.isHidden = true
    · cases l <;> cases r <;> simp [PT.isHidden] at hb
      simp [PT.joins] at h
    · rw [PT.joins_node hb] at h
      have h1 := ihl (d := d + 1) (by omega)
      have h2 := ihr (d := d + 1) (by omega)
      rw [PT.canon_node (by rw [h1, h2]; exact hb), h1, h2]

/-- The loop aggregates the frontier of a tree into the frontier of its canonical form. -/
theorem concealOuter_tree [Env] {H : Nat} {D : U5} (hH : H ≤ D.val + 1) (hH' : H < 32) :
    ∀ (fuel : Nat) (t : PT) (c : Nat), t.Fits H D.val 0 → (t.frontier 0).length < fuel →
    ∃ k, concealOuter D fuel (t.frontier 0) c =
        .ok ((t.canon (widthLimit D) 0).frontier 0, c + k) ∧
      ((t.canon (widthLimit D) 0).frontier 0).length + k = (t.frontier 0).length := by
  intro fuel
  induction fuel with
  | zero => intro t c _ h; omega
  | succ fuel ih =>
    intro t c hf hl
    have hp := passL_frontier hH hH' t 0 0 [] hf (by omega) (by simp) (by simp)
      (by intro _ _ _ _ h; simp at h)
    simp only [List.append_nil, passL, ok_bind, Nat.sub_zero, Nat.zero_add, Nat.add_zero] at hp
    rw [concealOuter_succ, debugAssert_ok (by simp [PT.frontier_ne_nil]), hp]
    simp only [ok_bind]
    by_cases hk : t.joins = 0
    · rw [if_pos hk, PT.joins_zero hk]
      exact ⟨0, by simp, by simp⟩
    · rw [if_neg hk, debugAssert_ok (by simp [widthLimit])]
      simp only [ok_bind]
      have hlen := PT.step_length (w := widthLimit D) (t := t) (d := 0)
      obtain ⟨k, h1, h2⟩ := ih (t.step (widthLimit D) 0) (c + t.joins)
        (PT.step_fits hf) (by omega)
      rw [PT.canon_step] at h1 h2
      exact ⟨t.joins + k, by rw [h1]; simp [Nat.add_assoc], by omega⟩

end CSV
