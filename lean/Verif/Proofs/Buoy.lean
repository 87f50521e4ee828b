import Verif.Spec.Buoy
import Verif.Proofs.Merge

/-!
# Lemmas: buoys
-/

namespace CSV

theorem Shape.depths_cons : ∀ (s : Shape) (d : Nat), ∃ x xs, s.depths d = x :: xs ∧ d ≤ x
  | .tip, d => ⟨d, [], rfl, Nat.le_refl d⟩
  | .fork l r, d => by
    obtain ⟨x, xs, h, hx⟩ := l.depths_cons (d + 1)
    exact ⟨x, xs ++ r.depths (d + 1), by rw [Shape.depths, h]; rfl, by omega⟩

theorem Buoy.pushAll_append : ∀ (a b : List U5) (s : Buoy),
    s.pushAll (a ++ b) = (do let s' ← s.pushAll a; s'.pushAll b)
  | [], _, _ => rfl
  | e :: a, b, s => by
    simp only [List.cons_append, Buoy.pushAll]
    cases s.push e with
    | error e => rfl
    | ok x => simp only [ok_bind]; exact Buoy.pushAll_append a b x.1

/-- Splitting a concatenation at a proper prefix. -/
theorem prefix_append {α : Type} {a b u v : List α} (h : a ++ b = u ++ v) :
    (∃ v', a = u ++ v' ∧ v' ≠ []) ∨ (∃ u', u = a ++ u' ∧ b = u' ++ v) := by
  rcases List.append_eq_append_iff.1 h with ⟨x, h1, h2⟩ | ⟨x, h1, h2⟩
  · exact Or.inr ⟨x, h1, h2⟩
  · rcases List.eq_nil_or_concat x with hx | ⟨_, _, hx⟩
    · subst hx
      exact Or.inr ⟨[], by simpa using h1.symm, by simpa using h2.symm⟩
    · exact Or.inl ⟨x, h1, by rw [hx]; simp⟩

/-- The tips of a subtree at depth `e` act like one node at depth `e`, and until they are complete
the level is at least `e`. -/
theorem Buoy.pushAll_subtree : ∀ (t : Shape) (e : Nat) (s : Buoy), (∀ x ∈ t.depths e, x < 32) →
    s.level.val ≤ e →
    (s.pushAll ((t.depths e).map toU5) = (do let (s', _) ← s.push (toU5 e); .ok s')) ∧
    ∀ u v, (t.depths e).map toU5 = u ++ v → v ≠ [] → u ≠ [] → ∃ s', s.pushAll u = .ok s' ∧
      e < s'.level.val := by
  intro t
  induction t with
  | tip =>
    intro e s _ _
    refine ⟨?_, ?_⟩
    · simp only [Shape.depths, List.map_cons, List.map_nil, Buoy.pushAll]
    · intro u v h hv hu
      cases u with
      | nil => exact absurd rfl hu
      | cons a u =>
        have h' := congrArg List.length h
        simp only [Shape.depths, List.map_cons, List.map_nil, List.length_cons, List.length_nil,
          List.cons_append, List.length_append] at h'
        exact absurd (List.length_eq_zero_iff.1 (by omega : v.length = 0)) hv
  | fork l r ihl ihr =>
    intro e s hx hs
    simp only [Shape.depths, List.mem_append] at hx
    have hxl := fun x h => hx x (Or.inl h)
    have hxr := fun x h => hx x (Or.inr h)
    obtain ⟨x0, xs0, h0, hx0⟩ := l.depths_cons (e + 1)
    have he1 : e + 1 < 32 := by
      have := hxl x0 (by rw [h0]; exact List.mem_cons_self ..)
      omega
    have hv1 : (toU5 (e + 1)).val = e + 1 := toU5_val he1
    obtain ⟨l1, l2⟩ := ihl (e + 1) s hxl (by omega)
    rw [Buoy.push_deeper s _ (by omega)] at l1
    simp only [ok_bind] at l1
    obtain ⟨r1, r2⟩ := ihr (e + 1) (s.pile (toU5 (e + 1))) hxr (by rw [Buoy.level_pile]; omega)
    rw [Buoy.push_pair he1] at r1
    refine ⟨?_, ?_⟩
    · rw [Shape.depths, List.map_append, Buoy.pushAll_append, l1, ok_bind, r1]
    · intro u v h hv hu
      rw [Shape.depths, List.map_append] at h
      rcases prefix_append h with ⟨v', h1, h2⟩ | ⟨u', h1, h2⟩
      · obtain ⟨s', h3, h4⟩ := l2 u v' h1 h2 hu
        exact ⟨s', h3, by omega⟩
      · by_cases hu' : u' = []
        · subst hu'
          rw [h1, List.append_nil]
          exact ⟨_, l1, by rw [Buoy.level_pile]; omega⟩
        · obtain ⟨s', h3, h4⟩ := r2 u' v h2 hv hu'
          refine ⟨s', ?_, by omega⟩
          rw [h1, Buoy.pushAll_append, l1, ok_bind, h3]

theorem Buoy.pushAll_tail : ∀ (t : Shape) (d : Nat) (x : Nat) (xs : List Nat), t.depths d = x :: xs →
    (∀ y ∈ t.depths d, y < 32) →
    (Buoy.new (toU5 x)).pushAll (xs.map toU5) = .ok (Buoy.new (toU5 d)) ∧
    ∀ u v, xs.map toU5 = u ++ v → v ≠ [] → ∃ s', (Buoy.new (toU5 x)).pushAll u = .ok s' ∧
      d < s'.level.val := by
  intro t
  induction t with
  | tip =>
    intro d x xs h _
    simp only [Shape.depths, List.cons.injEq] at h
    obtain ⟨rfl, rfl⟩ := h
    refine ⟨rfl, fun u v h hv => ?_⟩
    have := List.append_eq_nil_iff.1 h.symm
    exact absurd this.2 hv
  | fork l r ihl ihr =>
    intro d x xs h hx
    simp only [Shape.depths, List.mem_append] at hx
    obtain ⟨x0, xs0, h0, hx0⟩ := l.depths_cons (d + 1)
    rw [Shape.depths, h0, List.cons_append, List.cons.injEq] at h
    obtain ⟨rfl, rfl⟩ := h
    have he1 : d + 1 < 32 := by
      have := hx x0 (Or.inl (by rw [h0]; exact List.mem_cons_self ..))
      omega
    have hv1 : (toU5 (d + 1)).val = d + 1 := toU5_val he1
    obtain ⟨l1, l2⟩ := ihl (d + 1) x0 xs0 h0 (fun y hy => hx y (Or.inl hy))
    obtain ⟨r1, r2⟩ := Buoy.pushAll_subtree r (d + 1) (Buoy.new (toU5 (d + 1)))
      (fun y hy => hx y (Or.inr hy)) (by simp only [Buoy.new, Buoy.level]; omega)
    rw [Buoy.push_new he1] at r1
    simp only [ok_bind] at r1
    refine ⟨?_, ?_⟩
    · rw [List.map_append, Buoy.pushAll_append, l1, ok_bind, r1]
    · intro u v h hv
      rw [List.map_append] at h
      rcases prefix_append h with ⟨v', h1, h2⟩ | ⟨u', h1, h2⟩
      · obtain ⟨s', h3, h4⟩ := l2 u v' h1 h2
        exact ⟨s', h3, by omega⟩
      · by_cases hu' : u' = []
        · subst hu'
          rw [h1, List.append_nil]
          exact ⟨_, l1, by simp only [Buoy.new, Buoy.level]; omega⟩
        · obtain ⟨s', h3, h4⟩ := r2 u' v h2 hv hu'
          refine ⟨s', ?_, by omega⟩
          rw [h1, Buoy.pushAll_append, l1, ok_bind, h3]

/-- The flag returned by `push` says whether the outermost buoy has surfaced. -/
theorem Buoy.push_flag : ∀ (s s' : Buoy) (e : U5) (f : Bool), s.push e = .ok (s', f) →
    (f = true → s' = .leaf s'.base ∧ s'.base.val + 1 = s.base.val) ∧ (f = false → s'.base = s.base) := by
  have hl : ∀ b e s' f, Buoy.pushLeaf b e = .ok (s', f) →
      (f = true → s' = .leaf s'.base ∧ s'.base.val + 1 = b.val) ∧ (f = false → s'.base = b) := by
    intro b e s' f h
    unfold Buoy.pushLeaf at h
    split at h
    · cases h
      simp [Buoy.base]
    · split at h
      · rename_i h1 h2
        subst h2
        rw [u5Sub_pos h1] at h
        cases h
        have hb := e.isLt
        have : e.val ≠ 0 := fun h => h1 (Fin.ext h)
        simp only [Buoy.base, true_implies, true_and, Bool.true_eq_false, false_implies, and_true]
        rw [toU5_val (by omega)]
        omega
      · cases h
        simp [Buoy.base]
  intro s s' e f h
  cases s with
  | leaf b => exact hl b e s' f h
  | stacked b s =>
    simp only [Buoy.push] at h
    split at h
    · cases h
      simp
    · obtain ⟨⟨s1, g⟩, h1⟩ := Buoy.push_total s e
      rw [h1] at h
      simp only [ok_bind] at h
      split at h
      · exact hl b _ s' f h
      · cases h
        simp [Buoy.base]

end CSV
