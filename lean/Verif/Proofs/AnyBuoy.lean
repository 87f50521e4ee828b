import Verif.Spec.AnyBuoy
import Verif.Proofs.Buoy

/-!
# Lemmas: buoys for any type of depths

A buoy is the list of its levels, the innermost first.
-/

namespace CSV

open Literal

/-- `push` on the list of levels. -/
def pushR : List Nat → Nat → List Nat × Bool
  | [], _ => ([], false)
  | [b], e => if e = 0 then ([b], false) else if e = b then ([b - 1], true) else ([e, b], false)
  | b :: c :: rest, e =>
    if e = 0 then (b :: c :: rest, false) else if e = b then pushR (c :: rest) (b - 1)
    else (e :: b :: c :: rest, false)

private theorem pushR_one (b e : Nat) : pushR [b] e =
    if e = 0 then ([b], false) else if e = b then ([b - 1], true) else ([e, b], false) := by rw [pushR]

private theorem pushR_two (b c : Nat) (rest : List Nat) (e : Nat) : pushR (b :: c :: rest) e =
    if e = 0 then (b :: c :: rest, false) else if e = b then pushR (c :: rest) (b - 1)
    else (e :: b :: c :: rest, false) := by rw [pushR]

/-- Pushing several depths on the list of levels. -/
def pushL (st : List Nat) : List Nat → List Nat
  | [] => st
  | e :: l => pushL (pushR st e).1 l

theorem pushL_append : ∀ (a b st : List Nat), pushL st (a ++ b) = pushL (pushL st a) b
  | [], _, _ => rfl
  | e :: a, b, st => by rw [List.cons_append, pushL, pushL, pushL_append a b]

theorem pushR_ne_nil : ∀ (l : List Nat) (e : Nat), l ≠ [] → (pushR l e).1 ≠ []
  | [], _, h => absurd rfl h
  | [b], e, _ => by
    rw [pushR]
    split
    · simp
    · split <;> simp
  | b :: c :: rest, e, _ => by
    rw [pushR]
    split
    · simp
    · split
      · exact pushR_ne_nil (c :: rest) (b - 1) (by simp)
      · simp

theorem pushR_append (b : Nat) : ∀ (l : List Nat) (e : Nat), l ≠ [] → pushR (l ++ [b]) e =
    if (pushR l e).2 then pushR [b] ((pushR l e).1.headD 0) else ((pushR l e).1 ++ [b], false)
  | [], _, h => absurd rfl h
  | [c], e, _ => by
    rw [List.singleton_append, pushR_two, pushR_one c]
    by_cases h0 : e = 0
    · simp [h0]
    · by_cases h1 : e = c
      · subst h1
        simp [h0]
      · simp [h0, h1]
  | c :: d :: r, e, _ => by
    rw [List.cons_append, List.cons_append, pushR_two, pushR_two c d r]
    by_cases h0 : e = 0
    · simp [h0]
    · by_cases h1 : e = c
      · rw [if_neg h0, if_pos h1, if_neg h0, if_pos h1]
        exact pushR_append b (d :: r) (c - 1) (by simp)
      · simp [h0, h1]

section
variable {D : Type} (val : D → Nat)

/-- The levels of a buoy, the innermost first. -/
def Literal.MerkleBuoy.levels : MerkleBuoy D → List Nat
  | .mk b none => [val b]
  | .mk b (some s) => s.levels ++ [val b]

theorem levels_ne_nil (s : MerkleBuoy D) : s.levels val ≠ [] := by
  cases s with
  | mk b s => cases s <;> simp [MerkleBuoy.levels]

theorem level_levels : ∀ s : MerkleBuoy D, (s.levels val).headD 0 = val s.level
  | .mk b none => by simp [MerkleBuoy.levels, MerkleBuoy.level]
  | .mk b (some s) => by
    have ih := level_levels s
    have := levels_ne_nil val s
    rw [MerkleBuoy.levels, MerkleBuoy.level]
    cases h : s.levels val with
    | nil => exact absurd h this
    | cons x l => rw [h] at ih; simpa using ih

variable {val} [DecidableEq D] [BuoyDepth D] (hv : DepthLaws val)
include hv

omit [DecidableEq D] in
theorem levels_single {s : MerkleBuoy D} {d : D} (h : s.levels val = [val d]) : s = MerkleBuoy.new d := by
  cases s with
  | mk b s =>
    cases s with
    | none =>
      simp only [MerkleBuoy.levels, List.cons.injEq, and_true] at h
      rw [hv.inj _ _ h]
      rfl
    | some s =>
      have := levels_ne_nil val s
      have h' := congrArg List.length h
      simp only [MerkleBuoy.levels, List.length_append, List.length_cons, List.length_nil] at h'
      exact absurd (List.length_eq_zero_iff.1 (by omega)) this

private theorem push_leaf (b e : D) : ∃ s' f, (MerkleBuoy.mk b none).push e = .ok (s', f) ∧
    (s'.levels val, f) = pushR [val b] (val e) := by
  rw [MerkleBuoy.push, pushR]
  by_cases h0 : e = BuoyDepth.default
  · rw [if_pos h0, if_pos (by rw [h0, hv.zero])]
    exact ⟨_, _, rfl, by simp [MerkleBuoy.levels]⟩
  · have h0' : val e ≠ 0 := fun h => h0 (hv.inj _ _ (by rw [h, hv.zero]))
    rw [if_neg h0, if_neg h0']
    by_cases h1 : e = b
    · subst h1
      obtain ⟨d', hd, hd'⟩ := hv.sub e h0'
      rw [if_pos rfl, if_pos rfl, hd]
      refine ⟨_, _, rfl, ?_⟩
      simp only [MerkleBuoy.levels]
      rw [← hd', Nat.add_sub_cancel]
    · rw [if_neg h1, if_neg (fun h => h1 (hv.inj _ _ h))]
      exact ⟨_, _, rfl, by simp [MerkleBuoy.levels, MerkleBuoy.new]⟩

theorem push_levels : ∀ (s : MerkleBuoy D) (e : D), ∃ s' f, s.push e = .ok (s', f) ∧
    (s'.levels val, f) = pushR (s.levels val) (val e)
  | .mk b none, e => push_leaf hv b e
  | .mk b (some s), e => by
    obtain ⟨s', f, h1, h2⟩ := push_levels s e
    rw [MerkleBuoy.push, MerkleBuoy.levels, pushR_append _ _ _ (levels_ne_nil val s), ← h2]
    by_cases h0 : e = BuoyDepth.default
    · rw [if_pos h0]
      refine ⟨_, _, rfl, ?_⟩
      have h3 : pushR (s.levels val) (val e) = (s.levels val, false) := by
        rw [h0, hv.zero]
        cases h : s.levels val with
        | nil => rfl
        | cons x l => cases l <;> simp [pushR]
      rw [h3, Prod.mk.injEq] at h2
      obtain ⟨h4, h5⟩ := h2
      subst h5
      simp [MerkleBuoy.levels, h4]
    · rw [if_neg h0, h1, ok_bind]
      cases f with
      | true =>
        simp only [if_true, level_levels]
        exact push_leaf hv b s'.level
      | false => exact ⟨_, _, rfl, by simp [MerkleBuoy.levels]⟩

theorem pushAll_levels : ∀ (l : List D) (s : MerkleBuoy D), ∃ s', s.pushAll l = .ok s' ∧
    s'.levels val = pushL (s.levels val) (l.map val)
  | [], s => ⟨s, rfl, rfl⟩
  | e :: l, s => by
    obtain ⟨s1, f, h1, h2⟩ := push_levels hv s e
    obtain ⟨s2, h3, h4⟩ := pushAll_levels l s1
    refine ⟨s2, ?_, ?_⟩
    · rw [MerkleBuoy.pushAll, h1, ok_bind]
      exact h3
    · rw [h4, List.map_cons, pushL, ← h2]

end

/-! ## Complete subtrees surface -/

private theorem pushR_deeper {st : List Nat} {e : Nat} (hs : st ≠ []) (h : st.headD 0 < e) :
    pushR st e = (e :: st, false) := by
  match st, hs with
  | [b], _ =>
    simp only [List.headD_cons] at h
    rw [pushR, if_neg (by omega), if_neg (by omega)]
  | b :: c :: r, _ =>
    simp only [List.headD_cons] at h
    rw [pushR, if_neg (by omega), if_neg (by omega)]

private theorem pushR_pair {st : List Nat} {e : Nat} (hs : st ≠ []) :
    pushR ((e + 1) :: st) (e + 1) = pushR st e := by
  cases st with
  | nil => exact absurd rfl hs
  | cons b r => rw [pushR, if_neg (by omega), if_pos rfl, Nat.add_sub_cancel]

private theorem pushL_subtree : ∀ (t : Shape) (e : Nat) (st : List Nat), st ≠ [] → st.headD 0 ≤ e →
    pushL st (t.depths e) = (pushR st e).1 ∧
    ∀ u v, t.depths e = u ++ v → v ≠ [] → u ≠ [] → e < (pushL st u).headD 0 := by
  intro t
  induction t with
  | tip =>
    intro e st _ _
    refine ⟨rfl, fun u v h hv hu => ?_⟩
    have h' := congrArg List.length h
    have h1 : u.length ≠ 0 := fun h => hu (List.length_eq_zero_iff.1 h)
    have h2 : v.length ≠ 0 := fun h => hv (List.length_eq_zero_iff.1 h)
    simp only [Shape.depths, List.length_cons, List.length_nil, List.length_append] at h'
    omega
  | fork l r ihl ihr =>
    intro e st hs hh
    obtain ⟨l1, l2⟩ := ihl (e + 1) st hs (by omega)
    rw [pushR_deeper hs (by omega)] at l1
    obtain ⟨r1, r2⟩ := ihr (e + 1) ((e + 1) :: st) (by simp) (by simp)
    rw [pushR_pair hs] at r1
    refine ⟨by rw [Shape.depths, pushL_append, l1, r1], fun u v h hv hu => ?_⟩
    rw [Shape.depths] at h
    rcases prefix_append h with ⟨v', h1, h2⟩ | ⟨u', h1, h2⟩
    · have := l2 u v' h1 h2 hu
      omega
    · by_cases hu' : u' = []
      · subst hu'
        rw [h1, List.append_nil, l1]
        simp
      · have := r2 u' v h2 hv hu'
        rw [h1, pushL_append, l1]
        exact Nat.lt_of_succ_lt this

theorem pushL_tail : ∀ (t : Shape) (d x : Nat) (xs : List Nat), t.depths d = x :: xs →
    pushL [x] xs = [d] ∧ ∀ u v, xs = u ++ v → v ≠ [] → d < (pushL [x] u).headD 0 := by
  intro t
  induction t with
  | tip =>
    intro d x xs h
    simp only [Shape.depths, List.cons.injEq] at h
    obtain ⟨rfl, rfl⟩ := h
    exact ⟨rfl, fun u v h hv => absurd (List.append_eq_nil_iff.1 h.symm).2 hv⟩
  | fork l r ihl ihr =>
    intro d x xs h
    obtain ⟨x0, xs0, h0, hx0⟩ := l.depths_cons (d + 1)
    rw [Shape.depths, h0, List.cons_append, List.cons.injEq] at h
    obtain ⟨rfl, rfl⟩ := h
    obtain ⟨l1, l2⟩ := ihl (d + 1) x0 xs0 h0
    obtain ⟨r1, r2⟩ := pushL_subtree r (d + 1) [d + 1] (by simp) (by simp)
    have hp : pushR [d + 1] (d + 1) = ([d], true) := by simp [pushR]
    rw [hp] at r1
    refine ⟨by rw [pushL_append, l1, r1], fun u v h hv => ?_⟩
    rcases prefix_append h with ⟨v', h1, h2⟩ | ⟨u', h1, h2⟩
    · have := l2 u v' h1 h2
      omega
    · by_cases hu' : u' = []
      · subst hu'
        rw [h1, List.append_nil, l1]
        simp
      · have := r2 u' v h2 hv hu'
        rw [h1, pushL_append, l1]
        omega

/-! ## Nothing else surfaces -/

theorem share_append (n : Nat) : ∀ a b : List Nat, share n (a ++ b) = share n a + share n b
  | [], b => by simp [share]
  | x :: a, b => by rw [List.cons_append, share, share, share_append n a b]; omega

theorem share_shape (n : Nat) : ∀ (t : Shape) (d : Nat), (∀ y ∈ t.depths d, y ≤ n) →
    share n (t.depths d) = 2 ^ (n - d)
  | .tip, d, _ => by simp [Shape.depths, share]
  | .fork l r, d, h => by
    simp only [Shape.depths, List.mem_append] at h
    rw [Shape.depths, share_append, share_shape n l _ (fun y hy => h y (Or.inl hy)),
      share_shape n r _ (fun y hy => h y (Or.inr hy))]
    obtain ⟨x, xs, hx, hle⟩ := l.depths_cons (d + 1)
    have := h x (Or.inl (by rw [hx]; exact List.mem_cons_self ..))
    have he : n - d = (n - (d + 1)) + 1 := by omega
    rw [he, Nat.pow_succ]
    omega

/-- The depths of the tips of trees at given depths, the last tree first. -/
def tips : List (Shape × Nat) → List Nat
  | [] => []
  | (t, d) :: fs => tips fs ++ t.depths d

private theorem share_pos {n : Nat} : ∀ {l : List Nat}, l ≠ [] → 0 < share n l
  | [], h => absurd rfl h
  | x :: l, _ => by
    rw [share]
    have := Nat.two_pow_pos (n - x)
    omega

/-- No two neighbours are equal. -/
def Unequal : List Nat → Prop
  | [] => True
  | [_] => True
  | a :: b :: l => a ≠ b ∧ Unequal (b :: l)

private theorem Unequal.tail {a : Nat} : ∀ {l : List Nat}, Unequal (a :: l) → Unequal l
  | [], _ => trivial
  | _ :: _, h => h.2

/-- A pushed tree is added to the trees seen so far, joining it with its siblings. -/
private theorem pushR_tips (n : Nat) : ∀ (fs : List (Shape × Nat)) (t : Shape) (e : Nat), fs ≠ [] →
    Unequal (fs.map Prod.snd) → (∀ y ∈ tips fs ++ t.depths e, y ≤ n) →
    share n (tips fs ++ t.depths e) ≤ 2 ^ n →
    ∃ fs', fs' ≠ [] ∧ (pushR (fs.map Prod.snd) e).1 = fs'.map Prod.snd ∧ tips fs' = tips fs ++ t.depths e ∧
      Unequal (fs'.map Prod.snd) := by
  intro fs
  induction fs with
  | nil => intro t e h; exact absurd rfl h
  | cons f fs ih =>
    intro t e _ hap hle hsh
    obtain ⟨tb, b⟩ := f
    have he0 : e ≠ 0 := by
      rintro rfl
      rw [share_append, share_shape n t 0 (fun y hy => hle y (List.mem_append_right _ hy))] at hsh
      have : 0 < share n (tips ((tb, b) :: fs)) := by
        obtain ⟨x, xs, hx, -⟩ := tb.depths_cons b
        exact share_pos (by rw [tips, hx]; simp)
      simp only [Nat.sub_zero] at hsh
      omega
    by_cases heb : e = b
    · subst heb
      have hfork : tb.depths e ++ t.depths e = (Shape.fork tb t).depths (e - 1) := by
        rw [Shape.depths, Nat.sub_add_cancel (by omega)]
      cases fs with
      | nil =>
        refine ⟨[(.fork tb t, e - 1)], by simp, ?_, ?_, trivial⟩
        · simp [pushR, he0]
        · simp only [tips, List.nil_append, hfork]
      | cons g fs =>
        have happ : tips ((tb, e) :: g :: fs) ++ t.depths e =
            tips (g :: fs) ++ (Shape.fork tb t).depths (e - 1) := by
          rw [tips, List.append_assoc, hfork]
        obtain ⟨fs', h1, h2, h3, h4⟩ := ih (.fork tb t) (e - 1) (by simp) hap.tail (by rw [← happ]; exact hle)
          (by rw [← happ]; exact hsh)
        refine ⟨fs', h1, ?_, by rw [happ]; exact h3, h4⟩
        rw [← h2]
        simp only [List.map_cons, pushR, if_neg he0, if_true]
    · refine ⟨(t, e) :: (tb, b) :: fs, by simp, ?_, by rw [tips], heb, hap⟩
      cases fs with
      | nil => simp [pushR, he0, heb]
      | cons g fs => simp [pushR, he0, heb]

theorem pushL_tips (n : Nat) : ∀ (l : List Nat) (fs : List (Shape × Nat)), fs ≠ [] →
    Unequal (fs.map Prod.snd) → (∀ y ∈ tips fs ++ l, y ≤ n) → share n (tips fs ++ l) ≤ 2 ^ n →
    ∃ fs', fs' ≠ [] ∧ pushL (fs.map Prod.snd) l = fs'.map Prod.snd ∧ tips fs' = tips fs ++ l ∧
      Unequal (fs'.map Prod.snd) := by
  intro l
  induction l with
  | nil => intro fs h hap _ _; exact ⟨fs, h, rfl, by simp, hap⟩
  | cons e l ih =>
    intro fs h hap hle hsh
    have happ : tips fs ++ e :: l = (tips fs ++ Shape.tip.depths e) ++ l := by simp [Shape.depths]
    obtain ⟨fs1, h1, h2, h3, h3'⟩ := pushR_tips n fs .tip e h hap
      (fun y hy => hle y (by rw [happ]; exact List.mem_append_left _ hy))
      (by rw [happ, share_append] at hsh; omega)
    obtain ⟨fs2, h4, h5, h6, h7⟩ := ih fs1 h1 h3' (by rw [h3, ← happ]; exact hle) (by rw [h3, ← happ]; exact hsh)
    exact ⟨fs2, h4, by rw [pushL, h2, h5], by rw [h6, h3, happ], h7⟩

theorem tips_reverse : ∀ fs : List (Shape × Nat), tips fs = fs.reverse.flatMap fun f => f.1.depths f.2
  | [] => rfl
  | (t, d) :: fs => by simp [tips, tips_reverse fs]

theorem apart_iff : ∀ l : List (Shape × Nat), Unequal (l.map Prod.snd) ↔
    ∀ u f g v, l.reverse = u ++ f :: g :: v → f.2 ≠ g.2
  | [] => by simp [Unequal]
  | [a] => by
    refine ⟨fun _ u f g v h => ?_, fun _ => trivial⟩
    have := congrArg List.length h
    simp at this
    omega
  | a :: b :: l => by
    rw [List.map_cons, List.map_cons, Unequal, ← List.map_cons, apart_iff (b :: l)]
    constructor
    · rintro ⟨h1, h2⟩ u f g v h
      rw [List.reverse_cons] at h
      rcases List.eq_nil_or_concat v with hv | ⟨v', x, hv⟩
      · subst hv
        rw [List.reverse_cons, List.append_assoc] at h
        obtain ⟨-, h4⟩ := List.append_inj' h rfl
        simp only [List.singleton_append, List.cons.injEq, and_true] at h4
        rw [← h4.1, ← h4.2]
        exact fun h => h1 h.symm
      · subst hv
        refine h2 u f g v' ?_
        have h5 : (b :: l).reverse ++ [a] = (u ++ f :: g :: v') ++ [x] := by simpa using h
        exact (List.append_inj' h5 rfl).1
    · intro h
      refine ⟨?_, fun u f g v h1 => h u f g (v ++ [a]) (by rw [List.reverse_cons, h1]; simp)⟩
      exact fun h1 => h l.reverse b a [] (by simp) h1.symm

end CSV
