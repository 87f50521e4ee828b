import Verif.Spec.Proof
import Verif.Proofs.ConcealExcept

/-!
# A frontier determines its tree; slots
-/

namespace CSV

theorem frontier_head_node {H D : Nat} (hH : H ≤ D + 1) (hH' : H < 32) {l r : PT} {d : Nat}
    (hf : (PT.node l r).Fits H D d) (rest : List TreeNode) :
    (d < D ∧ ∃ p m l', (PT.node l r).frontier d ++ rest = .leaf p m :: l') ∨
    (∃ e h l', (PT.node l r).frontier d ++ rest = .concealed (toU5 e) h :: l' ∧ d < e ∧ e < 32) := by
  rcases PT.frontier_head hH hH' hf rfl (rest := rest) with ⟨p, m, l', h⟩ | h
  · refine Or.inl ⟨?_, p, m, l', h⟩
    rcases Nat.lt_or_ge d D with h1 | h1
    · exact h1
    · exfalso
      have h2 := PT.fits_node_le hH hf
      have : d = D := by omega
      subst this
      obtain ⟨a, rfl⟩ := PT.fits_last hH hf.1
      simp [PT.frontier] at h
  · exact Or.inr h

/-- The frontier determines the tree. -/
theorem frontier_inj {H D : Nat} (hH : H ≤ D + 1) (hH' : H < 32) : ∀ {t1 t2 : PT} {d : Nat}
    {r1 r2 : List TreeNode}, t1.Fits H D d → t2.Fits H D d →
    t1.frontier d ++ r1 = t2.frontier d ++ r2 → t1 = t2 ∧ r1 = r2 := by
  intro t1
  induction t1 with
  | hidden h1 =>
    intro t2 d r1 r2 hf1 hf2 he
    simp only [PT.Fits] at hf1
    cases t2 with
    | hidden h2 => simp [PT.frontier] at he; simp [he]
    | leaf p m => simp [PT.frontier] at he
    | node l r =>
      exfalso
      rcases frontier_head_node hH hH' hf2 r2 with ⟨_, p, m, l', h⟩ | ⟨e, h, l', h, h2, h3⟩
      · rw [h] at he; simp [PT.frontier] at he
      · rw [h] at he
        simp only [PT.frontier, List.cons_append, List.nil_append, List.cons.injEq,
          TreeNode.concealed.injEq] at he
        have := toU5_inj (by omega) h3 he.1.1
        omega
  | leaf p m =>
    intro t2 d r1 r2 hf1 hf2 he
    simp only [PT.Fits] at hf1
    cases t2 with
    | hidden h2 => simp [PT.frontier] at he
    | leaf p m => simp [PT.frontier] at he; simp [he]
    | node l r =>
      exfalso
      rcases frontier_head_node hH hH' hf2 r2 with ⟨hlt, p, m, l', h⟩ | ⟨e, h, l', h, h2, h3⟩
      · omega
      · rw [h] at he; simp [PT.frontier] at he
  | node l r ihl ihr =>
    intro t2 d r1 r2 hf1 hf2 he
    cases t2 with
    | hidden h2 =>
      exfalso
      simp only [PT.Fits] at hf2
      rcases frontier_head_node hH hH' hf1 r1 with ⟨_, p, m, l', h⟩ | ⟨e, h, l', h, h2, h3⟩
      · rw [h] at he; simp [PT.frontier] at he
      · rw [h] at he
        simp only [PT.frontier, List.cons_append, List.nil_append, List.cons.injEq,
          TreeNode.concealed.injEq] at he
        have := toU5_inj h3 (by omega) he.1.1
        omega
    | leaf p m =>
      exfalso
      simp only [PT.Fits] at hf2
      rcases frontier_head_node hH hH' hf1 r1 with ⟨hlt, p, m, l', h⟩ | ⟨e, h, l', h, h2, h3⟩
      · omega
      · rw [h] at he; simp [PT.frontier] at he
    | node l2 r2' =>
      simp only [PT.frontier, List.append_assoc] at he
      obtain ⟨rfl, h2⟩ := ihl hf1.1 hf2.1 he
      obtain ⟨rfl, h3⟩ := ihr hf1.2 hf2.2 h2
      exact ⟨rfl, h3⟩

/-- A block shows at most one tree. -/
theorem shows_unique {b : MerkleBlock} {t1 t2 : PT} (h1 : b.Shows t1) (h2 : b.Shows t2) : t1 = t2 := by
  have := b.depth.isLt
  have he : t1.frontier 0 ++ [] = t2.frontier 0 ++ [] := by rw [← h1.1, ← h2.1]
  exact (frontier_inj (by omega) (by omega) h1.2 h2.2 he).1

/-! ## Slots -/

theorem slots_known : ∀ {t : PT} {n lo : Nat}, (t.slots n lo).map Prod.snd = t.known := by
  intro t
  induction t with
  | hidden h => intro n lo; rfl
  | leaf p m => intro n lo; rfl
  | node l r ihl ihr => intro n lo; simp [PT.slots, PT.known, ihl, ihr]

theorem known_slot {t : PT} {p : ProtocolId} {m : Message} (h : (p, m) ∈ t.known) (n lo : Nat) :
    ∃ i, (i, (p, m)) ∈ t.slots n lo := by
  rw [← slots_known (n := n) (lo := lo)] at h
  obtain ⟨⟨i, e⟩, h1, h2⟩ := List.mem_map.mp h
  simp only at h2
  subst h2
  exact ⟨i, h1⟩

theorem slot_known {t : PT} {n lo : Nat} {e : Nat × (ProtocolId × Message)} (h : e ∈ t.slots n lo) :
    e.2 ∈ t.known := by
  rw [← slots_known (n := n) (lo := lo)]
  exact List.mem_map_of_mem h

/-- Slots are within the range of the tree and strictly ascending. -/
theorem slots_range {H D : Nat} (hH : H ≤ D) : ∀ {t : PT} {d n lo : Nat}, t.Fits H D d → d + n = D →
    (∀ e ∈ t.slots n lo, lo ≤ e.1 ∧ e.1 < lo + 2 ^ n) ∧
    (t.slots n lo).Pairwise (fun a b => a.1 < b.1) := by
  intro t
  induction t with
  | hidden h => intro d n lo _ _; simp [PT.slots]
  | leaf p m =>
    intro d n lo hf hn
    have := Nat.two_pow_pos n
    simp only [PT.slots, List.mem_cons, List.not_mem_nil, or_false, forall_eq,
      List.pairwise_cons, List.Pairwise.nil, and_true, false_implies, implies_true]
    omega
  | node l r ihl ihr =>
    intro d n lo hf hn
    have hn1 : 1 ≤ n := by
      have := PT.fits_le (D := D) (by omega) hf.1
      rcases Nat.eq_zero_or_pos n with h | h
      · exfalso
        obtain ⟨a, rfl⟩ := PT.fits_last (H := H) (D := D) (t := l) (by omega)
          (by rw [show D = d by omega]; rw [show D = d by omega] at hf; exact hf.1)
        have := hf.1
        simp only [PT.Fits] at this
        omega
      · exact h
    have hp : 2 ^ n = 2 ^ (n - 1) + 2 ^ (n - 1) := by
      rw [← Nat.mul_two, ← Nat.pow_succ]; congr 1; omega
    have h1 := ihl (n := n - 1) (lo := lo) hf.1 (by omega)
    have h2 := ihr (n := n - 1) (lo := lo + 2 ^ (n - 1)) hf.2 (by omega)
    simp only [PT.slots]
    constructor
    · intro e he
      rcases List.mem_append.mp he with he | he
      · have := h1.1 e he; omega
      · have := h2.1 e he; omega
    · rw [List.pairwise_append]
      refine ⟨h1.2, h2.2, fun a ha b hb => ?_⟩
      have := h1.1 a ha
      have := h2.1 b hb
      omega

theorem fits_height {D : Nat} {l r : PT} {d n : Nat} (hf : (PT.node l r).Fits D D d)
    (hn : d + n = D) : 1 ≤ n := by
  rcases Nat.eq_zero_or_pos n with h | h
  · exfalso
    obtain ⟨a, rfl⟩ := PT.fits_last (H := D) (D := D) (t := l) (by omega)
      (by rw [show D = d by omega]; rw [show D = d by omega] at hf; exact hf.1)
    have := hf.1
    simp only [PT.Fits] at this
    omega
  · exact h

theorem pairwise_unique {l : List (Nat × (ProtocolId × Message))}
    (h : l.Pairwise (fun a b => a.1 < b.1)) {i : Nat} {x y : ProtocolId × Message}
    (hx : (i, x) ∈ l) (hy : (i, y) ∈ l) : x = y := by
  induction l with
  | nil => simp at hx
  | cons a l ih =>
    rw [List.pairwise_cons] at h
    rcases List.mem_cons.mp hx with h1 | h1 <;> rcases List.mem_cons.mp hy with h2 | h2
    · rw [← h1] at h2; simpa using h2.symm
    · have := h.1 _ h2; rw [← h1] at this; simp at this
    · have := h.1 _ h1; rw [← h2] at this; simp at this
    · exact ih h.2 h1 h2

/-- In a placed block each protocol is revealed at most once. -/
theorem placed_unique {b : MerkleBlock} {t : PT} (h : b.Placed t) {p : ProtocolId} {m1 m2 : Message}
    (h1 : (p, m1) ∈ t.known) (h2 : (p, m2) ∈ t.known) : m1 = m2 := by
  obtain ⟨i, hi⟩ := known_slot h1 b.depth.val 0
  obtain ⟨j, hj⟩ := known_slot h2 b.depth.val 0
  have e1 := h.2 _ _ _ hi
  have e2 := h.2 _ _ _ hj
  rw [e1] at hi
  rw [e2] at hj
  have := pairwise_unique (slots_range (Nat.le_refl _) h.1.2 (by omega)).2 hi hj
  simpa using this

end CSV
