import Verif.Spec.PartialTree
import Verif.Proofs.Hash

/-!
# The loops of `conceal_except`

The index-based loop is shown equal, on every input, to a pass over the list of nodes; the pass
over the frontier of a partial tree is shown to be one joining step on the tree.
-/

namespace CSV

/-- One pass of the inner loop over the nodes from `off` on; returns the new nodes, the number of
pairs joined and the final offset. -/
def passL [Env] (D : U5) : List TreeNode → (off : Nat) → Exec (List TreeNode × Nat × Nat)
  | [], off => .ok ([], 0, off)
  | .leaf p m :: rest, off => do
    let o ← u32Add dbg off 1
    let (r, k, o) ← passL D rest o
    .ok (.leaf p m :: r, k, o)
  | [.concealed d h], off => do
    let e ← u32Sub dbg D.val d.val
    let p ← u32Pow2 dbg e
    let o ← u32Add dbg off p
    .ok ([.concealed d h], 0, o)
  | .concealed d h :: .leaf p m :: rest, off => do
    let e ← u32Sub dbg D.val d.val
    let pw ← u32Pow2 dbg e
    let o ← u32Add dbg off pw
    let (r, k, o) ← passL D (.leaf p m :: rest) o
    .ok (.concealed d h :: r, k, o)
  | .concealed d1 h1 :: .concealed d2 h2 :: rest, off =>
    if d1 = d2 then do
      let d ← u5Sub d1 1
      let height ← u32Sub dbg D.val d.val
      let pow ← u32Pow2 dbg height
      let rm ← u32Rem off pow
      if rm ≠ 0 then do
        let e ← u32Sub dbg D.val d1.val
        let p ← u32Pow2 dbg e
        let o ← u32Add dbg off p
        let (r, k, o) ← passL D (.concealed d2 h2 :: rest) o
        .ok (.concealed d1 h1 :: r, k, o)
      else do
        let o ← u32Add dbg off pow
        let (r, k, o) ← passL D rest o
        .ok (.concealed d (branchHash d.val (widthLimit D) h1 h2) :: r, k + 1, o)
    else do
      let e ← u32Sub dbg D.val d1.val
      let p ← u32Pow2 dbg e
      let o ← u32Add dbg off p
      let (r, k, o) ← passL D (.concealed d2 h2 :: rest) o
      .ok (.concealed d1 h1 :: r, k, o)

theorem u32Add_assoc1 (d : Bool) (off a : Nat) :
    (do let o ← u32Add d off a; u32Add d o 1) = u32Add d off (a + 1) := by
  unfold u32Add
  by_cases h1 : off + a < 2 ^ 32 <;> by_cases h2 : off + (a + 1) < 2 ^ 32 <;> cases d <;>
    simp only [h1, h2, if_true, if_false, ok_bind, error_bind, Bool.false_eq_true] <;>
    (try omega) <;> (try split) <;> (try rfl) <;> (first | (congr 1; omega) | omega)

/-- Lifting of a pass result to the state of the index loop. -/
def liftPass (pre : List TreeNode) (c : Nat) (x : List TreeNode × Nat × Nat) : ConcealState :=
  ⟨pre ++ x.1, c + x.2.1, x.2.2, (pre ++ x.1).length, (pre ++ x.1).length⟩

theorem map_bind' {α β γ : Type} (x : Exec α) (f : α → Exec β) (g : β → γ) :
    (x >>= f).map g = x >>= fun a => (f a).map g := by
  cases x <;> rfl

theorem bind_congr' {α β : Type} {x : Exec α} {f g : α → Exec β} (h : ∀ a, f a = g a) :
    (x >>= f) = (x >>= g) := by
  cases x with
  | error e => rfl
  | ok a => exact h a

theorem concealInner_step [Env] {D : U5} {fuel : Nat} {s : ConcealState} (h : s.pos < s.len) :
    concealInner D (fuel + 1) s = (concealStep D s >>= concealInner D fuel) := by
  simp [concealInner, h]

theorem getElem?_mid {pre : List TreeNode} {x : TreeNode} {l : List TreeNode} :
    (pre ++ x :: l)[pre.length]? = some x := by simp

theorem getElem?_mid1 {pre : List TreeNode} {x : TreeNode} {l : List TreeNode} :
    (pre ++ x :: l)[pre.length + 1]? = l[0]? := by
  rw [List.getElem?_append_right (by omega)]
  simp

/-- The index loop is the list pass, on every input. -/
theorem concealInner_eq_passL [Env] (D : U5) : ∀ (n : Nat) (cs pre : List TreeNode) (c off fuel : Nat),
    cs.length = n → n ≤ fuel →
    concealInner D fuel ⟨pre ++ cs, c, off, pre.length, pre.length + cs.length⟩ =
      (passL D cs off).map (liftPass pre c) := by
  intro n
  induction n using Nat.strongRecOn with
  | ind n ih =>
  intro cs pre c off fuel hn hf
  -- moving one node to the processed prefix
  have key : ∀ (x : TreeNode) (l : List TreeNode) (o fuel' : Nat), l.length < n → l.length ≤ fuel' →
      concealInner D fuel' ⟨pre ++ x :: l, c, o, pre.length + 1, pre.length + (x :: l).length⟩ =
      (passL D l o).map fun y => liftPass pre c (x :: y.1, y.2.1, y.2.2) := by
    intro x l o fuel' h1 h2
    have := ih l.length h1 l (pre ++ [x]) c o fuel' rfl h2
    simp only [List.append_assoc, List.cons_append, List.nil_append, List.length_append,
      List.length_cons, List.length_nil] at this
    rw [show pre.length + (x :: l).length = pre.length + (0 + 1) + l.length by simp; omega,
      show pre.length + 1 = pre.length + (0 + 1) by omega, this]
    congr 1
    funext y
    simp [liftPass]
  match cs, hn with
  | [], hn =>
    cases fuel <;> simp [concealInner, passL, Except.map, liftPass]
  | .leaf p m :: [], hn =>
    obtain ⟨fuel, rfl⟩ : ∃ k, fuel = k + 1 := ⟨fuel - 1, by simp at hn; omega⟩
    rw [concealInner_step (by simp)]
    simp only [concealStep, getElem?_mid, getElem?_mid1, List.getElem?_nil, passL, map_bind', bind_assoc]
    apply bind_congr'; intro o
    simp only [ok_bind]
    have := key (.leaf p m) [] o fuel (by simp at hn ⊢; omega) (by simp)
    simp only [List.length_cons, List.length_nil] at this ⊢
    rw [this]
    simp [passL, Except.map]
  | .leaf p m :: .concealed d h :: rest, hn =>
    obtain ⟨fuel, rfl⟩ : ∃ k, fuel = k + 1 := ⟨fuel - 1, by simp at hn; omega⟩
    rw [concealInner_step (by simp)]
    simp only [concealStep, getElem?_mid, getElem?_mid1, List.getElem?_cons_zero]
    rw [show passL D (.leaf p m :: .concealed d h :: rest) off = (do
      let o ← u32Add dbg off 1
      let (r, k, o) ← passL D (.concealed d h :: rest) o
      .ok (.leaf p m :: r, k, o)) from by simp [passL]]
    rw [map_bind', bind_assoc]
    apply bind_congr'; intro o
    simp only [ok_bind]
    have := key (.leaf p m) (.concealed d h :: rest) o fuel (by simp at hn ⊢; omega)
      (by simp at hn ⊢; omega)
    simp only [List.length_cons] at this ⊢
    rw [this, map_bind']
    cases passL D (.concealed d h :: rest) o <;> rfl
  | .leaf p m :: .leaf p' m' :: rest, hn =>
    obtain ⟨fuel, rfl⟩ : ∃ k, fuel = k + 1 := ⟨fuel - 1, by simp at hn; omega⟩
    rw [concealInner_step (by simp)]
    simp only [concealStep, getElem?_mid, getElem?_mid1, List.getElem?_cons_zero]
    rw [show passL D (.leaf p m :: .leaf p' m' :: rest) off = (do
      let o ← (do let o ← u32Add dbg off 1; u32Add dbg o 1)
      let (r, k, o) ← passL D rest o
      .ok (.leaf p m :: .leaf p' m' :: r, k, o)) from by simp [passL, bind_assoc, ok_bind]]
    rw [u32Add_assoc1, map_bind', bind_assoc]
    apply bind_congr'; intro o
    simp only [ok_bind]
    have := ih rest.length (by simp at hn; omega) rest (pre ++ [.leaf p m, .leaf p' m']) c o fuel rfl
      (by simp at hn; omega)
    simp only [List.append_assoc, List.cons_append, List.nil_append, List.length_append,
      List.length_cons, List.length_nil] at this ⊢
    rw [show pre.length + 1 + 1 = pre.length + (0 + 1 + 1) by omega,
      show pre.length + (rest.length + 1 + 1) = pre.length + (0 + 1 + 1) + rest.length by omega,
      this, map_bind']
    cases passL D rest o <;> simp [Except.map, ok_bind, error_bind, liftPass]
  | .concealed d h :: [], hn =>
    obtain ⟨fuel, rfl⟩ : ∃ k, fuel = k + 1 := ⟨fuel - 1, by simp at hn; omega⟩
    rw [concealInner_step (by simp)]
    simp only [concealStep, getElem?_mid, getElem?_mid1, List.getElem?_nil, passL, map_bind', bind_assoc]
    apply bind_congr'; intro e
    apply bind_congr'; intro pw
    apply bind_congr'; intro o
    simp only [ok_bind]
    have := key (.concealed d h) [] o fuel (by simp at hn ⊢; omega) (by simp)
    simp only [List.length_cons, List.length_nil] at this ⊢
    rw [this]
    simp [passL, Except.map]
  | .concealed d h :: .leaf p m :: rest, hn =>
    obtain ⟨fuel, rfl⟩ : ∃ k, fuel = k + 1 := ⟨fuel - 1, by simp at hn; omega⟩
    rw [concealInner_step (by simp)]
    simp only [concealStep, getElem?_mid, getElem?_mid1, List.getElem?_cons_zero]
    rw [show passL D (.concealed d h :: .leaf p m :: rest) off = (do
      let e ← u32Sub dbg D.val d.val
      let pw ← u32Pow2 dbg e
      let o ← u32Add dbg off pw
      let o ← u32Add dbg o 1
      let (r, k, o) ← passL D rest o
      .ok (.concealed d h :: .leaf p m :: r, k, o)) from by simp [passL, bind_assoc, ok_bind]]
    simp only [map_bind', bind_assoc]
    apply bind_congr'; intro e
    apply bind_congr'; intro pw
    apply bind_congr'; intro o
    apply bind_congr'; intro o
    simp only [ok_bind]
    have := ih rest.length (by simp at hn; omega) rest (pre ++ [.concealed d h, .leaf p m]) c o fuel rfl
      (by simp at hn; omega)
    simp only [List.append_assoc, List.cons_append, List.nil_append, List.length_append,
      List.length_cons, List.length_nil] at this ⊢
    rw [show pre.length + 1 + 1 = pre.length + (0 + 1 + 1) by omega,
      show pre.length + (rest.length + 1 + 1) = pre.length + (0 + 1 + 1) + rest.length by omega,
      this]
    cases passL D rest o <;> simp [Except.map, ok_bind, error_bind, liftPass]
  | .concealed d1 h1 :: .concealed d2 h2 :: rest, hn =>
    obtain ⟨fuel, rfl⟩ : ∃ k, fuel = k + 1 := ⟨fuel - 1, by simp at hn; omega⟩
    rw [concealInner_step (by simp)]
    simp only [concealStep, getElem?_mid, getElem?_mid1, List.getElem?_cons_zero]
    rw [passL]
    by_cases hd : d1 = d2
    · rw [if_pos hd, if_pos hd]
      simp only [map_bind', bind_assoc]
      apply bind_congr'; intro d
      apply bind_congr'; intro height
      apply bind_congr'; intro pow
      apply bind_congr'; intro rm
      by_cases hr : rm ≠ 0
      · rw [if_pos hr, if_pos hr]
        simp only [map_bind', bind_assoc]
        apply bind_congr'; intro e
        apply bind_congr'; intro pw
        apply bind_congr'; intro o
        simp only [ok_bind]
        have := key (.concealed d1 h1) (.concealed d2 h2 :: rest) o fuel (by simp at hn ⊢; omega)
          (by simp at hn ⊢; omega)
        simp only [List.length_cons] at this ⊢
        rw [this]
        cases passL D (.concealed d2 h2 :: rest) o <;> rfl
      · rw [if_neg hr, if_neg hr]
        simp only [treeNodeWith_eq, ok_bind]
        rw [if_neg (by simp; omega)]
        simp only [map_bind', bind_assoc]
        apply bind_congr'; intro o
        simp only [ok_bind]
        have hset : (List.set (pre ++ .concealed d1 h1 :: .concealed d2 h2 :: rest) pre.length
            (.concealed d (branchHash d.val (widthLimit D) h1 h2))).eraseIdx (pre.length + 1) =
            pre ++ .concealed d (branchHash d.val (widthLimit D) h1 h2) :: rest := by
          simp [List.eraseIdx_append_of_length_le]
        rw [hset]
        have := ih rest.length (by simp at hn; omega) rest
          (pre ++ [.concealed d (branchHash d.val (widthLimit D) h1 h2)]) (c + 1) o fuel rfl
          (by simp at hn; omega)
        simp only [List.append_assoc, List.cons_append, List.nil_append, List.length_append,
          List.length_cons, List.length_nil] at this ⊢
        rw [show pre.length + 1 = pre.length + (0 + 1) by omega,
          show pre.length + (rest.length + 1 + 1) - 1 = pre.length + (0 + 1) + rest.length by omega,
          this]
        cases passL D rest o with
        | error e => rfl
        | ok x =>
          obtain ⟨x1, x2, x3⟩ := x
          simp only [Except.map, ok_bind, liftPass, List.append_assoc, List.cons_append,
            List.nil_append]
          rw [show c + 1 + x2 = c + (x2 + 1) by omega]
    · rw [if_neg hd, if_neg hd]
      simp only [map_bind', bind_assoc]
      apply bind_congr'; intro e
      apply bind_congr'; intro pw
      apply bind_congr'; intro o
      simp only [ok_bind]
      have := key (.concealed d1 h1) (.concealed d2 h2 :: rest) o fuel (by simp at hn ⊢; omega)
        (by simp at hn ⊢; omega)
      simp only [List.length_cons] at this ⊢
      rw [this]
      cases passL D (.concealed d2 h2 :: rest) o <;> rfl

end CSV
