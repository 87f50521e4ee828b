import Verif.Proofs.CommitChar
import Verif.Spec.Clash

/-!
# Joining hidden nodes in any order

In release builds the loops of `conceal_except` run on any list of nodes, also one that is not the frontier
of a tree. They join neighbours until nothing can be joined. Here the nodes are joined in another order,
with a stack, and the result is shown to be the same: so it does not depend on when a leaf was hidden.
-/

namespace CSV

/-- Coverage of a node. -/
def nodeCov (D : U5) (n : TreeNode) : Nat :=
  if (n.depthOr D).val ≤ D.val then 2 ^ (D.val - (n.depthOr D).val) else 0

theorem coverage_cons' (D : U5) (n : TreeNode) (l : List TreeNode) :
    coverage D (n :: l) = nodeCov D n + coverage D l := by
  simp only [coverage, List.filter_cons, nodeCov]
  by_cases h : (n.depthOr D).val ≤ D.val <;> simp [h]

theorem nodeCov_concealed {D d : U5} {h : MerkleHash} (hd : d.val ≤ D.val) :
    nodeCov D (.concealed d h) = 2 ^ (D.val - d.val) := if_pos hd

/-- Put a node on the stack, joining it with the top one if they are siblings; none if the code
panics: at the root, or below the level under the leaves. -/
def push [Env] (D : U5) : List TreeNode → TreeNode → Option (List TreeNode)
  | .concealed d1 h1 :: S, .concealed d2 h2 =>
    if d1 ≠ d2 then some (.concealed d2 h2 :: .concealed d1 h1 :: S)
    else if d1.val = 0 ∨ D.val + 1 < d1.val then none
    else if coverage D S % 2 ^ (D.val + 1 - d1.val) ≠ 0 then
      some (.concealed d2 h2 :: .concealed d1 h1 :: S)
    else push D S (.concealed (toU5 (d1.val - 1)) (branchHash (d1.val - 1) (widthLimit D) h1 h2))
  | S, y => some (y :: S)

def settle [Env] (D : U5) : List TreeNode → List TreeNode → Option (List TreeNode)
  | S, [] => some S
  | S, y :: l => (push D S y).bind fun S => settle D S l

/-- The node is hidden a level below the leaves. -/
def IsDeep (D : U5) : TreeNode → Prop
  | .concealed d _ => d.val = D.val + 1
  | .leaf _ _ => False

/-- The neighbours are both hidden a level below the leaves. -/
def DeepTop (D : U5) (S l : List TreeNode) : Prop :=
  ∃ s S' x l', S = s :: S' ∧ l = x :: l' ∧ IsDeep D s ∧ IsDeep D x

theorem push_coverage [Env] {D : U5} : ∀ {S : List TreeNode} {y : TreeNode} {S' : List TreeNode},
    push D S y = some S' → ¬ DeepTop D S [y] → coverage D S' = coverage D S + nodeCov D y := by
  intro S y
  fun_induction push D S y
  case case1 => intro S' h _; cases h; rw [coverage_cons', Nat.add_comm]
  case case2 => intro S' h; cases h
  case case3 => intro S' h _; cases h; rw [coverage_cons', Nat.add_comm]
  case case4 d1 h1 S d2 h2 he hn ha ih =>
    intro S' h hdt
    have he : d1 = d2 := by simpa using he
    subst he
    have hle : d1.val ≤ D.val := by
      have : ¬ d1.val = D.val + 1 := fun e => hdt ⟨_, _, _, _, rfl, rfl, e, e⟩
      omega
    have hd := d1.isLt
    rw [ih h (by
      rintro ⟨_, _, _, _, -, e, -, e'⟩
      cases e
      have : (toU5 (d1.val - 1)).val = D.val + 1 := e'
      rw [toU5_val (by omega)] at this
      omega)]
    have hz : (toU5 (d1.val - 1)).val = d1.val - 1 := toU5_val (by omega)
    rw [coverage_cons', nodeCov_concealed hle, nodeCov_concealed hle, nodeCov_concealed (by omega), hz,
      show D.val - (d1.val - 1) = (D.val - d1.val) + 1 by omega, Nat.pow_succ]
    omega
  case case5 => intro S' h _; cases h; rw [coverage_cons', Nat.add_comm]

theorem push_top [Env] {D : U5} : ∀ {S : List TreeNode} {y : TreeNode} {s : TreeNode} {S' : List TreeNode},
    push D S y = some (s :: S') → IsDeep D s → IsDeep D y := by
  intro S y
  fun_induction push D S y
  case case1 => intro s S' h hd; cases h; exact hd
  case case2 => intro s S' h; cases h
  case case3 => intro s S' h hd; cases h; exact hd
  case case4 d1 h1 S d2 h2 he hn ha ih =>
    intro s S' h hd
    have := ih h hd
    have hl := d1.isLt
    have : (toU5 (d1.val - 1)).val = D.val + 1 := this
    rw [toU5_val (by omega)] at this
    omega
  case case5 => intro s S' h hd; cases h; exact hd

/-- A node which the code cannot join stays as it is, or the code panics. -/
theorem push_bad [Env] {D : U5} {S : List TreeNode} {d : U5} {h : MerkleHash}
    (hb : d.val = 0 ∨ D.val + 1 < d.val) :
    push D S (.concealed d h) = none ∨ push D S (.concealed d h) = some (.concealed d h :: S) := by
  cases S with
  | nil => right; rfl
  | cons s S =>
    cases s with
    | leaf p m => right; rfl
    | concealed d1 h1 =>
      simp only [push]
      by_cases e : d1 ≠ d
      · right; rw [if_pos e]
      · have e : d1 = d := by simpa using e
        subst e
        left; rw [if_neg (by simp), if_pos hb]

theorem mod_pow_32 {a k : Nat} (h : k < 32) : a % 2 ^ 32 % 2 ^ k = a % 2 ^ k := by
  apply Nat.mod_mod_of_dvd
  exact Nat.pow_dvd_pow 2 (by omega)

/-- A node at an aligned position is not joined with the one before. -/
theorem push_aligned [Env] {D : U5} {S : List TreeNode} {d : U5} {h : MerkleHash}
    (hd : d.val ≤ D.val) (h0 : d.val ≠ 0) (ha : coverage D S % 2 ^ (D.val + 1 - d.val) = 0) :
    push D S (.concealed d h) = some (.concealed d h :: S) := by
  cases S with
  | nil => rfl
  | cons s S =>
    cases s with
    | leaf p m => rfl
    | concealed d1 h1 =>
      simp only [push]
      by_cases e : d1 ≠ d
      · rw [if_pos e]
      · have e : d1 = d := by simpa using e
        subst e
        rw [if_neg (by simp), if_neg (by omega), if_pos]
        intro hc
        rw [coverage_cons'] at ha
        have hlt : 2 ^ (D.val - d1.val) < 2 ^ (D.val + 1 - d1.val) := Nat.pow_lt_pow_right (by decide) (by omega)
        rw [nodeCov_concealed hd, Nat.add_mod, hc, Nat.add_zero, Nat.mod_mod, Nat.mod_eq_of_lt hlt] at ha
        have := Nat.two_pow_pos (D.val - d1.val)
        omega

/-! ## The pass -/

theorem advance [Env] (hd : dbg = false) {D d : U5} {h : MerkleHash} {off c : Nat} (ho : off = c % 2 ^ 32) :
    ∃ e p o, u32Sub dbg D.val d.val = .ok e ∧ u32Pow2 dbg e = .ok p ∧ u32Add dbg off p = .ok o ∧
      o = (c + nodeCov D (.concealed d h)) % 2 ^ 32 := by
  have hD := D.isLt
  have hdl := d.isLt
  have hadd : ∀ p, u32Add dbg off p = .ok ((c + p) % 2 ^ 32) := by
    intro p
    rw [hd, u32Add]
    split
    · rw [ho, ← Nat.mod_add_mod, Nat.mod_eq_of_lt (a := c % 2 ^ 32 + p)]
      omega
    · rw [if_neg (by decide), ho, Nat.mod_add_mod]
  by_cases hle : d.val ≤ D.val
  · exact ⟨D.val - d.val, 2 ^ (D.val - d.val), _, if_pos hle, if_pos (by omega), hadd _,
      by rw [nodeCov_concealed hle]⟩
  · refine ⟨(D.val + 2 ^ 32 - d.val) % 2 ^ 32, 0, _, ?_, ?_, hadd _, ?_⟩
    · rw [hd, u32Sub, if_neg hle]; rfl
    · rw [hd, u32Pow2, if_neg (by omega)]; rfl
    · rw [nodeCov, if_neg (by exact hle)]

/-- Below the leaves the power is zero. -/
theorem pow_below [Env] (hd : dbg = false) {D : U5} {d : Nat} (h : D.val < d) (hl : d < 32) :
    ∃ e, u32Sub dbg D.val d = .ok e ∧ u32Pow2 dbg e = .ok 0 := by
  refine ⟨(D.val + 2 ^ 32 - d) % 2 ^ 32, ?_, ?_⟩
  · rw [hd, u32Sub, if_neg (by omega)]; rfl
  · rw [hd, u32Pow2, if_neg (by omega)]; rfl

theorem advance_leaf [Env] (hd : dbg = false) {off c : Nat} (ho : off = c % 2 ^ 32) :
    ∃ o, u32Add dbg off 1 = .ok o ∧ o = (c + 1) % 2 ^ 32 := by
  refine ⟨_, ?_, rfl⟩
  rw [hd, u32Add]
  split
  · congr 1; omega
  · rw [if_neg (by decide)]; congr 1; omega

/-- Hiding everything. -/
abbrev hideAll [Env] (D : U5) : TreeNode → TreeNode := hideNode D (fun _ => false)

/-- The result of a pass over `cs` on top of the stack agrees with `cs`. -/
def SettlesLike [Env] (D : U5) (keep : ProtocolId → Bool) (S cs : List TreeNode) (x : Exec (List TreeNode × Nat × Nat)) : Prop :=
  match x with
  | .ok (r, _, _) => settle D S (cs.map (hideNode D keep)) = settle D S (r.map (hideNode D keep))
  | .error _ => settle D S (cs.map (hideNode D keep)) = none

theorem agrees_same [Env] {D : U5} {keep : ProtocolId → Bool} {S cs cs' : List TreeNode} {x : Exec (List TreeNode × Nat × Nat)}
    (h : settle D S (cs.map (hideNode D keep)) = settle D S (cs'.map (hideNode D keep))) (ha : SettlesLike D keep S cs' x) :
    SettlesLike D keep S cs x := by
  unfold SettlesLike at *
  rw [h]
  exact ha

/-- A node that is kept. -/
theorem agrees_keep [Env] {D : U5} {keep : ProtocolId → Bool} (x : TreeNode) (rest : List TreeNode) (S : List TreeNode) (k o : Nat)
    (ho : o = (coverage D S + nodeCov D x) % 2 ^ 32) (hdt : ¬ DeepTop D S (x :: rest))
    (hx : ¬ (IsDeep D x ∧ ∃ y l, rest = y :: l ∧ IsDeep D y))
    (ih : ∀ S', o = coverage D S' % 2 ^ 32 → ¬ DeepTop D S' rest → SettlesLike D keep S' rest (passL D rest o)) :
    SettlesLike D keep S (x :: rest) (passL D rest o >>= fun y =>
        (.ok (x :: y.1, y.2.1 + k, y.2.2) : Exec (List TreeNode × Nat × Nat))) := by
  have hcov : nodeCov D (hideNode D keep x) = nodeCov D x := by
    cases x with
    | concealed d h => rfl
    | leaf p m => simp only [hideNode]; split <;> rfl
  have hdeep : IsDeep D (hideNode D keep x) → IsDeep D x := by
    cases x with
    | concealed d h => exact id
    | leaf p m =>
      simp only [hideNode]
      split
      · exact id
      · intro h; have : D.val = D.val + 1 := h; omega
  cases hp : push D S (hideNode D keep x) with
  | none =>
    cases passL D rest o with
    | error e => simp only [SettlesLike, error_bind, List.map_cons, settle, hp, Option.bind_none]
    | ok y => simp only [SettlesLike, ok_bind, List.map_cons, settle, hp, Option.bind_none]
  | some S' =>
    have hc := push_coverage hp (by
      rintro ⟨s, S1, x', l', e1, e2, e3, e4⟩
      cases e2
      exact hdt ⟨s, S1, x, rest, e1, rfl, e3, hdeep e4⟩)
    rw [hcov] at hc
    have := ih S' (by rw [hc, ho]) (by
      rintro ⟨s, S1, y, l', rfl, rfl, e3, e4⟩
      exact hx ⟨hdeep (push_top hp e3), y, l', rfl, e4⟩)
    cases hq : passL D rest o with
    | error e =>
      rw [hq] at this
      simp only [SettlesLike, error_bind, List.map_cons, settle, hp, Option.bind_some]
      exact this
    | ok y =>
      rw [hq] at this
      simp only [SettlesLike, ok_bind, List.map_cons, settle, hp, Option.bind_some]
      exact this

/-- In release builds a pass does not change what the nodes, if some more leaves are hidden, are joined to; where it
panics there is no result. -/
theorem passL_settle [Env] (hd : dbg = false) {D : U5} (keep : ProtocolId → Bool) (cs : List TreeNode) (off : Nat) :
    ∀ S, off = coverage D S % 2 ^ 32 → ¬ DeepTop D S cs → SettlesLike D keep S cs (passL D cs off) := by
  fun_induction passL D cs off
  case case1 => intro S _ _; rfl
  case case2 p m rest off ih =>
    intro S ho hdt
    obtain ⟨o, h1, h2⟩ := advance_leaf hd ho
    rw [h1]
    have hl : nodeCov D (.leaf p m) = 1 := by
      show (if D.val ≤ D.val then 2 ^ (D.val - D.val) else 0) = 1
      rw [if_pos (Nat.le_refl _), Nat.sub_self]
    exact agrees_keep (.leaf p m) rest S 0 o (by rw [hl, h2]) hdt (by rintro ⟨h, -⟩; exact h) (fun S' => ih _ S')
  case case3 d h off =>
    intro S ho hdt
    obtain ⟨e, p, o, h1, h2, h3, -⟩ := advance hd (D := D) (d := d) (h := h) ho
    simp only [h1, h2, h3, ok_bind]
    rfl
  case case4 d h p m rest off ih =>
    intro S ho hdt
    obtain ⟨e, pw, o, h1, h2, h3, h4⟩ := advance hd (D := D) (d := d) (h := h) ho
    simp only [h1, h2, h3, ok_bind]
    exact agrees_keep (.concealed d h) (.leaf p m :: rest) S 0 o h4 hdt (by rintro ⟨-, y, l, e, h⟩; cases e; exact h)
      (fun S' => ih _ S')
  case case5 h1 d1 h2 rest off ih1 ih2 =>
    intro S ho hdt
    have hdl := d1.isLt
    have hD := D.isLt
    by_cases hb : d1.val = 0 ∨ D.val + 1 < d1.val
    · -- a panic
      have hnone : settle D S ((.concealed d1 h1 :: .concealed d1 h2 :: rest).map (hideNode D keep)) = none := by
        simp only [List.map_cons, settle, hideNode]
        rcases push_bad (S := S) (h := h1) hb with h | h
        · rw [h]; rfl
        · rw [h]
          simp only [Option.bind_some, push]
          rw [if_neg (by simp), if_pos hb]; rfl
      suffices ∃ e, (do
          let d ← u5Sub d1 1
          let height ← u32Sub dbg D.val d.val
          let pow ← u32Pow2 dbg height
          u32Rem off pow) = .error e by
        obtain ⟨e, he⟩ := this
        cases g1 : u5Sub d1 1 with
        | error _ => exact hnone
        | ok d =>
          simp only [g1, ok_bind] at he ⊢
          cases g2 : u32Sub dbg D.val d.val with
          | error _ => exact hnone
          | ok height =>
            simp only [g2, ok_bind] at he ⊢
            cases g3 : u32Pow2 dbg height with
            | error _ => exact hnone
            | ok pow =>
              simp only [g3, ok_bind] at he ⊢
              rw [he]
              exact hnone
      by_cases h0 : d1.val = 0
      · have : u5Sub d1 1 = .error .overflow := by rw [u5Sub, if_neg (by omega)]
        exact ⟨_, by rw [this]; rfl⟩
      · have e1 : u5Sub d1 1 = .ok ⟨d1.val - 1, by omega⟩ := by
          rw [u5Sub, if_pos (by omega), u5With, dif_pos (by omega)]
        obtain ⟨e, e2, e3⟩ := pow_below hd (D := D) (d := d1.val - 1) (by omega) (by omega)
        refine ⟨.divByZero, ?_⟩
        rw [e1]
        simp only [ok_bind, e2, e3]
        rfl
    · have hz : (toU5 (d1.val - 1)).val = d1.val - 1 := toU5_val (by omega)
      have e1 : u5Sub d1 1 = .ok (toU5 (d1.val - 1)) := by
        rw [u5Sub, if_pos (by omega), u5With, dif_pos (by omega)]
        exact congrArg _ (Fin.ext hz.symm)
      have e2 : u32Sub dbg D.val (toU5 (d1.val - 1)).val = .ok (D.val + 1 - d1.val) := by
        rw [hz, u32Sub, if_pos (by omega)]; congr 1; omega
      have e3 : u32Pow2 dbg (D.val + 1 - d1.val) = .ok (2 ^ (D.val + 1 - d1.val)) := by
        rw [u32Pow2, if_pos (by omega)]
      have e4 : u32Rem off (2 ^ (D.val + 1 - d1.val)) = .ok (coverage D S % 2 ^ (D.val + 1 - d1.val)) := by
        have := Nat.two_pow_pos (D.val + 1 - d1.val)
        rw [u32Rem, if_neg (by omega), ho, mod_pow_32 (by omega)]
      simp only [e1, e2, e3, e4, ok_bind]
      by_cases hr : coverage D S % 2 ^ (D.val + 1 - d1.val) ≠ 0
      · rw [if_pos hr]
        obtain ⟨e, pw, o, g1, g2, g3, g4⟩ := advance hd (D := D) (d := d1) (h := h1) ho
        simp only [g1, g2, g3, ok_bind]
        refine agrees_keep (.concealed d1 h1) (.concealed d1 h2 :: rest) S 0 o g4 hdt ?_ (fun S' => ih1 _ S')
        rintro ⟨e5, -⟩
        have e5 : d1.val = D.val + 1 := e5
        rw [e5, Nat.sub_self, Nat.pow_zero, Nat.mod_one] at hr
        exact hr rfl
      · rw [if_neg hr]
        have hr : coverage D S % 2 ^ (D.val + 1 - d1.val) = 0 := by simpa using hr
        have hcz : ∀ h, nodeCov D (.concealed (toU5 (d1.val - 1)) h) = 2 ^ (D.val + 1 - d1.val) := by
          intro h
          rw [nodeCov_concealed (by omega), hz]
          congr 1; omega
        obtain ⟨e, p, o, a1, a2, a3, a4⟩ := advance hd (D := D) (d := toU5 (d1.val - 1)) (h := h1) ho
        rw [e2] at a1
        cases a1
        rw [e3] at a2
        cases a2
        simp only [a3, ok_bind]
        have hx : push D S (.concealed d1 h1) = some (.concealed d1 h1 :: S) := by
          by_cases hle : d1.val ≤ D.val
          · exact push_aligned hle (by omega) hr
          · have hdeep : d1.val = D.val + 1 := by omega
            cases S with
            | nil => rfl
            | cons s S =>
              cases s with
              | leaf p m => rfl
              | concealed d h =>
                simp only [push]
                rw [if_pos]
                rintro rfl
                exact hdt ⟨_, _, _, _, rfl, rfl, hdeep, hdeep⟩
        have hy : settle D S ((.concealed d1 h1 :: .concealed d1 h2 :: rest).map (hideNode D keep)) =
            settle D S ((.concealed (toU5 (d1.val - 1)) (branchHash (toU5 (d1.val - 1)).val (widthLimit D) h1 h2) :: rest).map
              (hideNode D keep)) := by
          simp only [List.map_cons, settle, hideNode]
          rw [hx]
          simp only [Option.bind_some, push]
          rw [if_neg (by simp), if_neg hb, if_neg (by simpa using hr), hz]
        have := agrees_keep (.concealed (toU5 (d1.val - 1)) (branchHash (toU5 (d1.val - 1)).val (widthLimit D) h1 h2)) rest S 1
          o (by rw [a4, hcz, hcz])
          (by
            rintro ⟨_, _, _, _, -, e, -, e'⟩
            cases e
            have : (toU5 (d1.val - 1)).val = D.val + 1 := e'
            omega)
          (by
            rintro ⟨e', -⟩
            have : (toU5 (d1.val - 1)).val = D.val + 1 := e'
            omega)
          (fun S' => ih2 _ S')
        exact agrees_same hy this
  case case6 d1 h1 d2 h2 rest off hne ih =>
    intro S ho hdt
    obtain ⟨e, pw, o, g1, g2, g3, g4⟩ := advance hd (D := D) (d := d1) (h := h1) ho
    simp only [g1, g2, g3, ok_bind]
    refine agrees_keep (.concealed d1 h1) (.concealed d2 h2 :: rest) S 0 o g4 hdt ?_ (fun S' => ih _ S')
    rintro ⟨e1, y, l, e2, e3⟩
    cases e2
    exact hne (Fin.ext (Eq.trans e1 (Eq.symm e3)))

/-! ## The loops -/

/-- In release builds the loops leave nodes that are joined to the same, and end where a pass changes
nothing; if they panic, there is no result. -/
theorem concealOuter_settle [Env] (hd : dbg = false) {D : U5} (keep : ProtocolId → Bool) : ∀ (fuel : Nat) (cs : List TreeNode) (c : Nat),
    cs.length < fuel →
    match concealOuter D fuel cs c with
    | .ok (r, _) => settle D [] (cs.map (hideNode D keep)) = settle D [] (r.map (hideNode D keep)) ∧
        ∃ r' o, passL D r 0 = .ok (r', 0, o)
    | .error _ => settle D [] (cs.map (hideNode D keep)) = none := by
  have h1 : ∀ x, debugAssert dbg x = .ok () := by intro x; rw [hd]; rfl
  intro fuel
  induction fuel with
  | zero => intro cs c h; omega
  | succ fuel ih =>
    intro cs c h
    rw [concealOuter_succ]
    simp only [h1, ok_bind]
    have hs := passL_spec D cs 0
    have ha := passL_settle hd (D := D) keep cs 0 [] rfl (by rintro ⟨_, _, _, _, e, -⟩; cases e)
    cases hp : passL D cs 0 with
    | error e =>
      rw [hp] at ha
      exact ha
    | ok x =>
      obtain ⟨r, k, o⟩ := x
      rw [hp] at hs ha
      simp only [ok_bind]
      by_cases hk : k = 0
      · rw [if_pos hk]
        subst hk
        exact ⟨rfl, r, o, hp⟩
      · rw [if_neg hk]
        have hl : r.length < fuel := by have := hs.1; simp only at this; omega
        have ha : settle D [] (cs.map (hideNode D keep)) = settle D [] (r.map (hideNode D keep)) := ha
        rw [ha]
        exact ih r (c + k) hl

/-- A list in which nothing is joined is kept as it is. -/
theorem settle_stuck [Env] (hd : dbg = false) {D : U5} (cs : List TreeNode) (off : Nat) :
    ∀ S r o, off = coverage D S % 2 ^ 32 → passL D cs off = .ok (r, 0, o) →
      (∀ x ∈ cs.head?, push D S x = some (x :: S)) → settle D S cs = some (cs.reverse ++ S) := by
  have key : ∀ (x : TreeNode) (rest S : List TreeNode), push D S x = some (x :: S) →
      settle D (x :: S) rest = some (rest.reverse ++ x :: S) →
      settle D S (x :: rest) = some ((x :: rest).reverse ++ S) := by
    intro x rest S h1 h2
    rw [settle, h1, Option.bind_some, h2, List.reverse_cons, List.append_assoc]
    rfl
  fun_induction passL D cs off
  case case1 => intro S r o _ _ _; rfl
  case case2 p m rest off ih =>
    intro S r o ho h hx
    refine key _ _ _ (hx _ rfl) ?_
    obtain ⟨o1, h1, h2⟩ := advance_leaf hd ho
    rw [h1] at h
    simp only [bind_ok_iff, Except.ok.injEq, Prod.mk.injEq] at h
    obtain ⟨_, rfl, ⟨a, b, c⟩, h3, -, rfl, -⟩ := h
    refine ih _ _ _ _ ?_ h3 ?_
    · rw [h2, coverage_cons']
      have hl : nodeCov D (.leaf p m) = 1 := by
        show (if D.val ≤ D.val then 2 ^ (D.val - D.val) else 0) = 1
        rw [if_pos (Nat.le_refl _), Nat.sub_self]
      rw [hl, Nat.add_comm]
    · intro x _
      cases x <;> rfl
  case case3 d h off =>
    intro S r o ho _ hx
    exact key _ _ _ (hx _ rfl) rfl
  case case4 d h p m rest off ih =>
    intro S r o ho hh hx
    refine key _ _ _ (hx _ rfl) ?_
    obtain ⟨e, pw, o1, h1, h2, h3, h4⟩ := advance hd (D := D) (d := d) (h := h) ho
    rw [h1, ok_bind, h2, ok_bind, h3, ok_bind, bind_ok_iff] at hh
    obtain ⟨⟨a, b, c⟩, h5, h6⟩ := hh
    simp only [Except.ok.injEq, Prod.mk.injEq] at h6
    obtain ⟨-, rfl, -⟩ := h6
    refine ih _ _ _ _ (by rw [h4, coverage_cons', Nat.add_comm]) h5 ?_
    intro x hx
    cases hx
    rfl
  case case5 h1 d1 h2 rest off ih1 ih2 =>
    intro S r o ho hh hx
    refine key _ _ _ (hx _ rfl) ?_
    rw [bind_ok_iff] at hh
    obtain ⟨d, g1, hh⟩ := hh
    rw [bind_ok_iff] at hh
    obtain ⟨height, g2, hh⟩ := hh
    rw [bind_ok_iff] at hh
    obtain ⟨pow, g3, hh⟩ := hh
    rw [bind_ok_iff] at hh
    obtain ⟨rm, g4, hh⟩ := hh
    have g5 := join_depth g2 g3 g4
    have g6 := u5Sub_one g1
    have hD := D.isLt
    rw [u32Sub, if_pos g5] at g2
    cases g2
    rw [u32Pow2, if_pos (by omega)] at g3
    cases g3
    have := Nat.two_pow_pos (D.val - d.val)
    rw [u32Rem, if_neg (by omega)] at g4
    cases g4
    split at hh
    · rename_i hr
      obtain ⟨e, pw, o1, a1, a2, a3, a4⟩ := advance hd (D := D) (d := d1) (h := h1) ho
      rw [a1, ok_bind, a2, ok_bind, a3, ok_bind, bind_ok_iff] at hh
      obtain ⟨⟨a, b, c⟩, h5, h6⟩ := hh
      simp only [Except.ok.injEq, Prod.mk.injEq] at h6
      obtain ⟨-, rfl, -⟩ := h6
      refine ih1 _ _ _ _ (by rw [a4, coverage_cons', Nat.add_comm]) h5 ?_
      intro x hx
      cases hx
      simp only [push]
      rw [ho, mod_pow_32 (by omega), show D.val - d.val = D.val + 1 - d1.val by omega] at hr
      rw [if_neg (by simp), if_neg (by omega), if_pos hr]
    · rw [bind_ok_iff] at hh
      obtain ⟨_, -, hh⟩ := hh
      rw [bind_ok_iff] at hh
      obtain ⟨_, -, hh⟩ := hh
      simp at hh
  case case6 d1 h1 d2 h2 rest off hne ih =>
    intro S r o ho hh hx
    refine key _ _ _ (hx _ rfl) ?_
    obtain ⟨e, pw, o1, a1, a2, a3, a4⟩ := advance hd (D := D) (d := d1) (h := h1) ho
    rw [a1, ok_bind, a2, ok_bind, a3, ok_bind, bind_ok_iff] at hh
    obtain ⟨⟨a, b, c⟩, h5, h6⟩ := hh
    simp only [Except.ok.injEq, Prod.mk.injEq] at h6
    obtain ⟨-, rfl, -⟩ := h6
    refine ih _ _ _ _ (by rw [a4, coverage_cons', Nat.add_comm]) h5 ?_
    intro x hx
    cases hx
    simp only [push]
    rw [if_pos hne]

/-! ## `conceal` and `conceal_except` -/

/-- In release builds the loops compute the joined nodes, and panic exactly if there is no result. -/
theorem concealOuter_eq [Env] (hd : dbg = false) (D : U5) (cs : List TreeNode) (c : Nat) :
    match settle D [] cs with
    | some S => ∃ n, concealOuter D (cs.length + 1) cs c = .ok (S.reverse, n)
    | none => ∃ e, concealOuter D (cs.length + 1) cs c = .error e := by
  have h := concealOuter_settle hd (D := D) (fun _ => true) (cs.length + 1) cs c (by omega)
  have hid : ∀ l : List TreeNode, l.map (hideNode D fun _ => true) = l := by
    intro l
    rw [List.map_congr_left (g := id), List.map_id]
    intro n _
    cases n <;> rfl
  rw [hid] at h
  cases ho : concealOuter D (cs.length + 1) cs c with
  | error e =>
    rw [ho] at h
    simp only at h
    rw [h]
    exact ⟨e, rfl⟩
  | ok x =>
    obtain ⟨r, n⟩ := x
    rw [ho] at h
    obtain ⟨h1, r', o, h2⟩ := h
    rw [hid, settle_stuck hd r 0 [] r' o rfl h2 (fun x _ => by cases x <;> rfl)] at h1
    rw [h1]
    exact ⟨n, by simp⟩

/-- In release builds: which blocks have a concealed form. -/
theorem conceal_settle [Env] (hd : dbg = false) (b : MerkleBlock) (c : MerkleConcealed) : b.conceal = .ok c ↔
    ∃ S root, settle b.depth [] (b.crossSection.map (hideAll b.depth)) = some (S ++ [.concealed 0 root]) ∧
      c = ⟨b.depth, b.cofactor, root⟩ := by
  have h1 : ∀ x, debugAssert dbg x = .ok () := by intro x; rw [hd]; rfl
  have hk : (List.contains ([] : List ProtocolId)) = fun _ => false := by funext x; rfl
  have h := concealOuter_eq hd b.depth (b.crossSection.map (hideAll b.depth))
    ((revealed b.crossSection).countP (fun e => !List.contains [] e.1))
  rw [MerkleBlock.conceal, concealExcept_eq, missing_nil]
  simp only [bind_assoc, ok_bind, h1]
  rw [hk]
  cases hs : settle b.depth [] (b.crossSection.map (hideAll b.depth)) with
  | none =>
    rw [hs] at h
    obtain ⟨e, he⟩ := h
    rw [hk] at he
    rw [he]
    constructor
    · intro h; cases h
    · rintro ⟨_, _, h, -⟩; cases h
  | some S =>
    rw [hs] at h
    obtain ⟨n, hn⟩ := h
    rw [hk] at hn
    rw [hn]
    simp only [ok_bind]
    constructor
    · intro h
      cases hr : S.reverse with
      | nil => rw [hr] at h; cases h
      | cons x r =>
        rw [hr] at h
        have hS : S = r.reverse ++ [x] := by rw [← List.reverse_reverse S, hr, List.reverse_cons]
        cases x with
        | leaf p m => cases h
        | concealed d root =>
          simp only [List.head?_cons] at h
          split at h
          · rename_i h0
            subst h0
            cases h
            exact ⟨r.reverse, root, by rw [hS], rfl⟩
          · cases h
    · rintro ⟨S', root, h2, rfl⟩
      cases h2
      rw [List.reverse_append]
      rfl

/-- In release builds `conceal_except` does not change what the nodes are joined to, and where that has a
result it does not panic. -/
theorem concealExcept_settle [Env] (hd : dbg = false) (b : MerkleBlock) (ps : List ProtocolId) :
    match b.concealExcept ps with
    | .ok (b', _) => settle b.depth [] (b'.crossSection.map (hideAll b.depth)) =
        settle b.depth [] (b.crossSection.map (hideAll b.depth))
    | .error _ => settle b.depth [] (b.crossSection.map (hideAll b.depth)) = none := by
  have hh : (b.crossSection.map (hideNode b.depth ps.contains)).map (hideAll b.depth) =
      b.crossSection.map (hideAll b.depth) := by
    rw [List.map_map]
    apply List.map_congr_left
    intro n _
    cases n with
    | concealed d h => rfl
    | leaf p m =>
      simp only [Function.comp, hideNode]
      split <;> rfl
  rw [concealExcept_eq]
  simp only
  cases hm : missing b ps with
  | cons p l => simp only [hh]
  | nil =>
    have h := concealOuter_settle hd (D := b.depth) (fun _ => false)
      ((b.crossSection.map (hideNode b.depth ps.contains)).length + 1) (b.crossSection.map (hideNode b.depth ps.contains))
      ((revealed b.crossSection).countP (fun e => !ps.contains e.1)) (by omega)
    rw [hh] at h
    cases ho : concealOuter b.depth ((b.crossSection.map (hideNode b.depth ps.contains)).length + 1)
        (b.crossSection.map (hideNode b.depth ps.contains))
        ((revealed b.crossSection).countP (fun e => !ps.contains e.1)) with
    | error e => rw [ho] at h; exact h
    | ok x => rw [ho] at h; exact h.1.symm

end CSV
