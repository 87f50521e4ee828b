import Verif.Spec.Work
import Verif.Proofs.ConcealExcept
import Verif.Proofs.Tree
import Verif.Proofs.Merge
import Verif.Props.Conceal
import Verif.Props.Commit

/-!
# C85: how much work is done
-/

namespace CSV

private theorem known_step [Env] {w : Nat} {t : PT} {d : Nat} : (t.step w d).known = t.known := by
  rw [← PT.known_canon (w := w) (d := d), PT.canon_step, PT.known_canon]

private theorem height_pos : ∀ {t : PT}, t.known = [] → t.isHidden = false → 1 ≤ t.hiddenHeight
  | .hidden _, _, h => by simp [PT.isHidden] at h
  | .leaf _ _, h, _ => by simp [PT.known] at h
  | .node l r, h, _ => by
    simp only [PT.known, List.append_eq_nil_iff] at h
    simp only [PT.hiddenHeight, h, and_self, if_true]
    omega

private theorem height_of_joins : ∀ {t : PT}, t.joins ≠ 0 → 1 ≤ t.hiddenHeight := by
  intro t
  induction t with
  | hidden _ => intro h; simp [PT.joins] at h
  | leaf _ _ => intro h; simp [PT.joins] at h
  | node l r ihl ihr =>
    intro h
    by_cases hb : l.isHidden = true ∧ r.isHidden = true
    · cases l <;> cases r <;> simp [PT.isHidden] at hb
      simp [PT.hiddenHeight, PT.known]
    · rw [PT.joins_node hb] at h
      simp only [PT.hiddenHeight]
      by_cases hl : l.joins = 0
      · have := ihr (by omega); omega
      · have := ihl hl; omega

private theorem height_step [Env] {w : Nat} : ∀ {t : PT} {d : Nat},
    (t.step w d).hiddenHeight = t.hiddenHeight - 1 := by
  intro t
  induction t with
  | hidden _ => intro d; rfl
  | leaf _ _ => intro d; rfl
  | node l r ihl ihr =>
    intro d
    by_cases hb : l.isHidden = true ∧ r.isHidden = true
    · cases l <;> cases r <;> simp [PT.isHidden] at hb
      simp [PT.hiddenHeight, PT.known, PT.step]
    · rw [PT.step_node hb]
      simp only [PT.hiddenHeight, ihl, ihr, known_step]
      split
      · rename_i hk
        have : 1 ≤ max l.hiddenHeight r.hiddenHeight := by
          cases hl : l.isHidden
          · have := height_pos hk.1 hl; omega
          · have := height_pos hk.2 (by cases h : r.isHidden <;> simp_all); omega
        omega
      · omega

private theorem height_joins : ∀ {t : PT}, t.joins = 0 → t.hiddenHeight = 0 := by
  intro t
  induction t with
  | hidden _ => intro _; rfl
  | leaf _ _ => intro _; rfl
  | node l r ihl ihr =>
    intro h
    by_cases hb : l.isHidden = true ∧ r.isHidden = true
    · cases l <;> cases r <;> simp [PT.isHidden] at hb
      simp [PT.joins] at h
    · rw [PT.joins_node hb] at h
      have h1 := ihl (by omega)
      have h2 := ihr (by omega)
      simp only [PT.hiddenHeight, h1, h2]
      suffices h : ¬ (l.known = [] ∧ r.known = []) by simp [h]
      rintro ⟨k1, k2⟩
      apply hb
      constructor
      · cases hl : l.isHidden
        · have := height_pos k1 hl; omega
        · rfl
      · cases hl : r.isHidden
        · have := height_pos k2 hl; omega
        · rfl

private theorem height_le {D : Nat} : ∀ {t : PT} {d : Nat}, t.Fits D D d → d + t.hiddenHeight ≤ D := by
  intro t
  induction t with
  | hidden _ => intro d h; simpa [PT.Fits, PT.hiddenHeight] using h
  | leaf _ _ => intro d h; simp only [PT.Fits] at h; simp [PT.hiddenHeight]; omega
  | node l r ihl ihr =>
    intro d h
    have h1 := ihl h.1
    have h2 := ihr h.2
    simp only [PT.hiddenHeight]
    split <;> omega

private theorem outer_exact [Env] {D : U5} : ∀ (fuel f2 : Nat) (t : PT) (c : Nat),
    t.Fits D.val D.val 0 → (t.frontier 0).length < f2 →
    concealOuter D fuel (t.frontier 0) c =
      if t.hiddenHeight < fuel then concealOuter D f2 (t.frontier 0) c else .error .fuel := by
  intro fuel
  induction fuel with
  | zero => intro f2 t c _ _; simp [concealOuter]
  | succ fuel ih =>
    intro f2 t c hf hl
    have hD := D.isLt
    obtain ⟨f2, rfl⟩ : ∃ k, f2 = k + 1 := ⟨f2 - 1, by omega⟩
    have hp := passL_frontier (H := D.val) (by omega) hD t 0 0 [] hf (by omega) (by simp) (by simp)
      (by intro _ _ _ _ h; simp at h)
    simp only [List.append_nil, passL, ok_bind, Nat.sub_zero, Nat.zero_add, Nat.add_zero] at hp
    rw [concealOuter_succ, concealOuter_succ, debugAssert_ok (by simp [PT.frontier_ne_nil]), hp]
    simp only [ok_bind]
    by_cases hk : t.joins = 0
    · rw [if_pos hk, if_pos hk, height_joins hk, if_pos (by omega)]
    · rw [if_neg hk, if_neg hk, debugAssert_ok (by simp [widthLimit])]
      simp only [ok_bind]
      have hlen := PT.step_length (w := widthLimit D) (t := t) (d := 0)
      rw [ih f2 _ _ (PT.step_fits hf) (by omega), height_step]
      have := height_of_joins hk
      by_cases h : t.hiddenHeight < fuel + 1
      · rw [if_pos (by omega), if_pos h]
      · rw [if_neg (by omega), if_neg h]

private theorem concealWithin_eq [Env] (n : Nat) (b : MerkleBlock) (ps : List ProtocolId) :
    b.concealWithin n ps =
      let cs := b.crossSection.map (hideNode b.depth ps.contains)
      let k := (revealed b.crossSection).countP (fun e => !ps.contains e.1)
      match missing b ps with
      | p :: _ => .ok ({ b with crossSection := cs, entropy := none }, .error ⟨p⟩)
      | [] => (do
        let (cs', n') ← concealOuter b.depth n cs k
        .ok ({ b with crossSection := cs', entropy := none }, .ok n')) := by
  rw [MerkleBlock.concealWithin, concealLeaves_eq _ _ _ (bsetOfList_sorted _)
    (fun p hp => mem_bsetOfList.mp hp)]
  simp only [ok_bind, missing, Nat.zero_add]
  cases h : (bsetOfList ps).filter
    (fun p => !((revealed b.crossSection).map Prod.fst).contains p) <;> rfl

/-- **C85** How often `conceal_except` goes over the nodes of a block made of a complete tree, if all
the protocols it is given are revealed: exactly once more than the height of the
tallest part of the tree that is to be hidden. -/
theorem C85_conceal_rounds [Env] (b : MerkleBlock) (t : PT) (hb : b.Shows t) (ps : List ProtocolId)
    (hp : ∀ p ∈ ps, p ∈ b.knownProtocolIds) (n : Nat) :
    b.concealWithin n ps =
      if (t.hideLeaves ps.contains).hiddenHeight < n then b.concealExcept ps else .error .fuel := by
  have hm : missing b ps = [] := missing_eq_nil.2 hp
  rw [concealWithin_eq, concealExcept_eq, hm]
  simp only
  rw [hb.1, map_hideNode_frontier hb.2,
    outer_exact n (((t.hideLeaves ps.contains).frontier 0).length + 1) _ _
      (PT.fits_hideLeaves (Nat.le_refl _) hb.2) (by omega)]
  split <;> rfl

/-- **C85** On any block made of a complete tree `conceal_except` goes over the nodes at most
`depth + 1` times, whatever it is asked for. -/
theorem C85_conceal [Env] (b : MerkleBlock) (hb : b.Valid) (ps : List ProtocolId) :
    b.concealWithin (b.depth.val + 1) ps = b.concealExcept ps := by
  obtain ⟨t, ht⟩ := hb
  cases hm : missing b ps with
  | cons p l => rw [concealWithin_eq, concealExcept_eq, hm]
  | nil =>
    have hf := PT.fits_hideLeaves (keep := ps.contains) (Nat.le_refl _) ht.2
    have := height_le hf
    rw [concealWithin_eq, concealExcept_eq, hm]
    simp only
    rw [ht.1, map_hideNode_frontier ht.2,
      outer_exact (b.depth.val + 1) (((t.hideLeaves ps.contains).frontier 0).length + 1) _ _ hf (by omega),
      if_pos (by omega)]

private theorem height_full {f : Nat → PT} (hf : ∀ i, (f i).isHidden = true) : ∀ (n lo : Nat),
    (PT.full f n lo).hiddenHeight = n ∧ (PT.full f n lo).known = []
  | 0, lo => by
    have := hf lo
    simp only [PT.full]
    cases h : f lo <;> simp_all [PT.isHidden, PT.hiddenHeight, PT.known]
  | n + 1, lo => by
    have h1 := height_full hf n lo
    have h2 := height_full hf n (lo + 2 ^ n)
    simp [PT.full, PT.hiddenHeight, PT.known, h1, h2]

private theorem hideLeaves_full [Env] {keep : ProtocolId → Bool} {f : Nat → PT} : ∀ (n lo : Nat),
    (PT.full f n lo).hideLeaves keep = PT.full (fun i => (f i).hideLeaves keep) n lo
  | 0, lo => rfl
  | n + 1, lo => by simp only [PT.full, PT.hideLeaves, hideLeaves_full n]

/-- **C85** The bound is reached: to conceal the block of a tree completely, as is done for each
computation of its commitment, takes `depth + 1` rounds and not fewer. -/
theorem C85_conceal_tight [Env] (T : MerkleTree) (b : MerkleBlock) (h : MerkleBlock.fromTree T = .ok b)
    (n : Nat) : b.concealWithin n [] = if T.depth.val < n then b.concealExcept [] else .error .fuel := by
  rw [fromTree_eq] at h
  cases h
  rw [C85_conceal_rounds _ _ (fromTree_shows T) [] (by simp), MerkleTree.pt, hideLeaves_full,
    (height_full (fun i => ?_) _ _).1]
  simp only [MerkleTree.slot]
  split <;> rfl

/-! On every block, also a malformed one: nodes joined in one round are one level up in the next. -/

/-- The offset after a node of the given width. -/
private def nx (off w : Nat) : Nat := (off + w) % 2 ^ 32

/-- The width of a node, as computed. -/
private def width (D d : U5) : Nat := if d.val ≤ D.val then 2 ^ (D.val - d.val) else 0

/-- The offset is that of a left sibling. -/
private def Aligned (D d : U5) (off : Nat) : Prop :=
  1 ≤ d.val ∧ d.val ≤ D.val + 1 ∧ off % 2 ^ (D.val + 1 - d.val) = 0

/-- One round that joins nodes of depth at most `k` only. -/
private inductive Pass (D : U5) (k : Nat) : List TreeNode → Nat → List TreeNode → Prop
  | nil {off : Nat} : Pass D k [] off []
  | leaf {p : ProtocolId} {m : Message} {l r : List TreeNode} {off : Nat} :
    Pass D k l (nx off 1) r → Pass D k (.leaf p m :: l) off (.leaf p m :: r)
  | skip {d : U5} {h : MerkleHash} {l r : List TreeNode} {off : Nat} :
    (∀ h' l', l = .concealed d h' :: l' → ¬ Aligned D d off) → Pass D k l (nx off (width D d)) r →
    Pass D k (.concealed d h :: l) off (.concealed d h :: r)
  | join {d e : U5} {h1 h2 h : MerkleHash} {l r : List TreeNode} {off : Nat} :
    Aligned D d off → e.val + 1 = d.val → d.val ≤ k → Pass D k l (nx off (width D e)) r →
    Pass D k (.concealed d h1 :: .concealed d h2 :: l) off (.concealed e h :: r)

private theorem nx_ok {b : Bool} {off w o : Nat} (h : u32Add b off w = .ok o) : o = nx off w := by
  unfold u32Add at h
  unfold nx
  split at h
  · rename_i hlt
    rw [Nat.mod_eq_of_lt hlt]
    cases h; rfl
  · split at h <;> cases h
    rfl

private theorem width_ok {b : Bool} {D d : U5} {p e : Nat} (h1 : u32Sub b D.val d.val = .ok e)
    (h2 : u32Pow2 b e = .ok p) : p = width D d := by
  have := D.isLt
  have := d.isLt
  unfold u32Sub at h1
  unfold u32Pow2 at h2
  unfold width
  split at h1
  · rename_i hle
    cases h1
    rw [if_pos (by omega)] at h2
    rw [if_pos hle]
    cases h2; rfl
  · rename_i hle
    split at h1 <;> cases h1
    rw [if_neg (by omega)] at h2
    rw [if_neg hle]
    split at h2 <;> cases h2
    rfl

private theorem bind_ok {α β : Type} {x : Exec α} {f : α → Exec β} {b : β} (h : x >>= f = .ok b) :
    ∃ a, x = .ok a ∧ f a = .ok b := by
  cases x with
  | error e => cases h
  | ok a => exact ⟨a, rfl, h⟩

private theorem u5Sub_ok {a e : U5} (h : u5Sub a 1 = .ok e) : e.val + 1 = a.val := by
  unfold u5Sub u5With at h
  split at h
  · split at h
    · cases h; simp only; omega
    · cases h
  · cases h

private theorem pass_of_ok [Env] {D : U5} : ∀ (cs : List TreeNode) (off : Nat) (r : List TreeNode)
    (k o : Nat), passL D cs off = .ok (r, k, o) → Pass D 31 cs off r := by
  intro cs off
  fun_induction passL D cs off
  case case1 => intro r k o h; cases h; exact .nil
  case case2 ih =>
    intro r k o h
    obtain ⟨o1, h1, h⟩ := bind_ok h
    obtain ⟨⟨r', k', o'⟩, h2, h⟩ := bind_ok h
    cases h
    have h3 := ih o1 _ _ _ h2
    rw [nx_ok h1] at h3
    exact .leaf h3
  case case3 =>
    intro r k o h
    obtain ⟨e, h1, h⟩ := bind_ok h
    obtain ⟨p, h2, h⟩ := bind_ok h
    obtain ⟨o1, h3, h⟩ := bind_ok h
    cases h
    exact .skip (by intro _ _ h; cases h) .nil
  case case4 ih =>
    intro r k o h
    obtain ⟨e, h1, h⟩ := bind_ok h
    obtain ⟨p, h2, h⟩ := bind_ok h
    obtain ⟨o1, h3, h⟩ := bind_ok h
    obtain ⟨⟨r', k', o'⟩, h4, h⟩ := bind_ok h
    cases h
    have h5 := ih o1 _ _ _ h4
    rw [nx_ok h3, width_ok h1 h2] at h5
    exact .skip (by intro _ _ h; cases h) h5
  case case5 ih1 ih2 =>
    intro r k o h
    obtain ⟨e, h1, h⟩ := bind_ok h
    obtain ⟨ht, h2, h⟩ := bind_ok h
    obtain ⟨pw, h3, h⟩ := bind_ok h
    obtain ⟨rm, h4, h⟩ := bind_ok h
    have hw := width_ok h2 h3
    have he := u5Sub_ok h1
    have hD := D.isLt
    unfold u32Rem at h4
    split at h4
    · cases h4
    · rename_i hne
      cases h4
      have hle : e.val ≤ D.val := by
        unfold width at hw
        split at hw
        · assumption
        · exact absurd hw hne
      have hpw : pw = 2 ^ (D.val - e.val) := by rw [hw, width, if_pos hle]
      have hh : D.val - e.val = D.val + 1 - (e.val + 1) := by omega
      rw [he] at hh
      split at h
      · rename_i hrm
        obtain ⟨e', g1, h⟩ := bind_ok h
        obtain ⟨p, g2, h⟩ := bind_ok h
        obtain ⟨o1, g3, h⟩ := bind_ok h
        obtain ⟨⟨r', k', o'⟩, g4, h⟩ := bind_ok h
        cases h
        have h5 := ih1 o1 _ _ _ g4
        rw [nx_ok g3, width_ok g1 g2] at h5
        refine .skip (fun _ _ _ ha => hrm ?_) h5
        have := ha.2.2
        rwa [hpw, hh]
      · rename_i hrm
        obtain ⟨o1, g3, h⟩ := bind_ok h
        obtain ⟨⟨r', k', o'⟩, g4, h⟩ := bind_ok h
        cases h
        have h5 := ih2 o1 _ _ _ g4
        rw [nx_ok g3, hw] at h5
        refine .join ⟨by omega, by omega, ?_⟩ he (by omega) h5
        have hrm := Classical.not_not.1 hrm
        rwa [hpw, hh] at hrm
  case case6 hne ih =>
    intro r k o h
    obtain ⟨e, h1, h⟩ := bind_ok h
    obtain ⟨p, h2, h⟩ := bind_ok h
    obtain ⟨o1, h3, h⟩ := bind_ok h
    obtain ⟨⟨r', k', o'⟩, h4, h⟩ := bind_ok h
    cases h
    have h5 := ih o1 _ _ _ h4
    rw [nx_ok h3, width_ok h1 h2] at h5
    exact .skip (by intro _ _ h; cases h; exact absurd rfl hne) h5

/-- The right sibling of a left sibling is not itself a left sibling. -/
private theorem not_aligned {D d : U5} {off : Nat} (h : Aligned D d off) (hd : d.val ≤ D.val) :
    ¬ Aligned D d (nx off (width D d)) := by
  intro h'
  have hD := D.isLt
  have h1 := h.2.2
  have h2 := h'.2.2
  unfold nx width at h2
  rw [if_pos hd, Nat.mod_mod_of_dvd _ (Nat.pow_dvd_pow 2 (by omega)), Nat.add_mod, h1, Nat.zero_add,
    Nat.mod_mod, Nat.mod_eq_of_lt (Nat.pow_lt_pow_right (by omega) (by omega))] at h2
  have := Nat.two_pow_pos (D.val - d.val)
  omega

private theorem nx_nx {D d e : U5} {off : Nat} (hd : d.val ≤ D.val) (he : e.val + 1 = d.val) :
    nx (nx off (width D d)) (width D d) = nx off (width D e) := by
  unfold nx width
  rw [if_pos hd, if_pos (by omega), show D.val - e.val = D.val - d.val + 1 by omega, Nat.pow_succ]
  omega

/-- A round after a round that joined nodes of depth at most `k + 1` joins nodes of depth at most
`k`. -/
private theorem pass_next {D : U5} {k : Nat} {cs r : List TreeNode} {off : Nat}
    (h : Pass D (k + 1) cs off r) : ∀ {r'}, Pass D 31 r off r' → Pass D k r off r' := by
  induction h with
  | nil => intro r' h; cases h; exact .nil
  | leaf _ ih => intro r' h; cases h with | leaf h => exact .leaf (ih h)
  | @skip d h l r off hn hp ih =>
    intro r' h'
    cases h' with
    | skip hn' hp' => exact .skip hn' (ih hp')
    | @join _ e _ h2 _ r2 _ _ ha he hk hq =>
      have hd : d.val ≤ k ∧ d.val ≤ D.val := by
        cases hp with
        | skip _ _ => exact absurd ha (hn _ _ rfl)
        | join ha' he' hk' _ => have := ha'.2.1; omega
      rw [← nx_nx hd.2 he] at hq
      have hno := not_aligned ha hd.2
      have := ih (.skip (h := h2) (fun _ _ _ => hno) hq)
      cases this with
      | skip _ h3 =>
        rw [nx_nx hd.2 he] at h3
        exact .join ha he hd.1 h3
      | join ha3 _ _ _ => exact absurd ha3 hno
  | @join d e h1 h2 h l r off ha he hk hp ih =>
    intro r' h'
    cases h' with
    | skip hn' hp' => exact .skip hn' (ih hp')
    | @join _ e' _ h2' _ r2 _ _ ha' he' hk' hq =>
      have hd : e.val ≤ k ∧ e.val ≤ D.val := by have := ha.2.1; omega
      rw [← nx_nx hd.2 he'] at hq
      have hno := not_aligned ha' hd.2
      have := ih (.skip (h := h2') (fun _ _ _ => hno) hq)
      cases this with
      | skip _ h3 =>
        rw [nx_nx hd.2 he'] at h3
        exact .join ha' he' hd.1 h3
      | join ha3 _ _ _ => exact absurd ha3 hno

private theorem pass_zero {D : U5} {cs r : List TreeNode} {off : Nat} (h : Pass D 0 cs off r) :
    r.length = cs.length := by
  induction h with
  | nil => rfl
  | leaf _ ih => simp [ih]
  | skip _ _ ih => simp [ih]
  | join ha _ hk _ _ => have := ha.1; omega

private theorem outer_any [Env] {D : U5} : ∀ (k f2 : Nat) (cs : List TreeNode) (c : Nat),
    cs.length < f2 → (∀ r, Pass D 31 cs 0 r → Pass D k cs 0 r) →
    concealOuter D (k + 1) cs c = concealOuter D f2 cs c := by
  intro k
  induction k with
  | zero =>
    intro f2 cs c hl hp
    obtain ⟨f2, rfl⟩ : ∃ k, f2 = k + 1 := ⟨f2 - 1, by omega⟩
    rw [concealOuter_succ, concealOuter_succ]
    apply bind_congr'
    intro _
    cases h : passL D cs 0 with
    | error e => rfl
    | ok x =>
      obtain ⟨r, n, o⟩ := x
      have h1 := pass_zero (hp _ (pass_of_ok _ _ _ _ _ h))
      have h2 := ((passL_spec D cs 0).of_ok h).1
      simp only at h2
      have : n = 0 := by omega
      subst this
      rfl
  | succ k ih =>
    intro f2 cs c hl hp
    obtain ⟨f2, rfl⟩ : ∃ k, f2 = k + 1 := ⟨f2 - 1, by omega⟩
    rw [concealOuter_succ, concealOuter_succ]
    apply bind_congr'
    intro _
    cases h : passL D cs 0 with
    | error e => rfl
    | ok x =>
      obtain ⟨r, n, o⟩ := x
      have h1 := hp _ (pass_of_ok _ _ _ _ _ h)
      have h2 := ((passL_spec D cs 0).of_ok h).1
      simp only at h2
      simp only [ok_bind]
      split
      · rfl
      · apply bind_congr'
        intro _
        exact ih f2 r (c + n) (by omega) fun r' => pass_next h1

/-- **C85** On every block whatsoever, also a malformed one received from somebody, and in both
profiles, `conceal_except` goes over the nodes at most 32 times. -/
theorem C85_conceal_any [Env] (b : MerkleBlock) (ps : List ProtocolId) :
    b.concealWithin 32 ps = b.concealExcept ps := by
  rw [concealWithin_eq, concealExcept_eq]
  simp only
  cases missing b ps with
  | cons p l => rfl
  | nil =>
    simp only
    rw [outer_any 31 _ _ _ (Nat.lt_succ_self _) fun _ h => h]

/-- **C85** On any two cross-sections, made of complete trees or not, the loop of `merge_reveal` runs
at most as many rounds as the shorter of them has nodes. -/
theorem C85_merge (D : U5) (a b : List TreeNode) (n : Nat) (h : min a.length b.length ≤ n) :
    mergeLoop D n a b = mergeLoop D a.length a b ∧ mergeLoop D n a b ≠ .error .fuel := by
  have key : ∀ (n : Nat) (a b : List TreeNode), min a.length b.length ≤ n →
      ∀ m, a.length ≤ m → mergeLoop D n a b = mergeLoop D m a b ∧
        Holds (mergeLoop D n a b) fun _ => True := by
    intro n
    induction n with
    | zero =>
      intro a b h m hm
      cases a <;> cases b <;> first | (cases m <;> exact ⟨rfl, trivial⟩) | (simp at h)
    | succ n ih =>
      intro a b h m hm
      cases a with
      | nil => cases m <;> cases b <;> exact ⟨rfl, trivial⟩
      | cons x a =>
        cases b with
        | nil => cases m <;> exact ⟨rfl, trivial⟩
        | cons y b =>
          simp only [List.length_cons] at h hm
          obtain ⟨m, rfl⟩ : ∃ k, m = k + 1 := ⟨m - 1, by omega⟩
          have h0 := ih a b (by omega) m (by omega)
          have ha := takeBuoy_length (D := D) (limit := y.depthOr D) a (Buoy.new (x.depthOr D))
          have hb := takeBuoy_length (D := D) (limit := x.depthOr D) b (Buoy.new (y.depthOr D))
          simp only [mergeLoop]
          rw [← h0.1]
          split
          · split
            · exact ⟨rfl, h0.2.bind fun _ _ => trivial⟩
            · split
              · exact ⟨rfl, h0.2.bind fun _ _ => trivial⟩
              · exact ⟨rfl, h0.2.bind fun _ _ => trivial⟩
              · exact ⟨rfl, h0.2⟩
              · exact ⟨rfl, by simp [Holds]⟩
          · split
            · cases hr : takeBuoy D (x.depthOr D) (Buoy.new (y.depthOr D)) b with
              | error e => rw [hr] at hb; exact ⟨rfl, hb⟩
              | ok r =>
                have := hb.of_ok hr
                have h1 := ih a r.2 (by omega) m (by omega)
                simp only [ok_bind]
                rw [← h1.1]
                exact ⟨rfl, h1.2.bind fun _ _ => trivial⟩
            · cases hr : takeBuoy D (y.depthOr D) (Buoy.new (x.depthOr D)) a with
              | error e => rw [hr] at ha; exact ⟨rfl, ha⟩
              | ok r =>
                have := ha.of_ok hr
                have h1 := ih r.2 b (by omega) m (by omega)
                simp only [ok_bind]
                rw [← h1.1]
                exact ⟨rfl, h1.2.bind fun _ _ => trivial⟩
  have := key n a b h a.length (Nat.le_refl _)
  exact ⟨this.1, this.2.ne_fuel⟩

private theorem mem_attempts {n m : Nat} {x : Nat × Nat} :
    x ∈ attempts n m ↔ Attempt n m x.1 x.2 := by
  obtain ⟨d, c⟩ := x
  simp only [attempts, List.mem_flatMap, List.mem_range, Attempt]
  constructor
  · rintro ⟨d', hd, h⟩
    split at h
    · rename_i hc
      simp only [List.mem_map, List.mem_range, Prod.mk.injEq] at h
      obtain ⟨c', h1, rfl, rfl⟩ := h
      exact ⟨hc.1, by omega, hc.2, by omega⟩
    · simp at h
  · rintro ⟨h1, h2, h3, h4⟩
    refine ⟨d, by omega, ?_⟩
    rw [if_pos ⟨h1, h3⟩]
    exact List.mem_map.2 ⟨c, List.mem_range.2 (by omega), rfl⟩

private theorem sorted_attempts (n m : Nat) :
    (attempts n m).Pairwise fun x y => Earlier x.1 x.2 y.1 y.2 := by
  rw [attempts, List.pairwise_flatMap]
  constructor
  · intro d _
    split
    · rw [List.pairwise_map]
      refine List.pairwise_lt_range.imp fun {c c'} h => ?_
      show Earlier d c d c'
      exact Or.inr ⟨rfl, h⟩
    · exact List.Pairwise.nil
  · refine List.pairwise_lt_range.imp fun {d d'} h x hx y hy => ?_
    split at hx
    · split at hy
      · simp only [List.mem_map] at hx hy
        obtain ⟨_, _, rfl⟩ := hx
        obtain ⟨_, _, rfl⟩ := hy
        exact Or.inl h
      · simp at hy
    · simp at hx

private theorem length_attempts (n m : Nat) (hm : m < 32) : (attempts n m).length ≤ 11544 := by
  have h : ∀ m : Fin 32, ((List.range 32).map fun d =>
      if m.val ≤ d then maxCofactor m.val d + 1 else 0).sum ≤ 11544 := by decide
  refine Nat.le_trans ?_ (h ⟨m, hm⟩)
  rw [attempts, List.length_flatMap]
  have hs : ∀ (f g : Nat → Nat), (∀ d, f d ≤ g d) → ∀ l : List Nat, (l.map f).sum ≤ (l.map g).sum := by
    intro f g hfg l
    induction l with
    | nil => simp
    | cons d l ih =>
      have := hfg d
      simp only [List.map_cons, List.sum_cons]
      omega
  apply hs
  intro d
  by_cases hd : m ≤ d
  · by_cases hn : n ≤ 2 ^ d <;> simp [hd, hn]
  · simp [hd]

/-- **C85** `try_commit` goes over the messages at most 11544 times: it takes the first of an
explicit list of at most so many pairs of depth and cofactor that separates the protocols, and
reports an error if there is none. -/
theorem C85_commit (rng : Option UInt64) (s : MultiSource) (he : (s.staticEntropy.or rng).isSome)
    (hn : ¬ (s.minDepth.val = 0 ∧ s.messages.entries = [])) :
    (attempts s.messages.entries.length s.minDepth.val).length ≤ 11544 ∧
    match (attempts s.messages.entries.length s.minDepth.val).find?
        (fun x => decide (Separates s.ids x.1 x.2)) with
    | some (d, c) => ∃ t, MerkleTree.tryCommit rng s = .ok (.ok t) ∧ t.depth.val = d ∧
        t.cofactor.toNat = c
    | none => MerkleTree.tryCommit rng s = .ok (.error (.cantFitInMaxSlots s.messages.entries.length)) := by
  refine ⟨length_attempts _ _ s.minDepth.isLt, ?_⟩
  have hlen : s.messages.entries.length = s.ids.length := by simp [MultiSource.ids]
  cases hf : (attempts s.messages.entries.length s.minDepth.val).find?
      (fun x => decide (Separates s.ids x.1 x.2)) with
  | none =>
    simp only
    rw [C03_cant_fit_iff rng s _ he]
    refine ⟨rfl, fun d c ha hs => ?_⟩
    rw [List.find?_eq_none] at hf
    exact hf (d, c) (mem_attempts.2 ha) (by simpa using hs)
  | some x =>
    obtain ⟨d, c⟩ := x
    simp only
    rw [List.find?_eq_some_iff_append] at hf
    obtain ⟨hsep, l1, l2, hl, hbefore⟩ := hf
    have hsep : Separates s.ids d c := by simpa using hsep
    have hatt : Attempt s.messages.entries.length s.minDepth.val d c :=
      (mem_attempts (x := (d, c))).1 (by rw [hl]; simp)
    obtain ⟨r, hr⟩ := C03_no_panic rng s he
    cases r with
    | error err =>
      exfalso
      cases err with
      | empty => exact hn ((C03_empty_iff rng s).1 hr)
      | tooManyMessages k => exact C03_never_too_many rng s k hr
      | cantFitInMaxSlots k => exact ((C03_cant_fit_iff rng s k he).1 hr).2 d c hatt hsep
    | ok t =>
      obtain ⟨h1, h2, h3⟩ := C02_first_fit rng s t hr
      refine ⟨t, hr, ?_⟩
      have n1 : ¬ Earlier d c t.depth.val t.cofactor.toNat := by
        intro h
        rw [hlen] at hatt
        exact h3 d c hatt h hsep
      have n2 : ¬ Earlier t.depth.val t.cofactor.toNat d c := by
        intro h
        rw [← hlen] at h1
        have hm : (t.depth.val, t.cofactor.toNat) ∈ l1 ++ (d, c) :: l2 := by
          rw [← hl]; exact mem_attempts.2 h1
        have hso := sorted_attempts s.messages.entries.length s.minDepth.val
        rw [hl, List.pairwise_append, List.pairwise_cons] at hso
        rcases List.mem_append.1 hm with hm | hm
        · have := hbefore _ hm
          simp [h2] at this
        · rcases List.mem_cons.1 hm with hm | hm
          · cases hm; simp [Earlier] at h
          · have := hso.2.1.1 _ hm
            simp only [Earlier] at this h
            omega
      simp only [Earlier] at n1 n2
      omega

/-- Non-vacuity of C85: the block of the sample tree of depth 2 takes three rounds to conceal
completely, and one to keep everything. -/
example [Env] : (Sample.block.concealWithin 2 [] = .error .fuel) ∧
    Sample.block.concealWithin 3 [] = Sample.block.concealExcept [] ∧
    Sample.block.concealWithin 1 [Sample.p1, Sample.p5, Sample.p6]
      = Sample.block.concealExcept [Sample.p1, Sample.p5, Sample.p6] := by
  have h := C85_conceal_tight Sample.tree Sample.block Sample.from_tree
  exact ⟨h 2, h 3, rfl⟩

end CSV
