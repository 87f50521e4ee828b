import Verif.Proofs.ConcealOuter
import Verif.Proofs.BMap

/-!
# `conceal_except`, `conceal` and `commit_id` of blocks
-/

namespace CSV

/-! ## Partial trees -/

theorem PT.root_canon [Env] {w : Nat} : ∀ {t : PT} {d : Nat}, (t.canon w d).root w d = t.root w d := by
  intro t
  induction t with
  | hidden h => intro d; rfl
  | leaf p m => intro d; rfl
  | node l r ihl ihr =>
    intro d
    have h1 := ihl (d := d + 1)
    have h2 := ihr (d := d + 1)
    rw [PT.canon]
    cases hl : l.canon w (d + 1) <;> cases hr : r.canon w (d + 1) <;>
      simp_all [PT.root]

theorem PT.known_canon [Env] {w : Nat} : ∀ {t : PT} {d : Nat}, (t.canon w d).known = t.known := by
  intro t
  induction t with
  | hidden h => intro d; rfl
  | leaf p m => intro d; rfl
  | node l r ihl ihr =>
    intro d
    have h1 := ihl (d := d + 1)
    have h2 := ihr (d := d + 1)
    rw [PT.canon]
    cases hl : l.canon w (d + 1) <;> cases hr : r.canon w (d + 1) <;>
      simp_all [PT.known]

theorem PT.fits_canon [Env] {H D w : Nat} : ∀ {t : PT} {d : Nat}, t.Fits H D d →
    (t.canon w d).Fits H D d := by
  intro t
  induction t with
  | hidden h => intro d hf; exact hf
  | leaf p m => intro d hf; exact hf
  | node l r ihl ihr =>
    intro d hf
    have h1 := ihl (d := d + 1) hf.1
    have h2 := ihr (d := d + 1) hf.2
    rw [PT.canon]
    cases hl : l.canon w (d + 1) <;> cases hr : r.canon w (d + 1) <;>
      simp_all [PT.Fits] <;> omega

theorem PT.minimal_canon [Env] {w : Nat} : ∀ {t : PT} {d : Nat}, (t.canon w d).Minimal := by
  intro t
  induction t with
  | hidden h => intro d; trivial
  | leaf p m => intro d; trivial
  | node l r ihl ihr =>
    intro d
    have h1 := ihl (d := d + 1)
    have h2 := ihr (d := d + 1)
    rw [PT.canon]
    cases hl : l.canon w (d + 1) <;> cases hr : r.canon w (d + 1) <;>
      simp_all [PT.Minimal, PT.isHidden]

theorem PT.canon_of_minimal [Env] {w : Nat} : ∀ {t : PT} {d : Nat}, t.Minimal → t.canon w d = t := by
  intro t
  induction t with
  | hidden h => intro d _; rfl
  | leaf p m => intro d _; rfl
  | node l r ihl ihr =>
    intro d h
    have h1 := ihl (d := d + 1) h.2.1
    have h2 := ihr (d := d + 1) h.2.2
    rw [PT.canon_node (by rw [h1, h2]; exact h.1), h1, h2]

theorem PT.canon_canon [Env] {w : Nat} {t : PT} {d : Nat} : (t.canon w d).canon w d = t.canon w d :=
  PT.canon_of_minimal PT.minimal_canon

theorem PT.root_hideLeaves [Env] {w : Nat} {keep : ProtocolId → Bool} : ∀ {t : PT} {d : Nat},
    (t.hideLeaves keep).root w d = t.root w d := by
  intro t
  induction t with
  | hidden h => intro d; rfl
  | leaf p m => intro d; rw [PT.hideLeaves]; split <;> rfl
  | node l r ihl ihr => intro d; simp [PT.hideLeaves, PT.root, ihl, ihr]

theorem PT.fits_hideLeaves [Env] {H D : Nat} (hD : D ≤ H) {keep : ProtocolId → Bool} :
    ∀ {t : PT} {d : Nat}, t.Fits H D d → (t.hideLeaves keep).Fits H D d := by
  intro t
  induction t with
  | hidden h => intro d hf; exact hf
  | leaf p m =>
    intro d hf
    rw [PT.hideLeaves]
    split
    · exact hf
    · simp only [PT.Fits] at hf ⊢; omega
  | node l r ihl ihr => intro d hf; exact ⟨ihl hf.1, ihr hf.2⟩

theorem PT.known_hideLeaves [Env] {keep : ProtocolId → Bool} : ∀ {t : PT},
    (t.hideLeaves keep).known = t.known.filter (fun e => keep e.1) := by
  intro t
  induction t with
  | hidden h => rfl
  | leaf p m =>
    rw [PT.hideLeaves]
    split <;> simp_all [PT.known]
  | node l r ihl ihr => simp [PT.hideLeaves, PT.known, ihl, ihr]

/-- Without any revealed leaf the canonical form is a single hash. -/
theorem PT.canon_of_known_nil [Env] {w : Nat} : ∀ {t : PT} {d : Nat}, t.known = [] →
    t.canon w d = .hidden (t.root w d) := by
  intro t
  induction t with
  | hidden h => intro d _; rfl
  | leaf p m => intro d h; simp [PT.known] at h
  | node l r ihl ihr =>
    intro d h
    simp only [PT.known, List.append_eq_nil_iff] at h
    rw [PT.canon, ihl h.1, ihr h.2]
    rfl

theorem PT.known_mem_frontier {p : ProtocolId} {m : Message} : ∀ {t : PT} {d : Nat},
    (p, m) ∈ t.known ↔ TreeNode.leaf p m ∈ t.frontier d := by
  intro t
  induction t with
  | hidden h => intro d; simp [PT.known, PT.frontier]
  | leaf q n => intro d; simp [PT.known, PT.frontier]
  | node l r ihl ihr => intro d; simp [PT.known, PT.frontier, ihl (d := d + 1), ihr (d := d + 1)]

/-- Messages revealed by a cross-section. -/
def revealed (cs : List TreeNode) : List (ProtocolId × Message) :=
  cs.filterMap fun
    | .concealed _ _ => none
    | .leaf p m => some (p, m)

theorem revealed_append (a b : List TreeNode) : revealed (a ++ b) = revealed a ++ revealed b := by
  simp [revealed]

theorem revealed_frontier : ∀ {t : PT} {d : Nat}, revealed (t.frontier d) = t.known := by
  intro t
  induction t with
  | hidden h => intro d; rfl
  | leaf q n => intro d; rfl
  | node l r ihl ihr => intro d; simp [PT.known, PT.frontier, ihl, ihr, revealed_append]

theorem knownIds_eq (cs : List TreeNode) :
    (cs.filterMap fun
      | .concealed _ _ => none
      | .leaf p _ => some p) = (revealed cs).map Prod.fst := by
  rw [revealed, List.map_filterMap]
  congr 1
  funext n
  cases n <;> rfl

/-! ## The first loop -/

/-- What the first loop does to a node. -/
def hideNode [Env] (D : U5) (keep : ProtocolId → Bool) : TreeNode → TreeNode
  | .concealed d h => .concealed d h
  | .leaf p m => if keep p then .leaf p m else .concealed D (leafHash (.inhabited p m))

theorem map_hideNode_frontier [Env] {H : Nat} {D : U5} {keep : ProtocolId → Bool} : ∀ {t : PT} {d : Nat},
    t.Fits H D.val d → (t.frontier d).map (hideNode D keep) = (t.hideLeaves keep).frontier d := by
  intro t
  induction t with
  | hidden h => intro d _; rfl
  | leaf p m =>
    intro d hf
    simp only [PT.Fits] at hf
    subst hf
    simp only [PT.frontier, List.map_cons, List.map_nil, hideNode, PT.hideLeaves]
    split
    · rfl
    · simp only [PT.frontier]
      congr 2
      apply Fin.ext
      rw [toU5_val D.isLt]
  | node l r ihl ihr =>
    intro d hf
    simp [PT.frontier, PT.hideLeaves, ihl hf.1, ihr hf.2]

theorem concealLeaves_eq [Env] {D : U5} {ps : List ProtocolId} : ∀ (cs : List TreeNode) (c : Nat)
    (nf : List ProtocolId), BSetOk nf → (∀ p ∈ nf, p ∈ ps) →
    concealLeaves D ps cs c nf = .ok (cs.map (hideNode D ps.contains),
      c + (revealed cs).countP (fun e => !ps.contains e.1),
      nf.filter (fun p => !((revealed cs).map Prod.fst).contains p)) := by
  intro cs
  induction cs with
  | nil => intro c nf _ _; simp [concealLeaves, revealed, List.filter_eq_self.mpr]
  | cons n cs ih =>
    intro c nf hnf hsub
    cases n with
    | concealed d h =>
      rw [concealLeaves, ih c nf hnf hsub]
      simp [ok_bind, hideNode, revealed]
    | leaf p m =>
      have hr : revealed (.leaf p m :: cs) = (p, m) :: revealed cs := rfl
      rw [concealLeaves, hr]
      by_cases hp : ps.contains p = true
      · rw [if_pos hp, bsetRemove_eq_filter hnf, ih c _ (hnf.filter _)
          (fun q hq => hsub q (List.mem_filter.mp hq).1)]
        simp only [ok_bind, List.map_cons, hideNode, hp, if_true, List.filter_filter]
        congr 3
        · rw [List.countP_cons_of_neg (by simpa using hp)]
        · apply List.filter_congr
          intro q _
          by_cases h : q = p <;> simp [h, Bool.and_comm]
      · rw [if_neg hp, TreeNode.toMerkleNode, commitId_leaf, ok_bind, ih (c + 1) nf hnf hsub]
        simp only [ok_bind, List.map_cons, hideNode, hp]
        congr 3
        · rw [List.countP_cons_of_pos (by simpa using hp)]; omega
        · apply List.filter_congr
          intro q hq
          have : q ≠ p := by
            rintro rfl
            exact hp (by simpa using hsub q hq)
          simp [this]

/-! ## `conceal_except` -/

/-- Requested protocols which are not revealed, in ascending order. -/
def missing (b : MerkleBlock) (ps : List ProtocolId) : List ProtocolId :=
  (bsetOfList ps).filter (fun p => !((revealed b.crossSection).map Prod.fst).contains p)

theorem concealExcept_eq [Env] (b : MerkleBlock) (ps : List ProtocolId) :
    b.concealExcept ps =
      let cs := b.crossSection.map (hideNode b.depth ps.contains)
      let n := (revealed b.crossSection).countP (fun e => !ps.contains e.1)
      match missing b ps with
      | p :: _ => .ok ({ b with crossSection := cs, entropy := none }, .error ⟨p⟩)
      | [] => (do
        let (cs', n') ← concealOuter b.depth (cs.length + 1) cs n
        .ok ({ b with crossSection := cs', entropy := none }, .ok n')) := by
  rw [MerkleBlock.concealExcept, concealLeaves_eq _ _ _ (bsetOfList_sorted _)
    (fun p hp => mem_bsetOfList.mp hp)]
  simp only [ok_bind, missing, Nat.zero_add]
  cases h : (bsetOfList ps).filter
    (fun p => !((revealed b.crossSection).map Prod.fst).contains p) <;> rfl

/-- The result of `conceal_except` on a block showing the partial tree `t`, if all the requested
protocols are revealed. -/
theorem concealExcept_shows [Env] {b : MerkleBlock} {t : PT} (hb : b.Shows t) {ps : List ProtocolId}
    (hm : missing b ps = []) :
    ∃ n, b.concealExcept ps = .ok ({ b with
        crossSection := ((t.hideLeaves ps.contains).canon (widthLimit b.depth) 0).frontier 0
        entropy := none }, .ok n) ∧
      n + (((t.hideLeaves ps.contains).canon (widthLimit b.depth) 0).frontier 0).length =
        b.crossSection.length + t.known.countP (fun e => !ps.contains e.1) := by
  obtain ⟨hcs, hf⟩ := hb
  have hD := b.depth.isLt
  obtain ⟨k, h1, h2⟩ := concealOuter_tree (H := b.depth.val) (D := b.depth) (by omega) hD
    (((t.hideLeaves ps.contains).frontier 0).length + 1) (t.hideLeaves ps.contains)
    (t.known.countP (fun e => !ps.contains e.1))
    (PT.fits_hideLeaves (Nat.le_refl _) hf) (by omega)
  refine ⟨t.known.countP (fun e => !ps.contains e.1) + k, ?_, ?_⟩
  · rw [concealExcept_eq, hm]
    simp only
    rw [hcs, map_hideNode_frontier hf, revealed_frontier, h1]
    rfl
  · rw [hcs]
    have : (t.frontier 0).length = ((t.hideLeaves ps.contains).frontier 0).length := by
      rw [← map_hideNode_frontier hf, List.length_map]
    omega

theorem concealExcept_err [Env] {b : MerkleBlock} {t : PT} (hb : b.Shows t) {ps : List ProtocolId}
    {p : ProtocolId} {l : List ProtocolId} (hm : missing b ps = p :: l) :
    b.concealExcept ps = .ok ({ b with
        crossSection := (t.hideLeaves ps.contains).frontier 0
        entropy := none }, .error ⟨p⟩) := by
  obtain ⟨hcs, hf⟩ := hb
  rw [concealExcept_eq, hm]
  simp only
  rw [hcs, map_hideNode_frontier hf]

theorem missing_nil (b : MerkleBlock) : missing b [] = [] := rfl

theorem shows_conceal [Env] {b : MerkleBlock} {t : PT} (hb : b.Shows t) :
    b.conceal = .ok ⟨b.depth, b.cofactor, t.root (widthLimit b.depth) 0⟩ := by
  obtain ⟨n, h1, _⟩ := concealExcept_shows hb (missing_nil b)
  have hk : (t.hideLeaves (List.contains [])).known = [] := by
    rw [PT.known_hideLeaves]; simp
  rw [PT.canon_of_known_nil hk, PT.root_hideLeaves] at h1
  rw [MerkleBlock.conceal, h1]
  simp only [ok_bind, PT.frontier, List.length_cons, List.length_nil, decide_true,
    debugAssert_true, List.head?_cons]
  rw [if_pos (by decide)]

/-- The commitment of a block is determined by its depth, cofactor and the root of the tree. -/
theorem shows_commitId [Env] {b : MerkleBlock} {t : PT} (hb : b.Shows t) :
    b.commitId = .ok (commitmentHash ⟨b.depth, b.cofactor, t.root (widthLimit b.depth) 0⟩) := by
  rw [MerkleBlock.commitId_eq, shows_conceal hb]
  rfl

end CSV
