import Verif.Proofs.View
import Verif.Spec.Block

/-!
# Lemmas: repeated concealment, independence of the build profile
-/

namespace CSV

theorem knownMessages_eq (b : MerkleBlock) : b.knownMessages = revealed b.crossSection := rfl

theorem shows_known {b : MerkleBlock} {t : PT} (h : b.Shows t) : b.knownMessages = t.known := by
  rw [knownMessages_eq, h.1, revealed_frontier]

theorem knownIds_map (b : MerkleBlock) : b.knownProtocolIds = b.knownMessages.map Prod.fst :=
  knownIds_eq b.crossSection

theorem mem_missing {b : MerkleBlock} {ps : List ProtocolId} {p : ProtocolId} :
    p ∈ missing b ps ↔ p ∈ ps ∧ p ∉ b.knownProtocolIds := by
  rw [missing, List.mem_filter, mem_bsetOfList, knownIds_map, knownMessages_eq]
  simp

theorem missing_sorted (b : MerkleBlock) (ps : List ProtocolId) : BSetOk (missing b ps) :=
  (bsetOfList_sorted ps).filter _

theorem missing_eq_nil {b : MerkleBlock} {ps : List ProtocolId} :
    missing b ps = [] ↔ ∀ p ∈ ps, p ∈ b.knownProtocolIds := by
  rw [List.eq_nil_iff_forall_not_mem]
  constructor
  · intro h p hp
    exact Classical.byContradiction fun hn => h p (mem_missing.2 ⟨hp, hn⟩)
  · intro h p hp
    obtain ⟨h1, h2⟩ := mem_missing.1 hp
    exact h2 (h p h1)

theorem hideLeaves_hideLeaves [Env] {f g : ProtocolId → Bool} (h : ∀ p, f p = true → g p = true) :
    ∀ (t : PT), (t.hideLeaves g).hideLeaves f = t.hideLeaves f := by
  intro t
  induction t with
  | hidden _ => rfl
  | leaf p m =>
    simp only [PT.hideLeaves]
    by_cases hg : g p = true
    · rw [if_pos hg]; rfl
    · have hf : ¬ f p = true := fun hf => hg (h p hf)
      rw [if_neg hg, if_neg hf]; rfl
  | node l r ihl ihr => simp only [PT.hideLeaves, ihl, ihr]

theorem canon_hide_canon [Env] {w : Nat} {f : ProtocolId → Bool} : ∀ (t : PT) (d : Nat),
    ((t.canon w d).hideLeaves f).canon w d = (t.hideLeaves f).canon w d := by
  intro t
  induction t with
  | hidden _ => intro d; rfl
  | leaf p m => intro d; rfl
  | node l r ihl ihr =>
    intro d
    by_cases h : (l.canon w (d + 1)).isHidden = true ∧ (r.canon w (d + 1)).isHidden = true
    · obtain ⟨h1, h2⟩ := h
      cases hl : l.canon w (d + 1) <;> simp [hl, PT.isHidden] at h1
      cases hr : r.canon w (d + 1) <;> simp [hr, PT.isHidden] at h2
      rw [PT.canon_node_hidden hl hr]
      have il := ihl (d + 1)
      have ir := ihr (d + 1)
      rw [hl] at il
      rw [hr] at ir
      simp only [PT.hideLeaves, PT.canon] at il ir ⊢
      rw [← il, ← ir]
    · rw [PT.canon_node h]
      simp only [PT.hideLeaves, PT.canon]
      rw [ihl, ihr]

theorem contains_congr {ps qs : List ProtocolId} (h : ∀ p, p ∈ ps ↔ p ∈ qs) :
    ps.contains = qs.contains := by
  funext p
  rw [Bool.eq_iff_iff, List.contains_iff_mem, List.contains_iff_mem, h]

theorem concealExcept_congr [Env] (b : MerkleBlock) {ps qs : List ProtocolId}
    (h : ∀ p, p ∈ ps ↔ p ∈ qs) : b.concealExcept ps = b.concealExcept qs := by
  have h1 : bsetOfList ps = bsetOfList qs :=
    (bsetOfList_sorted ps).ext (bsetOfList_sorted qs) fun x => by
      rw [mem_bsetOfList, mem_bsetOfList, h]
  rw [concealExcept_eq, concealExcept_eq, contains_congr h, missing, missing, h1]

/-- What `conceal_except` does on a structurally valid block. -/
theorem concealExcept_cases [Env] {b : MerkleBlock} {t : PT} (hb : b.Shows t) (ps : List ProtocolId) :
    (∃ n, (∀ p ∈ ps, p ∈ b.knownProtocolIds) ∧
      b.concealExcept ps = .ok ({ b with
        crossSection := ((t.hideLeaves ps.contains).canon (2 ^ b.depth.val) 0).frontier 0
        entropy := none }, .ok n) ∧
      MerkleBlock.Shows { b with
        crossSection := ((t.hideLeaves ps.contains).canon (2 ^ b.depth.val) 0).frontier 0
        entropy := none } ((t.hideLeaves ps.contains).canon (2 ^ b.depth.val) 0) ∧
      n + (((t.hideLeaves ps.contains).canon (2 ^ b.depth.val) 0).frontier 0).length =
        b.crossSection.length + t.known.countP (fun e => !ps.contains e.1)) ∨
    (∃ p, p ∈ ps ∧ p ∉ b.knownProtocolIds ∧
      b.concealExcept ps = .ok ({ b with
        crossSection := (t.hideLeaves ps.contains).frontier 0
        entropy := none }, .error ⟨p⟩) ∧
      MerkleBlock.Shows { b with
        crossSection := (t.hideLeaves ps.contains).frontier 0
        entropy := none } (t.hideLeaves ps.contains)) := by
  cases hm : missing b ps with
  | nil =>
    left
    obtain ⟨n, h1, h2⟩ := concealExcept_shows hb hm
    exact ⟨n, missing_eq_nil.1 hm, h1,
      ⟨rfl, PT.fits_canon (PT.fits_hideLeaves (Nat.le_refl _) hb.2)⟩, h2⟩
  | cons p l =>
    right
    obtain ⟨h1, h2⟩ := mem_missing.1 (hm ▸ List.mem_cons_self (a := p) (l := l))
    exact ⟨p, h1, h2, concealExcept_err hb hm, ⟨rfl, PT.fits_hideLeaves (Nat.le_refl _) hb.2⟩⟩

/-! ### Independence of the profile -/

section
variable (e : Env) (x : Bool)

theorem root_profile {w : Nat} : ∀ (t : PT) (d : Nat),
    @PT.root (profile e x) w t d = @PT.root e w t d := by
  intro t
  induction t with
  | hidden _ => intro d; rfl
  | leaf p m => intro d; rfl
  | node l r ihl ihr => intro d; simp only [PT.root, ihl, ihr]; rfl

theorem hide_profile {f : ProtocolId → Bool} : ∀ (t : PT),
    @PT.hideLeaves (profile e x) f t = @PT.hideLeaves e f t := by
  intro t
  induction t with
  | hidden _ => rfl
  | leaf p m => rfl
  | node l r ihl ihr => simp only [PT.hideLeaves, ihl, ihr]

theorem canon_profile {w : Nat} : ∀ (t : PT) (d : Nat),
    @PT.canon (profile e x) w t d = @PT.canon e w t d := by
  intro t
  induction t with
  | hidden _ => intro d; rfl
  | leaf p m => intro d; rfl
  | node l r ihl ihr => intro d; simp only [PT.canon, ihl, ihr]; rfl

theorem siblings_profile {w : Nat} : ∀ (t : PT) (d n pos : Nat),
    @PT.siblings (profile e x) w t d n pos = @PT.siblings e w t d n pos := by
  intro t
  induction t with
  | hidden _ => intros; rfl
  | leaf p m => intros; rfl
  | node l r ihl ihr => intros; simp only [PT.siblings, ihl, ihr, root_profile]

theorem slot_profile (t : MerkleTree) : @MerkleTree.slot (profile e x) t = @MerkleTree.slot e t := rfl

theorem pt_profile (t : MerkleTree) : @MerkleTree.pt (profile e x) t = @MerkleTree.pt e t := rfl

theorem specRoot_profile (t : MerkleTree) :
    @MerkleTree.specRoot (profile e x) t = @MerkleTree.specRoot e t := by
  simp only [MerkleTree.specRoot, root_profile, pt_profile]

theorem compat_profile {w : Nat} : ∀ (t1 t2 : PT) (d : Nat),
    @PT.Compat (profile e x) w t1 t2 d ↔ @PT.Compat e w t1 t2 d := by
  intro t1
  induction t1 with
  | hidden _ => intro t2 d; simp only [PT.Compat, root_profile]
  | leaf p m => intro t2 d; cases t2 <;> simp only [PT.Compat, root_profile]
  | node l r ihl ihr => intro t2 d; cases t2 <;> simp only [PT.Compat, root_profile, ihl, ihr]

end

end CSV
