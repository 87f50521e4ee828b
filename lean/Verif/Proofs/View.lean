import Verif.Spec.View
import Verif.Proofs.Merge
import Verif.Proofs.Commit

/-!
# Views of a tree
-/

namespace CSV

theorem view_root [Env] {w : Nat} : ∀ {t T : PT} {d : Nat}, t.View w T d → t.root w d = T.root w d := by
  intro t
  induction t with
  | hidden h => intro T d hv; exact hv.symm
  | leaf p m => intro T d hv; simp only [PT.View] at hv; rw [hv]
  | node l r ihl ihr =>
    intro T d hv
    cases T with
    | node L R => simp only [PT.root, ihl hv.1, ihr hv.2]
    | hidden h => exact hv.elim
    | leaf p m => exact hv.elim

theorem view_refl [Env] {w : Nat} : ∀ {t : PT} {d : Nat}, t.View w t d := by
  intro t
  induction t with
  | hidden h => intro d; rfl
  | leaf p m => intro d; rfl
  | node l r ihl ihr => intro d; exact ⟨ihl, ihr⟩

theorem view_trans [Env] {w : Nat} : ∀ {a b c : PT} {d : Nat}, a.View w b d → b.View w c d →
    a.View w c d := by
  intro a
  induction a with
  | hidden h => intro b c d h1 h2; simp only [PT.View] at h1 ⊢; rw [← view_root h2, h1]
  | leaf p m => intro b c d h1 h2; simp only [PT.View] at h1; subst h1; exact h2
  | node l r ihl ihr =>
    intro b c d h1 h2
    cases b with
    | hidden h => exact h1.elim
    | leaf p m => exact h1.elim
    | node L R =>
      cases c with
      | hidden h => exact h2.elim
      | leaf p m => exact h2.elim
      | node L' R' => exact ⟨ihl h1.1 h2.1, ihr h1.2 h2.2⟩

theorem view_compat [Env] {w : Nat} : ∀ {t1 t2 T : PT} {d : Nat}, t1.View w T d → t2.View w T d →
    t1.Compat w t2 d := by
  intro t1
  induction t1 with
  | hidden h =>
    intro t2 T d h1 h2
    simp only [PT.Compat]
    rw [view_root h2]
    exact h1
  | leaf p m =>
    intro t2 T d h1 h2
    simp only [PT.View] at h1
    subst h1
    cases t2 with
    | hidden h => simp only [PT.Compat]; exact h2
    | leaf q n =>
      simp only [PT.View, PT.leaf.injEq] at h2
      exact h2
    | node l r => exact h2.elim
  | node l r ihl ihr =>
    intro t2 T d h1 h2
    cases T with
    | hidden h => exact h1.elim
    | leaf p m => exact h1.elim
    | node L R =>
      cases t2 with
      | hidden h => simp only [PT.Compat]; rw [view_root (T := .node L R) h1]; exact h2
      | leaf q n => simp [PT.View] at h2
      | node l2 r2 => exact ⟨ihl h1.1 h2.1, ihr h1.2 h2.2⟩

theorem view_join [Env] {w : Nat} : ∀ {t1 t2 T : PT} {d : Nat}, t1.View w T d → t2.View w T d →
    (t1.join t2).View w T d := by
  intro t1
  induction t1 with
  | hidden h => intro t2 T d h1 h2; exact h2
  | leaf p m => intro t2 T d h1 h2; cases t2 <;> exact h1
  | node l r ihl ihr =>
    intro t2 T d h1 h2
    cases t2 with
    | hidden h => exact h1
    | leaf q n => exact h1
    | node l2 r2 =>
      cases T with
      | hidden h => exact h1.elim
      | leaf p m => exact h1.elim
      | node L R => exact ⟨ihl h1.1 h2.1, ihr h1.2 h2.2⟩

theorem view_hide [Env] {w : Nat} {keep : ProtocolId → Bool} : ∀ {t T : PT} {d : Nat},
    t.View w T d → (t.hideLeaves keep).View w T d := by
  intro t
  induction t with
  | hidden h => intro T d hv; exact hv
  | leaf p m =>
    intro T d hv
    simp only [PT.View] at hv
    subst hv
    simp only [PT.hideLeaves]
    split
    · rfl
    · rfl
  | node l r ihl ihr =>
    intro T d hv
    cases T with
    | hidden h => exact hv.elim
    | leaf p m => exact hv.elim
    | node L R => exact ⟨ihl hv.1, ihr hv.2⟩

theorem view_canon [Env] {w : Nat} : ∀ {t T : PT} {d : Nat},
    t.View w T d → (t.canon w d).View w T d := by
  intro t
  induction t with
  | hidden h => intro T d hv; exact hv
  | leaf p m => intro T d hv; exact hv
  | node l r ihl ihr =>
    intro T d hv
    have hr := view_root (t := .node l r) hv
    cases T with
    | hidden h => exact hv.elim
    | leaf p m => exact hv.elim
    | node L R =>
      by_cases hh : (l.canon w (d + 1)).isHidden = true ∧ (r.canon w (d + 1)).isHidden = true
      · have e1 : ∃ h1, l.canon w (d + 1) = .hidden h1 := by
          cases h : l.canon w (d + 1) <;> simp_all [PT.isHidden]
        have e2 : ∃ h1, r.canon w (d + 1) = .hidden h1 := by
          cases h : r.canon w (d + 1) <;> simp_all [PT.isHidden]
        obtain ⟨h1, e1⟩ := e1
        obtain ⟨h2, e2⟩ := e2
        have := PT.root_canon (w := w) (t := .node l r) (d := d)
        rw [PT.canon_node_hidden e1 e2] at this ⊢
        simp only [PT.View]
        rw [← hr, ← this]
        rfl
      · rw [PT.canon_node hh]
        exact ⟨ihl hv.1, ihr hv.2⟩

theorem view_slots [Env] {w : Nat} {e : Nat × (ProtocolId × Message)} : ∀ {t T : PT} {d n lo : Nat},
    t.View w T d → e ∈ t.slots n lo → e ∈ T.slots n lo := by
  intro t
  induction t with
  | hidden h => intro T d n lo hv he; simp [PT.slots] at he
  | leaf p m => intro T d n lo hv he; simp only [PT.View] at hv; rw [hv]; exact he
  | node l r ihl ihr =>
    intro T d n lo hv he
    cases T with
    | hidden h => exact hv.elim
    | leaf p m => exact hv.elim
    | node L R =>
      simp only [PT.slots, List.mem_append] at he ⊢
      exact he.imp (ihl hv.1) (ihr hv.2)

theorem view_known [Env] {w : Nat} {e : ProtocolId × Message} {t T : PT} {d : Nat}
    (hv : t.View w T d) (he : e ∈ t.known) : e ∈ T.known := by
  obtain ⟨i, hi⟩ := known_slot he 0 0
  exact slot_known (view_slots hv hi)

theorem view_fits [Env] {w D : Nat} : ∀ {t T : PT} {d n : Nat}, d + n = D → T.Fits D D d →
    t.View w T d → t.Fits D D d := by
  intro t
  induction t with
  | hidden h => intro T d n hn _ _; simp only [PT.Fits]; omega
  | leaf p m => intro T d n hn hf hv; simp only [PT.View] at hv; rw [← hv]; exact hf
  | node l r ihl ihr =>
    intro T d n hn hf hv
    cases T with
    | hidden h => exact hv.elim
    | leaf p m => exact hv.elim
    | node L R =>
      have := fits_height hf hn
      exact ⟨ihl (n := n - 1) (by omega) hf.1 hv.1, ihr (n := n - 1) (by omega) hf.2 hv.2⟩

/-- The siblings of a revealed slot are the same in all views. -/
theorem view_siblings [Env] {w D : Nat} {e : ProtocolId × Message} : ∀ {t T : PT} {d n lo pos : Nat},
    t.View w T d → t.Fits D D d → d + n = D → (lo + pos, e) ∈ t.slots n lo →
    t.siblings w d n pos = T.siblings w d n pos := by
  intro t
  induction t with
  | hidden h => intro T d n lo pos hv hf hn he; simp [PT.slots] at he
  | leaf p m => intro T d n lo pos hv hf hn he; simp only [PT.View] at hv; rw [hv]
  | node l r ihl ihr =>
    intro T d n lo pos hv hf hn he
    cases T with
    | hidden h => exact hv.elim
    | leaf p m => exact hv.elim
    | node L R =>
      have hn' := fits_height hf hn
      have r1 := (slots_range (Nat.le_refl D) (n := n - 1) (lo := lo) hf.1 (by omega)).1
      have r2 := (slots_range (Nat.le_refl D) (n := n - 1) (lo := lo + 2 ^ (n - 1)) hf.2
        (by omega)).1
      simp only [PT.slots, List.mem_append] at he
      simp only [PT.siblings]
      rw [view_root hv.1, view_root hv.2]
      rcases he with he | he
      · have := r1 _ he
        simp only at this
        rw [if_neg (by omega), if_neg (by omega),
          ihl hv.1 hf.1 (by omega) (lo := lo) he]
      · have := r2 _ he
        simp only at this
        rw [if_pos (by omega), if_pos (by omega),
          ihr hv.2 hf.2 (by omega) (lo := lo + 2 ^ (n - 1)) (by
            rw [show lo + 2 ^ (n - 1) + (pos - 2 ^ (n - 1)) = lo + pos by omega]; exact he)]

/-- Canonical views revealing the same slots are equal. -/
theorem view_canon_unique [Env] {w D : Nat} : ∀ {t1 t2 T : PT} {d n lo : Nat},
    t1.View w T d → t2.View w T d → T.Fits D D d → d + n = D →
    (∀ e, e ∈ t1.slots n lo ↔ e ∈ t2.slots n lo) → t1.canon w d = t2.canon w d := by
  have hid : ∀ {t1 t2 T : PT} {d n lo : Nat}, t1.known = [] → t1.View w T d → t2.View w T d →
      (∀ e, e ∈ t1.slots n lo ↔ e ∈ t2.slots n lo) → t1.canon w d = t2.canon w d := by
    intro t1 t2 T d n lo hk h1 h2 hs
    have hs1 : t1.slots n lo = [] := by
      have := slots_known (t := t1) (n := n) (lo := lo)
      rw [hk] at this
      simpa using this
    have hk2 : t2.known = [] := by
      rw [← slots_known (n := n) (lo := lo)]
      rw [List.map_eq_nil_iff, List.eq_nil_iff_forall_not_mem]
      intro e he
      rw [← hs e, hs1] at he
      cases he
    rw [PT.canon_of_known_nil hk, PT.canon_of_known_nil hk2, view_root h1, view_root h2]
  intro t1
  induction t1 with
  | hidden h => intro t2 T d n lo h1 h2 _ _ hs; exact hid rfl h1 h2 hs
  | leaf p m =>
    intro t2 T d n lo h1 h2 _ _ hs
    simp only [PT.View] at h1
    subst h1
    cases t2 with
    | hidden h => exact (hid (n := n) (lo := lo) (t1 := .hidden h) rfl h2 (view_refl (t := .leaf p m))
        (fun e => (hs e).symm)).symm
    | leaf q m' => simp only [PT.View, PT.leaf.injEq] at h2; rw [h2.1, h2.2]
    | node l r => exact h2.elim
  | node l1 r1 ihl ihr =>
    intro t2 T d n lo h1 h2 hf hn hs
    cases T with
    | hidden h => exact h1.elim
    | leaf p m => exact h1.elim
    | node L R =>
      cases t2 with
      | hidden h =>
        exact (hid (n := n) (lo := lo) (t1 := .hidden h) rfl h2 h1 (fun e => (hs e).symm)).symm
      | leaf q m' => simp [PT.View] at h2
      | node l2 r2 =>
        have hn' := fits_height hf hn
        have rg : ∀ {l r : PT}, (PT.node l r).View w (.node L R) d →
            (∀ e ∈ l.slots (n - 1) lo, e.1 < lo + 2 ^ (n - 1)) ∧
            (∀ e ∈ r.slots (n - 1) (lo + 2 ^ (n - 1)), lo + 2 ^ (n - 1) ≤ e.1) := by
          intro l r hv
          have f1 := view_fits (n := n - 1) (by omega) hf.1 hv.1
          have f2 := view_fits (n := n - 1) (by omega) hf.2 hv.2
          exact ⟨fun e he => ((slots_range (Nat.le_refl D) f1 (by omega)).1 e he).2,
            fun e he => ((slots_range (Nat.le_refl D) f2 (by omega)).1 e he).1⟩
        have a1 := rg h1
        have a2 := rg h2
        simp only [PT.slots, List.mem_append] at hs
        have el : l1.canon w (d + 1) = l2.canon w (d + 1) := by
          refine ihl (n := n - 1) (lo := lo) h1.1 h2.1 hf.1 (by omega) fun e => ?_
          constructor
          · intro he
            rcases (hs e).mp (Or.inl he) with h | h
            · exact h
            · have := a1.1 e he; have := a2.2 e h; omega
          · intro he
            rcases (hs e).mpr (Or.inl he) with h | h
            · exact h
            · have := a2.1 e he; have := a1.2 e h; omega
        have er : r1.canon w (d + 1) = r2.canon w (d + 1) := by
          refine ihr (n := n - 1) (lo := lo + 2 ^ (n - 1)) h1.2 h2.2 hf.2 (by omega) fun e => ?_
          constructor
          · intro he
            rcases (hs e).mp (Or.inr he) with h | h
            · have := a1.2 e he; have := a2.1 e h; omega
            · exact h
          · intro he
            rcases (hs e).mpr (Or.inr he) with h | h
            · have := a2.2 e he; have := a1.1 e h; omega
            · exact h
        simp only [PT.canon, el, er]

/-! ## Laws of the union -/

theorem compat_refl [Env] {w : Nat} {t : PT} {d : Nat} : t.Compat w t d :=
  view_compat view_refl view_refl

theorem compat_symm [Env] {w : Nat} : ∀ {t1 t2 : PT} {d : Nat}, t1.Compat w t2 d →
    t2.Compat w t1 d := by
  intro t1
  induction t1 with
  | hidden h =>
    intro t2 d hc
    cases t2 with
    | hidden h' => simp only [PT.Compat, PT.root] at hc ⊢; exact hc.symm
    | leaf q n => exact hc
    | node l r => exact hc
  | leaf p m =>
    intro t2 d hc
    cases t2 with
    | hidden h' => exact hc
    | leaf q n => exact ⟨hc.1.symm, hc.2.symm⟩
    | node l r => exact hc.elim
  | node l r ihl ihr =>
    intro t2 d hc
    cases t2 with
    | hidden h' => exact hc
    | leaf q n => exact hc.elim
    | node l2 r2 => exact ⟨ihl hc.1, ihr hc.2⟩

theorem join_self : ∀ (t : PT), t.join t = t := by
  intro t
  induction t with
  | hidden h => rfl
  | leaf p m => rfl
  | node l r ihl ihr => simp only [PT.join, ihl, ihr]

theorem join_comm [Env] {w : Nat} : ∀ {t1 t2 : PT} {d : Nat}, t1.Compat w t2 d →
    t1.join t2 = t2.join t1 := by
  intro t1
  induction t1 with
  | hidden h =>
    intro t2 d hc
    cases t2 with
    | hidden h' => simp only [PT.Compat, PT.root] at hc; simp only [PT.join, hc]
    | leaf q n => rfl
    | node l r => rfl
  | leaf p m =>
    intro t2 d hc
    cases t2 with
    | hidden h' => rfl
    | leaf q n => obtain ⟨rfl, rfl⟩ := hc; rfl
    | node l r => exact hc.elim
  | node l r ihl ihr =>
    intro t2 d hc
    cases t2 with
    | hidden h' => rfl
    | leaf q n => exact hc.elim
    | node l2 r2 => simp only [PT.join, ihl hc.1, ihr hc.2]

theorem join_assoc [Env] {w : Nat} : ∀ {t1 t2 t3 : PT} {d : Nat}, t1.Compat w t2 d →
    t2.Compat w t3 d → t1.Compat w t3 d → (t1.join t2).join t3 = t1.join (t2.join t3) := by
  intro t1
  induction t1 with
  | hidden h => intro t2 t3 d _ _ _; rfl
  | leaf p m =>
    intro t2 t3 d h12 h23 h13
    cases t2 with
    | hidden h => rfl
    | leaf q n => cases t3 <;> rfl
    | node l r => exact h12.elim
  | node l1 r1 ihl ihr =>
    intro t2 t3 d h12 h23 h13
    cases t2 with
    | hidden h => rfl
    | leaf q n => exact h12.elim
    | node l2 r2 =>
      cases t3 with
      | hidden h => rfl
      | leaf q n => exact h13.elim
      | node l3 r3 => simp only [PT.join, ihl h12.1 h23.1 h13.1, ihr h12.2 h23.2 h13.2]

theorem join_compat [Env] {w : Nat} : ∀ {t1 t2 t3 : PT} {d : Nat}, t1.Compat w t2 d →
    t1.Compat w t3 d → t2.Compat w t3 d → (t1.join t2).Compat w t3 d := by
  intro t1
  induction t1 with
  | hidden h => intro t2 t3 d _ _ h; exact h
  | leaf p m =>
    intro t2 t3 d h12 h13 _
    cases t2 <;> exact h13
  | node l1 r1 ihl ihr =>
    intro t2 t3 d h12 h13 h23
    cases t2 with
    | hidden h => exact h13
    | leaf q n => exact h12.elim
    | node l2 r2 =>
      cases t3 with
      | hidden h =>
        have := (join_root h12).1
        simp only [PT.Compat] at h13
        simp only [PT.join] at this
        show PT.root w ((l1.join l2).node (r1.join r2)) d = h
        rw [this]
        exact h13
      | leaf q n => exact h13.elim
      | node l3 r3 => exact ⟨ihl h12.1 h13.1 h23.1, ihr h12.2 h13.2 h23.2⟩

theorem join_hidden {t1 t2 : PT} (h : (t1.join t2).isHidden = true) :
    t1.isHidden = true ∧ t2.isHidden = true := by
  cases t1 <;> cases t2 <;> simp_all [PT.join, PT.isHidden]

theorem join_minimal : ∀ {t1 t2 : PT}, t1.Minimal → t2.Minimal → (t1.join t2).Minimal := by
  intro t1
  induction t1 with
  | hidden h => intro t2 h1 h2; exact h2
  | leaf p m => intro t2 h1 h2; cases t2 <;> exact h1
  | node l r ihl ihr =>
    intro t2 h1 h2
    cases t2 with
    | hidden h => exact h1
    | leaf q n => exact h1
    | node l2 r2 =>
      refine ⟨?_, ihl h1.2.1 h2.2.1, ihr h1.2.2 h2.2.2⟩
      intro hh
      exact h1.1 ⟨(join_hidden hh.1).1, (join_hidden hh.2).1⟩

/-! ## Committed trees -/

theorem slots_full {f : Nat → PT} (hf : ∀ i, (f i).isHidden = true ∨ ∃ p m, f i = .leaf p m) :
    ∀ {n lo i : Nat} {p : ProtocolId} {m : Message}, (i, (p, m)) ∈ (PT.full f n lo).slots n lo ↔
      lo ≤ i ∧ i < lo + 2 ^ n ∧ f i = .leaf p m := by
  intro n
  induction n with
  | zero =>
    intro lo i p m
    simp only [PT.full, Nat.pow_zero]
    have : (lo ≤ i ∧ i < lo + 1 ∧ f i = .leaf p m) ↔ i = lo ∧ f lo = .leaf p m := by
      constructor
      · rintro ⟨h1, h2, h3⟩
        have : i = lo := by omega
        subst this
        exact ⟨rfl, h3⟩
      · rintro ⟨rfl, h⟩
        exact ⟨by omega, by omega, h⟩
    rw [this]
    rcases hf lo with h | ⟨q, m', h⟩
    · cases hfl : f lo <;> simp_all [PT.slots, PT.isHidden]
    · rw [h]
      simp only [PT.slots, List.mem_singleton, Prod.mk.injEq, PT.leaf.injEq]
      constructor
      · rintro ⟨a, b, c⟩; exact ⟨a, b.symm, c.symm⟩
      · rintro ⟨a, b, c⟩; exact ⟨a, b.symm, c.symm⟩
  | succ n ih =>
    intro lo i p m
    simp only [PT.full, PT.slots, Nat.add_sub_cancel, List.mem_append, ih, Nat.pow_succ]
    constructor
    · rintro (⟨a, b, c⟩ | ⟨a, b, c⟩)
      · exact ⟨by omega, by omega, c⟩
      · exact ⟨by omega, by omega, c⟩
    · rintro ⟨a, b, c⟩
      rcases Nat.lt_or_ge i (lo + 2 ^ n) with h | h
      · exact Or.inl ⟨a, h, c⟩
      · exact Or.inr ⟨h, by omega, c⟩

theorem slot_cases [Env] (t : MerkleTree) (i : Nat) :
    (t.slot i).isHidden = true ∨ ∃ p m, t.slot i = .leaf p m := by
  unfold MerkleTree.slot
  cases t.map.get (UInt32.ofNat i) with
  | none => exact Or.inl rfl
  | some e => exact Or.inr ⟨_, _, rfl⟩

theorem slot_leaf [Env] {t : MerkleTree} {i : Nat} {p : ProtocolId} {m : Message} :
    t.slot i = .leaf p m ↔ t.map.get (UInt32.ofNat i) = some (p, m) := by
  unfold MerkleTree.slot
  cases t.map.get (UInt32.ofNat i) with
  | none => simp
  | some e => obtain ⟨q, n⟩ := e; simp

theorem pt_slots [Env] {t : MerkleTree} {i : Nat} {p : ProtocolId} {m : Message} :
    (i, (p, m)) ∈ t.pt.slots t.depth.val 0 ↔
      i < 2 ^ t.depth.val ∧ t.map.get (UInt32.ofNat i) = some (p, m) := by
  rw [MerkleTree.pt, slots_full (slot_cases t), slot_leaf]
  simp

theorem holds_slots [Env] {t : MerkleTree} (h : t.Holds) {i : Nat} {p : ProtocolId} {m : Message} :
    (i, (p, m)) ∈ t.pt.slots t.depth.val 0 ↔
      (p, m) ∈ t.messages.entries ∧ i = slotOf p t.cofactor.toNat t.depth.val := by
  have hw := widthLimit_pos t.depth
  simp only [widthLimit] at hw
  rw [pt_slots, h]
  constructor
  · rintro ⟨h1, h2, h3⟩
    rw [UInt32.toNat_ofNat_of_lt' (by show i < 4294967296; omega)] at h3
    exact ⟨h2, h3⟩
  · rintro ⟨h2, h3⟩
    have := slotOf_lt p t.cofactor.toNat t.depth.val
    have hi : i < 2 ^ t.depth.val := by omega
    refine ⟨hi, h2, ?_⟩
    rw [UInt32.toNat_ofNat_of_lt' (by show i < 4294967296; omega)]
    exact h3

theorem holds_known [Env] {t : MerkleTree} (h : t.Holds) {p : ProtocolId} {m : Message} :
    (p, m) ∈ t.pt.known ↔ (p, m) ∈ t.messages.entries := by
  constructor
  · intro hk
    obtain ⟨i, hi⟩ := known_slot hk t.depth.val 0
    exact ((holds_slots h).mp hi).1
  · intro hm
    exact slot_known ((holds_slots h).mpr ⟨hm, rfl⟩)

/-- A view of a committed tree reveals every message at the slot of its protocol. -/
theorem ofTree_placed [Env] {b : MerkleBlock} {T : MerkleTree} (hT : T.Holds) {t : PT}
    (hd : b.depth = T.depth) (hc : b.cofactor = T.cofactor) (hs : b.Shows t)
    (hv : t.View (2 ^ T.depth.val) T.pt 0) : b.Placed t := by
  refine ⟨hs, fun i p m hi => ?_⟩
  rw [hd] at hi ⊢
  have := ((holds_slots hT).mp (view_slots hv hi)).2
  rw [hc, protocolIdPos_eq, this]

/-- A partial tree with the root of a committed tree is a view of it. -/
theorem compat_full_view [Env] {T : MerkleTree} {w D : Nat} : ∀ {t : PT} {d n lo : Nat},
    t.Compat w (PT.full T.slot n lo) d → t.Fits D D d → d + n = D →
    NoCollision (t.inputs w d ++ (List.range' lo (2 ^ n)).map fun i => leafInput (T.leafAt i)) →
    t.View w (PT.full T.slot n lo) d := by
  intro t
  induction t with
  | hidden h => intro d n lo hc hf hn hcol; exact hc
  | leaf p m =>
    intro d n lo hc hf hn hcol
    simp only [PT.Fits] at hf
    have : n = 0 := by omega
    subst this
    simp only [PT.full] at hc ⊢
    rcases slot_cases T lo with h | ⟨q, m', h⟩
    · exfalso
      unfold MerkleTree.slot at hc
      have hl : T.leafAt lo = .entropy T.entropy (UInt32.ofNat lo) := by
        unfold MerkleTree.leafAt
        cases hg : T.map.get (UInt32.ofNat lo) with
        | none => rfl
        | some e => simp [MerkleTree.slot, hg, PT.isHidden] at h
      cases hg : T.map.get (UInt32.ofNat lo) with
      | some e => simp [MerkleTree.slot, hg, PT.isHidden] at h
      | none =>
        rw [hg] at hc
        simp only [PT.Compat, PT.root, leafHash] at hc
        have h1 := hcol _ (List.mem_append_left _ (List.mem_singleton.mpr rfl)) _
          (List.mem_append_right _ (List.mem_map.mpr ⟨lo, by simp, by rw [hl]⟩)) hc
        have := leafInput_inj h1
        cases this
    · rw [h] at hc ⊢
      obtain ⟨rfl, rfl⟩ := hc
      rfl
  | node l r ihl ihr =>
    intro d n lo hc hf hn hcol
    have hn' := fits_height hf hn
    obtain ⟨n, rfl⟩ : ∃ k, n = k + 1 := ⟨n - 1, by omega⟩
    simp only [PT.full] at hc ⊢
    have e2 : 2 ^ (n + 1) = 2 ^ n + 2 ^ n := by rw [Nat.pow_succ]; omega
    rw [e2, map_range'_split] at hcol
    refine ⟨ihl hc.1 hf.1 (by omega) (hcol.mono ?_), ihr hc.2 hf.2 (by omega) (hcol.mono ?_)⟩ <;>
    · intro a ha
      simp only [PT.inputs, List.mem_append, List.mem_cons] at ha ⊢
      grind

theorem inputs_full_leaves [Env] {T : MerkleTree} {b : Bytes}
    (h : b ∈ (List.range' 0 (2 ^ T.depth.val)).map fun i => leafInput (T.leafAt i)) : b ∈ T.inputs := by
  rw [MerkleTree.inputs, List.mem_append]
  right
  rwa [List.range_eq_range']

/-- A structurally valid block with the commitment of a tree shows a view of the tree, unless two
different strings hashed for the two have one hash. -/
theorem view_of_commitment [Env] {b : MerkleBlock} {t : PT} {T : MerkleTree} (hs : b.Shows t)
    (hn : NoCollision (blockInputs b.depth b.cofactor t ++ T.inputs))
    (hc : commitmentHash ⟨b.depth, b.cofactor, t.root (2 ^ b.depth.val) 0⟩ = T.specCommitment) :
    b.depth = T.depth ∧ b.cofactor = T.cofactor ∧ t.View (2 ^ T.depth.val) T.pt 0 := by
  have hn1 : NoCollision (blockInputs b.depth b.cofactor t ++
      blockInputs T.depth T.cofactor T.pt) := by
    apply hn.mono
    intro a ha
    simp only [MerkleTree.inputs, List.mem_append] at ha ⊢
    grind
  obtain ⟨h1, h2, h3⟩ := PT.Compat.ofRoot
    (b2 := ⟨T.method, T.depth, T.cofactor, T.pt.frontier 0, some T.entropy⟩) hs hn1 hc
  simp only at h1 h2
  refine ⟨h1, h2, ?_⟩
  rw [h1] at h3
  have hf := hs.2
  rw [h1] at hf
  refine compat_full_view h3 hf (by omega) (hn.mono ?_)
  intro a ha
  rw [List.mem_append] at ha ⊢
  rcases ha with ha | ha
  · left
    rw [blockInputs, h1]
    exact List.mem_cons_of_mem _ ha
  · exact Or.inr (inputs_full_leaves ha)

end CSV
