import Verif.Proofs.Frontier
import Verif.Proofs.Tree

/-!
# Merkle paths: `with`, `into_merkle_proof`, `convolve`
-/

namespace CSV

/-! ## Path trees -/

theorem path_cons (p : ProtocolId) (m : Message) (pos : Nat) (h : MerkleHash) (rest : List MerkleHash) :
    PT.path p m pos (h :: rest) =
      if 2 ^ rest.length ≤ pos then .node (.hidden h) (PT.path p m (pos - 2 ^ rest.length) rest)
      else .node (PT.path p m pos rest) (.hidden h) := rfl

theorem path_fits (p : ProtocolId) (m : Message) {D : Nat} : ∀ (path : List MerkleHash) (pos d : Nat),
    d + path.length = D → (PT.path p m pos path).Fits D D d := by
  intro path
  induction path with
  | nil => intro pos d h; simpa [PT.path, PT.Fits] using h
  | cons a rest ih =>
    intro pos d h
    simp only [List.length_cons] at h
    rw [path_cons]
    split
    · exact ⟨by simp only [PT.Fits]; omega, ih _ _ (by omega)⟩
    · exact ⟨ih _ _ (by omega), by simp only [PT.Fits]; omega⟩

theorem path_known (p : ProtocolId) (m : Message) : ∀ (path : List MerkleHash) (pos : Nat),
    (PT.path p m pos path).known = [(p, m)] := by
  intro path
  induction path with
  | nil => intro pos; rfl
  | cons a rest ih =>
    intro pos
    rw [path_cons]
    split <;> simp [PT.known, ih]

theorem path_slots (p : ProtocolId) (m : Message) : ∀ (path : List MerkleHash) (pos lo : Nat),
    pos < 2 ^ path.length → (PT.path p m pos path).slots path.length lo = [(lo + pos, (p, m))] := by
  intro path
  induction path with
  | nil => intro pos lo h; simp at h; subst h; rfl
  | cons a rest ih =>
    intro pos lo h
    simp only [List.length_cons, Nat.pow_succ] at h
    rw [path_cons]
    split
    · simp only [PT.slots, List.length_cons, Nat.add_sub_cancel, List.nil_append]
      rw [ih _ _ (by omega)]
      congr 2
      omega
    · simp only [PT.slots, List.length_cons, Nat.add_sub_cancel, List.append_nil]
      rw [ih _ _ (by omega)]

theorem path_minimal (p : ProtocolId) (m : Message) : ∀ (path : List MerkleHash) (pos : Nat),
    (PT.path p m pos path).isHidden = false ∧ (PT.path p m pos path).Minimal := by
  intro path
  induction path with
  | nil => intro pos; exact ⟨rfl, trivial⟩
  | cons a rest ih =>
    intro pos
    rw [path_cons]
    split
    · exact ⟨rfl, by simp [(ih _).1], trivial, (ih _).2⟩
    · exact ⟨rfl, by simp [(ih _).1], (ih _).2, trivial⟩

theorem path_siblings [Env] (p : ProtocolId) (m : Message) {w : Nat} : ∀ (path : List MerkleHash)
    (pos d : Nat), pos < 2 ^ path.length →
    (PT.path p m pos path).siblings w d path.length pos = path := by
  intro path
  induction path with
  | nil => intro pos d h; rfl
  | cons a rest ih =>
    intro pos d h
    simp only [List.length_cons, Nat.pow_succ] at h
    rw [path_cons]
    split
    · rename_i h1
      simp only [PT.siblings, List.length_cons, Nat.add_sub_cancel, h1, if_true, PT.root]
      rw [ih _ _ (by omega)]
    · rename_i h1
      simp only [PT.siblings, List.length_cons, Nat.add_sub_cancel, h1, if_false, PT.root]
      rw [ih _ _ (by omega)]

/-! ## `MerkleBlock::with` -/

theorem u5With_ok {n : Nat} (h : n < 32) : u5With n = .ok (toU5 n) := by
  simp only [u5With, dif_pos h]
  congr 1
  apply Fin.ext
  simp [toU5_val h]

theorem withLoop_eq (p : ProtocolId) (m : Message) : ∀ (path : List MerkleHash) (d pos : Nat)
    (dir rev : List TreeNode), d + path.length < 32 →
    ∃ a b, withLoop path d pos (2 ^ path.length) dir rev = .ok (dir ++ a, rev ++ b) ∧
      a ++ [TreeNode.leaf p m] ++ b.reverse = (PT.path p m pos path).frontier d := by
  intro path
  induction path with
  | nil =>
    intro d pos dir rev h
    exact ⟨[], [], by simp [withLoop], by simp [PT.path, PT.frontier]⟩
  | cons x rest ih =>
    intro d pos dir rev h
    simp only [List.length_cons] at h
    have h1 : u5With (d % 256) = .ok (toU5 d) := by
      rw [Nat.mod_eq_of_lt (by omega), u5With_ok (by omega)]
    have h2 : u5Add (toU5 d) 1 = .ok (toU5 (d + 1)) := u5Add_toU5 (by omega)
    have h3 : 2 ^ (x :: rest).length / 2 = 2 ^ rest.length := by
      rw [List.length_cons, Nat.pow_succ]; omega
    simp only [withLoop, h1, h2, ok_bind, h3]
    rw [path_cons]
    by_cases hp : 2 ^ rest.length ≤ pos
    · rw [if_pos (show pos ≥ 2 ^ rest.length from hp), if_pos hp]
      obtain ⟨a, b, e1, e2⟩ := ih (d + 1) (pos - 2 ^ rest.length)
        (dir ++ [.concealed (toU5 (d + 1)) x]) rev (by omega)
      exact ⟨.concealed (toU5 (d + 1)) x :: a, b, by simpa using e1, by
        simp only [PT.frontier, ← e2]; simp⟩
    · rw [if_neg hp, if_neg hp]
      obtain ⟨a, b, e1, e2⟩ := ih (d + 1) pos dir (rev ++ [.concealed (toU5 (d + 1)) x]) (by omega)
      exact ⟨a, .concealed (toU5 (d + 1)) x :: b, by simpa using e1, by
        simp only [PT.frontier, ← e2]; simp⟩

theorem frontier_length {D : Nat} : ∀ {t : PT} {d : Nat}, t.Fits D D d →
    1 ≤ (t.frontier d).length ∧ (t.frontier d).length ≤ 2 ^ (D - d) := by
  intro t
  induction t with
  | hidden h => intro d _; have := Nat.two_pow_pos (D - d); simp only [PT.frontier, List.length_cons, List.length_nil]; omega
  | leaf p m => intro d _; have := Nat.two_pow_pos (D - d); simp only [PT.frontier, List.length_cons, List.length_nil]; omega
  | node l r ihl ihr =>
    intro d hf
    have h1 := ihl (d := d + 1) hf.1
    have h2 := ihr (d := d + 1) hf.2
    have hd : d + 1 ≤ D := by
      have := PT.fits_node_le (H := D) (by omega) hf
      rcases Nat.lt_or_ge d D with h | h
      · omega
      · have := fits_height hf (n := 0) (by omega); omega
    have := pow_split hd
    simp only [PT.frontier, List.length_append]
    omega

theorem nonEmptyVec_frontier {D : U5} {t : PT} (hf : t.Fits D.val D.val 0) :
    nonEmptyVec (t.frontier 0) = .ok (t.frontier 0) := by
  have h := frontier_length hf
  have hw := widthLimit_pos D
  simp only [widthLimit, Nat.sub_zero] at *
  rw [nonEmptyVec, if_pos (by omega)]

/-- `MerkleBlock::with` for a path of at most 31 hashes. -/
theorem with_eq (pr : MerkleProof) (p : ProtocolId) (m : Message) (hl : pr.path.length < 32) :
    MerkleBlock.with pr p m =
      if protocolIdPos p pr.cofactor (toU5 pr.path.length) ≠ pr.pos then
        .ok (.error ⟨p, protocolIdPos p pr.cofactor (toU5 pr.path.length), pr.pos,
          2 ^ pr.path.length⟩)
      else .ok (.ok ⟨pr.method, toU5 pr.path.length, pr.cofactor,
        (PT.path p m pr.pos.toNat pr.path).frontier 0, none⟩) := by
  have hd : pr.depth = .ok (toU5 pr.path.length) := by
    rw [MerkleProof.depth, Nat.mod_eq_of_lt (by omega), u5With_ok hl]
  have hw : pr.widthLimit = .ok (2 ^ pr.path.length) := by
    rw [MerkleProof.widthLimit, hd, ok_bind, widthLimit, toU5_val hl]
  rw [MerkleBlock.with, hw, ok_bind, hd, ok_bind]
  simp only
  split
  · rfl
  · obtain ⟨a, b, e1, e2⟩ := withLoop_eq p m pr.path 0 pr.pos.toNat [] [] (by omega)
    have hfit : (PT.path p m pr.pos.toNat pr.path).Fits (toU5 pr.path.length).val
        (toU5 pr.path.length).val 0 := by
      rw [toU5_val hl]; exact path_fits p m _ _ _ (by omega)
    simp only [List.nil_append] at e1
    rw [e1]
    simp only [ok_bind]
    rw [e2, nonEmptyVec_frontier hfit, ok_bind, Nat.mod_eq_of_lt (by omega), u5With_ok hl, ok_bind]

theorem with_shows (pr : MerkleProof) (p : ProtocolId) (m : Message) (hl : pr.path.length < 32) :
    MerkleBlock.Shows ⟨pr.method, toU5 pr.path.length, pr.cofactor,
        (PT.path p m pr.pos.toNat pr.path).frontier 0, none⟩ (PT.path p m pr.pos.toNat pr.path) :=
  ⟨rfl, by simp only [toU5_val hl]; exact path_fits p m _ _ _ (by omega)⟩

theorem protocolIdPos_lt (p : ProtocolId) (c : UInt16) (d : U5) :
    (protocolIdPos p c d).toNat = p.toNat % max (2 ^ d.val - c.toNat) 1 ∧
    (protocolIdPos p c d).toNat < 2 ^ d.val := by
  have hp := Nat.two_pow_pos d.val
  have hd : 2 ^ d.val ≤ 2 ^ 31 := Nat.pow_le_pow_right (by omega) (by have := d.isLt; omega)
  have h1 : p.toNat % max (2 ^ d.val - c.toNat) 1 < max (2 ^ d.val - c.toNat) 1 :=
    Nat.mod_lt _ (by omega)
  have h2 : p.toNat % max (2 ^ d.val - c.toNat) 1 < 2 ^ d.val := by omega
  simp only [protocolIdPos, widthLimit, UInt32.toNat_ofNat']
  rw [Nat.mod_eq_of_lt (b := 2 ^ 64) (by omega), Nat.mod_eq_of_lt (b := 2 ^ 32) (by omega)]
  exact ⟨rfl, h2⟩

theorem with_placed (pr : MerkleProof) (p : ProtocolId) (m : Message) (hl : pr.path.length < 32)
    (hpos : protocolIdPos p pr.cofactor (toU5 pr.path.length) = pr.pos) :
    MerkleBlock.Placed ⟨pr.method, toU5 pr.path.length, pr.cofactor,
        (PT.path p m pr.pos.toNat pr.path).frontier 0, none⟩ (PT.path p m pr.pos.toNat pr.path) := by
  refine ⟨with_shows pr p m hl, ?_⟩
  intro i q n h
  have hlt := (protocolIdPos_lt p pr.cofactor (toU5 pr.path.length)).2
  rw [hpos, toU5_val hl] at hlt
  simp only [toU5_val hl] at h
  rw [path_slots p m _ _ _ hlt] at h
  simp only [List.mem_cons, Prod.mk.injEq, List.not_mem_nil, or_false] at h
  obtain ⟨rfl, rfl, rfl⟩ := h
  simp [hpos]

/-- The commitment computed from a proof. -/
theorem convolve_eq [Env] (pr : MerkleProof) (p : ProtocolId) (m : Message) (hl : pr.path.length < 32) :
    pr.convolve p m =
      if protocolIdPos p pr.cofactor (toU5 pr.path.length) ≠ pr.pos then
        .ok (.error ⟨p, protocolIdPos p pr.cofactor (toU5 pr.path.length), pr.pos,
          2 ^ pr.path.length⟩)
      else .ok (.ok (commitmentHash ⟨toU5 pr.path.length, pr.cofactor,
        (PT.path p m pr.pos.toNat pr.path).root (2 ^ pr.path.length) 0⟩)) := by
  rw [MerkleProof.convolve, with_eq pr p m hl]
  split
  · rfl
  · simp only [ok_bind]
    rw [shows_commitId (with_shows pr p m hl), ok_bind]
    simp only [widthLimit, toU5_val hl]

/-! ## Concealing everything but one leaf -/

theorem known_filter_nil {t : PT} {p : ProtocolId} (h : ∀ m, (p, m) ∉ t.known) :
    t.known.filter (fun e => List.contains [p] e.1) = [] := by
  rw [List.filter_eq_nil_iff]
  rintro ⟨q, m⟩ hq
  simp only [List.contains_cons, List.contains_nil, Bool.or_false, beq_iff_eq]
  rintro rfl
  exact h m hq

theorem conceal_path [Env] {D : Nat} {p : ProtocolId} {m : Message} {w : Nat} :
    ∀ {t : PT} {d n lo pos : Nat}, t.Fits D D d → d + n = D →
    (lo + pos, (p, m)) ∈ t.slots n lo →
    (∀ i m', (i, (p, m')) ∈ t.slots n lo → i = lo + pos) →
    (t.hideLeaves (List.contains [p])).canon w d = PT.path p m pos (t.siblings w d n pos) ∧
    (t.siblings w d n pos).length = n := by
  intro t
  induction t with
  | hidden h => intro d n lo pos _ _ h; simp [PT.slots] at h
  | leaf q m' =>
    intro d n lo pos hf hn h _
    simp only [PT.slots, List.mem_cons, Prod.mk.injEq, List.not_mem_nil, or_false] at h
    simp only [PT.Fits] at hf
    obtain ⟨h1, rfl, rfl⟩ := h
    simp only [PT.hideLeaves, PT.canon, PT.siblings, List.contains_cons, beq_self_eq_true,
      Bool.true_or, if_true, PT.path, List.length_nil, true_and]
    omega
  | node l r ihl ihr =>
    intro d n lo pos hf hn h hu
    have hn1 := fits_height hf hn
    have hrl := (slots_range (Nat.le_refl D) (n := n - 1) (lo := lo) hf.1 (by omega)).1
    have hrr := (slots_range (Nat.le_refl D) (n := n - 1) (lo := lo + 2 ^ (n - 1)) hf.2 (by omega)).1
    simp only [PT.slots, List.mem_append] at h hu
    rcases h with h | h
    · -- the leaf is on the left
      have hlt := hrl _ h
      simp only at hlt
      have hr0 : ∀ m', (p, m') ∉ r.known := by
        intro m' hm'
        obtain ⟨i, hi⟩ := known_slot hm' (n - 1) (lo + 2 ^ (n - 1))
        have h1 := hu _ _ (Or.inr hi)
        have h2 := hrr _ hi
        simp only at h2
        omega
      obtain ⟨e1, e2⟩ := ihl (d := d + 1) (n := n - 1) (lo := lo) (pos := pos) hf.1 (by omega) h
        (fun i m' hi => hu i m' (Or.inl hi))
      have e3 : (r.hideLeaves (List.contains [p])).canon w (d + 1) =
          .hidden ((r.hideLeaves (List.contains [p])).root w (d + 1)) :=
        PT.canon_of_known_nil (by rw [PT.known_hideLeaves, known_filter_nil hr0])
      rw [PT.root_hideLeaves] at e3
      have hsib : (PT.node l r).siblings w d n pos =
          r.root w (d + 1) :: l.siblings w (d + 1) (n - 1) pos := by
        rw [PT.siblings, if_neg (by omega)]
      rw [hsib, path_cons, e2, if_neg (by omega)]
      refine ⟨?_, by simp [e2]; omega⟩
      rw [PT.hideLeaves, PT.canon_node, e1, e3]
      rw [e1, (path_minimal p m _ _).1]
      simp
    · -- the leaf is on the right
      have hlt := hrr _ h
      simp only at hlt
      have hl0 : ∀ m', (p, m') ∉ l.known := by
        intro m' hm'
        obtain ⟨i, hi⟩ := known_slot hm' (n - 1) lo
        have h1 := hu _ _ (Or.inl hi)
        have h2 := hrl _ hi
        simp only at h2
        omega
      have hpe : lo + pos = lo + 2 ^ (n - 1) + (pos - 2 ^ (n - 1)) := by omega
      obtain ⟨e1, e2⟩ := ihr (d := d + 1) (n := n - 1) (lo := lo + 2 ^ (n - 1))
        (pos := pos - 2 ^ (n - 1)) hf.2 (by omega) (by rw [← hpe]; exact h)
        (fun i m' hi => by rw [← hpe]; exact hu i m' (Or.inr hi))
      have e3 : (l.hideLeaves (List.contains [p])).canon w (d + 1) =
          .hidden ((l.hideLeaves (List.contains [p])).root w (d + 1)) :=
        PT.canon_of_known_nil (by rw [PT.known_hideLeaves, known_filter_nil hl0])
      rw [PT.root_hideLeaves] at e3
      have hsib : (PT.node l r).siblings w d n pos =
          l.root w (d + 1) :: r.siblings w (d + 1) (n - 1) (pos - 2 ^ (n - 1)) := by
        rw [PT.siblings, if_pos (by omega)]
      rw [hsib, path_cons, e2, if_pos (by omega)]
      refine ⟨?_, by simp [e2]; omega⟩
      rw [PT.hideLeaves, PT.canon_node, e1, e3]
      rw [e1, (path_minimal p m _ _).1]
      simp

/-! ## `into_merkle_proof` -/

theorem collectPath_append [Env] : ∀ (a b : List TreeNode) (mp : List (U5 × MerkleHash)),
    collectPath (a ++ b) mp = (collectPath a mp >>= collectPath b) := by
  intro a
  induction a with
  | nil => intro b mp; rfl
  | cons x a ih =>
    intro b mp
    cases x with
    | leaf p m => simp only [List.cons_append, collectPath, ih]
    | concealed d h => simp only [List.cons_append, collectPath, ih, bind_assoc]

/-- Entries by ascending depth. -/
def depthMap : (d : Nat) → List MerkleHash → List (U5 × MerkleHash)
  | _, [] => []
  | d, h :: rest => (toU5 d, h) :: depthMap (d + 1) rest

theorem depthMap_keys : ∀ (l : List MerkleHash) (d : Nat), d + l.length < 33 →
    ∀ e ∈ depthMap d l, d ≤ e.1.val := by
  intro l
  induction l with
  | nil => intro d _ e he; simp [depthMap] at he
  | cons x l ih =>
    intro d hd e he
    simp only [List.length_cons] at hd
    rcases List.mem_cons.mp he with rfl | h
    · simp only [toU5_val (show d < 32 by omega), Nat.le_refl]
    · have := ih (d + 1) (by omega) e h
      omega

theorem bmapInsert_mid {d : U5} {h : MerkleHash} : ∀ (m l : List (U5 × MerkleHash)),
    (∀ e ∈ m, e.1.val < d.val) → (∀ e ∈ l, d.val < e.1.val) →
    bmapInsert d h (m ++ l) = m ++ (d, h) :: l ∧ bmapGet d (m ++ l) = none := by
  intro m
  induction m with
  | nil =>
    intro l _ hl
    cases l with
    | nil => exact ⟨rfl, rfl⟩
    | cons e l =>
      obtain ⟨k, v⟩ := e
      have h1 := hl (k, v) (by simp)
      simp only at h1
      refine ⟨by simp [bmapInsert, OrdKey.key, h1], ?_⟩
      rw [bmapGet_eq_none]
      intro hm
      simp only [List.nil_append, List.mem_map] at hm
      obtain ⟨x, hx, rfl⟩ := hm
      have := hl x hx
      omega
  | cons e m ih =>
    intro l hm hl
    obtain ⟨k, v⟩ := e
    have h1 := hm (k, v) (by simp)
    simp only at h1
    obtain ⟨e1, e2⟩ := ih l (fun e he => hm e (by simp [he])) hl
    constructor
    · simp only [List.cons_append, bmapInsert, OrdKey.key]
      rw [if_neg (by omega), if_neg (by omega), e1]
    · simp only [List.cons_append, bmapGet, OrdKey.key]
      rw [if_neg (by omega), e2]

theorem collectPath_path [Env] (p : ProtocolId) (m : Message) : ∀ (path : List MerkleHash) (pos d : Nat)
    (mp : List (U5 × MerkleHash)), d + path.length < 32 → (∀ e ∈ mp, e.1.val ≤ d) →
    collectPath ((PT.path p m pos path).frontier d) mp = .ok (mp ++ depthMap (d + 1) path) := by
  intro path
  induction path with
  | nil => intro pos d mp _ _; simp [PT.path, PT.frontier, collectPath, depthMap]
  | cons x rest ih =>
    intro pos d mp hd hm
    simp only [List.length_cons] at hd
    have hv : (toU5 (d + 1)).val = d + 1 := toU5_val (by omega)
    rw [path_cons]
    split
    · simp only [PT.frontier, List.cons_append, List.nil_append, collectPath]
      obtain ⟨e1, e2⟩ := bmapInsert_mid (d := toU5 (d + 1)) (h := x) mp []
        (fun e he => by have := hm e he; omega) (by simp)
      simp only [List.append_nil] at e1 e2
      rw [e1, e2]
      simp only [Option.isNone_none, debugAssert_true, ok_bind]
      rw [ih _ (d + 1) _ (by omega)]
      · simp [depthMap]
      · intro e he
        rcases List.mem_append.mp he with h | h
        · have := hm e h; omega
        · simp only [List.mem_cons, List.not_mem_nil, or_false] at h
          rw [h]; simp only; omega
    · simp only [PT.frontier]
      rw [collectPath_append, ih _ (d + 1) _ (by omega) (fun e he => by have := hm e he; omega), ok_bind]
      obtain ⟨e1, e2⟩ := bmapInsert_mid (d := toU5 (d + 1)) (h := x) mp (depthMap (d + 1 + 1) rest)
        (fun e he => by have := hm e he; omega)
        (fun e he => by have := depthMap_keys rest (d + 1 + 1) (by omega) e he; omega)
      simp only [collectPath, e1, e2, Option.isNone_none, debugAssert_true, ok_bind]
      simp [depthMap]

theorem depthMap_snd : ∀ (l : List MerkleHash) (d : Nat), (depthMap d l).map Prod.snd = l := by
  intro l
  induction l with
  | nil => intro d; rfl
  | cons x l ih => intro d; simp [depthMap, ih]

theorem missing_one {b : MerkleBlock} {t : PT} (hb : b.Shows t) {p : ProtocolId} {m : Message}
    (h : (p, m) ∈ t.known) : missing b [p] = [] := by
  rw [missing, List.filter_eq_nil_iff]
  intro q hq
  have : q = p := by simpa using mem_bsetOfList.mp hq
  subst this
  rw [hb.1, revealed_frontier]
  simp only [List.contains_eq_mem, List.mem_map, Bool.not_eq_eq_eq_not, Bool.not_true,
    decide_eq_false_iff_not, Classical.not_not]
  exact ⟨_, h, rfl⟩

/-- The block left by `conceal_except` for one protocol of a placed block. -/
theorem concealExcept_one [Env] {b : MerkleBlock} {t : PT} (hb : b.Placed t) {p : ProtocolId} {m : Message}
    (h : (p, m) ∈ t.known) :
    let pos := (b.protocolIdPos p).toNat
    let sib := t.siblings (2 ^ b.depth.val) 0 b.depth.val pos
    sib.length = b.depth.val ∧
    ∃ n, b.concealExcept [p] =
      .ok ({ b with crossSection := (PT.path p m pos sib).frontier 0, entropy := none }, .ok n) := by
  obtain ⟨i, hi⟩ := known_slot h b.depth.val 0
  have hpos := hb.2 _ _ _ hi
  have := conceal_path (p := p) (m := m) (w := 2 ^ b.depth.val) (n := b.depth.val) (lo := 0) (pos := i)
    hb.1.2 (by omega)
    (by simpa using hi)
    (fun j m' hj => by rw [hb.2 _ _ _ hj, hpos]; omega)
  obtain ⟨n, e1, _⟩ := concealExcept_shows hb.1 (missing_one hb.1 h)
  simp only [MerkleBlock.protocolIdPos, ← hpos]
  refine ⟨this.2, n, ?_⟩
  rw [e1, ← this.1]
  rfl

/-- The proof extracted from a placed block. -/
theorem toMerkleProof_eq [Env] {b : MerkleBlock} {t : PT} (hb : b.Placed t) {p : ProtocolId} {m : Message}
    (h : (p, m) ∈ t.known) :
    b.toMerkleProof p = .ok (.ok ⟨b.method, b.protocolIdPos p, b.cofactor,
      t.siblings (2 ^ b.depth.val) 0 b.depth.val (b.protocolIdPos p).toNat⟩) := by
  obtain ⟨hl, n, e⟩ := concealExcept_one hb h
  have hD := b.depth.isLt
  rw [MerkleBlock.toMerkleProof, MerkleBlock.concealOther, e]
  simp only [ok_bind, Except.map]
  rw [collectPath_path p m _ _ _ _ (by omega) (by simp), ok_bind]
  have hlen : (depthMap (0 + 1) (t.siblings (2 ^ b.depth.val) 0 b.depth.val
      (b.protocolIdPos p).toNat)).length = b.depth.val := by
    have := congrArg List.length (depthMap_snd (t.siblings (2 ^ b.depth.val) 0 b.depth.val
      (b.protocolIdPos p).toNat) (0 + 1))
    rw [List.length_map] at this
    omega
  rw [debugAssert_ok (by simp only [List.nil_append, hlen, decide_true]), ok_bind]
  simp only [List.nil_append, depthMap_snd]
  rw [if_pos (by omega)]
  rfl

/-- Requesting a proof of a protocol that is not revealed. -/
theorem toMerkleProof_err [Env] {b : MerkleBlock} {t : PT} (hb : b.Shows t) {p : ProtocolId}
    (h : ∀ m, (p, m) ∉ t.known) : b.toMerkleProof p = .ok (.error ⟨p⟩) := by
  have hm : missing b [p] = [p] := by
    have h1 : bsetOfList [p] = [p] := rfl
    rw [missing, h1, List.filter_cons_of_pos, List.filter_nil]
    rw [hb.1, revealed_frontier]
    simp only [List.contains_eq_mem, List.mem_map, Bool.not_eq_eq_eq_not, Bool.not_true,
      decide_eq_false_iff_not]
    rintro ⟨⟨q, m⟩, h2, h3⟩
    simp only at h3
    subst h3
    exact h m h2
  rw [MerkleBlock.toMerkleProof, MerkleBlock.concealOther, concealExcept_err hb hm]
  rfl

end CSV
