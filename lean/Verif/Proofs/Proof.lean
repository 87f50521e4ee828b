import Verif.Proofs.Canon
import Verif.Proofs.Merge

/-!
# Lemmas: proofs
-/

namespace CSV

/-- The root along the path to a revealed leaf is the root of the tree. -/
theorem path_root [Env] {t : PT} {D w pos : Nat} {p : ProtocolId} {m : Message}
    (hf : t.Fits D D 0) (hi : (pos, (p, m)) ∈ t.slots D 0)
    (hu : ∀ i m', (i, (p, m')) ∈ t.slots D 0 → i = pos) :
    (PT.path p m pos (t.siblings w 0 D pos)).root w 0 = t.root w 0 := by
  have := conceal_path (p := p) (m := m) (w := w) (n := D) (lo := 0) (pos := pos) hf (by omega)
    (by simpa using hi) (fun i m' h => by have := hu i m' h; omega)
  rw [← this.1, PT.root_canon, PT.root_hideLeaves]

theorem placed_path [Env] {b : MerkleBlock} {t : PT} (hb : b.Placed t) {p : ProtocolId} {m : Message}
    (h : (p, m) ∈ t.known) :
    ((b.protocolIdPos p).toNat, (p, m)) ∈ t.slots b.depth.val 0 ∧
    (PT.path p m (b.protocolIdPos p).toNat
      (t.siblings (2 ^ b.depth.val) 0 b.depth.val (b.protocolIdPos p).toNat)).root (2 ^ b.depth.val) 0
      = t.root (2 ^ b.depth.val) 0 := by
  obtain ⟨i, hi⟩ := known_slot h b.depth.val 0
  have hpos := hb.2 _ _ _ hi
  rw [show (protocolIdPos p b.cofactor b.depth) = b.protocolIdPos p from rfl] at hpos
  rw [hpos] at hi
  exact ⟨hi, path_root hb.1.2 hi fun j m' hj => hb.2 _ _ _ hj⟩

/-- Two compatible paths to one slot are equal. -/
theorem path_compat [Env] {w : Nat} {p : ProtocolId} {m1 m2 : Message} :
    ∀ {l1 l2 : List MerkleHash} {pos d : Nat}, l1.length = l2.length →
    (PT.path p m1 pos l1).Compat w (PT.path p m2 pos l2) d → l1 = l2 ∧ m1 = m2 := by
  intro l1
  induction l1 with
  | nil =>
    intro l2 pos d hl h
    cases l2 with
    | nil => simp only [PT.path, PT.Compat] at h; exact ⟨rfl, h.2⟩
    | cons _ _ => simp at hl
  | cons h1 l1 ih =>
    intro l2 pos d hl h
    cases l2 with
    | nil => simp at hl
    | cons h2 l2 =>
      have hl' : l1.length = l2.length := by simpa using hl
      rw [path_cons, path_cons, ← hl'] at h
      by_cases hp : 2 ^ l1.length ≤ pos
      · rw [if_pos hp, if_pos hp] at h
        simp only [PT.Compat, PT.root] at h
        obtain ⟨h3, h4⟩ := ih hl' h.2
        rw [h3, h4, h.1]
        exact ⟨rfl, rfl⟩
      · rw [if_neg hp, if_neg hp] at h
        simp only [PT.Compat, PT.root] at h
        obtain ⟨h3, h4⟩ := ih hl' h.1
        rw [h3, h4, h.2]
        exact ⟨rfl, rfl⟩

theorem compat_view_join [Env] {w : Nat} : ∀ {t1 t2 : PT} {d : Nat}, t1.Compat w t2 d →
    t1.View w (t1.join t2) d := by
  intro t1
  induction t1 with
  | hidden h => intro t2 d hc; simp only [PT.Compat] at hc; simpa only [PT.join, PT.View] using hc
  | leaf p m => intro t2 d hc; cases t2 <;> simp only [PT.join, PT.View]
  | node l r ihl ihr =>
    intro t2 d hc
    cases t2 with
    | hidden h => exact view_refl
    | leaf q n => simp only [PT.Compat] at hc
    | node l2 r2 =>
      simp only [PT.Compat] at hc
      exact ⟨ihl hc.1, ihr hc.2⟩

theorem compat_view_join' [Env] {w : Nat} {t1 t2 : PT} {d : Nat} (h : t1.Compat w t2 d) :
    t2.View w (t1.join t2) d := by
  rw [join_comm h]
  exact compat_view_join (compat_symm h)

/-- Compatible trees have the same siblings along a path revealed by both. -/
theorem compat_siblings [Env] {w D : Nat} {e1 e2 : ProtocolId × Message} {t1 t2 : PT} {pos : Nat}
    (hc : t1.Compat w t2 0) (hf1 : t1.Fits D D 0) (hf2 : t2.Fits D D 0)
    (h1 : (pos, e1) ∈ t1.slots D 0) (h2 : (pos, e2) ∈ t2.slots D 0) :
    t1.siblings w 0 D pos = t2.siblings w 0 D pos := by
  have a1 := view_siblings (e := e1) (n := D) (lo := 0) (pos := pos) (compat_view_join hc) hf1
    (by omega) (by simpa using h1)
  have a2 := view_siblings (e := e2) (n := D) (lo := 0) (pos := pos) (compat_view_join' hc) hf2
    (by omega) (by simpa using h2)
  rw [a1, a2]

/-- A proof with 32 path elements makes the verifier panic. -/
theorem with_panic (pr : MerkleProof) (p : ProtocolId) (m : Message) (hl : pr.path.length = 32) :
    MerkleBlock.with pr p m = .error .overflow := by
  have : pr.widthLimit = .error .overflow := by
    rw [MerkleProof.widthLimit, MerkleProof.depth, hl]; rfl
  rw [MerkleBlock.with, this]
  rfl

theorem convolve_panic [Env] (pr : MerkleProof) (p : ProtocolId) (m : Message)
    (hl : pr.path.length = 32) : pr.convolve p m = .error .overflow := by
  rw [MerkleProof.convolve, with_panic pr p m hl]
  rfl

theorem convolve_short [Env] {pr : MerkleProof} {p : ProtocolId} {m : Message}
    {r : Except InvalidProof Commitment} (hl : pr.path.length ≤ 32) (h : pr.convolve p m = .ok r) :
    pr.path.length < 32 := by
  rcases Nat.lt_or_ge pr.path.length 32 with h1 | h1
  · exact h1
  · rw [convolve_panic pr p m (by omega)] at h
    cases h

/-- What a successful verification means. -/
theorem convolve_ok [Env] {pr : MerkleProof} {p : ProtocolId} {m : Message} {c : Commitment}
    (hl : pr.path.length ≤ 32) (h : pr.convolve p m = .ok (.ok c)) :
    pr.path.length < 32 ∧ protocolIdPos p pr.cofactor (toU5 pr.path.length) = pr.pos ∧
    c = commitmentHash ⟨toU5 pr.path.length, pr.cofactor,
        (PT.path p m pr.pos.toNat pr.path).root (2 ^ pr.path.length) 0⟩ := by
  have hlt := convolve_short hl h
  rw [convolve_eq pr p m hlt] at h
  by_cases hp : protocolIdPos p pr.cofactor (toU5 pr.path.length) = pr.pos
  · rw [if_neg (by simpa using hp)] at h
    cases h
    exact ⟨hlt, hp, rfl⟩
  · rw [if_pos (by simpa using hp)] at h
    cases h

end CSV
