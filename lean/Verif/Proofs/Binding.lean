import Verif.Spec.Merge
import Verif.Proofs.Path

/-!
# Hash binding
-/

namespace CSV

/-! ## Injectivity of the hashed strings -/

theorem encBytes32_length (b : Bytes32) : (encBytes32 b).length = 32 := b.len

theorem encBytes32_inj {a b : Bytes32} (h : encBytes32 a = encBytes32 b) : a = b := Bytes32.ext' h

theorem encU16_inj {a b : UInt16} (h : encU16 a = encU16 b) : a = b := by
  have := leBytes_inj (by have := a.toNat_lt; simpa using this) (by have := b.toNat_lt; simpa using this) h
  exact UInt16.toNat_inj.mp this

theorem encU32_inj {a b : UInt32} (h : encU32 a = encU32 b) : a = b := by
  have := leBytes_inj (by have := a.toNat_lt; simpa using this) (by have := b.toNat_lt; simpa using this) h
  exact UInt32.toNat_inj.mp this

theorem encU64_inj {a b : UInt64} (h : encU64 a = encU64 b) : a = b := by
  have := leBytes_inj (by have := a.toNat_lt; simpa using this) (by have := b.toNat_lt; simpa using this) h
  exact UInt64.toNat_inj.mp this

theorem encU256_inj {a b : BitVec 256} (h : encU256 a = encU256 b) : a = b := by
  have := leBytes_inj (by have := a.isLt; simpa using this) (by have := b.isLt; simpa using this) h
  exact BitVec.eq_of_toNat_eq this

theorem encU5_inj {a b : U5} (h : encU5 a = encU5 b) : a = b := by
  simp only [encU5, List.cons.injEq, and_true] at h
  have := congrArg UInt8.toNat h
  simp only [UInt8.toNat_ofNat'] at this
  have := a.isLt
  have := b.isLt
  apply Fin.ext
  omega

theorem append_inj_len {a b c d : Bytes} (hl : a.length = c.length) (h : a ++ b = c ++ d) :
    a = c ∧ b = d := List.append_inj h hl

theorem Leaf.enc_inj {a b : Leaf} (h : a.enc = b.enc) : a = b := by
  cases a with
  | inhabited p m =>
    cases b with
    | inhabited q n =>
      simp only [Leaf.enc, List.cons.injEq, true_and] at h
      obtain ⟨h1, h2⟩ := append_inj_len (by rw [encBytes32_length, encBytes32_length]) h
      rw [encBytes32_inj h1, encBytes32_inj h2]
    | entropy e i => simp [Leaf.enc] at h
  | entropy e i =>
    cases b with
    | inhabited q n => simp [Leaf.enc] at h
    | entropy e' i' =>
      simp only [Leaf.enc, List.cons.injEq, true_and] at h
      obtain ⟨h1, h2⟩ := append_inj_len (by simp [encU64, leBytes_length]) h
      rw [encU64_inj h1, encU32_inj h2]

theorem NodeBranching.toU8_inj {a b : NodeBranching} (h : a.toU8 = b.toU8) : a = b := by
  cases a <;> cases b <;> simp [NodeBranching.toU8] at h ⊢

theorem MerkleNode.enc_inj {a b : MerkleNode} (h : a.enc = b.enc) : a = b := by
  obtain ⟨a1, a2, a3, a4, a5⟩ := a
  obtain ⟨b1, b2, b3, b4, b5⟩ := b
  simp only [MerkleNode.enc] at h
  obtain ⟨h, h5⟩ := append_inj_len (by simp [encU8, encU256, encBytes32, leBytes_length, Bytes32.len]) h
  obtain ⟨h, h4⟩ := append_inj_len (by simp [encU8, encU256, leBytes_length]) h
  obtain ⟨h, h3⟩ := append_inj_len (by simp [encU8]) h
  obtain ⟨h1, h2⟩ := append_inj_len (by simp [encU8]) h
  simp only [encU8, List.cons.injEq, and_true] at h1 h2
  rw [NodeBranching.toU8_inj h1, h2, encU256_inj h3, encBytes32_inj h4, encBytes32_inj h5]

theorem MerkleConcealed.enc_inj {a b : MerkleConcealed} (h : a.enc = b.enc) : a = b := by
  obtain ⟨a1, a2, a3⟩ := a
  obtain ⟨b1, b2, b3⟩ := b
  simp only [MerkleConcealed.enc] at h
  obtain ⟨h, h3⟩ := append_inj_len (by simp [encU5, encU16, leBytes_length]) h
  obtain ⟨h1, h2⟩ := append_inj_len (by simp [encU5]) h
  rw [encU5_inj h1, encU16_inj h2, encBytes32_inj h3]

theorem taggedInput_length [Env] (tag : String) (data : Bytes) :
    (taggedInput tag data).length = 64 + data.length := by
  simp [taggedInput, Bytes32.len]; omega

theorem taggedInput_inj [Env] {tag tag' : String} {a b : Bytes}
    (h : taggedInput tag a = taggedInput tag' b) : sha (utf8 tag) = sha (utf8 tag') ∧ a = b := by
  simp only [taggedInput] at h
  obtain ⟨h1, h2⟩ := append_inj_len (by simp [Bytes32.len]) h
  obtain ⟨h3, _⟩ := append_inj_len (by simp [Bytes32.len]) h1
  exact ⟨Bytes32.ext' h3, h2⟩

theorem leafInput_inj [Env] {a b : Leaf} (h : leafInput a = leafInput b) : a = b :=
  Leaf.enc_inj (taggedInput_inj h).2

theorem branchInput_inj [Env] {d d' w w' : Nat} {a b a' b' : MerkleHash}
    (hd : d < 256) (hd' : d' < 256) (hw : w < 2 ^ 256) (hw' : w' < 2 ^ 256)
    (h : branchInput d w a b = branchInput d' w' a' b') : d = d' ∧ w = w' ∧ a = a' ∧ b = b' := by
  have := MerkleNode.enc_inj (taggedInput_inj h).2
  simp only [MerkleNode.mk.injEq, true_and] at this
  obtain ⟨h1, h2, h3, h4⟩ := this
  have h1 := congrArg UInt8.toNat h1
  have h2 := congrArg BitVec.toNat h2
  simp only [UInt8.toNat_ofNat', BitVec.toNat_ofNat] at h1 h2
  rw [Nat.mod_eq_of_lt hw, Nat.mod_eq_of_lt hw'] at h2
  exact ⟨by omega, h2, h3, h4⟩

theorem commitmentInput_inj [Env] {a b : MerkleConcealed} (h : commitmentInput a = commitmentInput b) :
    a = b := MerkleConcealed.enc_inj (taggedInput_inj h).2

theorem leafInput_ne_branchInput [Env] (l : Leaf) (d w : Nat) (a b : MerkleHash) :
    leafInput l ≠ branchInput d w a b := by
  intro h
  have h1 := congrArg List.length h
  rw [leafInput, branchInput, taggedInput_length, taggedInput_length, MerkleNode.enc_length] at h1
  have := l.enc_length_le
  omega

/-! ## Binding -/

theorem NoCollision.mono [Env] {l l' : List Bytes} (h : NoCollision l) (hs : ∀ a ∈ l', a ∈ l) :
    NoCollision l' :=
  fun a ha b hb => h a (hs a ha) b (hs b hb)

/-- Partial trees with one root are views of one tree, unless there is a collision; also if they
reach below the leaves. -/
theorem compat_of_root' [Env] {w H D : Nat} (hw : w < 2 ^ 256) (hD : D < 256) (hH : H ≤ D + 1) :
    ∀ {t1 t2 : PT} {d : Nat}, t1.Fits H D d →
    NoCollision (t1.inputs w d ++ t2.inputs w d) → t1.root w d = t2.root w d →
    t1.Compat w t2 d := by
  intro t1
  induction t1 with
  | hidden h => intro t2 d _ _ hr; simp only [PT.Compat]; exact hr.symm
  | leaf p m =>
    intro t2 d _ hn hr
    cases t2 with
    | hidden h => simp only [PT.Compat]; exact hr
    | leaf q n =>
      have := hn (leafInput (.inhabited p m)) (by simp [PT.inputs])
        (leafInput (.inhabited q n)) (by simp [PT.inputs]) hr
      have := leafInput_inj this
      simpa [PT.Compat] using this
    | node l r =>
      have := hn (leafInput (.inhabited p m)) (by simp [PT.inputs])
        (branchInput d w (l.root w (d + 1)) (r.root w (d + 1))) (by simp [PT.inputs]) hr
      exact absurd this (leafInput_ne_branchInput _ _ _ _ _)
  | node l r ihl ihr =>
    intro t2 d hf hn hr
    have hd : d < 256 := by have := PT.fits_node_le hH hf; omega
    cases t2 with
    | hidden h => simp only [PT.Compat]; exact hr
    | leaf q n =>
      have := hn (leafInput (.inhabited q n)) (by simp [PT.inputs])
        (branchInput d w (l.root w (d + 1)) (r.root w (d + 1))) (by simp [PT.inputs]) hr.symm
      exact absurd this (leafInput_ne_branchInput _ _ _ _ _)
    | node l2 r2 =>
      have := hn (branchInput d w (l.root w (d + 1)) (r.root w (d + 1))) (by simp [PT.inputs])
        (branchInput d w (l2.root w (d + 1)) (r2.root w (d + 1))) (by simp [PT.inputs]) hr
      obtain ⟨_, _, h1, h2⟩ := branchInput_inj hd hd hw hw this
      simp only [PT.Compat]
      refine ⟨ihl hf.1 (hn.mono ?_) h1, ihr hf.2 (hn.mono ?_) h2⟩ <;>
        · intro a ha
          simp only [PT.inputs, List.mem_append, List.mem_cons] at ha ⊢
          grind

/-- Partial trees with one root are views of one tree, unless there is a collision. -/
theorem compat_of_root [Env] {w D : Nat} (hw : w < 2 ^ 256) (hD : D < 256) {t1 t2 : PT} {d : Nat}
    (hf : t1.Fits D D d) (hn : NoCollision (t1.inputs w d ++ t2.inputs w d))
    (hr : t1.root w d = t2.root w d) : t1.Compat w t2 d :=
  compat_of_root' hw hD (Nat.le_succ D) hf hn hr

/-- The union of two views has the common root. -/
theorem join_root [Env] {w : Nat} : ∀ {t1 t2 : PT} {d : Nat}, t1.Compat w t2 d →
    (t1.join t2).root w d = t1.root w d ∧ (t1.join t2).root w d = t2.root w d := by
  intro t1
  induction t1 with
  | hidden h => intro t2 d hc; simp only [PT.Compat] at hc; simp [PT.join, PT.root, hc]
  | leaf p m =>
    intro t2 d hc
    cases t2 with
    | hidden h => simp only [PT.Compat] at hc; simp only [PT.join, true_and]; rw [hc]; rfl
    | leaf q n => simp only [PT.Compat] at hc; simp [PT.join, hc]
    | node l r => simp [PT.Compat] at hc
  | node l r ihl ihr =>
    intro t2 d hc
    cases t2 with
    | hidden h => simp only [PT.Compat] at hc; simp only [PT.join, true_and]; rw [hc]; rfl
    | leaf q n => simp [PT.Compat] at hc
    | node l2 r2 =>
      simp only [PT.Compat] at hc
      simp only [PT.join, PT.root]
      exact ⟨by rw [(ihl hc.1).1, (ihr hc.2).1], by rw [(ihl hc.1).2, (ihr hc.2).2]⟩

theorem join_fits [Env] {H D w : Nat} : ∀ {t1 t2 : PT} {d : Nat}, t1.Compat w t2 d →
    t1.Fits H D d → t2.Fits H D d → (t1.join t2).Fits H D d := by
  intro t1
  induction t1 with
  | hidden h => intro t2 d _ _ h2; simpa [PT.join] using h2
  | leaf p m =>
    intro t2 d hc h1 h2
    cases t2 with
    | hidden h => exact h1
    | leaf q n => exact h1
    | node l r => simp [PT.Compat] at hc
  | node l r ihl ihr =>
    intro t2 d hc h1 h2
    cases t2 with
    | hidden h => exact h1
    | leaf q n => simp [PT.Compat] at hc
    | node l2 r2 =>
      simp only [PT.Compat] at hc
      exact ⟨ihl hc.1 h1.1 h2.1, ihr hc.2 h1.2 h2.2⟩

/-- A revealed leaf of the union is revealed, at the same slot, by one of the views. -/
theorem join_slots [Env] {w : Nat} {e : Nat × (ProtocolId × Message)} : ∀ {t1 t2 : PT} {d n lo : Nat},
    t1.Compat w t2 d →
    (e ∈ (t1.join t2).slots n lo ↔ e ∈ t1.slots n lo ∨ e ∈ t2.slots n lo) := by
  intro t1
  induction t1 with
  | hidden h => intro t2 d n lo _; simp [PT.join, PT.slots]
  | leaf p m =>
    intro t2 d n lo hc
    cases t2 with
    | hidden h => simp [PT.join, PT.slots]
    | leaf q n => simp only [PT.Compat] at hc; simp [PT.join, PT.slots, hc]
    | node l r => simp [PT.Compat] at hc
  | node l r ihl ihr =>
    intro t2 d n lo hc
    cases t2 with
    | hidden h => simp [PT.join, PT.slots]
    | leaf q n => simp [PT.Compat] at hc
    | node l2 r2 =>
      simp only [PT.Compat] at hc
      simp only [PT.join, PT.slots, List.mem_append, ihl hc.1, ihr hc.2]
      grind

end CSV
