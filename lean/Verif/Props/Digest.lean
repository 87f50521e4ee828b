import Verif.Model.Digest
import Verif.Props.Engine

/-!
# Tagged hashing with any hash function (C65)
-/

namespace CSV

/-- The strings of the list have different digests. -/
def DigestFn.NoCollision {n : Nat} (D : DigestFn n) (l : List Bytes) : Prop :=
  ∀ a ∈ l, ∀ b ∈ l, D.hash a = D.hash b → a = b

/-- The trait methods at `Sha256` are the ones used in the commitment engine. -/
theorem C65_sha256 [Env] (tag data : Bytes) :
    shaDigest.fromTag tag = Hasher.fromTag tag ∧ shaDigest.finish data = (Hasher.finish data).bytes :=
  ⟨rfl, rfl⟩

private theorem inputPieces_eq : ∀ (ds : List Bytes) (h : Hasher), h.inputPieces ds = h ++ ds.flatten
  | [], h => by simp [Hasher.inputPieces]
  | d :: ds, h => by simp [Hasher.inputPieces, Hasher.inputRaw, inputPieces_eq ds]

/-- **C65** The digest of a tagged hasher is the hash of twice the hash of the tag followed by all data
fed, however they are cut into pieces. -/
theorem C65_tagged {n : Nat} (D : DigestFn n) (tag : Bytes) (ds : List Bytes) :
    D.finish ((D.fromTag tag).inputPieces ds) = D.hash (D.hash tag ++ D.hash tag ++ ds.flatten) := by
  rw [inputPieces_eq]
  rfl

/-- **C65** Equal digests under two tags mean equal tags and equal data, unless the hash function collides
on the tags or on the strings hashed. -/
theorem C65_separated {n : Nat} (D : DigestFn n) (tag tag' : Bytes) (ds ds' : List Bytes)
    (hn : D.NoCollision [tag, tag', D.hash tag ++ D.hash tag ++ ds.flatten,
      D.hash tag' ++ D.hash tag' ++ ds'.flatten])
    (h : D.finish ((D.fromTag tag).inputPieces ds) = D.finish ((D.fromTag tag').inputPieces ds')) :
    tag = tag' ∧ ds.flatten = ds'.flatten := by
  rw [C65_tagged, C65_tagged] at h
  have e := hn _ (by simp) _ (by simp) h
  rw [List.append_assoc, List.append_assoc] at e
  obtain ⟨e1, e2⟩ := append_inj_len (by rw [D.len, D.len]) e
  obtain ⟨-, e3⟩ := append_inj_len (by rw [D.len, D.len]) e2
  exact ⟨hn _ (by simp) _ (by simp) e1, e3⟩

/-- Feeding data within their limits always succeeds. -/
private theorem inputFields_ok : ∀ (fs : List (Nat × Bytes)),
    (∀ f ∈ fs, f.1 ≤ 0xFFFFFFFF ∧ f.2.length ≤ f.1) → ∃ data : Bytes, ∀ h' : Hasher,
      h'.inputFields fs = .ok (h' ++ data)
  | [], _ => ⟨[], fun h' => by simp [Hasher.inputFields]⟩
  | (max, d) :: fs, hf => by
    obtain ⟨hm, hd⟩ := hf _ (List.mem_cons_self ..)
    obtain ⟨data, ih⟩ := inputFields_ok fs (fun f hf' => hf f (List.mem_cons_of_mem _ hf'))
    have : ∃ pre : Bytes, ∀ h' : Hasher, Hasher.inputWithLen max h' d = .ok (h' ++ pre) := by
      simp only [Hasher.inputWithLen, Hasher.inputRaw, List.append_assoc]
      dsimp only at hm hd
      by_cases h1 : max ≤ 0xFF
      · exact ⟨_, fun h' => by rw [if_pos h1]⟩
      · by_cases h2 : max ≤ 0xFFFF
        · exact ⟨_, fun h' => by rw [if_neg h1, if_pos h2]⟩
        · by_cases h3 : max ≤ 0xFFFFFF
          · exact ⟨_, fun h' => by rw [if_neg h1, if_neg h2, if_pos h3, if_pos (by omega)]⟩
          · exact ⟨_, fun h' => by rw [if_neg h1, if_neg h2, if_neg h3, if_pos hm]⟩
    obtain ⟨pre, hpre⟩ := this
    refine ⟨pre ++ data, fun h' => ?_⟩
    simp only [Hasher.inputFields, hpre, ok_bind, ih, List.append_assoc]

private theorem inputFields_inj : ∀ (fs gs : List (Nat × Bytes)) (h h1 h2 : Hasher),
    fs.map (·.1) = gs.map (·.1) →
    (∀ f ∈ fs, f.1 ≤ 0xFFFFFFFF ∧ f.2.length ≤ f.1) → (∀ f ∈ gs, f.1 ≤ 0xFFFFFFFF ∧ f.2.length ≤ f.1) →
    h.inputFields fs = .ok h1 → h.inputFields gs = .ok h2 → ∀ r1 r2 : Bytes, h1 ++ r1 = h2 ++ r2 → fs = gs ∧ r1 = r2
  | [], [], h, h1, h2, _, _, _, e1, e2, r1, r2, e => by
    cases e1; cases e2
    exact ⟨rfl, List.append_cancel_left e⟩
  | [], _ :: _, _, _, _, hl, _, _, _, _, _, _, _ => by simp at hl
  | _ :: _, [], _, _, _, hl, _, _, _, _, _, _, _ => by simp at hl
  | (max, d) :: fs, (max', d') :: gs, h, h1, h2, hl, hf, hg, e1, e2, r1, r2, e => by
    simp only [List.map_cons, List.cons.injEq] at hl
    obtain ⟨rfl, hl⟩ := hl
    obtain ⟨hm, hd⟩ := hf _ (List.mem_cons_self ..)
    obtain ⟨-, hd'⟩ := hg _ (List.mem_cons_self ..)
    have hf' := fun f hf' => hf f (List.mem_cons_of_mem _ hf')
    have hg' := fun f hf' => hg f (List.mem_cons_of_mem _ hf')
    obtain ⟨da, ia⟩ := inputFields_ok fs hf'
    obtain ⟨db, ib⟩ := inputFields_ok gs hg'
    obtain ⟨k1, k2, w1, w2, hk⟩ := C37_unambiguous max hm h d d' (da ++ r1) (db ++ r2) hd hd'
    simp only [Hasher.inputFields, w1, w2, ok_bind, ia, ib, Except.ok.injEq] at e1 e2
    subst e1 e2
    rw [List.append_assoc, List.append_assoc] at e
    obtain ⟨rfl, hr⟩ := hk e
    rw [w1] at w2
    cases w2
    obtain ⟨rfl, hr⟩ := inputFields_inj fs gs k1 _ _ hl hf' hg' (ia k1) (ib k1) r1 r2
      (by rw [List.append_assoc, List.append_assoc, hr])
    exact ⟨rfl, hr⟩

/-- **C65** Feeding fields with their lengths, each within its limit, never panics; and two sequences of
fields with the same limits have the same digest, under any two tags, only if tags and all fields are
equal, unless the hash function collides. -/
theorem C65_fields {n : Nat} (D : DigestFn n) (tag tag' : Bytes) (fs gs : List (Nat × Bytes))
    (hl : fs.map (·.1) = gs.map (·.1))
    (hf : ∀ f ∈ fs, f.1 ≤ 0xFFFFFFFF ∧ f.2.length ≤ f.1)
    (hg : ∀ f ∈ gs, f.1 ≤ 0xFFFFFFFF ∧ f.2.length ≤ f.1) :
    ∃ h1 h2, (D.fromTag tag).inputFields fs = .ok h1 ∧ (D.fromTag tag').inputFields gs = .ok h2 ∧
      (D.NoCollision [tag, tag', h1, h2] → D.finish h1 = D.finish h2 → tag = tag' ∧ fs = gs) := by
  obtain ⟨da, ia⟩ := inputFields_ok fs hf
  obtain ⟨db, ib⟩ := inputFields_ok gs hg
  refine ⟨_, _, ia _, ib _, fun hn h => ?_⟩
  have e := hn _ (by simp) _ (by simp) h
  have e' := e
  simp only [DigestFn.fromTag, List.nil_append, List.append_assoc] at e'
  obtain ⟨e1, -⟩ := append_inj_len (by rw [D.len, D.len]) e'
  have ht := hn _ (by simp) _ (by simp) e1
  subst ht
  have := inputFields_inj fs gs (D.fromTag tag) _ _ hl hf hg (ia _) (ib _) [] [] (by rw [e])
  exact ⟨rfl, this.1⟩

/-- Non-vacuity: with SHA256, two fields cut differently are told apart though the data are the same
bytes. -/
example : (@shaDigest (realEnv true)).NoCollision
    [[1], [1], (@shaDigest (realEnv true)).fromTag [1] ++ [1, 7, 2, 8, 9],
      (@shaDigest (realEnv true)).fromTag [1] ++ [2, 7, 8, 1, 9]] := by
  unfold DigestFn.NoCollision
  decide +kernel

example : Hasher.inputFields [] [(255, [7]), (255, [8, 9])] = .ok [1, 7, 2, 8, 9] ∧
    Hasher.inputFields [] [(255, [7, 8]), (255, [9])] = .ok [2, 7, 8, 1, 9] := ⟨rfl, rfl⟩

end CSV
