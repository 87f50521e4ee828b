import Verif.Spec.Codec
import Verif.Spec.Calls

/-! # Decoders -/

namespace CSV

theorem bind_some {α β : Type} (d : Decoder α) (k : α → Decoder β) (bs : Bytes) (b : β) (r : Bytes) :
    d.bind k bs = some (b, r) ↔ ∃ a r1, d bs = some (a, r1) ∧ k a r1 = some (b, r) := by
  rw [Decoder.bind]
  cases h : d bs with
  | none => simp
  | some x => obtain ⟨a, r1⟩ := x; simp [and_assoc]

theorem pure_some {α : Type} (a b : α) (bs r : Bytes) :
    Decoder.pure a bs = some (b, r) ↔ a = b ∧ bs = r := by
  simp [Decoder.pure]

theorem fail_some {α : Type} (b : α) (bs r : Bytes) : Decoder.fail bs = some (b, r) ↔ False := by
  simp [Decoder.fail]

/-- Exactness follows from the equation on accepted values. -/
theorem Exact.map {α β : Type} {enc : α → Bytes} {dec : Decoder α} {P : α → Prop} (h : Exact enc dec P)
    (f : α → β) (g : β → α) (Q : β → Prop) (h1 : ∀ a, P a → Q (f a) ∧ g (f a) = a)
    (h2 : ∀ b, Q b → P (g b) ∧ f (g b) = b) :
    Exact (fun b => enc (g b)) (dec.bind fun a => .pure (f a)) Q := by
  intro bs b r
  simp only [bind_some, pure_some, h _ _ _]
  constructor
  · rintro ⟨a, r1, ⟨hp, rfl⟩, rfl, rfl⟩
    exact ⟨(h1 a hp).1, by rw [(h1 a hp).2]⟩
  · rintro ⟨hq, rfl⟩
    exact ⟨g b, r, ⟨(h2 b hq).1, rfl⟩, (h2 b hq).2, rfl⟩

theorem decBytes_exact (n : Nat) : Exact id (decBytes n) (fun bs => bs.length = n) := by
  intro bs a r
  simp only [decBytes]
  constructor
  · intro h
    split at h
    · cases h
    · cases h
      rename_i hn
      exact ⟨by rw [List.length_take]; omega, (List.take_append_drop _ _).symm⟩
  · rintro ⟨rfl, rfl⟩
    simp

theorem decLe_exact (n : Nat) : Exact (fun k => leBytes k n) (decLe n) (fun k => k < 256 ^ n) := by
  intro bs a r
  simp only [decLe, bind_some, pure_some, decBytes_exact n _ _ _]
  constructor
  · rintro ⟨b, r1, ⟨hb, rfl⟩, rfl, rfl⟩
    refine ⟨hb ▸ leNat_lt b, ?_⟩
    rw [← hb, leBytes_leNat]
    rfl
  · rintro ⟨ha, rfl⟩
    refine ⟨leBytes a n, r, ⟨leBytes_length _ _, rfl⟩, ?_, rfl⟩
    rw [leNat_leBytes, Nat.mod_eq_of_lt ha]

theorem Exact.congr {α : Type} {enc enc' : α → Bytes} {dec : Decoder α} {P Q : α → Prop}
    (h : Exact enc dec P) (he : ∀ a, enc a = enc' a) (hp : ∀ a, P a ↔ Q a) : Exact enc' dec Q := by
  intro bs a r
  rw [h bs a r, he a, hp a]

theorem leBytes_one (n : UInt8) : leBytes n.toNat 1 = [n] := by
  have := n.toNat_lt
  simp [leBytes]

theorem decU8_exact : Exact encU8 decU8 fun _ => True :=
  ((decLe_exact 1).map UInt8.ofNat UInt8.toNat (fun _ => True)
    (fun n hn => ⟨trivial, by simpa using hn⟩) (fun b _ => ⟨by have := b.toNat_lt; omega, by simp⟩)).congr
    leBytes_one fun _ => Iff.rfl

theorem decU16_exact : Exact encU16 decU16 fun _ => True :=
  (decLe_exact 2).map UInt16.ofNat UInt16.toNat (fun _ => True)
    (fun n hn => ⟨trivial, by simpa using hn⟩) (fun b _ => ⟨by have := b.toNat_lt; omega, by simp⟩)

theorem decU32_exact : Exact encU32 decU32 fun _ => True :=
  (decLe_exact 4).map UInt32.ofNat UInt32.toNat (fun _ => True)
    (fun n hn => ⟨trivial, by simpa using hn⟩) (fun b _ => ⟨by have := b.toNat_lt; omega, by simp⟩)

theorem decU64_exact : Exact encU64 decU64 fun _ => True :=
  (decLe_exact 8).map UInt64.ofNat UInt64.toNat (fun _ => True)
    (fun n hn => ⟨trivial, by simpa using hn⟩) (fun b _ => ⟨by have := b.toNat_lt; omega, by simp⟩)

theorem decU256_exact : Exact encU256 decU256 fun _ => True :=
  (decLe_exact 32).map (BitVec.ofNat 256) BitVec.toNat (fun _ => True)
    (fun n hn => ⟨trivial, by
      rw [BitVec.toNat_ofNat]; exact Nat.mod_eq_of_lt (by simpa using hn)⟩)
    (fun b _ => ⟨by simpa using b.isLt, by simp⟩)

theorem decU5_exact : Exact encU5 decU5 fun _ => True := by
  intro bs a r
  simp only [decU5, bind_some, decLe_exact 1 _ _ _]
  constructor
  · rintro ⟨n, r1, ⟨hn, rfl⟩, h⟩
    split at h
    · cases h
      refine ⟨trivial, ?_⟩
      have : n % 256 = n := Nat.mod_eq_of_lt hn
      simp [leBytes, encU5, this]
    · cases h
  · rintro ⟨_, rfl⟩
    refine ⟨a.val, r, ⟨by have := a.isLt; omega, ?_⟩, ?_⟩
    · have : a.val % 256 = a.val := Nat.mod_eq_of_lt (by have := a.isLt; omega)
      simp [leBytes, encU5, this]
    · rw [dif_pos a.isLt]
      rfl

theorem decBytes32_exact : Exact encBytes32 decBytes32 fun _ => True := by
  intro bs a r
  simp only [decBytes32, bind_some, decBytes_exact 32 _ _ _]
  constructor
  · rintro ⟨b, r1, ⟨hb, rfl⟩, h⟩
    rw [dif_pos hb] at h
    cases h
    exact ⟨trivial, rfl⟩
  · rintro ⟨_, rfl⟩
    refine ⟨a.bytes, r, ⟨a.len, rfl⟩, ?_⟩
    rw [dif_pos a.len]
    rfl

/-- Reading a tag byte. -/
theorem decU8_tag {α : Type} (k : UInt8 → Decoder α) (bs : Bytes) (a : α) (r : Bytes) :
    decU8.bind k bs = some (a, r) ↔ ∃ tag r1, bs = tag :: r1 ∧ k tag r1 = some (a, r) := by
  simp only [bind_some, decU8_exact _ _ _, true_and]
  rfl

theorem decOption_exact {α : Type} {enc : α → Bytes} {dec : Decoder α} {P : α → Prop}
    (h : Exact enc dec P) : Exact (encOption enc) (decOption dec) (fun o => ∀ a, o = some a → P a) := by
  intro bs o r
  simp only [decOption, decU8_tag]
  constructor
  · rintro ⟨tag, r1, rfl, h1⟩
    split at h1
    · cases h1
      subst tag
      exact ⟨fun _ => nofun, rfl⟩
    · split at h1
      · subst tag
        simp only [bind_some, pure_some, h _ _ _] at h1
        obtain ⟨a, r2, ⟨hp, rfl⟩, rfl, rfl⟩ := h1
        exact ⟨fun _ e => by cases e; exact hp, rfl⟩
      · cases h1
  · rintro ⟨hp, rfl⟩
    cases o with
    | none => exact ⟨0, r, rfl, rfl⟩
    | some a =>
      refine ⟨1, enc a ++ r, rfl, ?_⟩
      rw [if_neg (by decide), if_pos rfl]
      simp only [bind_some, pure_some, h _ _ _]
      exact ⟨a, r, ⟨hp a rfl, rfl⟩, rfl, rfl⟩

theorem decTimes_exact {α : Type} {enc : α → Bytes} {dec : Decoder α} {P : α → Prop}
    (h : Exact enc dec P) (n : Nat) : Exact (fun l => l.flatMap enc) (decTimes dec n)
      (fun l => l.length = n ∧ ∀ a ∈ l, P a) := by
  induction n with
  | zero =>
    intro bs l r
    simp only [decTimes, pure_some]
    constructor
    · rintro ⟨rfl, rfl⟩; exact ⟨⟨rfl, by simp⟩, rfl⟩
    · rintro ⟨⟨h1, _⟩, rfl⟩
      rw [List.length_eq_zero_iff.1 h1]
      exact ⟨rfl, rfl⟩
  | succ n ih =>
    intro bs l r
    simp only [decTimes, bind_some, pure_some, h _ _ _, ih _ _ _]
    constructor
    · rintro ⟨a, r1, ⟨hp, rfl⟩, l', r2, ⟨⟨hl, hp'⟩, rfl⟩, rfl, rfl⟩
      refine ⟨⟨by simp [hl], by simpa using ⟨hp, hp'⟩⟩, by simp⟩
    · rintro ⟨⟨hl, hp⟩, rfl⟩
      cases l with
      | nil => simp at hl
      | cons a l =>
        exact ⟨a, l.flatMap enc ++ r, ⟨hp a (by simp), by simp⟩, l, r,
          ⟨⟨by simpa using hl, fun x hx => hp x (by simp [hx])⟩, rfl⟩, rfl, rfl⟩

theorem lenPrefix_covers (max : Nat) (h : max < 2 ^ 64) : max < 256 ^ lenPrefix max := by
  rw [lenPrefix]
  repeat' split
  all_goals omega

theorem decList_exact {α : Type} {enc : α → Bytes} {dec : Decoder α} {P : α → Prop}
    (h : Exact enc dec P) (min max : Nat) (hm : max < 2 ^ 64) :
    Exact (encList max enc) (decList min max dec)
      (fun l => (min ≤ l.length ∧ l.length ≤ max) ∧ ∀ a ∈ l, P a) := by
  intro bs l r
  have hc := lenPrefix_covers max hm
  simp only [decList, bind_some, decLe_exact _ _ _ _, decTimes_exact h _ _ _ _]
  constructor
  · rintro ⟨n, r1, ⟨hn, rfl⟩, l', r2, ⟨⟨rfl, hp⟩, rfl⟩, h1⟩
    split at h1
    · cases h1
      rename_i hb
      exact ⟨⟨hb, hp⟩, by simp [encList]⟩
    · cases h1
  · rintro ⟨⟨hb, hp⟩, rfl⟩
    refine ⟨l.length, l.flatMap enc ++ r, ⟨by omega, by simp [encList]⟩, l, r, ⟨⟨rfl, hp⟩, rfl⟩, ?_⟩
    rw [if_pos hb]
    rfl

theorem decPair_exact {α β : Type} {ea : α → Bytes} {da : Decoder α} {P : α → Prop} {eb : β → Bytes}
    {db : Decoder β} {Q : β → Prop} (ha : Exact ea da P) (hb : Exact eb db Q) :
    Exact (encPair ea eb) (decPair da db) (fun x => P x.1 ∧ Q x.2) := by
  intro bs x r
  simp only [decPair, bind_some, pure_some, ha _ _ _, hb _ _ _, encPair]
  constructor
  · rintro ⟨a, r1, ⟨hp, rfl⟩, b, r2, ⟨hq, rfl⟩, rfl, rfl⟩
    exact ⟨⟨hp, hq⟩, by simp⟩
  · rintro ⟨⟨hp, hq⟩, rfl⟩
    exact ⟨x.1, _, ⟨hp, by rw [List.append_assoc]⟩, x.2, r, ⟨hq, rfl⟩, rfl, rfl⟩

theorem decMap_exact {κ α : Type} [OrdKey κ] {ek : κ → Bytes} {dk : Decoder κ} {e : α → Bytes}
    {d : Decoder α} (hk : Exact ek dk fun _ => True) (hv : Exact e d fun _ => True) (max : Nat)
    (hm : max < 2 ^ 64) : Exact (encMap ek e) (decMap max dk d) fun _ => True := by
  intro bs m r
  have hc := lenPrefix_covers max hm
  simp only [decMap, bind_some, decLe_exact _ _ _ _, decTimes_exact (decPair_exact hk hv) _ _ _ _]
  constructor
  · rintro ⟨n, r1, ⟨hn, rfl⟩, l', r2, ⟨⟨rfl, hp⟩, rfl⟩, h1⟩
    split at h1
    · cases h1
      exact ⟨trivial, by simp [encMap, encList]⟩
    · cases h1
  · rintro ⟨_, rfl⟩
    have := m.bound
    refine ⟨m.entries.length, m.entries.flatMap (encPair ek e) ++ r,
      ⟨by omega, by simp [encMap, encList]⟩, m.entries, r, ⟨⟨rfl, by simp⟩, rfl⟩, ?_⟩
    rw [dif_pos ⟨m.sorted, m.bound⟩]
    rfl

/-- An exact decoder makes the encoding self-delimiting. -/
theorem Exact.selfDelimiting {α : Type} {enc : α → Bytes} {dec : Decoder α} {P : α → Prop}
    (h : Exact enc dec P) : SelfDelimiting enc P := by
  intro a b r s ha hb e
  have h1 := (h (enc a ++ r) a r).2 ⟨ha, rfl⟩
  have h2 := (h (enc a ++ r) b s).2 ⟨hb, e⟩
  rw [h1] at h2
  cases h2
  exact ⟨rfl, rfl⟩

end CSV
