import Verif.Model.Text
import Verif.Props.Conceal
import Verif.Props.Merge

/-!
# C82: ids and errors as text
-/

namespace CSV

/-! ## Hexadecimal digits -/

private theorem hexValue_ascii : ∀ c : Fin 128, ∀ v : Fin 16,
    hexValue (Char.ofNat c.val) = some (UInt8.ofNat v.val) ↔ (Char.ofNat c.val).toLower = v.val.digitChar := by
  decide +kernel

private theorem hexValue_bound : ∀ c : Fin 128, ∀ v ∈ hexValue (Char.ofNat c.val), v.toNat < 16 := by
  decide +kernel

private theorem digitChar_ascii : ∀ v : Fin 16, v.val.digitChar.toNat < 128 ∧
    v.val.digitChar.toLower = v.val.digitChar := by
  decide +kernel

private theorem hexValue_other {c : Char} (h : ¬ c.toNat < 128) : hexValue c = none ∧ c.toLower = c := by
  have h1 : ∀ d : Char, d.toNat < 128 → ¬ c ≤ d := by
    intro d hd hcd
    have : c.toNat ≤ d.toNat := hcd
    omega
  constructor
  · rw [hexValue, if_neg, if_neg, if_neg]
    · exact fun e => h1 'F' (by decide) e.2
    · exact fun e => h1 'f' (by decide) e.2
    · exact fun e => h1 '9' (by decide) e.2
  · rw [Char.toLower]
    split
    · next h2 =>
      have : c.toNat ≤ 90 := h2.2
      omega
    · rfl

private theorem hexValue_iff (c : Char) (v : UInt8) :
    hexValue c = some v ↔ v.toNat < 16 ∧ c.toLower = v.toNat.digitChar := by
  by_cases h : c.toNat < 128
  · have e := hexValue_ascii ⟨c.toNat, h⟩
    have b := hexValue_bound ⟨c.toNat, h⟩ v
    simp only [Char.ofNat_toNat] at e b
    constructor
    · intro hv
      have hb := b hv
      have := e ⟨v.toNat, hb⟩
      simp only [UInt8.ofNat_toNat] at this
      exact ⟨hb, this.1 hv⟩
    · rintro ⟨hb, hv⟩
      have := e ⟨v.toNat, hb⟩
      simp only [UInt8.ofNat_toNat] at this
      exact this.2 hv
  · obtain ⟨h1, h2⟩ := hexValue_other h
    rw [h1, h2]
    refine ⟨nofun, fun ⟨hb, hv⟩ => ?_⟩
    rw [hv] at h
    exact absurd (digitChar_ascii ⟨v.toNat, hb⟩).1 h

private theorem digitChar_inj {a b : Nat} (ha : a < 16) (hb : b < 16) (h : a.digitChar = b.digitChar) : a = b := by
  have : ∀ a b : Fin 16, a.val.digitChar = b.val.digitChar → a = b := by decide +kernel
  exact congrArg Fin.val (this ⟨a, ha⟩ ⟨b, hb⟩ h)

private theorem pair_iff (a b x : UInt8) (ha : a.toNat < 16) (hb : b.toNat < 16) :
    a * 16 + b = x ↔ a.toNat = x.toNat / 16 ∧ b.toNat = x.toNat % 16 := by
  have h : (a * 16 + b).toNat = a.toNat * 16 + b.toNat := by
    rw [UInt8.toNat_add, UInt8.toNat_mul]
    simp only [UInt8.reduceToNat]
    omega
  rw [← UInt8.toNat_inj, h]
  omega

private theorem parseHex_iff (s : List Char) (bs : Bytes) :
    parseHex s = some bs ↔ s.map Char.toLower = bs.flatMap hexByte := by
  have key : ∀ (c d : Char) (rest : List Char) (bs : Bytes),
      (∀ bs, parseHex rest = some bs ↔ rest.map Char.toLower = bs.flatMap hexByte) →
      (parseHex (c :: d :: rest) = some bs ↔ (c :: d :: rest).map Char.toLower = bs.flatMap hexByte) := by
    intro c d rest bs ih
    have h1 : parseHex (c :: d :: rest) = some bs ↔ ∃ a b as, hexValue c = some a ∧ hexValue d = some b ∧
        parseHex rest = some as ∧ (a * 16 + b) :: as = bs := by
      rw [parseHex]
      split
      · next a b as ha hb has => simp [ha, hb, has]
      · next h =>
        refine ⟨nofun, fun ⟨a, b, as, ha, hb, has, _⟩ => (h a b as ha hb has).elim⟩
    rw [h1]
    simp only [hexValue_iff, ih]
    constructor
    · rintro ⟨a, b, as, ⟨ha, hc⟩, ⟨hb, hd⟩, hr, rfl⟩
      obtain ⟨e1, e2⟩ := (pair_iff a b _ ha hb).1 rfl
      generalize a * 16 + b = x at e1 e2
      simp [hexByte, hc, hd, hr, ← e1, ← e2]
    · intro h
      cases bs with
      | nil => simp at h
      | cons x as =>
        simp only [List.map_cons, List.flatMap_cons, hexByte, List.cons_append, List.nil_append,
          List.cons.injEq] at h
        have hx := x.toNat_lt
        have ha : (UInt8.ofNat (x.toNat / 16)).toNat = x.toNat / 16 := by
          rw [UInt8.toNat_ofNat']; omega
        have hb : (UInt8.ofNat (x.toNat % 16)).toNat = x.toNat % 16 := by
          rw [UInt8.toNat_ofNat']; omega
        refine ⟨UInt8.ofNat (x.toNat / 16), UInt8.ofNat (x.toNat % 16), as, ⟨by omega, by rw [ha]; exact h.1⟩,
          ⟨by omega, by rw [hb]; exact h.2.1⟩, h.2.2, ?_⟩
        rw [(pair_iff _ _ x (by omega) (by omega)).2 ⟨ha, hb⟩]
  induction s using parseHex.induct generalizing bs with
  | case1 => cases bs <;> simp [parseHex, hexByte]
  | case2 c => cases bs <;> simp [parseHex, hexByte]
  | case3 c d rest a b as ha hb hr ih => exact key c d rest bs ih
  | case4 c d rest h ih => exact key c d rest bs ih

private theorem hex_lower (bs : Bytes) : (bs.flatMap hexByte).map Char.toLower = bs.flatMap hexByte := by
  induction bs with
  | nil => rfl
  | cons x bs ih =>
    have hx := x.toNat_lt
    simp only [List.flatMap_cons, List.map_append, ih, hexByte, List.map_cons, List.map_nil]
    rw [(digitChar_ascii ⟨x.toNat / 16, by omega⟩).2, (digitChar_ascii ⟨x.toNat % 16, by omega⟩).2]

/-- **C82** Reading of ids, messages, commitments and hashes accepts exactly the text they are displayed
as, with digits in either case. -/
theorem C82_reads (s : List Char) (x : Bytes32) :
    Bytes32.fromStr s = some x ↔ s.map Char.toLower = x.display := by
  rw [Bytes32.display, ← parseHex_iff, Bytes32.fromStr]
  cases h : parseHex s with
  | none => simp
  | some bs =>
    dsimp only
    split
    · next hl =>
      obtain ⟨y, hy⟩ := x
      simp
    · next hl =>
      simp only [Option.some.injEq, reduceCtorEq, false_iff]
      rintro rfl
      exact hl x.len

/-- **C82** A displayed id is read back as the same, and the text is 64 characters long. -/
theorem C82_round_trip (x : Bytes32) : Bytes32.fromStr x.display = some x ∧ x.display.length = 64 := by
  constructor
  · rw [C82_reads, Bytes32.display, hex_lower]
  · have : ∀ bs : Bytes, (bs.flatMap hexByte).length = 2 * bs.length := by
      intro bs
      induction bs with
      | nil => rfl
      | cons a bs ih => simp [hexByte] at ih ⊢; omega
    rw [Bytes32.display, this, x.len]

private theorem display_inj {x y : Bytes32} {r s : List Char} (h : x.display ++ r = y.display ++ s) :
    x = y ∧ r = s := by
  obtain ⟨h1, h2⟩ := List.append_inj h (by rw [(C82_round_trip x).2, (C82_round_trip y).2])
  have := (C82_round_trip x).1
  rw [h1, (C82_round_trip y).1] at this
  exact ⟨(Option.some.inj this).symm, h2⟩

/-! ## Numbers -/

private theorem digits_split {a b r s : List Char} {c d : Char} (ha : ∀ x ∈ a, x.isDigit) (hb : ∀ x ∈ b, x.isDigit)
    (hc : c.isDigit = false) (hd : d.isDigit = false) (h : a ++ c :: r = b ++ d :: s) : a = b ∧ c :: r = d :: s := by
  induction a generalizing b with
  | nil =>
    cases b with
    | nil => exact ⟨rfl, h⟩
    | cons y b =>
      have : c = y := by simp at h; exact h.1
      rw [this, hb y (by simp)] at hc
      cases hc
  | cons x a ih =>
    cases b with
    | nil =>
      have : x = d := by simp at h; exact h.1
      rw [← this, ha x (by simp)] at hd
      cases hd
    | cons y b =>
      simp only [List.cons_append, List.cons.injEq] at h
      obtain ⟨e1, e2⟩ := ih (fun x hx => ha x (by simp [hx])) (fun x hx => hb x (by simp [hx])) h.2
      exact ⟨by rw [h.1, e1], e2⟩

private theorem decimal_inj {m n : Nat} {l r s : List Char} (hl : (l.head?.any fun c => !c.isDigit) = true)
    (h : decimal m ++ (l ++ r) = decimal n ++ (l ++ s)) : m = n ∧ r = s := by
  cases l with
  | nil => simp at hl
  | cons c l =>
    have hc : c.isDigit = false := by simpa using hl
    obtain ⟨h1, h2⟩ := digits_split (fun x hx => Nat.isDigit_of_mem_toDigits (by omega) (by omega) hx)
      (fun x hx => Nat.isDigit_of_mem_toDigits (by omega) (by omega) hx) hc hc h
    have := @Nat.ofDigitChars_ten_toDigits m
    rw [h1, Nat.ofDigitChars_ten_toDigits] at this
    simp only [List.cons.injEq, true_and] at h2
    exact ⟨this.symm, List.append_cancel_left h2⟩

private theorem decimal_end {m n : Nat} {l : List Char} (h : decimal m ++ l = decimal n ++ l) : m = n := by
  have := @Nat.ofDigitChars_ten_toDigits m
  rw [show Nat.toDigits 10 m = Nat.toDigits 10 n from List.append_cancel_right h,
    Nat.ofDigitChars_ten_toDigits] at this
  exact this.symm

private theorem apart {l k r s : List Char} (n : Nat) (hl : n ≤ l.length) (hk : n ≤ k.length)
    (h : l.take n ≠ k.take n) : l ++ r ≠ k ++ s := by
  intro e
  have := congrArg (List.take n) e
  rw [List.take_append_of_le_length hl, List.take_append_of_le_length hk] at this
  exact h this

/-! ## Errors -/

private theorem leafNotKnown_inj (a b : LeafNotKnown) (h : a.display = b.display) : a = b := by
  obtain ⟨h1, -⟩ := display_inj (List.append_cancel_left h)
  cases a; cases b
  cases h1
  rfl

private theorem invalidProof_inj (a b : InvalidProof) (h : a.display = b.display) : a = b := by
  obtain ⟨h1, h⟩ := display_inj (List.append_cancel_left h)
  obtain ⟨h2, h⟩ := decimal_inj (by decide +kernel) (List.append_cancel_left h)
  obtain ⟨h3, h⟩ := decimal_inj (by decide +kernel) h
  have h4 := decimal_end h
  cases a; cases b
  cases h1
  cases UInt32.toNat_inj.1 h2
  cases UInt32.toNat_inj.1 h3
  cases h4
  rfl

private theorem mergeError_inj (a b : MergeError) (h : a.display = b.display) : a = b := by
  cases a <;> cases b
  · rw [invalidProof_inj _ _ h]
  · exact (apart 1 (by decide +kernel) (by decide +kernel) (by decide +kernel) h).elim
  · exact (apart 1 (by decide +kernel) (by decide +kernel) (by decide +kernel) h).elim
  · obtain ⟨h1, h⟩ := display_inj (List.append_cancel_left h)
    obtain ⟨h2, -⟩ := display_inj (List.append_cancel_left h)
    rw [h1, h2]

private theorem commitError_inj (a b : CommitError) (h : a.display = b.display) : a = b := by
  cases a <;> cases b
  · rfl
  · exact (apart (r := []) 1 (by decide +kernel) (by decide +kernel) (by decide +kernel) ((List.append_nil _).trans h)).elim
  · exact (apart (r := []) 1 (by decide +kernel) (by decide +kernel) (by decide +kernel) ((List.append_nil _).trans h)).elim
  · exact (apart (r := []) 1 (by decide +kernel) (by decide +kernel) (by decide +kernel)
      ((List.append_nil _).trans h.symm)).elim
  · next m n =>
    have h := List.append_cancel_left h
    rw [decimal_end h]
  · exact (apart 1 (by decide +kernel) (by decide +kernel) (by decide +kernel) h).elim
  · exact (apart (r := []) 1 (by decide +kernel) (by decide +kernel) (by decide +kernel)
      ((List.append_nil _).trans h.symm)).elim
  · exact (apart 1 (by decide +kernel) (by decide +kernel) (by decide +kernel) h).elim
  · next m n =>
    have h := List.append_cancel_left h
    rw [decimal_end h]

private def embedIndex {E : Type} : EmbedVerifyError E → Fin 4
  | .commitmentMismatch => 0
  | .invalidMessage _ => 1
  | .invalidProof => 2
  | .proofMismatch => 3

private def embedStart : Fin 4 → List Char
  | 0 => "commitment doe".toList
  | 1 => "the message is".toList
  | 2 => "the proof is i".toList
  | 3 => "the proof does".toList

private theorem embedError_inj {E : Type} (text : E → List Char) (ht : ∀ a b, text a = text b → a = b)
    (a b : EmbedVerifyError E) (h : a.display text = b.display text) : a = b := by
  have key : ∀ e : EmbedVerifyError E, (e.display text).take 14 = embedStart (embedIndex e) := by
    intro e
    cases e with
    | invalidMessage e =>
      refine (List.take_append_of_le_length (by decide +kernel)).trans ?_
      show _ = embedStart 1
      decide +kernel
    | commitmentMismatch => show List.take 14 (String.toList _) = embedStart 0; decide +kernel
    | invalidProof => show List.take 14 (String.toList _) = embedStart 2; decide +kernel
    | proofMismatch => show List.take 14 (String.toList _) = embedStart 3; decide +kernel
  have hk := key a
  rw [h, key b] at hk
  have := (by decide +kernel : ∀ i j, embedStart i = embedStart j → i = j) _ _ hk
  cases a <;> cases b
  case invalidMessage.invalidMessage => rw [ht _ _ (List.append_cancel_left h)]
  all_goals first | rfl | cases this

/-- **C82** The text of an error determines the error: which one it is and all its fields. (For
`EmbedVerifyError`, if the texts of the inner errors do.) -/
theorem C82_errors :
    (∀ a b : LeafNotKnown, a.display = b.display → a = b) ∧
    (∀ a b : InvalidProof, a.display = b.display → a = b) ∧
    (∀ a b : MergeError, a.display = b.display → a = b) ∧
    (∀ a b : CommitError, a.display = b.display → a = b) ∧
    (∀ a b : VerifyError, a.display = b.display → a = b) ∧
    (∀ a b : ConvolveVerifyError, a.display = b.display → a = b) ∧
    (∀ (E : Type) (text : E → List Char), (∀ a b, text a = text b → a = b) →
      ∀ a b : EmbedVerifyError E, a.display text = b.display text → a = b) ∧
    ∀ a b : Validity, a.display = b.display → a = b := by
  refine ⟨leafNotKnown_inj, invalidProof_inj, mergeError_inj, commitError_inj, ?_, ?_,
    fun _ => embedError_inj, ?_⟩ <;>
  · intro a b h
    cases a <;> cases b <;> first | rfl | exact absurd h (by decide +kernel)

/-- Two errors that differ in one digit. -/
example : (InvalidProof.mk (Bytes32.fill 0xAB) 3 12 16).display =
    ("the provided merkle proof protocol id abababababababababababababababababababababababababababababababab" ++
      " position 12 doesn't match the expected position 3 within the tree of width 16.").toList ∧
    (InvalidProof.mk (Bytes32.fill 0xAB) 3 12 16).display ≠ (InvalidProof.mk (Bytes32.fill 0xAB) 3 1 16).display := by
  decide +kernel

/-- An id in upper case is read, one digit more or less or another character is not. -/
example : Bytes32.fromStr (List.replicate 64 'A') = some (Bytes32.fill 0xAA) ∧
    Bytes32.fromStr (List.replicate 63 'A') = none ∧ Bytes32.fromStr (List.replicate 66 'A') = none ∧
    Bytes32.fromStr (List.replicate 63 'A' ++ ['g']) = none := by
  decide +kernel

/-- The texts of the errors as they are shown. -/
example : (LeafNotKnown.mk (Bytes32.fill 0xAB)).display =
      ("commitment under protocol id abababababababababababababababababababababababababababababababab" ++
        " is absent from the known part of a given LNPBP-4 Merkle block.").toList ∧
    (MergeError.unrelatedBlocks (Bytes32.fill 0) (Bytes32.fill 0xFF)).display =
      ("attempt to merge two unrelated LNPBP-4 blocks with different Merkle roots (base " ++
        "0000000000000000000000000000000000000000000000000000000000000000, merged-in " ++
        "ffffffffffffffffffffffffffffffffffffffffffffffffffffffffffffffff).").toList ∧
    (MergeError.invalidProof ⟨Bytes32.fill 1, 2, 3, 4⟩).display = (InvalidProof.mk (Bytes32.fill 1) 2 3 4).display ∧
    CommitError.empty.display =
      "can't create commitment for an empty message list and zero tree depth.".toList ∧
    (CommitError.tooManyMessages 17).display =
      "number of messages (17) for LNPBP-4 commitment which exceeds the protocol limit of 2^16".toList ∧
    (CommitError.cantFitInMaxSlots 18).display =
      ("the provided number of messages (18) can't fit LNPBP-4 commitment size limits for a given set of " ++
        "protocol ids.").toList := by
  decide +kernel

example : VerifyError.invalidCommitment.display = "commitment doesn't match the message.".toList ∧
    VerifyError.invalidMessage.display =
      "the message is invalid since a valid commitment to it can't be created.".toList ∧
    ConvolveVerifyError.commitmentMismatch.display = VerifyError.invalidCommitment.display ∧
    ConvolveVerifyError.impossibleMessage.display = VerifyError.invalidMessage.display ∧
    ConvolveVerifyError.invalidProof.display =
      "the proof is invalid and the commitment can't be verified.".toList ∧
    (EmbedVerifyError.commitmentMismatch : EmbedVerifyError String).display String.toList =
      "commitment doesn't match the message.".toList ∧
    (EmbedVerifyError.invalidMessage "too long").display String.toList =
      "the message is invalid since a valid commitment to it can't be created. Details: too long".toList ∧
    (EmbedVerifyError.invalidProof : EmbedVerifyError String).display String.toList =
      ("the proof is invalid and the commitment can't be verified since the original container can't be " ++
        "restored from it.").toList ∧
    (EmbedVerifyError.proofMismatch : EmbedVerifyError String).display String.toList =
      ("the proof does not match to the proof generated for the same message during the " ++
        "verification.").toList ∧
    Validity.valid.display = "valid".toList ∧
    Validity.sealIssues.display = "unresolved seal issues".toList ∧
    Validity.invalid.display = "invalid".toList := by
  decide +kernel

end CSV
