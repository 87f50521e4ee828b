import Verif.Props.Codec
import Verif.Props.Size

/-!
# C98: data that arrives in pieces

Proofs, blocks, trees and concealed trees are read from files and sockets: the bytes may be cut off, may be
followed by others, and a hostile sender chooses them. `readAll` below is how an application reads a sequence of
values: it decodes one value after another until the input ends.
-/

namespace CSV

/-- Reads values until the input ends. The number of rounds is bounded by the number of bytes
(`fuel`, `C98_streams` shows that it suffices). -/
def readMany {α : Type} (dec : Decoder α) : (fuel : Nat) → Bytes → Option (List α)
  | _, [] => some []
  | 0, _ :: _ => none
  | fuel + 1, b :: bs =>
    match dec (b :: bs) with
    | some (a, rest) => (readMany dec fuel rest).map (a :: ·)
    | none => none

/-- The values in a stream of bytes. -/
def readAll {α : Type} (dec : Decoder α) (bs : Bytes) : Option (List α) := readMany dec bs.length bs

/-- What a reader of a byte stream relies on. -/
structure Framed {α : Type} (enc : α → Bytes) (dec : Decoder α) (P : α → Prop) : Prop where
  /-- a message cut off anywhere is refused, also if more input is awaited -/
  truncated : ∀ bs a, deserialize dec bs = some a → ∀ k, k < bs.length → dec (bs.take k) = none
  /-- what follows a message does not change how it is read -/
  extended : ∀ bs a r, dec bs = some (a, r) → ∀ more, dec (bs ++ more) = some (a, r ++ more)
  /-- a message followed by anything is not one message -/
  trailing : ∀ bs a, deserialize dec bs = some a → ∀ more, more ≠ [] → deserialize dec (bs ++ more) = none
  /-- input that is refused is refused however it goes on, or was cut off -/
  refused : ∀ bs more a r, dec bs = none → dec (bs ++ more) = some (a, r) → r.length < more.length
  /-- a stream of messages is read as the messages that were sent, and as nothing else -/
  streams : ∀ bs l, readAll dec bs = some l ↔ (∀ a ∈ l, P a) ∧ bs = l.flatMap enc

private theorem exact_framed {α : Type} {enc : α → Bytes} {dec : Decoder α} {P : α → Prop}
    (h : Exact enc dec P) (hne : ∀ a, enc a ≠ []) : Framed enc dec P := by
  have des : ∀ {bs a}, deserialize dec bs = some a → P a ∧ bs = enc a := by
    intro bs a hd
    unfold deserialize at hd
    split at hd
    · rename_i a' h1
      cases hd
      obtain ⟨h2, h3⟩ := (h _ _ _).1 h1
      exact ⟨h2, by rw [h3, List.append_nil]⟩
    · cases hd
  have ext : ∀ bs a r, dec bs = some (a, r) → ∀ more, dec (bs ++ more) = some (a, r ++ more) := by
    intro bs a r h1 more
    obtain ⟨hp, rfl⟩ := (h _ _ _).1 h1
    exact (h _ _ _).2 ⟨hp, by rw [List.append_assoc]⟩
  have many : ∀ (fuel : Nat) (bs : Bytes) (l : List α), bs.length ≤ fuel →
      (readMany dec fuel bs = some l ↔ (∀ a ∈ l, P a) ∧ bs = l.flatMap enc) := by
    intro fuel
    induction fuel with
    | zero =>
      intro bs l hl
      obtain rfl : bs = [] := List.length_eq_zero_iff.1 (Nat.le_zero.1 hl)
      simp only [readMany, Option.some.injEq]
      constructor
      · rintro rfl; simp
      · rintro ⟨-, e⟩
        cases l with
        | nil => rfl
        | cons a l =>
          rw [List.flatMap_cons] at e
          exact absurd (List.append_eq_nil_iff.1 e.symm).1 (hne a)
    | succ fuel ih =>
      intro bs l hl
      cases bs with
      | nil =>
        simp only [readMany, Option.some.injEq]
        constructor
        · rintro rfl; simp
        · rintro ⟨-, e⟩
          cases l with
          | nil => rfl
          | cons a l =>
            rw [List.flatMap_cons] at e
            exact absurd (List.append_eq_nil_iff.1 e.symm).1 (hne a)
      | cons b bs =>
        simp only [readMany]
        constructor
        · intro hr
          split at hr
          · rename_i a rest h1
            obtain ⟨hp, e⟩ := (h _ _ _).1 h1
            simp only [Option.map_eq_some_iff] at hr
            obtain ⟨l', hr, rfl⟩ := hr
            have hlen : rest.length ≤ fuel := by
              have := congrArg List.length e
              rw [List.length_append, List.length_cons] at this
              have h0 : (enc a).length ≠ 0 := fun h0 => hne a (List.length_eq_zero_iff.1 h0)
              rw [List.length_cons] at hl
              omega
            obtain ⟨h2, h3⟩ := (ih rest l' hlen).1 hr
            refine ⟨?_, by rw [e, List.flatMap_cons, ← h3]⟩
            intro x hx
            rcases List.mem_cons.1 hx with rfl | hx
            · exact hp
            · exact h2 x hx
          · cases hr
        · rintro ⟨hp, e⟩
          cases l with
          | nil => cases e
          | cons a l =>
            rw [List.flatMap_cons] at e
            have h1 := (h (b :: bs) a (l.flatMap enc)).2 ⟨hp a (by simp), e⟩
            rw [h1]
            have hlen : (l.flatMap enc).length ≤ fuel := by
              have := congrArg List.length e
              rw [List.length_append, List.length_cons] at this
              have h0 : (enc a).length ≠ 0 := fun h0 => hne a (List.length_eq_zero_iff.1 h0)
              rw [List.length_cons] at hl
              omega
            have := (ih (l.flatMap enc) l hlen).2 ⟨fun x hx => hp x (List.mem_cons_of_mem _ hx), rfl⟩
            simp only [this, Option.map_some]
  refine ⟨?_, ext, ?_, ?_, fun bs l => many _ bs l (Nat.le_refl _)⟩
  · intro bs a hd k hk
    obtain ⟨hp, rfl⟩ := des hd
    cases h1 : dec ((enc a).take k) with
    | none => rfl
    | some x =>
      obtain ⟨a', r⟩ := x
      obtain ⟨hp', e⟩ := (h _ _ _).1 h1
      have e2 : enc a ++ [] = enc a' ++ (r ++ (enc a).drop k) := by
        rw [List.append_nil, ← List.append_assoc, ← e, List.take_append_drop]
      have := (h.selfDelimiting _ _ _ _ hp hp' e2).2
      have := congrArg List.length this
      rw [List.length_append, List.length_drop, List.length_nil] at this
      omega
  · intro bs a hd more hm
    obtain ⟨hp, rfl⟩ := des hd
    have := (h (enc a ++ more) a more).2 ⟨hp, rfl⟩
    unfold deserialize
    rw [this]
    cases more with
    | nil => exact absurd rfl hm
    | cons => rfl
  · intro bs more a r h1 h2
    obtain ⟨hp, e⟩ := (h _ _ _).1 h2
    apply Classical.byContradiction
    intro hr
    have hr : more.length ≤ r.length := Nat.le_of_not_lt hr
    have h3 := List.append_eq_append_iff.1 e
    rcases h3 with ⟨as, e1, e2⟩ | ⟨cs, e1, e2⟩
    · have := congrArg List.length e2
      rw [List.length_append] at this
      obtain rfl : as = [] := List.length_eq_zero_iff.1 (by omega)
      rw [List.append_nil] at e1
      have := (h bs a []).2 ⟨hp, by rw [List.append_nil, e1]⟩
      rw [h1] at this
      cases this
    · have := (h bs a cs).2 ⟨hp, e1⟩
      rw [h1] at this
      cases this

/-- **C98** Proofs, blocks, trees, concealed trees and ids can be read from a stream: a value cut off is refused,
bytes that follow do not matter, and a sequence of values is read back as the same sequence. -/
theorem C98_framed :
    Framed MerkleProof.enc decMerkleProof MerkleProof.Confined ∧
    Framed MerkleBlock.enc decMerkleBlock MerkleBlock.Confined ∧
    Framed MerkleTree.enc decMerkleTree (fun _ => True) ∧
    Framed MerkleConcealed.enc decMerkleConcealed (fun _ => True) ∧
    Framed encBytes32 decBytes32 (fun _ => True) := by
  refine ⟨exact_framed (P := MerkleProof.Confined) (fun bs a r => ?_) ?_,
    exact_framed (P := MerkleBlock.Confined) (fun bs a r => ?_) ?_,
    exact_framed (fun bs a r => ?_) ?_, exact_framed (fun bs a r => ?_) ?_, exact_framed decBytes32_exact ?_⟩
  · exact ⟨(C39_canonical bs r).2.2.2.2.2.2.2 a, fun ⟨h, e⟩ => e ▸ (C38_round_trip r).2.2.2.2.2.2.2 a h⟩
  · intro a e
    have := congrArg List.length e
    simp [MerkleProof.enc, encU8] at this
  · exact ⟨(C39_canonical bs r).2.2.2.2.2.2.1 a, fun ⟨h, e⟩ => e ▸ (C38_round_trip r).2.2.2.2.2.2.1 a h⟩
  · intro a e
    have := congrArg List.length e
    simp [MerkleBlock.enc, encU8] at this
  · exact ⟨fun h => ⟨trivial, (C39_canonical bs r).2.2.2.2.2.1 a h⟩,
      fun ⟨_, e⟩ => e ▸ (C38_round_trip r).2.2.2.2.2.1 a⟩
  · intro a e
    have := congrArg List.length e
    simp [MerkleTree.enc, encU8] at this
  · exact ⟨fun h => ⟨trivial, (C39_canonical bs r).2.2.2.1 a h⟩,
      fun ⟨_, e⟩ => e ▸ (C38_round_trip r).2.2.2.1 a⟩
  · intro a e
    have := congrArg List.length e
    simp [MerkleConcealed.enc, encU5] at this
  · intro a e
    have := congrArg List.length e
    rw [show (encBytes32 a).length = 32 from a.len] at this
    cases this

/-- **C98** What is read takes at most as much as was received: a hostile sender cannot make a reader build
more nodes, hashes or messages than the bytes it has sent account for. -/
theorem C98_bounded (bs : Bytes) :
    (∀ pr, deserialize decMerkleProof bs = some pr → bs.length = 8 + 32 * pr.path.length) ∧
    (∀ b, deserialize decMerkleBlock bs = some b → bs.length = (if b.entropy.isSome then 17 else 9) +
      34 * (b.crossSection.length - b.knownMessages.length) + 65 * b.knownMessages.length ∧
      b.knownMessages.length ≤ b.crossSection.length) ∧
    (∀ T, deserialize decMerkleTree bs = some T →
      bs.length = 18 + 64 * T.messages.entries.length + 68 * T.map.entries.length) := by
  have des : ∀ {α : Type} {dec : Decoder α} {bs : Bytes} {a : α}, deserialize dec bs = some a →
      dec bs = some (a, []) := by
    intro α dec bs a hd
    unfold deserialize at hd
    split at hd
    · rename_i a' h1
      cases hd
      exact h1
    · cases hd
  refine ⟨fun pr h => ?_, fun b h => ?_, fun T h => ?_⟩
  · have e := ((C39_canonical bs []).2.2.2.2.2.2.2 pr (des h)).2
    rw [e, List.append_nil]
    have : ∀ l : List Bytes32, (l.flatMap encBytes32).length = 32 * l.length := by
      intro l
      induction l with
      | nil => rfl
      | cons a l ih =>
        rw [List.flatMap_cons, List.length_append, ih, List.length_cons,
          show (encBytes32 a).length = 32 from a.len]
        omega
    simp only [MerkleProof.enc, encList, encU8, encU32, encU16, List.length_append, leBytes_length, this,
      List.length_cons, List.length_nil, show lenPrefix 32 = 1 from rfl]
    omega
  · have e := ((C39_canonical bs []).2.2.2.2.2.2.1 b (des h)).2
    have hk : b.knownMessages.length ≤ b.crossSection.length := by
      unfold MerkleBlock.knownMessages
      exact List.length_filterMap_le _ _
    rw [e, List.append_nil, C66_block_bytes]
    exact ⟨by omega, hk⟩
  · have e := (C39_canonical bs []).2.2.2.2.2.1 T (des h)
    rw [e, List.append_nil]
    have hl : ∀ {α : Type} (f : α → Bytes) (k : Nat) (_ : ∀ a, (f a).length = k) (l : List α),
        (l.flatMap f).length = k * l.length := by
      intro α f k hf l
      induction l with
      | nil => rfl
      | cons a l ih =>
        rw [List.flatMap_cons, List.length_append, ih, List.length_cons, hf, Nat.mul_succ, Nat.add_comm]
    simp only [MerkleTree.enc, encMap, encList, encU8, encU5, encU64, encU16, List.length_append,
      leBytes_length, List.length_cons, List.length_nil, show lenPrefix MEDIUM_MAX = 3 from rfl]
    rw [hl (encPair encBytes32 encBytes32) 64 (fun a => by
        rw [encPair, List.length_append]
        exact congr (congrArg (· + ·) a.1.len) a.2.len),
      hl (encPair encU32 (encPair encBytes32 encBytes32)) 68 (fun a => by
        rw [encPair, encPair, List.length_append, List.length_append, encU32, leBytes_length]
        exact congrArg (4 + ·) (congr (congrArg (· + ·) a.2.1.len) a.2.2.len))]
    omega

/-- Two proofs, one after the other: read as these two, the second not at all if the last byte is missing. -/
example : ∃ p q : MerkleProof, p ≠ q ∧ p.Confined ∧ q.Confined ∧
    readAll decMerkleProof (p.enc ++ q.enc) = some [p, q] ∧
    readAll decMerkleProof ((p.enc ++ q.enc).take 79) = none := by
  refine ⟨⟨.sha256t, 1, 0, [Bytes32.ofNat 5]⟩, ⟨.sha256t, 0, 0, [Bytes32.ofNat 6]⟩, by decide, ?_, ?_,
    (C98_framed.1.streams _ _).2 ⟨?_, by simp⟩, by decide⟩
  · simp [MerkleProof.Confined]
  · simp [MerkleProof.Confined]
  · simp [MerkleProof.Confined]

end CSV
