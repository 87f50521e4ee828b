import Verif.Spec.Oracle
import Verif.Props.Typical
import Verif.Props.Contract

/-!
# How likely collisions are (C89)

The theorems about binding say "unless two different strings hashed have one hash". Here is how often
that happens if hashes are random.
-/

namespace CSV

private theorem answer_some {m : Transcript} {x : Bytes} {y : Bytes32} (h : m.answer x = some y) :
    (x, y) ∈ m := by
  obtain ⟨e, he, rfl⟩ := Option.map_eq_some_iff.1 h
  have h1 := List.find?_some he
  have h2 := List.mem_of_find?_eq_some he
  have h1 : e.1 = x := eq_of_beq h1
  rw [← h1]
  exact h2

private theorem answer_none {m : Transcript} {x : Bytes} (h : m.answer x = none) :
    ∀ e ∈ m, e.1 ≠ x := by
  have h1 := List.find?_eq_none.1 (Option.map_eq_none_iff.1 h)
  intro e he hx
  exact h1 e he (by simp [hx])

private theorem run_known {ask : Transcript → Bytes} {n : Nat} {tape : List Bytes32} {m : Transcript}
    {y : Bytes32} (h : m.answer (ask m) = some y) :
    Transcript.run ask (n + 1) tape m = Transcript.run ask n tape ((ask m, y) :: m) := by
  cases tape <;> simp only [Transcript.run, h]

private theorem run_new {ask : Transcript → Bytes} {n : Nat} {tape : List Bytes32} {m : Transcript}
    {y : Bytes32} (h : m.answer (ask m) = none) :
    Transcript.run ask (n + 1) (y :: tape) m = Transcript.run ask n tape ((ask m, y) :: m) := by
  simp only [Transcript.run, h]

private theorem run_end {ask : Transcript → Bytes} {n : Nat} {m : Transcript}
    (h : m.answer (ask m) = none) : Transcript.run ask (n + 1) [] m = m := by
  simp only [Transcript.run, h]

/-- Equal questions have equal answers and different questions have different ones. -/
private def OneToOne (m : Transcript) : Prop := ∀ a ∈ m, ∀ b ∈ m, a.1 = b.1 ↔ a.2 = b.2

private theorem run_exact (ask : Transcript → Bytes) : ∀ (n : Nat) (tape : List Bytes32) (m : Transcript),
    OneToOne m → tape.Nodup → (∀ y ∈ tape, ∀ e ∈ m, e.2 ≠ y) → OneToOne (Transcript.run ask n tape m)
  | 0, _, _, h, _, _ => h
  | n + 1, tape, m, h, hn, hd => by
    cases hy : m.answer (ask m) with
    | some y =>
      rw [run_known hy]
      have hy' := answer_some hy
      refine run_exact ask n tape _ ?_ hn ?_
      · intro a ha b hb
        have ha : a ∈ m := (List.mem_cons.1 ha).elim (fun e => e ▸ hy') id
        have hb : b ∈ m := (List.mem_cons.1 hb).elim (fun e => e ▸ hy') id
        exact h a ha b hb
      · intro z hz e he
        exact hd z hz e ((List.mem_cons.1 he).elim (fun e => e ▸ hy') id)
    | none =>
      have hy' := answer_none hy
      rcases tape with _ | ⟨y, tape⟩
      · rw [run_end hy]; exact h
      rw [run_new hy]
      obtain ⟨h1, hn⟩ := List.nodup_cons.1 hn
      refine run_exact ask n tape _ ?_ hn ?_
      · intro a ha b hb
        rcases List.mem_cons.1 ha with rfl | ha <;> rcases List.mem_cons.1 hb with rfl | hb
        · simp
        · exact ⟨fun e => absurd e.symm (hy' b hb), fun e => absurd e.symm (hd y (by simp) b hb)⟩
        · exact ⟨fun e => absurd e (hy' a ha), fun e => absurd e (hd y (by simp) a ha)⟩
        · exact h a ha b hb
      · intro z hz e he
        rcases List.mem_cons.1 he with rfl | he
        · rintro rfl; exact h1 hz
        · exact hd z (by simp [hz]) e he

/-- The answers are a function of the questions. -/
private theorem run_functional (ask : Transcript → Bytes) : ∀ (n : Nat) (tape : List Bytes32) (m : Transcript),
    (∀ a ∈ m, ∀ b ∈ m, a.1 = b.1 → a.2 = b.2) →
    ∀ a ∈ Transcript.run ask n tape m, ∀ b ∈ Transcript.run ask n tape m, a.1 = b.1 → a.2 = b.2
  | 0, _, _, h => h
  | n + 1, tape, m, h => by
    cases hy : m.answer (ask m) with
    | some y =>
      rw [run_known hy]
      have hy' := answer_some hy
      refine run_functional ask n tape _ ?_
      intro a ha b hb
      have ha : a ∈ m := (List.mem_cons.1 ha).elim (fun e => e ▸ hy') id
      have hb : b ∈ m := (List.mem_cons.1 hb).elim (fun e => e ▸ hy') id
      exact h a ha b hb
    | none =>
      have hy' := answer_none hy
      rcases tape with _ | ⟨y, tape⟩
      · rw [run_end hy]; exact h
      rw [run_new hy]
      refine run_functional ask n tape _ ?_
      intro a ha b hb
      rcases List.mem_cons.1 ha with rfl | ha <;> rcases List.mem_cons.1 hb with rfl | hb
      · simp
      · exact fun e => absurd e.symm (hy' b hb)
      · exact fun e => absurd e (hy' a ha)
      · exact h a ha b hb

private theorem run_length (ask : Transcript → Bytes) : ∀ (n : Nat) (tape : List Bytes32) (m : Transcript),
    n ≤ tape.length → (Transcript.run ask n tape m).length = m.length + n
  | 0, _, _, _ => rfl
  | n + 1, tape, m, h => by
    cases hy : m.answer (ask m) with
    | some y =>
      rw [run_known hy, run_length ask n tape _ (by omega), List.length_cons]; omega
    | none =>
      rcases tape with _ | ⟨y, tape⟩
      · simp at h
      rw [run_new hy, run_length ask n _ _ (by simpa using h), List.length_cons]; omega

/-- **C89** The experiment is what it should be: with `n` values on the tape `n` questions are answered,
and there is a hash function which gives these answers. -/
theorem C89_experiment (ask : Transcript → Bytes) (n : Nat) (tape : List Bytes32) (ht : tape ∈ idLists n)
    (debug : Bool) :
    (Transcript.run ask n tape []).length = n ∧
    ∃ e : Env, e.debug = debug ∧ (Transcript.run ask n tape []).Of e := by
  have hl := (mem_idLists n tape).1 ht
  refine ⟨by rw [run_length ask n tape [] (by omega)]; simp, ?_⟩
  have hf := run_functional ask n tape [] (by simp)
  generalize Transcript.run ask n tape [] = m at hf
  refine ⟨⟨fun x => (m.answer x).getD (Bytes32.fill 0), debug⟩, rfl, ?_⟩
  intro e he
  show (m.answer e.1).getD _ = e.2
  cases h : m.answer e.1 with
  | none => exact absurd rfl (answer_none h e he)
  | some y => exact hf _ (answer_some h) e he rfl

/-- **C89** Collisions are rare: whoever asks for `n` hashes, choosing each string with all answers so far in mind,
finds two different strings with one hash for at most a share of `n (n - 1) / 2^257` of all tapes. -/
theorem C89_no_collision (ask : Transcript → Bytes) (n : Nat) :
    ∃ good : List (List Bytes32), good.Sublist (idLists n) ∧
      2 * 2 ^ 256 * (idLists n).length ≤ 2 * 2 ^ 256 * good.length + n * (n - 1) * (idLists n).length ∧
      ∀ tape ∈ good, ∀ e : Env, (Transcript.run ask n tape []).Of e →
        @NoCollision e (Transcript.run ask n tape []).strings := by
  refine ⟨(idLists n).filter
    (fun l => decide (l.Pairwise fun p q => p.toNat % 2 ^ 256 ≠ q.toNat % 2 ^ 256)),
    List.filter_sublist, ?_, ?_⟩
  · rw [← List.countP_eq_length_filter, C87_count n 256 (by omega), idLists_length]
    have h := falling_bound (Nat.two_pow_pos 256) n
    generalize (2:Nat) ^ 256 = M at *
    simpa using h
  · intro tape ht e he
    have hn : tape.Nodup := by
      have := of_decide_eq_true (List.mem_filter.1 ht).2
      refine this.imp ?_
      rintro a b h rfl
      exact h rfl
    have hx := run_exact ask n tape [] (by intro a ha; cases ha) hn (by simp)
    intro a ha b hb hab
    obtain ⟨u, hu, rfl⟩ := List.mem_map.1 ha
    obtain ⟨v, hv, rfl⟩ := List.mem_map.1 hb
    refine (hx u hu v hv).2 ?_
    rw [← he u hu, ← he v hv]
    exact hab

/-- **C89** In numbers: with at most `2^64` hashes a collision is found for less than one tape in `2^128`. -/
theorem C89_numbers (ask : Transcript → Bytes) (n : Nat) (hn : n ≤ 2 ^ 64) :
    ∃ good : List (List Bytes32), good.Sublist (idLists n) ∧
      2 ^ 128 * ((idLists n).length - good.length) < (idLists n).length ∧
      ∀ tape ∈ good, ∀ e : Env, (Transcript.run ask n tape []).Of e →
        @NoCollision e (Transcript.run ask n tape []).strings := by
  obtain ⟨good, h1, h2, h3⟩ := C89_no_collision ask n
  refine ⟨good, h1, ?_, h3⟩
  have hp : 0 < (idLists n).length := by
    rw [idLists_length]; exact Nat.pow_pos (Nat.two_pow_pos 256)
  have hq : n * (n - 1) ≤ 2 ^ 64 * 2 ^ 64 := Nat.mul_le_mul hn (by omega)
  have := Nat.mul_le_mul_right (idLists n).length hq
  generalize (idLists n).length = N at *
  omega

/-- **C89** Hence a commitment can be opened in two ways, by somebody who asks for `n` hashes, those
of the two verifications included, for at most a share of `n (n - 1) / 2^257` of all tapes. -/
theorem C89_binding (ask : Transcript → Bytes) (n : Nat) :
    ∃ good : List (List Bytes32), good.Sublist (idLists n) ∧
      2 * 2 ^ 256 * (idLists n).length ≤ 2 * 2 ^ 256 * good.length + n * (n - 1) * (idLists n).length ∧
      ∀ tape ∈ good, ∀ e : Env, (Transcript.run ask n tape []).Of e →
        ∀ (pr pr' : MerkleProof) (p : ProtocolId) (m m' : Message) (c : Commitment),
          pr.path.length ≤ 32 → pr'.path.length ≤ 32 →
          (∀ x ∈ @proofInputs e pr p m ++ @proofInputs e pr' p m',
            x ∈ (Transcript.run ask n tape []).strings) →
          @MerkleProof.convolve e pr p m = .ok (.ok c) → @MerkleProof.convolve e pr' p m' = .ok (.ok c) →
          m = m' ∧ pr = pr' := by
  obtain ⟨good, h1, h2, h3⟩ := C89_no_collision ask n
  refine ⟨good, h1, h2, ?_⟩
  intro tape ht e he pr pr' p m m' c hl hl' hx hv hv'
  letI := e
  exact C18_binding pr pr' p m m' c hl hl' ((h3 tape ht e he).mono hx) hv hv'

/-- **C89** And a seal of a contract can be closed by two different transitions no more often. -/
theorem C89_double_spend {Seal Pub PubId PubErr : Type} (ask : Transcript → Bytes) (n : Nat) :
    ∃ good : List (List Bytes32), good.Sublist (idLists n) ∧
      2 * 2 ^ 256 * (idLists n).length ≤ 2 * 2 ^ 256 * good.length + n * (n - 1) * (idLists n).length ∧
      ∀ tape ∈ good, ∀ e : Env, (Transcript.run ask n tape []).Of e →
        ∀ (k : Contract Seal Pub PubId PubErr), @Contract.Proper _ _ _ _ e k →
        ∀ (s s' : Seal → Prop) (t t' : k.record.Val × MerkleProof),
          @Contract.Accepts _ _ _ _ e k s t → @Contract.Accepts _ _ _ _ e k s' t' →
          ∀ x, x ∈ k.closes t.1 → x ∈ k.closes t'.1 →
          (∀ x ∈ @Contract.inputs _ _ _ _ e k t ++ @Contract.inputs _ _ _ _ e k t',
            x ∈ (Transcript.run ask n tape []).strings) →
          @Record.Agree e k.record t.1 t'.1 ∧ t.2 = t'.2 := by
  obtain ⟨good, h1, h2, h3⟩ := C89_no_collision ask n
  refine ⟨good, h1, h2, ?_⟩
  intro tape ht e he k hk s s' t t' ha ha' x hx hx' hi
  letI := e
  exact C88_no_double_spend k hk s s' t t' ha ha' x hx hx' ((h3 tape ht e he).mono hi)

/-- Three questions, of which the third repeats the first: it gets the first answer again and the tape is not
used up. -/
example : Transcript.run (fun m => if m.length = 1 then [1] else [0]) 3
      [Bytes32.fill 7, Bytes32.fill 8, Bytes32.fill 9] [] =
    [([0], Bytes32.fill 7), ([1], Bytes32.fill 8), ([0], Bytes32.fill 7)] := by decide

/-- A tape with a value twice gives a collision. -/
example : ∃ (ask : Transcript → Bytes) (tape : List Bytes32) (e : Env), tape ∈ idLists 2 ∧
    (Transcript.run ask 2 tape []).Of e ∧ ¬ @NoCollision e (Transcript.run ask 2 tape []).strings := by
  refine ⟨fun m => if m.length = 1 then [1] else [0], [Bytes32.fill 7, Bytes32.fill 7],
    ⟨fun _ => Bytes32.fill 7, true⟩, (mem_idLists _ _).2 rfl, ?_, ?_⟩
  · intro x hx
    have : Transcript.run (fun m => if m.length = 1 then [1] else [0]) 2 [Bytes32.fill 7, Bytes32.fill 7] []
      = [([1], Bytes32.fill 7), ([0], Bytes32.fill 7)] := by decide
    rw [this] at hx
    simp only [List.mem_cons, List.not_mem_nil, or_false] at hx
    rcases hx with rfl | rfl <;> rfl
  · intro h
    exact absurd (h [0] (by decide) [1] (by decide) rfl) (by decide)

end CSV
