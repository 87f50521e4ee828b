import Verif.Proofs.Count
import Verif.Props.Commit
import Verif.Spec.Sample

/-!
# Most sets of protocols fit into a small tree (C87)
-/

namespace CSV

/-- Separated protocols are at most as many as there are slots. -/
private theorem separates_length {ids : List ProtocolId} {d : Nat} (h : Separates ids d 0) :
    ids.length ≤ 2 ^ d := by
  have hn : (ids.map fun p => slotOf p 0 d).Nodup := by
    rw [List.Nodup, List.pairwise_map]; exact h
  have hsub : (ids.map fun p => slotOf p 0 d) ⊆ List.range (2 ^ d) := by
    intro x hx
    obtain ⟨p, _, rfl⟩ := List.mem_map.1 hx
    rw [slotOf_zero]
    exact List.mem_range.2 (Nat.mod_lt _ (Nat.two_pow_pos d))
  have := hn.length_le_of_subset hsub
  rwa [List.length_map, List.length_range] at this

/-- **C87** Protocols whose ids differ modulo `2^d` are committed to with a tree of depth at most
`d` (if the minimal depth allows that). -/
theorem C87_depth (rng : Option UInt64) (s : MultiSource) (d : Nat)
    (he : (s.staticEntropy.or rng).isSome) (h0 : s.minDepth.val ≠ 0 ∨ s.messages.entries ≠ [])
    (hm : s.minDepth.val ≤ d) (hd : d ≤ 31)
    (hs : s.ids.Pairwise fun p q => p.toNat % 2 ^ d ≠ q.toNat % 2 ^ d) :
    ∃ t, MerkleTree.tryCommit rng s = .ok (.ok t) ∧ t.depth.val ≤ d := by
  have hs : Separates s.ids d 0 := by
    refine hs.imp ?_
    intro p q h
    rwa [slotOf_zero, slotOf_zero]
  have hlen : s.ids.length = s.messages.entries.length := by simp [MultiSource.ids]
  have ha : Attempt s.ids.length s.minDepth.val d 0 := ⟨hm, hd, separates_length hs, Nat.zero_le _⟩
  obtain ⟨r, hr⟩ := C03_no_panic rng s he
  rw [hr]
  rcases r with e | t
  · exfalso
    rcases e with _ | n | n
    · have := (C03_empty_iff rng s).1 hr
      rcases h0 with h0 | h0
      · exact h0 this.1
      · exact h0 this.2
    · exact C03_never_too_many rng s n hr
    · obtain ⟨-, h⟩ := (C03_cant_fit_iff rng s n he).1 hr
      exact h d 0 (by rw [← hlen]; exact ha) hs
  · refine ⟨t, rfl, ?_⟩
    obtain ⟨-, -, h⟩ := C02_first_fit rng s t hr
    rcases Nat.lt_or_ge d t.depth.val with hlt | hge
    · exact absurd hs (h d 0 ha (.inl hlt))
    · exact hge

/-- **C87** `idLists n` has every list of `n` protocol ids once, `2^(256 n)` in total. -/
theorem C87_all (n : Nat) :
    (∀ l, l ∈ idLists n ↔ l.length = n) ∧ (idLists n).Nodup ∧
    (idLists n).length = (2 ^ 256) ^ n :=
  ⟨mem_idLists n, idLists_nodup n, idLists_length n⟩

/-- **C87** Exactly `(2^(256-d))^n * 2^d * (2^d - 1) * ... * (2^d - n + 1)` of all lists of `n`
protocol ids have different ids modulo `2^d`. -/
theorem C87_count (n d : Nat) (hd : d ≤ 256) :
    (idLists n).countP
        (fun l => decide (l.Pairwise fun p q => p.toNat % 2 ^ d ≠ q.toNat % 2 ^ d))
      = (2 ^ (256 - d)) ^ n * falling (2 ^ d) n := by
  rw [← separated_count hd n]
  congr 1
  funext l
  simp only [Separates, slotOf_zero]

/-- **C87** All but a share of `n (n - 1) / 2^(d + 1)` of the lists of `n` protocol ids are
committed to with a tree of depth at most `d`, whatever the messages, the entropy, the method and
the minimal depth up to `d` are. -/
theorem C87_most (n d : Nat) (hd : d ≤ 31) :
    ∃ good : List (List ProtocolId), good.Sublist (idLists n) ∧
      2 ^ (d + 1) * (idLists n).length
        ≤ 2 ^ (d + 1) * good.length + n * (n - 1) * (idLists n).length ∧
      ∀ l ∈ good, ∀ (rng : Option UInt64) (s : MultiSource), s.ids.Perm l →
        (s.staticEntropy.or rng).isSome → (s.minDepth.val ≠ 0 ∨ s.messages.entries ≠ []) →
        s.minDepth.val ≤ d →
        ∃ t, MerkleTree.tryCommit rng s = .ok (.ok t) ∧ t.depth.val ≤ d := by
  refine ⟨(idLists n).filter
    (fun l => decide (l.Pairwise fun p q => p.toNat % 2 ^ d ≠ q.toNat % 2 ^ d)),
    List.filter_sublist, ?_, ?_⟩
  · rw [← List.countP_eq_length_filter, C87_count n d (by omega), idLists_length]
    have h := falling_bound (Nat.two_pow_pos d) n
    have h := Nat.mul_le_mul_left ((2 ^ (256 - d)) ^ n) h
    have e : ((2:Nat) ^ 256) ^ n = (2 ^ (256 - d)) ^ n * (2 ^ d) ^ n := by
      rw [← Nat.mul_pow, ← Nat.pow_add, Nat.sub_add_cancel (by omega)]
    rw [e, Nat.pow_succ 2 d]
    generalize ((2:Nat) ^ (256 - d)) ^ n = K at *
    generalize (2:Nat) ^ d = m at *
    grind
  · intro l hl rng s hp he h0 hm
    refine C87_depth rng s d he h0 hm hd ?_
    have := of_decide_eq_true (List.mem_filter.1 hl).2
    exact (hp.pairwise_iff fun h => Ne.symm h).2 this

/-- **C87** in numbers: more than 99.9% of all lists of 1000 protocol ids can be committed to, and
more than 99% of all lists of 100 protocol ids give a tree of depth at most 19. -/
theorem C87_numbers :
    (∃ good : List (List ProtocolId), good.Sublist (idLists 1000) ∧
      999 * (idLists 1000).length < 1000 * good.length ∧
      ∀ l ∈ good, ∀ (rng : Option UInt64) (s : MultiSource), s.ids.Perm l →
        (s.staticEntropy.or rng).isSome → ∃ t, MerkleTree.tryCommit rng s = .ok (.ok t)) ∧
    ∃ good : List (List ProtocolId), good.Sublist (idLists 100) ∧
      99 * (idLists 100).length < 100 * good.length ∧
      ∀ l ∈ good, ∀ (rng : Option UInt64) (s : MultiSource), s.ids.Perm l →
        (s.staticEntropy.or rng).isSome → s.minDepth.val ≤ 19 →
        ∃ t, MerkleTree.tryCommit rng s = .ok (.ok t) ∧ t.depth.val ≤ 19 := by
  have ne : ∀ {l : List ProtocolId} {s : MultiSource} {n : Nat}, l ∈ idLists (n + 1) →
      s.ids.Perm l → s.messages.entries ≠ [] := by
    intro l s n hl hp h
    have h1 := (mem_idLists _ l).1 hl
    rw [← hp.length_eq, MultiSource.ids, h] at h1
    cases h1
  have pos : ∀ n, 0 < (idLists n).length := by
    intro n; rw [idLists_length]; exact Nat.pow_pos (Nat.two_pow_pos 256)
  constructor
  · obtain ⟨good, h1, h2, h3⟩ := C87_most 1000 31 (by decide)
    have := pos 1000
    refine ⟨good, h1, by omega, ?_⟩
    intro l hl rng s hp he
    obtain ⟨t, ht, -⟩ := h3 l hl rng s hp he (.inr (ne (h1.subset hl) hp))
      (by have := s.minDepth.isLt; omega)
    exact ⟨t, ht⟩
  · obtain ⟨good, h1, h2, h3⟩ := C87_most 100 19 (by decide)
    have := pos 100
    refine ⟨good, h1, by omega, ?_⟩
    intro l hl rng s hp he hm
    exact h3 l hl rng s hp he (.inr (ne (h1.subset hl) hp)) hm

/-- Non-vacuity of C87: the ids of the sample differ modulo 8 but not modulo 4, and the sample is a
source with these ids. -/
example : Sample.source.minDepth.val = 2 ∧ Sample.source.staticEntropy.isSome ∧
    (Sample.source.ids.Pairwise fun p q => p.toNat % 2 ^ 3 ≠ q.toNat % 2 ^ 3) ∧
    ¬ (Sample.source.ids.Pairwise fun p q => p.toNat % 2 ^ 2 ≠ q.toNat % 2 ^ 2) ∧
    Sample.source.ids ∈ idLists 3 := by
  refine ⟨by decide, by decide, by decide, by decide, ?_⟩
  exact (mem_idLists _ _).2 rfl

/-- Of all pairs of ids, a quarter collides modulo 4. -/
example : 4 * (idLists 2).countP
    (fun l => decide (l.Pairwise fun p q => p.toNat % 2 ^ 2 ≠ q.toNat % 2 ^ 2))
      = 3 * (idLists 2).length := by
  rw [C87_count 2 2 (by decide), idLists_length]
  decide +kernel

end CSV
