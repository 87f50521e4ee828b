import Verif.Proofs.Fit
import Verif.Proofs.Commit
import Verif.Props.Commit
import Verif.Spec.Sample

/-!
# Which sets of protocols always fit (C04, C05)
-/

namespace CSV

/-- Number of protocols that fit whatever their ids are, by minimal depth. -/
def safeCount (minDepth : Nat) : Nat :=
  if minDepth ≤ 13 then 22 else if minDepth ≤ 18 then 21 else if minDepth ≤ 20 then 20
  else if minDepth ≤ 22 then 19 else if minDepth ≤ 23 then 18 else if minDepth ≤ 25 then 17
  else if minDepth ≤ 26 then 16 else if minDepth ≤ 27 then 15 else if minDepth ≤ 28 then 13
  else if minDepth ≤ 29 then 12 else if minDepth ≤ 30 then 10 else 1

private theorem keys_distinct {m : List (ProtocolId × Message)} (h : BMapOk m) :
    (m.map Prod.fst).Pairwise (· ≠ ·) := by
  rw [List.pairwise_map]
  refine List.Pairwise.imp ?_ h
  intro a b hlt e
  rw [e] at hlt
  exact Nat.lt_irrefl _ hlt

private theorem fits_of_lcm {ids : List ProtocolId} (hn : ids.Pairwise (· ≠ ·)) {m k n pairs : Nat}
    (hb : Enough k pairs) (hl : ids.length ≤ n) (hm : m ≤ 30 - k) (hk : k ≤ 17)
    (hn22 : n ≤ 22) (hp : n * (n - 1) = 2 * pairs) :
    ∃ d c, Attempt ids.length m d c ∧ Separates ids d c := by
  obtain ⟨d, h1, h2, c, hc, hs⟩ := separated_of_lcm hn (k := k) (pairs := pairs) (by omega)
    (by rw [← hp]; exact Nat.mul_le_mul hl (by omega)) (by unfold Enough at hb; exact hb)
  have h13 : (2:Nat) ^ 12 ≤ 2 ^ (d - 1) := Nat.pow_le_pow_right (by decide) (by omega)
  have h14 : (2:Nat) ^ 12 ≤ 2 ^ d := Nat.pow_le_pow_right (by decide) (by omega)
  refine ⟨d, c, ⟨by omega, h2, by omega, ?_⟩, hs⟩
  rw [maxCofactor, if_neg (by omega)]
  omega

private theorem fits_one {ids : List ProtocolId} {m : Nat} (hl : ids.length ≤ 1) (hm : m ≤ 31) :
    ∃ d c, Attempt ids.length m d c ∧ Separates ids d c := by
  refine ⟨31, 0, ⟨hm, Nat.le_refl _, Nat.le_trans hl (by decide), Nat.zero_le _⟩, ?_⟩
  rcases ids with _ | ⟨a, _ | ⟨b, l⟩⟩
  · exact List.Pairwise.nil
  · exact List.Pairwise.cons (fun _ h => nomatch h) List.Pairwise.nil
  · simp only [List.length_cons] at hl; omega

private theorem fits {ids : List ProtocolId} (hn : ids.Pairwise (· ≠ ·)) {m : Nat} (hm : m ≤ 31)
    (hl : ids.length ≤ safeCount m) : ∃ d c, Attempt ids.length m d c ∧ Separates ids d c := by
  unfold safeCount at hl
  split at hl
  · exact fits_of_lcm hn lcm_table.2.2.2.2.2.2.2.2.2.2 hl (by omega) (by decide) (by decide) rfl
  split at hl
  · exact fits_of_lcm hn lcm_table.2.2.2.2.2.2.2.2.2.1 hl (by omega) (by decide) (by decide) rfl
  split at hl
  · exact fits_of_lcm hn lcm_table.2.2.2.2.2.2.2.2.1 hl (by omega) (by decide) (by decide) rfl
  split at hl
  · exact fits_of_lcm hn lcm_table.2.2.2.2.2.2.2.1 hl (by omega) (by decide) (by decide) rfl
  split at hl
  · exact fits_of_lcm hn lcm_table.2.2.2.2.2.2.1 hl (by omega) (by decide) (by decide) rfl
  split at hl
  · exact fits_of_lcm hn lcm_table.2.2.2.2.2.1 hl (by omega) (by decide) (by decide) rfl
  split at hl
  · exact fits_of_lcm hn lcm_table.2.2.2.2.1 hl (by omega) (by decide) (by decide) rfl
  split at hl
  · exact fits_of_lcm hn lcm_table.2.2.2.1 hl (by omega) (by decide) (by decide) rfl
  split at hl
  · exact fits_of_lcm hn lcm_table.2.2.1 hl (by omega) (by decide) (by decide) rfl
  split at hl
  · exact fits_of_lcm hn lcm_table.2.1 hl (by omega) (by decide) (by decide) rfl
  split at hl
  · exact fits_of_lcm hn lcm_table.1 hl (by omega) (by decide) (by decide) rfl
  · exact fits_one hl hm

/-- **C04** A set of protocols that is small enough always fits, whatever the ids are: 22 protocols
if the minimal depth is at most 13 (the default is 3), 10 if it is at most 30 (the numbers in
between are in `safeCount`). -/
theorem C04_small_sets_fit (rng : Option UInt64) (s : MultiSource)
    (he : (s.staticEntropy.or rng).isSome) (h0 : s.minDepth.val ≠ 0 ∨ s.messages.entries ≠ [])
    (hn : s.messages.entries.length ≤ safeCount s.minDepth.val) :
    ∃ t, MerkleTree.tryCommit rng s = .ok (.ok t) := by
  obtain ⟨r, hr⟩ := C03_no_panic rng s he
  rw [hr]
  rcases r with e | t
  · exfalso
    rcases e with _ | n | n
    · have := (C03_empty_iff rng s).1 hr
      rcases h0 with h0 | h0
      · exact h0 this.1
      · exact h0 this.2
    · exact C03_never_too_many rng s n hr
    · obtain ⟨-, h⟩ := (C03_cant_fit_iff rng s n he).1 hr
      have hp : s.ids.Pairwise (· ≠ ·) := keys_distinct s.messages.sorted
      have hlen : s.ids.length = s.messages.entries.length := by simp [MultiSource.ids]
      obtain ⟨d, c, h1, h2⟩ := fits hp (m := s.minDepth.val) (by have := s.minDepth.isLt; omega)
        (by rw [hlen]; exact hn)
      rw [hlen] at h1
      exact h d c h1 h2
  · exact ⟨t, rfl⟩

/-- The two cases of **C04** in plain numbers. -/
theorem C04_numbers (rng : Option UInt64) (s : MultiSource)
    (he : (s.staticEntropy.or rng).isSome) (h0 : s.messages.entries ≠ [])
    (hn : (s.messages.entries.length ≤ 22 ∧ s.minDepth.val ≤ 13) ∨
      (s.messages.entries.length ≤ 10 ∧ s.minDepth.val ≤ 30) ∨
      (s.messages.entries.length = 1)) :
    ∃ t, MerkleTree.tryCommit rng s = .ok (.ok t) := by
  refine C04_small_sets_fit rng s he (.inr h0) ?_
  unfold safeCount
  repeat' split
  all_goals omega

/-- Non-vacuity of C04: three protocols of which two collide at the first attempt. -/
example : Sample.source.messages.entries.length = 3 ∧ Sample.source.minDepth.val = 2 ∧
    ¬ Separates Sample.source.ids 2 0 := by decide

private theorem evil_source (method : Method) (d : U5) (e : Option UInt64) (msg : Message)
    (ids : List ProtocolId) (hl : ids.length ≤ 2017) :
    ∃ s : MultiSource, s.method = method ∧ s.minDepth = d ∧ s.staticEntropy = e ∧
      s.messages.entries.length ≤ ids.length ∧ ∀ x ∈ ids, x ∈ s.ids := by
  obtain ⟨h1, h2, h3⟩ := bmapOfList_props (ids.map fun p => (p, msg))
  rw [List.length_map] at h2
  refine ⟨⟨method, d, ⟨bmapOfList (ids.map fun p => (p, msg)), h1, ?_⟩, e⟩, rfl, rfl, rfl, h2, ?_⟩
  · simp only [MEDIUM_MAX]; omega
  · intro x hx
    rw [MultiSource.ids, h3, List.map_map]
    exact List.mem_map.2 ⟨x, hx, rfl⟩

/-- **C05** For every minimal depth there is a set of protocols that does not fit, of at most
`1 + 63 * (32 - minDepth)` protocols: whatever the method and the entropy, `try_commit` fails with
`CantFitInMaxSlots`. -/
theorem C05_adversarial_sets (method : Method) (d : U5) (e : UInt64) (rng : Option UInt64) :
    ∃ s : MultiSource, s.method = method ∧ s.minDepth = d ∧ s.staticEntropy = some e ∧
      s.messages.entries.length ≤ 1 + 63 * (32 - d.val) ∧
      MerkleTree.tryCommit rng s
        = .ok (.error (.cantFitInMaxSlots s.messages.entries.length)) := by
  have hd := d.isLt
  have hlen := evilIds_length d.val
  obtain ⟨s, h1, h2, h3, h4, h5⟩ := evil_source method d (some e) (Bytes32.fill 0)
    (evilIds d.val) (by omega)
  refine ⟨s, h1, h2, h3, by omega, ?_⟩
  rw [C03_cant_fit_iff rng s _ (by rw [h3]; rfl)]
  refine ⟨rfl, ?_⟩
  rintro d' c ⟨h6, h7, -, h8⟩
  rw [h2] at h6
  refine evilIds_collide h5 h6 h7 ?_
  unfold maxCofactor at h8
  split at h8 <;> omega

/-- Two protocols that collide in all attempts at minimal depth 31. -/
def Sample.stuck (method : Method) (e : Option UInt64) : MultiSource :=
  ⟨method, 31, ⟨[(Bytes32.ofNat 0, Bytes32.fill 1),
    (Bytes32.ofNat (2 ^ 31 * (2 ^ 31 - 1)), Bytes32.fill 2)], by decide +kernel, by decide⟩, e⟩

/-- **C05** At minimal depth 31 already two protocols may not fit. -/
theorem C05_two_at_maximal_depth (method : Method) (e : UInt64) (rng : Option UInt64) :
    (Sample.stuck method (some e)).messages.entries.length = 2 ∧
    MerkleTree.tryCommit rng (Sample.stuck method (some e))
      = .ok (.error (.cantFitInMaxSlots 2)) := by
  refine ⟨rfl, ?_⟩
  rw [C03_cant_fit_iff rng _ _ rfl]
  refine ⟨rfl, ?_⟩
  rintro d c ⟨h6, h7, -, h8⟩
  have hd : d = 31 := by
    have : (Sample.stuck method (some e)).minDepth.val = 31 := rfl
    omega
  subst hd
  have hc : c ≤ 1 := h8
  have : c = 0 ∨ c = 1 := by omega
  have hi : (Sample.stuck method (some e)).ids
    = [Bytes32.ofNat 0, Bytes32.ofNat (2 ^ 31 * (2 ^ 31 - 1))] := rfl
  rw [hi]
  rcases this with rfl | rfl
  · decide +kernel
  · decide +kernel

end CSV
