import Verif.Props.Absence
import Verif.Props.Known

/-!
# Who takes part is decided when a commitment is published (C118)
-/

namespace CSV

open Later

/-- **C118** Somebody asks for `q` hashes, publishes a commitment and asks for `k` more hashes. For all but a share of
`((q + k) (q + k - 1) / 2 + k (3 q + 1)) / 2^256` of all tapes: if in one future of the publication the absence of a
protocol can be shown with a block, then in no future can a message of this protocol be proven; and proofs for one slot
in two futures are for one protocol and one message. -/
theorem C118_absent (ask : Transcript → Bytes) (publish : Transcript → Commitment) (q k : Nat) :
    ∃ good : List (List Bytes32), good.Sublist (idLists (q + k)) ∧
      2 * 2 ^ 256 * (idLists (q + k)).length ≤ 2 * 2 ^ 256 * good.length +
        ((q + k) * (q + k - 1) + 2 * (k * (3 * q + 1))) * (idLists (q + k)).length ∧
      ∀ tape ∈ good, ∀ tape' ∈ good, Transcript.run ask q tape [] = Transcript.run ask q tape' [] →
        (∀ x ∈ tagStrings, x ∈ (Transcript.run ask q tape []).strings) →
        ∀ e e' : Env, (Transcript.run ask (q + k) tape []).Of e → (Transcript.run ask (q + k) tape' []).Of e' →
        ∀ (pr' : MerkleProof) (p' : ProtocolId) (m' : Message), pr'.path.length ≤ 32 →
        (∀ x ∈ @proofInputs e' pr' p' m', x ∈ (Transcript.run ask (q + k) tape' []).strings) →
        @MerkleProof.convolve e' pr' p' m' = .ok (.ok (publish (Transcript.run ask q tape' []))) →
        (∀ (b : MerkleBlock) (t : PT) (rest : List TreeNode), b.crossSection = t.frontier 0 ++ rest →
          t.Fits (min (b.depth.val + 1) 31) b.depth.val 0 →
          @MerkleBlock.commitId e b = .ok (publish (Transcript.run ask q tape [])) → ∀ ent : UInt64,
          (∀ x ∈ @leafInput e (.entropy ent (b.protocolIdPos p')) :: @blockInputs e b.depth b.cofactor t,
            x ∈ (Transcript.run ask (q + k) tape []).strings) →
          ¬ @PT.Excludes e t b.depth.val (b.protocolIdPos p').toNat p' ent) ∧
        (∀ (pr : MerkleProof) (p : ProtocolId) (m : Message), pr.path.length ≤ 32 → pr.pos = pr'.pos →
          (∀ x ∈ @proofInputs e pr p m, x ∈ (Transcript.run ask (q + k) tape []).strings) →
          @MerkleProof.convolve e pr p m = .ok (.ok (publish (Transcript.run ask q tape []))) →
          p = p' ∧ m = m' ∧ pr = pr') := by
  obtain ⟨g1, s1, n1, c1⟩ := C112_known ask publish q k
  obtain ⟨g2, s2, n2, c2⟩ := C89_no_collision ask (q + k)
  obtain ⟨g, s3, n3, c3⟩ := both_sublists s1 s2
  refine ⟨g, s3, ?_, ?_⟩
  · rw [Nat.add_mul, Nat.mul_assoc 2 (k * (3 * q + 1))]
    generalize k * (3 * q + 1) * (idLists (q + k)).length = A at *
    generalize (q + k) * (q + k - 1) * (idLists (q + k)).length = B at *
    generalize (idLists (q + k)).length = L at *
    omega
  intro tape ht tape' ht' hsame htag e e' he he' pr' p' m' hl' hi' hc'
  have hin' := (c1 tape' (c3 tape' ht').1 e' he').1 pr' p' m' hl' hi' hc'
  rw [← hsame] at hin' hc'
  have hagree : SameHashes e' e (Transcript.run ask q tape []).strings := by
    intro x hx
    obtain ⟨y, hy, rfl⟩ := List.mem_map.1 hx
    rw [he y (run_extends ask k q tape [] y hy), he' y (run_extends ask k q tape' [] y (hsame ▸ hy))]
  have hp := proofInputs_agree (fun x hx => hagree x (htag x hx)) (fun x hx => hagree x (hin' x hx))
  have hv := ((C84_proof e' pr' hl' p' m').2 e fun x hx => by
    rcases List.mem_append.1 hx with hx | hx
    · exact hagree x (htag x hx)
    · exact hagree x (hin' x hx)).trans hc'
  have hlate : ∀ x ∈ @proofInputs e pr' p' m', x ∈ (Transcript.run ask (q + k) tape []).strings := by
    intro x hx
    rw [hp] at hx
    obtain ⟨y, hy, rfl⟩ := List.mem_map.1 (hin' x hx)
    exact List.mem_map_of_mem (run_extends ask k q tape [] y hy)
  letI := e
  have hno : NoCollision (Transcript.run ask (q + k) tape []).strings := c2 tape (c3 tape ht).2 e he
  refine ⟨?_, ?_⟩
  · intro b t rest hcs hf hb ent hi hx
    refine C86_absent b t rest _ hcs hf hb p' ent hx pr' hl' m' (hno.mono fun x hx => ?_) hv
    exact (List.mem_append.1 hx).elim (hlate x) (hi x)
  · intro pr p m hl hpos hi hc
    refine C86_slot pr pr' p p' m m' _ hl hl' hpos (hno.mono fun x hx => ?_) hc hv
    exact (List.mem_append.1 hx).elim (hi x) (hlate x)

private theorem compat_slots [Env] {w : Nat} {p p' : ProtocolId} {m m' : Message} : ∀ {n : Nat} {t t' : PT} {pos d : Nat},
    t.Compat w t' d → t.slotAt n pos = some (.leaf p m) → t'.slotAt n pos = some (.leaf p' m') → p = p' ∧ m = m' := by
  intro n
  induction n with
  | zero =>
    intro t t' pos d h h1 h2
    rw [PT.slotAt] at h1 h2
    cases h1
    cases h2
    exact h
  | succ n ih =>
    intro t t' pos d h h1 h2
    match t, t', h, h1, h2 with
    | .node l r, .node l' r', h, h1, h2 =>
      rw [PT.slotAt] at h1 h2
      split at h1
      · next hp => rw [if_pos hp] at h2; exact ih h.2 h1 h2
      · next hp => rw [if_neg hp] at h2; exact ih h.1 h1 h2

/-- **C118** What blocks show is decided as well: for all but that share of all tapes, a well-formed block in one future and any
block in another, both with the published commitment, are for trees of one depth and cofactor and go together: wherever
neither hides it, both show the same, and what one hides has the hash of what the other shows. -/
theorem C118_blocks (ask : Transcript → Bytes) (publish : Transcript → Commitment) (q k : Nat) :
    ∃ good : List (List Bytes32), good.Sublist (idLists (q + k)) ∧
      2 * 2 ^ 256 * (idLists (q + k)).length ≤ 2 * 2 ^ 256 * good.length +
        ((q + k) * (q + k - 1) + 2 * (k * (3 * q + 1))) * (idLists (q + k)).length ∧
      ∀ tape ∈ good, ∀ tape' ∈ good, Transcript.run ask q tape [] = Transcript.run ask q tape' [] →
        (∀ x ∈ tagStrings, x ∈ (Transcript.run ask q tape []).strings) →
        ∀ e e' : Env, (Transcript.run ask (q + k) tape []).Of e → (Transcript.run ask (q + k) tape' []).Of e' →
        ∀ (b b' : MerkleBlock) (t t' : PT) (rest : List TreeNode), b.Shows t → b'.crossSection = t'.frontier 0 ++ rest →
          t'.Fits (min (b'.depth.val + 1) 31) b'.depth.val 0 →
          (∀ x ∈ @blockInputs e b.depth b.cofactor t, x ∈ (Transcript.run ask (q + k) tape []).strings) →
          (∀ x ∈ @blockInputs e' b'.depth b'.cofactor t', x ∈ (Transcript.run ask (q + k) tape' []).strings) →
          @MerkleBlock.commitId e b = .ok (publish (Transcript.run ask q tape [])) →
          @MerkleBlock.commitId e' b' = .ok (publish (Transcript.run ask q tape' [])) →
          b.depth = b'.depth ∧ b.cofactor = b'.cofactor ∧ @PT.Compat e (2 ^ b.depth.val) t t' 0 ∧
          ∀ pos p m p' m', t.slotAt b.depth.val pos = some (.leaf p m) →
            t'.slotAt b'.depth.val pos = some (.leaf p' m') → p = p' ∧ m = m' := by
  obtain ⟨g1, s1, n1, c1⟩ := C112_known ask publish q k
  obtain ⟨g2, s2, n2, c2⟩ := C89_no_collision ask (q + k)
  obtain ⟨g, s3, n3, c3⟩ := both_sublists s1 s2
  refine ⟨g, s3, ?_, ?_⟩
  · rw [Nat.add_mul, Nat.mul_assoc 2 (k * (3 * q + 1))]
    generalize k * (3 * q + 1) * (idLists (q + k)).length = A at *
    generalize (q + k) * (q + k - 1) * (idLists (q + k)).length = B at *
    generalize (idLists (q + k)).length = L at *
    omega
  intro tape ht tape' ht' hsame htag e e' he he' b b' t t' rest hb hcs' hf' hi hi' hc hc'
  have hin' := (c1 tape' (c3 tape' ht').1 e' he').2 b' t' rest hcs' hf' hi' hc'
  rw [← hsame] at hin' hc'
  have hagree : SameHashes e' e (Transcript.run ask q tape []).strings := by
    intro x hx
    obtain ⟨y, hy, rfl⟩ := List.mem_map.1 hx
    rw [he y (run_extends ask k q tape [] y hy), he' y (run_extends ask k q tape' [] y (hsame ▸ hy))]
  have htag' : SameHashes e' e tagStrings := fun x hx => hagree x (htag x hx)
  have hsub : SameHashes e' e (@blockInputs e' b'.depth b'.cofactor t') := fun x hx => hagree x (hin' x hx)
  obtain ⟨r1, r2⟩ := PT.inputs_agree htag' t' 0 fun x hx => hsub x (List.mem_cons_of_mem _ hx)
  have hmpc : e.sha256 (utf8 MPC_TAG) = e'.sha256 (utf8 MPC_TAG) :=
    htag' _ (List.mem_cons_of_mem _ (List.mem_cons_self ..))
  have hp : @blockInputs e b'.depth b'.cofactor t' = @blockInputs e' b'.depth b'.cofactor t' := by
    simp only [blockInputs, r1, r2, commitmentInput, taggedInput, sha, hmpc]
  obtain ⟨u, rest', hcs2, hf2, hcm⟩ := (@C29_both_profiles e' b').2 _ hc'
  have hD := b'.depth.isLt
  obtain ⟨rfl, -⟩ := frontier_inj (by omega) (by omega) hf' hf2 (hcs'.symm.trans hcs2)
  have hroot := commitment_agree htag' hsub
  have hbc := @shows_commitId e b t hb
  rw [hc] at hbc
  injection hbc with hbc
  letI := e
  have hno : NoCollision (Transcript.run ask (q + k) tape []).strings := c2 tape (c3 tape ht).2 e he
  obtain ⟨hd, hco, hcomp⟩ := PT.Compat.ofRoot hb (b2 := b') (t2 := t') (hno.mono fun x hx => by
    rcases List.mem_append.1 hx with hx | hx
    · exact hi x hx
    · rw [hp] at hx
      obtain ⟨y, hy, rfl⟩ := List.mem_map.1 (hin' x hx)
      exact List.mem_map_of_mem (run_extends ask k q tape [] y hy)) (by rw [hroot, ← hcm]; exact hbc.symm)
  exact ⟨hd, hco, hcomp, fun pos p m p' m' h1 h2 => compat_slots hcomp h1 (hd ▸ h2)⟩

/-- **C118** In numbers: with at most `2^64` hashes in total, who takes part is undecided at the publication for less than one
tape in `2^126`. -/
theorem C118_numbers (ask : Transcript → Bytes) (publish : Transcript → Commitment) (q k : Nat) (hn : q + k ≤ 2 ^ 64) :
    ∃ good : List (List Bytes32), good.Sublist (idLists (q + k)) ∧
      2 ^ 126 * ((idLists (q + k)).length - good.length) < (idLists (q + k)).length ∧
      ∀ tape ∈ good, ∀ tape' ∈ good, Transcript.run ask q tape [] = Transcript.run ask q tape' [] →
        (∀ x ∈ tagStrings, x ∈ (Transcript.run ask q tape []).strings) →
        ∀ e e' : Env, (Transcript.run ask (q + k) tape []).Of e → (Transcript.run ask (q + k) tape' []).Of e' →
        ∀ (b : MerkleBlock) (t : PT) (rest : List TreeNode), b.crossSection = t.frontier 0 ++ rest →
        t.Fits (min (b.depth.val + 1) 31) b.depth.val 0 →
        @MerkleBlock.commitId e b = .ok (publish (Transcript.run ask q tape [])) → ∀ (p : ProtocolId) (ent : UInt64),
        (∀ x ∈ @leafInput e (.entropy ent (b.protocolIdPos p)) :: @blockInputs e b.depth b.cofactor t,
          x ∈ (Transcript.run ask (q + k) tape []).strings) →
        @PT.Excludes e t b.depth.val (b.protocolIdPos p).toNat p ent →
        ∀ (pr : MerkleProof) (m : Message), pr.path.length ≤ 32 →
        (∀ x ∈ @proofInputs e' pr p m, x ∈ (Transcript.run ask (q + k) tape' []).strings) →
        @MerkleProof.convolve e' pr p m ≠ .ok (.ok (publish (Transcript.run ask q tape' []))) := by
  obtain ⟨good, h1, h2, h3⟩ := C118_absent ask publish q k
  refine ⟨good, h1, ?_, fun tape ht tape' ht' hsame htag e e' he he' b t rest hcs hf hb p ent hi hx pr m hl hi' hc =>
    (h3 tape ht tape' ht' hsame htag e e' he he' pr p m hl hi' hc).1 b t rest hcs hf hb ent hi hx⟩
  have hp : 0 < (idLists (q + k)).length := by
    rw [idLists_length]; exact Nat.pow_pos (Nat.two_pow_pos 256)
  have a1 : (q + k) * (q + k - 1) ≤ 2 ^ 64 * 2 ^ 64 := Nat.mul_le_mul hn (by omega)
  have a2 : k * (3 * q + 1) ≤ 2 ^ 64 * (3 * 2 ^ 64 + 1) := Nat.mul_le_mul (by omega) (by omega)
  have := Nat.mul_le_mul_right (idLists (q + k)).length (Nat.add_le_add a1 (Nat.mul_le_mul_left 2 a2))
  generalize ((q + k) * (q + k - 1) + 2 * (k * (3 * q + 1))) * (idLists (q + k)).length = X at *
  generalize (idLists (q + k)).length = N at *
  omega

private abbrev later (b : UInt8) : Env := ⟨fun s => if s = [] then Bytes32.fill b else Bytes32.fill 7, true⟩

private def shown : PT :=
  .node (.node (.leaf Sample.p6 Sample.m6) (.leaf Sample.p1 Sample.m1))
    (.node (.leaf Sample.p5 Sample.m5) (.hidden (Bytes32.fill 7)))

/-- Somebody hashes the tags, all that is hashed for a block of three messages and the leaf for a free slot, publishes the
commitment and hashes one string more. In either future the block shows that protocol 9 is absent. -/
example : ∃ (e e' : Env) (ask : Transcript → Bytes) (publish : Transcript → Commitment) (q : Nat) (tape tape' : List Bytes32)
    (b : MerkleBlock), tape ∈ idLists (q + 1) ∧ tape' ∈ idLists (q + 1) ∧ tape ≠ tape' ∧
    Transcript.run ask q tape [] = Transcript.run ask q tape' [] ∧
    (∀ x ∈ tagStrings, x ∈ (Transcript.run ask q tape []).strings) ∧
    (Transcript.run ask (q + 1) tape []).Of e ∧ (Transcript.run ask (q + 1) tape' []).Of e' ∧
    b.crossSection = shown.frontier 0 ++ [] ∧ shown.Fits (min (b.depth.val + 1) 31) b.depth.val 0 ∧
    @MerkleBlock.commitId e b = .ok (publish (Transcript.run ask q tape [])) ∧
    (∀ x ∈ @leafInput e (.entropy 77 (b.protocolIdPos Sample.p9)) :: @blockInputs e b.depth b.cofactor shown,
      x ∈ (Transcript.run ask (q + 1) tape []).strings) ∧
    @PT.Excludes e shown b.depth.val (b.protocolIdPos Sample.p9).toNat Sample.p9 77 ∧ b.Shows shown ∧
    @MerkleBlock.commitId e' b = .ok (publish (Transcript.run ask q tape' [])) ∧
    (∀ x ∈ @blockInputs e' b.depth b.cofactor shown, x ∈ (Transcript.run ask (q + 1) tape' []).strings) := by
  let S := (tagStrings ++ @leafInput (later 1) (.entropy 77 0) :: @blockInputs (later 1) 2 1 shown).eraseDups
  refine ⟨later 1, later 2, fun m => S.getD m.length [], fun _ => Bytes32.fill 7, S.length,
    S.map (fun _ => Bytes32.fill 7) ++ [Bytes32.fill 1], S.map (fun _ => Bytes32.fill 7) ++ [Bytes32.fill 2],
    ⟨.sha256t, 2, 1, shown.frontier 0, none⟩, (mem_idLists _ _).2 (by simp), (mem_idLists _ _).2 (by simp),
    by decide +kernel, by decide +kernel, by decide +kernel, ?_, ?_, (List.append_nil _).symm, by simp [shown, PT.Fits],
    by with_unfolding_all rfl, by decide +kernel, by decide +kernel, ⟨rfl, by simp [shown, PT.Fits]⟩,
    by with_unfolding_all rfl, by decide +kernel⟩
  · unfold Transcript.Of; decide +kernel
  · unfold Transcript.Of; decide +kernel

end CSV
