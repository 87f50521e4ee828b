import Verif.Props.Known
import Verif.Props.Received
import Verif.Props.Unique

/-!
# How long it takes to find another opening of somebody's commitment (C114)

With `2^128` hashes somebody finds two strings with one hash. For a commitment which somebody else made, and of which
all hashes were computed by the time it was published, this does not help: none of the hashes computed later counts.
-/

namespace CSV

open Later

/-- **C114** Somebody asks for `q` hashes - among them all those of a tree - publishes its commitment, and then `k` more
hashes are asked for, by whatever strategy. For all but a share of `(q (q - 1) / 2 + k (3 q + 1)) / 2^256` of all tapes,
a proof verifying to the commitment is the one the tree gives, for a message of the tree, and a block with this
commitment id shows a part of the tree. (Supposed the strings hashed for them are among those asked for at all.) -/
theorem C114_committed (ask : Transcript → Bytes) (publish : Transcript → Commitment) (q k : Nat) :
    ∃ good : List (List Bytes32), good.Sublist (idLists (q + k)) ∧
      2 * 2 ^ 256 * (idLists (q + k)).length ≤ 2 * 2 ^ 256 * good.length +
        (q * (q - 1) + 2 * (k * (3 * q + 1))) * (idLists (q + k)).length ∧
      ∀ tape ∈ good, ∀ e : Env, (Transcript.run ask (q + k) tape []).Of e →
        ∀ T : MerkleTree, T.Holds → (∀ x ∈ @MerkleTree.inputs e T, x ∈ (Transcript.run ask q tape []).strings) →
        @MerkleTree.commitId e T = .ok (publish (Transcript.run ask q tape [])) →
        (∀ (pr : MerkleProof) (p : ProtocolId) (m : Message), pr.path.length ≤ 32 →
          (∀ x ∈ @proofInputs e pr p m, x ∈ (Transcript.run ask (q + k) tape []).strings) →
          @MerkleProof.convolve e pr p m = .ok (.ok (publish (Transcript.run ask q tape []))) →
          T.messages.get p = some m ∧
          ∃ b, @MerkleBlock.fromTree e T = .ok b ∧ @MerkleBlock.toMerkleProof e b p = .ok (.ok pr)) ∧
        (∀ b : MerkleBlock, @MerkleBlock.commitId e b = .ok (publish (Transcript.run ask q tape [])) →
          ∃ (t : PT) (rest : List TreeNode), b.crossSection = t.frontier 0 ++ rest ∧
            t.Fits (min (b.depth.val + 1) 31) b.depth.val 0 ∧
            ((∀ x ∈ @blockInputs e b.depth b.cofactor t, x ∈ (Transcript.run ask (q + k) tape []).strings) →
              @MerkleBlock.OfTree e { b with crossSection := t.frontier 0 } T)) := by
  obtain ⟨g1, s1, n1, c1⟩ := C112_known ask publish q k
  obtain ⟨g0, s0, n0, c0⟩ := C89_no_collision ask q
  obtain ⟨g2, s2, n2, c2⟩ := Later.lift (k := k) s0 n0
  obtain ⟨g, s3, n3, c3⟩ := both_sublists s1 s2
  refine ⟨g, s3, ?_, ?_⟩
  · rw [Nat.add_mul, Nat.mul_assoc 2 (k * (3 * q + 1))]
    generalize k * (3 * q + 1) * (idLists (q + k)).length = A at *
    generalize q * (q - 1) * (idLists (q + k)).length = B at *
    generalize (idLists (q + k)).length = L at *
    omega
  intro tape ht e he T hT hTi hTc
  obtain ⟨k1, k2⟩ := c1 tape (c3 tape ht).1 e he
  letI := e
  have hno : NoCollision (Transcript.run ask q tape []).strings := by
    have := c0 _ (c2 tape (c3 tape ht).2) e
    rw [run_take ask q tape [] q (Nat.le_refl _)] at this
    exact this fun x hx => he x (run_extends ask k q tape [] x hx)
  refine ⟨?_, ?_⟩
  · intro pr p m hl hi hc
    have hin := k1 pr p m hl hi hc
    exact C21_only_committed T hT pr hl p m _ (hno.mono fun x hx =>
      (List.mem_append.1 hx).elim (hin x) (hTi x)) hTc hc
  · intro b hb
    obtain ⟨t, rest, h1, h2, -, h3⟩ := C63_received T b _ hTc hb
    refine ⟨t, rest, h1, h2, fun hi => ?_⟩
    have hin := k2 b t rest h1 h2 hi hb
    exact h3 (hno.mono fun x hx => (List.mem_append.1 hx).elim (hin x) (hTi x))

/-- **C114** In numbers: after `2^20` hashes and a publication, `2^200` more hashes give another opening for less than one
tape in `2^34`. -/
theorem C114_numbers (ask : Transcript → Bytes) (publish : Transcript → Commitment) (q k : Nat)
    (hq : q ≤ 2 ^ 20) (hk : k ≤ 2 ^ 200) :
    ∃ good : List (List Bytes32), good.Sublist (idLists (q + k)) ∧
      2 ^ 34 * ((idLists (q + k)).length - good.length) < (idLists (q + k)).length ∧
      ∀ tape ∈ good, ∀ e : Env, (Transcript.run ask (q + k) tape []).Of e →
        ∀ T : MerkleTree, T.Holds → (∀ x ∈ @MerkleTree.inputs e T, x ∈ (Transcript.run ask q tape []).strings) →
        @MerkleTree.commitId e T = .ok (publish (Transcript.run ask q tape [])) →
        ∀ (pr : MerkleProof) (p : ProtocolId) (m : Message), pr.path.length ≤ 32 →
          (∀ x ∈ @proofInputs e pr p m, x ∈ (Transcript.run ask (q + k) tape []).strings) →
          @MerkleProof.convolve e pr p m = .ok (.ok (publish (Transcript.run ask q tape []))) →
          T.messages.get p = some m := by
  obtain ⟨good, h1, h2, h3⟩ := C114_committed ask publish q k
  refine ⟨good, h1, ?_, fun tape ht e he T hT hTi hTc pr p m hl hi hc =>
    ((h3 tape ht e he T hT hTi hTc).1 pr p m hl hi hc).1⟩
  have hp : 0 < (idLists (q + k)).length := by
    rw [idLists_length]; exact Nat.pow_pos (Nat.two_pow_pos 256)
  have a1 : q * (q - 1) ≤ 2 ^ 20 * 2 ^ 20 := Nat.mul_le_mul (by omega) (by omega)
  have a2 : k * (3 * q + 1) ≤ 2 ^ 200 * (3 * 2 ^ 20 + 1) := Nat.mul_le_mul (by omega) (by omega)
  have := Nat.mul_le_mul_right (idLists (q + k)).length
    (Nat.add_le_add a1 (Nat.mul_le_mul_left 2 a2))
  generalize (q * (q - 1) + 2 * (k * (3 * q + 1))) * (idLists (q + k)).length = X at *
  generalize (idLists (q + k)).length = N at *
  omega

/-- Somebody hashes the tags and the tree of `Verif.Spec.Sample`, its commitment last, and publishes that answer; then
one more hash is asked for. The proof of the tree for its first message verifies. -/
example : ∃ (e : Env) (ask : Transcript → Bytes) (publish : Transcript → Commitment) (q : Nat) (tape : List Bytes32)
    (T : MerkleTree) (pr : MerkleProof) (p : ProtocolId) (m : Message),
    tape ∈ idLists (q + 1) ∧ (Transcript.run ask (q + 1) tape []).Of e ∧ T.Holds ∧
    (∀ x ∈ @MerkleTree.inputs e T, x ∈ (Transcript.run ask q tape []).strings) ∧
    @MerkleTree.commitId e T = .ok (publish (Transcript.run ask q tape [])) ∧ pr.path.length ≤ 32 ∧
    (∀ x ∈ @proofInputs e pr p m, x ∈ (Transcript.run ask (q + 1) tape []).strings) ∧
    @MerkleProof.convolve e pr p m = .ok (.ok (publish (Transcript.run ask q tape []))) ∧ 0 < pr.path.length := by
  let e : Env := ⟨fun s => Bytes32.fill (s.foldl (fun a b => a * 3 + b + 1) 0), true⟩
  let S := tagStrings ++ (@MerkleTree.inputs e Sample.tree).eraseDups.reverse
  refine ⟨e, fun m => S.getD m.length [], fun m => (m.headD ([], Bytes32.fill 0)).2, S.length,
    (S ++ [[]]).map e.sha256, Sample.tree, @Sample.proof1 e, Sample.p1, Sample.m1, (mem_idLists _ _).2 ?_, ?_,
    Sample.holds, ?_, ?_, ?_, ?_, ?_, ?_⟩
  · decide +kernel
  · unfold Transcript.Of; decide +kernel
  · decide +kernel
  · exact (@tree_commitId e _).trans (congrArg Except.ok (by decide +kernel))
  · decide +kernel
  · decide +kernel
  · exact (@Sample.proof1_convolve e).trans (congrArg (fun c => Except.ok (Except.ok c)) (by decide +kernel))
  · decide +kernel

end CSV
