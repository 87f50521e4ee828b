import Verif.Proofs.Later
import Verif.Props.Oracle
import Verif.Props.Hashed

/-!
# What can be opened is decided when the commitment is published (C112)

Binding (C18, C89) says that a commitment is not opened in two ways. It does not say that whoever publishes a
commitment has decided on the message by then. Here is how often they have not, if hashes are random.
-/

namespace CSV

/-! ## Values that are fixed by the questions and answers so far -/

/-- The 32 bytes of a string from an offset on. -/
private def chunk (off : Nat) (s : Bytes) : Bytes32 :=
  if h : ((s.drop off).take 32).length = 32 then ⟨(s.drop off).take 32, h⟩ else Bytes32.fill 0

private theorem chunk_eq {off : Nat} {s a b : Bytes} {r : Bytes32} (hs : s = a ++ (r.bytes ++ b))
    (ha : a.length = off) : chunk off s = r := by
  have : (s.drop off).take 32 = r.bytes := by
    rw [hs, ← ha, List.drop_left, ← r.len, List.take_left]
  unfold chunk
  rw [dif_pos (by rw [this, r.len])]
  exact Bytes32.ext' this

/-- What is published, and the hashes in the strings asked for. -/
private def fixed (publish : Transcript → Bytes32) (m : Transcript) : List Bytes32 :=
  publish m :: m.flatMap fun e => [chunk 67 e.1, chunk 98 e.1, chunk 130 e.1]

private theorem fixed_length (publish : Transcript → Bytes32) (m : Transcript) :
    (fixed publish m).length = 3 * m.length + 1 := by
  have : (m.flatMap fun e => [chunk 67 e.1, chunk 98 e.1, chunk 130 e.1]).length = 3 * m.length := by
    induction m with
    | nil => rfl
    | cons e m ih => rw [List.flatMap_cons, List.length_append, ih, List.length_cons]; simp; omega
  rw [fixed, List.length_cons, this]

private theorem root_chunk [Env] (D : U5) (c : UInt16) (r : Bytes32) :
    chunk 67 (commitmentInput ⟨D, c, r⟩) = r := by
  refine chunk_eq (a := (sha (utf8 MPC_TAG)).bytes ++ (sha (utf8 MPC_TAG)).bytes ++ (encU5 D ++ encU16 c)) (b := [])
    ?_ ?_
  · simp [commitmentInput, taggedInput, MerkleConcealed.enc, encBytes32]
  · simp [(sha (utf8 MPC_TAG)).len, encU5, encU16, leBytes_length]

private theorem left_chunk [Env] (d w : Nat) (l r : Bytes32) : chunk 98 (branchInput d w l r) = l := by
  refine chunk_eq (a := (sha (utf8 MERKLE_TAG)).bytes ++ (sha (utf8 MERKLE_TAG)).bytes ++
    (encU8 NodeBranching.branch.toU8 ++ encU8 (UInt8.ofNat d) ++ encU256 (BitVec.ofNat 256 w))) (b := r.bytes) ?_ ?_
  · simp [branchInput, taggedInput, MerkleNode.enc, encBytes32]
  · simp [(sha (utf8 MERKLE_TAG)).len, encU8, encU256, leBytes_length]

private theorem right_chunk [Env] (d w : Nat) (l r : Bytes32) : chunk 130 (branchInput d w l r) = r := by
  refine chunk_eq (a := (sha (utf8 MERKLE_TAG)).bytes ++ (sha (utf8 MERKLE_TAG)).bytes ++
    (encU8 NodeBranching.branch.toU8 ++ encU8 (UInt8.ofNat d) ++ encU256 (BitVec.ofNat 256 w) ++ l.bytes)) (b := [])
    ?_ ?_
  · simp [branchInput, taggedInput, MerkleNode.enc, encBytes32]
  · simp [(sha (utf8 MERKLE_TAG)).len, encU8, encU256, leBytes_length, l.len]

private theorem mem_fixed {publish : Transcript → Bytes32} {m : Transcript} {s : Bytes} (h : s ∈ m.strings) :
    chunk 67 s ∈ fixed publish m ∧ chunk 98 s ∈ fixed publish m ∧ chunk 130 s ∈ fixed publish m := by
  obtain ⟨e, he, rfl⟩ := List.mem_map.1 h
  simp only [fixed, List.mem_cons, List.mem_flatMap, List.not_mem_nil, or_false]
  exact ⟨.inr ⟨e, he, .inl rfl⟩, .inr ⟨e, he, .inr (.inl rfl)⟩, .inr ⟨e, he, .inr (.inr rfl)⟩⟩

/-! ## Strings asked for in time -/

open Later

private theorem inTime_inputs {publish : Transcript → Bytes32} {early all : Transcript}
    (h : InTime (fixed publish) early all) {e : Env} (he : all.Of e) {w : Nat} : ∀ (t : PT) (d : Nat),
    @PT.root e w t d ∈ fixed publish early → (∀ x ∈ @PT.inputs e w t d, x ∈ all.strings) →
    ∀ x ∈ @PT.inputs e w t d, x ∈ early.strings := by
  letI := e
  intro t
  induction t with
  | hidden _ => intro d _ _ x hx; cases hx
  | leaf p m =>
    intro d hr hi x hx
    have : x = leafInput (.inhabited p m) := List.mem_singleton.1 hx
    subst this
    exact h.early he (hi _ hx) hr
  | node l r ihl ihr =>
    intro d hr hi
    have h0 := h.early he (hi _ (List.mem_cons_self ..)) hr
    obtain ⟨-, h1, h2⟩ := mem_fixed (publish := publish) h0
    rw [left_chunk] at h1
    rw [right_chunk] at h2
    intro x hx
    rcases List.mem_cons.1 hx with rfl | hx
    · exact h0
    rcases List.mem_append.1 hx with hx | hx
    · exact ihl _ h1 (fun y hy => hi y (List.mem_cons_of_mem _ (List.mem_append_left _ hy))) x hx
    · exact ihr _ h2 (fun y hy => hi y (List.mem_cons_of_mem _ (List.mem_append_right _ hy))) x hx

private theorem inTime_block {publish : Transcript → Bytes32} {early all : Transcript}
    (h : InTime (fixed publish) early all) {e : Env} (he : all.Of e) {D : U5} {c : UInt16} {t : PT}
    (hc : @commitmentHash e ⟨D, c, @PT.root e (2 ^ D.val) t 0⟩ = publish early)
    (hi : ∀ x ∈ @blockInputs e D c t, x ∈ all.strings) : ∀ x ∈ @blockInputs e D c t, x ∈ early.strings := by
  letI := e
  have h0 := h.early he (hi _ (List.mem_cons_self ..)) (by
    show commitmentHash _ ∈ _
    rw [hc]
    exact List.mem_cons_self ..)
  have h1 := (mem_fixed (publish := publish) h0).1
  rw [root_chunk] at h1
  intro x hx
  rcases List.mem_cons.1 hx with rfl | hx
  · exact h0
  · exact inTime_inputs h he t 0 h1 (fun y hy => hi y (List.mem_cons_of_mem _ hy)) x hx

/-- **C112** Somebody asks for `q` hashes, then publishes a commitment - any value, chosen with the answers in mind - and
asks for `k` more hashes. For all but a share of `k (3 q + 1) / 2^256` of all tapes, all strings hashed on verifying a
proof to this commitment, or for this commitment of a block, were asked for before it was published: the message with
its protocol among them. (Supposed they are among those asked for at all.) -/
theorem C112_known (ask : Transcript → Bytes) (publish : Transcript → Commitment) (q k : Nat) :
    ∃ good : List (List Bytes32), good.Sublist (idLists (q + k)) ∧
      2 ^ 256 * (idLists (q + k)).length ≤ 2 ^ 256 * good.length + k * (3 * q + 1) * (idLists (q + k)).length ∧
      ∀ tape ∈ good, ∀ e : Env, (Transcript.run ask (q + k) tape []).Of e →
        (∀ (pr : MerkleProof) (p : ProtocolId) (m : Message), pr.path.length ≤ 32 →
          (∀ x ∈ @proofInputs e pr p m, x ∈ (Transcript.run ask (q + k) tape []).strings) →
          @MerkleProof.convolve e pr p m = .ok (.ok (publish (Transcript.run ask q tape []))) →
          ∀ x ∈ @proofInputs e pr p m, x ∈ (Transcript.run ask q tape []).strings) ∧
        (∀ (b : MerkleBlock) (t : PT) (rest : List TreeNode), b.crossSection = t.frontier 0 ++ rest →
          t.Fits (min (b.depth.val + 1) 31) b.depth.val 0 →
          (∀ x ∈ @blockInputs e b.depth b.cofactor t, x ∈ (Transcript.run ask (q + k) tape []).strings) →
          @MerkleBlock.commitId e b = .ok (publish (Transcript.run ask q tape [])) →
          ∀ x ∈ @blockInputs e b.depth b.cofactor t, x ∈ (Transcript.run ask q tape []).strings) := by
  obtain ⟨good, h1, h2, h3⟩ := Later.good ask (fixed publish) 3 (fun m => Nat.le_of_eq (fixed_length publish m)) q k
  refine ⟨good, h1, h2, ?_⟩
  · intro tape ht e he
    have hin := h3 tape ht
    letI := e
    refine ⟨?_, ?_⟩
    · intro pr p m hl hi hc
      obtain ⟨hlt, -, hc⟩ := convolve_ok hl hc
      refine inTime_block hin he (D := toU5 pr.path.length) (c := pr.cofactor) ?_ hi
      rw [toU5_val hlt, ← hc]
    · intro b t rest hcs hf hi hc
      obtain ⟨t', rest', hcs', hf', hc'⟩ := (C29_both_profiles b).2 _ hc
      have hD := b.depth.isLt
      obtain ⟨rfl, -⟩ := frontier_inj (by omega) (by omega) hf hf' (hcs.symm.trans hcs')
      exact inTime_block hin he hc'.symm hi

theorem PT.inputs_agree {e e' : Env} (ht : SameHashes e e' tagStrings) {w : Nat} : ∀ (t : PT) (d : Nat),
    SameHashes e e' (@PT.inputs e w t d) →
    @PT.root e' w t d = @PT.root e w t d ∧ @PT.inputs e' w t d = @PT.inputs e w t d := by
  have htag : e'.sha256 (utf8 MERKLE_TAG) = e.sha256 (utf8 MERKLE_TAG) := ht _ (List.mem_cons_self ..)
  intro t
  induction t with
  | hidden _ => intro d _; exact ⟨rfl, rfl⟩
  | leaf p m =>
    intro d h
    refine ⟨SameHashes.hash_agree htag (h _ (List.mem_cons_self ..)), ?_⟩
    simp only [PT.inputs, leafInput, taggedInput, sha, htag]
  | node l r ihl ihr =>
    intro d h
    obtain ⟨l1, l2⟩ := ihl (d + 1) fun x hx => h x (List.mem_cons_of_mem _ (List.mem_append_left _ hx))
    obtain ⟨r1, r2⟩ := ihr (d + 1) fun x hx => h x (List.mem_cons_of_mem _ (List.mem_append_right _ hx))
    refine ⟨?_, ?_⟩
    · simp only [PT.root, l1, r1]
      exact SameHashes.hash_agree htag (h _ (List.mem_cons_self ..))
    · simp only [PT.inputs, l1, r1, l2, r2, branchInput, taggedInput, sha, htag]

theorem proofInputs_agree {e e' : Env} (ht : SameHashes e e' tagStrings) {pr : MerkleProof} {p : ProtocolId}
    {m : Message} (h : SameHashes e e' (@proofInputs e pr p m)) : @proofInputs e' pr p m = @proofInputs e pr p m := by
  have htag : e'.sha256 (utf8 MPC_TAG) = e.sha256 (utf8 MPC_TAG) :=
    ht _ (List.mem_cons_of_mem _ (List.mem_cons_self ..))
  obtain ⟨h1, h2⟩ := PT.inputs_agree ht (PT.path p m pr.pos.toNat pr.path) 0
    (fun x hx => h x (List.mem_cons_of_mem _ hx))
  simp only [proofInputs, blockInputs, h1, h2, commitmentInput, taggedInput, sha, htag]

/-- Two proofs with one commitment, one hashed with each function, if the strings of both are among some on which the
functions agree and which do not collide. -/
theorem opening_of_early {e e' : Env} {early : List Bytes} (hagree : SameHashes e' e early) (hno : @NoCollision e early)
    {pr pr' : MerkleProof} {p : ProtocolId} {m m' : Message} {c : Commitment} (hl : pr.path.length ≤ 32)
    (hl' : pr'.path.length ≤ 32) (htag : ∀ x ∈ tagStrings, x ∈ early) (hin : ∀ x ∈ @proofInputs e pr p m, x ∈ early)
    (hin' : ∀ x ∈ @proofInputs e' pr' p m', x ∈ early) (hc : @MerkleProof.convolve e pr p m = .ok (.ok c))
    (hc' : @MerkleProof.convolve e' pr' p m' = .ok (.ok c)) : m = m' ∧ pr = pr' := by
  have hp := proofInputs_agree (fun x hx => hagree x (htag x hx)) (fun x hx => hagree x (hin' x hx))
  have hv := (C84_proof e' pr' hl' p m').2 e fun x hx => by
    rcases List.mem_append.1 hx with hx | hx
    · exact hagree x (htag x hx)
    · exact hagree x (hin' x hx)
  letI := e
  refine C18_binding pr pr' p m m' _ hl hl' (hno.mono fun x hx => ?_) hc (hv.trans hc')
  rcases List.mem_append.1 hx with hx | hx
  · exact hin x hx
  · rw [hp] at hx
    exact hin' x hx

/-- **C112** So what can be opened is decided by then: for all but a share of `(q (q - 1) / 2 + k (3 q + 1)) / 2^256` of all
tapes, whatever hashes come after the publication - any two tapes with the same answers before it - at most one
message can be proven for a protocol, with one proof. (The two tags are among the strings asked for.) -/
theorem C112_decided (ask : Transcript → Bytes) (publish : Transcript → Commitment) (q k : Nat) :
    ∃ good : List (List Bytes32), good.Sublist (idLists (q + k)) ∧
      2 * 2 ^ 256 * (idLists (q + k)).length ≤ 2 * 2 ^ 256 * good.length +
        (q * (q - 1) + 2 * (k * (3 * q + 1))) * (idLists (q + k)).length ∧
      ∀ tape ∈ good, ∀ tape' ∈ good, Transcript.run ask q tape [] = Transcript.run ask q tape' [] →
        (∀ x ∈ tagStrings, x ∈ (Transcript.run ask q tape []).strings) →
        ∀ e e' : Env, (Transcript.run ask (q + k) tape []).Of e → (Transcript.run ask (q + k) tape' []).Of e' →
        ∀ (pr pr' : MerkleProof) (p : ProtocolId) (m m' : Message), pr.path.length ≤ 32 → pr'.path.length ≤ 32 →
          (∀ x ∈ @proofInputs e pr p m, x ∈ (Transcript.run ask (q + k) tape []).strings) →
          (∀ x ∈ @proofInputs e' pr' p m', x ∈ (Transcript.run ask (q + k) tape' []).strings) →
          @MerkleProof.convolve e pr p m = .ok (.ok (publish (Transcript.run ask q tape []))) →
          @MerkleProof.convolve e' pr' p m' = .ok (.ok (publish (Transcript.run ask q tape' []))) →
          m = m' ∧ pr = pr' := by
  obtain ⟨g1, s1, n1, c1⟩ := C112_known ask publish q k
  obtain ⟨g0, s0, n0, c0⟩ := C89_no_collision ask q
  obtain ⟨g2, s2, n2, c2⟩ := Later.lift (k := k) s0 n0
  obtain ⟨g, s3, n3, c3⟩ := both_sublists s1 s2
  refine ⟨g, s3, ?_, ?_⟩
  · rw [Nat.add_mul, Nat.mul_assoc 2 (k * (3 * q + 1))]
    generalize k * (3 * q + 1) * (idLists (q + k)).length = A at *
    generalize q * (q - 1) * (idLists (q + k)).length = B at *
    generalize (idLists (q + k)).length = L at *
    omega
  intro tape ht tape' ht' hsame htag e e' he he' pr pr' p m m' hl hl' hi hi' hc hc'
  have hin := (c1 tape (c3 tape ht).1 e he).1 pr p m hl hi hc
  have hin' := (c1 tape' (c3 tape' ht').1 e' he').1 pr' p m' hl' hi' hc'
  rw [← hsame] at hin' hc'
  have hagree : SameHashes e' e (Transcript.run ask q tape []).strings := by
    intro x hx
    obtain ⟨y, hy, rfl⟩ := List.mem_map.1 hx
    rw [he y (run_extends ask k q tape [] y hy), he' y (run_extends ask k q tape' [] y (hsame ▸ hy))]
  refine opening_of_early (early := (Transcript.run ask q tape []).strings) hagree ?_ hl hl' htag hin hin' hc hc'
  have := c0 _ (c2 tape (c3 tape ht).2) e
  rw [run_take ask q tape [] q (Nat.le_refl _)] at this
  exact this fun x hx => he x (run_extends ask k q tape [] x hx)

/-- **C112** In numbers: with at most `2^64` hashes in total, what can be opened is undecided at the publication for less than
one tape in `2^126`. -/
theorem C112_numbers (ask : Transcript → Bytes) (publish : Transcript → Commitment) (q k : Nat) (hn : q + k ≤ 2 ^ 64) :
    ∃ good : List (List Bytes32), good.Sublist (idLists (q + k)) ∧
      2 ^ 126 * ((idLists (q + k)).length - good.length) < (idLists (q + k)).length ∧
      ∀ tape ∈ good, ∀ tape' ∈ good, Transcript.run ask q tape [] = Transcript.run ask q tape' [] →
        (∀ x ∈ tagStrings, x ∈ (Transcript.run ask q tape []).strings) →
        ∀ e e' : Env, (Transcript.run ask (q + k) tape []).Of e → (Transcript.run ask (q + k) tape' []).Of e' →
        ∀ (pr pr' : MerkleProof) (p : ProtocolId) (m m' : Message), pr.path.length ≤ 32 → pr'.path.length ≤ 32 →
          (∀ x ∈ @proofInputs e pr p m, x ∈ (Transcript.run ask (q + k) tape []).strings) →
          (∀ x ∈ @proofInputs e' pr' p m', x ∈ (Transcript.run ask (q + k) tape' []).strings) →
          @MerkleProof.convolve e pr p m = .ok (.ok (publish (Transcript.run ask q tape []))) →
          @MerkleProof.convolve e' pr' p m' = .ok (.ok (publish (Transcript.run ask q tape' []))) →
          m = m' ∧ pr = pr' := by
  obtain ⟨good, h1, h2, h3⟩ := C112_decided ask publish q k
  refine ⟨good, h1, ?_, h3⟩
  have hp : 0 < (idLists (q + k)).length := by
    rw [idLists_length]; exact Nat.pow_pos (Nat.two_pow_pos 256)
  have a1 : q * (q - 1) ≤ 2 ^ 64 * 2 ^ 64 := Nat.mul_le_mul (by omega) (by omega)
  have a2 : k * (3 * q + 1) ≤ 2 ^ 64 * (3 * 2 ^ 64 + 1) := Nat.mul_le_mul (by omega) (by omega)
  have := Nat.mul_le_mul_right (idLists (q + k)).length
    (Nat.add_le_add a1 (Nat.mul_le_mul_left 2 a2))
  generalize (q * (q - 1) + 2 * (k * (3 * q + 1))) * (idLists (q + k)).length = X at *
  generalize (idLists (q + k)).length = N at *
  omega

/-- **C112** However long they go on: with at most `2^32` hashes before the publication and `2^128` after it, for less than one
tape in `2^94`. -/
theorem C112_long_after (ask : Transcript → Bytes) (publish : Transcript → Commitment) (q k : Nat)
    (hq : q ≤ 2 ^ 32) (hk : k ≤ 2 ^ 128) :
    ∃ good : List (List Bytes32), good.Sublist (idLists (q + k)) ∧
      2 ^ 94 * ((idLists (q + k)).length - good.length) < (idLists (q + k)).length ∧
      ∀ tape ∈ good, ∀ tape' ∈ good, Transcript.run ask q tape [] = Transcript.run ask q tape' [] →
        (∀ x ∈ tagStrings, x ∈ (Transcript.run ask q tape []).strings) →
        ∀ e e' : Env, (Transcript.run ask (q + k) tape []).Of e → (Transcript.run ask (q + k) tape' []).Of e' →
        ∀ (pr pr' : MerkleProof) (p : ProtocolId) (m m' : Message), pr.path.length ≤ 32 → pr'.path.length ≤ 32 →
          (∀ x ∈ @proofInputs e pr p m, x ∈ (Transcript.run ask (q + k) tape []).strings) →
          (∀ x ∈ @proofInputs e' pr' p m', x ∈ (Transcript.run ask (q + k) tape' []).strings) →
          @MerkleProof.convolve e pr p m = .ok (.ok (publish (Transcript.run ask q tape []))) →
          @MerkleProof.convolve e' pr' p m' = .ok (.ok (publish (Transcript.run ask q tape' []))) →
          m = m' ∧ pr = pr' := by
  obtain ⟨good, h1, h2, h3⟩ := C112_decided ask publish q k
  refine ⟨good, h1, ?_, h3⟩
  have hp : 0 < (idLists (q + k)).length := by
    rw [idLists_length]; exact Nat.pow_pos (Nat.two_pow_pos 256)
  have a1 : q * (q - 1) ≤ 2 ^ 32 * 2 ^ 32 := Nat.mul_le_mul (by omega) (by omega)
  have a2 : k * (3 * q + 1) ≤ 2 ^ 128 * (3 * 2 ^ 32 + 1) := Nat.mul_le_mul (by omega) (by omega)
  have := Nat.mul_le_mul_right (idLists (q + k)).length
    (Nat.add_le_add a1 (Nat.mul_le_mul_left 2 a2))
  generalize (q * (q - 1) + 2 * (k * (3 * q + 1))) * (idLists (q + k)).length = X at *
  generalize (idLists (q + k)).length = N at *
  omega

/-- Somebody hashes the two tags, a leaf and a commitment to it, publishes the last answer and hashes once more: the
tags and the strings of their proof were asked for before, and the proof gives what they published. -/
example : ∃ (e : Env) (ask : Transcript → Bytes) (publish : Transcript → Commitment) (tape : List Bytes32)
    (pr : MerkleProof) (p : ProtocolId) (m : Message),
    tape ∈ idLists (4 + 1) ∧ (Transcript.run ask (4 + 1) tape []).Of e ∧
    (∀ x ∈ tagStrings, x ∈ (Transcript.run ask 4 tape []).strings) ∧ pr.path.length ≤ 32 ∧
    (∀ x ∈ @proofInputs e pr p m, x ∈ (Transcript.run ask (4 + 1) tape []).strings) ∧
    @MerkleProof.convolve e pr p m = .ok (.ok (publish (Transcript.run ask 4 tape []))) := by
  let e : Env := ⟨fun s => Bytes32.fill (UInt8.ofNat s.length), true⟩
  let S := tagStrings ++ (@proofInputs e ⟨.sha256t, 0, 0, []⟩ (Bytes32.fill 1) (Bytes32.fill 2)).reverse
  refine ⟨e, fun m => S.getD m.length [], fun m => m.headD ([], Bytes32.fill 0) |>.2, (S ++ [[]]).map e.sha256,
    ⟨.sha256t, 0, 0, []⟩, Bytes32.fill 1, Bytes32.fill 2, (mem_idLists _ _).2 rfl, ?_, ?_, ?_, ?_, ?_⟩
  all_goals first | decide +kernel | (unfold Transcript.Of; decide +kernel) | rfl

/-- Somebody who publishes an id without having hashed anything is lucky with some tapes: after the publication they
hash a leaf and a commitment to it, and the last answer happens to be what they published. -/
example : ∃ (e : Env) (ask : Transcript → Bytes) (publish : Transcript → Commitment) (tape : List Bytes32)
    (pr : MerkleProof) (p : ProtocolId) (m : Message),
    tape ∈ idLists (0 + 4) ∧ (Transcript.run ask (0 + 4) tape []).Of e ∧ pr.path.length ≤ 32 ∧
    (∀ x ∈ @proofInputs e pr p m, x ∈ (Transcript.run ask (0 + 4) tape []).strings) ∧
    @MerkleProof.convolve e pr p m = .ok (.ok (publish (Transcript.run ask 0 tape []))) ∧
    ¬ ∀ x ∈ @proofInputs e pr p m, x ∈ (Transcript.run ask 0 tape []).strings := by
  let e : Env := ⟨fun s => Bytes32.fill (UInt8.ofNat s.length), true⟩
  let S := tagStrings ++ (@proofInputs e ⟨.sha256t, 0, 0, []⟩ (Bytes32.fill 1) (Bytes32.fill 2)).reverse
  refine ⟨e, fun m => S.getD m.length [], fun _ => Bytes32.fill 99, S.map e.sha256,
    ⟨.sha256t, 0, 0, []⟩, Bytes32.fill 1, Bytes32.fill 2, (mem_idLists _ _).2 rfl, ?_, ?_, ?_, ?_, ?_⟩
  all_goals first | decide +kernel | (unfold Transcript.Of; decide +kernel) | rfl

end CSV
