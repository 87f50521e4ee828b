import Verif.Proofs.Compression
import Verif.Proofs.TwoWorlds
import Verif.Props.TreeBinding

/-!
# C94: from openings to collisions of the compression function of SHA256
-/

namespace CSV

/-- **C94** With the actual SHA256: among strings of less than `2^61` bytes there is no collision unless two
different calls of the compression function, among those made when hashing these strings, have the same
result. -/
theorem C94_reduction (debug : Bool) (l : List Bytes) (hl : ∀ a ∈ l, a.length < 2 ^ 61)
    (h : Sha.NoClash (l.flatMap Sha.calls)) : @NoCollision (realEnv debug) l := by
  intro a ha b hb hab
  obtain ⟨k, x, c, e1, e2, e3, e4, e5, e6⟩ := Sha.groups a
  obtain ⟨k', x', c', e1', e2', e3', e4', e5', e6'⟩ := Sha.groups b
  have hch : Sha.chain (x ++ [c]) Sha.H0 = Sha.chain (x' ++ [c']) Sha.H0 := by
    have h1 : (Sha.sha256 a).bytes = (Sha.sha256 b).bytes := congrArg Bytes32.bytes hab
    simp only [Sha.sha256, Sha.blocks_eq_chain, e1, e1', Sha.chain_append, Sha.chain] at h1
    rw [Sha.chain_append, Sha.chain_append]
    exact Sha.state_eq h1
  have hn : Sha.NoClash (Sha.callsFrom (x ++ [c]) Sha.H0 ++ Sha.callsFrom (x' ++ [c']) Sha.H0) := by
    refine h.sub fun z hz => ?_
    rcases List.mem_append.1 hz with hz | hz
    · exact List.mem_flatMap.2 ⟨a, ha, by rw [Sha.calls, e1]; exact hz⟩
    · exact List.mem_flatMap.2 ⟨b, hb, by rw [Sha.calls, e1']; exact hz⟩
  obtain ⟨hc, -⟩ := Sha.chain_last hn hch
  have hlen : a.length = b.length := by
    rw [hc, e6'] at e6
    have := Sha.words_inj 2 (by rw [List.length_reverse, leBytes_length])
      (by rw [List.length_reverse, leBytes_length]) e6
    have h1 := hl a ha
    have h2 := hl b hb
    have := leBytes_inj (len := 8) (by omega) (by omega) (List.reverse_inj.1 this)
    omega
  refine Sha.padBody_inj hlen (Sha.words_inj (16 * (k + 1)) (by omega) ?_ ?_)
  · have : (Sha.pad a).length = (Sha.pad b).length := by
      rw [Sha.pad_eq, Sha.pad_eq]
      simp only [Sha.padBody, List.length_append, List.length_cons, List.length_replicate, List.length_reverse,
        leBytes_length, hlen]
    omega
  · have hk : k = k' := by
      have : (Sha.pad a).length = (Sha.pad b).length := by
        rw [Sha.pad_eq, Sha.pad_eq]
        simp only [Sha.padBody, List.length_append, List.length_cons, List.length_replicate, List.length_reverse,
          leBytes_length, hlen]
      omega
    have := Sha.chain_inj (k + 1) (by rw [List.length_append, e2]; rfl)
      (by rw [List.length_append, e2', hk]; rfl) hn hch
    rw [e4, e4', (List.append_inj' this rfl).1, hc]

/-- Hashing a string of `n` bytes takes `(n + 8) / 64 + 1` calls. -/
theorem C94_calls (bs : Bytes) : (Sha.calls bs).length = (bs.length + 8) / 64 + 1 := by
  obtain ⟨k, a, x, e1, e2, -, -, e5, -⟩ := Sha.groups bs
  have hc : ∀ (l : List (List Nat)) (s : Sha.St), (Sha.callsFrom l s).length = l.length := by
    intro l
    induction l with
    | nil => intro s; rfl
    | cons y l ih => intro s; simp [Sha.callsFrom, ih]
  rw [Sha.calls, hc, e1, List.length_append, e2]
  rw [Sha.pad_eq] at e5
  simp only [Sha.padBody, List.length_append, List.length_cons, List.length_replicate, List.length_reverse,
    leBytes_length] at e5
  simp only [List.length_cons, List.length_nil]
  omega

private theorem inputs_short [Env] {w : Nat} : ∀ (t : PT) (d : Nat), ∀ x ∈ t.inputs w d, x.length ≤ 162 := by
  intro t
  induction t with
  | hidden h => intro d x hx; cases hx
  | leaf p m =>
    intro d x hx
    rw [PT.inputs, List.mem_singleton] at hx
    subst hx
    rcases leafInput_length (.inhabited p m) with h | h <;> omega
  | node l r ihl ihr =>
    intro d x hx
    rw [PT.inputs, List.mem_cons, List.mem_append] at hx
    rcases hx with rfl | hx | hx
    · rw [branchInput, taggedInput_length, MerkleNode.enc_length]; decide
    · exact ihl _ x hx
    · exact ihr _ x hx

private theorem commitment_short [Env] (c : MerkleConcealed) : (commitmentInput c).length ≤ 162 := by
  rw [commitmentInput, taggedInput_length]
  simp [MerkleConcealed.enc, encU5, encU16, leBytes_length, encBytes32, c.merkleRoot.len]

private theorem block_short [Env] (D : U5) (c : UInt16) (t : PT) : ∀ x ∈ blockInputs D c t, x.length ≤ 162 := by
  intro x hx
  rcases List.mem_cons.1 hx with rfl | hx
  · exact commitment_short _
  · exact inputs_short t 0 x hx

private theorem noCollision_of {debug : Bool} {l : List Bytes} (hl : ∀ x ∈ l, x.length ≤ 162)
    (h : Sha.NoClash (l.flatMap Sha.calls)) : @NoCollision (realEnv debug) l :=
  C94_reduction debug l (fun a ha => by have := hl a ha; omega) h

private theorem calls_le (l : List Bytes) (hl : ∀ x ∈ l, x.length ≤ 162) :
    (l.flatMap Sha.calls).length ≤ 3 * l.length := by
  induction l with
  | nil => simp
  | cons a l ih =>
    have h1 := ih fun x hx => hl x (List.mem_cons_of_mem _ hx)
    have h2 := hl a List.mem_cons_self
    have h3 := C94_calls a
    rw [List.flatMap_cons, List.length_append, List.length_cons]
    omega

/-- The arguments with which the compression function is called when a proof is verified. -/
def proofCalls (debug : Bool) (pr : MerkleProof) (p : ProtocolId) (m : Message) : List (Sha.St × List Nat) :=
  (@proofInputs (realEnv debug) pr p m).flatMap Sha.calls

private theorem proof_short (debug : Bool) (pr : MerkleProof) (p : ProtocolId) (m : Message) :
    ∀ x ∈ @proofInputs (realEnv debug) pr p m, x.length ≤ 162 :=
  @block_short (realEnv debug) _ _ _

/-- **C94** With the actual SHA256: two messages cannot be proven for one protocol under one commitment, nor one
message in two ways, unless two different arguments among those met in the two verifications, of which there
are at most `3 (n1 + n2 + 4)` for paths of lengths `n1` and `n2`, are mapped to the same state by the
compression function. -/
theorem C94_openings (debug : Bool) (pr1 pr2 : MerkleProof) (p : ProtocolId) (m1 m2 : Message) (c : Commitment)
    (hl1 : pr1.path.length ≤ 32) (hl2 : pr2.path.length ≤ 32)
    (h1 : @MerkleProof.convolve (realEnv debug) pr1 p m1 = .ok (.ok c))
    (h2 : @MerkleProof.convolve (realEnv debug) pr2 p m2 = .ok (.ok c)) :
    (Sha.NoClash (proofCalls debug pr1 p m1 ++ proofCalls debug pr2 p m2) → m1 = m2 ∧ pr1 = pr2) ∧
    (proofCalls debug pr1 p m1 ++ proofCalls debug pr2 p m2).length ≤ 3 * (pr1.path.length + pr2.path.length + 4) := by
  refine ⟨fun hn => ?_, ?_⟩
  · refine @C18_binding (realEnv debug) pr1 pr2 p m1 m2 c hl1 hl2 ?_ h1 h2
    refine noCollision_of (fun x hx => ?_) (by rw [List.flatMap_append]; exact hn)
    rcases List.mem_append.1 hx with hx | hx
    · exact proof_short debug _ _ _ x hx
    · exact proof_short debug _ _ _ x hx
  · have l1 := calls_le _ (proof_short debug pr1 p m1)
    have l2 := calls_le _ (proof_short debug pr2 p m2)
    rw [@C18_inputs (realEnv debug)] at l1 l2
    rw [List.length_append, proofCalls, proofCalls]
    omega

/-- **C94** With the actual SHA256: two sources with the same commitment have the same messages, unless two
different arguments among those met when the two commitments are computed are mapped to the same state by the
compression function. -/
theorem C94_sources (debug : Bool) (s1 s2 : MultiSource) (r1 r2 : Option UInt64) (T U : MerkleTree)
    (h1 : MerkleTree.tryCommit r1 s1 = .ok (.ok T)) (h2 : MerkleTree.tryCommit r2 s2 = .ok (.ok U))
    (c : Commitment) (hT : @MerkleTree.commitId (realEnv debug) T = .ok c)
    (hU : @MerkleTree.commitId (realEnv debug) U = .ok c)
    (hn : Sha.NoClash ((@MerkleTree.inputs (realEnv debug) T ++ @MerkleTree.inputs (realEnv debug) U).flatMap
      Sha.calls)) :
    s1.messages = s2.messages := by
  have hs : ∀ V : MerkleTree, ∀ x ∈ @MerkleTree.inputs (realEnv debug) V, x.length ≤ 162 := by
    intro V x hx
    rcases List.mem_append.1 hx with hx | hx
    · exact @block_short (realEnv debug) _ _ _ x hx
    · obtain ⟨i, -, rfl⟩ := List.mem_map.1 hx
      rcases @leafInput_length (realEnv debug) (V.leafAt i) with h | h <;> omega
  refine (@C60_sources (realEnv debug) s1 s2 r1 r2 T U h1 h2 c hT hU (noCollision_of (fun x hx => ?_) hn)).1
  rcases List.mem_append.1 hx with hx | hx
  · exact hs T x hx
  · exact hs U x hx

private instance : DecidableEq Sha.St := fun x y =>
  decidable_of_iff (x.a = y.a ∧ x.b = y.b ∧ x.c = y.c ∧ x.d = y.d ∧ x.e = y.e ∧ x.f = y.f ∧ x.g = y.g ∧ x.h = y.h)
    (by obtain ⟨⟩ := x; obtain ⟨⟩ := y; simp)

private instance (l : List (Sha.St × List Nat)) : Decidable (Sha.NoClash l) :=
  inferInstanceAs (Decidable (∀ x ∈ l, ∀ y ∈ l, Sha.block x.1 x.2 = Sha.block y.1 y.2 → x = y))

/-- Non-vacuity of C94: strings of 0, 1 and 56 bytes, the last of which takes two calls. -/
example : Sha.NoClash ([[], [1], List.replicate 56 7].flatMap Sha.calls) ∧
    ([[], [1], List.replicate 56 7].flatMap Sha.calls).length = 4 := by decide +kernel

/-- Non-vacuity of `C94_openings`: the proof of the only protocol of a tree of depth 0. -/
example : ∃ (pr : MerkleProof) (c : Commitment),
    @MerkleProof.convolve (realEnv true) pr Sample.p1 Sample.m1 = .ok (.ok c) ∧
    Sha.NoClash (proofCalls true pr Sample.p1 Sample.m1 ++ proofCalls true pr Sample.p1 Sample.m1) ∧
    (proofCalls true pr Sample.p1 Sample.m1).length = 5 := by
  refine ⟨⟨.sha256t, 0, 0, []⟩, _, rfl, ?_⟩
  decide +kernel

end CSV
