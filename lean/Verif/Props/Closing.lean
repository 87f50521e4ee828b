import Verif.Props.Source
import Verif.Props.Seals

/-!
# Single-use seals closed over multi-protocol commitments (C67)

The use the two libraries are made for: a seal closes over a message of a protocol, the client-side witness is a
merkle proof, and the published witness carries a multi-protocol commitment.
-/

namespace CSV

variable {Seal Pub PubId PubErr : Type}

/-- The client-side witness of the seals is a merkle proof and `convolve_commit` is its verification. (Proofs
of 32 hashes make it panic, see C20.) -/
def SealScheme.UsesProofs [Env]
    (s : SealScheme Seal (ProtocolId × Message) Pub MerkleProof Commitment PubId PubErr InvalidProof) : Prop :=
  ∀ (pr : MerkleProof) p m, pr.path.length ≤ 31 → pr.convolve p m = .ok (s.convolveCommit pr (p, m))

/-- **C67** No double closing: whatever proofs are presented, closings accepted against one published witness
that accepts at most one commitment are, for one protocol, closings over one message with one proof -
unless two different strings hashed in the two verifications have the same hash. -/
theorem C67_no_double_closing [Env]
    (s : SealScheme Seal (ProtocolId × Message) Pub MerkleProof Commitment PubId PubErr InvalidProof)
    (hs : s.UsesProofs) (pub : Pub)
    (hpub : ∀ c c', s.verifyCommitment pub c = .ok () → s.verifyCommitment pub c' = .ok () → c = c')
    (pr pr' : MerkleProof) (hl : pr.path.length ≤ 31) (hl' : pr'.path.length ≤ 31)
    (seals seals' : List Seal) (p : ProtocolId) (m m' : Message)
    (h : s.verifySealsClosing ⟨pub, pr⟩ seals (p, m) = .ok ())
    (h' : s.verifySealsClosing ⟨pub, pr'⟩ seals' (p, m') = .ok ())
    (hn : NoCollision (proofInputs pr p m ++ proofInputs pr' p m')) : m = m' ∧ pr = pr' := by
  obtain ⟨-, c, hc, hv⟩ := (C46_seals_closing_ok s _ _ _).1 h
  obtain ⟨-, c', hc', hv'⟩ := (C46_seals_closing_ok s _ _ _).1 h'
  obtain rfl := hpub c c' hv hv'
  have e := hs pr p m hl
  have e' := hs pr' p m' hl'
  rw [show s.convolveCommit pr (p, m) = .ok c from hc] at e
  rw [show s.convolveCommit pr' (p, m') = .ok c from hc'] at e'
  exact C18_binding pr pr' p m m' c (by omega) (by omega) hn e e'

/-- **C67** From the source to the seal: if the published witness accepts exactly the commitment to a source,
then seals included for the message can be closed over the messages of the source and over no other
message of any protocol. -/
theorem C67_closable [Env]
    (s : SealScheme Seal (ProtocolId × Message) Pub MerkleProof Commitment PubId PubErr InvalidProof)
    (hs : s.UsesProofs) (rng : Option UInt64) (src : MultiSource) (T : MerkleTree) (c : Commitment)
    (hT : MerkleTree.tryCommit rng src = .ok (.ok T)) (hc : T.commitId = .ok c)
    (pub : Pub) (hpub : ∀ x, s.verifyCommitment pub x = .ok () ↔ x = c) (seals : List Seal)
    (p : ProtocolId) (m : Message) :
    (src.messages.get p = some m → (∀ x ∈ seals, ∀ pr, s.isIncluded x (p, m) ⟨pub, pr⟩ = true) →
      ∃ pr : MerkleProof, pr.path.length ≤ 31 ∧ s.verifySealsClosing ⟨pub, pr⟩ seals (p, m) = .ok ()) ∧
    (∀ pr : MerkleProof, pr.path.length ≤ 31 → s.verifySealsClosing ⟨pub, pr⟩ seals (p, m) = .ok () →
      NoCollision (proofInputs pr p m ++ T.inputs) → src.messages.get p = some m) := by
  obtain ⟨h1, h2⟩ := C21_source rng src T c hT hc
  constructor
  · intro hm hi
    obtain ⟨pr, hl, hv⟩ := h1 p m hm
    have hl' : pr.path.length ≤ 31 := (C20_partial pr hl p m).1.1 ⟨_, hv⟩
    refine ⟨pr, hl', (C46_seals_closing_ok s _ _ _).2 ⟨fun x hx => hi x hx _, c, ?_, (hpub c).2 rfl⟩⟩
    have e := hs pr p m hl'
    rw [hv] at e
    exact (Except.ok.inj e).symm
  · intro pr hl hv hn
    obtain ⟨-, c', hc', hv'⟩ := (C46_seals_closing_ok s _ _ _).1 hv
    obtain rfl := (hpub c').1 hv'
    have e := hs pr p m hl
    rw [show s.convolveCommit pr (p, m) = .ok c' from hc'] at e
    exact h2 pr p m (by omega) e hn

/-- **C67** The committer may keep any partially concealed block of the tree: whatever concealing and merging was
done to it, the proof it gives for a protocol it still shows closes the seals over the committed message. -/
theorem C67_from_blocks [Env]
    (s : SealScheme Seal (ProtocolId × Message) Pub MerkleProof Commitment PubId PubErr InvalidProof)
    (hs : s.UsesProofs) (rng : Option UInt64) (src : MultiSource) (T : MerkleTree) (c : Commitment)
    (hT : MerkleTree.tryCommit rng src = .ok (.ok T)) (hc : T.commitId = .ok c)
    (pub : Pub) (hpub : s.verifyCommitment pub c = .ok ()) (ops : List BlockOp)
    (ha : ∀ op ∈ ops, op.Admissible T) (seals : List Seal) :
    ∃ b b', MerkleBlock.fromTree T = .ok b ∧ b.run ops = .ok b' ∧
      ∀ p ∈ b'.knownProtocolIds, ∃ pr m, b'.toMerkleProof p = .ok (.ok pr) ∧ src.messages.get p = some m ∧
        ((∀ x ∈ seals, s.isIncluded x (p, m) ⟨pub, pr⟩ = true) →
          s.verifySealsClosing ⟨pub, pr⟩ seals (p, m) = .ok ()) := by
  obtain ⟨b, b', c', hb, hr, hc', -, -, -, -, -, -, hp⟩ := C55_source rng src T hT ops ha
  rw [hc] at hc'
  cases hc'
  refine ⟨b, b', hb, hr, fun p hk => ?_⟩
  obtain ⟨pr, m, g1, g2, g3, -⟩ := hp p hk
  have hl : pr.path.length ≤ 31 := by
    obtain ⟨hH, -, b0, h0, hof⟩ := C16_committed_trees rng src T hT
    rw [hb] at h0
    cases h0
    obtain ⟨b1, _, k1, k2, -⟩ := C55_histories T hH b hof ops ha
    rw [hr] at k1
    cases k1
    obtain ⟨pr', _, _, -, -, k3, -, -, -, -, k4⟩ := C16_complete T hH b' k2 p hk
    rw [g1] at k3
    cases k3
    have := T.depth.isLt
    omega
  refine ⟨pr, m, g1, g2, fun hi => (C46_seals_closing_ok s _ _ _).2 ⟨hi, c, ?_, hpub⟩⟩
  have e := hs pr p m hl
  rw [g3] at e
  exact (Except.ok.inj e).symm

/-- Seals numbered by natural numbers, published witnesses that are a commitment and a list of closed seals. -/
def proofSeals [Env] : SealScheme Nat (ProtocolId × Message) (Commitment × List Nat) MerkleProof Commitment Nat
    Unit InvalidProof where
  isIncluded x _ w := w.published.2.contains x
  convolveCommit pr x := match pr.convolve x.1 x.2 with
    | .ok r => r
    | .error _ => .error ⟨x.1, 0, 0, 0⟩
  pubId w := w.2.length
  verifyCommitment w c := if c = w.1 then .ok () else .error ()

/-- Non-vacuity: these seals meet the hypotheses, and the sample closes one of them. -/
example [Env] : proofSeals.UsesProofs ∧
    (∀ pub c c', proofSeals.verifyCommitment pub c = .ok () → proofSeals.verifyCommitment pub c' = .ok () → c = c') ∧
    ∃ c, Sample.tree.commitId = .ok c ∧ ∃ pr : MerkleProof,
      proofSeals.verifySealsClosing ⟨(c, [4, 7]), pr⟩ [7] (Sample.p1, Sample.m1) = .ok () := by
  have hs : proofSeals.UsesProofs := by
    intro pr p m hl
    obtain ⟨r, hr⟩ := (C20_partial pr (by omega) p m).1.2 hl
    simp only [proofSeals, hr]
  have hv : ∀ pub c, proofSeals.verifyCommitment pub c = .ok () ↔ c = pub.1 := by
    intro pub c
    simp only [proofSeals]
    split <;> simp_all
  refine ⟨hs, fun pub c c' h h' => by rw [(hv pub c).1 h, (hv pub c').1 h'], ?_⟩
  obtain ⟨hH, hm, -⟩ := C16_committed_trees none Sample.source Sample.tree Sample.commits
  obtain ⟨c, hc⟩ : ∃ c, Sample.tree.commitId = .ok c := ⟨_, tree_commitId Sample.tree⟩
  refine ⟨c, hc, ?_⟩
  obtain ⟨pr, hl, hp⟩ := C21_all_committed Sample.tree hH Sample.p1 Sample.m1 c hc (by decide +kernel)
  have hl' : pr.path.length ≤ 31 := (C20_partial pr hl _ _).1.1 ⟨_, hp⟩
  refine ⟨pr, (C46_seals_closing_ok proofSeals _ _ _).2 ⟨by simp [proofSeals], c, ?_, (hv _ _).2 rfl⟩⟩
  have e := hs pr Sample.p1 Sample.m1 hl'
  rw [hp] at e
  exact (Except.ok.inj e).symm

end CSV
