import Verif.Props.Closing
import Verif.Props.Schemes
import Verif.Model.Suites

/-!
# C107: multi-protocol commitments inside containers

A multi-protocol commitment is meant to be placed into a container of some other kind - a transaction output, a
key - with a scheme of its own. What the two schemes need for that, and what the two layers together then prove.
-/

namespace CSV

section Embed
variable {Msg Container Proof E : Type}

/-- An embed scheme binds: one container with one proof is verified with at most one message. -/
def EmbedScheme.Binding (s : EmbedScheme Msg Container Proof E) : Prop :=
  ∀ c p m m', s.verify c m p = .ok () → s.verify c m' p = .ok () → m = m'

/-- **C107** An embed scheme that compares by equality binds exactly if embedding two different messages into one
container never gives the same container and the same proof, as far as that proof restores the container embedded
into. -/
theorem C107_embed_binding (s : EmbedScheme Msg Container Proof E) (hp : ∀ p q, s.proofEq p q = true ↔ p = q)
    (hc : ∀ c d, s.containerEq c d = true ↔ c = d) :
    s.Binding ↔ ∀ K c p m m', s.restore p c = .ok K → s.embedCommit K m = (c, .ok p) →
      s.embedCommit K m' = (c, .ok p) → m = m' := by
  constructor
  · intro h K c p m m' hr h1 h2
    exact h c p m m'
      (C44_embed_complete s K c m p h1 hr (fun p => (hp p p).2 rfl) (fun c => (hc c c).2 rfl))
      (C44_embed_complete s K c m' p h2 hr (fun p => (hp p p).2 rfl) (fun c => (hc c c).2 rfl))
  · intro h c p m m' h1 h2
    obtain ⟨K, r1, e1⟩ := C44_embed_sound s c m p (fun p q => (hp p q).1) (fun c d => (hc c d).1) h1
    obtain ⟨K', r2, e2⟩ := C44_embed_sound s c m' p (fun p q => (hp p q).1) (fun c d => (hc c d).1) h2
    rw [r1] at r2
    cases r2
    exact h K c p m m' r1 e1 e2

/-- **C107** With a coarser comparison this is not enough: there is a scheme that embeds different messages into
different containers, restores every container, and is not binding. -/
theorem C107_coarse : ∃ s : EmbedScheme Nat Nat Nat Unit,
    (∀ p q, s.proofEq p q = true ↔ p = q) ∧ (∀ c, s.containerEq c c = true) ∧
    (∀ K m, ∃ c p, s.embedCommit K m = (c, .ok p) ∧ ∀ c', s.restore p c' = .ok K) ∧
    (∀ K c p m m', s.embedCommit K m = (c, .ok p) → s.embedCommit K m' = (c, .ok p) → m = m') ∧ ¬ s.Binding := by
  refine ⟨⟨fun p _ => .ok p, fun K m => (K + m, .ok K), fun _ _ => true, fun a b => decide (a = b)⟩,
    by simp, by simp, fun K m => ⟨K + m, K, rfl, fun _ => rfl⟩, ?_, ?_⟩
  · intro K c p m m' h1 h2
    simp only [Prod.mk.injEq] at h1 h2
    omega
  · intro h
    exact absurd (h 0 0 1 2 (by simp [EmbedScheme.verify]) (by simp [EmbedScheme.verify])) (by decide)

end Embed

section Convolve
variable {Msg Source Suppl C Proof E : Type}

/-- A convolve scheme binds: one commitment with one proof is verified with at most one message. -/
def ConvolveScheme.Binding (s : ConvolveScheme Msg Source Suppl C Proof E) : Prop :=
  ∀ p c m m', s.verify p m c = .ok () → s.verify p m' c = .ok () → m = m'

/-- **C107** A convolve scheme that compares by equality binds exactly if no two different messages give a commitment
and a proof again with the container and the supplement that they restore. -/
theorem C107_convolve_binding (s : ConvolveScheme Msg Source Suppl C Proof E)
    (hp : ∀ p q, s.proofEq p q = true ↔ p = q) (hc : ∀ c d, s.commitmentEq c d = true ↔ c = d) :
    s.Binding ↔ ∀ p c m m',
      s.convolveCommit (s.restoreOriginal p c) (s.extractSupplement p) m = .ok (c, p) →
      s.convolveCommit (s.restoreOriginal p c) (s.extractSupplement p) m' = .ok (c, p) → m = m' := by
  have key : ∀ p c m, s.verify p m c = .ok () ↔
      s.convolveCommit (s.restoreOriginal p c) (s.extractSupplement p) m = .ok (c, p) := by
    intro p c m
    rw [C45_convolve_verify_ok]
    constructor
    · rintro ⟨c', p', h1, h2, h3⟩
      rw [h1, (hp _ _).1 h2, (hc _ _).1 h3]
    · intro h
      exact ⟨c, p, h, (hp _ _).2 rfl, (hc _ _).2 rfl⟩
  unfold ConvolveScheme.Binding
  simp only [key]

end Convolve

section Stack
variable {Container Proof E : Type}

/-- A merkle proof, a container and the proof of the container's commitment show that a message is committed to under
a protocol: `MerkleProof::convolve` computes a commitment that `EmbedCommitVerify::verify` accepts. -/
def EmbedScheme.Shows [Env] (s : EmbedScheme Commitment Container Proof E) (c : Container) (proof : Proof)
    (pr : MerkleProof) (p : ProtocolId) (m : Message) : Prop :=
  ∃ x, pr.convolve p m = .ok (.ok x) ∧ s.verify c x proof = .ok ()

/-- **C107** Whatever was committed to and embedded can be shown, message by message, also from partially concealed
blocks of the tree. -/
theorem C107_complete [Env] (s : EmbedScheme Commitment Container Proof E) (hp : ∀ p, s.proofEq p p = true)
    (hc : ∀ c, s.containerEq c c = true) (rng : Option UInt64) (src : MultiSource) (T : MerkleTree) (x : Commitment)
    (hT : MerkleTree.tryCommit rng src = .ok (.ok T)) (hx : T.commitId = .ok x) (K c : Container) (proof : Proof)
    (he : s.embedCommit K x = (c, .ok proof)) (hr : s.restore proof c = .ok K) :
    (∀ p m, src.messages.get p = some m → ∃ pr : MerkleProof, pr.path.length ≤ 31 ∧ s.Shows c proof pr p m) ∧
    (∀ ops : List BlockOp, (∀ op ∈ ops, op.Admissible T) → ∃ b b', MerkleBlock.fromTree T = .ok b ∧ b.run ops = .ok b' ∧
      ∀ p ∈ b'.knownProtocolIds, ∃ pr m, b'.toMerkleProof p = .ok (.ok pr) ∧ src.messages.get p = some m ∧
        s.Shows c proof pr p m) := by
  have hv := C44_embed_complete s K c x proof he hr hp hc
  constructor
  · intro p m hm
    obtain ⟨pr, hl, h⟩ := (C21_source rng src T x hT hx).1 p m hm
    exact ⟨pr, (C20_partial pr hl p m).1.1 ⟨_, h⟩, x, h, hv⟩
  · intro ops ha
    obtain ⟨b, b', x', hb, hrun, hx', -, -, -, -, -, -, h⟩ := C55_source rng src T hT ops ha
    rw [hx] at hx'
    cases hx'
    refine ⟨b, b', hb, hrun, fun p hk => ?_⟩
    obtain ⟨pr, m, g1, g2, g3, -⟩ := h p hk
    exact ⟨pr, m, g1, g2, x, g3, hv⟩

/-- **C107** With a binding scheme, one container with one proof shows at most one message of a protocol, with at most
one merkle proof, unless two of the strings hashed collide. -/
theorem C107_binding [Env] (s : EmbedScheme Commitment Container Proof E) (hs : s.Binding) (c : Container)
    (proof : Proof) (pr pr' : MerkleProof) (hl : pr.path.length ≤ 32) (hl' : pr'.path.length ≤ 32) (p : ProtocolId)
    (m m' : Message) (h : s.Shows c proof pr p m) (h' : s.Shows c proof pr' p m')
    (hn : NoCollision (proofInputs pr p m ++ proofInputs pr' p m')) : m = m' ∧ pr = pr' := by
  obtain ⟨x, h1, h2⟩ := h
  obtain ⟨x', h1', h2'⟩ := h'
  obtain rfl := hs c proof x x' h2 h2'
  exact C18_binding pr pr' p m m' x hl hl' hn h1 h1'

/-- **C107** Of a container into which the commitment to a source was embedded nothing else can be shown. -/
theorem C107_sound [Env] (s : EmbedScheme Commitment Container Proof E) (hs : s.Binding) (hp : ∀ p, s.proofEq p p = true)
    (hc : ∀ c, s.containerEq c c = true) (rng : Option UInt64) (src : MultiSource) (T : MerkleTree) (x : Commitment)
    (hT : MerkleTree.tryCommit rng src = .ok (.ok T)) (hx : T.commitId = .ok x) (K c : Container) (proof : Proof)
    (he : s.embedCommit K x = (c, .ok proof)) (hr : s.restore proof c = .ok K)
    (pr : MerkleProof) (hl : pr.path.length ≤ 32) (p : ProtocolId) (m : Message) (h : s.Shows c proof pr p m)
    (hn : NoCollision (proofInputs pr p m ++ T.inputs)) : src.messages.get p = some m := by
  obtain ⟨x', h1, h2⟩ := h
  obtain rfl := hs c proof x' x h2 (C44_embed_complete s K c x proof he hr hp hc)
  exact (C21_source rng src T x' hT hx).2 pr p m hl h1 hn

/-- **C107** The difference an embedding proof makes: a container may be shown with two proofs, and then it may show
two messages of one protocol, with a scheme that binds. (The published data must contain the embedding proof, or fix
it.) -/
theorem C107_proof_needed [Env] (pr pr' : MerkleProof) (p : ProtocolId) (m m' : Message) (x x' : Commitment)
    (h : pr.convolve p m = .ok (.ok x)) (h' : pr'.convolve p m' = .ok (.ok x')) :
    ∃ s : EmbedScheme Commitment Bytes Bytes Unit, s.Binding ∧ ∃ c proof proof',
      s.Shows c proof pr p m ∧ s.Shows c proof' pr' p m' := by
  let s : EmbedScheme Commitment Bytes Bytes Unit :=
    ⟨fun p _ => .ok p, fun K y => (List.replicate 32 0, .ok y.bytes), fun a b => decide (a = b), fun a b => decide (a = b)⟩
  have hp : ∀ p q, s.proofEq p q = true ↔ p = q := by simp [s]
  have hc : ∀ c d, s.containerEq c d = true ↔ c = d := by simp [s]
  refine ⟨s, ?_, List.replicate 32 0, x.bytes, x'.bytes, ⟨x, h, ?_⟩, ⟨x', h', ?_⟩⟩
  · rw [C107_embed_binding s hp hc]
    intro K c q y y' _ h1 h2
    have e1 : y.bytes = q := by simpa [s] using (Prod.mk.inj h1).2
    have e2 : y'.bytes = q := by simpa [s] using (Prod.mk.inj h2).2
    cases y
    cases y'
    simp_all
  all_goals simp [EmbedScheme.verify, s]

/-- **C107** Seals whose published witness is a container with the proof of its commitment: no seals can be closed
twice over different messages of a protocol with one such witness. -/
theorem C107_seals [Env] {Seal PubId PubErr : Type} (s : EmbedScheme Commitment Container Proof E) (hs : s.Binding)
    (σ : SealScheme Seal (ProtocolId × Message) (Container × Proof) MerkleProof Commitment PubId PubErr InvalidProof)
    (hσ : σ.UsesProofs)
    (hpub : ∀ c proof x, σ.verifyCommitment (c, proof) x = .ok () ↔ s.verify c x proof = .ok ())
    (c : Container) (proof : Proof)
    (pr pr' : MerkleProof) (hl : pr.path.length ≤ 31) (hl' : pr'.path.length ≤ 31)
    (seals seals' : List Seal) (p : ProtocolId) (m m' : Message)
    (h : σ.verifySealsClosing ⟨(c, proof), pr⟩ seals (p, m) = .ok ())
    (h' : σ.verifySealsClosing ⟨(c, proof), pr'⟩ seals' (p, m') = .ok ())
    (hn : NoCollision (proofInputs pr p m ++ proofInputs pr' p m')) : m = m' ∧ pr = pr' :=
  C67_no_double_closing σ hσ (c, proof)
    (fun x x' hx hx' => hs c proof x x' ((hpub _ _ _).1 hx) ((hpub _ _ _).1 hx'))
    pr pr' hl hl' seals seals' p m m' h h' hn

end Stack

section StackConvolve
variable {Source Suppl C Proof E : Type}

/-- A merkle proof and the proof of a convolve commitment show that a message is committed to under a protocol. -/
def ConvolveScheme.Shows [Env] (s : ConvolveScheme Commitment Source Suppl C Proof E) (c : C) (proof : Proof)
    (pr : MerkleProof) (p : ProtocolId) (m : Message) : Prop :=
  ∃ x, pr.convolve p m = .ok (.ok x) ∧ s.verify proof x c = .ok ()

/-- **C107** The same through a convolve scheme: every message of the source can be shown; at most one message of a
protocol, with one merkle proof; and nothing but the messages of the source. -/
theorem C107_convolve [Env] (s : ConvolveScheme Commitment Source Suppl C Proof E) (hs : s.Binding)
    (hp : ∀ p, s.proofEq p p = true) (hc : ∀ c, s.commitmentEq c c = true)
    (rng : Option UInt64) (src : MultiSource) (T : MerkleTree) (x : Commitment)
    (hT : MerkleTree.tryCommit rng src = .ok (.ok T)) (hx : T.commitId = .ok x) (K : Source) (suppl : Suppl) (c : C)
    (proof : Proof) (he : s.convolveCommit K suppl x = .ok (c, proof)) (hr : s.restoreOriginal proof c = K)
    (hsup : s.extractSupplement proof = suppl) :
    (∀ p m, src.messages.get p = some m → ∃ pr : MerkleProof, pr.path.length ≤ 31 ∧ s.Shows c proof pr p m) ∧
    (∀ (pr : MerkleProof) p m, pr.path.length ≤ 32 → s.Shows c proof pr p m →
      NoCollision (proofInputs pr p m ++ T.inputs) → src.messages.get p = some m) ∧
    (∀ (pr pr' : MerkleProof) p m m', pr.path.length ≤ 32 → pr'.path.length ≤ 32 → s.Shows c proof pr p m →
      s.Shows c proof pr' p m' → NoCollision (proofInputs pr p m ++ proofInputs pr' p m') → m = m' ∧ pr = pr') := by
  have hv : s.verify proof x c = .ok () :=
    (C45_convolve_verify_ok s proof x c).2 ⟨c, proof, by rw [hr, hsup, he], hp _, hc _⟩
  refine ⟨fun p m hm => ?_, fun pr p m hl h hn => ?_, fun pr pr' p m m' hl hl' h h' hn => ?_⟩
  · obtain ⟨pr, hl, h⟩ := (C21_source rng src T x hT hx).1 p m hm
    exact ⟨pr, (C20_partial pr hl p m).1.1 ⟨_, h⟩, x, h, hv⟩
  · obtain ⟨x', h1, h2⟩ := h
    obtain rfl := hs proof c x' x h2 hv
    exact (C21_source rng src T x' hT hx).2 pr p m hl h1 hn
  · obtain ⟨y, h1, h2⟩ := h
    obtain ⟨y', h1', h2'⟩ := h'
    obtain rfl := hs proof c y y' h2 h2'
    exact C18_binding pr pr' p m m' y hl hl' hn h1 h1'

end StackConvolve

/-- Containers are byte strings, to which the commitment is appended, as in the tests. -/
def appended : EmbedScheme Commitment Bytes Bytes Panic where
  restore := dummyEmbed.restore
  embedCommit K x := dummyEmbed.embedCommit K x.bytes
  containerEq := dummyEmbed.containerEq
  proofEq := dummyEmbed.proofEq

/-- Non-vacuity: this scheme compares by equality, binds and restores, and the sample commitment can be embedded into a
container of three bytes and shown. -/
example [Env] : appended.Binding ∧ (∀ p, appended.proofEq p p = true) ∧ (∀ c, appended.containerEq c c = true) ∧
    ∃ x, Sample.tree.commitId = .ok x ∧ appended.embedCommit [1, 2, 3] x = ([1, 2, 3] ++ x.bytes, .ok [1, 2, 3]) ∧
      appended.restore [1, 2, 3] ([1, 2, 3] ++ x.bytes) = .ok [1, 2, 3] ∧
      ∃ pr, appended.Shows ([1, 2, 3] ++ x.bytes) [1, 2, 3] pr Sample.p1 Sample.m1 := by
  have hp : ∀ p q, appended.proofEq p q = true ↔ p = q := by simp [appended, dummyEmbed]
  have hc : ∀ c d, appended.containerEq c d = true ↔ c = d := by simp [appended, dummyEmbed]
  obtain ⟨x, hx⟩ : ∃ x, Sample.tree.commitId = .ok x := ⟨_, tree_commitId Sample.tree⟩
  have he : appended.embedCommit [1, 2, 3] x = ([1, 2, 3] ++ x.bytes, .ok [1, 2, 3]) := by
    simp [appended, dummyEmbed, x.len]
  refine ⟨?_, fun p => (hp p p).2 rfl, fun c => (hc c c).2 rfl, x, hx, he, rfl, ?_⟩
  · rw [C107_embed_binding appended hp hc]
    intro K c q y y' _ h1 h2
    have hemb : ∀ y : Commitment, appended.embedCommit K y = (c, .ok q) → c = K ++ y.bytes := by
      intro y h
      simp only [appended, dummyEmbed] at h
      split at h
      · exact (Prod.mk.inj h).1.symm
      · cases (Prod.mk.inj h).2
    have e := (hemb y h1).symm.trans (hemb y' h2)
    have e := List.append_cancel_left e
    cases y
    cases y'
    simp_all
  · obtain ⟨pr, -, h⟩ := (C107_complete appended (fun p => (hp p p).2 rfl) (fun c => (hc c c).2 rfl) none Sample.source
      Sample.tree x Sample.commits hx [1, 2, 3] _ [1, 2, 3] he rfl).1 Sample.p1 Sample.m1 (by decide +kernel)
    exact ⟨pr, h⟩

end CSV
