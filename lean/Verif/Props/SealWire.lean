import Verif.Model.SealCodec
import Verif.Props.Closing
import Verif.Props.Unique

/-!
# C74: seal witnesses as bytes
-/

namespace CSV

/-- **C74** Serialized seal witnesses: if the two parts can be told from their encodings, then a witness can.
A decoder accepts exactly the encodings of witnesses, so that the bytes determine the witness, the
witness determines the bytes, and nothing which follows is touched. -/
theorem C74_exact {Pub Cli : Type} (ep : Pub → Bytes) (dp : Decoder Pub) (P : Pub → Prop)
    (ec : Cli → Bytes) (dc : Decoder Cli) (Q : Cli → Prop) (hp : Exact ep dp P) (hc : Exact ec dc Q) :
    Exact (SealWitness.enc ep ec) (decSealWitness dp dc) fun w => P w.published ∧ Q w.client := by
  intro bs w r
  simp only [decSealWitness, bind_some, pure_some, hp _ _ _, hc _ _ _, SealWitness.enc, List.append_assoc]
  constructor
  · rintro ⟨a, r1, ⟨h1, rfl⟩, b, r2, ⟨h2, rfl⟩, rfl, rfl⟩
    exact ⟨⟨h1, h2⟩, rfl⟩
  · rintro ⟨⟨h1, h2⟩, rfl⟩
    exact ⟨w.published, ec w.client ++ r, ⟨h1, rfl⟩, w.client, r, ⟨h2, rfl⟩, rfl, rfl⟩

private theorem exact_deserialize {α : Type} {enc : α → Bytes} {dec : Decoder α} {P : α → Prop}
    (h : Exact enc dec P) {bs : Bytes} {a : α} : deserialize dec bs = some a ↔ P a ∧ bs = enc a := by
  have := h bs a []
  rw [List.append_nil] at this
  rw [← this, deserialize]
  cases dec bs with
  | none => simp
  | some x => obtain ⟨b, r⟩ := x; cases r <;> simp

/-- The bytes of a witness were received and the seals were found closed over the message. -/
def SealScheme.Closes [Env] {Seal Pub PubId PubErr : Type}
    (s : SealScheme Seal (ProtocolId × Message) Pub MerkleProof Commitment PubId PubErr InvalidProof)
    (dp : Decoder Pub) (bytes : Bytes) (w : SealWitness Pub MerkleProof) (seals : List Seal)
    (p : ProtocolId) (m : Message) : Prop :=
  deserialize (decSealWitness dp decMerkleProof) bytes = some w ∧ w.client.path.length ≤ 31 ∧
    s.verifySealsClosing w seals (p, m) = .ok ()

private theorem proof_exact : Exact MerkleProof.enc decMerkleProof MerkleProof.Confined := by
  intro bs a r
  constructor
  · exact fun h => (C39_canonical _ _).2.2.2.2.2.2.2 _ h
  · rintro ⟨h, rfl⟩
    exact (C38_round_trip r).2.2.2.2.2.2.2 a h

/-- **C74** Witness bytes are not malleable: for one published witness that accepts at most one commitment, and
one protocol, there is at most one byte string whose witness closes seals, and it closes them over at most one
message - unless two different strings hashed in the two verifications have one hash. -/
theorem C74_at_most_one [Env] {Seal Pub PubId PubErr : Type}
    (s : SealScheme Seal (ProtocolId × Message) Pub MerkleProof Commitment PubId PubErr InvalidProof)
    (hs : s.UsesProofs) (ep : Pub → Bytes) (dp : Decoder Pub) (P : Pub → Prop) (hp : Exact ep dp P)
    (bs bs' : Bytes) (w w' : SealWitness Pub MerkleProof) (seals seals' : List Seal) (p : ProtocolId)
    (m m' : Message) (h : s.Closes dp bs w seals p m) (h' : s.Closes dp bs' w' seals' p m')
    (hw : w.published = w'.published)
    (hpub : ∀ c c', s.verifyCommitment w.published c = .ok () → s.verifyCommitment w.published c' = .ok () →
      c = c')
    (hn : NoCollision (proofInputs w.client p m ++ proofInputs w'.client p m')) : bs = bs' ∧ m = m' := by
  obtain ⟨h1, h2, h3⟩ := h
  obtain ⟨h1', h2', h3'⟩ := h'
  have hx := C74_exact ep dp P _ _ _ hp proof_exact
  obtain ⟨pub, pr⟩ := w
  obtain ⟨pub', pr'⟩ := w'
  obtain rfl : pub = pub' := hw
  obtain ⟨rfl, rfl⟩ := C67_no_double_closing s hs pub hpub pr pr' h2 h2' seals seals' p m m' h3 h3' hn
  exact ⟨((exact_deserialize hx).1 h1).2.trans ((exact_deserialize hx).1 h1').2.symm, rfl⟩

/-- **C74** From the source: if a published witness accepts exactly the commitment to a source, then for each
message of the source there is exactly one byte string, the published witness followed by `8 + 32 · depth` bytes,
which closes the seals included for the message. For no protocol any other bytes that carry this published
witness, or another message, are accepted - unless two different strings hashed by the committer and the verifier
have one hash. -/
theorem C74_source [Env] {Seal Pub PubId PubErr : Type}
    (s : SealScheme Seal (ProtocolId × Message) Pub MerkleProof Commitment PubId PubErr InvalidProof)
    (hs : s.UsesProofs) (ep : Pub → Bytes) (dp : Decoder Pub) (P : Pub → Prop) (hp : Exact ep dp P)
    (rng : Option UInt64) (src : MultiSource) (T : MerkleTree) (c : Commitment)
    (hT : MerkleTree.tryCommit rng src = .ok (.ok T)) (hc : T.commitId = .ok c)
    (pub : Pub) (hP : P pub) (hpub : ∀ x, s.verifyCommitment pub x = .ok () ↔ x = c) (p : ProtocolId) :
    (∀ m, src.messages.get p = some m → ∃ tail : Bytes, tail.length = 8 + 32 * T.depth.val ∧
      (∀ seals : List Seal, (∀ x ∈ seals, ∀ pr, s.isIncluded x (p, m) ⟨pub, pr⟩ = true) →
        ∃ w, w.published = pub ∧ s.Closes dp (ep pub ++ tail) w seals p m) ∧
      ∀ bs' w' seals' m', w'.published = pub → s.Closes dp bs' w' seals' p m' →
        NoCollision (proofInputs w'.client p m' ++ T.inputs) → bs' = ep pub ++ tail ∧ m' = m) ∧
    (src.messages.get p = none → ∀ bs w seals m, w.published = pub → s.Closes dp bs w seals p m →
      ¬ NoCollision (proofInputs w.client p m ++ T.inputs)) := by
  obtain ⟨u1, u2⟩ := C71_source rng src T c hT hc
  have hx := C74_exact ep dp P _ _ _ hp proof_exact
  -- a closing is an accepted proof
  have acc : ∀ bs w (seals : List Seal) m, w.published = pub → s.Closes dp bs w seals p m →
      bs = ep pub ++ w.client.enc ∧ Accepts w.client.enc p m c ∧
        acceptInputs w.client.enc p m = proofInputs w.client p m := by
    rintro bs ⟨pub', pr⟩ seals m rfl ⟨h1, h2, h3⟩
    obtain ⟨⟨-, hcf⟩, rfl⟩ := (exact_deserialize hx).1 h1
    obtain ⟨-, c', hc', hv'⟩ := (C46_seals_closing_ok s _ _ _).1 h3
    obtain rfl := (hpub c').1 hv'
    have e := hs pr p m h2
    rw [show s.convolveCommit pr (p, m) = .ok c' from hc'] at e
    have hd : deserialize decMerkleProof pr.enc = some pr := (exact_deserialize proof_exact).2 ⟨hcf, rfl⟩
    exact ⟨rfl, ⟨pr, hd, e⟩, by rw [acceptInputs, hd]⟩
  constructor
  · intro m hm
    obtain ⟨tail, ⟨pr, hd, hv⟩, hlen, hone, -⟩ := u1 p m hm
    refine ⟨tail, hlen, fun seals hi => ?_, fun bs' w' seals' m' hw' hcl hn => ?_⟩
    · obtain ⟨hcf, rfl⟩ := (exact_deserialize proof_exact).1 hd
      have hl : pr.path.length ≤ 31 := (C20_partial pr hcf p m).1.1 ⟨_, hv⟩
      refine ⟨⟨pub, pr⟩, rfl, (exact_deserialize hx).2 ⟨⟨hP, hcf⟩, rfl⟩, hl,
        (C46_seals_closing_ok s _ _ _).2 ⟨fun x hx => hi x hx _, c, ?_, (hpub c).2 rfl⟩⟩
      have e := hs pr p m hl
      rw [hv] at e
      exact (Except.ok.inj e).symm
    · obtain ⟨rfl, ha, hin⟩ := acc bs' w' seals' m' hw' hcl
      obtain ⟨e, rfl⟩ := hone _ m' ha (hin ▸ hn)
      exact ⟨by rw [e], rfl⟩
  · intro hm bs w seals m hw hcl hn
    obtain ⟨-, ha, hin⟩ := acc bs w seals m hw hcl
    exact u2 p hm _ m ha (hin ▸ hn)

/-- Seals numbered by natural numbers, of which the first ten can be closed, and published witnesses that are
a commitment. -/
private def tenSeals [Env] : SealScheme Nat (ProtocolId × Message) Commitment MerkleProof Commitment Commitment
    Unit InvalidProof where
  isIncluded x _ _ := x < 10
  convolveCommit pr x := match pr.convolve x.1 x.2 with
    | .ok r => r
    | .error _ => .error ⟨x.1, 0, 0, 0⟩
  pubId w := w
  verifyCommitment w c := if c = w then .ok () else .error ()

/-- Non-vacuity of C74: seals that meet the hypotheses, and bytes that close two of them over a message of the
sample. -/
example [Env] : tenSeals.UsesProofs ∧ Exact encBytes32 decBytes32 (fun _ => True) ∧
    MerkleTree.tryCommit none Sample.source = .ok (.ok Sample.tree) ∧ ∃ c, Sample.tree.commitId = .ok c ∧
      (∀ x, tenSeals.verifyCommitment c x = .ok () ↔ x = c) ∧
      Sample.source.messages.get Sample.p1 = some Sample.m1 ∧ Sample.source.messages.get Sample.p9 = none ∧
      ∃ bs w, w.published = c ∧ tenSeals.Closes decBytes32 bs w [3, 7] Sample.p1 Sample.m1 ∧
        bs.length = 40 + 32 * Sample.tree.depth.val := by
  have hs : tenSeals.UsesProofs := by
    intro pr p m hl
    obtain ⟨r, hr⟩ := (C20_partial pr (by omega) p m).1.2 hl
    simp only [tenSeals, hr]
  have hv : ∀ pub c, tenSeals.verifyCommitment pub c = .ok () ↔ c = pub := by
    intro pub c
    simp only [tenSeals]
    split <;> simp_all
  obtain ⟨c, hc⟩ : ∃ c, Sample.tree.commitId = .ok c := ⟨_, tree_commitId Sample.tree⟩
  refine ⟨hs, decBytes32_exact, Sample.commits, c, hc, hv c, by decide, by decide, ?_⟩
  obtain ⟨tail, hl, h1, -⟩ := (C74_source tenSeals hs encBytes32 decBytes32 _ decBytes32_exact none
    Sample.source Sample.tree c Sample.commits hc c trivial (hv c) Sample.p1).1 Sample.m1 (by decide)
  obtain ⟨w, hw, h⟩ := h1 [3, 7] (by simp [tenSeals])
  refine ⟨_, w, hw, h, ?_⟩
  rw [List.length_append, hl]
  have : (encBytes32 c).length = 32 := c.len
  omega

end CSV
