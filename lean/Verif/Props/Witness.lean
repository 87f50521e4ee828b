import Verif.Props.Closing
import Verif.Props.Block

/-!
# C104: merkle blocks as client-side witnesses which can be merged

Client-side witnesses have a method `merge` (`/repo/single_use_seals/src/lib.rs:178-179`). A merkle proof is a witness for
one protocol and cannot be merged with another one (C67); a merkle block is a witness for several protocols, and
`merge_reveal` merges two.
-/

namespace CSV

variable {Seal Pub PubId PubErr CliErr : Type}

/-- The client-side witness of the seals is a merkle block, and `convolve_commit` takes the proof of the protocol from it
and verifies the proof. (Blocks for which this panics are accepted for no message.) -/
def SealScheme.UsesBlocks [Env]
    (s : SealScheme Seal (ProtocolId × Message) Pub MerkleBlock Commitment PubId PubErr CliErr) : Prop :=
  ∀ (b : MerkleBlock) p m c, s.convolveCommit b (p, m) = .ok c ↔
    ∃ pr, b.toMerkleProof p = .ok (.ok pr) ∧ pr.convolve p m = .ok (.ok c)

private theorem proof_length [Env] {b : MerkleBlock} {p : ProtocolId} {pr : MerkleProof}
    (h : b.toMerkleProof p = .ok (.ok pr)) : pr.path.length ≤ 32 := by
  simp only [MerkleBlock.toMerkleProof] at h
  cases h1 : b.concealOther p with
  | error e => rw [h1] at h; cases h
  | ok x =>
    obtain ⟨b', r⟩ := x
    rw [h1] at h
    cases r with
    | error e => cases h
    | ok u =>
      simp only [bind, Except.bind] at h
      cases h2 : collectPath b'.crossSection [] with
      | error e => rw [h2] at h; cases h
      | ok map =>
        rw [h2] at h
        simp only at h
        cases h3 : debugAssert dbg (decide (b'.depth.val = map.length)) with
        | error e => rw [h3] at h; cases h
        | ok u =>
          rw [h3] at h
          simp only at h
          by_cases hl : (map.map Prod.snd).length ≤ 32
          · rw [if_pos hl] at h
            cases h
            exact hl
          · rw [if_neg hl] at h
            cases h

/-- **C104** No double closing: whatever blocks are presented, closings accepted against one published witness that
accepts at most one commitment are, for one protocol, closings over one message (unless two different strings hashed in
verifying the proofs taken from the blocks have the same hash). -/
theorem C104_no_double_closing [Env]
    (s : SealScheme Seal (ProtocolId × Message) Pub MerkleBlock Commitment PubId PubErr CliErr)
    (hs : s.UsesBlocks) (pub : Pub)
    (hpub : ∀ c c', s.verifyCommitment pub c = .ok () → s.verifyCommitment pub c' = .ok () → c = c')
    (b b' : MerkleBlock) (seals seals' : List Seal) (p : ProtocolId) (m m' : Message)
    (h : s.verifySealsClosing ⟨pub, b⟩ seals (p, m) = .ok ())
    (h' : s.verifySealsClosing ⟨pub, b'⟩ seals' (p, m') = .ok ()) :
    ∃ pr pr', b.toMerkleProof p = .ok (.ok pr) ∧ b'.toMerkleProof p = .ok (.ok pr') ∧
      (NoCollision (proofInputs pr p m ++ proofInputs pr' p m') → m = m' ∧ pr = pr') := by
  obtain ⟨-, c, hc, hv⟩ := (C46_seals_closing_ok s _ _ _).1 h
  obtain ⟨-, c', hc', hv'⟩ := (C46_seals_closing_ok s _ _ _).1 h'
  obtain rfl := hpub c c' hv hv'
  obtain ⟨pr, e1, e2⟩ := (hs b p m c).1 hc
  obtain ⟨pr', e1', e2'⟩ := (hs b' p m' c).1 hc'
  exact ⟨pr, pr', e1, e1', fun hn => C18_binding pr pr' p m m' c (proof_length e1) (proof_length e1') hn e2 e2'⟩

/-- **C104** Nothing but the source: if the published witness accepts exactly the commitment to a source, no block that
anybody presents closes seals over anything but a message of the source (no collision). -/
theorem C104_only_committed [Env]
    (s : SealScheme Seal (ProtocolId × Message) Pub MerkleBlock Commitment PubId PubErr CliErr)
    (hs : s.UsesBlocks) (rng : Option UInt64) (src : MultiSource) (T : MerkleTree) (c : Commitment)
    (hT : MerkleTree.tryCommit rng src = .ok (.ok T)) (hc : T.commitId = .ok c)
    (pub : Pub) (hpub : ∀ x, s.verifyCommitment pub x = .ok () ↔ x = c) (seals : List Seal)
    (b : MerkleBlock) (p : ProtocolId) (m : Message)
    (h : s.verifySealsClosing ⟨pub, b⟩ seals (p, m) = .ok ()) :
    ∃ pr, b.toMerkleProof p = .ok (.ok pr) ∧
      (NoCollision (proofInputs pr p m ++ T.inputs) → src.messages.get p = some m) := by
  obtain ⟨-, c', h1, h2⟩ := (C46_seals_closing_ok s _ _ _).1 h
  obtain rfl := (hpub c').1 h2
  obtain ⟨pr, e1, e2⟩ := (hs b p m _).1 h1
  exact ⟨pr, e1, fun hn => (C21_source rng src T _ hT hc).2 pr p m (proof_length e1) e2 hn⟩

private theorem proof_known [Env] {b : MerkleBlock} {p : ProtocolId} {pr : MerkleProof}
    (h : b.toMerkleProof p = .ok (.ok pr)) : p ∈ b.knownProtocolIds := by
  apply Classical.byContradiction
  intro hp
  obtain ⟨b', hb'⟩ := (C13_leaf_not_known b [p] p).2 ⟨List.mem_singleton_self _, hp, fun q hq _ => by
    rw [List.mem_singleton.1 hq]; exact Nat.le_refl _⟩
  have : b.toMerkleProof p = .ok (.error ⟨p⟩) := by
    simp only [MerkleBlock.toMerkleProof, MerkleBlock.concealOther, hb']
    rfl
  rw [this] at h
  cases h

/-- **C104** What a witness is good for after any history: concealing, merging with witnesses and proofs of others -
successful or not - leaves a witness which closes included seals over exactly those messages of the source that were
not concealed or were merged again; merging loses nothing, and failing merges change nothing. -/
theorem C104_histories [Env]
    (s : SealScheme Seal (ProtocolId × Message) Pub MerkleBlock Commitment PubId PubErr CliErr)
    (hs : s.UsesBlocks) (rng : Option UInt64) (src : MultiSource) (T : MerkleTree) (c : Commitment)
    (hT : MerkleTree.tryCommit rng src = .ok (.ok T)) (hc : T.commitId = .ok c)
    (pub : Pub) (hpub : ∀ x, s.verifyCommitment pub x = .ok () ↔ x = c)
    (ops : List BlockOp) (ha : ∀ op ∈ ops, op.Admissible T) :
    ∃ b b', MerkleBlock.fromTree T = .ok b ∧ b.run ops = .ok b' ∧ ∀ (seals : List Seal) p m,
      (∀ x ∈ seals, s.isIncluded x (p, m) ⟨pub, b'⟩ = true) →
      (effects c (fun e => src.messages.get e.1 = some e.2) ops (p, m) →
        s.verifySealsClosing ⟨pub, b'⟩ seals (p, m) = .ok ()) ∧
      (s.verifySealsClosing ⟨pub, b'⟩ seals (p, m) = .ok () →
        (∀ pr, b'.toMerkleProof p = .ok (.ok pr) → NoCollision (proofInputs pr p m ++ T.inputs)) →
        effects c (fun e => src.messages.get e.1 = some e.2) ops (p, m)) := by
  obtain ⟨b, b', c', h1, h2, h3, -, -, hk, hk', -, he, hp⟩ := C55_source rng src T hT ops ha
  cases Except.ok.inj (h3.symm.trans hc)
  have hK : (fun e => e ∈ b.knownMessages) = fun e : ProtocolId × Message => src.messages.get e.1 = some e.2 := by
    funext e
    exact propext (hk e.1 e.2)
  rw [hK] at he
  refine ⟨b, b', h1, h2, fun seals p m hi => ⟨fun h => ?_, fun h hn => ?_⟩⟩
  · have hm := (he (p, m)).2 h
    obtain ⟨pr, n, e1, e2, e3, -⟩ := hp p (by rw [knownIds_map]; exact List.mem_map.2 ⟨_, hm, rfl⟩)
    rw [hk' p m hm] at e2
    cases e2
    exact (C46_seals_closing_ok s _ _ _).2 ⟨hi, c, (hs b' p m c).2 ⟨pr, e1, e3⟩, (hpub c).2 rfl⟩
  · obtain ⟨-, x, g1, g2⟩ := (C46_seals_closing_ok s _ _ _).1 h
    obtain rfl := (hpub x).1 g2
    obtain ⟨pr, g3, g4⟩ := (hs b' p m _).1 g1
    obtain ⟨pr2, n, e1, e2, -, e4⟩ := hp p (proof_known g3)
    cases Except.ok.inj (Except.ok.inj (g3.symm.trans e1))
    cases e4 m (hn _ g3) g4
    have hkn := proof_known g3
    rw [knownIds_map] at hkn
    obtain ⟨⟨q, k⟩, hkk, rfl⟩ := List.mem_map.1 hkn
    have := hk' q k hkk
    rw [e2] at this
    cases this
    exact (he _).1 hkk

/-- **C104** Merging two witnesses of one commitment succeeds, in either order, with the same nodes, and gives a witness for
exactly what one of the two was a witness for. No assumption on the hash function is needed. -/
theorem C104_merge [Env]
    (s : SealScheme Seal (ProtocolId × Message) Pub MerkleBlock Commitment PubId PubErr CliErr)
    (hs : s.UsesBlocks) (T : MerkleTree) (hT : T.Holds) (pub : Pub)
    (b1 b2 : MerkleBlock) (h1 : b1.OfTree T) (h2 : b2.OfTree T) :
    ∃ b b' n n', b1.mergeReveal b2 = .ok (b, .ok n) ∧ b2.mergeReveal b1 = .ok (b', .ok n') ∧
      ∀ (seals : List Seal) p m, (∀ x ∈ seals, ∀ o, s.isIncluded x (p, m) ⟨pub, o⟩ = true) →
        (s.verifySealsClosing ⟨pub, b⟩ seals (p, m) = .ok () ↔
          s.verifySealsClosing ⟨pub, b1⟩ seals (p, m) = .ok () ∨
          s.verifySealsClosing ⟨pub, b2⟩ seals (p, m) = .ok ()) ∧
        (s.verifySealsClosing ⟨pub, b'⟩ seals (p, m) = .ok () ↔
          s.verifySealsClosing ⟨pub, b⟩ seals (p, m) = .ok ()) := by
  obtain ⟨b, n, e1, hb, k1⟩ := C23_of_tree T b1 b2 h1 h2
  obtain ⟨b', n', e2, hb', k2⟩ := C23_of_tree T b2 b1 h2 h1
  refine ⟨b, b', n, n', e1, e2, fun seals p m hi => ?_⟩
  have ids : ∀ (o : MerkleBlock) q, q ∈ o.knownProtocolIds ↔ ∃ k, (q, k) ∈ o.knownMessages := by
    intro o q
    rw [knownIds_map, List.mem_map]
    constructor
    · rintro ⟨⟨q', k⟩, hk, rfl⟩
      exact ⟨k, hk⟩
    · rintro ⟨k, hk⟩
      exact ⟨_, hk, rfl⟩
  have move : ∀ o o' : MerkleBlock, o.OfTree T → o'.OfTree T → (p ∈ o.knownProtocolIds → p ∈ o'.knownProtocolIds) →
      s.verifySealsClosing ⟨pub, o⟩ seals (p, m) = .ok () → s.verifySealsClosing ⟨pub, o'⟩ seals (p, m) = .ok () := by
    intro o o' ho ho' hsub h
    obtain ⟨-, x, g1, g2⟩ := (C46_seals_closing_ok s _ _ _).1 h
    obtain ⟨pr, g3, g4⟩ := (hs o p m x).1 g1
    obtain ⟨pr', j1, j2⟩ := C17_same_proof T hT o o' ho ho' p (proof_known g3) (hsub (proof_known g3))
    cases Except.ok.inj (Except.ok.inj (g3.symm.trans j1))
    exact (C46_seals_closing_ok s _ _ _).2 ⟨fun y hy => hi y hy _, x, (hs o' p m x).2 ⟨pr, j2, g4⟩, g2⟩
  have u1 : p ∈ b.knownProtocolIds ↔ p ∈ b1.knownProtocolIds ∨ p ∈ b2.knownProtocolIds := by
    simp only [ids, k1, exists_or]
  have u2 : p ∈ b'.knownProtocolIds ↔ p ∈ b.knownProtocolIds := by
    simp only [ids, k1, k2, or_comm]
  refine ⟨⟨fun h => ?_, ?_⟩, move b' b hb' hb u2.1, move b b' hb hb' u2.2⟩
  · obtain ⟨-, x, g1, g2⟩ := (C46_seals_closing_ok s _ _ _).1 h
    obtain ⟨pr, g3, -⟩ := (hs b p m x).1 g1
    rcases u1.1 (proof_known g3) with hp | hp
    · exact Or.inl (move b b1 hb h1 (fun _ => hp) h)
    · exact Or.inr (move b b2 hb h2 (fun _ => hp) h)
  · rintro (h | h)
    · exact move b1 b h1 hb (fun hp => u1.2 (Or.inl hp)) h
    · exact move b2 b h2 hb (fun hp => u1.2 (Or.inr hp)) h

/-- **C104** The proof must be verified: if the witness is taken to close seals over any message the block reveals, there is
a structurally valid block, for which a commitment can be computed, that closes seals over two messages of one protocol. -/
theorem C104_revealed_is_not_enough : ∃ (b : MerkleBlock) (p : ProtocolId) (m m' : Message), m ≠ m' ∧ b.Valid ∧
    ∀ (_ : Env) (s : SealScheme Seal (ProtocolId × Message) Pub MerkleBlock Commitment PubId PubErr CliErr),
      (∀ o q k x, (q, k) ∈ o.knownMessages → o.commitId = .ok x → s.convolveCommit o (q, k) = .ok x) →
      ∃ c, b.commitId = .ok c ∧ ∀ pub, s.verifyCommitment pub c = .ok () →
        s.verifySealsClosing ⟨pub, b⟩ [] (p, m) = .ok () ∧ s.verifySealsClosing ⟨pub, b⟩ [] (p, m') = .ok () := by
  obtain ⟨b, p, m, m', hne, hv, hc, h1, h2⟩ := C30_false.2
  refine ⟨b, p, m, m', hne, hv, fun env s hs => ?_⟩
  obtain ⟨c, hc⟩ := hc env
  refine ⟨c, hc, fun pub hp => ⟨(C46_seals_closing_ok s _ _ _).2 ⟨by simp, c, hs b p m c h1 hc, hp⟩,
    (C46_seals_closing_ok s _ _ _).2 ⟨by simp, c, hs b p m' c h2 hc, hp⟩⟩⟩

/-- Seals numbered by natural numbers, published witnesses that are a commitment and a list of closed seals. -/
def blockSeals [Env] : SealScheme Nat (ProtocolId × Message) (Commitment × List Nat) MerkleBlock Commitment Nat
    Unit Unit where
  isIncluded x _ w := w.published.2.contains x
  convolveCommit b x := match b.toMerkleProof x.1 with
    | .ok (.ok pr) => match pr.convolve x.1 x.2 with
      | .ok (.ok c) => .ok c
      | _ => .error ()
    | _ => .error ()
  pubId w := w.2.length
  verifyCommitment w c := if c = w.1 then .ok () else .error ()

private theorem blockSeals_uses [Env] : blockSeals.UsesBlocks := by
  intro b p m c
  simp only [blockSeals]
  constructor
  · intro h
    split at h
    · rename_i pr hp
      split at h
      · rename_i c' hc
        cases h
        exact ⟨pr, hp, hc⟩
      · cases h
    · cases h
  · rintro ⟨pr, h1, h2⟩
    rw [h1]
    simp only [h2]

/-- Non-vacuity: these seals meet the hypotheses, and a history of concealing and merging of the sample leaves a witness that
closes a seal over one of its messages. -/
example [Env] : blockSeals.UsesBlocks ∧
    (∀ pub c c', blockSeals.verifyCommitment pub c = .ok () → blockSeals.verifyCommitment pub c' = .ok () → c = c') ∧
    ∃ c b, Sample.tree.commitId = .ok c ∧
      Sample.block.run [.concealExcept [Sample.p1], .mergeReveal Sample.block, .concealOther Sample.p5] = .ok b ∧
      blockSeals.verifySealsClosing ⟨(c, [4, 7]), b⟩ [7] (Sample.p5, Sample.m5) = .ok () := by
  have hv : ∀ pub c, blockSeals.verifyCommitment pub c = .ok () ↔ c = pub.1 := by
    intro pub c
    simp only [blockSeals]
    split <;> simp_all
  refine ⟨blockSeals_uses, fun pub c c' h h' => by rw [(hv pub c).1 h, (hv pub c').1 h'], ?_⟩
  obtain ⟨-, -, b0, g1, g2⟩ := C16_committed_trees none Sample.source Sample.tree Sample.commits
  cases Except.ok.inj (g1.symm.trans Sample.from_tree)
  obtain ⟨c, hc⟩ : ∃ c, Sample.tree.commitId = .ok c := ⟨_, tree_commitId Sample.tree⟩
  obtain ⟨b, b', h1, h2, h3⟩ := C104_histories blockSeals blockSeals_uses none Sample.source Sample.tree c Sample.commits hc
    (c, [4, 7]) (hv _) [.concealExcept [Sample.p1], .mergeReveal Sample.block, .concealOther Sample.p5] (by
      intro op hop
      simp only [List.mem_cons, List.not_mem_nil, or_false] at hop
      rcases hop with rfl | rfl | rfl
      · trivial
      · exact Or.inl g2
      · trivial)
  cases Except.ok.inj (h1.symm.trans Sample.from_tree)
  refine ⟨c, b', hc, h2, (h3 [7] Sample.p5 Sample.m5 (by simp [blockSeals])).1 ?_⟩
  obtain ⟨b2, -, c2, -, j1, -, j2, j3, -⟩ := C09_one_commitment Sample.tree
  cases Except.ok.inj (j1.symm.trans Sample.from_tree)
  cases Except.ok.inj (j2.symm.trans hc)
  simp only [effects, BlockOp.effect]
  exact ⟨Or.inr ⟨j3, by simp [Sample.block, MerkleBlock.knownMessages]⟩, trivial⟩

end CSV
