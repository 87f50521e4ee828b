import Verif.Spec.Contract
import Verif.Props.Closing
import Verif.Props.Record
import Verif.Props.Fit

/-!
# Histories of a contract cannot be forked and can be reconciled (C88)
-/

namespace CSV

variable {Seal Pub PubId PubErr : Type}

/-- What the author of a contract has to see to: merkle proofs are the client-side witnesses, a
published witness accepts one commitment, and seals are public fields. -/
structure Contract.Proper [Env] (k : Contract Seal Pub PubId PubErr) : Prop where
  /-- merkle proofs are the client-side witnesses -/
  proofs : k.scheme.UsesProofs
  /-- a published witness accepts at most one commitment -/
  single : ∀ pub c c', k.scheme.verifyCommitment pub c = .ok () →
    k.scheme.verifyCommitment pub c' = .ok () → c = c'
  /-- closed seals are not confidential -/
  closes : ∀ x y, k.record.Agree x y → k.closes x = k.closes y
  /-- defined seals are not confidential -/
  defines : ∀ x y, k.record.Agree x y → k.defines x = k.defines y

/-- **C88** No double spend: two transitions, accepted by whomever after whatever histories, that close
a common seal agree in all fields at any depth - confidential ones up to their concealed form - and
have the same proof, unless two different strings hashed in their validation have one hash. -/
theorem C88_no_double_spend [Env] (k : Contract Seal Pub PubId PubErr) (hk : k.Proper)
    (s s' : Seal → Prop) (t t' : k.record.Val × MerkleProof) (h : k.Accepts s t) (h' : k.Accepts s' t')
    (x : Seal) (hx : x ∈ k.closes t.1) (hx' : x ∈ k.closes t'.1)
    (hn : NoCollision (k.inputs t ++ k.inputs t')) : k.record.Agree t.1 t'.1 ∧ t.2 = t'.2 := by
  obtain ⟨hs, hl, -, -, -, pub, m, hp, hm, hv⟩ := h
  obtain ⟨hs', hl', -, -, -, pub', m', hp', hm', hv'⟩ := h'
  have e := hp x hx
  rw [hp' x hx'] at e
  cases e
  have hi : k.inputs t = k.record.inputs k.idType t.1 ++ proofInputs t.2 k.protocol m := by
    rw [Contract.inputs, hm]
  have hi' : k.inputs t' = k.record.inputs k.idType t'.1 ++ proofInputs t'.2 k.protocol m' := by
    rw [Contract.inputs, hm']
  rw [hi, hi'] at hn
  obtain ⟨rfl, hpr⟩ := C67_no_double_closing k.scheme hk.proofs pub (hk.single pub) t.2 t'.2 hl hl' _ _
    k.protocol m m' hv hv' (hn.mono fun a ha => by
      simp only [List.mem_append] at ha ⊢
      exact ha.elim (fun h => .inl (.inr h)) fun h => .inr (.inr h))
  refine ⟨C76_binding k.record k.idType t.1 t'.1 hs hs' m hm hm' (hn.mono fun a ha => ?_), hpr⟩
  simp only [List.mem_append] at ha ⊢
  exact ha.elim (fun h => .inl (.inl h)) fun h => .inr (.inl h)

private theorem pair_noCollision [Env] {k : Contract Seal Pub PubId PubErr}
    {L : List (k.record.Val × MerkleProof)} (hn : NoCollision (L.flatMap k.inputs))
    {t u : k.record.Val × MerkleProof} (ht : t ∈ L) (hu : u ∈ L) :
    NoCollision (k.inputs t ++ k.inputs u) :=
  hn.mono fun _ ha => (List.mem_append.1 ha).elim (fun h => List.mem_flatMap.2 ⟨t, ht, h⟩)
    fun h => List.mem_flatMap.2 ⟨u, hu, h⟩

/-- **C88** No fork: if transitions define at most one seal, two histories valid from one seal are,
as far as both go, the same - whoever presents them. -/
theorem C88_no_fork [Env] (k : Contract Seal Pub PubId PubErr) (hk : k.Proper)
    (hd : ∀ x, (k.defines x).length ≤ 1) (x : Seal) (h h' : List (k.record.Val × MerkleProof))
    (hv : k.Valid (· = x) h) (hv' : k.Valid (· = x) h')
    (hn : NoCollision ((h ++ h').flatMap k.inputs)) (i : Nat) (t t' : k.record.Val × MerkleProof)
    (ht : h[i]? = some t) (ht' : h'[i]? = some t') : k.record.Agree t.1 t'.1 ∧ t.2 = t'.2 := by
  suffices H : ∀ (L h h' : List (k.record.Val × MerkleProof)) (s : Seal → Prop),
      NoCollision (L.flatMap k.inputs) → (∀ a ∈ h, a ∈ L) → (∀ a ∈ h', a ∈ L) →
      (∀ a b, s a → s b → a = b) → k.Valid s h → k.Valid s h' →
      ∀ (i : Nat) (t t' : k.record.Val × MerkleProof), h[i]? = some t → h'[i]? = some t' → k.record.Agree t.1 t'.1 ∧ t.2 = t'.2 from
    H (h ++ h') h h' _ hn (by simp +contextual) (by simp +contextual) (fun a b ha hb => ha.trans hb.symm)
      hv hv' i t t' ht ht'
  clear hn hv hv' ht ht' i t t' h h'
  intro L h
  induction h with
  | nil => intro h' s _ _ _ _ _ _ i t t' ht; simp at ht
  | cons a h ih =>
    intro h' s hn hL hL' hs hv hv' i t t' ht ht'
    rcases h' with _ | ⟨b, h'⟩
    · simp at ht'
    obtain ⟨ha, hv⟩ := hv
    obtain ⟨hb, hv'⟩ := hv'
    have key : k.record.Agree a.1 b.1 ∧ a.2 = b.2 := by
      obtain ⟨y, hy⟩ := List.exists_mem_of_ne_nil _ ha.2.2.1
      obtain ⟨z, hz⟩ := List.exists_mem_of_ne_nil _ hb.2.2.1
      obtain rfl := hs y z (ha.2.2.2.1 y hy) (hb.2.2.2.1 z hz)
      exact C88_no_double_spend k hk s s a b ha hb y hy hz
        (pair_noCollision hn (hL a (by simp)) (hL' b (by simp)))
    cases i with
    | zero =>
      simp only [List.getElem?_cons_zero, Option.some.injEq] at ht ht'
      subst ht ht'
      exact key
    | succ i =>
      simp only [List.getElem?_cons_succ] at ht ht'
      have e : k.after s b = k.after s a := by
        funext y
        simp only [Contract.after, hk.closes _ _ key.1, hk.defines _ _ key.1]
      rw [e] at hv'
      refine ih h' (k.after s a) hn (fun c hc => hL c (by simp [hc])) (fun c hc => hL' c (by simp [hc]))
        ?_ hv hv' i t t' ht ht'
      have none_left : ∀ y, ¬ (s y ∧ y ∉ k.closes a.1) := by
        rintro y ⟨hy, hn⟩
        obtain ⟨z, hz⟩ := List.exists_mem_of_ne_nil _ ha.2.2.1
        rw [hs y z hy (ha.2.2.2.1 z hz)] at hn
        exact hn hz
      intro y z hy hz
      rcases hy with hy | hy
      · exact absurd hy (none_left y)
      rcases hz with hz | hz
      · exact absurd hz (none_left z)
      have := hd a.1
      match hl : k.defines a.1, this with
      | [], _ => rw [hl] at hy; cases hy
      | [w], _ =>
        rw [hl] at hy hz
        rw [List.mem_singleton.1 hy, List.mem_singleton.1 hz]
      | _ :: _ :: _, hle => simp at hle

/-- Two accepted transitions are the same up to what is concealed, or can be done in both orders. -/
private theorem diamond [Env] {k : Contract Seal Pub PubId PubErr} (hk : k.Proper)
    (hu : ∀ x y s, s ∈ k.defines x → s ∈ k.defines y → k.record.Agree x y)
    {s : Seal → Prop} {t u : k.record.Val × MerkleProof} (ht : k.Accepts s t) (h : k.Accepts s u)
    (hn : NoCollision (k.inputs t ++ k.inputs u)) :
    (k.record.Agree t.1 u.1 ∧ t.2 = u.2 ∧ k.after s t = k.after s u) ∨
    (k.Accepts (k.after s t) u ∧ k.Accepts (k.after s u) t ∧
      k.after (k.after s t) u = k.after (k.after s u) t) := by
  have same : k.record.Agree t.1 u.1 → k.after s t = k.after s u := by
    intro e
    funext y
    simp only [Contract.after, hk.closes _ _ e, hk.defines _ _ e]
  by_cases hc : ∃ x, x ∈ k.closes t.1 ∧ x ∈ k.closes u.1
  · obtain ⟨x, h1, h2⟩ := hc
    obtain ⟨e, e'⟩ := C88_no_double_spend k hk s s t u ht h x h1 h2 hn
    exact .inl ⟨e, e', same e⟩
  have disj : ∀ x ∈ k.closes t.1, x ∉ k.closes u.1 := fun x h1 h2 => hc ⟨x, h1, h2⟩
  have disj' : ∀ x ∈ k.closes u.1, x ∉ k.closes t.1 := fun x h1 h2 => hc ⟨x, h2, h1⟩
  have hdef : ∀ x ∈ k.defines t.1, x ∉ k.defines u.1 := by
    intro x h1 h2
    have e := hk.closes _ _ (hu _ _ x h1 h2)
    obtain ⟨y, hy⟩ := List.exists_mem_of_ne_nil _ ht.2.2.1
    exact disj y hy (e ▸ hy)
  obtain ⟨a1, a2, a3, a4, a5, a6⟩ := ht
  obtain ⟨b1, b2, b3, b4, b5, b6⟩ := h
  refine .inr ⟨⟨b1, b2, b3, fun x hx => .inl ⟨b4 x hx, disj' x hx⟩, fun x hx => ?_, b6⟩,
    ⟨a1, a2, a3, fun x hx => .inl ⟨a4 x hx, disj x hx⟩, fun x hx => ?_, a6⟩, ?_⟩
  · rintro (⟨h1, -⟩ | h1)
    · exact b5 x hx h1
    · exact hdef x h1 hx
  · rintro (⟨h1, -⟩ | h1)
    · exact a5 x hx h1
    · exact hdef x hx h1
  · funext x
    simp only [Contract.after]
    apply propext
    constructor
    · rintro (⟨⟨h1, h2⟩ | h1, h3⟩ | h1)
      · exact .inl ⟨.inl ⟨h1, h3⟩, h2⟩
      · exact .inr h1
      · exact .inl ⟨.inr h1, fun h2 => b5 x h1 (a4 x h2)⟩
    · rintro (⟨⟨h1, h2⟩ | h1, h3⟩ | h1)
      · exact .inl ⟨.inl ⟨h1, h3⟩, h2⟩
      · exact .inr h1
      · exact .inl ⟨.inr h1, fun h2 => a5 x h1 (b4 x h2)⟩

private theorem afterAll_append {k : Contract Seal Pub PubId PubErr}
    (h g : List (k.record.Val × MerkleProof)) (s : Seal → Prop) :
    k.afterAll s (h ++ g) = k.afterAll (k.afterAll s h) g := by
  induction h generalizing s with
  | nil => rfl
  | cons t h ih => exact ih _

private theorem valid_append [Env] {k : Contract Seal Pub PubId PubErr}
    (h g : List (k.record.Val × MerkleProof)) (s : Seal → Prop) :
    k.Valid s (h ++ g) ↔ k.Valid s h ∧ k.Valid (k.afterAll s h) g := by
  induction h generalizing s with
  | nil => simp [Contract.Valid, Contract.afterAll]
  | cons t h ih =>
    simp only [List.cons_append, Contract.Valid, Contract.afterAll, ih, and_assoc]

private theorem strip [Env] {k : Contract Seal Pub PubId PubErr} (hk : k.Proper)
    (hu : ∀ x y s, s ∈ k.defines x → s ∈ k.defines y → k.record.Agree x y)
    {L : List (k.record.Val × MerkleProof)} (hn : NoCollision (L.flatMap k.inputs))
    (t : k.record.Val × MerkleProof) (htL : t ∈ L) :
    ∀ (h : List (k.record.Val × MerkleProof)) (s : Seal → Prop), (∀ a ∈ h, a ∈ L) →
      k.Accepts s t → k.Valid s h →
      ∃ g g', (∀ a ∈ g, a ∈ h) ∧ (∀ a ∈ g', a = t) ∧ k.Valid (k.after s t) g ∧
        k.Valid (k.afterAll s h) g' ∧
        k.afterAll (k.after s t) g = k.afterAll (k.afterAll s h) g'
  | [], s, _, ht, _ => ⟨[], [t], by simp, by simp, trivial, ⟨ht, trivial⟩, rfl⟩
  | u :: h, s, hL, ht, ⟨hu1, hv⟩ => by
    rcases diamond hk hu ht hu1 (pair_noCollision hn htL (hL u (by simp))) with ⟨-, -, e⟩ | ⟨h1, h2, e⟩
    · refine ⟨h, [], by simp +contextual, by simp, e ▸ hv, trivial, ?_⟩
      rw [e]; rfl
    · obtain ⟨g, g', i1, i2, i3, i4, i5⟩ :=
        strip hk hu hn t htL h (k.after s u) (fun a ha => hL a (by simp [ha])) h2 hv
      refine ⟨u :: g, g', ?_, i2, ⟨h1, e ▸ i3⟩, i4, ?_⟩
      · intro a ha
        rcases List.mem_cons.1 ha with rfl | ha
        · simp
        · simp [i1 a ha]
      · rw [Contract.afterAll, e, i5]; rfl

/-- **C88** Reconciliation: two valid histories of one contract, of whatever form, can be continued -
each with transitions of the other - to valid histories after which the same seals can be closed. -/
theorem C88_reconcile [Env] (k : Contract Seal Pub PubId PubErr) (hk : k.Proper)
    (hu : ∀ x y s, s ∈ k.defines x → s ∈ k.defines y → k.record.Agree x y)
    (s : Seal → Prop) (h h' : List (k.record.Val × MerkleProof)) (hv : k.Valid s h)
    (hv' : k.Valid s h') (hn : NoCollision ((h ++ h').flatMap k.inputs)) :
    ∃ g g', (∀ a ∈ g, a ∈ h') ∧ (∀ a ∈ g', a ∈ h) ∧ k.Valid s (h ++ g) ∧ k.Valid s (h' ++ g') ∧
      k.afterAll s (h ++ g) = k.afterAll s (h' ++ g') := by
  suffices H : ∀ (L h h' : List (k.record.Val × MerkleProof)) (s : Seal → Prop),
      NoCollision (L.flatMap k.inputs) → (∀ a ∈ h, a ∈ L) → (∀ a ∈ h', a ∈ L) → k.Valid s h →
      k.Valid s h' → ∃ g g', (∀ a ∈ g, a ∈ h') ∧ (∀ a ∈ g', a ∈ h) ∧ k.Valid (k.afterAll s h) g ∧
        k.Valid (k.afterAll s h') g' ∧
        k.afterAll (k.afterAll s h) g = k.afterAll (k.afterAll s h') g' by
    obtain ⟨g, g', h1, h2, h3, h4, h5⟩ :=
      H (h ++ h') h h' s hn (by simp +contextual) (by simp +contextual) hv hv'
    refine ⟨g, g', h1, h2, (valid_append ..).2 ⟨hv, h3⟩, (valid_append ..).2 ⟨hv', h4⟩, ?_⟩
    rw [afterAll_append, afterAll_append, h5]
  clear hn hv hv' h h' s
  intro L h
  induction h with
  | nil =>
    intro h' s _ _ _ _ hv'
    exact ⟨h', [], by simp, by simp, hv', trivial, rfl⟩
  | cons t h ih =>
    intro h' s hn hL hL' ⟨ht, hv⟩ hv'
    obtain ⟨g1, g1', i1, i2, i3, i4, i5⟩ := strip hk hu hn t (hL t (by simp)) h' s hL' ht hv'
    obtain ⟨g2, g2', j1, j2, j3, j4, j5⟩ := ih g1 (k.after s t) hn (fun a ha => hL a (by simp [ha]))
      (fun a ha => hL' a (i1 a ha)) hv i3
    refine ⟨g2, g1' ++ g2', fun a ha => i1 a (j1 a ha), ?_, j3, ?_, ?_⟩
    · intro a ha
      rcases List.mem_append.1 ha with ha | ha
      · rw [i2 a ha]; simp
      · simp [j2 a ha]
    · rw [valid_append, ← i5]
      exact ⟨i4, j4⟩
    · rw [afterAll_append, ← i5, ← j5]; rfl

/-- **C88** Transitions can be made: one that closes seals which can be closed, whose id is the message
of the protocol in a committed source, is accepted with some proof once the commitment is published for
these seals. -/
theorem C88_accepted [Env] (k : Contract Seal Pub PubId PubErr) (hk : k.Proper) (s : Seal → Prop)
    (x : k.record.Val) (hs : k.record.Sound x) (h0 : k.closes x ≠ []) (hc : ∀ a ∈ k.closes x, s a)
    (hd : ∀ a ∈ k.defines x, ¬ s a) (m : Message) (hm : k.record.id k.idType x = .ok m)
    (rng : Option UInt64) (src : MultiSource) (T : MerkleTree) (c : Commitment)
    (hT : MerkleTree.tryCommit rng src = .ok (.ok T)) (hT' : T.commitId = .ok c)
    (hsrc : src.messages.get k.protocol = some m) (pub : Pub)
    (hp : k.scheme.verifyCommitment pub c = .ok ()) (hl : ∀ a ∈ k.closes x, k.ledger a = some pub)
    (hi : ∀ a ∈ k.closes x, ∀ pr, k.scheme.isIncluded a (k.protocol, m) ⟨pub, pr⟩ = true) :
    ∃ pr, k.Accepts s (x, pr) := by
  obtain ⟨pr, hpr, hv⟩ := (C67_closable k.scheme hk.proofs rng src T c hT hT' pub
    (fun y => ⟨fun hy => hk.single pub y c hy hp, fun hy => hy ▸ hp⟩) (k.closes x) k.protocol m).1 hsrc hi
  exact ⟨pr, hs, hpr, h0, hc, hd, pub, m, hl, hm, hv⟩

/-! A chain: the transition `n` closes the seal `n` and defines the seal `n + 1`, and everything is
published. -/

/-- The number of a transition. -/
def Sample.number : Leaf → Option Nat
  | .entropy n pos => some (n.toNat * 2 ^ 32 + pos.toNat)
  | .inhabited _ _ => none

/-- The transition with a number below `2^32`. -/
def Sample.transition (n : UInt32) : Sample.itemRecord.Val := (.entropy 0 n, ())

/-- The source committed to for a transition. -/
def Sample.stepSource (m : Message) : MultiSource :=
  ⟨.sha256t, 3, ⟨[(Sample.p1, m), (Sample.p5, Sample.m5)],
    .cons (fun x hx => by rw [List.mem_singleton.1 hx]; show OrdKey.key Sample.p1 < OrdKey.key Sample.p5; decide)
      (.cons (fun _ h => nomatch h) .nil), by show 2 ≤ MEDIUM_MAX; decide⟩, some 77⟩

def Sample.contract [Env] : Contract Nat (Commitment × List Nat) Nat Unit where
  scheme := proofSeals
  ledger n :=
    match Sample.itemRecord.id merkleHashId (Sample.transition (UInt32.ofNat n)) with
    | .error _ => none
    | .ok m =>
      match MerkleTree.tryCommit none (Sample.stepSource m) with
      | .ok (.ok T) =>
        match T.commitId with
        | .ok c => some (c, [n])
        | .error _ => none
      | _ => none
  protocol := Sample.p1
  record := Sample.itemRecord
  idType := merkleHashId
  closes x := (Sample.number x.1).toList
  defines x := (Sample.number x.1).toList.map (· + 1)

theorem Sample.contract_proper [Env] : Sample.contract.Proper where
  proofs := by
    intro pr p m hl
    obtain ⟨r, hr⟩ := (C20_partial pr (by omega) p m).1.2 hl
    simp only [Sample.contract, proofSeals, hr]
  single := by
    have hv : ∀ pub c, proofSeals.verifyCommitment pub c = .ok () → c = pub.1 := by
      intro pub c
      simp only [proofSeals]
      split <;> simp_all
    intro pub c c' h h'
    rw [hv pub c h, hv pub c' h']
  closes := by
    intro x y h
    have : x.1 = y.1 := h.1
    simp only [Sample.contract, this]
  defines := by
    intro x y h
    have : x.1 = y.1 := h.1
    simp only [Sample.contract, this]

private theorem Sample.id_ok [Env] (l : Leaf) : ∃ m, Sample.itemRecord.id merkleHashId (l, ()) = .ok m := by
  have hc : ByCalls Leaf fun x => Sample.itemRecord.calls (x, ()) := fun _ x e => by
    simp only [Sample.itemRecord, Record.calls, CommitEngine.runAll, Call.run, CommitEncode.commitEncode]
    cases e.commitToSerialized x <;> rfl
  refine ⟨leafHash l, ?_⟩
  rw [← commitId_leaf]
  refine (Record.id_def Sample.itemRecord merkleHashId _).trans ?_
  simp only [commitId, commit, hc _ l]
  rfl

/-- Non-vacuity of C88: seals are defined once, each transition defines at most one, and a transition is
accepted whenever its seal can be closed and the next one not. -/
theorem Sample.contract_accepts [Env] (n : UInt32) (s : Nat → Prop) (h1 : s n.toNat)
    (h2 : ¬ s (n.toNat + 1)) : ∃ pr, Sample.contract.Accepts s (Sample.transition n, pr) := by
  obtain ⟨m, hm⟩ := Sample.id_ok (Leaf.entropy 0 n)
  obtain ⟨T, hT⟩ := C04_numbers none (Sample.stepSource m) rfl (by simp [Sample.stepSource])
    (.inl ⟨by simp [Sample.stepSource], by show (3 : U5).val ≤ 13; decide⟩)
  obtain ⟨c, hc⟩ : ∃ c, T.commitId = .ok c := ⟨_, tree_commitId T⟩
  have hcl : Sample.contract.closes (Sample.transition n) = [n.toNat] := by
    simp [Sample.contract, Sample.transition, Sample.number]
  have hde : Sample.contract.defines (Sample.transition n) = [n.toNat + 1] := by
    simp [Sample.contract, Sample.transition, Sample.number]
  refine C88_accepted Sample.contract Sample.contract_proper s (Sample.transition n) ?_ (by simp [hcl])
    (by simpa [hcl] using h1) (by simpa [hde] using h2) m hm none (Sample.stepSource m) T c hT hc ?_
    (c, [n.toNat]) (by simp [Sample.contract, proofSeals]) ?_ ?_
  · exact (Sample.item_sound _).1
  · simp [Sample.stepSource, Sample.contract, OrdMap.get, bmapGet]
  · intro a ha
    rw [hcl, List.mem_singleton] at ha
    subst ha
    simp only [Sample.contract, UInt32.ofNat_toNat]
    rw [show Sample.itemRecord.id merkleHashId (Sample.transition n) = .ok m from hm]
    simp only [hT, hc]
  · intro a ha pr
    rw [hcl, List.mem_singleton] at ha
    subst ha
    simp [Sample.contract, proofSeals]

example [Env] : (∀ x, (Sample.contract.defines x).length ≤ 1) ∧
    (∀ x y s, s ∈ Sample.contract.defines x → s ∈ Sample.contract.defines y →
      Sample.contract.record.Agree x y) ∧
    ∃ a b, Sample.contract.Valid (· = 0) [(Sample.transition 0, a), (Sample.transition 1, b)] := by
  refine ⟨?_, ?_, ?_⟩
  · rintro ⟨l, _⟩
    cases l <;> simp [Sample.contract, Sample.number]
  · rintro ⟨l, _⟩ ⟨l', _⟩ s h h'
    suffices l = l' from ⟨this, trivial⟩
    cases l <;> cases l' <;> simp [Sample.contract, Sample.number] at h h'
    next a b a' b' =>
      have := b.toNat_lt
      have := b'.toNat_lt
      rw [Leaf.entropy.injEq, ← UInt64.toNat_inj, ← UInt32.toNat_inj]
      omega
  · obtain ⟨a, ha⟩ := Sample.contract_accepts 0 (· = 0) rfl (by simp)
    obtain ⟨b, hb⟩ := Sample.contract_accepts 1 (Sample.contract.after (· = 0) (Sample.transition 0, a))
      (.inr (by simp [Sample.contract, Sample.transition, Sample.number])) (by
        rintro (⟨h, -⟩ | h)
        · simp at h
        · simp [Sample.contract, Sample.transition, Sample.number] at h)
    exact ⟨a, b, ha, hb, trivial⟩

end CSV
