import Verif.Proofs.SameRecord
import Verif.Props.Chain
import Verif.Props.Contract
import Verif.Props.Known

/-!
# What an id stands for is decided when it is published (C116)

C112 says so for the messages of a commitment. Here it is said for all the contents of a nested record.
-/

namespace CSV

open Later

theorem Record.plain_concealed {e e' : Env} : ∀ (r : Record) (x : r.Val), r.Plain → r.SameConcealed e e' x
  | .nil, _, _ => trivial
  | .serialized _ _ rest, v, h | .option _ _ rest, v, h | .list _ _ _ _ rest, v, h | .set _ _ _ _ rest, v, h
  | .map _ _ _ _ _ _ rest, v, h => Record.plain_concealed rest v.2 h
  | .hash _ _ _ sub rest, v, h => ⟨Record.plain_concealed sub v.1 h.1, Record.plain_concealed rest v.2 h.2⟩
  | .merkle _ _ sub rest, v, h => ⟨fun x _ => Record.plain_concealed sub x h.1, Record.plain_concealed rest v.2 h.2⟩

/-- Two records with one id, one hashed with each function, if the strings of both are among some on which the functions
agree and which do not collide. -/
theorem Record.agree_of_early {e e' : Env} {early : List Bytes} (hd : e'.debug = e.debug)
    (hagree : SameHashes e' e early) (hno : @NoCollision e early) {r : Record} {id : IdType} {x x' : r.Val} {a : Bytes32}
    (hs : @Record.Sound e r x) (hs' : @Record.Sound e' r x') (hc : r.SameConcealed e' e x')
    (htag : ∀ s ∈ tagStrings ++ utf8 id.tag :: r.tags, s ∈ early)
    (hi : ∀ s ∈ @Record.inputs e r id x, s ∈ early) (hi' : ∀ s ∈ @Record.inputs e' r id x', s ∈ early)
    (h : @Record.id e r id x = .ok a) (h' : @Record.id e' r id x' = .ok a) : @Record.Agree e r x x' := by
  have hall : SameHashes e' e (tagStrings ++ utf8 id.tag :: r.tags ++ @Record.inputs e' r id x') := fun s hs =>
    hagree s ((List.mem_append.1 hs).elim (htag s) (hi' s))
  have hid := C84_record e' r id x' hs' e hd.symm hc hall
  obtain ⟨b1, b2, b3⟩ := Record.same hd.symm (hall.same_sub fun s hs => by simp [hs]) r x' hs' hc
    (hall.same_sub fun s hs => by
      rcases List.mem_append.1 hs with hs | hs <;> simp [Record.inputs, hs])
  have hin : @Record.inputs e r id x' = @Record.inputs e' r id x' := by
    simp only [Record.inputs, ownInput_same (e := e') (e' := e) (hall (utf8 id.tag) (by simp)) b1, b2]
  letI := e
  refine C76_binding r id x x' hs b3 a h (hid.trans h') (hno.mono fun s hs => ?_)
  rcases List.mem_append.1 hs with hs | hs
  · exact hi s hs
  · rw [hin] at hs
    exact hi' s hs

/-- **C116** Somebody asks for `q` hashes of strings of at most `B` bytes, publishes 32 bytes and asks for `k` more hashes.
For all but a share of `(q (q - 1) / 2 + k (B q + 1)) / 2^256` of all tapes, whatever hashes come after the publication -
any two tapes with the same answers before it - records of one type with the published id agree in all fields at any
depth, confidential ones up to their concealed form. (The tags are among the strings asked for, and the concealed form
of confidential data does not depend on the later hashes.) -/
theorem C116_decided (ask : Transcript → Bytes) (publish : Transcript → Bytes32) (q k B : Nat)
    (hB : ∀ m, (ask m).length ≤ B) :
    ∃ good : List (List Bytes32), good.Sublist (idLists (q + k)) ∧
      2 * 2 ^ 256 * (idLists (q + k)).length ≤ 2 * 2 ^ 256 * good.length +
        (q * (q - 1) + 2 * (k * (B * q + 1))) * (idLists (q + k)).length ∧
      ∀ tape ∈ good, ∀ tape' ∈ good, Transcript.run ask q tape [] = Transcript.run ask q tape' [] →
        ∀ e e' : Env, e'.debug = e.debug →
        (Transcript.run ask (q + k) tape []).Of e → (Transcript.run ask (q + k) tape' []).Of e' →
        ∀ (r : Record) (id : IdType) (x x' : r.Val), @Record.Sound e r x → @Record.Sound e' r x' →
          r.SameConcealed e' e x' →
          (∀ s ∈ tagStrings ++ utf8 id.tag :: r.tags, s ∈ (Transcript.run ask q tape []).strings) →
          (∀ s ∈ @Record.inputs e r id x, s ∈ (Transcript.run ask (q + k) tape []).strings) →
          (∀ s ∈ @Record.inputs e' r id x', s ∈ (Transcript.run ask (q + k) tape' []).strings) →
          @Record.id e r id x = .ok (publish (Transcript.run ask q tape [])) →
          @Record.id e' r id x' = .ok (publish (Transcript.run ask q tape' [])) →
          @Record.Agree e r x x' := by
  obtain ⟨g1, s1, n1, c1⟩ := C113_contents ask publish q k B hB
  obtain ⟨g0, s0, n0, c0⟩ := C89_no_collision ask q
  obtain ⟨g2, s2, n2, c2⟩ := Later.lift (k := k) s0 n0
  obtain ⟨g, s3, n3, c3⟩ := both_sublists s1 s2
  refine ⟨g, s3, ?_, ?_⟩
  · rw [Nat.add_mul, Nat.mul_assoc 2 (k * (B * q + 1))]
    generalize k * (B * q + 1) * (idLists (q + k)).length = A at *
    generalize q * (q - 1) * (idLists (q + k)).length = B at *
    generalize (idLists (q + k)).length = L at *
    omega
  intro tape ht tape' ht' hsame e e' hd he he' r id x x' hs hs' hc htag hi hi' h h'
  have hin := (c1 tape (c3 tape ht).1 e he r id x hs).1 h hi
  have hin' := (c1 tape' (c3 tape' ht').1 e' he' r id x' hs').1 h' hi'
  rw [← hsame] at hin' h'
  refine Record.agree_of_early hd (early := (Transcript.run ask q tape []).strings) ?_ ?_ hs hs' hc htag hin hin' h h'
  · intro s hs
    obtain ⟨y, hy, rfl⟩ := List.mem_map.1 hs
    rw [he y (run_extends ask k q tape [] y hy), he' y (run_extends ask k q tape' [] y (hsame ▸ hy))]
  · have := c0 _ (c2 tape (c3 tape ht).2) e
    rw [run_take ask q tape [] q (Nat.le_refl _)] at this
    exact this fun x hx => he x (run_extends ask k q tape [] x hx)

/-- **C116** Without confidential fields it is one record. -/
theorem C116_plain (ask : Transcript → Bytes) (publish : Transcript → Bytes32) (q k B : Nat)
    (hB : ∀ m, (ask m).length ≤ B) :
    ∃ good : List (List Bytes32), good.Sublist (idLists (q + k)) ∧
      2 * 2 ^ 256 * (idLists (q + k)).length ≤ 2 * 2 ^ 256 * good.length +
        (q * (q - 1) + 2 * (k * (B * q + 1))) * (idLists (q + k)).length ∧
      ∀ tape ∈ good, ∀ tape' ∈ good, Transcript.run ask q tape [] = Transcript.run ask q tape' [] →
        ∀ e e' : Env, e'.debug = e.debug →
        (Transcript.run ask (q + k) tape []).Of e → (Transcript.run ask (q + k) tape' []).Of e' →
        ∀ (r : Record) (id : IdType) (x x' : r.Val), r.Plain → @Record.Sound e r x → @Record.Sound e' r x' →
          (∀ s ∈ tagStrings ++ utf8 id.tag :: r.tags, s ∈ (Transcript.run ask q tape []).strings) →
          (∀ s ∈ @Record.inputs e r id x, s ∈ (Transcript.run ask (q + k) tape []).strings) →
          (∀ s ∈ @Record.inputs e' r id x', s ∈ (Transcript.run ask (q + k) tape' []).strings) →
          @Record.id e r id x = .ok (publish (Transcript.run ask q tape [])) →
          @Record.id e' r id x' = .ok (publish (Transcript.run ask q tape' [])) →
          x = x' := by
  obtain ⟨good, h1, h2, h3⟩ := C116_decided ask publish q k B hB
  refine ⟨good, h1, h2, ?_⟩
  intro tape ht tape' ht' hsame e e' hd he he' r id x x' hp hs hs' htag hi hi' h h'
  exact @Record.eq_of_agree e r x x' hp (h3 tape ht tape' ht' hsame e e' hd he he' r id x x' hs hs'
    (Record.plain_concealed r x' hp) htag hi hi' h h')

/-- **C116** If a commitment is published instead: then for each protocol the proof, the message and the contents of the record
whose id is the message. -/
theorem C116_message (ask : Transcript → Bytes) (publish : Transcript → Bytes32) (q k B : Nat)
    (hB : ∀ m, (ask m).length ≤ B) :
    ∃ good : List (List Bytes32), good.Sublist (idLists (q + k)) ∧
      2 * 2 ^ 256 * (idLists (q + k)).length ≤ 2 * 2 ^ 256 * good.length +
        (q * (q - 1) + 2 * (k * (B * q + 1))) * (idLists (q + k)).length ∧
      ∀ tape ∈ good, ∀ tape' ∈ good, Transcript.run ask q tape [] = Transcript.run ask q tape' [] →
        ∀ e e' : Env, e'.debug = e.debug →
        (Transcript.run ask (q + k) tape []).Of e → (Transcript.run ask (q + k) tape' []).Of e' →
        ∀ (r : Record) (id : IdType) (x x' : r.Val) (pr pr' : MerkleProof) (p : ProtocolId) (m m' : Message),
          @Record.Sound e r x → @Record.Sound e' r x' → r.SameConcealed e' e x' →
          pr.path.length ≤ 32 → pr'.path.length ≤ 32 →
          (∀ s ∈ tagStrings ++ utf8 id.tag :: r.tags, s ∈ (Transcript.run ask q tape []).strings) →
          (∀ s ∈ @Record.inputs e r id x ++ @proofInputs e pr p m, s ∈ (Transcript.run ask (q + k) tape []).strings) →
          (∀ s ∈ @Record.inputs e' r id x' ++ @proofInputs e' pr' p m',
            s ∈ (Transcript.run ask (q + k) tape' []).strings) →
          @Record.id e r id x = .ok m → @Record.id e' r id x' = .ok m' →
          @MerkleProof.convolve e pr p m = .ok (.ok (publish (Transcript.run ask q tape []))) →
          @MerkleProof.convolve e' pr' p m' = .ok (.ok (publish (Transcript.run ask q tape' []))) →
          m = m' ∧ pr = pr' ∧ @Record.Agree e r x x' := by
  obtain ⟨g1, s1, n1, c1⟩ := C113_contents ask publish q k B hB
  obtain ⟨g0, s0, n0, c0⟩ := C89_no_collision ask q
  obtain ⟨g2, s2, n2, c2⟩ := Later.lift (k := k) s0 n0
  obtain ⟨g, s3, n3, c3⟩ := both_sublists s1 s2
  refine ⟨g, s3, ?_, ?_⟩
  · rw [Nat.add_mul, Nat.mul_assoc 2 (k * (B * q + 1))]
    generalize k * (B * q + 1) * (idLists (q + k)).length = A at *
    generalize q * (q - 1) * (idLists (q + k)).length = B at *
    generalize (idLists (q + k)).length = L at *
    omega
  intro tape ht tape' ht' hsame e e' hd he he' r id x x' pr pr' p m m' hs hs' hc hl hl' htag hi hi' h h' hp hp'
  have hin := (c1 tape (c3 tape ht).1 e he r id x hs).2 pr p m h hl hp hi
  have hin' := (c1 tape' (c3 tape' ht').1 e' he' r id x' hs').2 pr' p m' h' hl' hp' hi'
  rw [← hsame] at hin' hp'
  have hagree : SameHashes e' e (Transcript.run ask q tape []).strings := by
    intro s hs
    obtain ⟨y, hy, rfl⟩ := List.mem_map.1 hs
    rw [he y (run_extends ask k q tape [] y hy), he' y (run_extends ask k q tape' [] y (hsame ▸ hy))]
  have hno : @NoCollision e (Transcript.run ask q tape []).strings := by
    have := c0 _ (c2 tape (c3 tape ht).2) e
    rw [run_take ask q tape [] q (Nat.le_refl _)] at this
    exact this fun x hx => he x (run_extends ask k q tape [] x hx)
  obtain ⟨rfl, rfl⟩ := opening_of_early hagree hno hl hl' (fun s hs => htag s (List.mem_append_left _ hs))
    (fun s hs => hin s (List.mem_append_right _ hs)) (fun s hs => hin' s (List.mem_append_right _ hs)) hp hp'
  exact ⟨rfl, rfl, Record.agree_of_early hd hagree hno hs hs' hc htag (fun s hs => hin s (List.mem_append_left _ hs))
    (fun s hs => hin' s (List.mem_append_left _ hs)) h h'⟩

variable {Seal Pub PubId PubErr : Type}

/-- What a validator has checked for an accepted transition, if a seal was closed over `v`. -/
theorem Contract.accepted {e : Env} {c : Contract Seal Pub PubId PubErr} (hk : @SealScheme.UsesProofs _ _ _ _ e c.scheme)
    {unspent : Seal → Prop} {t : c.record.Val × MerkleProof} (hacc : @Contract.Accepts _ _ _ _ e c unspent t) {v : Bytes32}
    (hpub : ∃ x ∈ c.closes t.1, ∀ pub, c.ledger x = some pub → ∀ a, c.scheme.verifyCommitment pub a = .ok () → a = v) :
    ∃ m, @Record.Sound e c.record t.1 ∧ t.2.path.length ≤ 32 ∧ @Record.id e c.record c.idType t.1 = .ok m ∧
      @MerkleProof.convolve e t.2 c.protocol m = .ok (.ok v) ∧
      @Contract.inputs _ _ _ _ e c t = @Record.inputs e c.record c.idType t.1 ++ @proofInputs e t.2 c.protocol m := by
  letI := e
  obtain ⟨hs, hl, -, -, -, pub, m, hp, hm, hv⟩ := hacc
  obtain ⟨x, hx, hpub⟩ := hpub
  obtain ⟨-, a, ha, hva⟩ := (C46_seals_closing_ok c.scheme _ _ _).1 hv
  obtain rfl := hpub pub (hp x hx) a hva
  have hc := hk t.2 c.protocol m hl
  rw [show c.scheme.convolveCommit t.2 (c.protocol, m) = .ok _ from ha] at hc
  exact ⟨m, hs, by omega, hm, hc, by rw [Contract.inputs, hm]⟩

/-- **C116** Hence which transition of a contract closed some seals is decided when they are closed: if the published
witnesses of the seals are good for one commitment only, the one published after `q` hashes, then in whatever future -
other later hashes, other witnesses published for other seals, other seals unspent - a transition over these seals is
accepted, it is the same, with the same proof. -/
theorem C116_contract (ask : Transcript → Bytes) (publish : Transcript → Bytes32) (q k B : Nat)
    (hB : ∀ m, (ask m).length ≤ B) :
    ∃ good : List (List Bytes32), good.Sublist (idLists (q + k)) ∧
      2 * 2 ^ 256 * (idLists (q + k)).length ≤ 2 * 2 ^ 256 * good.length +
        (q * (q - 1) + 2 * (k * (B * q + 1))) * (idLists (q + k)).length ∧
      ∀ tape ∈ good, ∀ tape' ∈ good, Transcript.run ask q tape [] = Transcript.run ask q tape' [] →
        ∀ e e' : Env, e'.debug = e.debug →
        (Transcript.run ask (q + k) tape []).Of e → (Transcript.run ask (q + k) tape' []).Of e' →
        ∀ (c : Contract Seal Pub PubId PubErr) (scheme' : SealScheme Seal (ProtocolId × Message) Pub MerkleProof
          Commitment PubId PubErr InvalidProof) (ledger' : Seal → Option Pub),
        @SealScheme.UsesProofs _ _ _ _ e c.scheme → @SealScheme.UsesProofs _ _ _ _ e' scheme' →
        (∀ s ∈ tagStrings ++ utf8 c.idType.tag :: c.record.tags, s ∈ (Transcript.run ask q tape []).strings) →
        ∀ (unspent unspent' : Seal → Prop) (t t' : c.record.Val × MerkleProof),
        @Contract.Accepts _ _ _ _ e c unspent t →
        @Contract.Accepts _ _ _ _ e' { c with scheme := scheme', ledger := ledger' } unspent' t' →
        (∀ x ∈ c.closes t.1, ∀ pub, c.ledger x = some pub → ∀ a, c.scheme.verifyCommitment pub a = .ok () →
          a = publish (Transcript.run ask q tape [])) →
        (∀ x ∈ c.closes t'.1, ∀ pub, ledger' x = some pub → ∀ a, scheme'.verifyCommitment pub a = .ok () →
          a = publish (Transcript.run ask q tape' [])) →
        (∀ s ∈ @Contract.inputs _ _ _ _ e c t, s ∈ (Transcript.run ask (q + k) tape []).strings) →
        (∀ s ∈ @Contract.inputs _ _ _ _ e' { c with scheme := scheme', ledger := ledger' } t',
          s ∈ (Transcript.run ask (q + k) tape' []).strings) →
        (c.record.SameConcealed e' e t'.1 → @Record.Agree e c.record t.1 t'.1 ∧ t.2 = t'.2) ∧
        (c.record.Plain → t = t') := by
  obtain ⟨good, h1, h2, h3⟩ := C116_message ask publish q k B hB
  refine ⟨good, h1, h2, ?_⟩
  intro tape ht tape' ht' hsame e e' hd he he' c scheme' ledger' hk hk' htag unspent unspent' t t' hacc hacc' hpub hpub' hi hi'
  obtain ⟨m, hs, hl, hm, hc, hin⟩ := Contract.accepted hk hacc
    ((List.exists_mem_of_ne_nil _ hacc.2.2.1).imp fun x hx => ⟨hx, hpub x hx⟩)
  obtain ⟨m', hs', hl', hm', hc', hin'⟩ :=
    Contract.accepted (c := { c with scheme := scheme', ledger := ledger' }) hk' hacc'
      ((List.exists_mem_of_ne_nil _ hacc'.2.2.1).imp fun x hx => ⟨hx, hpub' x hx⟩)
  rw [hin] at hi
  rw [hin'] at hi'
  have key : c.record.SameConcealed e' e t'.1 → @Record.Agree e c.record t.1 t'.1 ∧ t.2 = t'.2 := fun hcc =>
    have := h3 tape ht tape' ht' hsame e e' hd he he' c.record c.idType t.1 t'.1 t.2 t'.2 c.protocol m m' hs hs' hcc hl hl'
      htag hi hi' hm hm' hc hc'
    ⟨this.2.2, this.2.1⟩
  exact ⟨key, fun hp =>
    have := key (Record.plain_concealed _ _ hp)
    Prod.ext (@Record.eq_of_agree e c.record t.1 t'.1 hp this.1) this.2⟩

/-- **C116** In numbers: with at most `2^64` hashes of strings of at most 4 GiB, what a published id stands for is undecided
for less than one tape in `2^95`. -/
theorem C116_numbers (ask : Transcript → Bytes) (publish : Transcript → Bytes32) (q k : Nat)
    (hB : ∀ m, (ask m).length ≤ 2 ^ 32) (hn : q + k ≤ 2 ^ 64) :
    ∃ good : List (List Bytes32), good.Sublist (idLists (q + k)) ∧
      2 ^ 95 * ((idLists (q + k)).length - good.length) < (idLists (q + k)).length ∧
      ∀ tape ∈ good, ∀ tape' ∈ good, Transcript.run ask q tape [] = Transcript.run ask q tape' [] →
        ∀ e e' : Env, e'.debug = e.debug →
        (Transcript.run ask (q + k) tape []).Of e → (Transcript.run ask (q + k) tape' []).Of e' →
        ∀ (r : Record) (id : IdType) (x x' : r.Val), @Record.Sound e r x → @Record.Sound e' r x' →
          r.SameConcealed e' e x' →
          (∀ s ∈ tagStrings ++ utf8 id.tag :: r.tags, s ∈ (Transcript.run ask q tape []).strings) →
          (∀ s ∈ @Record.inputs e r id x, s ∈ (Transcript.run ask (q + k) tape []).strings) →
          (∀ s ∈ @Record.inputs e' r id x', s ∈ (Transcript.run ask (q + k) tape' []).strings) →
          @Record.id e r id x = .ok (publish (Transcript.run ask q tape [])) →
          @Record.id e' r id x' = .ok (publish (Transcript.run ask q tape' [])) →
          @Record.Agree e r x x' := by
  obtain ⟨good, h1, h2, h3⟩ := C116_decided ask publish q k (2 ^ 32) hB
  refine ⟨good, h1, ?_, h3⟩
  have hp : 0 < (idLists (q + k)).length := by
    rw [idLists_length]; exact Nat.pow_pos (Nat.two_pow_pos 256)
  have a1 : q * (q - 1) ≤ 2 ^ 64 * 2 ^ 64 := Nat.mul_le_mul (by omega) (by omega)
  have a2 : k * (2 ^ 32 * q + 1) ≤ 2 ^ 64 * (2 ^ 32 * 2 ^ 64 + 1) := Nat.mul_le_mul (by omega) (by omega)
  have a3 : q * (q - 1) + 2 * (k * (2 ^ 32 * q + 1)) ≤ 2 ^ 128 + 2 * (2 ^ 64 * (2 ^ 96 + 1)) := by omega
  have := Nat.mul_le_mul_right (idLists (q + k)).length a3
  generalize (q * (q - 1) + 2 * (k * (2 ^ 32 * q + 1))) * (idLists (q + k)).length = X at *
  generalize (idLists (q + k)).length = N at *
  omega

/-- Somebody hashes the tags and all that is hashed for a record with nested records, publishes its id and hashes one
string more, which may have one hash or another. -/
example : ∃ (e e' : Env) (ask : Transcript → Bytes) (publish : Transcript → Bytes32) (q : Nat) (tape tape' : List Bytes32),
    (∀ m, (ask m).length ≤ 300) ∧ tape ∈ idLists (q + 1) ∧ tape' ∈ idLists (q + 1) ∧ tape ≠ tape' ∧
    Transcript.run ask q tape [] = Transcript.run ask q tape' [] ∧ e'.debug = e.debug ∧
    (Transcript.run ask (q + 1) tape []).Of e ∧ (Transcript.run ask (q + 1) tape' []).Of e' ∧
    @Record.Sound e Sample.record (Sample.recordValue 7 5) ∧ @Record.Sound e' Sample.record (Sample.recordValue 7 5) ∧
    Sample.record.SameConcealed e' e (Sample.recordValue 7 5) ∧
    (∀ s ∈ tagStrings ++ utf8 mpcCommitmentId.tag :: Sample.record.tags, s ∈ (Transcript.run ask q tape []).strings) ∧
    (∀ s ∈ @Record.inputs e Sample.record mpcCommitmentId (Sample.recordValue 7 5),
      s ∈ (Transcript.run ask (q + 1) tape []).strings) ∧
    (∀ s ∈ @Record.inputs e' Sample.record mpcCommitmentId (Sample.recordValue 7 5),
      s ∈ (Transcript.run ask (q + 1) tape' []).strings) ∧
    @Record.id e Sample.record mpcCommitmentId (Sample.recordValue 7 5) = .ok (publish (Transcript.run ask q tape [])) ∧
    @Record.id e' Sample.record mpcCommitmentId (Sample.recordValue 7 5) =
      .ok (publish (Transcript.run ask q tape' [])) := by
  let e (b : UInt8) : Env := ⟨fun s => if s = [] then Bytes32.fill b else Bytes32.fill 7, true⟩
  let S := (tagStrings ++ utf8 mpcCommitmentId.tag :: Sample.record.tags ++
    @Record.inputs (e 1) Sample.record mpcCommitmentId (Sample.recordValue 7 5)).eraseDups
  have hB : ∀ s ∈ S, s.length ≤ 300 := by decide +kernel
  refine ⟨e 1, e 2, fun m => S.getD m.length [], fun _ => Bytes32.fill 7, S.length,
    S.map (fun _ => Bytes32.fill 7) ++ [Bytes32.fill 1], S.map (fun _ => Bytes32.fill 7) ++ [Bytes32.fill 2], ?_,
    (mem_idLists _ _).2 (by simp), (mem_idLists _ _).2 (by simp), by decide +kernel, by decide +kernel, rfl, ?_, ?_,
    @Sample.record_sound (e 1) _ _, @Sample.record_sound (e 2) _ _, ?_, ?_, ?_, ?_, by with_unfolding_all rfl,
    by with_unfolding_all rfl⟩
  · intro m
    show (S.getD (List.length m) []).length ≤ 300
    rw [List.getD_eq_getElem?_getD]
    cases h : S[List.length m]? with
    | none => simp
    | some s => exact hB s (List.mem_of_getElem? h)
  · unfold Transcript.Of; decide +kernel
  · unfold Transcript.Of; decide +kernel
  · simp only [Sample.record, Record.SameConcealed, and_true]
    exact ⟨by with_unfolding_all rfl, Record.plain_concealed _ _ (by simp [Sample.itemRecord, Record.Plain]),
      fun _ _ => Record.plain_concealed _ _ (by simp [Sample.itemRecord, Record.Plain])⟩
  · decide +kernel
  · decide +kernel
  · decide +kernel

private abbrev future (b : UInt8) : Env := ⟨fun s => if s = [] then Bytes32.fill b else Bytes32.fill 7, true⟩

private def futureProof : MerkleProof := ⟨.sha256t, 1, 0, [Bytes32.fill 7, Bytes32.fill 7, Bytes32.fill 7]⟩

/-- A transition that closes the seal 0, in either future. -/
theorem Sample.futures : ∃ (e e' : Env) (ask : Transcript → Bytes) (publish : Transcript → Bytes32) (q : Nat) (tape tape' : List Bytes32)
    (t : Sample.itemRecord.Val × MerkleProof),
    (∀ m, (ask m).length ≤ 300) ∧ tape ∈ idLists (q + 1) ∧ tape' ∈ idLists (q + 1) ∧ tape ≠ tape' ∧
    Transcript.run ask q tape [] = Transcript.run ask q tape' [] ∧ e'.debug = e.debug ∧
    (Transcript.run ask (q + 1) tape []).Of e ∧ (Transcript.run ask (q + 1) tape' []).Of e' ∧
    @SealScheme.UsesProofs _ _ _ _ e (@Sample.contract e).scheme ∧
    @SealScheme.UsesProofs _ _ _ _ e' (@Sample.contract e').scheme ∧
    (∀ s ∈ tagStrings ++ utf8 (@Sample.contract e).idType.tag :: Sample.itemRecord.tags,
      s ∈ (Transcript.run ask q tape []).strings) ∧
    @Contract.Accepts _ _ _ _ e (@Sample.contract e) (· = 0) t ∧
    @Contract.Accepts _ _ _ _ e' { @Sample.contract e with
      scheme := (@Sample.contract e').scheme, ledger := (@Sample.contract e').ledger } (· = 0) t ∧
    (∀ x ∈ (@Sample.contract e).closes t.1, ∀ pub, (@Sample.contract e).ledger x = some pub →
      ∀ a, (@Sample.contract e).scheme.verifyCommitment pub a = .ok () → a = publish (Transcript.run ask q tape [])) ∧
    (∀ x ∈ (@Sample.contract e).closes t.1, ∀ pub, (@Sample.contract e').ledger x = some pub →
      ∀ a, (@Sample.contract e').scheme.verifyCommitment pub a = .ok () → a = publish (Transcript.run ask q tape' [])) ∧
    (∀ s ∈ @Contract.inputs _ _ _ _ e (@Sample.contract e) t, s ∈ (Transcript.run ask (q + 1) tape []).strings) ∧
    (∀ s ∈ @Contract.inputs _ _ _ _ e' { @Sample.contract e with
      scheme := (@Sample.contract e').scheme, ledger := (@Sample.contract e').ledger } t,
      s ∈ (Transcript.run ask (q + 1) tape' []).strings) ∧ Sample.itemRecord.Plain := by
  let S := (tagStrings ++ utf8 merkleHashId.tag :: Sample.itemRecord.tags ++
    @Contract.inputs _ _ _ _ (future 1) (@Sample.contract (future 1)) (Sample.transition 0, futureProof)).eraseDups
  have hB : ∀ s ∈ S, s.length ≤ 300 := by decide +kernel
  have hacc : ∀ b, (@Sample.contract (future b)).ledger 0 = some (Bytes32.fill 7, [0]) →
      @Record.id (future b) Sample.itemRecord merkleHashId (Sample.transition 0) = .ok (Bytes32.fill 7) →
      (@Sample.contract (future b)).scheme.verifySealsClosing ⟨(Bytes32.fill 7, [0]), futureProof⟩ [0] (Sample.p1, Bytes32.fill 7) =
        .ok () →
      @Contract.Accepts _ _ _ _ (future b) (@Sample.contract (future b)) (· = 0) (Sample.transition 0, futureProof) := by
    intro b h1 h2 h3
    letI := future b
    have hcl : Sample.contract.closes (Sample.transition 0) = [0] := by
      simp [Sample.contract, Sample.transition, Sample.number]
    refine ⟨(Sample.item_sound _).1, by show 3 ≤ 31; decide, by simp [hcl], by simp [hcl], ?_, (Bytes32.fill 7, [0]), Bytes32.fill 7,
      by simpa [hcl] using h1, h2, by rw [hcl]; exact h3⟩
    simp [Sample.contract, Sample.transition, Sample.number]
  have hone : ∀ b, (@Sample.contract (future b)).ledger 0 = some (Bytes32.fill 7, [0]) →
      ∀ x ∈ (@Sample.contract (future b)).closes (Sample.transition 0), ∀ pub, (@Sample.contract (future b)).ledger x = some pub →
      ∀ a, (@Sample.contract (future b)).scheme.verifyCommitment pub a = .ok () → a = Bytes32.fill 7 := by
    intro b h1 x hx pub hp a ha
    have h3 : (@Sample.contract (future b)).scheme.verifyCommitment (Bytes32.fill 7, [0]) (Bytes32.fill 7) = .ok () := by
      simp [Sample.contract, proofSeals]
    have hcl : (@Sample.contract (future b)).closes (Sample.transition 0) = [0] := by
      simp [Sample.contract, Sample.transition, Sample.number]
    rw [hcl, List.mem_singleton] at hx
    subst hx
    rw [h1] at hp
    cases hp
    letI := future b
    exact Sample.contract_proper.single _ _ _ ha h3
  have hp : ∀ b, @SealScheme.UsesProofs _ _ _ _ (future b) (@Sample.contract (future b)).scheme := fun b => by
    letI := future b
    exact Sample.contract_proper.proofs
  have l1 : (@Sample.contract (future 1)).ledger 0 = some (Bytes32.fill 7, [0]) := by decide +kernel
  have l2 : (@Sample.contract (future 2)).ledger 0 = some (Bytes32.fill 7, [0]) := by decide +kernel
  refine ⟨future 1, future 2, fun m => S.getD m.length [], fun _ => Bytes32.fill 7, S.length,
    S.map (fun _ => Bytes32.fill 7) ++ [Bytes32.fill 1], S.map (fun _ => Bytes32.fill 7) ++ [Bytes32.fill 2],
    (Sample.transition 0, futureProof), ?_, (mem_idLists _ _).2 (by simp), (mem_idLists _ _).2 (by simp), by decide +kernel,
    by decide +kernel, rfl, ?_, ?_, hp 1, hp 2, ?_,
    hacc 1 l1 (by with_unfolding_all rfl) (by with_unfolding_all rfl),
    hacc 2 l2 (by with_unfolding_all rfl) (by with_unfolding_all rfl),
    hone 1 l1, hone 2 l2, ?_, ?_, by simp [Sample.itemRecord, Record.Plain]⟩
  · intro m
    show (S.getD (List.length m) []).length ≤ 300
    rw [List.getD_eq_getElem?_getD]
    cases h : S[List.length m]? with
    | none => simp
    | some s => exact hB s (List.mem_of_getElem? h)
  · unfold Transcript.Of; decide +kernel
  · unfold Transcript.Of; decide +kernel
  · decide +kernel
  · decide +kernel
  · decide +kernel

end CSV
