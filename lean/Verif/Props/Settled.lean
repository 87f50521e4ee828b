import Verif.Props.RecordDecided
import Verif.Props.Order

/-!
# The past is settled, at all times at once (C117)

C116 is about one publication. Here values are published at any time, and histories of contracts in different futures
are compared.
-/

namespace CSV

open Later

private theorem sum_shares (n B : Nat) :
    (B + 1) * (n * (n + 1)) + n * (n - 1) ≤ (B + 2) * (n * (n + 1)) := by
  have : n * (n - 1) ≤ n * (n + 1) := Nat.mul_le_mul_left _ (by omega)
  rw [show B + 2 = B + 1 + 1 from rfl, Nat.add_mul (B + 1) 1, Nat.one_mul]
  omega

/-- The tapes that are good for C117. -/
private theorem settled_tapes (ask : Transcript → Bytes) (publish : Transcript → Bytes32) (n B : Nat)
    (hB : ∀ m, (ask m).length ≤ B) :
    ∃ good : List (List Bytes32), good.Sublist (idLists n) ∧
      2 * 2 ^ 256 * (idLists n).length ≤ 2 * 2 ^ 256 * good.length + (B + 2) * (n * (n + 1)) * (idLists n).length ∧
      (∀ tape ∈ good, ∀ e : Env, (Transcript.run ask n tape []).Of e →
        @NoCollision e (Transcript.run ask n tape []).strings ∧ ∀ i ≤ n,
        ∀ s, @Below e (Transcript.run ask n tape []).strings (publish (Transcript.run ask i tape [])) s →
          s ∈ (Transcript.run ask i tape []).strings) := by
  obtain ⟨g1, s1, n1, c1⟩ := C115_in_order ask publish n B hB
  obtain ⟨g2, s2, n2, c2⟩ := C89_no_collision ask n
  obtain ⟨g, s3, n3, c3⟩ := both_sublists s1 s2
  refine ⟨g, s3, ?_, fun tape ht e he => ⟨c2 tape (c3 tape ht).2 e he, fun i hi => (c1 tape (c3 tape ht).1 e he i hi).1⟩⟩
  have := Nat.mul_le_mul_right (idLists n).length (sum_shares n B)
  rw [Nat.add_mul] at this
  generalize (B + 1) * (n * (n + 1)) * (idLists n).length = X at *
  generalize n * (n - 1) * (idLists n).length = Y at *
  generalize (B + 2) * (n * (n + 1)) * (idLists n).length = Z at *
  generalize (idLists n).length = L at *
  omega

private theorem extends_of_le {ask : Transcript → Bytes} {i n : Nat} (h : i ≤ n) {tape : List Bytes32} :
    ∀ x ∈ Transcript.run ask i tape [], x ∈ Transcript.run ask n tape [] := by
  obtain ⟨k, rfl⟩ := Nat.exists_eq_add_of_le h
  exact run_extends ask k i tape []

private theorem agree_before {ask : Transcript → Bytes} {i n : Nat} (h : i ≤ n) {tape tape' : List Bytes32}
    (hsame : Transcript.run ask i tape [] = Transcript.run ask i tape' []) {e e' : Env}
    (he : (Transcript.run ask n tape []).Of e) (he' : (Transcript.run ask n tape' []).Of e') :
    SameHashes e' e (Transcript.run ask i tape []).strings := by
  intro s hs
  obtain ⟨y, hy, rfl⟩ := List.mem_map.1 hs
  rw [he y (extends_of_le h y hy), he' y (extends_of_le h y (hsame ▸ hy))]

private theorem early_sub {ask : Transcript → Bytes} {i n : Nat} (h : i ≤ n) {tape : List Bytes32} :
    ∀ s ∈ (Transcript.run ask i tape []).strings, s ∈ (Transcript.run ask n tape []).strings := by
  intro s hs
  obtain ⟨y, hy, rfl⟩ := List.mem_map.1 hs
  exact List.mem_map_of_mem (extends_of_le h y hy)

/-- **C117** Somebody asks for `n` hashes of strings of at most `B` bytes and may publish 32 bytes at any time. For all but a
share of `(B + 2) n (n + 1) / 2^257` of all tapes, at all times: in whatever two futures of a time, records of one type
with the id published then agree. -/
theorem C117_ids (ask : Transcript → Bytes) (publish : Transcript → Bytes32) (n B : Nat)
    (hB : ∀ m, (ask m).length ≤ B) :
    ∃ good : List (List Bytes32), good.Sublist (idLists n) ∧
      2 * 2 ^ 256 * (idLists n).length ≤ 2 * 2 ^ 256 * good.length + (B + 2) * (n * (n + 1)) * (idLists n).length ∧
      ∀ tape ∈ good, ∀ tape' ∈ good, ∀ e e' : Env, e'.debug = e.debug →
        (Transcript.run ask n tape []).Of e → (Transcript.run ask n tape' []).Of e' →
        ∀ i ≤ n, Transcript.run ask i tape [] = Transcript.run ask i tape' [] →
        ∀ (r : Record) (id : IdType) (x x' : r.Val), @Record.Sound e r x → @Record.Sound e' r x' →
          r.SameConcealed e' e x' →
          (∀ s ∈ tagStrings ++ utf8 id.tag :: r.tags, s ∈ (Transcript.run ask i tape []).strings) →
          (∀ s ∈ @Record.inputs e r id x, s ∈ (Transcript.run ask n tape []).strings) →
          (∀ s ∈ @Record.inputs e' r id x', s ∈ (Transcript.run ask n tape' []).strings) →
          @Record.id e r id x = .ok (publish (Transcript.run ask i tape [])) →
          @Record.id e' r id x' = .ok (publish (Transcript.run ask i tape' [])) →
          @Record.Agree e r x x' ∧ (r.Plain → x = x') := by
  obtain ⟨good, h1, h2, h3⟩ := settled_tapes ask publish n B hB
  refine ⟨good, h1, h2, ?_⟩
  intro tape ht tape' ht' e e' hd he he' i hin hsame r id x x' hs hs' hc htag hi hi' h h'
  have hb := fun s hs' => (h3 tape ht e he).2 i hin s (@id_below e _ _ _ _ _ _ (@nested_below e _ _ r x hs) hs h
    (fun s' hs' ha => @Below.first e _ _ _ ha hs') hi s hs')
  have hb' := fun s hs => (h3 tape' ht' e' he').2 i hin s (@id_below e' _ _ _ _ _ _ (@nested_below e' _ _ r x' hs') hs' h'
    (fun s' hs' ha => @Below.first e' _ _ _ ha hs') hi' s hs)
  rw [← hsame] at hb' h'
  have := Record.agree_of_early hd (agree_before hin hsame he he')
    (@NoCollision.mono e _ _ (h3 tape ht e he).1 (early_sub hin)) hs hs' hc htag hb hb' h h'
  exact ⟨this, fun hp => @Record.eq_of_agree e r x x' hp this⟩

variable {Seal Pub PubId PubErr : Type}

private theorem accepts_of_valid {e : Env} {c : Contract Seal Pub PubId PubErr} :
    ∀ {h : List (c.record.Val × MerkleProof)} {unspent : Seal → Prop}, @Contract.Valid _ _ _ _ e c unspent h →
      ∀ t ∈ h, ∃ unspent', @Contract.Accepts _ _ _ _ e c unspent' t
  | u :: h, unspent, hv, t, ht => by
    rcases List.mem_cons.1 ht with rfl | ht
    · exact ⟨unspent, hv.1⟩
    · exact accepts_of_valid hv.2 t ht

/-- **C117** Hence the past of a contract is settled: for all but that share of all tapes, whenever a seal is closed over what
is published, then in whatever two futures of that time, with other hashes and other witnesses of other seals, the
transitions that close the seal in valid histories are one transition, with one proof. -/
theorem C117_histories (ask : Transcript → Bytes) (publish : Transcript → Bytes32) (n B : Nat)
    (hB : ∀ m, (ask m).length ≤ B) :
    ∃ good : List (List Bytes32), good.Sublist (idLists n) ∧
      2 * 2 ^ 256 * (idLists n).length ≤ 2 * 2 ^ 256 * good.length + (B + 2) * (n * (n + 1)) * (idLists n).length ∧
      ∀ tape ∈ good, ∀ tape' ∈ good, ∀ e e' : Env, e'.debug = e.debug →
        (Transcript.run ask n tape []).Of e → (Transcript.run ask n tape' []).Of e' →
        ∀ (c : Contract Seal Pub PubId PubErr) (scheme' : SealScheme Seal (ProtocolId × Message) Pub MerkleProof
          Commitment PubId PubErr InvalidProof) (ledger' : Seal → Option Pub),
        @SealScheme.UsesProofs _ _ _ _ e c.scheme → @SealScheme.UsesProofs _ _ _ _ e' scheme' →
        ∀ (unspent unspent' : Seal → Prop) (h h' : List (c.record.Val × MerkleProof)),
        @Contract.Valid _ _ _ _ e c unspent h →
        @Contract.Valid _ _ _ _ e' { c with scheme := scheme', ledger := ledger' } unspent' h' →
        (∀ t ∈ h, ∀ s ∈ @Contract.inputs _ _ _ _ e c t, s ∈ (Transcript.run ask n tape []).strings) →
        (∀ t ∈ h', ∀ s ∈ @Contract.inputs _ _ _ _ e' { c with scheme := scheme', ledger := ledger' } t,
          s ∈ (Transcript.run ask n tape' []).strings) →
        ∀ i ≤ n, Transcript.run ask i tape [] = Transcript.run ask i tape' [] →
        (∀ s ∈ tagStrings ++ utf8 c.idType.tag :: c.record.tags, s ∈ (Transcript.run ask i tape []).strings) →
        ∀ t ∈ h, ∀ t' ∈ h', ∀ x ∈ c.closes t.1, x ∈ c.closes t'.1 →
        (∀ pub, c.ledger x = some pub → ∀ a, c.scheme.verifyCommitment pub a = .ok () →
          a = publish (Transcript.run ask i tape [])) →
        (∀ pub, ledger' x = some pub → ∀ a, scheme'.verifyCommitment pub a = .ok () →
          a = publish (Transcript.run ask i tape' [])) →
        (c.record.SameConcealed e' e t'.1 → @Record.Agree e c.record t.1 t'.1 ∧ t.2 = t'.2) ∧
        (c.record.Plain → t = t') := by
  obtain ⟨good, h1, h2, h3⟩ := settled_tapes ask publish n B hB
  refine ⟨good, h1, h2, ?_⟩
  intro tape ht tape' ht' e e' hd he he' c scheme' ledger' hk hk' unspent unspent' h h' hv hv' hi hi' i hin hsame htag
    t hth t' hth' x hx hx' hpub hpub'
  obtain ⟨_, hacc⟩ := accepts_of_valid hv t hth
  obtain ⟨_, hacc'⟩ := accepts_of_valid hv' t' hth'
  obtain ⟨m, hs, hl, hm, hc, hin1⟩ := Contract.accepted hk hacc ⟨x, hx, hpub⟩
  obtain ⟨m', hs', hl', hm', hc', hin1'⟩ :=
    Contract.accepted (c := { c with scheme := scheme', ledger := ledger' }) hk' hacc' ⟨x, hx', hpub'⟩
  have hi := hi t hth
  have hi' := hi' t' hth'
  rw [hin1] at hi
  rw [hin1'] at hi'
  have hb := fun s hs1 => (h3 tape ht e he).2 i hin s (@message_below e _ _ _ _ _ hs _ _ _ hm hl hc hi s hs1)
  have hb' := fun s hs1 => (h3 tape' ht' e' he').2 i hin s (@message_below e' _ _ _ _ _ hs' _ _ _ hm' hl' hc' hi' s hs1)
  rw [← hsame] at hb' hc'
  have hagree := agree_before hin hsame he he'
  have hno := @NoCollision.mono e _ _ (h3 tape ht e he).1 (early_sub hin)
  obtain ⟨rfl, hpr⟩ := opening_of_early hagree hno hl hl' (fun s hs => htag s (List.mem_append_left _ hs))
    (fun s hs => hb s (List.mem_append_right _ hs)) (fun s hs => hb' s (List.mem_append_right _ hs)) hc hc'
  have key : c.record.SameConcealed e' e t'.1 → @Record.Agree e c.record t.1 t'.1 ∧ t.2 = t'.2 := fun hcc =>
    ⟨Record.agree_of_early hd hagree hno hs hs' hcc htag (fun s hs => hb s (List.mem_append_left _ hs))
      (fun s hs => hb' s (List.mem_append_left _ hs)) hm hm', hpr⟩
  exact ⟨key, fun hp =>
    have := key (Record.plain_concealed _ _ hp)
    Prod.ext (@Record.eq_of_agree e c.record t.1 t'.1 hp this.1) this.2⟩

/-- **C117** In numbers: with `2^64` hashes of strings of at most 4 GiB, something published at some time is not settled for
less than one tape in `2^96`. -/
theorem C117_numbers (ask : Transcript → Bytes) (publish : Transcript → Bytes32) (n : Nat)
    (hB : ∀ m, (ask m).length ≤ 2 ^ 32) (hn : n ≤ 2 ^ 64) :
    ∃ good : List (List Bytes32), good.Sublist (idLists n) ∧
      2 ^ 96 * ((idLists n).length - good.length) < (idLists n).length ∧
      ∀ tape ∈ good, ∀ tape' ∈ good, ∀ e e' : Env, e'.debug = e.debug →
        (Transcript.run ask n tape []).Of e → (Transcript.run ask n tape' []).Of e' →
        ∀ (c : Contract Seal Pub PubId PubErr) (scheme' : SealScheme Seal (ProtocolId × Message) Pub MerkleProof
          Commitment PubId PubErr InvalidProof) (ledger' : Seal → Option Pub),
        @SealScheme.UsesProofs _ _ _ _ e c.scheme → @SealScheme.UsesProofs _ _ _ _ e' scheme' →
        ∀ (unspent unspent' : Seal → Prop) (h h' : List (c.record.Val × MerkleProof)),
        @Contract.Valid _ _ _ _ e c unspent h →
        @Contract.Valid _ _ _ _ e' { c with scheme := scheme', ledger := ledger' } unspent' h' →
        (∀ t ∈ h, ∀ s ∈ @Contract.inputs _ _ _ _ e c t, s ∈ (Transcript.run ask n tape []).strings) →
        (∀ t ∈ h', ∀ s ∈ @Contract.inputs _ _ _ _ e' { c with scheme := scheme', ledger := ledger' } t,
          s ∈ (Transcript.run ask n tape' []).strings) →
        ∀ i ≤ n, Transcript.run ask i tape [] = Transcript.run ask i tape' [] →
        (∀ s ∈ tagStrings ++ utf8 c.idType.tag :: c.record.tags, s ∈ (Transcript.run ask i tape []).strings) →
        ∀ t ∈ h, ∀ t' ∈ h', ∀ x ∈ c.closes t.1, x ∈ c.closes t'.1 →
        (∀ pub, c.ledger x = some pub → ∀ a, c.scheme.verifyCommitment pub a = .ok () →
          a = publish (Transcript.run ask i tape [])) →
        (∀ pub, ledger' x = some pub → ∀ a, scheme'.verifyCommitment pub a = .ok () →
          a = publish (Transcript.run ask i tape' [])) →
        (c.record.SameConcealed e' e t'.1 → @Record.Agree e c.record t.1 t'.1 ∧ t.2 = t'.2) ∧
        (c.record.Plain → t = t') := by
  obtain ⟨good, h1, h2, h3⟩ := C117_histories (Seal := Seal) (Pub := Pub) (PubId := PubId) (PubErr := PubErr)
    ask publish n (2 ^ 32) hB
  refine ⟨good, h1, ?_, h3⟩
  have hp : 0 < (idLists n).length := by
    rw [idLists_length]; exact Nat.pow_pos (Nat.two_pow_pos 256)
  have a2 : (2 ^ 32 + 2) * (n * (n + 1)) ≤ (2 ^ 32 + 2) * (2 ^ 64 * (2 ^ 64 + 1)) :=
    Nat.mul_le_mul_left _ (Nat.mul_le_mul hn (by omega))
  have := Nat.mul_le_mul_right (idLists n).length a2
  generalize (2 ^ 32 + 2) * (n * (n + 1)) * (idLists n).length = X at *
  generalize (idLists n).length = N at *
  omega

/-- Histories in two futures which close the seal 0 over what was published before the futures part. -/
example : ∃ (e e' : Env) (ask : Transcript → Bytes) (publish : Transcript → Bytes32) (q : Nat) (tape tape' : List Bytes32)
    (t : Sample.itemRecord.Val × MerkleProof),
    (∀ m, (ask m).length ≤ 300) ∧ tape ∈ idLists (q + 1) ∧ tape' ∈ idLists (q + 1) ∧ tape ≠ tape' ∧ e'.debug = e.debug ∧
    (Transcript.run ask (q + 1) tape []).Of e ∧ (Transcript.run ask (q + 1) tape' []).Of e' ∧
    @SealScheme.UsesProofs _ _ _ _ e (@Sample.contract e).scheme ∧
    @SealScheme.UsesProofs _ _ _ _ e' (@Sample.contract e').scheme ∧
    @Contract.Valid _ _ _ _ e (@Sample.contract e) (· = 0) [t] ∧
    @Contract.Valid _ _ _ _ e' { @Sample.contract e with
      scheme := (@Sample.contract e').scheme, ledger := (@Sample.contract e').ledger } (· = 0) [t] ∧
    (∀ s ∈ @Contract.inputs _ _ _ _ e (@Sample.contract e) t, s ∈ (Transcript.run ask (q + 1) tape []).strings) ∧
    (∀ s ∈ @Contract.inputs _ _ _ _ e' { @Sample.contract e with
      scheme := (@Sample.contract e').scheme, ledger := (@Sample.contract e').ledger } t,
      s ∈ (Transcript.run ask (q + 1) tape' []).strings) ∧
    Transcript.run ask q tape [] = Transcript.run ask q tape' [] ∧
    (∀ s ∈ tagStrings ++ utf8 (@Sample.contract e).idType.tag :: Sample.itemRecord.tags,
      s ∈ (Transcript.run ask q tape []).strings) ∧
    ∃ x ∈ (@Sample.contract e).closes t.1,
    (∀ pub, (@Sample.contract e).ledger x = some pub → ∀ a, (@Sample.contract e).scheme.verifyCommitment pub a = .ok () →
      a = publish (Transcript.run ask q tape [])) ∧
    (∀ pub, (@Sample.contract e').ledger x = some pub → ∀ a, (@Sample.contract e').scheme.verifyCommitment pub a = .ok () →
      a = publish (Transcript.run ask q tape' [])) ∧ Sample.itemRecord.Plain := by
  obtain ⟨e, e', ask, publish, q, tape, tape', t, h1, h2, h3, h4, h5, h6, h7, h8, h9, h10, h11, h12, h13, h14, h15, h16, h17,
    h18⟩ := Sample.futures
  obtain ⟨x, hx⟩ := List.exists_mem_of_ne_nil _ h12.2.2.1
  exact ⟨e, e', ask, publish, q, tape, tape', t, h1, h2, h3, h4, h6, h7, h8, h9, h10, ⟨h12, trivial⟩, ⟨h13, trivial⟩, h16, h17,
    h5, h11, x, hx, h14 x hx, h15 x hx, h18⟩

end CSV
