import Verif.Props.Chain

/-!
# Hashes come in order (C115)

C113 is about one publication. Here are all publications of somebody who goes on and on, and all hashes contained in
other strings: whatever a hash stands for was there before the hash was used, so that nothing refers to itself.
-/

namespace CSV

open Later

/-- What was ever published. -/
private def published (publish : Transcript → Bytes32) : Transcript → List Bytes32
  | [] => [publish []]
  | x :: m => publish (x :: m) :: published publish m

/-- All 32 bytes in a row in the next string asked for and in those before, and what was ever published. -/
private def used (B : Nat) (ask : Transcript → Bytes) (publish : Transcript → Bytes32) (m : Transcript) : List Bytes32 :=
  ((List.range B).map fun i => chunk i (ask m)) ++
    ((m.flatMap fun e => (List.range B).map fun i => chunk i e.1) ++ published publish m)

private theorem used_length (B : Nat) (ask : Transcript → Bytes) (publish : Transcript → Bytes32) (m : Transcript) :
    (used B ask publish m).length = (B + 1) * m.length + (B + 1) := by
  have h1 : (m.flatMap fun e => (List.range B).map fun i => chunk i e.1).length = B * m.length := by
    induction m with
    | nil => rfl
    | cons e m ih =>
      rw [List.flatMap_cons, List.length_append, ih, List.length_cons, List.length_map, List.length_range,
        Nat.mul_succ, Nat.add_comm]
  have h2 : (published publish m).length = m.length + 1 := by
    clear h1
    induction m with
    | nil => rfl
    | cons e m ih => rw [published, List.length_cons, ih, List.length_cons]
  rw [used, List.length_append, List.length_append, h1, List.length_map, List.length_range, h2,
    Nat.add_mul]
  omega

private theorem used_mono (B : Nat) (ask : Transcript → Bytes) (publish : Transcript → Bytes32) (m : Transcript)
    (y : Bytes32) : ∀ v ∈ used B ask publish m, v ∈ used B ask publish ((ask m, y) :: m) := by
  intro v hv
  refine List.mem_append_right _ ?_
  rw [List.flatMap_cons, List.append_assoc]
  rcases List.mem_append.1 hv with hv | hv
  · exact List.mem_append_left _ hv
  refine List.mem_append_right _ ?_
  rcases List.mem_append.1 hv with hv | hv
  · exact List.mem_append_left _ hv
  · refine List.mem_append_right _ ?_
    exact List.mem_cons_of_mem _ hv

private theorem mem_chunks {B : Nat} {s : Bytes} (hB : s.length ≤ B) {r : Bytes32} (hs : r.bytes <:+: s) :
    r ∈ (List.range B).map fun i => chunk i s := by
  obtain ⟨a, b, hs⟩ := hs
  refine List.mem_map.2 ⟨a.length, ?_, chunk_eq (b := b) (by rw [← hs, List.append_assoc])⟩
  have := congrArg List.length hs
  simp only [List.length_append, r.len] at this
  exact List.mem_range.2 (by omega)

/-- **C115** Somebody asks for `n` hashes of strings of at most `B` bytes, and may publish 32 bytes at any time. For all but a
share of `(B + 1) n (n + 1) / 2^257` of all tapes, at all times: every string that hangs below what is published
then, or below a hash contained in the string asked for next, was asked for already. -/
theorem C115_in_order (ask : Transcript → Bytes) (publish : Transcript → Bytes32) (n B : Nat)
    (hB : ∀ m, (ask m).length ≤ B) :
    ∃ good : List (List Bytes32), good.Sublist (idLists n) ∧
      2 * 2 ^ 256 * (idLists n).length ≤ 2 * 2 ^ 256 * good.length + (B + 1) * (n * (n + 1)) * (idLists n).length ∧
      ∀ tape ∈ good, ∀ e : Env, (Transcript.run ask n tape []).Of e → ∀ i ≤ n,
        (∀ s, @Below e (Transcript.run ask n tape []).strings (publish (Transcript.run ask i tape [])) s →
          s ∈ (Transcript.run ask i tape []).strings) ∧
        (∀ h : Bytes32, h.bytes <:+: ask (Transcript.run ask i tape []) →
          ∀ s, @Below e (Transcript.run ask n tape []).strings h s → s ∈ (Transcript.run ask i tape []).strings) := by
  obtain ⟨good, h1, h2, h3⟩ := always ask (used B ask publish) (B + 1) (B + 1)
    (fun m => Nat.le_of_eq (used_length B ask publish m)) n
  refine ⟨good, h1, ?_, ?_⟩
  · have : (B + 1) * (n * (n - 1)) + 2 * ((B + 1) * n) = (B + 1) * (n * (n + 1)) := by
      rw [Nat.mul_left_comm 2, ← Nat.mul_add]
      congr 1
      rcases n with _ | n
      · rfl
      · simp only [Nat.add_sub_cancel, Nat.add_mul, Nat.mul_add]; omega
    rwa [this] at h2
  intro tape ht e he i hi
  letI := e
  have key : ∀ h : Bytes32, h ∈ used B ask publish (Transcript.run ask i tape []) →
      ∀ s, Below (Transcript.run ask n tape []).strings h s → s ∈ (Transcript.run ask i tape []).strings := by
    intro h hh s hs
    have early := fun {s} => early_always ask (used B ask publish) (used_mono B ask publish) (h3 tape ht) he (s := s) (hi := hi)
    induction hs with
    | first ha hs =>
      refine early ha ?_
      rw [show e.sha256 _ = h from hs]
      exact hh
    | next _ hs ha ih =>
      refine early ha (List.mem_append_right _ (List.mem_append_left _ ?_))
      obtain ⟨x, hx, hxs⟩ := List.mem_map.1 ih
      refine List.mem_flatMap.2 ⟨x, hx, mem_chunks ?_ ?_⟩
      · rw [hxs]
        exact run_asked ask B hB i tape [] (fun _ h => by cases h) _ ih
      · rw [hxs, hs]
        exact ⟨_, _, by rw [List.append_assoc]; rfl⟩
  refine ⟨key _ ?_, fun h hh => key h ?_⟩
  · refine List.mem_append_right _ (List.mem_append_right _ ?_)
    cases Transcript.run ask i tape [] with
    | nil => exact List.mem_cons_self ..
    | cons x m => exact List.mem_cons_self ..
  · exact List.mem_append_left _ (mem_chunks (hB _) hh)

/-- **C115** So nothing refers to itself, directly or through others: no string hangs below a hash which it contains. No record
contains its own id or the commitment of a proof for it, anywhere in what is hashed for it. -/
theorem C115_no_cycle (ask : Transcript → Bytes) (n B : Nat) (hB : ∀ m, (ask m).length ≤ B) :
    ∃ good : List (List Bytes32), good.Sublist (idLists n) ∧
      2 * 2 ^ 256 * (idLists n).length ≤ 2 * 2 ^ 256 * good.length + (B + 1) * (n * (n + 1)) * (idLists n).length ∧
      ∀ tape ∈ good, ∀ e : Env, (Transcript.run ask n tape []).Of e →
        (∀ (s : Bytes) (h : Bytes32), h.bytes <:+: s → ¬ @Below e (Transcript.run ask n tape []).strings h s) ∧
        (∀ (r : Record) (id : IdType) (x : r.Val) (a : Bytes32), @Record.Sound e r x → @Record.id e r id x = .ok a →
          (∀ s ∈ @Record.inputs e r id x, s ∈ (Transcript.run ask n tape []).strings) →
          ∀ s ∈ @Record.inputs e r id x, ¬ a.bytes <:+: s) ∧
        (∀ (r : Record) (id : IdType) (x : r.Val) (pr : MerkleProof) (p : ProtocolId) (m : Message) (c : Commitment),
          @Record.Sound e r x → @Record.id e r id x = .ok m → pr.path.length ≤ 32 →
          @MerkleProof.convolve e pr p m = .ok (.ok c) →
          (∀ s ∈ @Record.inputs e r id x ++ @proofInputs e pr p m, s ∈ (Transcript.run ask n tape []).strings) →
          ∀ s ∈ @Record.inputs e r id x ++ @proofInputs e pr p m, ¬ c.bytes <:+: s) := by
  obtain ⟨good, h1, h2, h3⟩ := C115_in_order ask (fun _ => Bytes32.fill 0) n B hB
  refine ⟨good, h1, h2, ?_⟩
  intro tape ht e he
  letI := e
  have key : ∀ (s : Bytes) (h : Bytes32), h.bytes <:+: s → ¬ Below (Transcript.run ask n tape []).strings h s := by
    intro s h hh hs
    have ha : s ∈ (Transcript.run ask n tape []).strings := by
      cases hs <;> assumption
    obtain ⟨i, hi, rfl, hn⟩ := first_asked ask tape s n ha
    exact hn ((h3 tape ht e he i (by omega)).2 h hh _ hs)
  refine ⟨key, ?_, ?_⟩
  · intro r id x a hx hid hi s hs hc
    exact key s a hc (id_below (nested_below r x hx) hx hid (fun s' hs' ha => .first ha hs') hi s hs)
  · intro r id x pr p m c hx hid hl hcv hi s hs hc
    exact key s c hc (message_below hx hid hl hcv hi s hs)

variable {Seal Pub PubId PubErr : Type}

/-- **C115** For a contract, at all times at once: whatever is published at any time, if seals are good for it alone, then
the contents of every transition ever accepted for these seals were hashed by that time. -/
theorem C115_contract (ask : Transcript → Bytes) (publish : Transcript → Bytes32) (n B : Nat)
    (hB : ∀ m, (ask m).length ≤ B) :
    ∃ good : List (List Bytes32), good.Sublist (idLists n) ∧
      2 * 2 ^ 256 * (idLists n).length ≤ 2 * 2 ^ 256 * good.length + (B + 1) * (n * (n + 1)) * (idLists n).length ∧
      ∀ tape ∈ good, ∀ e : Env, (Transcript.run ask n tape []).Of e → ∀ i ≤ n,
        ∀ (c : Contract Seal Pub PubId PubErr), @SealScheme.UsesProofs _ _ _ _ e c.scheme →
        ∀ (unspent : Seal → Prop) (t : c.record.Val × MerkleProof), @Contract.Accepts _ _ _ _ e c unspent t →
        (∀ x ∈ c.closes t.1, ∀ pub, c.ledger x = some pub → ∀ a, c.scheme.verifyCommitment pub a = .ok () →
          a = publish (Transcript.run ask i tape [])) →
        (∀ s ∈ @Contract.inputs _ _ _ _ e c t, s ∈ (Transcript.run ask n tape []).strings) →
        ∀ s ∈ @Contract.inputs _ _ _ _ e c t, s ∈ (Transcript.run ask i tape []).strings := by
  obtain ⟨good, h1, h2, h3⟩ := C115_in_order ask publish n B hB
  refine ⟨good, h1, h2, ?_⟩
  intro tape ht e he i hin c hk unspent t hacc hpub hi
  letI := e
  obtain ⟨hs, hl, hne, -, -, pub, m, hp, hm, hv⟩ := hacc
  obtain ⟨x, hx⟩ := List.exists_mem_of_ne_nil _ hne
  have hin' : c.inputs t = c.record.inputs c.idType t.1 ++ proofInputs t.2 c.protocol m := by
    rw [Contract.inputs, hm]
  rw [hin'] at hi ⊢
  obtain ⟨-, a, ha, hva⟩ := (C46_seals_closing_ok c.scheme _ _ _).1 hv
  obtain rfl := hpub x hx pub (hp x hx) a hva
  have hc := hk t.2 c.protocol m hl
  rw [show c.scheme.convolveCommit t.2 (c.protocol, m) = .ok _ from ha] at hc
  exact fun s h => (h3 tape ht e he i hin).1 s (message_below hs hm (by omega) hc hi s h)

/-- **C115** In numbers: with `2^64` hashes of strings of at most 4 GiB something is hashed out of order for less than one tape
in `2^96`. -/
theorem C115_numbers (ask : Transcript → Bytes) (publish : Transcript → Bytes32) (n : Nat)
    (hB : ∀ m, (ask m).length ≤ 2 ^ 32) (hn : n ≤ 2 ^ 64) :
    ∃ good : List (List Bytes32), good.Sublist (idLists n) ∧
      2 ^ 96 * ((idLists n).length - good.length) < (idLists n).length ∧
      ∀ tape ∈ good, ∀ e : Env, (Transcript.run ask n tape []).Of e → ∀ i ≤ n,
        (∀ s, @Below e (Transcript.run ask n tape []).strings (publish (Transcript.run ask i tape [])) s →
          s ∈ (Transcript.run ask i tape []).strings) ∧
        (∀ h : Bytes32, h.bytes <:+: ask (Transcript.run ask i tape []) →
          ∀ s, @Below e (Transcript.run ask n tape []).strings h s → s ∈ (Transcript.run ask i tape []).strings) := by
  obtain ⟨good, h1, h2, h3⟩ := C115_in_order ask publish n (2 ^ 32) hB
  refine ⟨good, h1, ?_, h3⟩
  have hp : 0 < (idLists n).length := by
    rw [idLists_length]; exact Nat.pow_pos (Nat.two_pow_pos 256)
  have a2 : (2 ^ 32 + 1) * (n * (n + 1)) ≤ (2 ^ 32 + 1) * (2 ^ 64 * (2 ^ 64 + 1)) :=
    Nat.mul_le_mul_left _ (Nat.mul_le_mul hn (by omega))
  have := Nat.mul_le_mul_right (idLists n).length a2
  generalize (2 ^ 32 + 1) * (n * (n + 1)) * (idLists n).length = X at *
  generalize (idLists n).length = N at *
  omega

/-- Somebody hashes all that is hashed for a record with nested records, with the real hash function. -/
example : ∃ (ask : Transcript → Bytes) (n : Nat) (tape : List Bytes32) (a : Bytes32),
    (∀ m, (ask m).length ≤ 300) ∧ tape ∈ idLists n ∧ (Transcript.run ask n tape []).Of (realEnv true) ∧
    @Record.Sound (realEnv true) Sample.record (Sample.recordValue 7 5) ∧
    @Record.id (realEnv true) Sample.record mpcCommitmentId (Sample.recordValue 7 5) = .ok a ∧
    (∀ s ∈ @Record.inputs (realEnv true) Sample.record mpcCommitmentId (Sample.recordValue 7 5),
      s ∈ (Transcript.run ask n tape []).strings) := by
  let S := (@Record.inputs (realEnv true) Sample.record mpcCommitmentId (Sample.recordValue 7 5)).eraseDups
  have hB : ∀ s ∈ S, s.length ≤ 300 := by decide +kernel
  have ha : (@Record.id (realEnv true) Sample.record mpcCommitmentId (Sample.recordValue 7 5)).toOption.isSome = true := by
    decide +kernel
  obtain ⟨a, ha⟩ : ∃ a, @Record.id (realEnv true) Sample.record mpcCommitmentId (Sample.recordValue 7 5) = .ok a := by
    cases h : @Record.id (realEnv true) Sample.record mpcCommitmentId (Sample.recordValue 7 5) with
    | ok a => exact ⟨a, rfl⟩
    | error _ => rw [h] at ha; cases ha
  refine ⟨fun m => S.getD m.length [], S.length, S.map (realEnv true).sha256, a, ?_,
    (mem_idLists _ _).2 (List.length_map ..), ?_, @Sample.record_sound (realEnv true) _ _, ha, ?_⟩
  · intro m
    show (S.getD (List.length m) []).length ≤ 300
    rw [List.getD_eq_getElem?_getD]
    cases h : S[List.length m]? with
    | none => simp
    | some s => exact hB s (List.mem_of_getElem? h)
  · unfold Transcript.Of; decide +kernel
  · decide +kernel

/-- A tape which is not good: the answer to a string of 32 bytes is the string. -/
example : ∃ (e : Env) (ask : Transcript → Bytes) (tape : List Bytes32) (s : Bytes) (h : Bytes32),
    (∀ m, (ask m).length ≤ 32) ∧ tape ∈ idLists 1 ∧ (Transcript.run ask 1 tape []).Of e ∧ h.bytes <:+: s ∧
    @Below e (Transcript.run ask 1 tape []).strings h s := by
  refine ⟨⟨fun _ => Bytes32.fill 7, true⟩, fun _ => (Bytes32.fill 7).bytes, [Bytes32.fill 7], (Bytes32.fill 7).bytes,
    Bytes32.fill 7, fun _ => Nat.le_of_eq (Bytes32.fill 7).len, (mem_idLists _ _).2 rfl, ?_, List.infix_rfl, ?_⟩
  · unfold Transcript.Of; decide +kernel
  · exact @Below.first ⟨fun _ => Bytes32.fill 7, true⟩ _ _ _ (by decide) rfl

end CSV
