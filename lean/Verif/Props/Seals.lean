import Verif.Model.Seals

/-!
# C46, C47, C78: single-use seals
-/

namespace CSV

variable {Seal Msg Pub Cli Proof PubId PubErr CliErr : Type}
  (s : SealScheme Seal Msg Pub Cli Proof PubId PubErr CliErr)

private theorem checkIncluded_ok (w : SealWitness Pub Cli) (msg : Msg) (seals : List Seal) :
    s.checkIncluded w msg seals = .ok () ↔ ∀ x ∈ seals, s.isIncluded x msg w = true := by
  induction seals with
  | nil => simp [SealScheme.checkIncluded]
  | cons x xs ih => by_cases h : s.isIncluded x msg w = true <;> simp [SealScheme.checkIncluded, h, ih]

private theorem checkIncluded_err (w : SealWitness Pub Cli) (msg : Msg) (seals : List Seal)
    (e : SealError Seal PubId PubErr CliErr) :
    s.checkIncluded w msg seals = .error e ↔
      ∃ before x after, seals = before ++ x :: after ∧
        (∀ y ∈ before, s.isIncluded y msg w = true) ∧ s.isIncluded x msg w = false ∧
        e = .notIncluded x (s.pubId w.published) := by
  induction seals with
  | nil => simp [SealScheme.checkIncluded]
  | cons x xs ih =>
    by_cases h : s.isIncluded x msg w = true
    · simp only [SealScheme.checkIncluded, h, if_true, ih]
      constructor
      · rintro ⟨b, y, a, rfl, hb, hy, he⟩
        exact ⟨x :: b, y, a, rfl, by simpa [h] using hb, hy, he⟩
      · rintro ⟨b, y, a, hs, hb, hy, he⟩
        cases b with
        | nil => simp at hs; rw [← hs.1] at hy; simp [h] at hy
        | cons z b =>
          simp at hs
          exact ⟨b, y, a, hs.2, fun u hu => hb u (by simp [hu]), hy, he⟩
    · simp only [SealScheme.checkIncluded, h]
      constructor
      · intro he
        exact ⟨[], x, xs, rfl, by simp, by simpa using h, by simpa using he.symm⟩
      · rintro ⟨b, y, a, hs, hb, hy, he⟩
        cases b with
        | nil => simp at hs; rw [he, ← hs.1]; simp
        | cons z b => simp at hs; exact absurd (hb z (by simp)) (by rw [← hs.1]; simpa using h)

/-- **C46** Verification accepts exactly if every seal is included in the witness for the message
and the client-side witness yields a proof that the published witness verifies. -/
theorem C46_seals_closing_ok (w : SealWitness Pub Cli) (seals : List Seal) (msg : Msg) :
    s.verifySealsClosing w seals msg = .ok () ↔
      (∀ x ∈ seals, s.isIncluded x msg w = true) ∧
      ∃ p, s.convolveCommit w.client msg = .ok p ∧ s.verifyCommitment w.published p = .ok () := by
  rw [← checkIncluded_ok]
  unfold SealScheme.verifySealsClosing
  split
  · simp_all
  · rename_i h
    rw [h]
    cases hc : s.convolveCommit w.client msg with
    | error e => simp
    | ok p =>
      cases hv : s.verifyCommitment w.published p with
      | error e => simp [hv]
      | ok u => simp [hv]

/-- **C46** Errors, by precedence. `NotIncluded` names the first seal that is not included and the
id of the published witness; `Client` is reported only if all seals are included; `Published` only
if moreover the client-side witness yields a proof. -/
theorem C46_seals_closing_errors (w : SealWitness Pub Cli) (seals : List Seal) (msg : Msg) :
    (∀ x i, s.verifySealsClosing w seals msg = .error (.notIncluded x i) ↔
      ∃ before after, seals = before ++ x :: after ∧
        (∀ y ∈ before, s.isIncluded y msg w = true) ∧ s.isIncluded x msg w = false ∧
        i = s.pubId w.published) ∧
    (∀ e, s.verifySealsClosing w seals msg = .error (.client e) ↔
      (∀ x ∈ seals, s.isIncluded x msg w = true) ∧ s.convolveCommit w.client msg = .error e) ∧
    (∀ e, s.verifySealsClosing w seals msg = .error (.published e) ↔
      (∀ x ∈ seals, s.isIncluded x msg w = true) ∧
      ∃ p, s.convolveCommit w.client msg = .ok p ∧ s.verifyCommitment w.published p = .error e) := by
  have hok := checkIncluded_ok s w msg seals
  have herr := checkIncluded_err s w msg seals
  unfold SealScheme.verifySealsClosing
  cases hc : s.checkIncluded w msg seals with
  | error e0 =>
    have hno : ¬ ∀ x ∈ seals, s.isIncluded x msg w = true := by rw [← hok, hc]; simp
    obtain ⟨b0, x0, a0, h0, h1, h2, h3⟩ := (herr e0).1 hc
    refine ⟨fun x i => ?_, fun e => ?_, fun e => ?_⟩
    · have := herr (.notIncluded x i)
      rw [hc] at this
      dsimp only
      rw [this]
      constructor
      · rintro ⟨b, y, a, hs, hb, hy, he⟩
        injection he with he1 he2
        subst he1
        exact ⟨b, a, hs, hb, hy, he2⟩
      · rintro ⟨b, a, hs, hb, hy, he⟩
        exact ⟨b, x, a, hs, hb, hy, by rw [he]⟩
    · simp [h3, hno]
    · simp [h3, hno]
  | ok u =>
    have hyes := hok.1 hc
    refine ⟨fun x i => ?_, fun e => ?_, fun e => ?_⟩
    · constructor
      · intro h
        exfalso
        revert h
        cases s.convolveCommit w.client msg with
        | error e => simp
        | ok p => cases hv : s.verifyCommitment w.published p <;> simp [hv]
      · rintro ⟨b, a, hs, -, hy, -⟩
        have := hyes x (by simp [hs])
        simp [this] at hy
    · cases s.convolveCommit w.client msg with
      | error e => simpa using fun _ => hyes
      | ok p => cases hv : s.verifyCommitment w.published p <;> simp [hv]
    · cases s.convolveCommit w.client msg with
      | error e => simp
      | ok p => cases hv : s.verifyCommitment w.published p <;> simp [hv]; exact fun _ => hyes

/-- **C46** The verdict depends on the set of seals only, not on order or repetition. -/
theorem C46_seals_order (w : SealWitness Pub Cli) (seals seals' : List Seal) (msg : Msg)
    (h : ∀ x, x ∈ seals ↔ x ∈ seals') :
    s.verifySealsClosing w seals msg = .ok () ↔ s.verifySealsClosing w seals' msg = .ok () := by
  simp only [C46_seals_closing_ok, h]

/-- **C46** Closing of a list of seals is accepted exactly if closing of each one is (for a
non-empty list). -/
theorem C46_seals_each (w : SealWitness Pub Cli) (seals : List Seal) (msg : Msg)
    (hne : seals ≠ []) :
    s.verifySealsClosing w seals msg = .ok () ↔
      ∀ x ∈ seals, s.verifySealClosing w x msg = .ok () := by
  unfold SealScheme.verifySealClosing
  simp only [C46_seals_closing_ok, List.mem_singleton, forall_eq]
  cases seals with
  | nil => exact absurd rfl hne
  | cons x xs =>
    exact ⟨fun h y hy => ⟨h.1 y hy, h.2⟩, fun h => ⟨fun y hy => (h y hy).1, (h x (by simp)).2⟩⟩

/-- **C78** What an error says about a rejected closing. It has no source exactly if a seal is not
included, and then its text names the first such seal and the publication; a source is the error of
the witness that rejected, and gives the text. -/
theorem C78_errors (w : SealWitness Pub Cli) (seals : List Seal) (msg : Msg)
    (e : SealError Seal PubId PubErr CliErr) (h : s.verifySealsClosing w seals msg = .error e)
    (sealText : Seal → String) (idText : PubId → String) (pubText : PubErr → String)
    (cliText : CliErr → String) :
    (e.source = none ↔ ∃ x ∈ seals, s.isIncluded x msg w = false) ∧
    (∀ before x after, seals = before ++ x :: after → (∀ y ∈ before, s.isIncluded y msg w = true) →
      s.isIncluded x msg w = false → e.display sealText idText pubText cliText =
        "seal " ++ sealText x ++ " is not included in the witness " ++ idText (s.pubId w.published)) ∧
    (∀ c, e.source = some (.inr c) → s.convolveCommit w.client msg = .error c ∧
      e.display sealText idText pubText cliText = cliText c) ∧
    (∀ p, e.source = some (.inl p) →
      (∃ proof, s.convolveCommit w.client msg = .ok proof ∧
        s.verifyCommitment w.published proof = .error p) ∧
      e.display sealText idText pubText cliText = pubText p) := by
  obtain ⟨h1, h2, h3⟩ := C46_seals_closing_errors s w seals msg
  have none_iff : e.source = none ↔ ∃ x ∈ seals, s.isIncluded x msg w = false := by
    cases e with
    | notIncluded x i =>
      obtain ⟨b, a, rfl, _, hx, _⟩ := (h1 x i).1 h
      exact ⟨fun _ => ⟨x, by simp, hx⟩, fun _ => rfl⟩
    | published p =>
      refine ⟨fun h => (nomatch h), fun ⟨x, hx, hf⟩ => ?_⟩
      rw [((h3 p).1 h).1 x hx] at hf; cases hf
    | client c =>
      refine ⟨fun h => (nomatch h), fun ⟨x, hx, hf⟩ => ?_⟩
      rw [((h2 c).1 h).1 x hx] at hf; cases hf
  refine ⟨none_iff, fun b x a hs hb hx => ?_, fun c hc => ?_, fun p hp => ?_⟩
  · have := (h1 x _).2 ⟨b, a, hs, hb, hx, rfl⟩
    rw [this] at h
    cases h
    rfl
  · cases e <;> cases hc
    exact ⟨((h2 c).1 h).2, rfl⟩
  · cases e <;> cases hp
    exact ⟨((h3 p).1 h).2, rfl⟩

/-- **C47** A seal closes over one message: if the published witness accepts at most one proof and
the client-side witness maps different messages to different proofs, no witness verifies closing
over two different messages. -/
theorem C47_one_message (w : SealWitness Pub Cli) (seals seals' : List Seal) (m m' : Msg)
    (hpub : ∀ p q, s.verifyCommitment w.published p = .ok () →
      s.verifyCommitment w.published q = .ok () → p = q)
    (hcli : ∀ a b p, s.convolveCommit w.client a = .ok p →
      s.convolveCommit w.client b = .ok p → a = b)
    (h : s.verifySealsClosing w seals m = .ok ()) (h' : s.verifySealsClosing w seals' m' = .ok ()) :
    m = m' := by
  obtain ⟨-, p, hp, hv⟩ := (C46_seals_closing_ok s w seals m).1 h
  obtain ⟨-, q, hq, hv'⟩ := (C46_seals_closing_ok s w seals' m').1 h'
  have := hpub p q hv hv'
  subst this
  exact hcli m m' p hp hq

/-- **C47** With an empty list of seals acceptance involves no seal: it is decided by the two
witnesses and the message. -/
theorem C47_no_seals (w : SealWitness Pub Cli) (msg : Msg) :
    s.verifySealsClosing w [] msg = .ok () ↔
      ∃ p, s.convolveCommit w.client msg = .ok p ∧ s.verifyCommitment w.published p = .ok () := by
  simp [C46_seals_closing_ok]

/-- **C47** Without client-side witness, closing over two different messages is impossible for a
published witness exactly if that witness does not accept two messages, given that the seals are
included for any message. -/
theorem C47_no_witness
    (s : SealScheme Seal Msg Pub NoWitness Msg PubId PubErr Empty)
    (hs : s.convolveCommit = NoWitness.convolveCommit)
    (w : SealWitness Pub NoWitness) (seals : List Seal)
    (hincl : ∀ x ∈ seals, ∀ m, s.isIncluded x m w = true) :
    (∀ m m', s.verifySealsClosing w seals m = .ok () → s.verifySealsClosing w seals m' = .ok () →
      m = m') ↔
    (∀ m m', s.verifyCommitment w.published m = .ok () →
      s.verifyCommitment w.published m' = .ok () → m = m') := by
  have key : ∀ m, s.verifySealsClosing w seals m = .ok () ↔
      s.verifyCommitment w.published m = .ok () := by
    intro m
    rw [C46_seals_closing_ok]
    simp only [hs, NoWitness.convolveCommit, Except.ok.injEq, exists_eq_left']
    exact ⟨fun h => h.2, fun h => ⟨fun x hx => hincl x hx m, h⟩⟩
  simp only [key]

/-- Seals are numbers, a published witness is a list of closed seals and one committed number; the
client-side witness multiplies the (non-zero) message by a salt. -/
private def listScheme : SealScheme Nat Nat (List Nat × Nat) Nat Nat Nat Unit Unit where
  isIncluded x _ w := w.published.1.contains x
  convolveCommit c m := if m = 0 then .error () else .ok ((c + 1) * m)
  pubId p := p.2
  verifyCommitment p q := if p.2 = q then .ok () else .error ()

/-- Every outcome occurs; the second missing seal is not the one reported. -/
example : let w : SealWitness (List Nat × Nat) Nat := ⟨([1, 2], 12), 3⟩
    listScheme.verifySealsClosing w [1, 2, 1] 3 = .ok () ∧
    listScheme.verifySealsClosing w [1, 7, 8] 0 = .error (.notIncluded 7 12) ∧
    listScheme.verifySealsClosing w [1] 0 = .error (.client ()) ∧
    listScheme.verifySealsClosing w [2] 4 = .error (.published ()) ∧
    listScheme.verifySealsClosing w [] 3 = .ok () := ⟨rfl, rfl, rfl, rfl, rfl⟩

/-- A rejected closing whose error is printed. -/
example : ∃ e, listScheme.verifySealsClosing ⟨([1, 2], 12), 3⟩ [1, 7, 8] 0 = .error e ∧ e.source = none ∧
    e.display toString toString (fun _ => "") (fun _ => "") = "seal 7 is not included in the witness 12" :=
  ⟨_, rfl, rfl, by decide +kernel⟩

/-- The hypotheses of `C47_one_message` are met by that scheme. -/
example : let w : SealWitness (List Nat × Nat) Nat := ⟨([1, 2], 12), 3⟩
    (∀ p q, listScheme.verifyCommitment w.published p = .ok () →
      listScheme.verifyCommitment w.published q = .ok () → p = q) ∧
    (∀ a b p, listScheme.convolveCommit w.client a = .ok p →
      listScheme.convolveCommit w.client b = .ok p → a = b) ∧
    listScheme.verifySealsClosing w [1, 2] 3 = .ok () := by
  refine ⟨fun p q hp hq => ?_, fun a b p ha hb => ?_, rfl⟩
  · simp only [listScheme] at hp hq
    split at hp <;> split at hq <;> simp_all
  · simp only [listScheme] at ha hb
    split at ha <;> split at hb <;> simp_all
    omega

/-- Without the hypothesis on the published witness two messages can be closed over. -/
example : let s : SealScheme Nat Nat Unit Unit Nat Nat Unit Unit :=
      ⟨fun _ _ _ => true, fun _ m => .ok m, fun _ => 0, fun _ _ => .ok ()⟩
    s.verifySealsClosing ⟨(), ()⟩ [1] 3 = .ok () ∧ s.verifySealsClosing ⟨(), ()⟩ [1] 4 = .ok () :=
  ⟨rfl, rfl⟩

end CSV
