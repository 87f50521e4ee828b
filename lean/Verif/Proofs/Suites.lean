import Verif.Model.Suites

/-!
# What passing the test suites means

Both suites are instances of one fold.
-/

namespace CSV.Suites

theorem assertThat_ok (b : Bool) : assertThat b = .ok () ↔ b = true := by
  cases b <;> simp [assertThat]

theorem forM_ok {α : Type} (f : α → Exec Unit) : ∀ l : List α, l.forM f = .ok () ↔ ∀ x ∈ l, f x = .ok ()
  | [] => by simp [pure, Except.pure]
  | a :: l => by
    have ih := forM_ok f l
    show (f a >>= fun _ => l.forM f) = _ ↔ _
    cases h : f a with
    | error e => simp [bind, Except.bind, h]
    | ok u => cases u; simp [bind, Except.bind, h]; exact ih

theorem isOk_iff {ε : Type} (r : Except ε Unit) : isOk r = true ↔ r = .ok () := by
  cases r with
  | error e => simp [isOk]
  | ok u => cases u; simp [isOk]

variable {Msg C P : Type}

/-- The step shared by the suites. -/
def step (commit : Msg → Option (C × P)) (ver : C → Msg → P → Prop) (messages : List Msg)
    (acc : List C) (msg : Msg) (acc' : List C) : Prop :=
  ∃ c p, commit msg = some (c, p) ∧ acc' = c :: acc ∧ (ver c msg p) ∧ (∀ m ∈ messages, (ver c m p ↔ m = msg)) ∧
    (∀ x ∈ acc, ¬ ver x msg p) ∧ c ∉ acc

theorem fold_ok (commit : Msg → Option (C × P)) (ver : C → Msg → P → Prop) (messages : List Msg)
    (f : List C → Msg → Exec (List C))
    (hf : ∀ acc msg acc', f acc msg = .ok acc' ↔ step commit ver messages acc msg acc') :
    ∀ (l : List Msg), (∀ m ∈ l, m ∈ messages) → ∀ acc : List C, (∃ acc', l.foldlM f acc = .ok acc') ↔
      (∀ m ∈ l, ∃ c p, commit m = some (c, p) ∧ (∀ m' ∈ messages, (ver c m' p ↔ m' = m)) ∧
        ∀ x ∈ acc, x ≠ c ∧ ¬ ver x m p) ∧
      l.Pairwise (fun a b => ∀ ca pa cb pb, commit a = some (ca, pa) → commit b = some (cb, pb) →
        ca ≠ cb ∧ ¬ ver ca b pb)
  | [], _, acc => by simp [pure, Except.pure]
  | a :: l, hl, acc => by
    rw [List.foldlM_cons]
    cases h : f acc a with
    | error e =>
      have : ¬ ∃ acc', f acc a = .ok acc' := by rw [h]; simp
      constructor
      · rintro ⟨_, h'⟩
        simp [bind, Except.bind] at h'
      · rintro ⟨h1, -⟩
        obtain ⟨c, p, g1, g2, g3⟩ := h1 a (by simp)
        exact absurd ⟨_, (hf acc a (c :: acc)).2 ⟨c, p, g1, rfl, (g2 a (hl a (by simp))).2 rfl, g2,
          fun x hx => (g3 x hx).2, fun hc => (g3 c hc).1 rfl⟩⟩ this
    | ok acc1 =>
      obtain ⟨c, p, g1, rfl, -, g3, g4, g5⟩ := (hf acc a acc1).1 h
      have ih := fold_ok commit ver messages f hf l (fun m hm => hl m (by simp [hm])) (c :: acc)
      simp only [bind, Except.bind]
      rw [ih, List.pairwise_cons]
      constructor
      · rintro ⟨k1, k2⟩
        refine ⟨fun m hm => ?_, fun b hb => ?_, k2⟩
        · rcases List.mem_cons.1 hm with rfl | hm
          · exact ⟨c, p, g1, g3, fun x hx => ⟨fun e => g5 (e ▸ hx), g4 x hx⟩⟩
          · obtain ⟨c', p', a1, a2, a3⟩ := k1 m hm
            exact ⟨c', p', a1, a2, fun x hx => a3 x (by simp [hx])⟩
        · intro ca pa cb pb e1 e2
          rw [g1] at e1
          cases e1
          obtain ⟨c', p', a1, -, a3⟩ := k1 b hb
          rw [e2] at a1
          cases a1
          exact a3 c (by simp)
      · rintro ⟨k1, k2, k3⟩
        refine ⟨fun m hm => ?_, k3⟩
        obtain ⟨c', p', a1, a2, a3⟩ := k1 m (by simp [hm])
        refine ⟨c', p', a1, a2, fun x hx => ?_⟩
        rcases List.mem_cons.1 hx with rfl | hx
        · exact k2 m hm _ _ _ _ g1 a1
        · exact a3 x hx

/-- The commitment made by an embed scheme, if any. -/
def embedded {Container Proof E : Type} (s : EmbedScheme Msg Container Proof E) (K : Container) (m : Msg) :
    Option (Container × Proof) :=
  match s.embedCommit K m with
  | (c, .ok p) => some (c, p)
  | (_, .error _) => none

theorem embedded_some {Container Proof E : Type} (s : EmbedScheme Msg Container Proof E) (K : Container) (m : Msg)
    (c : Container) (p : Proof) : embedded s K m = some (c, p) ↔ s.embedCommit K m = (c, .ok p) := by
  unfold embedded
  split <;> rename_i h <;> simp [h]

/-- The commitment made by a convolve scheme, if any. -/
def convolved {Source Suppl Proof E : Type} (s : ConvolveScheme Msg Source Suppl C Proof E) (K : Source)
    (suppl : Suppl) (m : Msg) : Option (C × Proof) :=
  match s.convolveCommit K suppl m with
  | .ok r => some r
  | .error _ => none

theorem convolved_some {Source Suppl Proof E : Type} (s : ConvolveScheme Msg Source Suppl C Proof E) (K : Source)
    (suppl : Suppl) (m : Msg) (r : C × Proof) :
    convolved s K suppl m = some r ↔ s.convolveCommit K suppl m = .ok r := by
  unfold convolved
  split <;> rename_i h <;> simp [h]

private theorem bind_unit {β : Type} (x : Exec Unit) (f : Unit → Exec β) (b : β) :
    (x >>= f) = .ok b ↔ x = .ok () ∧ f () = .ok b := by
  cases x <;> simp [bind, Except.bind]

theorem embed_step {Container Proof E : Type} [DecidableEq Msg] [DecidableEq Container] (s : EmbedScheme Msg Container Proof E)
    (messages : List Msg) (K : Container) (acc : List Container) (msg : Msg) (acc' : List Container) :
    s.suiteStep messages K acc msg = .ok acc' ↔
      step (embedded s K) (fun c m p => s.verify c m p = .ok ()) messages acc msg acc' := by
  unfold EmbedScheme.suiteStep step
  split <;> rename_i h
  · simp only [embedded_some, h]
    simp
  · rename_i c p
    simp only [embedded_some, h, bind_unit, forM_ok, assertThat_ok, isOk_iff]
    constructor
    · rintro ⟨-, h2, h3, h4, h5, h6⟩
      refine ⟨c, p, rfl, (Except.ok.inj h6).symm, h2, fun m hm => ?_, fun x hx e => ?_, by simpa using h5⟩
      · have e := h3 m hm
        rw [beq_iff_eq] at e
        rw [← isOk_iff, e]
        simp
      · have := h4 x hx
        rw [(isOk_iff _).2 e] at this
        cases this
    · rintro ⟨c', p', e, h6, h2, h3, h4, h5⟩
      cases e
      refine ⟨fun _ _ => by simp, h2, fun m hm => ?_, fun x hx => ?_, by simpa using h5, by rw [h6]⟩
      · rw [beq_iff_eq, Bool.eq_iff_iff, isOk_iff, h3 m hm]
        simp
      · have := h4 x hx
        rw [← isOk_iff] at this
        simpa using this

theorem convolve_step {Source Suppl Proof E : Type} [DecidableEq Msg] [DecidableEq C] (s : ConvolveScheme Msg Source Suppl C Proof E)
    (suppl : Suppl) (proof : Proof)
    (messages : List Msg) (K : Source) (acc : List C) (msg : Msg) (acc' : List C) :
    s.suiteStep suppl proof messages K acc msg = .ok acc' ↔
      step (convolved s K suppl) (fun c m _ => s.verify proof m c = .ok ()) messages acc msg acc' := by
  unfold ConvolveScheme.suiteStep step
  split <;> rename_i h
  · simp only [convolved_some, h]
    simp
  · rename_i c p
    simp only [convolved_some, h, bind_unit, forM_ok, assertThat_ok, isOk_iff]
    constructor
    · rintro ⟨-, h2, h3, h4, h5, h6⟩
      refine ⟨c, p, rfl, (Except.ok.inj h6).symm, h2, fun m hm => ?_, fun x hx e => ?_, by simpa using h5⟩
      · have e := h3 m hm
        rw [beq_iff_eq] at e
        rw [← isOk_iff, e]
        simp
      · have := h4 x hx
        rw [(isOk_iff _).2 e] at this
        cases this
    · rintro ⟨c', p', e, h6, h2, h3, h4, h5⟩
      cases e
      refine ⟨fun _ _ => by simp, h2, fun m hm => ?_, fun x hx => ?_, by simpa using h5, by rw [h6]⟩
      · rw [beq_iff_eq, Bool.eq_iff_iff, isOk_iff, h3 m hm]
        simp
      · have := h4 x hx
        rw [← isOk_iff] at this
        simpa using this

theorem bind_unit_ok {α : Type} (x : Exec α) : (x >>= fun _ => (.ok () : Exec Unit)) = .ok () ↔ ∃ a, x = .ok a := by
  cases x <;> simp [bind, Except.bind]

end CSV.Suites
