import Verif.Spec.Api

/-!
# C48 - C52: validation reports and client-side validation
-/

namespace CSV

variable {Issue Failure Warning Info State Seal : Type}

/-- **C48** The verdict: `Invalid` iff there is a failure, `SealIssues` iff there is none but there
is a seal issue, `Valid` iff there is neither. Warnings and infos do not matter. -/
theorem C48_validity (s : Status Issue Failure Warning Info) :
    (s.validity = .invalid ↔ s.failures ≠ []) ∧
    (s.validity = .sealIssues ↔ s.failures = [] ∧ s.sealIssues ≠ []) ∧
    (s.validity = .valid ↔ s.failures = [] ∧ s.sealIssues = []) := by
  unfold Status.validity
  cases s.failures <;> cases s.sealIssues <;> simp

/-- **C48** Merging two reports gives the worse verdict of the two. -/
theorem C48_merge_worse (s t : Status Issue Failure Warning Info) :
    (s.addAssign t).validity.severity = max s.validity.severity t.validity.severity := by
  unfold Status.validity Status.addAssign
  cases s.failures <;> cases s.sealIssues <;> cases t.failures <;> cases t.sealIssues <;>
    simp [Validity.severity]

/-- **C48** No history of additions improves the verdict. -/
theorem C48_monotone (s : Status Issue Failure Warning Info)
    (ops : List (Addition Issue Failure Warning Info)) :
    s.validity.severity ≤ (ops.foldl Addition.apply s).validity.severity := by
  induction ops generalizing s with
  | nil => exact Nat.le_refl _
  | cons op ops ih =>
    refine Nat.le_trans ?_ (ih _)
    cases op with
    | merge t => rw [Addition.apply, C48_merge_worse]; exact Nat.le_max_left ..
    | _ =>
      obtain ⟨a, b, c, d⟩ := s
      cases a <;> cases b <;>
        simp [Addition.apply, Status.validity, Status.addSealIssue, Status.addFailure,
          Status.addWarning, Status.addInfo, Validity.severity]

/-- **C48** The verdict after any history from the empty report: a failure was added, or else a
seal issue was added, or else neither. Additions of warnings and infos do not matter. -/
theorem C48_history (ops : List (Addition Issue Failure Warning Info)) :
    let badF := ∃ op ∈ ops, (∃ x, op = .failure x) ∨ (∃ t, op = .merge t ∧ t.failures ≠ [])
    let badS := ∃ op ∈ ops, (∃ x, op = .sealIssue x) ∨ (∃ t, op = .merge t ∧ t.sealIssues ≠ [])
    let v := (ops.foldl Addition.apply Status.new).validity
    (v = .invalid ↔ badF) ∧ (v = .sealIssues ↔ ¬ badF ∧ badS) ∧ (v = .valid ↔ ¬ badF ∧ ¬ badS) := by
  have key : ∀ s : Status Issue Failure Warning Info,
      ((ops.foldl Addition.apply s).failures = [] ↔ s.failures = [] ∧
        ∀ op ∈ ops, ¬ ((∃ x, op = .failure x) ∨ (∃ t, op = .merge t ∧ t.failures ≠ []))) ∧
      ((ops.foldl Addition.apply s).sealIssues = [] ↔ s.sealIssues = [] ∧
        ∀ op ∈ ops, ¬ ((∃ x, op = .sealIssue x) ∨ (∃ t, op = .merge t ∧ t.sealIssues ≠ []))) := by
    induction ops with
    | nil => simp
    | cons op ops ih =>
      intro s
      rw [List.foldl_cons, (ih _).1, (ih _).2]
      cases op <;> simp [Addition.apply, Status.addSealIssue, Status.addFailure,
        Status.addWarning, Status.addInfo, Status.addAssign, and_assoc]
  have hk := key Status.new
  have hv := C48_validity (ops.foldl Addition.apply Status.new)
  simp only [Status.new, true_and] at hk hv
  dsimp only
  simp only [Status.new, hv.1, hv.2.1, hv.2.2, ne_eq, hk.1, hk.2]
  grind

example : let s : Status Nat Nat Nat Nat := ⟨[], [], [1], [2]⟩
    s.validity = .valid ∧ (s.addSealIssue 3).validity = .sealIssues ∧
    ((s.addSealIssue 3).addFailure 4).validity = .invalid := ⟨rfl, rfl, rfl⟩

/-- **C49** `+=` appends the four logs component-wise and in order. -/
theorem C49_add_assign (s t : Status Issue Failure Warning Info) :
    (s.addAssign t).sealIssues = s.sealIssues ++ t.sealIssues ∧
    (s.addAssign t).failures = s.failures ++ t.failures ∧
    (s.addAssign t).warnings = s.warnings ++ t.warnings ∧
    (s.addAssign t).info = s.info ++ t.info := ⟨rfl, rfl, rfl, rfl⟩

/-- **C49** Merging is associative, with the empty report as unit. -/
theorem C49_monoid (s t u : Status Issue Failure Warning Info) :
    (s.addAssign t).addAssign u = s.addAssign (t.addAssign u) ∧
    Status.new.addAssign s = s ∧ s.addAssign Status.new = s := by
  simp [Status.addAssign, Status.new]

/-- **C49** `from_failure` and `collect` make a report with exactly these failures; adding single
entries is merging with a one-entry report. -/
theorem C49_constructors (f : Failure) (fs : List Failure) (i : Issue) (w : Warning) (n : Info)
    (s : Status Issue Failure Warning Info) :
    (Status.fromFailure f : Status Issue Failure Warning Info) = ⟨[], [f], [], []⟩ ∧
    (Status.fromIter fs : Status Issue Failure Warning Info) = ⟨[], fs, [], []⟩ ∧
    (Status.fromIter fs : Status Issue Failure Warning Info)
      = fs.foldl (fun s f => s.addAssign (Status.fromFailure f)) Status.new ∧
    s.addFailure f = s.addAssign ⟨[], [f], [], []⟩ ∧
    s.addSealIssue i = s.addAssign ⟨[i], [], [], []⟩ ∧
    s.addWarning w = s.addAssign ⟨[], [], [w], []⟩ ∧
    s.addInfo n = s.addAssign ⟨[], [], [], [n]⟩ := by
  have : ∀ a : List Failure,
      fs.foldl (fun s f => s.addAssign (Status.fromFailure f))
        (⟨[], a, [], []⟩ : Status Issue Failure Warning Info) = ⟨[], a ++ fs, [], []⟩ := by
    induction fs with
    | nil => simp
    | cons f fs ih =>
      intro a
      rw [List.foldl_cons]
      simp only [Status.addAssign, Status.fromFailure, List.append_nil] at ih ⊢
      rw [ih]; simp
  refine ⟨rfl, rfl, ?_, ?_, ?_, ?_, ?_⟩
  · rw [Status.new, this]; rfl
  all_goals simp [Status.addFailure, Status.addSealIssue, Status.addWarning, Status.addInfo,
    Status.addAssign]

example : ((⟨[1], [2], [], [3]⟩ : Status Nat Nat Nat Nat).addAssign ⟨[4], [], [5], [6]⟩)
    = ⟨[1, 4], [2], [5], [3, 6]⟩ := rfl

/-! ### Client-side validation -/

private theorem resolveSeals_eq (r : Resolver State Seal Issue) (seals : List Seal) (st : State)
    (s : Status Issue Failure Warning Info) :
    resolveSeals r seals st s
      = (r.stateAfter st seals, s.addAssign ⟨r.issues st seals, [], [], []⟩) := by
  induction seals generalizing st s with
  | nil => simp [resolveSeals, Resolver.stateAfter, Resolver.issues, Status.addAssign]
  | cons x xs ih =>
    rw [resolveSeals, Resolver.issues]
    rcases h : r st x with ⟨st', (e | ⟨⟩)⟩
    · dsimp only
      rw [ih]
      simp [Resolver.stateAfter, h, Status.addAssign, Status.addSealIssue]
    · dsimp only
      rw [ih]
      simp [Resolver.stateAfter, h, Status.addAssign]

private theorem validateItems_eq (r : Resolver State Seal Issue)
    (items : List (ClientData Seal Issue Failure Warning Info)) (st : State)
    (s : Status Issue Failure Warning Info) :
    validateItems r items st s
      = (r.stateAfter st (items.flatMap (·.seals)),
         (r.itemReports st items).foldl Status.addAssign s) := by
  induction items generalizing st s with
  | nil => simp [validateItems, Resolver.stateAfter, Resolver.itemReports]
  | cons d ds ih =>
    rw [validateItems, resolveSeals_eq]
    simp only [ih, Resolver.itemReports, List.foldl_cons, List.flatMap_cons]
    simp [Resolver.stateAfter]

/-- **C50** Result of validation: the own report, followed for each item, in order, by the issues
found resolving the seals of the item and the report of the item; the resolver is left in the state
reached by asking it about all seals of all items one after the other. Nothing stops early. -/
theorem C50_validate (r : Resolver State Seal Issue)
    (data : ClientTree Seal Issue Failure Warning Info) (st : State) :
    clientSideValidate r data st
      = (r.stateAfter st (data.items.flatMap (·.seals)),
         (r.itemReports st data.items).foldl Status.addAssign data.report) := by
  rw [clientSideValidate, validateItems_eq, (C49_monoid data.report data.report data.report).2.1]

private theorem logged_stateAfter (r : Resolver State Seal Issue) (seals : List Seal) (st : State)
    (log : List Seal) :
    r.logged.stateAfter (st, log) seals = (r.stateAfter st seals, log ++ seals) := by
  induction seals generalizing st log with
  | nil => simp [Resolver.stateAfter]
  | cons x xs ih =>
    simp only [Resolver.stateAfter, List.foldl_cons, Resolver.logged] at ih ⊢
    rw [ih]; simp

/-- **C50** The resolver is called exactly once for each seal of each item, in order. -/
theorem C50_each_seal_once (r : Resolver State Seal Issue)
    (data : ClientTree Seal Issue Failure Warning Info) (st : State) :
    (clientSideValidate r.logged data (st, [])).1.2 = data.items.flatMap (·.seals) := by
  rw [C50_validate, logged_stateAfter]; simp

private theorem foldl_addAssign (l : List (Status Issue Failure Warning Info))
    (s : Status Issue Failure Warning Info) :
    l.foldl Status.addAssign s =
      ⟨s.sealIssues ++ l.flatMap (·.sealIssues), s.failures ++ l.flatMap (·.failures),
       s.warnings ++ l.flatMap (·.warnings), s.info ++ l.flatMap (·.info)⟩ := by
  induction l generalizing s with
  | nil => simp
  | cons a l ih => rw [List.foldl_cons, ih]; simp [Status.addAssign]

private theorem issues_append (r : Resolver State Seal Issue) (st : State) (a b : List Seal) :
    r.issues st (a ++ b) = r.issues st a ++ r.issues (r.stateAfter st a) b := by
  induction a generalizing st with
  | nil => simp [Resolver.issues, Resolver.stateAfter]
  | cons x xs ih =>
    simp only [List.cons_append, Resolver.issues, ih, List.append_assoc]
    simp [Resolver.stateAfter]

/-- **C50** The returned failures, warnings and infos are the own ones followed by those of the
items in order. -/
theorem C50_logs (r : Resolver State Seal Issue)
    (data : ClientTree Seal Issue Failure Warning Info) (st : State) :
    let res := (clientSideValidate r data st).2
    res.failures = data.report.failures ++ data.items.flatMap (·.report.failures) ∧
    res.warnings = data.report.warnings ++ data.items.flatMap (·.report.warnings) ∧
    res.info = data.report.info ++ data.items.flatMap (·.report.info) := by
  have key : ∀ (items : List (ClientData Seal Issue Failure Warning Info)) (st : State),
      (r.itemReports st items).flatMap (·.failures) = items.flatMap (·.report.failures) ∧
      (r.itemReports st items).flatMap (·.warnings) = items.flatMap (·.report.warnings) ∧
      (r.itemReports st items).flatMap (·.info) = items.flatMap (·.report.info) := by
    intro items
    induction items with
    | nil => simp [Resolver.itemReports]
    | cons d ds ih => intro st; simp [Resolver.itemReports, ih]
  simp only [C50_validate, foldl_addAssign, key, and_self]

/-- **C50** Validation is `Valid` exactly if the own report and those of all items are valid and
every seal of every item was resolved without issue. -/
theorem C50_valid_iff (r : Resolver State Seal Issue)
    (data : ClientTree Seal Issue Failure Warning Info) (st : State) :
    (clientSideValidate r data st).2.validity = .valid ↔
      data.report.validity = .valid ∧ (∀ d ∈ data.items, d.report.validity = .valid) ∧
      r.issues st (data.items.flatMap (·.seals)) = [] := by
  have key : ∀ (items : List (ClientData Seal Issue Failure Warning Info)) (st : State),
      (r.itemReports st items).flatMap (·.sealIssues) = [] ↔
        (∀ d ∈ items, d.report.sealIssues = []) ∧ r.issues st (items.flatMap (·.seals)) = [] := by
    intro items
    induction items with
    | nil => simp [Resolver.itemReports, Resolver.issues]
    | cons d ds ih =>
      intro st
      simp only [Resolver.itemReports, List.flatMap_cons, List.append_eq_nil_iff, ih, issues_append,
        List.forall_mem_cons]
      grind
  have hl := C50_logs r data st
  dsimp only at hl
  rw [(C48_validity _).2.2, (C48_validity _).2.2, hl.1]
  simp only [C50_validate, foldl_addAssign, List.append_eq_nil_iff, key, (C48_validity _).2.2,
    List.flatMap_eq_nil_iff]
  grind

/-- A resolver that counts its calls and fails on odd seals. -/
private def oddResolver : Resolver Nat Nat Nat := fun st x =>
  (st + 1, if x % 2 = 0 then .ok () else .error x)

/-- Two items, a failing seal in the middle: all five seals are still looked at. -/
example : clientSideValidate oddResolver
      (⟨⟨[9], ⟨[], [], [1], []⟩⟩, [⟨[2, 3, 4], ⟨[], [], [], [5]⟩⟩, ⟨[7, 6], ⟨[], [8], [], []⟩⟩]⟩ :
        ClientTree Nat Nat Nat Nat Nat) 0
    = (5, ⟨[3, 7], [8], [1], [5]⟩) := rfl

/-- **C51** is false of the code: the seals of the top-level data are not resolved, so that data with
a seal which the resolver rejects is reported `Valid`. -/
theorem C51_false : ∃ (r : Resolver Unit Nat Nat) (data : ClientTree Nat Nat Nat Nat Nat),
    (clientSideValidate r data ()).2.validity = .valid ∧
    ∃ x ∈ data.seals, ∀ st, ∃ e, (r st x).2 = .error e := by
  refine ⟨fun _ x => ((), .error x), ⟨⟨[1], Status.new⟩, []⟩, rfl, 1, by simp, fun _ => ⟨1, rfl⟩⟩

/-- **C51** The result does not depend on the seals of the top-level data in any way. -/
theorem C51_top_level_ignored (r : Resolver State Seal Issue)
    (data : ClientTree Seal Issue Failure Warning Info) (seals : List Seal) (st : State) :
    clientSideValidate r data st = clientSideValidate r { data with seals := seals } st := rfl

/-- **C51**, the part that holds: a `Valid` verdict implies that every seal that occurs in some item
was asked about and resolved; so the full property holds for data whose top-level seals occur in
items too. Missing: top-level seals that occur in no item. -/
theorem C51_partial (r : Resolver State Seal Issue)
    (data : ClientTree Seal Issue Failure Warning Info) (st : State)
    (hcover : ∀ x ∈ data.seals, ∃ d ∈ data.items, x ∈ d.seals)
    (hvalid : (clientSideValidate r data st).2.validity = .valid) :
    ∀ x, (x ∈ data.seals ∨ ∃ d ∈ data.items, x ∈ d.seals) →
      ∃ before after, data.items.flatMap (·.seals) = before ++ x :: after ∧
        (r (r.stateAfter st before) x).2 = .ok () := by
  have hi := ((C50_valid_iff r data st).1 hvalid).2.2
  intro x hx
  have hx : x ∈ data.items.flatMap (·.seals) := by
    rw [List.mem_flatMap]
    rcases hx with h | h
    · exact hcover x h
    · exact h
  obtain ⟨b, a, hba⟩ := List.append_of_mem hx
  refine ⟨b, a, hba, ?_⟩
  rw [hba, issues_append, Resolver.issues] at hi
  simp only [List.append_eq_nil_iff] at hi
  revert hi
  rcases (r (r.stateAfter st b) x).2 with e | ⟨⟩ <;> simp

/-- The hypotheses are met by data with a top-level seal that occurs in an item. -/
example : let data : ClientTree Nat Nat Nat Nat Nat := ⟨⟨[4], Status.new⟩, [⟨[2, 4], Status.new⟩]⟩
    (∀ x ∈ data.seals, ∃ d ∈ data.items, x ∈ d.seals) ∧
    (clientSideValidate oddResolver data 0).2.validity = .valid :=
  ⟨by simp, rfl⟩

/-- **C52** is false of the code: the maximum of two verdicts may be better than either merged. -/
theorem C52_false :
    (∃ s t : Status Nat Nat Nat Nat, (s.addAssign t).validity ≠ s.validity.max t.validity) ∧
    ¬ ∀ a b : Validity, a.le b = true ↔ a.severity ≤ b.severity :=
  ⟨⟨⟨[], [1], [], []⟩, Status.new, by decide⟩, fun h => absurd (h .invalid .valid) (by decide)⟩

/-- **C52**, the part that holds: the order puts `Invalid` below `Valid` below
`SealIssues`, so the maximum is the merged verdict exactly if neither report is
`Invalid` or both are. Missing: agreement with severity when just one report is `Invalid`. -/
theorem C52_partial (s t : Status Issue Failure Warning Info) :
    (s.addAssign t).validity = s.validity.max t.validity ↔
      (s.validity = .invalid ↔ t.validity = .invalid) := by
  have h := C48_merge_worse s t
  revert h
  cases (s.addAssign t).validity <;> cases s.validity <;> cases t.validity <;>
    simp [Validity.severity, Validity.max, Validity.le, Validity.discriminant]

/-- **C52** The order exactly: a verdict is at most another if they are equal, or the first is `Invalid`
or the second `SealIssues`. So it is the order of severity on reports that are not `Invalid`, and the
reverse of it if one is. -/
theorem C52_order (a b : Validity) :
    (a.le b = true ↔ a = b ∨ a = .invalid ∨ b = .sealIssues) ∧
    (a ≠ .invalid → b ≠ .invalid → (a.le b = true ↔ a.severity ≤ b.severity)) ∧
    (a = .invalid ∨ b = .invalid → (a.le b = true ↔ b.severity ≤ a.severity)) := by
  cases a <;> cases b <;> simp [Validity.severity, Validity.le, Validity.discriminant]

/-- **C52** The numbers to which verdicts are cast: all fit a byte, differ, and are ordered like the verdicts; as a
flag only `Invalid` is off, and `SealIssues` is the largest. -/
theorem C52_numbers (a b : Validity) :
    (a.discriminant = b.discriminant ↔ a = b) ∧ (a.le b = true ↔ a.discriminant ≤ b.discriminant) ∧
    (a.discriminant = 0 ↔ a.severity = 2) ∧ (a.discriminant = 1 ↔ a.severity = 0) ∧
    (a.discriminant = 255 ↔ a.severity = 1) ∧ a.discriminant < 256 := by
  cases a <;> cases b <;> simp [Validity.severity, Validity.le, Validity.discriminant]

end CSV
