import Verif.Props.Api
import Verif.Spec.Resolve

/-!
# C105: validation can be split, reordered, cached and repeated
-/

namespace CSV

variable {Issue Failure Warning Info State State' Seal : Type}

/-- **C105** Data may be validated in parts: validating some items first, and then the others with the same
resolver, and merging the two reports is validating all at once. For every resolver, with or without memory. -/
theorem C105_split (r : Resolver State Seal Issue) (seals seals' : List Seal)
    (report : Status Issue Failure Warning Info) (xs ys : List (ClientData Seal Issue Failure Warning Info))
    (st : State) :
    let first := clientSideValidate r ⟨⟨seals, report⟩, xs⟩ st
    let second := clientSideValidate r ⟨⟨seals', Status.new⟩, ys⟩ first.1
    clientSideValidate r ⟨⟨seals, report⟩, xs ++ ys⟩ st = (second.1, first.2.addAssign second.2) := by
  have split : ∀ (xs : List (ClientData Seal Issue Failure Warning Info)) (st : State),
      r.itemReports st (xs ++ ys)
        = r.itemReports st xs ++ r.itemReports (r.stateAfter st (xs.flatMap (·.seals))) ys := by
    intro xs
    induction xs with
    | nil => intro st; rfl
    | cons d ds ih =>
      intro st
      simp only [List.cons_append, Resolver.itemReports, ih, List.flatMap_cons]
      simp [Resolver.stateAfter]
  have fold : ∀ (l : List (Status Issue Failure Warning Info)) (s : Status Issue Failure Warning Info),
      l.foldl Status.addAssign s = s.addAssign (l.foldl Status.addAssign Status.new) := by
    intro l
    induction l with
    | nil => intro s; exact ((C49_monoid s s s).2.2).symm
    | cons a l ih =>
      intro s
      rw [List.foldl_cons, ih, List.foldl_cons, ih (Status.new.addAssign a), (C49_monoid a a a).2.1,
        (C49_monoid s a _).1]
  intro first second
  simp only [first, second, C50_validate]
  refine Prod.ext ?_ ?_
  · simp [Resolver.stateAfter]
  · simp only
    rw [split, List.foldl_append, fold]

/-- Asked without memory, a resolver gives the reports of the function it answers as. -/
private theorem memoryless_reports (r : Resolver State Seal Issue) (Inv : State → Prop) (ans : Seal → Except Issue Unit)
    (hr : r.AnswersAs Inv ans) (items : List (ClientData Seal Issue Failure Warning Info)) (st : State)
    (hst : Inv st) :
    r.itemReports st items = (Resolver.stateless ans).itemReports () items ∧
      Inv (r.stateAfter st (items.flatMap (·.seals))) := by
  have iss : ∀ (seals : List Seal) (st : State), Inv st →
      r.issues st seals = (Resolver.stateless ans).issues () seals ∧ Inv (r.stateAfter st seals) := by
    intro seals
    induction seals with
    | nil => intro st h; exact ⟨rfl, h⟩
    | cons x xs ih =>
      intro st h
      obtain ⟨a, b⟩ := hr st h x
      obtain ⟨c, d⟩ := ih _ a
      refine ⟨?_, d⟩
      simp only [Resolver.issues, b, c]
      rfl
  induction items generalizing st with
  | nil => exact ⟨rfl, hst⟩
  | cons d ds ih =>
    obtain ⟨a, b⟩ := iss d.seals st hst
    obtain ⟨c, e⟩ := ih _ b
    refine ⟨?_, ?_⟩
    · simp only [Resolver.itemReports, a, c]
    · simpa [Resolver.stateAfter] using e

/-- **C105** A resolver whose answers do not depend on what it was asked before is as good as a function from
seals to answers, whatever its state is used for. -/
theorem C105_memoryless (r : Resolver State Seal Issue) (Inv : State → Prop) (ans : Seal → Except Issue Unit)
    (hr : r.AnswersAs Inv ans) (data : ClientTree Seal Issue Failure Warning Info) (st : State) (hst : Inv st) :
    (clientSideValidate r data st).2 = (clientSideValidate (Resolver.stateless ans) data ()).2 ∧
      Inv (clientSideValidate r data st).1 := by
  obtain ⟨a, b⟩ := memoryless_reports r Inv ans hr data.items st hst
  rw [C50_validate, C50_validate]
  exact ⟨congrArg (·.foldl Status.addAssign data.report) a, b⟩

/-- The issues a stateless resolver finds. -/
private def found (ans : Seal → Except Issue Unit) (x : Seal) : List Issue :=
  match ans x with | .ok () => [] | .error e => [e]

private theorem stateless_issues (ans : Seal → Except Issue Unit) (seals : List Seal) :
    (Resolver.stateless ans).issues () seals = seals.flatMap (found ans) := by
  induction seals with
  | nil => rfl
  | cons x xs ih =>
    rw [Resolver.issues, List.flatMap_cons]
    exact congrArg (found ans x ++ ·) ih

private theorem foldl_logs (l : List (Status Issue Failure Warning Info))
    (s : Status Issue Failure Warning Info) :
    (l.foldl Status.addAssign s).sealIssues = s.sealIssues ++ l.flatMap (·.sealIssues) := by
  induction l generalizing s with
  | nil => simp
  | cons a l ih => rw [List.foldl_cons, ih]; simp [Status.addAssign]

/-- The seal issues reported by validation with a stateless resolver. -/
private theorem stateless_sealIssues (ans : Seal → Except Issue Unit)
    (data : ClientTree Seal Issue Failure Warning Info) :
    (clientSideValidate (Resolver.stateless ans) data ()).2.sealIssues
      = data.report.sealIssues ++
        data.items.flatMap (fun d => d.seals.flatMap (found ans) ++ d.report.sealIssues) := by
  rw [C50_validate]
  simp only
  rw [foldl_logs]
  congr 1
  induction data.items with
  | nil => rfl
  | cons d ds ih =>
    simp only [Resolver.itemReports, List.flatMap_cons, stateless_issues]
    rw [← ih, List.append_assoc]

/-- **C105** The verdict for such a resolver: `Invalid` exactly if some report, the own one or that of an item,
has a failure; `Valid` exactly if no report has a failure or a seal issue and each seal of an item is closed. -/
theorem C105_verdict (r : Resolver State Seal Issue) (Inv : State → Prop) (ans : Seal → Except Issue Unit)
    (hr : r.AnswersAs Inv ans) (data : ClientTree Seal Issue Failure Warning Info) (st : State) (hst : Inv st) :
    ((clientSideValidate r data st).2.validity = .invalid ↔
      data.report.failures ≠ [] ∨ ∃ d ∈ data.items, d.report.failures ≠ []) ∧
    ((clientSideValidate r data st).2.validity = .valid ↔
      data.report.validity = .valid ∧ ∀ d ∈ data.items, d.report.validity = .valid ∧
        ∀ x ∈ d.seals, ans x = .ok ()) := by
  refine ⟨?_, ?_⟩
  · have hl := (C50_logs r data st).1
    rw [(C48_validity _).1, hl, ne_eq, List.append_eq_nil_iff, List.flatMap_eq_nil_iff]
    constructor
    · intro h
      by_cases h1 : data.report.failures = []
      · refine .inr (Classical.byContradiction fun h2 => h ⟨h1, fun d hd => ?_⟩)
        exact Classical.byContradiction fun h3 => h2 ⟨d, hd, h3⟩
      · exact .inl h1
    · rintro (h | ⟨d, hd, h⟩) ⟨h1, h2⟩
      · exact h h1
      · exact h (h2 d hd)
  · rw [(C105_memoryless r Inv ans hr data st hst).1, C50_valid_iff, stateless_issues]
    have : ∀ x, found ans x = [] ↔ ans x = .ok () := by
      intro x
      unfold found
      cases h : ans x with
      | error e => simp
      | ok u => cases u; simp
    simp only [List.flatMap_eq_nil_iff, this, List.mem_flatMap]
    constructor
    · rintro ⟨a, b, c⟩
      exact ⟨a, fun d hd => ⟨b d hd, fun x hx => c x ⟨d, hd, hx⟩⟩⟩
    · rintro ⟨a, b⟩
      exact ⟨a, fun d hd => (b d hd).1, fun x ⟨d, hd, hx⟩ => (b d hd).2 x hx⟩

/-- **C105** Order does not matter to such a resolver, nor does it matter which item has which seals: if the
same seals and the same reports occur as often, each log has the same entries as often, and the verdict is the
same. -/
theorem C105_order (r : Resolver State Seal Issue) (Inv : State → Prop) (ans : Seal → Except Issue Unit)
    (hr : r.AnswersAs Inv ans) (st st' : State) (hst : Inv st) (hst' : Inv st')
    (data data' : ClientTree Seal Issue Failure Warning Info) (hown : data.report = data'.report)
    (hseals : (data.items.flatMap (·.seals)).Perm (data'.items.flatMap (·.seals)))
    (hreports : (data.items.map (·.report)).Perm (data'.items.map (·.report))) :
    let res := (clientSideValidate r data st).2
    let res' := (clientSideValidate r data' st').2
    res.sealIssues.Perm res'.sealIssues ∧ res.failures.Perm res'.failures ∧
      res.warnings.Perm res'.warnings ∧ res.info.Perm res'.info ∧ res.validity = res'.validity := by
  intro res res'
  have fm : ∀ {α : Type} (f : Status Issue Failure Warning Info → List α),
      (data.items.flatMap fun d => f d.report).Perm (data'.items.flatMap fun d => f d.report) := by
    intro α f
    have := hreports.flatMap_right f
    simpa [List.flatMap_map] using this
  have hsi : res.sealIssues.Perm res'.sealIssues := by
    simp only [res, res']
    rw [(C105_memoryless r Inv ans hr data st hst).1, (C105_memoryless r Inv ans hr data' st' hst').1,
      stateless_sealIssues, stateless_sealIssues, hown]
    refine List.Perm.append_left _ ?_
    have sp : ∀ items : List (ClientData Seal Issue Failure Warning Info),
        (items.flatMap fun d => d.seals.flatMap (found ans) ++ d.report.sealIssues).Perm
          ((items.flatMap (·.seals)).flatMap (found ans) ++ items.flatMap fun d => d.report.sealIssues) := by
      intro items
      induction items with
      | nil => exact .refl _
      | cons d ds ih =>
        simp only [List.flatMap_cons, List.flatMap_append, List.append_assoc]
        refine List.Perm.append_left _ ?_
        refine (List.Perm.append_left _ ih).trans ?_
        rw [← List.append_assoc, ← List.append_assoc]
        exact List.Perm.append_right _ List.perm_append_comm
    exact (sp _).trans (((hseals.flatMap_right _).append (fm (·.sealIssues))).trans (sp _).symm)
  have hl := C50_logs r data st
  have hl' := C50_logs r data' st'
  have hf : res.failures.Perm res'.failures := by
    simp only [res, res']
    rw [hl.1, hl'.1, hown]
    exact List.Perm.append_left _ (fm (·.failures))
  refine ⟨hsi, hf, ?_, ?_, ?_⟩
  · simp only [res, res']
    rw [hl.2.1, hl'.2.1, hown]
    exact List.Perm.append_left _ (fm (·.warnings))
  · simp only [res, res']
    rw [hl.2.2, hl'.2.2, hown]
    exact List.Perm.append_left _ (fm (·.info))
  · simp only [Status.validity]
    have e1 : res.failures.isEmpty = res'.failures.isEmpty := by
      rw [Bool.eq_iff_iff, List.isEmpty_iff_length_eq_zero, List.isEmpty_iff_length_eq_zero, hf.length_eq]
    have e2 : res.sealIssues.isEmpty = res'.sealIssues.isEmpty := by
      rw [Bool.eq_iff_iff, List.isEmpty_iff_length_eq_zero, List.isEmpty_iff_length_eq_zero, hsi.length_eq]
    rw [e1, e2]

/-- **C105** A cache before such a resolver makes no difference to the report, whatever is validated with it
and however often. -/
theorem C105_cache [DecidableEq Seal] (r : Resolver State Seal Issue) (Inv : State → Prop)
    (ans : Seal → Except Issue Unit) (hr : r.AnswersAs Inv ans) :
    r.cached.AnswersAs (fun s => Inv s.1 ∧ ∀ x a, s.2.lookup x = some a → a = ans x) ans ∧
    ∀ (data : ClientTree Seal Issue Failure Warning Info) (st : State), Inv st →
      (clientSideValidate r.cached data (st, [])).2 = (clientSideValidate r data st).2 := by
  have h : r.cached.AnswersAs (fun s => Inv s.1 ∧ ∀ x a, s.2.lookup x = some a → a = ans x) ans := by
    rintro ⟨st, cache⟩ ⟨hi, hc⟩ x
    simp only at hi hc
    cases hx : cache.lookup x with
    | some a =>
      have e : r.cached (st, cache) x = ((st, cache), a) := by simp only [Resolver.cached, hx]
      rw [e]
      exact ⟨⟨hi, hc⟩, hc x a hx⟩
    | none =>
      have e : r.cached (st, cache) x = (((r st x).1, (x, (r st x).2) :: cache), (r st x).2) := by
        simp only [Resolver.cached, hx]
      rw [e]
      obtain ⟨h1, h2⟩ := hr st hi x
      refine ⟨⟨h1, fun y a hy => ?_⟩, h2⟩
      rw [List.lookup_cons] at hy
      by_cases e : y = x
      · subst e
        simp only [beq_self_eq_true, Option.some.injEq] at hy
        exact hy.symm.trans h2
      · have : (y == x) = false := by simpa using e
        rw [this] at hy
        exact hc y a hy
  refine ⟨h, fun data st hst => ?_⟩
  rw [(C105_memoryless r Inv ans hr data st hst).1]
  exact (C105_memoryless r.cached _ ans h data (st, []) ⟨hst, by simp⟩).1

/-- **C105** With a cache the resolver behind it is asked about each seal at most once, and about no seal that
does not occur in an item; about each of those it is asked, if the cache was empty. For every resolver. -/
theorem C105_cache_asks [DecidableEq Seal] (r : Resolver State Seal Issue)
    (data : ClientTree Seal Issue Failure Warning Info) (st : State) :
    let log := (clientSideValidate r.logged.cached data ((st, []), [])).1.1.2
    log.Nodup ∧ ∀ x, x ∈ log ↔ ∃ d ∈ data.items, x ∈ d.seals := by
  have key : ∀ (seals : List Seal) (s : (State × List Seal) × List (Seal × Except Issue Unit)),
      s.1.2.Nodup → (∀ x, x ∈ s.1.2 ↔ s.2.lookup x ≠ none) →
      (r.logged.cached.stateAfter s seals).1.2.Nodup ∧
      ∀ x, x ∈ (r.logged.cached.stateAfter s seals).1.2 ↔ x ∈ s.1.2 ∨ x ∈ seals := by
    intro seals
    induction seals with
    | nil => intro s h1 _; exact ⟨h1, fun x => by simp [Resolver.stateAfter]⟩
    | cons y ys ih =>
      rintro ⟨⟨st, log⟩, cache⟩ h1 h2
      simp only at h1 h2
      cases hy : cache.lookup y with
      | some a =>
        have e : (r.logged.cached ((st, log), cache) y).1 = ((st, log), cache) := by
          simp only [Resolver.cached, hy]
        obtain ⟨a1, a2⟩ := ih ((st, log), cache) h1 h2
        rw [Resolver.stateAfter, List.foldl_cons, e]
        refine ⟨a1, fun x => (a2 x).trans ?_⟩
        have : y ∈ log := (h2 y).2 (by rw [hy]; simp)
        simp only [List.mem_cons]
        grind
      | none =>
        have e : (r.logged.cached ((st, log), cache) y).1
            = (((r st y).1, log ++ [y]), (y, (r st y).2) :: cache) := by
          simp only [Resolver.cached, hy, Resolver.logged]
        have hn : y ∉ log := fun h => (h2 y).1 h hy
        obtain ⟨a1, a2⟩ := ih (((r st y).1, log ++ [y]), (y, (r st y).2) :: cache)
          (by
            simp only [List.nodup_append, h1, true_and]
            simp only [List.nodup_cons, List.not_mem_nil, not_false_eq_true, List.nodup_nil, and_self, true_and]
            rintro a ha b hb rfl
            simp only [List.mem_singleton] at hb
            exact hn (hb ▸ ha))
          (by
            intro x
            simp only [List.mem_append, List.mem_singleton, List.lookup_cons]
            by_cases ex : x = y
            · subst ex; simp
            · have : (x == y) = false := by simpa using ex
              rw [this]
              simp only [ex, or_false]
              exact h2 x)
        rw [Resolver.stateAfter, List.foldl_cons, e]
        refine ⟨a1, fun x => (a2 x).trans ?_⟩
        simp only [List.mem_append, List.mem_cons, List.not_mem_nil, or_false]
        grind
  obtain ⟨a, b⟩ := key (data.items.flatMap (·.seals)) ((st, []), []) List.nodup_nil (by simp)
  intro log
  have e : log = (r.logged.cached.stateAfter ((st, []), []) (data.items.flatMap (·.seals))).1.2 := by
    simp only [log, C50_validate]
  rw [e]
  refine ⟨a, fun x => (b x).trans ?_⟩
  simp [List.mem_flatMap]

/-- C105, why the condition: a resolver that remembers what it was asked - here: one that denies seal 1
once it was asked about seal 2 - gives another verdict if a cache is put before it, or if items are reordered. -/
theorem C105_memory_matters : ∃ (r : Resolver (List Nat) Nat Nat) (data data' : ClientTree Nat Nat Nat Nat Nat),
    data.items.Perm data'.items ∧ data.report = data'.report ∧
    (clientSideValidate r data []).2.validity = .sealIssues ∧
    (clientSideValidate r.cached data ([], [])).2.validity = .valid ∧
    (clientSideValidate r data' []).2.validity = .valid :=
  ⟨fun st x => (x :: st, if st.contains 2 ∧ x = 1 then .error x else .ok ()),
    ⟨⟨[], Status.new⟩, [⟨[1], Status.new⟩, ⟨[2], Status.new⟩, ⟨[1], Status.new⟩]⟩,
    ⟨⟨[], Status.new⟩, [⟨[1], Status.new⟩, ⟨[1], Status.new⟩, ⟨[2], Status.new⟩]⟩,
    .cons _ (List.Perm.swap ..), rfl, rfl, rfl, rfl⟩

/-- **C105** Validating again later: if seals which were closed still are, the other logs are the same, there are
not more seal issues than before, and the verdict is not worse. -/
theorem C105_later (r : Resolver State Seal Issue) (r' : Resolver State' Seal Issue) (Inv : State → Prop)
    (Inv' : State' → Prop) (ans ans' : Seal → Except Issue Unit) (hr : r.AnswersAs Inv ans)
    (hr' : r'.AnswersAs Inv' ans') (hlater : ∀ x, Resolved (ans x) = true → Resolved (ans' x) = true)
    (data : ClientTree Seal Issue Failure Warning Info) (st : State) (st' : State') (hst : Inv st)
    (hst' : Inv' st') :
    let res := (clientSideValidate r data st).2
    let res' := (clientSideValidate r' data st').2
    res'.failures = res.failures ∧ res'.warnings = res.warnings ∧ res'.info = res.info ∧
      res'.sealIssues.length ≤ res.sealIssues.length ∧ res'.validity.severity ≤ res.validity.severity := by
  intro res res'
  obtain ⟨a1, a2, a3⟩ := C50_logs r data st
  obtain ⟨b1, b2, b3⟩ := C50_logs r' data st'
  have one : ∀ x, (found ans' x).length ≤ (found ans x).length := by
    intro x
    have := hlater x
    unfold found
    cases h : ans x with
    | error e => cases h' : ans' x <;> simp
    | ok u =>
      cases h' : ans' x with
      | ok u' => simp
      | error e => rw [h, h'] at this; simp [Resolved] at this
  have many : ∀ l : List Seal, (l.flatMap (found ans')).length ≤ (l.flatMap (found ans)).length := by
    intro l
    induction l with
    | nil => simp
    | cons x xs ih =>
      simp only [List.flatMap_cons, List.length_append]
      have := one x
      omega
  have hlen : res'.sealIssues.length ≤ res.sealIssues.length := by
    simp only [res, res']
    rw [(C105_memoryless r Inv ans hr data st hst).1, (C105_memoryless r' Inv' ans' hr' data st' hst').1,
      stateless_sealIssues, stateless_sealIssues]
    simp only [List.length_append]
    refine Nat.add_le_add_left ?_ _
    induction data.items with
    | nil => simp
    | cons d ds ih =>
      simp only [List.flatMap_cons, List.length_append]
      have := many d.seals
      omega
  have hf : res'.failures = res.failures := b1.trans a1.symm
  refine ⟨hf, b2.trans a2.symm, b3.trans a3.symm, hlen, ?_⟩
  unfold Status.validity
  rw [hf]
  cases res.failures with
  | cons f fs => simp
  | nil =>
    cases h : res.sealIssues with
    | nil =>
      rw [h] at hlen
      have : res'.sealIssues = [] := List.length_eq_zero_iff.1 (by simpa using hlen)
      simp [this]
    | cons i is => cases res'.sealIssues <;> simp [Validity.severity]

/-- **C105** Which seals are named: if the resolver reports issues of the seals it was asked about, and reports
of the data have no seal issues, as they should, then the report names seals of the items only, in their
order, each at most as often as it occurs; and without memory, exactly the seals that are not closed. -/
theorem C105_named (r : Resolver State Seal Issue) (sealOf : Issue → Seal)
    (hname : ∀ st x e, (r st x).2 = .error e → sealOf e = x)
    (data : ClientTree Seal Issue Failure Warning Info) (hown : data.report.sealIssues = [])
    (hitems : ∀ d ∈ data.items, d.report.sealIssues = []) (st : State) :
    let named := (clientSideValidate r data st).2.sealIssues.map sealOf
    named.Sublist (data.items.flatMap (·.seals)) ∧
    ∀ (Inv : State → Prop) (ans : Seal → Except Issue Unit), r.AnswersAs Inv ans → Inv st →
      named = (data.items.flatMap (·.seals)).filter fun x => !Resolved (ans x) := by
  have iss : ∀ (seals : List Seal) (st : State), ((r.issues st seals).map sealOf).Sublist seals := by
    intro seals
    induction seals with
    | nil => intro st; exact List.Sublist.refl _
    | cons x xs ih =>
      intro st
      rw [Resolver.issues]
      cases h : (r st x).2 with
      | ok u => exact (ih _).cons _
      | error e =>
        simp only [List.map_append, List.map_cons, List.map_nil, hname st x e h]
        exact (ih _).cons_cons _
  intro named
  refine ⟨?_, fun Inv ans hr hst => ?_⟩
  · simp only [named, C50_validate, foldl_logs, hown, List.nil_append]
    generalize data.items = items at hitems
    induction items generalizing st with
    | nil => exact List.Sublist.refl _
    | cons d ds ih =>
      simp only [Resolver.itemReports, List.flatMap_cons, List.map_append,
        hitems d (List.mem_cons_self ..), List.nil_append]
      exact (iss _ _).append (ih _ fun d hd => hitems d (List.mem_cons_of_mem _ hd))
  · simp only [named]
    rw [(C105_memoryless r Inv ans hr data st hst).1, stateless_sealIssues, hown, List.nil_append]
    have one : ∀ l : List Seal, (l.flatMap (found ans)).map sealOf = l.filter fun x => !Resolved (ans x) := by
      intro l
      induction l with
      | nil => rfl
      | cons x xs ih =>
        rw [List.flatMap_cons, List.map_append, ih, List.filter_cons]
        have := (hr st hst x).2
        unfold found
        cases h : ans x with
        | ok u => simp [Resolved]
        | error e =>
          have hx := hname st x e (this.trans h)
          simp [Resolved, hx]
    generalize data.items = items at hitems
    induction items with
    | nil => rfl
    | cons d ds ih =>
      simp only [List.flatMap_cons, List.map_append, hitems d (List.mem_cons_self ..),
        List.append_nil, one, List.filter_append, ih fun d hd => hitems d (List.mem_cons_of_mem _ hd)]

/-- A resolver that counts its questions and denies odd seals: its answers do not depend on the count. -/
private def counting : Resolver Nat Nat Nat := fun st x => (st + 1, if x % 2 = 0 then .ok () else .error x)

example : counting.AnswersAs (fun _ => True) fun x => if x % 2 = 0 then .ok () else .error x :=
  fun _ _ _ => ⟨trivial, rfl⟩

/-- Seal 3 occurs twice and is reported twice; with the cache the resolver is asked four times, not six. -/
example :
    let data : ClientTree Nat Nat Nat Nat Nat :=
      ⟨⟨[], Status.new⟩, [⟨[2, 3, 4], Status.new⟩, ⟨[3, 2, 5], Status.new⟩]⟩
    clientSideValidate counting data 0 = (6, ⟨[3, 3, 5], [], [], []⟩) ∧
    (clientSideValidate counting.cached data (0, [])).2 = ⟨[3, 3, 5], [], [], []⟩ ∧
    (clientSideValidate counting.cached data (0, [])).1.1 = 4 ∧
    (clientSideValidate counting data 0).2.sealIssues.map id
      = (data.items.flatMap (·.seals)).filter (· % 2 = 1) := by
  decide

/-- Splitting after the first item. -/
example :
    let xs : List (ClientData Nat Nat Nat Nat Nat) := [⟨[2, 3], ⟨[], [], [7], []⟩⟩]
    let ys : List (ClientData Nat Nat Nat Nat Nat) := [⟨[5], ⟨[], [8], [], []⟩⟩]
    clientSideValidate counting ⟨⟨[], Status.new⟩, xs ++ ys⟩ 0 = (3, ⟨[3, 5], [8], [7], []⟩) ∧
    clientSideValidate counting ⟨⟨[], Status.new⟩, xs⟩ 0 = (2, ⟨[3], [], [7], []⟩) ∧
    clientSideValidate counting ⟨⟨[], Status.new⟩, ys⟩ 2 = (3, ⟨[5], [8], [], []⟩) := by
  decide

/-- Later seal 3 is closed. -/
example : ∀ x : Nat, Resolved (if x % 2 = 0 then .ok () else .error x : Except Nat Unit) = true →
    Resolved (if x % 2 = 0 ∨ x = 3 then .ok () else .error x : Except Nat Unit) = true := by
  intro x
  by_cases h : x % 2 = 0 <;> simp [h, Resolved]

end CSV
