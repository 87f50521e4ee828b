import Verif.Spec.Vesper

/-!
# C54: descriptions of layouts
-/

namespace CSV

/-- **C54** The description names the commitment type, the hash function and the tag, and has one entry
per committed field in the same order, which describes the field. -/
theorem C54_entries (l : CommitLayout) :
    l.toVesper.subject = l.idty.name ∧ l.toVesper.predicate = .commitment ∧
    l.toVesper.attributes = [.hasher, .tagged l.tag] ∧
    l.toVesper.content.length = l.fields.length ∧
    ∀ (i : Nat) (field : CommitStep) (entry : VesperCommit), l.fields[i]? = some field → l.toVesper.content[i]? = some entry →
      field.DescribedBy entry := by
  refine ⟨rfl, rfl, rfl, by simp [CommitLayout.toVesper, TExpr.content], fun i field entry h1 h2 => ?_⟩
  simp only [CommitLayout.toVesper, TExpr.content, List.getElem?_map, h1, Option.map_some,
    Option.some.injEq] at h2
  subst h2
  match field with
  | .serialized t => exact .serialized t
  | .hashed t => exact .hashed t
  | .merklized t => exact .merklized t
  | .concealed t => exact .concealed t
  | .collection .list s t => exact .list s t
  | .collection .set s t => exact .set s t
  | .collection (.map k) s t => exact .map k s t

/-- **C54** Steps of different kinds never get the same predicate, and predicates are printed
differently. -/
theorem C54_predicates :
    (∀ a b : CommitStep, a.predicate = b.predicate ↔ CommitStep.SameKind a b) ∧
    (∀ p q : Pred, p.display = q.display → p = q) := by
  refine ⟨fun a b => ⟨fun h => ?_, fun h => by cases h <;> rfl⟩, fun p q h => ?_⟩
  · match a, b, h with
    | .serialized _, .serialized _, _ => exact .serialized _ _
    | .hashed _, .hashed _, _ => exact .hashed _ _
    | .merklized _, .merklized _, _ => exact .merklized _ _
    | .concealed _, .concealed _, _ => exact .concealed _ _
    | .collection .list _ _, .collection .list _ _, _ => exact .list _ _ _ _
    | .collection .set _ _, .collection .set _ _, _ => exact .set _ _ _ _
    | .collection (.map _) _ _, .collection (.map _) _ _, _ => exact .map _ _ _ _ _ _
  · cases p <;> cases q <;> first | rfl | (revert h; decide)

/-- What is printed of an entry determines the step up to library names. -/
private theorem entry_inj (a b : CommitStep) :
    (TExpr.mk a.subject a.predicate a.attributes a.content).map Attr.shown =
      (TExpr.mk b.subject b.predicate b.attributes b.content).map Attr.shown ↔ a.anon = b.anon := by
  match a with
  | .serialized t | .hashed t | .merklized t | .concealed t =>
    match b with
    | .serialized u | .hashed u | .merklized u | .concealed u =>
      simp [CommitStep.subject, CommitStep.predicate, CommitStep.attributes, CommitStep.content,
        TExpr.map, CommitStep.anon, TypeFqn.anon, Attr.shown, Attr.name, Attr.value]
    | .collection .list s u | .collection .set s u | .collection (.map k) s u =>
      simp [CommitStep.subject, CommitStep.predicate, CommitStep.attributes, CommitStep.content,
        TExpr.map, CommitStep.anon, TypeFqn.anon, Attr.shown, Attr.name, Attr.value]
  | .collection .list r t | .collection .set r t | .collection (.map l) r t =>
    match b with
    | .serialized u | .hashed u | .merklized u | .concealed u =>
      simp [CommitStep.subject, CommitStep.predicate, CommitStep.attributes, CommitStep.content,
        TExpr.map, CommitStep.anon, TypeFqn.anon, Attr.shown, Attr.name, Attr.value]
    | .collection .list s u | .collection .set s u | .collection (.map k) s u =>
      simp [CommitStep.subject, CommitStep.predicate, CommitStep.attributes, CommitStep.content,
        TExpr.map, CommitStep.anon, TypeFqn.anon, Attr.shown, Attr.name, Attr.value]
      try grind

/-- **C54** What is printed of the description determines the layout up to library names, and nothing
more: types of the same name from different libraries are not told apart. -/
theorem C54_determines (l m : CommitLayout) :
    l.toVesper.map Attr.shown = m.toVesper.map Attr.shown ↔ l.anon = m.anon := by
  obtain ⟨i, t, f⟩ := l
  obtain ⟨j, u, g⟩ := m
  have key : ∀ f g : List CommitStep,
      f.map (fun s => (TExpr.mk s.subject s.predicate s.attributes s.content).map Attr.shown) =
        g.map (fun s => (TExpr.mk s.subject s.predicate s.attributes s.content).map Attr.shown) ↔
      f.map CommitStep.anon = g.map CommitStep.anon := by
    intro f
    induction f with
    | nil => intro g; cases g <;> simp
    | cons a f ih =>
      intro g
      cases g with
      | nil => simp
      | cons b g => simp only [List.map_cons, List.cons.injEq, ih, entry_inj]
  have := key f g
  simp only [CommitLayout.toVesper, CommitLayout.anon, TExpr.map, TExpr.mk.injEq, List.map_map,
    CommitLayout.mk.injEq, TypeFqn.anon, TypeFqn.mk.injEq, true_and, List.map_cons, List.map_nil,
    List.cons.injEq, Attr.shown, Attr.name, Attr.value, Prod.mk.injEq, AttrVal.tag.injEq, and_true]
  rw [← this]
  simp only [Function.comp_def, TExpr.map]

/-- **C54** The full layout is not determined by what is printed: two layouts that differ only in the
library of a field. -/
theorem C54_libraries : ∃ l m : CommitLayout, l ≠ m ∧
    l.toVesper.map Attr.shown = m.toVesper.map Attr.shown := by
  refine ⟨⟨⟨"A", "Id"⟩, "t", [.hashed ⟨"A", "X"⟩]⟩, ⟨⟨"A", "Id"⟩, "t", [.hashed ⟨"B", "X"⟩]⟩, by decide, ?_⟩
  rw [C54_determines]
  decide

/-- The words printed of an expression and of those nested in it. -/
def TExpr.words : TExpr Attr → String × String × List (String × AttrVal)
  | .mk s p a _ => (s, p.display, a.map Attr.shown)

/-- **C54** The words in which a layout is printed: the head names the hash function and the tag, fields
are called `serialized`, `hashed`, `merklized`, `concealed` (from a type), `list`, `set` and `map` (with
bounds of the length), and what is in collections `element`, `mapKey` and `mapValue`. -/
theorem C54_words (l : CommitLayout) :
    l.toVesper.words = (l.idty.name, "commitment", [("hasher", .ident "SHA256"), ("tagged", .tag l.tag)]) ∧
    ∀ (i : Nat) (field : CommitStep) (entry : VesperCommit), l.fields[i]? = some field →
      l.toVesper.content[i]? = some entry → (entry.words, entry.content.map TExpr.words) =
        match field with
        | .serialized t => ((t.name, "serialized", []), [])
        | .hashed t => ((t.name, "hashed", []), [])
        | .merklized t => ((t.name, "merklized", []), [])
        | .concealed t => ((t.name, "concealed", [("concealed", .ident t.name)]), [])
        | .collection .list s t => ((t.name, "list", [("len", .lenRange s)]), [(t.name, "element", [])])
        | .collection .set s t => ((t.name, "set", [("len", .lenRange s)]), [(t.name, "element", [])])
        | .collection (.map k) s t => ((t.name, "map", [("len", .lenRange s)]),
          [(k.name, "mapKey", []), (t.name, "mapValue", [])]) := by
  refine ⟨rfl, fun i field entry h1 h2 => ?_⟩
  simp only [CommitLayout.toVesper, TExpr.content, List.getElem?_map, h1, Option.map_some,
    Option.some.injEq] at h2
  subst h2
  match field with
  | .serialized t => rfl
  | .hashed t => rfl
  | .merklized t => rfl
  | .concealed t => rfl
  | .collection .list s t => rfl
  | .collection .set s t => rfl
  | .collection (.map k) s t => rfl

/-- The layouts of the multi-protocol tree types. -/
example : (CommitLayout.toVesper ⟨⟨"CommitVerify", "Commitment"⟩, "urn:ubideco:mpc:commitment#2024-01-31",
    [.concealed ⟨"CommitVerify", "MerkleConcealed"⟩]⟩).content.length = 1 := rfl

end CSV
