import Verif.Props.Engine
import Verif.Props.Proof
import Verif.Props.Wire

/-!
# C62: the published layout of a type is the layout of its values
-/

namespace CSV

private theorem runAll_layout [Env] : ∀ {cs : List Call} {e e' : CommitEngine}, e.runAll cs = .ok e' →
    e'.layout.map some = e.layout.map some ++ cs.map Call.step := by
  intro cs
  induction cs with
  | nil => intro e e' h; cases h; simp
  | cons c cs ih =>
    intro e e' h
    obtain ⟨e1, h1, h⟩ := bind_ok_iff.1 h
    rw [ih h, run_layout h1]
    simp

private theorem map_some_inj {α : Type} {l m : List α} (h : l.map some = m.map some) : l = m :=
  List.map_inj_right (fun _ _ => Option.some.inj) |>.1 h

/-- What `commitment_layout` publishes about a type is right for the value `x`: the layout of the
commitment to `x` is the published one, and the published name and tag are those of the id type. -/
def Describes [Env] {α : Type} (ce : CommitEncode α) (dumb x : α) : Prop :=
  ∀ L e, @commitmentLayout _ α ce dumb = .ok L → @commit _ α ce x = .ok e →
    e.layout = L.fields ∧ L.tag = ce.idType.tag ∧ L.idty.lib = ce.idType.lib ∧
    some L.idty.name = ce.idType.name

/-- **C62** If `commit_encode` makes the same kinds of calls for all values, the published layout is
right for every value, of whatever dumb value it was computed. -/
theorem C62_uniform [Env] {α : Type} (ce : CommitEncode α) (calls : α → List Call)
    (hc : ByCalls α calls) (hu : ∀ x y, (calls x).map Call.step = (calls y).map Call.step)
    (dumb x : α) : Describes ce dumb x := by
  intro L e hL he
  obtain ⟨e0, h0, hL⟩ := bind_ok_iff.1 hL
  obtain ⟨name, hn, hL⟩ := bind_ok_iff.1 hL
  cases hL
  have hlay : ∀ y e', @commit _ α ce y = .ok e' → e'.layout.map some = (calls y).map Call.step := by
    intro y e' h
    obtain ⟨e1, h1, h⟩ := bind_ok_iff.1 h
    cases h
    rw [hc] at h1
    simpa [CommitEngine.new] using runAll_layout h1
  refine ⟨map_some_inj ?_, rfl, rfl, ?_⟩
  · rw [hlay x e he, hlay dumb e0 h0]
    exact hu _ _
  · cases h : ce.idType.name with
    | none => rw [h] at hn; cases hn
    | some n => rw [h] at hn; cases hn; rfl

private theorem one_layout [Env] {α : Type} {ce : CommitEncode α} {s : Option CommitStep}
    (h : ∀ x e e', ce.commitEncode x e = .ok e' → ∃ c : Call, c.step = s ∧ c.run e = .ok e')
    {x : α} {e : CommitEngine} (he : @commit _ α ce x = .ok e) : e.layout.map some = [s] := by
  obtain ⟨e1, h1, he⟩ := bind_ok_iff.1 he
  cases he
  obtain ⟨c, hc, hr⟩ := h _ _ _ h1
  simpa [CommitEngine.new, hc] using run_layout hr

private theorem describes_one [Env] {α : Type} {ce : CommitEncode α} {s : Option CommitStep}
    (h : ∀ x e e', ce.commitEncode x e = .ok e' → ∃ c : Call, c.step = s ∧ c.run e = .ok e')
    (dumb x : α) : Describes ce dumb x := by
  intro L e hL he
  obtain ⟨e0, h0, hL⟩ := bind_ok_iff.1 hL
  obtain ⟨name, hn, hL⟩ := bind_ok_iff.1 hL
  cases hL
  refine ⟨map_some_inj ((one_layout h he).trans (one_layout h h0).symm), rfl, rfl, ?_⟩
  cases h : ce.idType.name with
  | none => rw [h] at hn; cases hn
  | some n => rw [h] at hn; cases hn; rfl

private theorem conceal_call [Env] {α β γ : Type} (co : Conceal α β) (st : StrictType β)
    (co' : Conceal β γ) (se : StrictEncode γ) (id : IdType) (x : α) (e e' : CommitEngine)
    (h : (@deriveConceal α β γ co st co' se id).commitEncode x e = .ok e') :
    ∃ c : Call, c.step = st.fqn.map .concealed ∧ c.run e = .ok e' := by
  have h : (co.conceal x).bind (fun c => @CommitEngine.commitToConcealed _ β γ st co' se e c) = .ok e' := h
  cases hc : co.conceal x with
  | error _ => rw [hc] at h; cases h
  | ok c => rw [hc] at h; exact ⟨.concealed st co' se c, rfl, h⟩

/-- **C62** For each derive strategy, whatever the types, the published layout is right for every
value. -/
theorem C62_derived [Env] (id : IdType) :
    (∀ {α : Type} [StrictEncode α] (dumb x : α), Describes (deriveStrict α id) dumb x) ∧
    (∀ {α β : Type} [StrictEncode β] (inner : α → β) (dumb x : α),
      Describes (deriveTransparent inner id) dumb x) ∧
    (∀ {α β : Type} [StrictType β] [CommitEncode β] (leaves : α → List β) (dumb x : α),
      Describes (deriveMerklize leaves id) dumb x) ∧
    (∀ {α β γ : Type} [Conceal α β] [StrictType β] [Conceal β γ]
      [StrictEncode γ] (dumb x : α), Describes (deriveConceal α id) dumb x) :=
  ⟨describes_one fun x _ _ h => ⟨.serialized _ x, rfl, h⟩,
   fun inner => describes_one fun x _ _ h => ⟨.serialized _ (inner x), rfl, h⟩,
   fun leaves => describes_one fun x _ _ h => ⟨.merkle _ _ (leaves x), rfl, h⟩,
   describes_one (conceal_call _ _ _ _ id)⟩

/-- **C62** The layouts published for derived strategies: one entry, naming the serialized type, the
wrapped type, the leaf type or the concealed type. -/
theorem C62_fields [Env] (id : IdType) :
    (∀ {α : Type} [se : StrictEncode α] (dumb : α) L, @commitmentLayout _ α (deriveStrict α id) dumb = .ok L →
      L.fields.map some = [se.toStrictType.fqn.map .serialized]) ∧
    (∀ {α β : Type} [se : StrictEncode β] (inner : α → β) (dumb : α) L,
      @commitmentLayout _ α (deriveTransparent inner id) dumb = .ok L →
      L.fields.map some = [se.toStrictType.fqn.map .serialized]) ∧
    (∀ {α β : Type} [st : StrictType β] [CommitEncode β] (leaves : α → List β) (dumb : α) L,
      @commitmentLayout _ α (deriveMerklize leaves id) dumb = .ok L →
      L.fields.map some = [st.fqn.map .merklized]) ∧
    (∀ {α β γ : Type} [Conceal α β] [st : StrictType β] [Conceal β γ]
      [StrictEncode γ] (dumb : α) L, @commitmentLayout _ α (deriveConceal α id) dumb = .ok L →
      L.fields.map some = [st.fqn.map .concealed]) := by
  have key : ∀ {α : Type} {ce : CommitEncode α} {s : Option CommitStep} {dumb : α} {L : CommitLayout},
      (∀ x e e', ce.commitEncode x e = .ok e' → ∃ c : Call, c.step = s ∧ c.run e = .ok e') →
      @commitmentLayout _ α ce dumb = .ok L → L.fields.map some = [s] := by
    intro α ce s dumb L h hL
    obtain ⟨e0, h0, hL⟩ := bind_ok_iff.1 hL
    obtain ⟨name, hn, hL⟩ := bind_ok_iff.1 hL
    cases hL
    exact one_layout h h0
  exact ⟨fun _ _ hL => key (fun x _ _ h => ⟨.serialized _ x, rfl, h⟩) hL,
   fun inner _ _ hL => key (fun x _ _ h => ⟨.serialized _ (inner x), rfl, h⟩) hL,
   fun leaves _ _ hL => key (fun x _ _ h => ⟨.merkle _ _ (leaves x), rfl, h⟩) hL,
   fun _ _ hL => key (conceal_call _ _ _ _ id) hL⟩

private theorem published [Env] {α : Type} {ce : CommitEncode α} {s : CommitStep} {n : String}
    (h : ∀ x e e', ce.commitEncode x e = .ok e' → ∃ c : Call, c.step = some s ∧ c.run e = .ok e')
    (hn : ce.idType.name = some n) {x : α} {r : Bytes32} (hx : @commitId _ α ce x = .ok r) :
    @commitmentLayout _ α ce x = .ok ⟨⟨ce.idType.lib, n⟩, ce.idType.tag, [s]⟩ := by
  obtain ⟨e, he, -⟩ := bind_ok_iff.1 hx
  have hl : e.layout = [s] := map_some_inj (one_layout h he)
  unfold commitmentLayout
  rw [he, ok_bind, hn]
  show Except.ok _ = _
  rw [hl]

/-- **C62** What is published for a type: the name and library of its id type, the tag with which its values are
hashed, and the fields of the dumb value. Nothing is published, but the program panics, exactly if the id type has no name or the dumb
value cannot be committed to. -/
theorem C62_published [Env] {α : Type} (ce : CommitEncode α) (dumb : α) (L : CommitLayout) :
    (@commitmentLayout _ α ce dumb = .ok L ↔ ∃ n e, ce.idType.name = some n ∧ @commit _ α ce dumb = .ok e ∧
      L = ⟨⟨ce.idType.lib, n⟩, ce.idType.tag, e.layout⟩) ∧
    ((∃ x, @commitmentLayout _ α ce dumb = .error x) ↔ ce.idType.name = none ∨ ∃ x, @commit _ α ce dumb = .error x) ∧
    (∀ e, @commit _ α ce dumb = .ok e → ce.idType.name = none → @commitmentLayout _ α ce dumb = .error .expect) := by
  unfold commitmentLayout
  cases hc : @commit _ α ce dumb with
  | error x => simp [bind, Except.bind]
  | ok e =>
    cases hn : ce.idType.name with
    | none => simp [expect, bind, Except.bind]
    | some n =>
      simp only [expect, bind, Except.bind]
      refine ⟨⟨fun h => ⟨n, e, rfl, rfl, ?_⟩, ?_⟩, ?_, ?_⟩
      · cases h; rfl
      · rintro ⟨n', e', h1, h2, rfl⟩
        cases h1; cases h2; rfl
      · simp
      · simp

/-- Non-vacuity: a type with a named and with an anonymous id. -/
example : @commitmentLayout (realEnv true) _ (deriveStrict Leaf ⟨"Lib", some "Id", "tag"⟩) (.entropy 1 2) =
      .ok ⟨⟨"Lib", "Id"⟩, "tag", [.serialized ⟨"CommitVerify", "Leaf"⟩]⟩ ∧
    @commitmentLayout (realEnv true) _ (deriveStrict Leaf ⟨"Lib", none, "tag"⟩) (.entropy 1 2) = .error .expect := by
  constructor <;> rfl

/-- **C62** The types of this library: layouts computed from any tree, concealed tree, merkle node or
leaf, and from any block that has a commitment. -/
theorem C62_library [Env] :
    (∀ T : MerkleTree, commitmentLayout T = .ok ⟨⟨"CommitVerify", "Commitment"⟩,
      "urn:ubideco:mpc:commitment#2024-01-31", [.concealed ⟨"CommitVerify", "MerkleConcealed"⟩]⟩) ∧
    (∀ (b : MerkleBlock) (c : Commitment), b.commitId = .ok c →
      commitmentLayout b = .ok ⟨⟨"CommitVerify", "Commitment"⟩,
      "urn:ubideco:mpc:commitment#2024-01-31", [.concealed ⟨"CommitVerify", "MerkleConcealed"⟩]⟩) ∧
    (∀ c : MerkleConcealed, commitmentLayout c = .ok ⟨⟨"CommitVerify", "Commitment"⟩,
      "urn:ubideco:mpc:commitment#2024-01-31", [.serialized ⟨"CommitVerify", "MerkleConcealed"⟩]⟩) ∧
    (∀ n : MerkleNode, commitmentLayout n = .ok ⟨⟨"CommitVerify", "MerkleHash"⟩,
      "urn:ubideco:merkle:node#2024-01-31", [.serialized ⟨"CommitVerify", "MerkleNode"⟩]⟩) ∧
    (∀ l : Leaf, commitmentLayout l = .ok ⟨⟨"CommitVerify", "MerkleHash"⟩,
      "urn:ubideco:merkle:node#2024-01-31", [.serialized ⟨"CommitVerify", "Leaf"⟩]⟩) := by
  refine ⟨fun T => ?_, fun b c h => ?_, fun c => ?_, fun n => ?_, fun l => ?_⟩
  · exact published (conceal_call (inferInstance : Conceal MerkleTree MerkleConcealed) inferInstance
      inferInstance inferInstance mpcCommitmentId) rfl (tree_commitId T)
  · exact published (conceal_call (inferInstance : Conceal MerkleBlock MerkleConcealed) inferInstance
      inferInstance inferInstance mpcCommitmentId) rfl h
  · exact published (ce := inferInstance) (fun x _ _ h => ⟨.serialized inferInstance x, rfl, h⟩) rfl
      (commitId_concealed c)
  · exact published (ce := inferInstance) (fun x _ _ h => ⟨.serialized inferInstance x, rfl, h⟩) rfl
      (commitId_merkleNode n)
  · exact published (ce := inferInstance) (fun x _ _ h => ⟨.serialized inferInstance x, rfl, h⟩) rfl
      (commitId_leaf l)

/-- The dumb block, from which the layout of blocks is computed, has a commitment. -/
example [Env] : ∃ c, MerkleBlock.strictDumb.commitId = .ok c := ⟨_, C58_dumb_block⟩

/-- A hand-written encoding that commits to a leaf or to nothing, depending on the value. -/
@[instance_reducible]
def branching : CommitEncode (Option Leaf) where
  idType := strictHashId
  commitEncode x e := match x with
    | none => .ok e
    | some l => e.commitToSerialized l

/-- **C62** Nothing makes a hand-written encoding follow the layout published for it: one that branches
on the value has an empty published layout and a value with another one. -/
theorem C62_handwritten [Env] : ∃ L e, @commitmentLayout _ _ branching none = .ok L ∧
    @commit _ _ branching (some (.entropy 0 0)) = .ok e ∧ L.fields = [] ∧ e.layout ≠ L.fields := by
  have h := run_ok (c := .serialized (inferInstance : StrictEncode Leaf) (.entropy 0 0))
    (e := CommitEngine.new strictHashId.tag) ⟨rfl, rfl, by decide⟩
    (fun _ => by constructor <;> decide) (fun _ => rfl) (by simp [CommitEngine.new])
  have h' : @commit _ _ branching (some (.entropy 0 0)) = .ok ⟨true,
      (CommitEngine.new strictHashId.tag).hasher ++ Leaf.enc (.entropy 0 0),
      [.serialized ⟨"CommitVerify", "Leaf"⟩]⟩ := by
    show ((Call.serialized (inferInstance : StrictEncode Leaf) (.entropy 0 0)).run (CommitEngine.new strictHashId.tag)).bind _ = _
    rw [h]
    rfl
  exact ⟨⟨⟨"CommitVerify", "StrictHash"⟩, strictHashId.tag, []⟩, _, rfl, h', rfl, by simp⟩

end CSV
