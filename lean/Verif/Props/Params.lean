import Verif.Model.Params
import Verif.Props.Engine

/-!
# C77: attributes of the derive macro
-/

namespace CSV

private theorem argValue_iff {args : List (String × String)} (hd : (args.map Prod.fst).Nodup)
    (name value : String) : argValue args name = some value ↔ (name, value) ∈ args := by
  induction args with
  | nil => simp [argValue]
  | cons a args ih =>
    simp only [List.map_cons, List.nodup_cons] at hd
    by_cases h : a.1 = name
    · have hne : (name, value) ∉ args := fun hm => hd.1 (h ▸ List.mem_map_of_mem (f := Prod.fst) hm)
      simp only [argValue, List.find?_cons, h, decide_true, Option.map_some, Option.some.injEq,
        List.mem_cons, hne, or_false]
      constructor
      · rintro rfl; rw [← h]
      · intro e; rw [← e]
    · have : argValue (a :: args) name = argValue args name := by simp [argValue, h]
      rw [this, ih hd.2, List.mem_cons]
      constructor
      · exact .inr
      · rintro (e | e)
        · exact absurd (by rw [← e]) h
        · exact e

private theorem argValue_none {args : List (String × String)} {name : String} :
    argValue args name = none ↔ name ∉ args.map Prod.fst := by
  simp only [argValue, Option.map_eq_none_iff, List.find?_eq_none, List.mem_map, decide_eq_true_eq,
    not_exists, not_and]

private theorem crate_iff {args : List (String × String)} (hd : (args.map Prod.fst).Nodup)
    {crates : List String} : (argValue args "crate").getD "commit_verify" ∈ crates ↔
      (∃ c, ("crate", c) ∈ args ∧ c ∈ crates) ∨
        "crate" ∉ args.map Prod.fst ∧ "commit_verify" ∈ crates := by
  simp only [← argValue_iff hd, ← argValue_none]
  cases argValue args "crate" <;> simp

private theorem derive_some {α : Type} {t : Traits α} {crates : List String}
    {ids : String → Option IdType} {args : List (String × String)}
    (hd : (args.map Prod.fst).Nodup) {ce : CommitEncode α} :
    deriveCommitEncode t crates ids args = some ce ↔
      ((∃ c, ("crate", c) ∈ args ∧ c ∈ crates) ∨
        "crate" ∉ args.map Prod.fst ∧ "commit_verify" ∈ crates) ∧
      ∃ i s id st, ("id", i) ∈ args ∧ ("strategy", s) ∈ args ∧
      ids i = some id ∧ StrategyAttr.tryFrom s = .ok st ∧ st.deriveEncode t id = some ce := by
  rw [← crate_iff hd]
  simp only [← argValue_iff hd, deriveCommitEncode, ContainerAttr.tryFrom]
  cases h1 : argValue args "id" with
  | none => simp
  | some i =>
    cases h2 : argValue args "strategy" with
    | none => simp
    | some s =>
      simp only
      cases h3 : StrategyAttr.tryFrom s with
      | error e => simp [h3]
      | ok st =>
        by_cases h5 : (argValue args "crate").getD "commit_verify" ∈ crates
        · simp only [h5, if_true]
          cases h4 : ids i with
          | none => simp [h4]
          | some id => simp [h3, h4]
        · simp [h5]

private theorem tryFrom_iff (s : String) (st : StrategyAttr) : StrategyAttr.tryFrom s = .ok st ↔
    (s = "strict" ∧ st = .strict) ∨ (s = "conceal" ∧ st = .concealStrict) ∨
    (s = "transparent" ∧ st = .transparent) ∨ (s = "merklize" ∧ st = .merklize) := by
  simp only [StrategyAttr.tryFrom]
  by_cases h1 : s = "strict"
  · subst h1; simp [eq_comm]
  · by_cases h2 : s = "conceal"
    · subst h2; simp [eq_comm]
    · by_cases h3 : s = "transparent"
      · subst h3; simp [eq_comm]
      · by_cases h4 : s = "merklize"
        · subst h4; simp [eq_comm]
        · simp [h1, h2, h3, h4]

/-- **C77** Deriving compiles exactly if a commitment id type in scope and one of the four strategies
are named, the crate is in scope at the path named, by default at `commit_verify`, and the type has
the traits of that strategy; id and strategy have no defaults. -/
theorem C77_compiles {α : Type} (t : Traits α) (crates : List String) (ids : String → Option IdType)
    (args : List (String × String)) (hd : (args.map Prod.fst).Nodup) :
    deriveCommitEncode t crates ids args ≠ none ↔
      ((∃ c, ("crate", c) ∈ args ∧ c ∈ crates) ∨
        "crate" ∉ args.map Prod.fst ∧ "commit_verify" ∈ crates) ∧
      (∃ i, ("id", i) ∈ args ∧ ids i ≠ none) ∧
      (("strategy", "strict") ∈ args ∧ t.strictEncode ≠ none ∨
       ("strategy", "conceal") ∈ args ∧ t.conceal ≠ none ∨
       ("strategy", "transparent") ∈ args ∧ t.wrapper ≠ none ∨
       ("strategy", "merklize") ∈ args ∧ t.merkleLeaves ≠ none) := by
  rw [Option.ne_none_iff_exists']
  simp only [derive_some hd, tryFrom_iff]
  constructor
  · rintro ⟨ce, hcr, i, s, id, st, hi, hs, hid, h, hce⟩
    refine ⟨hcr, ⟨i, hi, by rw [hid]; simp⟩, ?_⟩
    rcases h with ⟨rfl, rfl⟩ | ⟨rfl, rfl⟩ | ⟨rfl, rfl⟩ | ⟨rfl, rfl⟩
    · exact .inl ⟨hs, fun h => by simp [StrategyAttr.deriveEncode, h] at hce⟩
    · exact .inr (.inl ⟨hs, fun h => by simp [StrategyAttr.deriveEncode, h] at hce⟩)
    · exact .inr (.inr (.inl ⟨hs, fun h => by simp [StrategyAttr.deriveEncode, h] at hce⟩))
    · exact .inr (.inr (.inr ⟨hs, fun h => by simp [StrategyAttr.deriveEncode, h] at hce⟩))
  · rintro ⟨hcr, ⟨i, hi, hid⟩, h⟩
    obtain ⟨id, hid⟩ := Option.ne_none_iff_exists'.1 hid
    rcases h with ⟨hs, h⟩ | ⟨hs, h⟩ | ⟨hs, h⟩ | ⟨hs, h⟩ <;>
      obtain ⟨c, hc⟩ := Option.ne_none_iff_exists'.1 h
    · exact ⟨_, hcr, i, _, id, .strict, hi, hs, hid, by simp, by rw [StrategyAttr.deriveEncode, hc]; rfl⟩
    · exact ⟨_, hcr, i, _, id, .concealStrict, hi, hs, hid, by simp, by rw [StrategyAttr.deriveEncode, hc]; rfl⟩
    · exact ⟨_, hcr, i, _, id, .transparent, hi, hs, hid, by simp, by rw [StrategyAttr.deriveEncode, hc]; rfl⟩
    · exact ⟨_, hcr, i, _, id, .merklize, hi, hs, hid, by simp, by rw [StrategyAttr.deriveEncode, hc]; rfl⟩

/-- **C77** A strategy of another name is refused, and the message says which name and which names are
allowed; without an id or a strategy nothing is derived either. -/
theorem C77_refused (args : List (String × String)) (hd : (args.map Prod.fst).Nodup) :
    (∀ i s, ("id", i) ∈ args → ("strategy", s) ∈ args →
      s ∉ ["strict", "conceal", "transparent", "merklize"] →
      ContainerAttr.tryFrom args = .error
        (s!"invalid commitment encoding value for `strategy` attribute `{s}`; only `transparent`, " ++
          "`strict`, `conceal`, or `merklize`  are allowed")) ∧
    (("id" ∉ args.map Prod.fst ∨ "strategy" ∉ args.map Prod.fst) → ∃ e,
      ContainerAttr.tryFrom args = .error e) := by
  constructor
  · intro i s hi hs h
    rw [← argValue_iff hd] at hi hs
    simp only [List.mem_cons, List.not_mem_nil, or_false, not_or] at h
    obtain ⟨h1, h2, h3, h4⟩ := h
    simp only [ContainerAttr.tryFrom, hi, hs, StrategyAttr.tryFrom, h1, h2, h3, h4, if_false]
    congr 1
    apply String.toList_injective
    simp [toString]
  · intro h
    simp only [← argValue_none] at h
    simp only [ContainerAttr.tryFrom]
    rcases h with h | h <;> rw [h]
    · exact ⟨_, rfl⟩
    · cases argValue args "id" <;> exact ⟨_, rfl⟩

/-- A misspelt strategy. -/
example : ContainerAttr.tryFrom [("id", "MyId"), ("strategy", "hash")] = .error
    ("invalid commitment encoding value for `strategy` attribute `hash`; only `transparent`, " ++
      "`strict`, `conceal`, or `merklize`  are allowed") := by
  rw [(C77_refused [("id", "MyId"), ("strategy", "hash")] (by decide)).1 "MyId" "hash" (by simp) (by simp)
    (by decide)]
  rfl

/-- **C77** What the derived implementation commits to, under the tag of the id type named: with
`strict` the serialization, with `transparent` that of the inner value, with `conceal` that of the
concealed form of the concealed form, with `merklize` the root over the leaves. -/
theorem C77_commits [Env] {α : Type} (t : Traits α) (crates : List String)
    (ids : String → Option IdType)
    (args : List (String × String)) (hd : (args.map Prod.fst).Nodup) (i : String) (id : IdType)
    (hi : ("id", i) ∈ args) (hid : ids i = some id) (ce : CommitEncode α)
    (h : deriveCommitEncode t crates ids args = some ce) (x : α) :
    (∀ se, ("strategy", "strict") ∈ args → t.strictEncode = some se →
      se.toStrictType.fqn ≠ none → (Call.serialized se x).Allowed → (se.enc x).length < 2 ^ 64 →
      commitId x = .ok (taggedSha id.tag (se.enc x))) ∧
    (∀ (β : Type) (inner : α → β) se, ("strategy", "transparent") ∈ args →
      t.wrapper = some ⟨β, inner, se⟩ → se.toStrictType.fqn ≠ none →
      (Call.serialized se (inner x)).Allowed → (se.enc (inner x)).length < 2 ^ 64 →
      commitId x = .ok (taggedSha id.tag (se.enc (inner x)))) ∧
    (∀ (β γ : Type) co st co' se c c', ("strategy", "conceal") ∈ args →
      t.conceal = some ⟨β, γ, co, st, co', se⟩ → st.fqn ≠ none → co.conceal x = .ok c →
      co'.conceal c = .ok c' → (se.enc c').length < 2 ^ 64 →
      commitId x = .ok (taggedSha id.tag (se.enc c'))) ∧
    (∀ (β : Type) (leaves : α → List β) st leafCe root, ("strategy", "merklize") ∈ args →
      t.merkleLeaves = some ⟨β, leaves, st, leafCe⟩ → st.fqn ≠ none →
      @merklize _ β leafCe (leaves x) = .ok root →
      commitId x = .ok (taggedSha id.tag root.bytes)) := by
  obtain ⟨_, i', s, id', st, hi', hs, hid', hst, hce⟩ := (derive_some hd).1 h
  have uniq : ∀ {n a b : String}, (n, a) ∈ args → (n, b) ∈ args → a = b := fun ha hb =>
    Option.some.inj (((argValue_iff hd _ _).2 ha).symm.trans ((argValue_iff hd _ _).2 hb))
  obtain rfl := uniq hi hi'
  rw [hid] at hid'
  cases hid'
  rw [tryFrom_iff] at hst
  refine ⟨fun se hm hse hf ha hl => ?_, fun β inner se hm hw hf ha hl => ?_,
    fun β γ co st co' se c c' hm hco hf hc hc' hl => ?_, fun β leaves st leafCe root hm hml hf hr => ?_⟩ <;>
    obtain rfl := uniq hm hs <;> simp at hst <;> subst hst
  · rw [StrategyAttr.deriveEncode, hse] at hce
    cases hce
    exact C42_strict se id x hf ha hl
  · rw [StrategyAttr.deriveEncode, hw] at hce
    cases hce
    exact C42_transparent se inner id x hf ha hl
  · rw [StrategyAttr.deriveEncode, hco] at hce
    cases hce
    exact C42_conceal co st co' se id x c c' hf hc hc' hl
  · rw [StrategyAttr.deriveEncode, hml] at hce
    cases hce
    exact C42_merklize st leafCe leaves id x hf root hr

/-- The attribute `#[commit_encode(crate = crate, strategy = .., id = ..)]`. -/
def libraryArgs (strategy id : String) : List (String × String) :=
  [("crate", "crate"), ("strategy", strategy), ("id", id)]

/-- The id types of the library. -/
def libraryIds (s : String) : Option IdType :=
  if s = "Commitment" then some mpcCommitmentId else if s = "MerkleHash" then some merkleHashId
  else if s = "StrictHash" then some strictHashId else none

/-- **C77** The types of the library, with the attributes at `/repo/commit_verify/src/merkle.rs:57`,
`/repo/commit_verify/src/mpc/atoms.rs:92`, `/repo/commit_verify/src/mpc/block.rs:132, 157` and
`/repo/commit_verify/src/mpc/tree.rs:46`: whatever other traits they have, deriving gives the
implementations used in all other theorems. -/
theorem C77_library (tn : Traits MerkleNode) (tl : Traits Leaf) (tc : Traits MerkleConcealed)
    (tb : Traits MerkleBlock) (tt : Traits MerkleTree)
    (hn : tn.strictEncode = some (inferInstance : StrictEncode MerkleNode))
    (hl : tl.strictEncode = some (inferInstance : StrictEncode Leaf))
    (hc : tc.strictEncode = some (inferInstance : StrictEncode MerkleConcealed))
    (hb : tb.conceal = some ⟨MerkleConcealed, MerkleConcealed, inferInstance, inferInstance,
      inferInstance, inferInstance⟩)
    (ht : tt.conceal = some ⟨MerkleConcealed, MerkleConcealed, inferInstance, inferInstance,
      inferInstance, inferInstance⟩) :
    deriveCommitEncode tn ["crate"] libraryIds (libraryArgs "strict" "MerkleHash") =
      some (inferInstance : CommitEncode MerkleNode) ∧
    deriveCommitEncode tl ["crate"] libraryIds (libraryArgs "strict" "MerkleHash") =
      some (inferInstance : CommitEncode Leaf) ∧
    deriveCommitEncode tc ["crate"] libraryIds (libraryArgs "strict" "Commitment") =
      some (inferInstance : CommitEncode MerkleConcealed) ∧
    deriveCommitEncode tb ["crate"] libraryIds (libraryArgs "conceal" "Commitment") =
      some (inferInstance : CommitEncode MerkleBlock) ∧
    deriveCommitEncode tt ["crate"] libraryIds (libraryArgs "conceal" "Commitment") =
      some (inferInstance : CommitEncode MerkleTree) := by
  have e1 : ∀ {α : Type} (t : Traits α) (s i : String) (st : StrategyAttr) (id : IdType),
      StrategyAttr.tryFrom s = .ok st → libraryIds i = some id →
      deriveCommitEncode t ["crate"] libraryIds (libraryArgs s i) = st.deriveEncode t id := by
    intro α t s i st id h1 h2
    simp [deriveCommitEncode, ContainerAttr.tryFrom, argValue, libraryArgs, h1, h2]
  refine ⟨?_, ?_, ?_, ?_, ?_⟩
  · rw [e1 tn _ _ .strict merkleHashId rfl rfl, StrategyAttr.deriveEncode, hn]; rfl
  · rw [e1 tl _ _ .strict merkleHashId rfl rfl, StrategyAttr.deriveEncode, hl]; rfl
  · rw [e1 tc _ _ .strict mpcCommitmentId rfl rfl, StrategyAttr.deriveEncode, hc]; rfl
  · rw [e1 tb _ _ .concealStrict mpcCommitmentId rfl rfl, StrategyAttr.deriveEncode, hb]; rfl
  · rw [e1 tt _ _ .concealStrict mpcCommitmentId rfl rfl, StrategyAttr.deriveEncode, ht]; rfl

private def treeTraits : Traits MerkleTree :=
  ⟨none, some ⟨MerkleConcealed, MerkleConcealed, inferInstance, inferInstance, inferInstance, inferInstance⟩,
    none, none⟩

example : ((libraryArgs "conceal" "Commitment").map Prod.fst).Nodup ∧
    (deriveCommitEncode treeTraits ["crate"] libraryIds (libraryArgs "conceal" "Commitment")).isSome = true ∧
    deriveCommitEncode treeTraits ["crate"] libraryIds [("id", "Commitment")] = none ∧
    deriveCommitEncode treeTraits ["crate"] libraryIds (libraryArgs "concealed" "Commitment") = none ∧
    deriveCommitEncode treeTraits ["crate"] libraryIds (libraryArgs "merklize" "Commitment") = none ∧
    deriveCommitEncode treeTraits ["commit_verify"] libraryIds (libraryArgs "conceal" "Commitment") = none ∧
    (deriveCommitEncode treeTraits ["commit_verify"] libraryIds
      [("strategy", "conceal"), ("id", "Commitment")]).isSome = true :=
  ⟨by decide, rfl, rfl, rfl, rfl, rfl, rfl⟩

end CSV
