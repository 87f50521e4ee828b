import Verif.Spec.Calls
import Verif.Proofs.Binding

/-!
# Sequences of commit calls
-/

namespace CSV

/-- Debug assertions of a call. -/
def Call.check [Env] : Call → Exec Unit
  | .serialized se _ => do
    debugAssert dbg (se.typeName.getD "" != "MerkleHash" || se.libName != LIB_NAME_COMMIT_VERIFY)
    debugAssert dbg (se.typeName.getD "" != "StrictHash" || se.libName != LIB_NAME_COMMIT_VERIFY)
  | _ => .ok ()

/-- Limit on the number of bytes. -/
def Call.limit : Call → Nat
  | .hash _ _ _ => 32
  | .merkle _ _ _ => 32
  | _ => COMMIT_MAX_LEN

theorem commitmentFqn_eq {α : Type} (st : StrictType α) :
    @commitmentFqn α st = match st.fqn with
      | some f => .ok f
      | none => .error .expect := by
  simp only [commitmentFqn, StrictType.fqn]
  cases st.typeName <;> rfl

theorem run_eq [Env] (c : Call) (e : CommitEngine) :
    c.run e = match c.step with
      | none => .error .expect
      | some st => (do
        c.check
        let e ← e.pushStep st
        let bs ← c.bytes
        e.innerCommitTo c.limit bs) := by
  cases c with
  | serialized se v =>
    simp only [Call.run, CommitEngine.commitToSerialized, commitmentFqn_eq, Call.step, Call.check,
      StrictType.fqn, Call.bytes, Call.limit]
    cases se.typeName with
    | none => rfl
    | some n =>
      simp only [Option.map_some, ok_bind, Option.getD_some]
      cases debugAssert dbg (n != "MerkleHash" || se.libName != LIB_NAME_COMMIT_VERIFY) with
      | error x => rfl
      | ok => simp only [ok_bind]
  | option se v =>
    simp only [Call.run, CommitEngine.commitToOption, commitmentFqn_eq, Call.step, Call.check,
      StrictType.fqn, Call.bytes, Call.limit]
    cases se.typeName <;> rfl
  | hash st ce v =>
    simp only [Call.run, CommitEngine.commitToHash, commitmentFqn_eq, Call.step, Call.check,
      StrictType.fqn, Call.bytes, Call.limit]
    cases st.typeName with
    | none => rfl
    | some n =>
      simp only [Option.map_some, ok_bind]
      cases e.pushStep (.hashed ⟨st.libName, n⟩) with
      | error x => rfl
      | ok e => cases commitId v <;> rfl
  | merkle st ce l =>
    simp only [Call.run, CommitEngine.commitToMerkle, commitmentFqn_eq, Call.step, Call.check,
      StrictType.fqn, Call.bytes, Call.limit]
    cases st.typeName with
    | none => rfl
    | some n =>
      simp only [Option.map_some, ok_bind]
      cases e.pushStep (.merklized ⟨st.libName, n⟩) with
      | error x => rfl
      | ok e => cases merklize l <;> rfl
  | concealed st co se v =>
    simp only [Call.run, CommitEngine.commitToConcealed, commitmentFqn_eq, Call.step, Call.check,
      StrictType.fqn, Call.bytes, Call.limit]
    cases st.typeName with
    | none => rfl
    | some n =>
      simp only [Option.map_some, ok_bind]
      cases e.pushStep (.concealed ⟨st.libName, n⟩) with
      | error x => rfl
      | ok e => cases Conceal.conceal v <;> rfl
  | list se min max l =>
    simp only [Call.run, CommitEngine.commitToLinearList, commitmentFqn_eq, Call.step, Call.check,
      StrictType.fqn, Call.bytes, Call.limit]
    cases se.typeName <;> rfl
  | set se min max l =>
    simp only [Call.run, CommitEngine.commitToLinearSet, commitmentFqn_eq, Call.step, Call.check,
      StrictType.fqn, Call.bytes, Call.limit]
    cases se.typeName <;> rfl
  | map sk se min max l =>
    simp only [Call.run, CommitEngine.commitToLinearMap, commitmentFqn_eq, Call.step, Call.check,
      StrictType.fqn, Call.bytes, Call.limit]
    cases sk.typeName <;> cases se.typeName <;> rfl

theorem limit_hash [Env] (c : Call) {bs : Bytes} (h : c.bytes = .ok bs) (hl : bs.length < 2 ^ 64) :
    bs.length ≤ c.limit := by
  have hm : COMMIT_MAX_LEN = 2 ^ 64 - 1 := rfl
  cases c with
  | hash st ce v =>
    simp only [Call.bytes] at h
    cases hc : commitId v with
    | error x => rw [hc] at h; cases h
    | ok id =>
      rw [hc, ok_bind] at h
      cases h
      rw [id.len]
      exact Nat.le_refl _
  | merkle st ce l =>
    simp only [Call.bytes] at h
    cases hc : merklize l with
    | error x => rw [hc] at h; cases h
    | ok id =>
      rw [hc, ok_bind] at h
      cases h
      rw [id.len]
      exact Nat.le_refl _
  | _ => simp only [Call.limit]; omega

theorem allowed_check [Env] {c : Call} {st : CommitStep} (hs : c.step = some st)
    (h : dbg = true → c.Allowed) : c.check = .ok () := by
  cases c with
  | serialized se v =>
    simp only [Call.check]
    simp only [Call.step, StrictType.fqn] at hs
    cases hd : dbg with
    | false => rfl
    | true =>
      have h := h hd
      simp only [Call.Allowed, StrictType.fqn] at h
      cases ht : se.typeName with
      | none => rw [ht] at hs; cases hs
      | some n =>
        rw [ht] at h
        simp only [Option.map_some, ne_eq, Option.some.injEq, TypeFqn.mk.injEq, not_and] at h
        rw [debugAssert_ok, debugAssert_ok]
        · rfl
        · simp only [Option.getD_some, Bool.or_eq_true, bne_iff_ne]
          by_cases hl : n = "StrictHash"
          · exact .inr fun e => h.2 e hl
          · exact .inl hl
        · simp only [Option.getD_some, Bool.or_eq_true, bne_iff_ne]
          by_cases hl : n = "MerkleHash"
          · exact .inr fun e => h.1 e hl
          · exact .inl hl
  | _ => rfl

theorem check_allowed [Env] {c : Call} (hd : dbg = true) (h : c.check = .ok ())
    {st : CommitStep} (hs : c.step = some st) : c.Allowed := by
  cases c with
  | serialized se v =>
    simp only [Call.check, hd] at h
    simp only [Call.step, StrictType.fqn] at hs
    simp only [Call.Allowed, StrictType.fqn]
    cases ht : se.typeName with
    | none => rw [ht] at hs; cases hs
    | some n =>
      rw [ht] at h
      simp only [Option.getD_some, debugAssert, Bool.true_and] at h
      simp only [Option.map_some, ne_eq, Option.some.injEq, TypeFqn.mk.injEq, not_and]
      refine ⟨fun e1 e2 => ?_, fun e1 e2 => ?_⟩
      · rw [e1, e2, if_pos (by decide)] at h
        cases h
      · rw [e1, e2, if_neg (by decide), ok_bind, if_pos (by decide)] at h
        cases h
  | _ => trivial

/-- A call on an unfinished engine with room in its layout. -/
theorem run_ok [Env] {c : Call} {st : CommitStep} {bs : Bytes} {e : CommitEngine}
    (h : c.Does st bs) (ha : dbg = true → c.Allowed) (hf : dbg = true → e.finished = false)
    (hl : e.layout.length < 255) :
    c.run e = .ok ⟨e.finished, e.hasher ++ bs, e.layout ++ [st]⟩ := by
  obtain ⟨h1, h2, h3⟩ := h
  rw [run_eq, h1]
  simp only [allowed_check h1 ha, ok_bind, CommitEngine.pushStep, hl, if_true, h2]
  simp only [CommitEngine.innerCommitTo, limit_hash c h2 h3, if_true, Hasher.inputRaw]
  cases hd : dbg with
  | false => rfl
  | true => rw [debugAssert_ok (by rw [hf hd]; rfl)]; rfl

/-- What a successful call did. -/
theorem run_inv [Env] {c : Call} {e e' : CommitEngine} (h : c.run e = .ok e')
    (hs : ∀ bs, c.bytes = .ok bs → bs.length < 2 ^ 64) :
    ∃ st bs, c.Does st bs ∧ (dbg = true → c.Allowed) ∧ (dbg = true → e.finished = false) ∧
      e.layout.length < 255 ∧ e' = ⟨e.finished, e.hasher ++ bs, e.layout ++ [st]⟩ := by
  rw [run_eq] at h
  cases h1 : c.step with
  | none => rw [h1] at h; cases h
  | some st =>
    rw [h1] at h
    dsimp only at h
    cases h2 : c.check with
    | error x => rw [h2] at h; cases h
    | ok =>
      rw [h2, ok_bind, CommitEngine.pushStep] at h
      by_cases hl : e.layout.length < 255
      · rw [if_pos hl, ok_bind] at h
        cases h3 : c.bytes with
        | error x => rw [h3] at h; cases h
        | ok bs =>
          rw [h3, ok_bind, CommitEngine.innerCommitTo] at h
          have hf : dbg = true → e.finished = false := by
            intro hd
            rw [hd] at h
            cases hf : e.finished with
            | false => rfl
            | true => simp only [hf] at h; cases h
          refine ⟨st, bs, ⟨h1, h3, hs bs h3⟩, fun hd => check_allowed hd h2 h1, hf, hl, ?_⟩
          have : debugAssert dbg (!e.finished) = .ok () := by
            cases hd : dbg with
            | false => rfl
            | true => exact debugAssert_ok (by rw [hf hd]; rfl)
          simp only [this, ok_bind, limit_hash c h3 (hs bs h3), if_true, Hasher.inputRaw] at h
          cases h
          rfl
      · rw [if_neg hl] at h
        cases h

/-- The layout after a call. -/
theorem run_layout [Env] {c : Call} {e e' : CommitEngine} (h : c.run e = .ok e') :
    e'.layout.map some = e.layout.map some ++ [c.step] := by
  rw [run_eq] at h
  cases h1 : c.step with
  | none => rw [h1] at h; cases h
  | some st =>
    rw [h1] at h
    dsimp only at h
    obtain ⟨_, -, h⟩ := bind_ok_iff.1 h
    obtain ⟨e1, h2, h⟩ := bind_ok_iff.1 h
    obtain ⟨bs, -, h⟩ := bind_ok_iff.1 h
    have he : e1.layout = e.layout ++ [st] := by
      unfold CommitEngine.pushStep at h2
      split at h2
      · cases h2; rfl
      · cases h2
    have he' : e'.layout = e1.layout := by
      unfold CommitEngine.innerCommitTo at h
      obtain ⟨_, -, h⟩ := bind_ok_iff.1 h
      split at h
      · cases h; rfl
      · obtain ⟨_, -, h⟩ := bind_ok_iff.1 h
        cases h; rfl
    rw [he', he]
    simp

/-- Pairwise effects of calls. -/
inductive Did [Env] : List Call → List CommitStep → List Bytes → Prop
  | nil : Did [] [] []
  | cons {c : Call} {st : CommitStep} {bs : Bytes} {cs : List Call} {sts : List CommitStep}
      {bss : List Bytes} : c.Does st bs → Did cs sts bss → Did (c :: cs) (st :: sts) (bs :: bss)

theorem Did.length [Env] {cs : List Call} {sts : List CommitStep} {bss : List Bytes}
    (h : Did cs sts bss) : sts.length = cs.length ∧ bss.length = cs.length := by
  induction h with
  | nil => exact ⟨rfl, rfl⟩
  | cons _ _ ih => simp only [List.length_cons, ih.1, ih.2, and_self]

theorem runAll_ok [Env] {cs : List Call} {sts : List CommitStep} {bss : List Bytes}
    (h : Did cs sts bss) : ∀ {e : CommitEngine}, (dbg = true → ∀ c ∈ cs, c.Allowed) →
    (dbg = true → e.finished = false) → e.layout.length + cs.length ≤ 255 →
    e.runAll cs = .ok ⟨e.finished, e.hasher ++ bss.flatten, e.layout ++ sts⟩ := by
  induction h with
  | nil => intro e _ _ _; simp [CommitEngine.runAll]
  | @cons c st bs cs sts bss hd _ ih =>
    intro e ha hf hl
    simp only [List.length_cons] at hl
    rw [CommitEngine.runAll, run_ok hd (fun h => ha h _ (by simp)) hf (by omega), ok_bind]
    have hl' : (e.layout ++ [st]).length + cs.length ≤ 255 := by
      simp only [List.length_append, List.length_singleton]; omega
    rw [ih (fun h c hc => ha h c (by simp [hc])) (e := ⟨e.finished, e.hasher ++ bs, e.layout ++ [st]⟩)
      hf hl']
    simp

theorem runAll_inv [Env] : ∀ {cs : List Call} {e e' : CommitEngine}, e.runAll cs = .ok e' →
    (∀ c ∈ cs, ∀ bs, c.bytes = .ok bs → bs.length < 2 ^ 64) → e.layout.length ≤ 255 →
    ∃ sts bss, Did cs sts bss ∧ (dbg = true → ∀ c ∈ cs, c.Allowed) ∧
      (dbg = true → cs ≠ [] → e.finished = false) ∧ e.layout.length + cs.length ≤ 255 ∧
      e' = ⟨e.finished, e.hasher ++ bss.flatten, e.layout ++ sts⟩ := by
  intro cs
  induction cs with
  | nil =>
    intro e e' h _ hl
    cases h
    exact ⟨[], [], .nil, by simp, by simp, by simpa using hl, by simp⟩
  | cons c cs ih =>
    intro e e' h hs hl
    rw [CommitEngine.runAll] at h
    cases h1 : c.run e with
    | error x => rw [h1] at h; cases h
    | ok e1 =>
      rw [h1, ok_bind] at h
      obtain ⟨st, bs, g1, g2, g3, g4, rfl⟩ := run_inv h1 (hs c (by simp))
      obtain ⟨sts, bss, f1, f2, f3, f4, rfl⟩ := ih h (fun c hc => hs c (by simp [hc]))
        (by simp only [List.length_append, List.length_singleton]; omega)
      refine ⟨st :: sts, bs :: bss, .cons g1 f1, fun hd => List.forall_mem_cons.2 ⟨g2 hd, f2 hd⟩,
        fun hd _ => g3 hd, ?_, by simp⟩
      simp only [List.length_append, List.length_cons, List.length_nil] at f4 ⊢
      omega

theorem callsBytes_did [Env] {cs : List Call} {sts : List CommitStep} {bss : List Bytes}
    (h : Did cs sts bss) : callsBytes cs = .ok bss.flatten := by
  induction h with
  | nil => rfl
  | cons hd _ ih => rw [callsBytes, hd.2.1, ok_bind, ih]; rfl

/-! ## Encodings of collections -/

theorem lenPrefix_bound {max n : Nat} (hm : max < 2 ^ 64) (h : n ≤ max) : n < 256 ^ lenPrefix max := by
  unfold lenPrefix
  split
  · omega
  · split
    · omega
    · split
      · omega
      · split <;> omega

theorem flatMap_selfDelimiting {α : Type} {enc : α → Bytes} {P : α → Prop}
    (h : SelfDelimiting enc P) : ∀ {a b : List α} {r s : Bytes}, (∀ x ∈ a, P x) → (∀ x ∈ b, P x) →
    a.length = b.length → a.flatMap enc ++ r = b.flatMap enc ++ s → a = b ∧ r = s := by
  intro a
  induction a with
  | nil =>
    intro b r s _ _ hl he
    cases b with
    | nil => exact ⟨rfl, he⟩
    | cons => simp at hl
  | cons x a ih =>
    intro b r s ha hb hl he
    cases b with
    | nil => simp at hl
    | cons y b =>
      simp only [List.flatMap_cons, List.append_assoc] at he
      obtain ⟨rfl, he'⟩ := h _ _ _ _ (ha x (by simp)) (hb y (by simp)) he
      obtain ⟨rfl, rfl⟩ := ih (b := b) (fun z hz => ha z (by simp [hz])) (fun z hz => hb z (by simp [hz]))
        (by simpa using hl) he'
      exact ⟨rfl, rfl⟩

theorem encList_selfDelimiting {α : Type} {enc : α → Bytes} {P : α → Prop}
    (h : SelfDelimiting enc P) {max : Nat} (hm : max < 2 ^ 64) :
    SelfDelimiting (encList max enc) (fun l => l.length ≤ max ∧ ∀ x ∈ l, P x) := by
  intro a b r s ha hb he
  simp only [encList, List.append_assoc] at he
  obtain ⟨h1, h2⟩ := append_inj_len (by rw [leBytes_length, leBytes_length]) he
  have := leBytes_inj (lenPrefix_bound hm ha.1) (lenPrefix_bound hm hb.1) h1
  exact flatMap_selfDelimiting h ha.2 hb.2 this h2

theorem encOption_selfDelimiting {α : Type} {enc : α → Bytes} {P : α → Prop}
    (h : SelfDelimiting enc P) : SelfDelimiting (encOption enc) (fun o => ∀ x, o = some x → P x) := by
  intro a b r s ha hb he
  cases a with
  | none => cases b with
    | none => simpa [encOption] using he
    | some y => simp [encOption] at he
  | some x => cases b with
    | none => simp [encOption] at he
    | some y =>
      simp only [encOption, List.cons_append, List.cons.injEq, true_and] at he
      obtain ⟨rfl, rfl⟩ := h _ _ _ _ (ha x rfl) (hb y rfl) he
      exact ⟨rfl, rfl⟩

theorem pair_selfDelimiting {α β : Type} {enc : α → Bytes} {enc' : β → Bytes} {P : α → Prop}
    {Q : β → Prop} (h : SelfDelimiting enc P) (h' : SelfDelimiting enc' Q) :
    SelfDelimiting (fun x : α × β => enc x.1 ++ enc' x.2) (fun x => P x.1 ∧ Q x.2) := by
  intro a b r s ha hb he
  simp only [List.append_assoc] at he
  obtain ⟨e1, he⟩ := h _ _ _ _ ha.1 hb.1 he
  obtain ⟨e2, e3⟩ := h' _ _ _ _ ha.2 hb.2 he
  exact ⟨Prod.ext e1 e2, e3⟩

end CSV
