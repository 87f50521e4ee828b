import Verif.Spec.Commit
import Verif.Proofs.BMap
import Verif.Proofs.Path

/-!
# `try_commit`
-/

namespace CSV

theorem protocolIdPos_eq (p : ProtocolId) (c : UInt16) (d : U5) :
    (protocolIdPos p c d).toNat = slotOf p c.toNat d.val := (protocolIdPos_lt p c d).1

theorem protocolIdPos_eq_iff (p q : ProtocolId) (c : UInt16) (d : U5) :
    protocolIdPos p c d = protocolIdPos q c d ↔ slotOf p c.toNat d.val = slotOf q c.toNat d.val := by
  rw [← protocolIdPos_eq, ← protocolIdPos_eq, UInt32.toNat_inj]

theorem slotOf_lt (p : ProtocolId) (c d : Nat) : slotOf p c d < 2 ^ d := by
  have hp := Nat.two_pow_pos d
  have := Nat.mod_lt p.toNat (show max (2 ^ d - c) 1 > 0 by omega)
  simp only [slotOf]
  omega

theorem bmapInsert_length {κ α : Type} [OrdKey κ] {k : κ} {v : α} : ∀ {m : List (κ × α)},
    bmapGet k m = none → (bmapInsert k v m).length = m.length + 1 := by
  intro m
  induction m with
  | nil => intro _; rfl
  | cons a m ih =>
    intro h
    obtain ⟨k', v'⟩ := a
    simp only [bmapGet] at h
    split at h
    · cases h
    · rename_i hne
      simp only [bmapInsert, if_neg hne]
      split
      · rfl
      · simp [ih h]

theorem tryFit_some {c : UInt16} {d : U5} : ∀ {msgs : List (ProtocolId × Message)}
    {map map' : List (UInt32 × (ProtocolId × Message))}, BMapOk map →
    tryFit c d msgs map = some map' →
    Separates (msgs.map Prod.fst) d.val c.toNat ∧
    (∀ e ∈ msgs, bmapGet (protocolIdPos e.1 c d) map = none) ∧
    BMapOk map' ∧ map'.length = map.length + msgs.length ∧
    ∀ k v, bmapGet k map' = some v ↔
      bmapGet k map = some v ∨ (v ∈ msgs ∧ k = protocolIdPos v.1 c d) := by
  intro msgs
  induction msgs with
  | nil =>
    intro map map' hm h
    simp only [tryFit, Option.some.injEq] at h
    subst h
    simp [Separates, hm]
  | cons e msgs ih =>
    obtain ⟨p, m⟩ := e
    intro map map' hm h
    simp only [tryFit] at h
    split at h
    · rename_i hn
      rw [Option.isNone_iff_eq_none] at hn
      obtain ⟨h1, h2, h3, h4, h5⟩ := ih (bmapInsert_sorted hm) h
      have hne : ∀ e ∈ msgs, protocolIdPos e.1 c d ≠ protocolIdPos p c d := by
        intro e he heq
        have := h2 e he
        rw [heq, bmapGet_insert_self] at this
        cases this
      refine ⟨?_, ?_, h3, ?_, ?_⟩
      · simp only [Separates, List.map_cons, List.pairwise_cons, List.mem_map] at h1 ⊢
        refine ⟨?_, h1⟩
        rintro q ⟨e, he, rfl⟩ heq
        exact hne e he ((protocolIdPos_eq_iff _ _ _ _).mpr heq.symm)
      · intro e he
        rcases List.mem_cons.mp he with rfl | he
        · exact hn
        · have := h2 e he
          rwa [bmapGet_insert_ne (hne e he)] at this
      · rw [h4, bmapInsert_length hn, List.length_cons]
        omega
      · intro k v
        rw [h5, List.mem_cons]
        by_cases hk : k = protocolIdPos p c d
        · subst hk
          rw [bmapGet_insert_self, hn]
          constructor
          · rintro (h | ⟨h6, h7⟩)
            · cases h; exact Or.inr ⟨Or.inl rfl, rfl⟩
            · exact Or.inr ⟨Or.inr h6, h7⟩
          · rintro (h | ⟨rfl | h6, h7⟩)
            · cases h
            · exact Or.inl rfl
            · exact Or.inr ⟨h6, h7⟩
        · rw [bmapGet_insert_ne hk]
          constructor
          · rintro (h | ⟨h6, h7⟩)
            · exact Or.inl h
            · exact Or.inr ⟨Or.inr h6, h7⟩
          · rintro (h | ⟨rfl | h6, h7⟩)
            · exact Or.inl h
            · exact absurd h7 hk
            · exact Or.inr ⟨h6, h7⟩
    · cases h

theorem tryFit_none {c : UInt16} {d : U5} : ∀ {msgs : List (ProtocolId × Message)}
    {map : List (UInt32 × (ProtocolId × Message))},
    tryFit c d msgs map = none → (∀ e ∈ msgs, bmapGet (protocolIdPos e.1 c d) map = none) →
    ¬ Separates (msgs.map Prod.fst) d.val c.toNat := by
  intro msgs
  induction msgs with
  | nil => intro map h; cases h
  | cons e msgs ih =>
    obtain ⟨p, m⟩ := e
    intro map h hd hs
    simp only [Separates, List.map_cons, List.pairwise_cons, List.mem_map] at hs
    simp only [tryFit, hd (p, m) (by simp), Option.isNone_none, if_true] at h
    refine ih h ?_ hs.2
    intro e he
    rw [bmapGet_insert_ne ?_]
    · exact hd e (by simp [he])
    · intro heq
      exact hs.1 e.1 ⟨e, he, rfl⟩ ((protocolIdPos_eq_iff _ _ _ _).mp heq.symm)

theorem tryFit_none' {c : UInt16} {d : U5} {msgs : List (ProtocolId × Message)}
    (h : tryFit c d msgs [] = none) : ¬ Separates (msgs.map Prod.fst) d.val c.toNat :=
  tryFit_none h (fun _ _ => rfl)

theorem tryCofactors_none {d : U5} {msgs : List (ProtocolId × Message)} : ∀ {n lo : Nat},
    lo + n ≤ 2 ^ 16 → tryCofactors d msgs (List.range' lo n) = none →
    ∀ c, lo ≤ c → c < lo + n → ¬ Separates (msgs.map Prod.fst) d.val c := by
  intro n
  induction n with
  | zero => intro lo _ _ c h1 h2; omega
  | succ n ih =>
    intro lo hb h c h1 h2
    rw [List.range'_succ, tryCofactors] at h
    split at h
    · cases h
    · rename_i hn
      rcases Nat.lt_or_ge lo c with h3 | h3
      · exact ih (by omega) h c (by omega) (by omega)
      · have := tryFit_none' hn
        rwa [UInt16.toNat_ofNat_of_lt' (by show lo < 65536; omega), show lo = c by omega] at this

theorem tryCofactors_some {d : U5} {msgs : List (ProtocolId × Message)} {c : UInt16}
    {map : List (UInt32 × (ProtocolId × Message))} : ∀ {n lo : Nat},
    lo + n ≤ 2 ^ 16 → tryCofactors d msgs (List.range' lo n) = some (c, map) →
    lo ≤ c.toNat ∧ c.toNat < lo + n ∧ tryFit c d msgs [] = some map ∧
    ∀ c', lo ≤ c' → c' < c.toNat → ¬ Separates (msgs.map Prod.fst) d.val c' := by
  intro n
  induction n with
  | zero => intro lo _ h; cases h
  | succ n ih =>
    intro lo hb h
    have hlo : (UInt16.ofNat lo).toNat = lo := UInt16.toNat_ofNat_of_lt' (by show lo < 65536; omega)
    rw [List.range'_succ, tryCofactors] at h
    split at h
    · rename_i map' hm
      cases h
      rw [hlo]
      exact ⟨by omega, by omega, hm, fun c' _ _ => by omega⟩
    · rename_i hn
      obtain ⟨h1, h2, h3, h4⟩ := ih (by omega) h
      refine ⟨by omega, by omega, h3, ?_⟩
      intro c' hc' hc''
      rcases Nat.lt_or_ge lo c' with h5 | h5
      · exact h4 c' (by omega) hc''
      · have := tryFit_none' hn
        rwa [hlo, show lo = c' by omega] at this

/-- What a successful `try_commit` returns. -/
structure Committed (s : MultiSource) (entropy : UInt64) (t : MerkleTree) : Prop where
  method : t.method = s.method
  ent : t.entropy = entropy
  messages : t.messages = s.messages
  attempt : Attempt s.ids.length s.minDepth.val t.depth.val t.cofactor.toNat
  separates : Separates s.ids t.depth.val t.cofactor.toNat
  first : ∀ d c, Attempt s.ids.length s.minDepth.val d c →
    Earlier d c t.depth.val t.cofactor.toNat → ¬ Separates s.ids d c
  holds : t.Holds

theorem commitLoop_spec (s : MultiSource) (entropy : UInt64) : ∀ (fuel : Nat) (depth : U5)
    (prev : Nat), 32 - depth.val ≤ fuel → s.minDepth.val ≤ depth.val →
    min prev 500 = maxCofactor s.minDepth.val depth.val →
    (∀ d c, Attempt s.ids.length s.minDepth.val d c → d < depth.val → ¬ Separates s.ids d c) →
    (∃ t, commitLoop s entropy fuel depth prev = .ok (.ok t) ∧ Committed s entropy t) ∨
    (commitLoop s entropy fuel depth prev = .ok (.error (.cantFitInMaxSlots s.ids.length)) ∧
      ∀ d c, Attempt s.ids.length s.minDepth.val d c → ¬ Separates s.ids d c) := by
  intro fuel
  induction fuel with
  | zero =>
    intro depth prev hf
    have := depth.isLt
    omega
  | succ fuel ih =>
    intro depth prev hf hmin hprev hbefore
    have hlen : s.ids.length = s.messages.entries.length := by simp [MultiSource.ids]
    have hmax : maxCofactor s.minDepth.val depth.val ≤ 500 := by
      simp only [maxCofactor]; split <;> omega
    have hd := depth.isLt
    -- nothing fits at this depth
    have next : (∀ c, Attempt s.ids.length s.minDepth.val depth.val c →
          ¬ Separates s.ids depth.val c) →
        (∃ t, (if h : depth.val + 1 < 32 then
            commitLoop s entropy fuel ⟨depth.val + 1, h⟩ (widthLimit depth)
          else .ok (.error (.cantFitInMaxSlots s.messages.entries.length))) = .ok (.ok t) ∧
          Committed s entropy t) ∨
        ((if h : depth.val + 1 < 32 then
            commitLoop s entropy fuel ⟨depth.val + 1, h⟩ (widthLimit depth)
          else .ok (.error (.cantFitInMaxSlots s.messages.entries.length))) =
            .ok (.error (.cantFitInMaxSlots s.ids.length)) ∧
          ∀ d c, Attempt s.ids.length s.minDepth.val d c → ¬ Separates s.ids d c) := by
      intro hnone
      split
      · rename_i hlt
        apply ih
        · simp only; omega
        · simp only; omega
        · simp only [maxCofactor, widthLimit]
          rw [if_neg (by omega), Nat.add_sub_cancel]
        · intro d c ha hlt'
          simp only at hlt'
          rcases Nat.lt_or_ge d depth.val with h1 | h1
          · exact hbefore d c ha h1
          · have : d = depth.val := by omega
            subst this
            exact hnone c ha
      · right
        refine ⟨by rw [hlen], ?_⟩
        intro d c ha
        have := ha.2.1
        rcases Nat.lt_or_ge d depth.val with h1 | h1
        · exact hbefore d c ha h1
        · have : d = depth.val := by omega
          subst this
          exact hnone c ha
    rw [commitLoop]
    split
    · rename_i cof map heq
      split at heq
      · rename_i hwide
        rw [show COFACTOR_ATTEMPTS = 500 from rfl, hprev, List.range_eq_range'] at heq
        obtain ⟨_, h2, h3, h4⟩ := tryCofactors_some (by omega) heq
        obtain ⟨h5, _, h7, h8, h9⟩ := tryFit_some (by simp [BMapOk]) h3
        have hb : map.length ≤ MEDIUM_MAX := by
          rw [h8]; simpa using s.messages.bound
        rw [OrdMap.tryFrom, dif_pos ⟨h7, hb⟩]
        left
        refine ⟨_, rfl, rfl, rfl, rfl, ?_, h5, ?_, ?_⟩
        · refine ⟨hmin, by simp only; omega, ?_, by simp only; omega⟩
          rw [hlen]; exact hwide
        · intro d c ha hE
          rcases hE with h | ⟨h, h'⟩
          · exact hbefore d c ha h
          · simp only at h h'
            subst h
            exact h4 c (by omega) h'
        · intro k e
          simp only [OrdMap.get]
          rw [h9, ← protocolIdPos_eq, UInt32.toNat_inj]
          simp [bmapGet]
      · cases heq
    · rename_i heq
      apply next
      intro c ha
      split at heq
      · rw [show COFACTOR_ATTEMPTS = 500 from rfl, hprev, List.range_eq_range'] at heq
        exact tryCofactors_none (by omega) heq c (by omega) (by have := ha.2.2.2; omega)
      · rename_i hnw
        have := ha.2.2.1
        rw [hlen] at this
        exact absurd this hnw

/-- Everything about `try_commit`. -/
theorem tryCommit_spec (rng : Option UInt64) (s : MultiSource) :
    (s.minDepth = 0 ∧ s.ids = [] ∧ MerkleTree.tryCommit rng s = .ok (.error .empty)) ∨
    (¬ (s.minDepth = 0 ∧ s.ids = []) ∧ s.staticEntropy.or rng = none ∧
      MerkleTree.tryCommit rng s = .error .expect) ∨
    (¬ (s.minDepth = 0 ∧ s.ids = []) ∧ ∃ entropy, s.staticEntropy.or rng = some entropy ∧
      ((∃ t, MerkleTree.tryCommit rng s = .ok (.ok t) ∧ Committed s entropy t) ∨
       (MerkleTree.tryCommit rng s = .ok (.error (.cantFitInMaxSlots s.ids.length)) ∧
        ∀ d c, Attempt s.ids.length s.minDepth.val d c → ¬ Separates s.ids d c))) := by
  have hnil : s.ids = [] ↔ s.messages.entries = [] := by simp [MultiSource.ids]
  have hb : ¬ s.messages.entries.length > 2 ^ 31 := by
    have := s.messages.bound
    simp only [MEDIUM_MAX] at this
    omega
  rw [hnil]
  unfold MerkleTree.tryCommit
  simp only
  by_cases h0 : s.minDepth = 0 ∧ s.messages.entries = []
  · left
    rw [if_pos h0]
    exact ⟨h0.1, h0.2, rfl⟩
  · right
    rw [if_neg h0, if_neg hb]
    cases he : s.staticEntropy.or rng with
    | none => exact Or.inl ⟨h0, rfl, rfl⟩
    | some entropy =>
      refine Or.inr ⟨h0, entropy, rfl, ?_⟩
      apply commitLoop_spec
      · omega
      · omega
      · simp [maxCofactor]
      · intro d c ha hlt
        have := ha.1
        omega

end CSV
