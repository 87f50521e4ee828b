import Verif.Model.Literal
import Verif.Proofs.Merge

/-!
# The second transcription agrees with the first
-/

namespace CSV.Literal

/-- `takeWhile` with the closure of `merge_reveal`, after it was told to stop. -/
private theorem takeWhile_stop {D limit : U5} (s : Captured) (hs : s.stop = true) (l : List TreeNode) :
    takeWhile (closure D limit) s l = .ok ({ s with last := (next l).1.or s.last }, [], (next l).2) := by
  cases l with
  | nil => rfl
  | cons x l => simp [takeWhile, closure, hs, next, ok_bind]

private theorem takeWhile_eq {D limit : U5} : ∀ (l : List TreeNode) (b : Buoy),
    (do let (s, taken, iter) ← takeWhile (closure D limit) ⟨b, false, none⟩ l
        .ok (taken, s.last, iter) : Exec _) =
    (do let (taken, rest) ← takeBuoy D limit b l
        .ok (taken, (next rest).1, (next rest).2)) := by
  intro l
  induction l with
  | nil => intro b; rfl
  | cons x l ih =>
    intro b
    rw [takeWhile, takeBuoy, closure]
    simp only [Bool.false_eq_true, if_false]
    obtain ⟨⟨b', f⟩, h⟩ := Buoy.push_total b (x.depthOr D)
    rw [h]
    simp only [ok_bind, if_true]
    by_cases hl : b'.level ≤ limit
    · simp only [if_pos hl]
      rw [takeWhile_stop _ rfl]
      simp [ok_bind]
    · simp only [if_neg hl]
      have := ih b'
      cases h1 : takeWhile (closure D limit) ⟨b', false, none⟩ l with
      | error e =>
        rw [h1] at this
        cases h2 : takeBuoy D limit b' l with
        | error e' => rw [h2] at this; cases this; rfl
        | ok y => rw [h2] at this; cases this
      | ok y =>
        rw [h1] at this
        obtain ⟨s, t, r⟩ := y
        cases h2 : takeBuoy D limit b' l with
        | error e' => rw [h2] at this; cases this
        | ok z =>
          obtain ⟨t', r'⟩ := z
          rw [h2] at this
          simp only [ok_bind, Except.ok.injEq, Prod.mk.injEq] at this ⊢
          obtain ⟨rfl, h3, h4⟩ := this
          exact ⟨rfl, h3, h4⟩

private theorem takeWhile_error {D limit : U5} {l : List TreeNode} {b : Buoy} {e : Panic}
    (h : takeBuoy D limit b l = .error e) :
    takeWhile (closure D limit) ⟨b, false, none⟩ l = .error e := by
  have := takeWhile_eq (D := D) (limit := limit) l b
  rw [h] at this
  cases h1 : takeWhile (closure D limit) ⟨b, false, none⟩ l with
  | error e' => rw [h1] at this; cases this; rfl
  | ok y => rw [h1] at this; cases this

private theorem takeWhile_ok {D limit : U5} {l : List TreeNode} {b : Buoy} {t r : List TreeNode}
    (h : takeBuoy D limit b l = .ok (t, r)) :
    ∃ s, takeWhile (closure D limit) ⟨b, false, none⟩ l = .ok (s, t, (next r).2) ∧ s.last = (next r).1 := by
  have := takeWhile_eq (D := D) (limit := limit) l b
  rw [h] at this
  cases h1 : takeWhile (closure D limit) ⟨b, false, none⟩ l with
  | error e' => rw [h1] at this; cases this
  | ok y =>
    obtain ⟨s, t', r'⟩ := y
    rw [h1] at this
    simp only [ok_bind, Except.ok.injEq, Prod.mk.injEq] at this
    obtain ⟨rfl, h3, rfl⟩ := this
    exact ⟨s, rfl, h3⟩

/-- `last` and the iterator together. -/
private def rejoin (x : Option TreeNode) (l : List TreeNode) : List TreeNode := x.toList ++ l

private theorem rejoin_next (l : List TreeNode) : rejoin (next l).1 (next l).2 = l := by
  cases l <;> rfl

private theorem next_none {l : List TreeNode} (h : (next l).1 = none) : (next l).2 = [] := by
  cases l with
  | nil => rfl
  | cons x l => cases h

private theorem mergeWhile_some {D : U5} (fuel : Nat) (cs a b : List TreeNode) (x y : TreeNode) :
    mergeWhile D (fuel + 1) ⟨cs, a, b, some x, some y⟩ =
      mergeBody D x y ⟨cs, a, b, some x, some y⟩ >>= mergeWhile D fuel := by
  rw [mergeWhile]

private theorem mergeWhile_eq {D : U5} : ∀ (fuel : Nat) (v : MergeVars),
    (v.lastA = none → v.a = []) → (v.lastB = none → v.b = []) →
    (do let v ← mergeWhile D fuel v; .ok (v.crossSection ++ v.a ++ v.b) : Exec _) =
    (do let r ← mergeLoop D fuel (rejoin v.lastA v.a) (rejoin v.lastB v.b); .ok (v.crossSection ++ r)) := by
  intro fuel
  induction fuel with
  | zero =>
    rintro ⟨cs, a, b, la, lb⟩ ha hb
    cases la with
    | none =>
      cases ha rfl
      cases lb with
      | none => cases hb rfl; simp [mergeWhile, mergeLoop, rejoin, ok_bind]
      | some y => simp [mergeWhile, mergeLoop, rejoin, ok_bind]
    | some x =>
      cases lb with
      | none => cases hb rfl; simp [mergeWhile, mergeLoop, rejoin, ok_bind]
      | some y => simp [mergeWhile, mergeLoop, rejoin, error_bind]
  | succ fuel ih =>
    rintro ⟨cs, a, b, la, lb⟩ ha hb
    cases la with
    | none =>
      cases ha rfl
      cases lb with
      | none => cases hb rfl; simp [mergeWhile, mergeLoop, rejoin, ok_bind]
      | some y => simp [mergeWhile, mergeLoop, rejoin, ok_bind]
    | some x =>
      cases lb with
      | none => cases hb rfl; simp [mergeWhile, mergeLoop, rejoin, ok_bind]
      | some y =>
        have step : ∀ cs' : List TreeNode, (do
            let v ← mergeWhile D fuel ⟨cs', (next a).2, (next b).2, (next a).1, (next b).1⟩
            .ok (v.crossSection ++ v.a ++ v.b) : Exec _) =
            (do let r ← mergeLoop D fuel a b; .ok (cs' ++ r)) := by
          intro cs'
          rw [ih _ next_none next_none, rejoin_next, rejoin_next]
        rw [mergeWhile_some]
        simp only [rejoin, Option.toList_some, List.cons_append, List.nil_append, mergeLoop, mergeBody]
        by_cases hd : x.depthOr D = y.depthOr D
        · simp only [if_pos hd]
          by_cases hxy : x = y
          · simp only [if_pos hxy, ok_bind]
            rw [step]
            cases mergeLoop D fuel a b <;> simp [ok_bind, error_bind]
          · simp only [if_neg hxy]
            cases hx : x.isLeaf <;> cases hy : y.isLeaf <;> simp only [ok_bind, error_bind]
            · rw [step]
            · rw [step]
              cases mergeLoop D fuel a b <;> simp [ok_bind, error_bind]
            · rw [step]
              cases mergeLoop D fuel a b <;> simp [ok_bind, error_bind]
        · simp only [if_neg hd]
          by_cases hlt : x.depthOr D < y.depthOr D
          · simp only [if_pos hlt]
            cases h : takeBuoy D (x.depthOr D) (Buoy.new (y.depthOr D)) b with
            | error e => rw [takeWhile_error h]; rfl
            | ok z =>
              obtain ⟨t, r⟩ := z
              obtain ⟨s, h1, h2⟩ := takeWhile_ok h
              simp only [h1, ok_bind, h2]
              rw [ih _ next_none next_none, rejoin_next, rejoin_next]
              cases mergeLoop D fuel a r <;> simp [ok_bind, error_bind]
          · simp only [if_neg hlt]
            cases h : takeBuoy D (y.depthOr D) (Buoy.new (x.depthOr D)) a with
            | error e => rw [takeWhile_error h]; rfl
            | ok z =>
              obtain ⟨t, r⟩ := z
              obtain ⟨s, h1, h2⟩ := takeWhile_ok h
              simp only [h1, ok_bind, h2]
              rw [ih _ next_none next_none, rejoin_next, rejoin_next]
              cases mergeLoop D fuel r b <;> simp [ok_bind, error_bind]

/-- The new cross-section of `merge_reveal`. -/
theorem mergeNodes_eq (D : U5) (a b : List TreeNode) : mergeNodes D a b = mergeLoop D a.length a b := by
  have h := mergeWhile_eq (D := D) a.length ⟨[], (next a).2, (next b).2, (next a).1, (next b).1⟩
    next_none next_none
  rw [rejoin_next, rejoin_next] at h
  rw [mergeNodes]
  refine h.trans ?_
  cases mergeLoop D a.length a b <;> rfl

private theorem sumWidths_eq [Env] (D : U5) : ∀ (l : List TreeNode) (acc : Nat),
    l.foldlM (fun acc n => do
      let height ← u8Sub dbg D.val (n.depthOr D).val
      let width ← u32Pow2 dbg height
      u32Add dbg acc width) acc = sumWidths D l acc := by
  intro l
  induction l with
  | nil => intro acc; rfl
  | cons x l ih =>
    intro acc
    rw [List.foldlM_cons, sumWidths]
    simp only [bind_assoc, ih]

/-- `merge_reveal` statement by statement is the function of the model. -/
theorem mergeReveal_eq [Env] (a b : MerkleBlock) : mergeReveal a b = a.mergeReveal b := by
  rw [mergeReveal, MerkleBlock.mergeReveal]
  simp only [mergeNodes_eq, sumWidths_eq]

/-- The buoy of the model. -/
def MerkleBuoy.toModel : MerkleBuoy U5 → Buoy
  | .mk buoy none => .leaf buoy
  | .mk buoy (some stack) => .stacked buoy stack.toModel

theorem MerkleBuoy.level_eq : ∀ b : MerkleBuoy U5, b.level = b.toModel.level
  | .mk buoy none => by rw [MerkleBuoy.level, MerkleBuoy.toModel]; rfl
  | .mk buoy (some stack) => by
    rw [MerkleBuoy.level, MerkleBuoy.toModel, Buoy.level]; exact stack.level_eq

private theorem push_none (buoy depth : U5) :
    (do let (b, r) ← (MerkleBuoy.mk buoy none).push depth; .ok (b.toModel, r) : Exec _) =
      Buoy.pushLeaf buoy depth := by
  have hd : (BuoyDepth.default : U5) = 0 := rfl
  have hs : ∀ d : U5, BuoyDepth.subOne d = u5Sub d 1 := fun _ => rfl
  rw [MerkleBuoy.push, Buoy.pushLeaf]
  simp only [hd, hs]
  by_cases h0 : depth = 0
  · simp [if_pos h0, ok_bind, MerkleBuoy.toModel]
  · simp only [if_neg h0]
    by_cases h1 : depth = buoy
    · simp only [if_pos h1]
      cases u5Sub buoy 1 <;> simp [ok_bind, error_bind, MerkleBuoy.toModel]
    · simp [if_neg h1, ok_bind, MerkleBuoy.toModel, MerkleBuoy.new]

/-- `MerkleBuoy::push` with the fields of the code is the function of the model. -/
theorem MerkleBuoy.push_eq : ∀ (b : MerkleBuoy U5) (depth : U5),
    (do let (b, r) ← b.push depth; .ok (b.toModel, r) : Exec _) = b.toModel.push depth
  | .mk buoy none, depth => by rw [push_none, MerkleBuoy.toModel, Buoy.push]
  | .mk buoy (some stack), depth => by
    have ih := stack.push_eq depth
    have hd : (BuoyDepth.default : U5) = 0 := rfl
    rw [MerkleBuoy.push, MerkleBuoy.toModel, Buoy.push]
    simp only [hd]
    by_cases h0 : depth = 0
    · simp [if_pos h0, ok_bind, MerkleBuoy.toModel]
    · simp only [if_neg h0, ← ih]
      cases h : stack.push depth with
      | error e => rfl
      | ok x =>
        obtain ⟨s, r⟩ := x
        cases r with
        | true =>
          simp only [ok_bind, if_true, ← MerkleBuoy.level_eq]
          exact push_none ..
        | false => simp [ok_bind, MerkleBuoy.toModel]

private theorem all_eq (cofactor : UInt16) (depth : U5)
    (f : List (UInt32 × (ProtocolId × Message)) → ProtocolId × Message →
      List (UInt32 × (ProtocolId × Message)) × Bool)
    (hf : ∀ map p m, f map (p, m) = (bmapInsert (protocolIdPos p cofactor depth) (p, m) map,
      (bmapGet (protocolIdPos p cofactor depth) map).isNone)) :
    ∀ (msgs : List (ProtocolId × Message)) (map : List (UInt32 × (ProtocolId × Message))),
    (match all f map msgs with
    | (map, true) => some map
    | (_, false) => none) = tryFit cofactor depth msgs map := by
  intro msgs
  induction msgs with
  | nil => intro map; rfl
  | cons x msgs ih =>
    intro map
    obtain ⟨p, m⟩ := x
    rw [all, tryFit, hf]
    dsimp only
    by_cases h : (bmapGet (protocolIdPos p cofactor depth) map).isNone = true
    · rw [if_pos h, if_pos h, ← ih]
    · rw [if_neg h, if_neg h]

private theorem forCofactor_eq (source : MultiSource) (entropy : UInt64) (depth : U5) : ∀ (cs : List Nat)
    (map : List (UInt32 × (ProtocolId × Message))),
    (do let (_, found) ← forCofactor source entropy depth cs map; .ok found : Exec _) =
    match tryCofactors depth source.messages.entries cs with
    | some (cofactor, map) =>
      match OrdMap.tryFrom MEDIUM_MAX map with
      | some map => .ok (some ⟨source.method, depth, entropy, cofactor, source.messages, map⟩)
      | none => .error .expect
    | none => .ok none := by
  intro cs
  induction cs with
  | nil => intro map; rfl
  | cons c cs ih =>
    intro map
    rw [forCofactor, tryCofactors]
    dsimp only
    have h := all_eq (UInt16.ofNat c) depth (fun map x => match x with
      | (protocol, message) =>
        let pos := protocolIdPos protocol (UInt16.ofNat c) depth
        let (map, old) := insert map pos (protocol, message)
        (map, old.isNone)) (fun _ _ _ => rfl) source.messages.entries []
    generalize all _ [] source.messages.entries = y at h ⊢
    rw [← h]
    obtain ⟨map', r⟩ := y
    cases r with
    | true =>
      simp only [if_true]
      cases OrdMap.tryFrom MEDIUM_MAX map' <;> rfl
    | false =>
      simp only [Bool.false_eq_true, if_false]
      exact ih _

private theorem commitLoop_eq (source : MultiSource) (entropy : UInt64) : ∀ (fuel : Nat) (v : CommitVars),
    commitLoop source entropy fuel v = CSV.commitLoop source entropy fuel v.depth v.prevWidth := by
  intro fuel
  induction fuel with
  | zero => intro v; rfl
  | succ fuel ih =>
    intro v
    have hw : widthLimit v.depth = 2 ^ v.depth.val := rfl
    rw [commitLoop, CSV.commitLoop]
    simp only [hw]
    have next : ∀ map, (if h : v.depth.val + 1 < 32 then
        commitLoop source entropy fuel ⟨map, ⟨v.depth.val + 1, h⟩, 2 ^ v.depth.val⟩
      else .ok (.error (.cantFitInMaxSlots source.messages.entries.length)) : Exec _) =
      (if h : v.depth.val + 1 < 32 then
        CSV.commitLoop source entropy fuel ⟨v.depth.val + 1, h⟩ (2 ^ v.depth.val)
      else .ok (.error (.cantFitInMaxSlots source.messages.entries.length))) := by
      intro map
      by_cases h : v.depth.val + 1 < 32
      · rw [dif_pos h, dif_pos h, ih]
      · rw [dif_neg h, dif_neg h]
    by_cases hwide : 2 ^ v.depth.val ≥ source.messages.entries.length
    · simp only [if_pos hwide]
      have hc := forCofactor_eq source entropy v.depth
        (List.range (min v.prevWidth COFACTOR_ATTEMPTS + 1)) v.map
      generalize forCofactor source entropy v.depth
        (List.range (min v.prevWidth COFACTOR_ATTEMPTS + 1)) v.map = y at hc ⊢
      cases y with
      | error e =>
        simp only [error_bind] at hc ⊢
        cases ht : tryCofactors v.depth source.messages.entries
            (List.range (min v.prevWidth COFACTOR_ATTEMPTS + 1)) with
        | none => rw [ht] at hc; cases hc
        | some z =>
          rw [ht] at hc
          simp only at hc ⊢
          cases ho : OrdMap.tryFrom MEDIUM_MAX z.2 with
          | none => rw [ho] at hc; cases hc; rfl
          | some m => rw [ho] at hc; cases hc
      | ok y =>
        obtain ⟨map, found⟩ := y
        simp only [ok_bind] at hc ⊢
        cases ht : tryCofactors v.depth source.messages.entries
            (List.range (min v.prevWidth COFACTOR_ATTEMPTS + 1)) with
        | none =>
          rw [ht] at hc
          cases hc
          exact next map
        | some z =>
          rw [ht] at hc
          simp only at hc ⊢
          cases ho : OrdMap.tryFrom MEDIUM_MAX z.2 with
          | none => rw [ho] at hc; cases hc
          | some m => rw [ho] at hc; cases hc; rfl
    · simp only [if_neg hwide, ok_bind]
      exact next v.map

/-- `try_commit` statement by statement, with the map which is kept between the attempts, is the function of
the model. -/
theorem tryCommit_eq (rng : Option UInt64) (source : MultiSource) :
    tryCommit rng source = MerkleTree.tryCommit rng source := by
  rw [tryCommit, MerkleTree.tryCommit]
  simp only [commitLoop_eq, List.isEmpty_iff]
  cases source.staticEntropy <;> cases rng <;> rfl

end CSV.Literal
