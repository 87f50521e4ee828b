import Verif.Spec.TypeLib
import Verif.Proofs.Codec

/-! # Published types and derived encodings -/

namespace CSV

/-- An encoding represents a published type. -/
structure Rep {α : Type} (ty : Ty) (val : α → Val) (enc : α → Bytes) (P : α → Prop) : Prop where
  /-- values of the type are written -/
  typed : ∀ x, P x → ty (val x) = some (enc x)
  /-- other values are not -/
  refused : ∀ x, ¬P x → ty (val x) = none
  /-- there are no other values -/
  all : ∀ v e, ty v = some e → ∃ x, P x ∧ enc x = e

/-- A stricter form for types whose values have one form: keys of maps. -/
structure RepKey {α : Type} (ty : Ty) (val : α → Val) (enc : α → Bytes) : Prop where
  /-- values are written -/
  typed : ∀ x, ty (val x) = some (enc x)
  /-- there are no other values -/
  all : ∀ v e, ty v = some e → ∃ x, v = val x ∧ enc x = e

theorem RepKey.rep {α : Type} {ty : Ty} {val : α → Val} {enc : α → Bytes} (h : RepKey ty val enc) :
    Rep ty val enc fun _ => True :=
  ⟨fun x _ => h.typed x, fun _ hn => absurd trivial hn, fun v e he => by
    obtain ⟨x, _, hx⟩ := h.all v e he
    exact ⟨x, trivial, hx⟩⟩

theorem Rep.agrees {α : Type} {ty : Ty} {val : α → Val} {enc : α → Bytes} {P : α → Prop}
    {dec : Decoder α} (h : Rep ty val enc P) (hd : Exact enc dec P) : Agrees ty val enc dec := by
  have key : ∀ x e, ty (val x) = some e → P x ∧ enc x = e := by
    intro x e he
    by_cases hp : P x
    · rw [h.typed x hp] at he
      exact ⟨hp, by injection he⟩
    · rw [h.refused x hp] at he; cases he
  refine ⟨fun x e he => (key x e he).2, fun bs x r => ?_, fun v e r he => ?_⟩
  · rw [hd bs x r]
    constructor
    · rintro ⟨hp, rfl⟩; exact ⟨enc x, h.typed x hp, rfl⟩
    · rintro ⟨e, he, rfl⟩
      obtain ⟨hp, rfl⟩ := key x e he
      exact ⟨hp, rfl⟩
  · obtain ⟨x, hp, rfl⟩ := h.all v e he
    exact ⟨x, (hd _ x r).2 ⟨hp, rfl⟩⟩

/-! ## Primitive types -/

theorem little_eq (n k : Nat) : Ty.little n k = leBytes k n := by
  induction n generalizing k with
  | zero => rfl
  | succ n ih =>
    rw [Ty.little, List.range_succ_eq_map, List.map_cons, List.map_map, leBytes, ← ih, Ty.little]
    congr 1
    · simp
    · apply List.map_congr_left
      intro i _
      simp only [Function.comp_apply, Nat.succ_eq_add_one, Nat.pow_succ]
      rw [Nat.mul_comm, ← Nat.div_div_eq_div_mul]

theorem uint_rep {α : Type} (bits : Nat) (val : α → Nat) (ofNat : Nat → α) (enc : α → Bytes)
    (h1 : ∀ x, val x < 2 ^ bits) (h2 : ∀ k, k < 2 ^ bits → val (ofNat k) = k)
    (he : ∀ x, enc x = leBytes (val x) (bits / 8)) :
    RepKey (.uint bits) (fun x => .num (val x)) enc := by
  refine ⟨fun x => ?_, fun v e h => ?_⟩
  · simp only [Ty.uint, if_pos (h1 x), little_eq, he]
  · cases v <;> simp only [Ty.uint, reduceCtorEq] at h
    rename_i k
    split at h
    · rename_i hk
      injection h with h
      refine ⟨ofNat k, by rw [h2 k hk], ?_⟩
      rw [he, h2 k hk, ← little_eq, h]
    · cases h

theorem u8_rep : RepKey Published.U8 (fun x : UInt8 => .num x.toNat) encU8 :=
  uint_rep 8 UInt8.toNat UInt8.ofNat encU8 (fun x => x.toNat_lt) (fun k h => by simpa using h)
    (fun x => (leBytes_one x).symm)

theorem u16_rep : RepKey Published.U16 (fun x : UInt16 => .num x.toNat) encU16 :=
  uint_rep 16 UInt16.toNat UInt16.ofNat encU16 (fun x => x.toNat_lt) (fun k h => by simpa using h)
    (fun _ => rfl)

theorem u32_rep : RepKey Published.U32 (fun x : UInt32 => .num x.toNat) encU32 :=
  uint_rep 32 UInt32.toNat UInt32.ofNat encU32 (fun x => x.toNat_lt) (fun k h => by simpa using h)
    (fun _ => rfl)

theorem u64_rep : RepKey Published.U64 (fun x : UInt64 => .num x.toNat) encU64 :=
  uint_rep 64 UInt64.toNat UInt64.ofNat encU64 (fun x => x.toNat_lt) (fun k h => by simpa using h)
    (fun _ => rfl)

theorem u256_rep : RepKey Published.U256 (fun x : BitVec 256 => .num x.toNat) encU256 :=
  uint_rep 256 BitVec.toNat (BitVec.ofNat 256) encU256 (fun x => x.isLt)
    (fun k h => by rw [BitVec.toNat_ofNat]; exact Nat.mod_eq_of_lt h) (fun _ => rfl)

theorem u5_rep : RepKey Ty.u5 (fun x : U5 => .num x.val) encU5 := by
  refine ⟨fun x => ?_, fun v e h => ?_⟩
  · simp only [Ty.u5, if_pos x.isLt, encU5]
  · cases v <;> simp only [Ty.u5, reduceCtorEq] at h
    rename_i k
    split at h
    · rename_i hk
      injection h with h
      exact ⟨⟨k, hk⟩, rfl, h⟩
    · cases h

theorem bytes32_rep : RepKey (.byteArray 32) Bytes32.val encBytes32 := by
  refine ⟨fun x => ?_, fun v e h => ?_⟩
  · simp only [Ty.byteArray, Bytes32.val, if_pos x.len, encBytes32]
  · cases v <;> simp only [Ty.byteArray, reduceCtorEq] at h
    rename_i bs
    split at h
    · rename_i hk
      injection h with h
      exact ⟨⟨bs, hk⟩, rfl, h⟩
    · cases h

theorem opt_rep {α : Type} {ty : Ty} {val : α → Val} {enc : α → Bytes}
    (h : Rep ty val enc fun _ => True) :
    Rep (.opt ty) (optVal val) (encOption enc) fun _ => True := by
  refine ⟨fun x _ => ?_, fun _ hn => absurd trivial hn, fun v e he => ?_⟩
  · cases x with
    | none => rfl
    | some a => simp [optVal, Ty.opt, h.typed a trivial, encOption]
  · cases v <;> simp only [Ty.opt, reduceCtorEq, Option.map_eq_some_iff] at he
    · cases he; exact ⟨none, trivial, rfl⟩
    · obtain ⟨a, ha, rfl⟩ := he
      obtain ⟨x, _, rfl⟩ := h.all _ _ ha
      exact ⟨some x, trivial, rfl⟩

/-! ## Collections -/

theorem writeAll_some {α : Type} {ty : Ty} {val : α → Val} {enc : α → Bytes}
    (h : Rep ty val enc fun _ => True) (l : List α) :
    Ty.writeAll ty (l.map val) = some (l.flatMap enc) := by
  induction l with
  | nil => rfl
  | cons a l ih => simp [Ty.writeAll, h.typed a trivial, ih]

theorem writeAll_all {α : Type} {ty : Ty} {val : α → Val} {enc : α → Bytes}
    (h : Rep ty val enc fun _ => True) (vs : List Val) (e : Bytes) (he : Ty.writeAll ty vs = some e) :
    ∃ l : List α, l.length = vs.length ∧ l.flatMap enc = e := by
  induction vs generalizing e with
  | nil => simp [Ty.writeAll] at he; exact ⟨[], rfl, he.symm⟩
  | cons v vs ih =>
    simp only [Ty.writeAll, Option.bind_eq_bind, Option.bind_eq_some_iff, Option.some.injEq] at he
    obtain ⟨a, ha, b, hb, rfl⟩ := he
    obtain ⟨x, _, rfl⟩ := h.all _ _ ha
    obtain ⟨l, hl, rfl⟩ := ih _ hb
    exact ⟨x :: l, by simp [hl], by simp⟩

theorem count_eq (max n : Nat) (hm : max < 2 ^ 64) : Ty.count max n = leBytes n (lenPrefix max) := by
  rw [Ty.count, little_eq, lenPrefix]
  by_cases h1 : max ≤ 0xFF
  · have e1 : max < 256 ^ 1 := by omega
    simp [List.find?, h1, e1]
  · have e1 : ¬ max < 256 ^ 1 := by omega
    by_cases h2 : max ≤ 0xFFFF
    · have e2 : max < 256 ^ 2 := by omega
      simp [List.find?, h1, h2, e1, e2]
    · have e2 : ¬ max < 256 ^ 2 := by omega
      by_cases h3 : max ≤ 0xFFFFFF
      · have e3 : max < 256 ^ 3 := by omega
        simp [List.find?, h1, h2, h3, e1, e2, e3]
      · have e3 : ¬ max < 256 ^ 3 := by omega
        by_cases h4 : max ≤ 0xFFFFFFFF
        · have e4 : max < 256 ^ 4 := by omega
          simp [List.find?, h1, h2, h3, h4, e1, e2, e3, e4]
        · have e4 : ¬ max < 256 ^ 4 := by omega
          have e5 : max < 256 ^ 8 := by omega
          simp [List.find?, h1, h2, h3, h4, e1, e2, e3, e4, e5]

theorem seq_rep {α : Type} {ty : Ty} {val : α → Val} {enc : α → Bytes}
    (h : Rep ty val enc fun _ => True) (min max : Nat) (hm : max < 2 ^ 64) :
    Rep (.seq min max ty) (fun l : List α => .list (l.map val)) (encList max enc)
      fun l => min ≤ l.length ∧ l.length ≤ max := by
  refine ⟨fun l hl => ?_, fun l hl => ?_, fun v e he => ?_⟩
  · simp only [Ty.seq, List.length_map, if_pos hl, writeAll_some h, Option.map_some, count_eq _ _ hm,
      encList]
  · simp only [Ty.seq, List.length_map, if_neg hl]
  · cases v <;> simp only [Ty.seq, reduceCtorEq] at he
    rename_i vs
    split at he
    · rename_i hb
      simp only [Option.map_eq_some_iff] at he
      obtain ⟨a, ha, rfl⟩ := he
      obtain ⟨l, hl, rfl⟩ := writeAll_all h _ _ ha
      exact ⟨l, by rw [hl]; exact hb, by rw [encList, count_eq _ _ hm, hl]⟩
    · cases he

theorem pair_rep {α β : Type} {s t : Ty} {va : α → Val} {vb : β → Val} {ea : α → Bytes}
    {eb : β → Bytes} (ha : Rep s va ea fun _ => True) (hb : Rep t vb eb fun _ => True) :
    Rep (.pair s t) (fun x : α × β => .tuple [va x.1, vb x.2]) (encPair ea eb) fun _ => True := by
  refine ⟨fun x _ => ?_, fun _ hn => absurd trivial hn, fun v e he => ?_⟩
  · simp [Ty.pair, ha.typed _ trivial, hb.typed _ trivial, encPair]
  · unfold Ty.pair at he
    split at he
    · simp only [Option.bind_eq_bind, Option.bind_eq_some_iff, Option.some.injEq] at he
      obtain ⟨a, ha', b, hb', rfl⟩ := he
      obtain ⟨x, _, rfl⟩ := ha.all _ _ ha'
      obtain ⟨y, _, rfl⟩ := hb.all _ _ hb'
      exact ⟨(x, y), trivial, rfl⟩
    · cases he

/-! ## Maps -/

theorem beNat_cons (a : UInt8) (l : Bytes) : beNat (a :: l) = a.toNat * 256 ^ l.length + beNat l := by
  have app : ∀ (l : Bytes) (a : UInt8), leNat (l ++ [a]) = leNat l + 256 ^ l.length * a.toNat := by
    intro l a
    induction l with
    | nil => simp [leNat]
    | cons b l ih =>
      simp only [List.cons_append, leNat, ih, List.length_cons, Nat.pow_succ]
      rw [Nat.mul_add, ← Nat.mul_assoc, Nat.mul_comm 256 (256 ^ l.length), Nat.add_assoc]
  rw [beNat, List.reverse_cons, app, List.length_reverse, beNat, Nat.mul_comm, Nat.add_comm]

theorem beNat_lt (l : Bytes) : beNat l < 256 ^ l.length := by
  have := leNat_lt l.reverse
  rwa [List.length_reverse] at this

/-- The lexicographic order is that of the numbers. -/
theorem lex_iff : ∀ (a b : Bytes), a.length = b.length → (a < b ↔ beNat a < beNat b)
  | [], [], _ => by simp
  | [], _ :: _, h => by simp at h
  | _ :: _, [], h => by simp at h
  | a :: l, b :: m, h => by
    have hl : l.length = m.length := by simpa using h
    have ih := lex_iff l m hl
    have h1 := beNat_lt l
    have h2 := beNat_lt m
    rw [List.cons_lt_cons_iff, ih, beNat_cons, beNat_cons, ← hl]
    rw [← hl] at h2
    generalize 256 ^ l.length = w at *
    rw [UInt8.lt_iff_toNat_lt, ← UInt8.toNat_inj]
    constructor
    · rintro (h | ⟨h, h'⟩)
      · have : (a.toNat + 1) * w ≤ b.toNat * w := Nat.mul_le_mul_right _ h
        rw [Nat.add_mul] at this
        omega
      · rw [h]; omega
    · intro h'
      rcases Nat.lt_trichotomy a.toNat b.toNat with h3 | h3 | h3
      · exact Or.inl h3
      · rw [h3] at h'; exact Or.inr ⟨h3, by omega⟩
      · have : (b.toNat + 1) * w ≤ a.toNat * w := Nat.mul_le_mul_right _ h3
        rw [Nat.add_mul] at this
        omega

theorem before_bytes32 (a b : Bytes32) :
    Ty.before a.val b.val = true ↔ OrdKey.key a < OrdKey.key b := by
  simp only [Ty.before, Bytes32.val, decide_eq_true_eq]
  exact lex_iff _ _ (by rw [a.len, b.len])

theorem before_u32 (a b : UInt32) :
    Ty.before (.num a.toNat) (.num b.toNat) = true ↔ OrdKey.key a < OrdKey.key b := by
  simp only [Ty.before, decide_eq_true_eq]
  exact Iff.rfl

theorem map_all_aux {κ α : Type} {kt t : Ty} {kv : κ → Val} {va : α → Val} {ek : κ → Bytes}
    {ea : α → Bytes} (hk : RepKey kt kv ek) (hv : Rep t va ea fun _ => True) (es : List (Val × Val))
    (e : Bytes)
    (he : Ty.writeAll (.pair kt t) (es.map fun e => .tuple [e.1, e.2]) = some e) :
    ∃ l : List (κ × α), es.map Prod.fst = l.map (fun x => kv x.1) ∧ l.flatMap (encPair ek ea) = e := by
  induction es generalizing e with
  | nil => simp [Ty.writeAll] at he; exact ⟨[], rfl, he.symm⟩
  | cons v vs ih =>
    simp only [List.map_cons, Ty.writeAll, Ty.pair, Option.bind_eq_bind, Option.bind_eq_some_iff,
      Option.some.injEq] at he
    obtain ⟨_, ⟨a, ha, b, hb, rfl⟩, c, hc, rfl⟩ := he
    obtain ⟨x, hx, rfl⟩ := hk.all _ _ ha
    obtain ⟨y, _, rfl⟩ := hv.all _ _ hb
    obtain ⟨l, hl, rfl⟩ := ih _ hc
    exact ⟨(x, y) :: l, by simp [hx, hl], by simp [encPair]⟩

theorem map_rep {κ α : Type} [OrdKey κ] {kt t : Ty} {kv : κ → Val} {va : α → Val} {ek : κ → Bytes}
    {ea : α → Bytes} (hk : RepKey kt kv ek) (hv : Rep t va ea fun _ => True)
    (hb : ∀ a b, Ty.before (kv a) (kv b) = true ↔ OrdKey.key a < OrdKey.key b) (max : Nat)
    (hm : max < 2 ^ 64) :
    Rep (.map max kt t) (fun m : OrdMap κ α max => .map (m.entries.map fun e => (kv e.1, va e.2)))
      (encMap ek ea) fun _ => True := by
  have sorted : ∀ l : List (κ × α), (l.map fun x => kv x.1).Pairwise (Ty.before · ·) ↔ BMapOk l := by
    intro l
    rw [List.pairwise_map, BMapOk]
    constructor
    · exact fun h => h.imp fun h => (hb _ _).1 h
    · exact fun h => h.imp fun h => (hb _ _).2 h
  refine ⟨fun m _ => ?_, fun _ hn => absurd trivial hn, fun v e he => ?_⟩
  · simp only [Ty.map, List.length_map, List.map_map]
    rw [if_pos ⟨m.bound, (sorted m.entries).2 m.sorted⟩]
    have := writeAll_some (pair_rep hk.rep hv) m.entries
    simp only [Function.comp_def]
    rw [this, Option.map_some, count_eq _ _ hm]
    rfl
  · cases v <;> simp only [Ty.map, reduceCtorEq] at he
    rename_i es
    split at he
    · rename_i hc
      simp only [Option.map_eq_some_iff] at he
      obtain ⟨a, ha, rfl⟩ := he
      obtain ⟨l, hl, rfl⟩ := map_all_aux hk hv _ _ ha
      have hlen : es.length = l.length := by
        have := congrArg List.length hl
        simpa using this
      rw [hl, sorted] at hc
      refine ⟨⟨l, hc.2, hlen ▸ hc.1⟩, trivial, ?_⟩
      rw [encMap, encList, count_eq _ _ hm]
      simp only [hlen]
    · cases he

end CSV
