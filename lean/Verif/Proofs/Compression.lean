import Verif.Spec.Compression

/-!
# From collisions of SHA256 to collisions of its compression function
-/

namespace CSV.Sha

/-- The state after a list of groups. -/
def chain : List (List Nat) → St → St
  | [], s => s
  | ws :: rest, s => chain rest (block s ws)

theorem blocks_eq_chain : ∀ (fuel : Nat) (ws : List Nat) (s : St),
    blocks fuel ws s = chain (chunks fuel ws) s := by
  intro fuel
  induction fuel with
  | zero => intro ws s; rfl
  | succ n ih =>
    intro ws s
    cases ws with
    | nil => rfl
    | cons w ws => exact ih _ _

theorem chain_append (a b : List (List Nat)) : ∀ s, chain (a ++ b) s = chain b (chain a s) := by
  induction a with
  | nil => intro s; rfl
  | cons x a ih => intro s; exact ih _

theorem callsFrom_append (a b : List (List Nat)) : ∀ s,
    callsFrom (a ++ b) s = callsFrom a s ++ callsFrom b (chain a s) := by
  induction a with
  | nil => intro s; rfl
  | cons x a ih => intro s; simp only [List.cons_append, callsFrom, ih, chain]

theorem NoClash.sub {l l' : List (St × List Nat)} (h : NoClash l) (hs : ∀ x ∈ l', x ∈ l) : NoClash l' :=
  fun x hx y hy => h x (hs x hx) y (hs y hy)

/-- Without clashes the last groups and the states before them are the same. -/
theorem chain_last {a b : List (List Nat)} {x y : List Nat} {s : St}
    (hn : NoClash (callsFrom (a ++ [x]) s ++ callsFrom (b ++ [y]) s))
    (h : chain (a ++ [x]) s = chain (b ++ [y]) s) : x = y ∧ chain a s = chain b s := by
  rw [chain_append, chain_append] at h
  have := hn (chain a s, x) (List.mem_append_left _ (by
      rw [callsFrom_append]; exact List.mem_append_right _ (List.mem_singleton.2 rfl)))
    (chain b s, y) (List.mem_append_right _ (by
      rw [callsFrom_append]; exact List.mem_append_right _ (List.mem_singleton.2 rfl))) h
  exact ⟨congrArg Prod.snd this, congrArg Prod.fst this⟩

theorem snoc_of_length {α : Type} {l : List α} {n : Nat} (h : l.length = n + 1) :
    ∃ a x, l = a ++ [x] ∧ a.length = n := by
  have hne : l ≠ [] := by intro e; rw [e] at h; cases h
  exact ⟨l.dropLast, l.getLast hne, (List.dropLast_concat_getLast hne).symm, by simp [h]⟩

/-- Without clashes lists of groups of the same length with the same result are equal. -/
theorem chain_inj : ∀ (n : Nat) {a b : List (List Nat)} {s : St}, a.length = n → b.length = n →
    NoClash (callsFrom a s ++ callsFrom b s) → chain a s = chain b s → a = b := by
  intro n
  induction n with
  | zero =>
    intro a b s ha hb _ _
    rw [List.eq_nil_of_length_eq_zero ha, List.eq_nil_of_length_eq_zero hb]
  | succ n ih =>
    intro a b s ha hb hn h
    obtain ⟨a, x, rfl, ha'⟩ := snoc_of_length ha
    obtain ⟨b, y, rfl, hb'⟩ := snoc_of_length hb
    obtain ⟨rfl, h'⟩ := chain_last hn h
    rw [ih ha' hb' (hn.sub fun z hz => ?_) h']
    rw [callsFrom_append, callsFrom_append]
    rcases List.mem_append.1 hz with hz | hz
    · exact List.mem_append_left _ (List.mem_append_left _ hz)
    · exact List.mem_append_right _ (List.mem_append_left _ hz)

theorem chunks_flatten : ∀ (fuel : Nat) (ws : List Nat), ws.length ≤ 16 * fuel →
    (chunks fuel ws).flatten = ws := by
  intro fuel
  induction fuel with
  | zero => intro ws h; rw [List.eq_nil_of_length_eq_zero (by omega : ws.length = 0)]; rfl
  | succ n ih =>
    intro ws h
    cases ws with
    | nil => rfl
    | cons w ws =>
      have := ih ((w :: ws).drop 16) (by rw [List.length_drop]; omega)
      simp only [chunks, List.flatten_cons, this, List.take_append_drop]

theorem chunks_length : ∀ (fuel k : Nat) (ws : List Nat), ws.length = 16 * k → k ≤ fuel →
    (chunks fuel ws).length = k ∧ ∀ c ∈ chunks fuel ws, c.length = 16 := by
  intro fuel
  induction fuel with
  | zero =>
    intro k ws h hk
    exact ⟨by simp [chunks]; omega, by simp [chunks]⟩
  | succ n ih =>
    intro k ws h hk
    cases ws with
    | nil => simp only [List.length_nil] at h; exact ⟨by simp [chunks]; omega, by simp [chunks]⟩
    | cons w ws =>
      obtain ⟨i1, i2⟩ := ih (k - 1) ((w :: ws).drop 16) (by rw [List.length_drop]; omega) (by omega)
      have hpos : 0 < k := by simp only [List.length_cons] at h; omega
      refine ⟨by simp only [chunks, List.length_cons, i1]; omega, ?_⟩
      intro c hc
      simp only [chunks, List.mem_cons] at hc
      rcases hc with rfl | hc
      · rw [List.length_take]; omega
      · exact i2 c hc

/-! ## Words -/

theorem words_append : ∀ (n : Nat) (p q : Bytes), p.length = 4 * n → words (p ++ q) = words p ++ words q := by
  intro n
  induction n with
  | zero => intro p q h; rw [List.eq_nil_of_length_eq_zero (by omega : p.length = 0)]; rfl
  | succ n ih =>
    intro p q h
    match p, h with
    | a :: b :: c :: d :: p, h =>
      simp only [List.length_cons] at h
      simp only [List.cons_append, words, ih p q (by omega)]

theorem words_length : ∀ (n : Nat) (p : Bytes), p.length = 4 * n → (words p).length = n := by
  intro n
  induction n with
  | zero => intro p h; rw [List.eq_nil_of_length_eq_zero (by omega : p.length = 0)]; rfl
  | succ n ih =>
    intro p h
    match p, h with
    | a :: b :: c :: d :: p, h =>
      simp only [List.length_cons] at h
      simp only [words, List.length_cons, ih p (by omega)]

theorem words_inj : ∀ (n : Nat) {p q : Bytes}, p.length = 4 * n → q.length = 4 * n → words p = words q →
    p = q := by
  intro n
  induction n with
  | zero =>
    intro p q hp hq _
    rw [List.eq_nil_of_length_eq_zero (by omega : p.length = 0), List.eq_nil_of_length_eq_zero (by omega : q.length = 0)]
  | succ n ih =>
    intro p q hp hq h
    match p, q, hp, hq, h with
    | a :: b :: c :: d :: p, a' :: b' :: c' :: d' :: q, hp, hq, h =>
      simp only [List.length_cons] at hp hq
      simp only [words, List.cons.injEq] at h
      have := ih (by omega) (by omega) h.2
      have h1 := h.1
      have := a.toNat_lt; have := b.toNat_lt; have := c.toNat_lt; have := d.toNat_lt
      have := a'.toNat_lt; have := b'.toNat_lt; have := c'.toNat_lt; have := d'.toNat_lt
      rw [ih (p := p) (q := q) (by omega) (by omega) h.2,
        UInt8.toNat_inj.1 (by omega : a.toNat = a'.toNat), UInt8.toNat_inj.1 (by omega : b.toNat = b'.toNat),
        UInt8.toNat_inj.1 (by omega : c.toNat = c'.toNat), UInt8.toNat_inj.1 (by omega : d.toNat = d'.toNat)]

/-! ## Padding -/

/-- The padded string without the length. -/
def padBody (bs : Bytes) : Bytes := bs ++ 0x80 :: List.replicate ((119 - bs.length % 64) % 64) 0

theorem pad_eq (bs : Bytes) : pad bs = padBody bs ++ (leBytes (bs.length * 8) 8).reverse := by
  simp [pad, padBody]

theorem padBody_length (bs : Bytes) : ∃ k, (padBody bs).length + 8 = 64 * (k + 1) ∧ k + 1 ≤ bs.length / 64 + 2 := by
  simp only [padBody, List.length_append, List.length_cons, List.length_replicate]
  refine ⟨(bs.length + ((119 - bs.length % 64) % 64) + 9) / 64 - 1, ?_, ?_⟩ <;> omega

/-- Strings of the same length with the same padding are the same. -/
theorem padBody_inj {a b : Bytes} (hl : a.length = b.length) (h : pad a = pad b) : a = b := by
  rw [pad_eq, pad_eq, padBody, padBody, List.append_assoc, List.append_assoc] at h
  exact (List.append_inj h hl).1

theorem block_range (s : St) (ws : List Nat) :
    (block s ws).a < 2 ^ 32 ∧ (block s ws).b < 2 ^ 32 ∧ (block s ws).c < 2 ^ 32 ∧ (block s ws).d < 2 ^ 32 ∧
    (block s ws).e < 2 ^ 32 ∧ (block s ws).f < 2 ^ 32 ∧ (block s ws).g < 2 ^ 32 ∧ (block s ws).h < 2 ^ 32 := by
  simp only [block, add]
  refine ⟨?_, ?_, ?_, ?_, ?_, ?_, ?_, ?_⟩ <;> exact Nat.mod_lt _ (by decide)

theorem be4_inj {m n : Nat} (hm : m < 2 ^ 32) (hn : n < 2 ^ 32) (h : be4 m = be4 n) : m = n :=
  leBytes_inj (len := 4) (by simpa using hm) (by simpa using hn) (List.reverse_inj.1 h)

theorem state_eq {s t : St} {ws vs : List Nat}
    (h : be4 (block s ws).a ++ be4 (block s ws).b ++ be4 (block s ws).c ++ be4 (block s ws).d ++
        be4 (block s ws).e ++ be4 (block s ws).f ++ be4 (block s ws).g ++ be4 (block s ws).h =
      be4 (block t vs).a ++ be4 (block t vs).b ++ be4 (block t vs).c ++ be4 (block t vs).d ++
        be4 (block t vs).e ++ be4 (block t vs).f ++ be4 (block t vs).g ++ be4 (block t vs).h) :
    block s ws = block t vs := by
  obtain ⟨r1, r2, r3, r4, r5, r6, r7, r8⟩ := block_range s ws
  obtain ⟨q1, q2, q3, q4, q5, q6, q7, q8⟩ := block_range t vs
  generalize block s ws = x at *
  generalize block t vs = y at *
  have hl : ∀ n, (be4 n).length = 4 := fun n => by simp [be4, leBytes_length]
  obtain ⟨h, h8⟩ := List.append_inj' h (by simp only [hl])
  obtain ⟨h, h7⟩ := List.append_inj' h (by simp only [hl])
  obtain ⟨h, h6⟩ := List.append_inj' h (by simp only [hl])
  obtain ⟨h, h5⟩ := List.append_inj' h (by simp only [hl])
  obtain ⟨h, h4⟩ := List.append_inj' h (by simp only [hl])
  obtain ⟨h, h3⟩ := List.append_inj' h (by simp only [hl])
  obtain ⟨h1, h2⟩ := List.append_inj' h (by simp only [hl])
  obtain ⟨⟩ := x
  obtain ⟨⟩ := y
  simp only [St.mk.injEq]
  exact ⟨be4_inj r1 q1 h1, be4_inj r2 q2 h2, be4_inj r3 q3 h3, be4_inj r4 q4 h4, be4_inj r5 q5 h5,
    be4_inj r6 q6 h6, be4_inj r7 q7 h7, be4_inj r8 q8 h8⟩

/-- The groups of a string: the last one is given by the body and ends with the length. -/
theorem groups (bs : Bytes) : ∃ k a x, chunks (bs.length / 64 + 2) (words (pad bs)) = a ++ [x] ∧
    a.length = k ∧ x.length = 16 ∧ words (pad bs) = a.flatten ++ x ∧ (pad bs).length = 64 * (k + 1) ∧
    x.drop 14 = words (leBytes (bs.length * 8) 8).reverse := by
  obtain ⟨k, hk, hk'⟩ := padBody_length bs
  have hp : (pad bs).length = 64 * (k + 1) := by
    rw [pad_eq, List.length_append, List.length_reverse, leBytes_length, hk]
  have hw := words_length (16 * (k + 1)) (pad bs) (by omega)
  obtain ⟨h1, h2⟩ := chunks_length (bs.length / 64 + 2) (k + 1) (words (pad bs)) hw hk'
  have h3 := chunks_flatten (bs.length / 64 + 2) (words (pad bs)) (by omega)
  obtain ⟨a, x, e, ha⟩ := snoc_of_length h1
  rw [e] at h2 h3
  have hx : x.length = 16 := h2 x (List.mem_append_right _ (List.mem_singleton.2 rfl))
  simp only [List.flatten_append, List.flatten_cons, List.flatten_nil, List.append_nil] at h3
  refine ⟨k, a, x, e, ha, hx, h3.symm, hp, ?_⟩
  have hb : words (pad bs) = words (padBody bs) ++ words (leBytes (bs.length * 8) 8).reverse := by
    rw [pad_eq, words_append (16 * k + 14) _ _ (by omega)]
  have hl2 := words_length 2 (leBytes (bs.length * 8) 8).reverse (by rw [List.length_reverse, leBytes_length])
  rw [← h3] at hb
  have e2 : a.flatten ++ x.take 14 ++ x.drop 14 = words (padBody bs) ++ words (leBytes (bs.length * 8) 8).reverse := by
    rw [List.append_assoc, List.take_append_drop, hb]
  exact (List.append_inj' e2 (by rw [List.length_drop, hl2]; omega)).2

end CSV.Sha
