import Verif.Props.Oracle

/-!
# How often a later answer of random hashes is a value fixed before

Lemmas for C112 to C115.
-/

namespace CSV.Later

/-- Nothing that was asked for only later has a hash that was fixed already. -/
def InTime (fx : Transcript → List Bytes32) (early all : Transcript) : Prop :=
  ∀ x ∈ all, x.1 ∈ early.strings ∨ x.2 ∉ fx early

theorem InTime.early {fx : Transcript → List Bytes32} {early all : Transcript} (h : InTime fx early all)
    {e : Env} (he : all.Of e) {s : Bytes} (hs : s ∈ all.strings) (hf : e.sha256 s ∈ fx early) :
    s ∈ early.strings := by
  obtain ⟨x, hx, rfl⟩ := List.mem_map.1 hs
  rcases h x hx with h | h
  · exact h
  · rw [he x hx] at hf
    exact absurd hf h

/-! ## How often a later answer is one of the fixed values -/

/-- After `q` questions, one of the next `k` values of the tape is fixed already. -/
def hit (ask : Transcript → Bytes) (fx : Transcript → List Bytes32) (k : Nat) :
    Nat → List Bytes32 → Transcript → Bool
  | 0, tape, m => (tape.take k).any fun y => decide (y ∈ fx m)
  | q + 1, tape, m =>
    match m.answer (ask m) with
    | some y => hit ask fx k q tape ((ask m, y) :: m)
    | none =>
      match tape with
      | [] => false
      | y :: tape => hit ask fx k q tape ((ask m, y) :: m)

theorem answer_mem {m : Transcript} {x : Bytes} {y : Bytes32} (h : m.answer x = some y) :
    x ∈ m.strings ∧ (x, y) ∈ m := by
  obtain ⟨e, he, rfl⟩ := Option.map_eq_some_iff.1 h
  have h1 := List.find?_some he
  have h1 : e.1 = x := eq_of_beq h1
  have h2 := List.mem_of_find?_eq_some he
  subst h1
  exact ⟨List.mem_map_of_mem h2, h2⟩

theorem run_later (ask : Transcript → Bytes) (S : List Bytes32) (early : List Bytes) :
    ∀ (k : Nat) (tape : List Bytes32) (m : Transcript), (tape.take k).any (fun y => decide (y ∈ S)) = false →
    (∀ x ∈ m, x.1 ∈ early ∨ x.2 ∉ S) → ∀ x ∈ Transcript.run ask k tape m, x.1 ∈ early ∨ x.2 ∉ S
  | 0, _, _, _, h => h
  | k + 1, tape, m, ht, h => by
    cases hy : m.answer (ask m) with
    | some y =>
      have : Transcript.run ask (k + 1) tape m = Transcript.run ask k tape ((ask m, y) :: m) := by
        cases tape <;> simp only [Transcript.run, hy]
      rw [this]
      refine run_later ask S early k tape _ ?_ ?_
      · rw [List.any_eq_false] at ht ⊢
        intro z hz
        exact ht z ((List.take_sublist_take_left (Nat.le_succ k)).mem hz)
      · intro x hx
        rcases List.mem_cons.1 hx with rfl | hx
        · exact h _ (answer_mem hy).2
        · exact h x hx
    | none =>
      rcases tape with _ | ⟨y, tape⟩
      · simp only [Transcript.run, hy]; exact h
      · simp only [Transcript.run, hy]
        rw [List.take_succ_cons, List.any_cons, Bool.or_eq_false_iff] at ht
        refine run_later ask S early k tape _ ht.2 ?_
        intro x hx
        rcases List.mem_cons.1 hx with rfl | hx
        · exact .inr (of_decide_eq_false ht.1)
        · exact h x hx

theorem run_inTime (ask : Transcript → Bytes) (fx : Transcript → List Bytes32) (k : Nat) :
    ∀ (q : Nat) (tape : List Bytes32) (m : Transcript), hit ask fx k q tape m = false →
    InTime fx (Transcript.run ask q tape m) (Transcript.run ask (q + k) tape m)
  | 0, tape, m, h => by
    rw [Nat.zero_add]
    exact run_later ask _ _ k tape m h fun x hx => .inl (List.mem_map_of_mem hx)
  | q + 1, tape, m, h => by
    rw [Nat.succ_add]
    cases hy : m.answer (ask m) with
    | some y =>
      have h1 : ∀ n, Transcript.run ask (n + 1) tape m = Transcript.run ask n tape ((ask m, y) :: m) := by
        intro n; cases tape <;> simp only [Transcript.run, hy]
      rw [h1, h1]
      refine run_inTime ask fx k q tape _ ?_
      cases tape <;> simpa only [hit, hy] using h
    | none =>
      rcases tape with _ | ⟨y, tape⟩
      · simp only [Transcript.run, hy]
        exact fun x hx => .inl (List.mem_map_of_mem hx)
      · simp only [Transcript.run, hy]
        refine run_inTime ask fx k q tape _ ?_
        simpa only [hit, hy] using h

theorem sum_add (A : List Bytes32) (f g : Bytes32 → Nat) :
    (A.map fun a => f a + g a).sum = (A.map f).sum + (A.map g).sum := by
  induction A with
  | nil => rfl
  | cons a A ih => simp only [List.map_cons, List.sum_cons, ih]; omega

theorem countP_pairs (A : List Bytes32) (P : List Bytes32 → Bool) : ∀ L : List (List Bytes32),
    (L.flatMap fun l => A.map (· :: l)).countP P = (A.map fun a => L.countP fun l => P (a :: l)).sum
  | [] => by
    simp only [List.flatMap_nil, List.countP_nil]
    induction A with
    | nil => rfl
    | cons a A ih => rw [List.map_cons, List.sum_cons, ← ih]
  | l :: L => by
    rw [List.flatMap_cons, List.countP_append, countP_pairs A P L, List.countP_map]
    have h1 : (A.map fun a => (l :: L).countP fun l => P (a :: l)).sum
        = (A.map fun a => (if P (a :: l) then 1 else 0) + L.countP fun l => P (a :: l)).sum := by
      congr 1
      refine List.map_congr_left fun a _ => ?_
      rw [List.countP_cons, Nat.add_comm]
    rw [h1, sum_add]
    congr 1
    clear h1
    induction A with
    | nil => rfl
    | cons a A ih =>
      rw [List.countP_cons, List.map_cons, List.sum_cons, ih, Nat.add_comm]
      rfl

theorem countP_next (N : Nat) (P : List Bytes32 → Bool) :
    (idLists (N + 1)).countP P = (allIds.map fun a => (idLists N).countP fun l => P (a :: l)).sum :=
  countP_pairs allIds P (idLists N)

theorem sum_le (A : List Bytes32) (f : Bytes32 → Nat) (M B : Nat) (h : ∀ a, M * f a ≤ B) :
    M * (A.map f).sum ≤ A.length * B := by
  induction A with
  | nil => simp
  | cons a A ih =>
    rw [List.map_cons, List.sum_cons, Nat.mul_add, List.length_cons, Nat.succ_mul]
    have := h a
    omega

theorem countP_in (A : List Bytes32) (hA : A.Nodup) : ∀ S : List Bytes32,
    A.countP (fun a => decide (a ∈ S)) ≤ S.length
  | [] => by simp
  | s :: S => by
    have h1 := countP_in A hA S
    have h2 : A.countP (fun a => decide (a ∈ s :: S)) ≤ A.count s + A.countP fun a => decide (a ∈ S) := by
      clear h1 hA
      induction A with
      | nil => simp
      | cons a A ih =>
        simp only [List.countP_cons, List.count_cons, List.mem_cons]
        by_cases e1 : a = s <;> by_cases e2 : a ∈ S <;> simp_all <;> omega
    have h3 : A.count s ≤ 1 := List.nodup_iff_count.1 hA s
    rw [List.length_cons]
    omega

theorem sum_in (A : List Bytes32) (S : List Bytes32) (f : Bytes32 → Nat) (B C : Nat)
    (h : ∀ a, f a ≤ (if a ∈ S then B else 0) + C) :
    (A.map f).sum ≤ A.countP (fun a => decide (a ∈ S)) * B + A.length * C := by
  induction A with
  | nil => simp
  | cons a A ih =>
    rw [List.map_cons, List.sum_cons, List.countP_cons, List.length_cons, Nat.add_mul, Nat.succ_mul]
    have := h a
    by_cases e : a ∈ S <;> simp only [e, decide_true, decide_false, if_true, if_false] at this ⊢ <;> simp <;> omega

theorem arith {M Y Z L X S k : Nat} (h1 : Y ≤ Z * L + M * X) (h2 : Z ≤ S) (ih : M * X ≤ k * S * L) :
    M * Y ≤ (k + 1) * S * (M * L) :=
  calc M * Y ≤ M * (Z * L + M * X) := Nat.mul_le_mul_left _ h1
    _ ≤ M * (S * L + k * S * L) := Nat.mul_le_mul_left _ (Nat.add_le_add (Nat.mul_le_mul_right _ h2) ih)
    _ = (k + 1) * S * (M * L) := by
      rw [← Nat.add_mul, Nat.add_comm, ← Nat.succ_mul, Nat.mul_left_comm]

/-- How many tapes have one of `S` among the first `k` values. -/
theorem count_take (S : List Bytes32) : ∀ (k N : Nat),
    2 ^ 256 * (idLists N).countP (fun l => (l.take k).any fun y => decide (y ∈ S))
      ≤ k * S.length * (idLists N).length
  | 0, N => by simp
  | k + 1, 0 => by simp [idLists]
  | k + 1, N + 1 => by
    have ih := count_take S k N
    rw [countP_next]
    have h1 := sum_in allIds S
      (fun a => (idLists N).countP fun l => ((a :: l).take (k + 1)).any fun y => decide (y ∈ S))
      (idLists N).length ((idLists N).countP fun l => (l.take k).any fun y => decide (y ∈ S)) (by
        intro a
        by_cases e : a ∈ S
        · rw [if_pos e]
          exact Nat.le_trans List.countP_le_length (Nat.le_add_right _ _)
        · rw [if_neg e, Nat.zero_add]
          exact Nat.le_of_eq (List.countP_congr fun l _ => by simp [List.take_succ_cons, e]))
    have h2 := countP_in allIds allIds_nodup S
    rw [allIds_length] at h1
    have h3 : (idLists (N + 1)).length = 2 ^ 256 * (idLists N).length := by
      rw [idLists_length, idLists_length, Nat.pow_succ, Nat.mul_comm]
    rw [h3]
    exact arith h1 h2 ih

theorem count_hit (ask : Transcript → Bytes) (fx : Transcript → List Bytes32) (c : Nat) {d : Nat}
    (hfx : ∀ m, (fx m).length ≤ c * m.length + d) (k : Nat) :
    ∀ (q N : Nat) (m : Transcript),
    2 ^ 256 * (idLists N).countP (fun l => hit ask fx k q l m)
      ≤ k * (c * (m.length + q) + d) * (idLists N).length
  | 0, N, m => by
    exact Nat.le_trans (count_take (fx m) k N) (Nat.mul_le_mul_right _ (Nat.mul_le_mul_left _ (hfx m)))
  | q + 1, N, m => by
    cases hy : m.answer (ask m) with
    | some y =>
      have ih := count_hit ask fx c hfx k q N ((ask m, y) :: m)
      rw [List.length_cons, Nat.succ_add_eq_add_succ] at ih
      refine Nat.le_trans (Nat.le_of_eq ?_) ih
      congr 1
      refine List.countP_congr fun l _ => ?_
      cases l <;> simp only [hit, hy]
    | none =>
      rcases N with _ | N
      · simp [idLists, hit, hy]
      · have ih := fun y => count_hit ask fx c hfx k q N ((ask m, y) :: m)
        simp only [List.length_cons, Nat.succ_add_eq_add_succ] at ih
        rw [countP_next]
        have h1 := sum_le allIds (fun a => (idLists N).countP fun l => hit ask fx k (q + 1) (a :: l) m) (2 ^ 256)
          (k * (c * (m.length + (q + 1)) + d) * (idLists N).length) (by
            intro a
            refine Nat.le_trans (Nat.le_of_eq ?_) (ih a)
            congr 1
            exact List.countP_congr fun l _ => by simp only [hit, hy])
        refine Nat.le_trans h1 (Nat.le_of_eq ?_)
        rw [allIds_length, idLists_length, idLists_length]
        generalize (2 : Nat) ^ 256 = M
        rw [Nat.pow_succ, Nat.mul_left_comm, Nat.mul_comm M]

theorem good (ask : Transcript → Bytes) (fx : Transcript → List Bytes32) (c : Nat) {d : Nat}
    (hfx : ∀ m, (fx m).length ≤ c * m.length + d) (q k : Nat) :
    ∃ good : List (List Bytes32), good.Sublist (idLists (q + k)) ∧
      2 ^ 256 * (idLists (q + k)).length ≤ 2 ^ 256 * good.length + k * (c * q + d) * (idLists (q + k)).length ∧
      ∀ tape ∈ good, InTime fx (Transcript.run ask q tape []) (Transcript.run ask (q + k) tape []) := by
  refine ⟨(idLists (q + k)).filter fun l => !hit ask fx k q l [], List.filter_sublist, ?_, ?_⟩
  · have h1 := count_hit ask fx c hfx k q (q + k) []
    have h2 := List.length_eq_countP_add_countP (fun l => hit ask fx k q l []) (l := idLists (q + k))
    rw [← List.countP_eq_length_filter]
    have h3 : (idLists (q + k)).countP (fun l => !hit ask fx k q l [])
        = (idLists (q + k)).countP fun l => decide ¬ hit ask fx k q l [] = true :=
      List.countP_congr fun l _ => by simp
    rw [List.length_nil, Nat.zero_add] at h1
    rw [h3]
    generalize (idLists (q + k)).length = L at *
    generalize (idLists (q + k)).countP _ = X at *
    generalize (idLists (q + k)).countP _ = Y at *
    generalize k * (c * q + d) * L = Z at *
    omega
  · intro tape ht
    have hh : hit ask fx k q tape [] = false := by simpa using (List.mem_filter.1 ht).2
    exact run_inTime ask fx k q tape [] hh

theorem run_mono (ask : Transcript → Bytes) : ∀ (k : Nat) (tape : List Bytes32) (m : Transcript),
    ∀ x ∈ m, x ∈ Transcript.run ask k tape m
  | 0, _, _, _, h => h
  | k + 1, tape, m, x, h => by
    cases hy : m.answer (ask m) with
    | some y =>
      have : Transcript.run ask (k + 1) tape m = Transcript.run ask k tape ((ask m, y) :: m) := by
        cases tape <;> simp only [Transcript.run, hy]
      rw [this]
      exact run_mono ask k tape _ x (List.mem_cons_of_mem _ h)
    | none =>
      rcases tape with _ | ⟨y, tape⟩
      · simp only [Transcript.run, hy]; exact h
      · simp only [Transcript.run, hy]
        exact run_mono ask k tape _ x (List.mem_cons_of_mem _ h)

theorem run_extends (ask : Transcript → Bytes) (k : Nat) : ∀ (q : Nat) (tape : List Bytes32) (m : Transcript),
    ∀ x ∈ Transcript.run ask q tape m, x ∈ Transcript.run ask (q + k) tape m
  | 0, tape, m, x, h => by
    rw [Nat.zero_add]
    exact run_mono ask k tape m x h
  | q + 1, tape, m, x, h => by
    rw [Nat.succ_add]
    cases hy : m.answer (ask m) with
    | some y =>
      have h1 : ∀ n, Transcript.run ask (n + 1) tape m = Transcript.run ask n tape ((ask m, y) :: m) := by
        intro n; cases tape <;> simp only [Transcript.run, hy]
      rw [h1] at h ⊢
      exact run_extends ask k q tape _ x h
    | none =>
      rcases tape with _ | ⟨y, tape⟩
      · simp only [Transcript.run, hy] at h ⊢; exact h
      · simp only [Transcript.run, hy] at h ⊢
        exact run_extends ask k q tape _ x h

/-! ## Tapes of which only the beginning matters -/

theorem run_take (ask : Transcript → Bytes) : ∀ (q : Nat) (tape : List Bytes32) (m : Transcript) (q' : Nat), q ≤ q' →
    Transcript.run ask q (tape.take q') m = Transcript.run ask q tape m
  | 0, _, _, _, _ => by simp only [Transcript.run]
  | q + 1, tape, m, q', h => by
    cases hy : m.answer (ask m) with
    | some y =>
      have h1 : ∀ tape, Transcript.run ask (q + 1) tape m = Transcript.run ask q tape ((ask m, y) :: m) := by
        intro tape; cases tape <;> simp only [Transcript.run, hy]
      rw [h1, h1]
      exact run_take ask q tape _ q' (by omega)
    | none =>
      obtain ⟨q', rfl⟩ : ∃ r, q' = r + 1 := ⟨q' - 1, by omega⟩
      rcases tape with _ | ⟨y, tape⟩
      · rfl
      · rw [List.take_succ_cons]
        simp only [Transcript.run, hy]
        exact run_take ask q tape _ q' (by omega)

theorem sum_mul (A : List Bytes32) (c : Nat) (f : Bytes32 → Nat) : (A.map fun a => c * f a).sum = c * (A.map f).sum := by
  induction A with
  | nil => rfl
  | cons a A ih => simp only [List.map_cons, List.sum_cons, ih, Nat.mul_add]

theorem count_prefix (k : Nat) : ∀ (q : Nat) (P : List Bytes32 → Bool),
    (idLists (q + k)).countP (fun l => P (l.take q)) = (idLists k).length * (idLists q).countP P
  | 0, P => by
    rw [Nat.zero_add]
    cases h : P [] <;> simp [h, idLists]
  | q + 1, P => by
    rw [Nat.succ_add, countP_next, countP_next, ← sum_mul]
    congr 1
    refine List.map_congr_left fun a _ => ?_
    exact count_prefix k q fun l => P (a :: l)

theorem lift {q k C X : Nat} {g : List (List Bytes32)} (hg : g.Sublist (idLists q))
    (hn : C * (idLists q).length ≤ C * g.length + X * (idLists q).length) :
    ∃ g' : List (List Bytes32), g'.Sublist (idLists (q + k)) ∧
      C * (idLists (q + k)).length ≤ C * g'.length + X * (idLists (q + k)).length ∧ ∀ l ∈ g', l.take q ∈ g := by
  refine ⟨(idLists (q + k)).filter fun l => decide (l.take q ∈ g), List.filter_sublist, ?_, ?_⟩
  · rw [← List.countP_eq_length_filter, count_prefix k q fun l => decide (l ∈ g)]
    have h1 := hg.countP_le (p := fun l => decide (l ∈ g))
    rw [List.countP_eq_length.2 fun x hx => decide_eq_true hx] at h1
    have h2 : (idLists (q + k)).length = (idLists k).length * (idLists q).length := by
      rw [idLists_length, idLists_length, idLists_length, Nat.pow_add, Nat.mul_comm]
    rw [h2]
    calc C * ((idLists k).length * (idLists q).length) = (idLists k).length * (C * (idLists q).length) :=
          Nat.mul_left_comm ..
      _ ≤ (idLists k).length * (C * g.length + X * (idLists q).length) := Nat.mul_le_mul_left _ hn
      _ = C * ((idLists k).length * g.length) + X * ((idLists k).length * (idLists q).length) := by
          rw [Nat.mul_add, Nat.mul_left_comm _ C, Nat.mul_left_comm _ X]
      _ ≤ _ := Nat.add_le_add_right (Nat.mul_le_mul_left _ (Nat.mul_le_mul_left _ h1)) _
  · intro l hl
    exact of_decide_eq_true (List.mem_filter.1 hl).2

/-- Two shares of a list have a share in common which lacks no more than both together. -/
theorem both_sublists {L g1 g2 : List (List Bytes32)} (h1 : g1.Sublist L) (h2 : g2.Sublist L) :
    ∃ g : List (List Bytes32), g.Sublist L ∧ g1.length + g2.length ≤ g.length + L.length ∧
      ∀ x ∈ g, x ∈ g1 ∧ x ∈ g2 := by
  refine ⟨g1.filter fun x => decide (x ∈ g2), List.filter_sublist.trans h1, ?_, ?_⟩
  · have a1 := List.length_eq_countP_add_countP (fun x => decide (x ∈ g2)) (l := g1)
    have a2 := List.length_eq_countP_add_countP (fun x => decide (x ∈ g2)) (l := L)
    have a3 := h1.countP_le (p := fun x => decide ¬ decide (x ∈ g2) = true)
    have a4 := h2.countP_le (p := fun x => decide (x ∈ g2))
    have a5 : g2.countP (fun x => decide (x ∈ g2)) = g2.length :=
      List.countP_eq_length.2 fun x hx => decide_eq_true hx
    rw [← List.countP_eq_length_filter]
    omega
  · intro x hx
    have := List.mem_filter.1 hx
    exact ⟨this.1, of_decide_eq_true this.2⟩

/-! ## All the time -/

theorem run_succ (ask : Transcript → Bytes) : ∀ (n : Nat) (tape : List Bytes32) (m : Transcript),
    Transcript.run ask (n + 1) tape m = Transcript.run ask n tape m ∨
      ∃ y, Transcript.run ask (n + 1) tape m = (ask (Transcript.run ask n tape m), y) :: Transcript.run ask n tape m
  | 0, tape, m => by
    cases hy : m.answer (ask m) with
    | some y =>
      exact .inr ⟨y, by cases tape <;> simp only [Transcript.run, hy]⟩
    | none =>
      rcases tape with _ | ⟨y, tape⟩
      · exact .inl (by simp only [Transcript.run, hy])
      · exact .inr ⟨y, by simp only [Transcript.run, hy]⟩
  | n + 1, tape, m => by
    cases hy : m.answer (ask m) with
    | some y =>
      have h1 : ∀ n, Transcript.run ask (n + 1) tape m = Transcript.run ask n tape ((ask m, y) :: m) := by
        intro n; cases tape <;> simp only [Transcript.run, hy]
      rw [h1, h1]
      exact run_succ ask n tape _
    | none =>
      rcases tape with _ | ⟨y, tape⟩
      · exact .inl (by simp only [Transcript.run, hy])
      · have h1 : ∀ n, Transcript.run ask (n + 1) (y :: tape) m = Transcript.run ask n tape ((ask m, y) :: m) := by
          intro n; simp only [Transcript.run, hy]
        rw [h1, h1]
        exact run_succ ask n tape _

/-- What was asked for was asked for a first time. -/
theorem first_asked (ask : Transcript → Bytes) (tape : List Bytes32) (s : Bytes) : ∀ n : Nat,
    s ∈ (Transcript.run ask n tape []).strings →
    ∃ i < n, ask (Transcript.run ask i tape []) = s ∧ s ∉ (Transcript.run ask i tape []).strings
  | 0, h => by cases h
  | n + 1, h => by
    by_cases hn : s ∈ (Transcript.run ask n tape []).strings
    · obtain ⟨i, hi, h⟩ := first_asked ask tape s n hn
      exact ⟨i, by omega, h⟩
    · rcases run_succ ask n tape [] with h' | ⟨y, h'⟩
      · rw [h'] at h; exact absurd h hn
      · rw [h'] at h
        rcases List.mem_cons.1 h with rfl | h
        · exact ⟨n, by omega, rfl, hn⟩
        · exact absurd h hn

/-- How often no answer is a value fixed when it is given. -/
theorem always (ask : Transcript → Bytes) (fx : Transcript → List Bytes32) (c d : Nat)
    (hfx : ∀ m, (fx m).length ≤ c * m.length + d) : ∀ n : Nat,
    ∃ good : List (List Bytes32), good.Sublist (idLists n) ∧
      2 * 2 ^ 256 * (idLists n).length ≤ 2 * 2 ^ 256 * good.length + (c * (n * (n - 1)) + 2 * (d * n)) * (idLists n).length ∧
      ∀ tape ∈ good, ∀ i < n, InTime fx (Transcript.run ask i tape []) (Transcript.run ask (i + 1) tape [])
  | 0 => ⟨idLists 0, List.Sublist.refl _, Nat.le_add_right _ _, fun _ _ i hi => absurd hi (Nat.not_lt_zero i)⟩
  | n + 1 => by
    obtain ⟨g0, s0, n0, c0⟩ := always ask fx c d hfx n
    obtain ⟨g1, s1, n1, c1⟩ := lift (k := 1) s0 n0
    obtain ⟨g2, s2, n2, c2⟩ := good ask fx c hfx n 1
    obtain ⟨g, s3, n3, c3⟩ := both_sublists s1 s2
    refine ⟨g, s3, ?_, ?_⟩
    · have e : c * ((n + 1) * (n + 1 - 1)) + 2 * (d * (n + 1)) = c * (n * (n - 1)) + 2 * (d * n) + 2 * (1 * (c * n + d)) := by
        have : (n + 1) * (n + 1 - 1) = n * (n - 1) + 2 * n := by
          rcases n with _ | n
          · rfl
          · simp only [Nat.add_sub_cancel, Nat.add_mul, Nat.mul_add]; omega
        rw [this, Nat.mul_add, Nat.mul_left_comm c 2 n, Nat.mul_add d]
        omega
      rw [e, Nat.add_mul, Nat.mul_assoc 2 (1 * (c * n + d))]
      generalize (c * (n * (n - 1)) + 2 * (d * n)) * (idLists (n + 1)).length = A at *
      generalize 1 * (c * n + d) * (idLists (n + 1)).length = B at *
      generalize (idLists (n + 1)).length = L at *
      omega
    · intro tape ht i hi
      rcases Nat.lt_or_ge i n with h | h
      · have := c0 _ (c1 tape (c3 tape ht).1) i h
        rw [run_take ask i tape [] n (by omega), run_take ask (i + 1) tape [] n (by omega)] at this
        exact this
      · obtain rfl : i = n := by omega
        exact c2 tape (c3 tape ht).2

/-- If no answer is a value fixed when it is given, and what is fixed remains so, then a string with a hash fixed at some time
was asked for by then. -/
theorem early_always (ask : Transcript → Bytes) (fx : Transcript → List Bytes32)
    (hm : ∀ m y, ∀ v ∈ fx m, v ∈ fx ((ask m, y) :: m)) {tape : List Bytes32} {n : Nat}
    (h : ∀ i < n, InTime fx (Transcript.run ask i tape []) (Transcript.run ask (i + 1) tape []))
    {e : Env} (he : (Transcript.run ask n tape []).Of e) {s : Bytes} (hs : s ∈ (Transcript.run ask n tape []).strings)
    {i : Nat} (hi : i ≤ n) (hf : e.sha256 s ∈ fx (Transcript.run ask i tape [])) :
    s ∈ (Transcript.run ask i tape []).strings := by
  have mono : ∀ k, e.sha256 s ∈ fx (Transcript.run ask (i + k) tape []) := by
    intro k
    induction k with
    | zero => exact hf
    | succ k ih =>
      rcases run_succ ask (i + k) tape [] with h' | ⟨y, h'⟩
      · rw [← Nat.add_assoc, h']; exact ih
      · rw [← Nat.add_assoc, h']; exact hm _ _ _ ih
  have down : ∀ k, i + k ≤ n → s ∈ (Transcript.run ask (i + k) tape []).strings → s ∈ (Transcript.run ask i tape []).strings := by
    intro k
    induction k with
    | zero => exact fun _ h => h
    | succ k ih =>
      intro hk hs
      refine ih (by omega) ((h (i + k) (by omega)).early (e := e) ?_ hs (mono k))
      intro x hx
      refine he x ?_
      have := run_extends ask (n - (i + k + 1)) (i + k + 1) tape [] x hx
      rwa [show i + k + 1 + (n - (i + k + 1)) = n by omega] at this
  obtain ⟨k, rfl⟩ : ∃ k, n = i + k := ⟨n - i, by omega⟩
  exact down k (Nat.le_refl _) hs

end CSV.Later
