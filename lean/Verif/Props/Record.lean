import Verif.Props.Engine
import Verif.Props.Merkle
import Verif.Spec.Record

/-!
# C76: ids of nested records
-/

namespace CSV

private theorem id_bytes [Env] {x : Exec Bytes32} {bs : Bytes}
    (h : (do let a ← x; .ok a.bytes : Exec Bytes) = .ok bs) : ∃ a, x = .ok a ∧ bs = a.bytes := by
  obtain ⟨a, h1, h2⟩ := bind_ok_iff.1 h
  exact ⟨a, h1, (Except.ok.inj h2).symm⟩

theorem Record.fine_calls [Env] : ∀ (r : Record) (x : r.Val), r.Sound x → ∀ c ∈ r.calls x, c.Fine
  | .nil, _, _ => by simp [Record.calls]
  | .serialized _ _ rest, v, h | .option _ _ rest, v, h | .concealed _ _ _ _ _ rest, v, h
  | .list _ _ _ _ rest, v, h | .set _ _ _ _ rest, v, h | .map _ _ _ _ _ _ rest, v, h =>
    List.forall_mem_cons.2 ⟨h.1, Record.fine_calls rest v.2 h.2⟩
  | .hash _ _ _ sub rest, v, h => by
    refine List.forall_mem_cons.2 ⟨⟨trivial, fun bs e => ?_⟩, Record.fine_calls rest v.2 h.2⟩
    obtain ⟨a, _, rfl⟩ := id_bytes e
    rw [a.len]; decide
  | .merkle _ _ sub rest, v, h => by
    refine List.forall_mem_cons.2 ⟨⟨trivial, fun bs e => ?_⟩, Record.fine_calls rest v.2 h.2⟩
    obtain ⟨a, _, rfl⟩ := id_bytes e
    rw [a.len]; decide

private theorem same_types : ∀ (r : Record) (x y : r.Val),
    CallsRel Call.SameTypes (r.calls x) (r.calls y)
  | .nil, _, _ => .nil
  | .serialized _ _ rest, v, w => .cons (.serialized _ _ _) (same_types rest v.2 w.2)
  | .option _ _ rest, v, w => .cons (.option _ _ _) (same_types rest v.2 w.2)
  | .concealed _ _ _ _ _ rest, v, w => .cons (.concealed _ _ _ _ _) (same_types rest v.2 w.2)
  | .list _ _ _ _ rest, v, w => .cons (.list _ _ _ _ _) (same_types rest v.2 w.2)
  | .set _ _ _ _ rest, v, w => .cons (.set _ _ _ _ _) (same_types rest v.2 w.2)
  | .map _ _ _ _ _ _ rest, v, w => .cons (.map _ _ _ _ _ _) (same_types rest v.2 w.2)
  | .hash _ _ _ _ rest, v, w => .cons (.hash _ _ _ _) (same_types rest v.2 w.2)
  | .merkle _ _ _ rest, v, w => .cons (.merkle _ _ _ _) (same_types rest v.2 w.2)

/-- The id of a record is the tagged hash of the bytes of its calls. -/
private theorem id_inv [Env] {r : Record} {id : IdType} {x : r.Val} {a : Bytes32} (hs : r.Sound x)
    (h : r.id id x = .ok a) : ∃ d, callsBytes (r.calls x) = .ok d ∧ a = taggedSha id.tag d :=
  letI := r.encode id
  C36_tagged (α := r.Val) r.calls (fun _ _ _ => rfl) x a h fun c hc => (Record.fine_calls r x hs c hc).2

private theorem rel_of_bytes [Env] {r : Record} {x y : r.Val} {d : Bytes} (hx : r.Sound x)
    (hy : r.Sound y) (h1 : callsBytes (r.calls x) = .ok d) (h2 : callsBytes (r.calls y) = .ok d) :
    CallsRel Call.SameData (r.calls x) (r.calls y) :=
  C41_bytes (same_types r x y) (fun c hc => (List.mem_append.1 hc).elim
    (fun h => (Record.fine_calls r x hx c h).1) fun h => (Record.fine_calls r y hy c h).1) h1 h2

private theorem callsBytes_cons [Env] {c : Call} {cs : List Call} {d : Bytes}
    (h : callsBytes (c :: cs) = .ok d) : ∃ d1 d2, c.bytes = .ok d1 ∧ callsBytes cs = .ok d2 := by
  obtain ⟨d1, h1, h2⟩ := bind_ok_iff.1 h
  obtain ⟨d2, h2, _⟩ := bind_ok_iff.1 h2
  exact ⟨d1, d2, h1, h2⟩

theorem Record.own_mem [Env] {tag : String} {cs : List Call} {d : Bytes} (h : callsBytes cs = .ok d) :
    taggedInput tag d ∈ ownInput tag cs := by
  rw [ownInput, h]
  simp

/-- Two records with equal ids agree, if records with related calls do. -/
private theorem id_agree [Env] {r : Record} {id : IdType} {x y : r.Val} {a : Bytes32}
    (ih : CallsRel Call.SameData (r.calls x) (r.calls y) → (∃ d, callsBytes (r.calls x) = .ok d) →
      (∃ d, callsBytes (r.calls y) = .ok d) → NoCollision (r.nested x ++ r.nested y) → r.Agree x y)
    (hx : r.Sound x) (hy : r.Sound y) (h1 : r.id id x = .ok a) (h2 : r.id id y = .ok a)
    (hn : NoCollision (r.inputs id x ++ r.inputs id y)) : r.Agree x y := by
  obtain ⟨d1, e1, rfl⟩ := id_inv hx h1
  obtain ⟨d2, e2, e3⟩ := id_inv hy h2
  have := hn _ (List.mem_append_left _ (List.mem_append_left _ (Record.own_mem e1))) _
    (List.mem_append_right _ (List.mem_append_left _ (Record.own_mem e2))) e3
  obtain rfl := (taggedInput_inj this).2
  refine ih (rel_of_bytes hx hy e1 e2) ⟨_, e1⟩ ⟨_, e2⟩ (hn.mono fun s hs => ?_)
  rcases List.mem_append.1 hs with h | h
  · exact List.mem_append_left _ (List.mem_append_right _ h)
  · exact List.mem_append_right _ (List.mem_append_right _ h)

theorem Record.mapM_cons_inv {α β : Type} {f : α → Exec β} {a : α} {l : List α} {bs : List β}
    (h : (a :: l).mapM f = .ok bs) : ∃ b bs', f a = .ok b ∧ l.mapM f = .ok bs' ∧ bs = b :: bs' := by
  rw [List.mapM_cons] at h
  obtain ⟨b, h1, h2⟩ := bind_ok_iff.1 h
  obtain ⟨bs', h3, h4⟩ := bind_ok_iff.1 h2
  exact ⟨b, bs', h1, h3, (Except.ok.inj h4).symm⟩

/-- Lists of records with equal ids agree, if records with equal ids do. -/
private theorem list_agree [Env] {r : Record} : ∀ {l m : List r.Val} {ids : List Bytes32},
    (∀ x ∈ l, ∀ y ∈ m, ∀ a, r.id merkleHashId x = .ok a → r.id merkleHashId y = .ok a → r.Agree x y) →
    l.mapM (r.id merkleHashId) = .ok ids → m.mapM (r.id merkleHashId) = .ok ids →
    ListRel r.Agree l m := by
  intro l
  induction l with
  | nil =>
    intro m ids _ h1 h2
    cases h1
    cases m with
    | nil => exact .nil
    | cons y m => obtain ⟨_, _, _, _, h⟩ := Record.mapM_cons_inv h2; cases h
  | cons x l ihl =>
    intro m ids hr h1 h2
    obtain ⟨a, ids', e1, e2, rfl⟩ := Record.mapM_cons_inv h1
    cases m with
    | nil => cases h2
    | cons y m =>
      obtain ⟨b, ids'', e3, e4, e⟩ := Record.mapM_cons_inv h2
      simp only [List.cons.injEq] at e
      obtain ⟨rfl, rfl⟩ := e
      exact .cons (hr x (by simp) y (by simp) _ e1 e3)
        (ihl (fun x hx y hy => hr x (by simp [hx]) y (by simp [hy])) e2 e4)

private theorem mapM_length {α β : Type} {f : α → Exec β} : ∀ {l : List α} {bs : List β},
    l.mapM f = .ok bs → bs.length = l.length
  | [], _, h => by cases h; rfl
  | _ :: l, _, h => by
    obtain ⟨_, _, _, h2, rfl⟩ := Record.mapM_cons_inv h
    simp [mapM_length h2]

/-- One leaf is not confused with the root over several. -/
private theorem not_mixed [Env] {r : Record} {l : List r.Val} {ids1 ids2 : List Bytes32} {I : List Bytes}
    (hs : ∀ x ∈ l, r.Sound x ∧ ∀ n : MerkleNode, callsBytes (r.calls x) ≠ .ok n.enc)
    (h1 : l.mapM (r.id merkleHashId) = .ok ids1) (k1 : ids1.length = 1) (k2 : ids2.length ≠ 1)
    (hn : NoCollision I) (m1 : ∀ x ∈ l, ∀ s ∈ ownInput MERKLE_TAG (r.calls x), s ∈ I)
    (m2 : ∀ s ∈ listInputs ids2, s ∈ I) (h : listRoot ids1 = listRoot ids2) : False := by
  match l, ids1, k1, h1 with
  | [], [_], _, h1 => cases h1
  | x :: l, [a], _, h1 =>
    obtain ⟨a', ids', e1, _, e⟩ := Record.mapM_cons_inv h1
    cases e
    obtain ⟨d, e2, rfl⟩ := id_inv (hs x (by simp)).1 e1
    obtain ⟨k, a, b, e3, e4⟩ := listRoot_node k2
    rw [e3] at h
    have := hn _ (m1 x (by simp) _ (Record.own_mem e2)) _ (m2 _ e4) h
    exact (hs x (by simp)).2 _ (e2.trans (congrArg _ (taggedInput_inj this).2))

private theorem merkle_agree [Env] {r : Record} {l m : List r.Val} {ids1 ids2 : List Bytes32}
    {a : MerkleHash}
    (hr : ∀ x ∈ l, ∀ y ∈ m, ∀ a, r.id merkleHashId x = .ok a → r.id merkleHashId y = .ok a → r.Agree x y)
    (hs1 : ∀ x ∈ l, r.Sound x ∧ ∀ n : MerkleNode, callsBytes (r.calls x) ≠ .ok n.enc)
    (hs2 : ∀ x ∈ m, r.Sound x ∧ ∀ n : MerkleNode, callsBytes (r.calls x) ≠ .ok n.enc)
    (h1 : l.mapM (r.id merkleHashId) = .ok ids1) (h2 : m.mapM (r.id merkleHashId) = .ok ids2)
    {I : List Bytes} (hn : NoCollision I)
    (m1 : ∀ x ∈ l, ∀ s ∈ ownInput MERKLE_TAG (r.calls x), s ∈ I)
    (m2 : ∀ x ∈ m, ∀ s ∈ ownInput MERKLE_TAG (r.calls x), s ∈ I)
    (n1 : ∀ s ∈ listInputs ids1, s ∈ I) (n2 : ∀ s ∈ listInputs ids2, s ∈ I)
    (e1 : merklizeHashes ids1 = .ok a) (e2 : merklizeHashes ids2 = .ok a) :
    ListRel r.Agree l m := by
  have len : ∀ {ids : List Bytes32}, merklizeHashes ids = .ok a → ids.length < 2 ^ 32 := by
    intro ids h
    rcases Nat.lt_or_ge ids.length (2 ^ 32) with h' | h'
    · exact h'
    · rw [(C32_limits ids).2 h'] at h; cases h
  have w1 := len e1
  have w2 := len e2
  rw [merklizeHashes_eq w1] at e1
  rw [merklizeHashes_eq w2, ← e1, Except.ok.injEq] at e2
  have : ids1 = ids2 := by
    by_cases k1 : ids1.length = 1
    · by_cases k2 : ids2.length = 1
      · match ids1, ids2, k1, k2 with
        | [_], [_], _, _ => exact congrArg (fun z => [z]) e2.symm
      · exact (not_mixed hs1 h1 k1 k2 hn m1 n2 e2.symm).elim
    · by_cases k2 : ids2.length = 1
      · exact (not_mixed hs2 h2 k2 k1 hn m2 n1 e2).elim
      · exact listRoot_binding k1 k2 w1 w2 (hn.mono fun s hs => (List.mem_append.1 hs).elim (n1 s) (n2 s))
          e2.symm
  subst this
  exact list_agree hr h1 h2

private theorem agree_of_rel [Env] : ∀ (r : Record) (x y : r.Val), r.Sound x → r.Sound y →
    CallsRel Call.SameData (r.calls x) (r.calls y) → (∃ d, callsBytes (r.calls x) = .ok d) →
    (∃ d, callsBytes (r.calls y) = .ok d) → NoCollision (r.nested x ++ r.nested y) → r.Agree x y
  | .nil, _, _, _, _, _, _, _, _ => trivial
  | .serialized _ _ rest, v, w, hx, hy, .cons hd ht, ⟨_, e1⟩, ⟨_, e2⟩, hn
  | .option _ _ rest, v, w, hx, hy, .cons hd ht, ⟨_, e1⟩, ⟨_, e2⟩, hn
  | .list _ _ _ _ rest, v, w, hx, hy, .cons hd ht, ⟨_, e1⟩, ⟨_, e2⟩, hn
  | .set _ _ _ _ rest, v, w, hx, hy, .cons hd ht, ⟨_, e1⟩, ⟨_, e2⟩, hn
  | .map _ _ _ _ _ _ rest, v, w, hx, hy, .cons hd ht, ⟨_, e1⟩, ⟨_, e2⟩, hn => by
    obtain ⟨_, d1, _, e1⟩ := callsBytes_cons e1
    obtain ⟨_, d2, _, e2⟩ := callsBytes_cons e2
    refine ⟨?_, agree_of_rel rest v.2 w.2 hx.2 hy.2 ht ⟨d1, e1⟩ ⟨d2, e2⟩ hn⟩
    generalize v.1 = a at hd
    generalize w.1 = b at hd
    cases hd
    rfl
  | .concealed _ _ _ _ _ rest, v, w, hx, hy, .cons hd ht, ⟨_, e1⟩, ⟨_, e2⟩, hn => by
    obtain ⟨_, d1, _, e1⟩ := callsBytes_cons e1
    obtain ⟨_, d2, _, e2⟩ := callsBytes_cons e2
    refine ⟨?_, agree_of_rel rest v.2 w.2 hx.2 hy.2 ht ⟨d1, e1⟩ ⟨d2, e2⟩ hn⟩
    cases hd with
    | concealed _ _ _ _ _ h => exact h
  | .hash _ _ id sub rest, v, w, hx, hy, .cons hd ht, ⟨_, e1⟩, ⟨_, e2⟩, hn => by
    obtain ⟨_, d1, b1, e1⟩ := callsBytes_cons e1
    obtain ⟨_, d2, b2, e2⟩ := callsBytes_cons e2
    refine ⟨?_, agree_of_rel rest v.2 w.2 hx.2 hy.2 ht ⟨d1, e1⟩ ⟨d2, e2⟩ (hn.mono fun s hs => ?_)⟩
    · obtain ⟨a, h1, _⟩ := id_bytes b1
      have h : sub.id id v.1 = sub.id id w.1 := by
        cases hd with
        | hash _ _ _ _ h => exact h
      refine id_agree (id := id) (agree_of_rel sub v.1 w.1 hx.1 hy.1) hx.1 hy.1 h1 (h.symm.trans h1)
        (hn.mono fun s hs => ?_)
      rcases List.mem_append.1 hs with h | h
      · exact List.mem_append_left _ (List.mem_append_left _ h)
      · exact List.mem_append_right _ (List.mem_append_left _ h)
    · rcases List.mem_append.1 hs with h | h
      · exact List.mem_append_left _ (List.mem_append_right _ h)
      · exact List.mem_append_right _ (List.mem_append_right _ h)
  | .merkle _ _ sub rest, v, w, hx, hy, .cons hd ht, ⟨_, e1⟩, ⟨_, e2⟩, hn => by
    obtain ⟨_, d1, b1, e1⟩ := callsBytes_cons e1
    obtain ⟨_, d2, b2, e2⟩ := callsBytes_cons e2
    refine ⟨?_, agree_of_rel rest v.2 w.2 hx.2 hy.2 ht ⟨d1, e1⟩ ⟨d2, e2⟩ (hn.mono fun s hs => ?_)⟩
    · obtain ⟨a, h1, _⟩ := id_bytes b1
      have h : @merklize _ _ (sub.encode merkleHashId) v.1 = @merklize _ _ (sub.encode merkleHashId) w.1 := by
        cases hd with
        | merkle _ _ _ _ h => exact h
      have h2 := h.symm.trans h1
      obtain ⟨ids1, f1, g1⟩ := bind_ok_iff.1 h1
      obtain ⟨ids2, f2, g2⟩ := bind_ok_iff.1 h2
      have f1' : v.1.mapM (sub.id merkleHashId) = .ok ids1 := f1
      have f2' : w.1.mapM (sub.id merkleHashId) = .ok ids2 := f2
      simp only [Record.nested, f1', f2'] at hn
      refine merkle_agree (fun x mx y my a i1 i2 => ?_) hx.1 hy.1 f1' f2' hn ?_ ?_ ?_ ?_ g1 g2
      · refine id_agree (id := merkleHashId) (agree_of_rel sub x y (hx.1 x mx).1 (hy.1 y my).1)
          (hx.1 x mx).1 (hy.1 y my).1 i1 i2 (hn.mono fun s hs => ?_)
        rcases List.mem_append.1 hs with h | h
        · exact List.mem_append_left _ (List.mem_append_left _ (List.mem_append_left _
            (List.mem_flatMap.2 ⟨x, mx, h⟩)))
        · exact List.mem_append_right _ (List.mem_append_left _ (List.mem_append_left _
            (List.mem_flatMap.2 ⟨y, my, h⟩)))
      · exact fun x mx s hs => List.mem_append_left _ (List.mem_append_left _ (List.mem_append_left _
            (List.mem_flatMap.2 ⟨x, mx, List.mem_append_left _ hs⟩)))
      · exact fun x mx s hs => List.mem_append_right _ (List.mem_append_left _ (List.mem_append_left _
            (List.mem_flatMap.2 ⟨x, mx, List.mem_append_left _ hs⟩)))
      · exact fun s hs => List.mem_append_left _ (List.mem_append_left _ (List.mem_append_right _ hs))
      · exact fun s hs => List.mem_append_right _ (List.mem_append_left _ (List.mem_append_right _ hs))
    · rcases List.mem_append.1 hs with h | h
      · exact List.mem_append_left _ (List.mem_append_right _ h)
      · exact List.mem_append_right _ (List.mem_append_right _ h)

/-- **C76** Two values of any nested record type with the same id agree in all fields at any depth -
confidential fields up to their concealed form -, unless two of the strings hashed for them
collide. -/
theorem C76_binding [Env] (r : Record) (id : IdType) (x y : r.Val) (hx : r.Sound x) (hy : r.Sound y)
    (a : Bytes32) (h1 : r.id id x = .ok a) (h2 : r.id id y = .ok a)
    (hn : NoCollision (r.inputs id x ++ r.inputs id y)) : r.Agree x y :=
  id_agree (agree_of_rel r x y hx hy) hx hy h1 h2 hn

theorem Record.eq_of_agree [Env] : ∀ (r : Record) (x y : r.Val), r.Plain → r.Agree x y → x = y
  | .nil, _, _, _, _ => rfl
  | .serialized _ _ rest, v, w, hp, h | .option _ _ rest, v, w, hp, h | .list _ _ _ _ rest, v, w, hp, h
  | .set _ _ _ _ rest, v, w, hp, h | .map _ _ _ _ _ _ rest, v, w, hp, h =>
    Prod.ext h.1 (Record.eq_of_agree rest v.2 w.2 hp h.2)
  | .hash _ _ _ sub rest, v, w, hp, h =>
    Prod.ext (Record.eq_of_agree sub v.1 w.1 hp.1 h.1) (Record.eq_of_agree rest v.2 w.2 hp.2 h.2)
  | .merkle _ _ sub rest, v, w, hp, h => by
    refine Prod.ext ?_ (Record.eq_of_agree rest v.2 w.2 hp.2 h.2)
    have h := h.1
    generalize v.1 = l at h
    generalize w.1 = m at h
    show l = m
    induction h with
    | nil => rfl
    | cons hd _ ih => rw [Record.eq_of_agree sub _ _ hp.1 hd, ih]

/-- **C76** Without confidential fields the id fixes the value. -/
theorem C76_plain [Env] (r : Record) (id : IdType) (hp : r.Plain) (x y : r.Val) (hx : r.Sound x)
    (hy : r.Sound y) (a : Bytes32) (h1 : r.id id x = .ok a) (h2 : r.id id y = .ok a)
    (hn : NoCollision (r.inputs id x ++ r.inputs id y)) : x = y :=
  Record.eq_of_agree r x y hp (C76_binding r id x y hx hy a h1 h2 hn)

theorem Record.id_def [Env] (r : Record) (id : IdType) (x : r.Val) : r.id id x = (do
    let e ← (do
      let e ← (CommitEngine.new id.tag).runAll (r.calls x)
      .ok { e with finished := true } : Exec CommitEngine)
    .ok e.hasher.finish) := rfl

private theorem hash_congr [Env] {α : Type} (st : StrictType α) (ce : CommitEncode α) {v w : α}
    (h : commitId v = commitId w) (e : CommitEngine) :
    (Call.hash st ce v).run e = (Call.hash st ce w).run e := by
  simp only [Call.run, CommitEngine.commitToHash, h]

private theorem concealed_congr [Env] {α β : Type} (st : StrictType α) (co : Conceal α β)
    (se : StrictEncode β) {v w : α} (h : co.conceal v = co.conceal w) (e : CommitEngine) :
    (Call.concealed st co se v).run e = (Call.concealed st co se w).run e := by
  simp only [Call.run, CommitEngine.commitToConcealed, h]

private theorem merkle_congr [Env] {α : Type} (st : StrictType α) (ce : CommitEncode α) {v w : List α}
    (h : merklize v = merklize w) (e : CommitEngine) :
    (Call.merkle st ce v).run e = (Call.merkle st ce w).run e := by
  simp only [Call.run, CommitEngine.commitToMerkle, h]

private theorem run_cons [Env] {c c' : Call} {cs cs' : List Call} (e : CommitEngine)
    (h : c.run e = c'.run e) (ht : ∀ e : CommitEngine, e.runAll cs = e.runAll cs') :
    e.runAll (c :: cs) = e.runAll (c' :: cs') := by
  simp only [CommitEngine.runAll, h, ht]

private theorem id_congr [Env] {r : Record} (id : IdType) {x y : r.Val}
    (h : ∀ e : CommitEngine, e.runAll (r.calls x) = e.runAll (r.calls y)) : r.id id x = r.id id y := by
  rw [Record.id_def, Record.id_def, h]

private theorem mapM_congr [Env] {r : Record} {l m : List r.Val} {R : r.Val → r.Val → Prop}
    (hr : ∀ x y, R x y → r.id merkleHashId x = r.id merkleHashId y) (h : ListRel R l m) :
    l.mapM (r.id merkleHashId) = m.mapM (r.id merkleHashId) := by
  induction h with
  | nil => rfl
  | cons hd _ ih => rw [List.mapM_cons, List.mapM_cons, hr _ _ hd, ih]

private theorem run_agree [Env] : ∀ (r : Record) (x y : r.Val), r.Agree x y → ∀ e : CommitEngine,
    e.runAll (r.calls x) = e.runAll (r.calls y)
  | .nil, _, _, _, _ => rfl
  | .serialized _ se rest, v, w, h, e =>
    run_cons e (congrArg (fun z => (Call.serialized se z).run e) h.1) (run_agree rest v.2 w.2 h.2)
  | .option _ se rest, v, w, h, e =>
    run_cons e (congrArg (fun z => (Call.option se z).run e) h.1) (run_agree rest v.2 w.2 h.2)
  | .list _ se min max rest, v, w, h, e =>
    run_cons e (congrArg (fun z => (Call.list se min max z).run e) h.1) (run_agree rest v.2 w.2 h.2)
  | .set _ se min max rest, v, w, h, e =>
    run_cons e (congrArg (fun z => (Call.set se min max z).run e) h.1) (run_agree rest v.2 w.2 h.2)
  | .map _ _ sk se min max rest, v, w, h, e =>
    run_cons e (congrArg (fun z => (Call.map sk se min max z).run e) h.1) (run_agree rest v.2 w.2 h.2)
  | .concealed _ _ st co se rest, v, w, h, e =>
    run_cons e (concealed_congr st co se h.1 e) (run_agree rest v.2 w.2 h.2)
  | .hash _ _ id sub rest, v, w, h, e =>
    run_cons e (hash_congr _ _ (id_congr id (run_agree sub v.1 w.1 h.1)) e) (run_agree rest v.2 w.2 h.2)
  | .merkle _ _ sub rest, v, w, h, e =>
    run_cons e (merkle_congr _ _ (congrArg (fun z => z >>= merklizeHashes)
      (mapM_congr (fun x y hxy => id_congr merkleHashId (run_agree sub x y hxy)) h.1)) e)
      (run_agree rest v.2 w.2 h.2)

/-- **C76** Values which agree have the same id: it depends on confidential data only through the
concealed forms. -/
theorem C76_agree [Env] (r : Record) (id : IdType) (x y : r.Val) (h : r.Agree x y) :
    r.id id x = r.id id y := by
  rw [Record.id_def, Record.id_def, run_agree r x y h]

/-- **C76** Hence for every user-defined type which commits to itself as such a record: absent
collisions the commitment ids of two values are equal exactly if the values agree. -/
theorem C76_types [Env] {α : Type} [CommitEncode α] (r : Record) (fields : α → r.Val)
    (hc : ByCalls α fun x => r.calls (fields x)) (x y : α) (hx : r.Sound (fields x))
    (hy : r.Sound (fields y)) (a b : Bytes32) (h1 : commitId x = .ok a) (h2 : commitId y = .ok b)
    (hn : NoCollision (r.inputs (CommitEncode.idType α) (fields x) ++
      r.inputs (CommitEncode.idType α) (fields y))) :
    a = b ↔ r.Agree (fields x) (fields y) := by
  have e : ∀ z : α, commitId z = r.id (CommitEncode.idType α) (fields z) := fun z => by
    rw [Record.id_def]
    simp only [commitId, commit, hc _ z]
  rw [e] at h1 h2
  constructor
  · rintro rfl
    exact C76_binding r _ _ _ hx hy a h1 h2 hn
  · intro h
    rw [C76_agree r _ _ _ h, h2] at h1
    exact (Except.ok.inj h1).symm

/-! A record with a public field, a field of two leaves of which the second is concealed, a nested
record and a merklized list of records; and three values of it: the second differs from the first
only in what is concealed, the third in one element of the list. -/

/-- Concealing drops the second leaf. -/
@[instance_reducible]
def Sample.dropSecond : Conceal (Leaf × Leaf) Leaf := ⟨fun x => .ok x.1⟩

def Sample.itemRecord : Record := .serialized Leaf inferInstance .nil

def Sample.record : Record :=
  .serialized Leaf inferInstance (.concealed (Leaf × Leaf) Leaf ⟨"Test", some "Blinded"⟩ Sample.dropSecond
    inferInstance (.hash "Test" (some "Item") strictHashId Sample.itemRecord
      (.merkle "Test" (some "Item") Sample.itemRecord .nil)))

def Sample.recordValue (blinding item : UInt64) : Sample.record.Val :=
  (.entropy 1 1, (.entropy 2 2, .entropy blinding 0), (.entropy 3 3, ()),
    [(.entropy 4 0, ()), (.entropy item 1, ()), (.entropy 6 2, ())], ())

theorem Sample.leaf_fine [Env] (l : Leaf) : (Call.serialized (α := Leaf) inferInstance l).Fine :=
  ⟨leaf_delimited, fun bs h => by
    cases h
    exact Nat.lt_of_le_of_lt l.enc_length_le (by decide)⟩

theorem Sample.item_sound [Env] (l : Leaf) : Sample.itemRecord.Sound (l, ()) ∧
    ∀ n : MerkleNode, callsBytes (Sample.itemRecord.calls (l, ())) ≠ .ok n.enc := by
  refine ⟨⟨Sample.leaf_fine l, trivial⟩, fun n h => ?_⟩
  have : l.enc ++ [] = n.enc := Except.ok.inj h
  have := congrArg List.length this
  rw [List.append_nil, n.enc_length] at this
  have := l.enc_length_le
  omega

theorem Sample.record_sound [Env] (blinding item : UInt64) :
    Sample.record.Sound (Sample.recordValue blinding item) := by
  refine ⟨Sample.leaf_fine _, ⟨leaf_delimited, fun bs h => ?_⟩, (Sample.item_sound _).1,
    fun x _ => Sample.item_sound x.1, trivial⟩
  cases h
  exact Nat.lt_of_le_of_lt (Leaf.enc_length_le (.entropy 2 2)) (by decide)

example : letI := realEnv true
    Sample.record.Sound (Sample.recordValue 7 5) ∧ Sample.record.Sound (Sample.recordValue 8 5) ∧
    Sample.record.Sound (Sample.recordValue 7 9) ∧
    (Sample.record.id mpcCommitmentId (Sample.recordValue 7 5)).toOption.isSome = true ∧
    (Sample.record.id mpcCommitmentId (Sample.recordValue 7 9)).toOption.isSome = true ∧
    NoCollision (Sample.record.inputs mpcCommitmentId (Sample.recordValue 7 5) ++
      Sample.record.inputs mpcCommitmentId (Sample.recordValue 7 9)) ∧
    Sample.record.Agree (Sample.recordValue 7 5) (Sample.recordValue 8 5) ∧
    Sample.recordValue 7 5 ≠ Sample.recordValue 8 5 ∧
    ¬ Sample.record.Agree (Sample.recordValue 7 5) (Sample.recordValue 7 9) := by
  refine ⟨@Sample.record_sound (realEnv true) _ _, @Sample.record_sound (realEnv true) _ _,
    @Sample.record_sound (realEnv true) _ _, by decide +kernel, by decide +kernel, by decide +kernel,
    ⟨rfl, rfl, ⟨rfl, trivial⟩, .cons ⟨rfl, trivial⟩ (.cons ⟨rfl, trivial⟩ (.cons ⟨rfl, trivial⟩ .nil)),
      trivial⟩, fun h => ?_, fun h => ?_⟩
  · have := congrArg (fun v : Sample.record.Val => v.2.1.2) h
    exact absurd this (by decide)
  · cases h.2.2.2.1 with
    | cons _ h => cases h with
      | cons h _ => exact absurd h.1 (by decide)

/-- Leaves are such a type, with one field. -/
example : ByCalls Leaf fun x => Sample.itemRecord.calls (x, ()) := fun _ x e => by
  simp only [Sample.itemRecord, Record.calls, CommitEngine.runAll, Call.run, CommitEncode.commitEncode]
  cases e.commitToSerialized x <;> rfl

end CSV
