import Verif.Proofs.TwoWorlds
import Verif.Proofs.Sample

/-!
# C90: how many values of something hidden can be told apart
-/

namespace CSV

/-- Pigeonhole: what is pairwise distinct and found in a list is no longer than the list. -/
private theorem nodup_length {α β : Type} {R : α → β → Prop} (hR : ∀ a a' b, R a b → R a' b → a = a') :
    ∀ (l : List α) (q : List β), l.Nodup → (∀ a ∈ l, ∃ b ∈ q, R a b) → l.length ≤ q.length := by
  classical
  intro l
  induction l with
  | nil => intro q _ _; exact Nat.zero_le _
  | cons a l ih =>
    intro q hn h
    rw [List.nodup_cons] at hn
    obtain ⟨b, hb, hab⟩ := h a List.mem_cons_self
    obtain ⟨s, t, rfl⟩ := List.append_of_mem hb
    have := ih (s ++ t) hn.2 fun a' ha' => by
      obtain ⟨b', hb', h'⟩ := h a' (List.mem_cons_of_mem _ ha')
      refine ⟨b', ?_, h'⟩
      rcases List.mem_append.1 hb' with hs | ht
      · exact List.mem_append_left _ hs
      · rcases List.mem_cons.1 ht with rfl | ht
        · exact absurd (hR a a' b' hab h' ▸ ha') hn.1
        · exact List.mem_append_right _ ht
    simp only [List.length_append, List.length_cons] at this ⊢
    omega

/-- Observers under hash functions that are programmed at strings which tell the world. -/
private theorem few_worlds {ω ι α : Type} {f : Env} {x : ω → ι → Bytes} {h : ι → Bytes32} {w : ω → Env}
    (hw : ∀ u, Programmed f (x u) h (w u)) (hx : ∀ u u' i i', x u i = x u' i' → u = u') (o : Observer α)
    (l : List ω) (hl : l.Nodup) (hne : ∀ u ∈ l, o.run (w u) ≠ o.run f) : l.length ≤ (o.asked f).length := by
  refine nodup_length (R := fun u y => ∃ i, y = x u i) ?_ l (o.asked f) hl ?_
  · rintro u u' y ⟨i, rfl⟩ ⟨i', h⟩
    exact hx u u' i i' h
  · intro u hu
    apply Classical.byContradiction
    intro hn
    refine hne u hu (observer_same o fun y hy => (hw u).other y fun i hi => hn ⟨y, hy, i, hi⟩)

/-- Among distinct worlds, those in which the observer names the world. -/
private theorem few_right {ω ι : Type} {f : Env} {x : ω → ι → Bytes} {h : ι → Bytes32} {w : ω → Env}
    (hw : ∀ u, Programmed f (x u) h (w u)) (hx : ∀ u u' i i', x u i = x u' i' → u = u') (o : Observer ω)
    (l : List ω) (hl : l.Nodup) (hr : ∀ u ∈ l, o.run (w u) = u) : l.length ≤ (o.asked f).length + 1 := by
  classical
  have h1 := few_worlds hw hx o (l.filter fun u => u ≠ o.run f) (hl.filter _) fun u hu => by
    obtain ⟨hu, hne⟩ := List.mem_filter.1 hu
    rw [hr u hu]
    simpa using hne
  have h2 : (l.filter fun u => u = o.run f).length ≤ 1 := by
    refine nodup_length (R := fun a b => a = b) (fun _ _ _ h h' => h.trans h'.symm) _ [o.run f] (hl.filter _) ?_
    intro a ha
    exact ⟨_, List.mem_singleton_self _, by simpa using (List.mem_filter.1 ha).2⟩
  have h3 : (l.filter fun u => u = o.run f).length + (l.filter fun u => u ≠ o.run f).length = l.length := by
    rw [← List.countP_eq_length_filter, ← List.countP_eq_length_filter,
      List.length_eq_countP_add_countP (fun u => decide (u = o.run f)) (l := l)]
    simp
  omega

/-- A hash function can be programmed anywhere. -/
theorem programmed_exists {ι : Type} (f : Env) (x : ι → Bytes) (hx : ∀ i j, x i = x j → i = j)
    (h : ι → Bytes32) : ∃ w, Programmed f x h w := by
  classical
  refine ⟨⟨fun y => if hy : ∃ i, y = x i then h hy.choose else f.sha256 y, f.debug⟩, rfl, ?_, ?_⟩
  · intro i
    have hy : ∃ j, x i = x j := ⟨i, rfl⟩
    show (if hy : ∃ j, x i = x j then h hy.choose else _) = _
    rw [dif_pos hy, hx _ _ hy.choose_spec.symm]
  · intro y hy
    exact dif_neg fun ⟨i, hi⟩ => hy i hi

private theorem programmed_leaves {ι : Type} {f : Env} {x : ι → Leaf} {h : ι → Bytes32} {w : Env}
    (hw : Programmed f (fun i => @leafInput f (x i)) h w) : LeavesOnly f w := by
  intro y h1 h2
  refine hw.other y ?_
  rintro i rfl
  exact (@leafInput_length f _).elim h1 h2

/-- Leaves at programmed strings have the hashes programmed, the others have theirs. -/
private theorem leafHash_at {ι : Type} {f : Env} {x : ι → Leaf} {h : ι → Bytes32} {w : Env}
    (hw : Programmed f (fun i => @leafInput f (x i)) h w) (i : ι) : @leafHash w (x i) = h i := by
  show @sha w (@leafInput w (x i)) = _
  rw [(programmed_leaves hw).leafInput]
  exact hw.at_x i

private theorem leafHash_other {ι : Type} {f : Env} {x : ι → Leaf} {h : ι → Bytes32} {w : Env}
    (hw : Programmed f (fun i => @leafInput f (x i)) h w) {l : Leaf} (hl : ∀ i, l ≠ x i) :
    @leafHash w l = @leafHash f l := by
  show @sha w (@leafInput w l) = @sha f (@leafInput f l)
  rw [(programmed_leaves hw).leafInput]
  exact hw.other _ fun i hi => hl i (@leafInput_inj f _ _ hi)

private theorem LeavesOnly.both {f e1 e2 : Env} (h1 : LeavesOnly f e1) (h2 : LeavesOnly f e2) :
    LeavesOnly e1 e2 := fun x a b => (h2 x a b).trans (h1 x a b).symm

/-- **C90** The entropy. For each of its 2^64 values take the tree with that value, and a hash function
under which the unused slots have the hashes `h`, whatever the value, and which is `f` elsewhere. What is
disclosed is the same in all these worlds. So of the worlds an observer names the entropy in no more than
they ask questions, and one; and there are no more worlds than questions in which they answer anything
else than what they answer with no knowledge of the entropy. -/
theorem C90_entropy (f : Env) (h : UInt32 → Bytes32) (w : UInt64 → Env)
    (hw : ∀ u, Programmed f (fun i => @leafInput f (.entropy u i)) h (w u))
    (T : MerkleTree) (hT : T.Holds) (ps : List ProtocolId) (hp : ∀ p ∈ ps, ∃ m, T.messages.get p = some m) :
    (∀ u u', SameView (w u) (w u') { T with entropy := u } { T with entropy := u' } ps) ∧
    (∀ (o : Observer UInt64) (l : List UInt64), l.Nodup → (∀ u ∈ l, o.run (w u) = u) →
      l.length ≤ (o.asked f).length + 1) ∧
    ∀ (α : Type) (o : Observer α) (l : List UInt64), l.Nodup → (∀ u ∈ l, o.run (w u) ≠ o.run f) →
      l.length ≤ (o.asked f).length := by
  have hx : ∀ (u u' : UInt64) (i i' : UInt32), @leafInput f (.entropy u i) = @leafInput f (.entropy u' i') →
      u = u' := fun u u' i i' h => by
    have := leafInput_inj h
    simp only [Leaf.entropy.injEq] at this
    exact this.1
  refine ⟨fun u u' => ?_, fun o l hl hr => few_right hw hx o l hl hr,
    fun α o l hl hr => few_worlds hw hx o l hl hr⟩
  have lo := (programmed_leaves (x := fun i => .entropy u i) (hw u)).both
    (programmed_leaves (x := fun i => .entropy u' i) (hw u'))
  refine view_same (T1 := { T with entropy := u }) (T2 := { T with entropy := u' }) hT hT rfl rfl
    (fun p hps => by obtain ⟨m, hm⟩ := hp p hps; exact ⟨m, hm, hm⟩) rfl lo.branchHash lo.commitmentHash ?_
  intro i _
  simp only [MerkleTree.leafAt]
  cases T.map.get (UInt32.ofNat i) with
  | none =>
    exact (leafHash_at (x := fun i => .entropy u i) (hw u) (UInt32.ofNat i)).trans
      (leafHash_at (x := fun i => .entropy u' i) (hw u') (UInt32.ofNat i)).symm
  | some e =>
    have hne : ∀ u i, Leaf.inhabited e.1 e.2 ≠ .entropy u i := nofun
    exact (leafHash_other (x := fun i => .entropy u i) (hw u) (hne u)).trans
      (leafHash_other (x := fun i => .entropy u' i) (hw u') (hne u')).symm

/-- **C90** A message. For each of its 2^256 values take the tree which holds that value for the protocol
`p` and is otherwise given - all other messages, the entropy and the protocol may be known - and a hash
function under which this leaf has the hash `h`. What is disclosed is the same in all these worlds, and an
observer names the message in no more of them than they ask questions, and one. -/
theorem C90_message (f : Env) (p : ProtocolId) (h : Bytes32) (w : Message → Env)
    (hw : ∀ m, Programmed f (fun _ : Unit => @leafInput f (.inhabited p m)) (fun _ => h) (w m))
    (T : Message → MerkleTree) (hT : ∀ m, (T m).Holds) (hp : ∀ m, (T m).messages.get p = some m)
    (hsame : ∀ m m', (T m).method = (T m').method ∧ (T m).depth = (T m').depth ∧
      (T m).cofactor = (T m').cofactor ∧ (T m).entropy = (T m').entropy ∧
      ∀ p', p' ≠ p → (T m).messages.get p' = (T m').messages.get p')
    (ps : List ProtocolId) (hps : ∀ m, ∀ p' ∈ ps, p' ≠ p ∧ ((T m).messages.get p').isSome) :
    (∀ m m', SameView (w m) (w m') (T m) (T m') ps) ∧
    (∀ (o : Observer Message) (l : List Message), l.Nodup → (∀ m ∈ l, o.run (w m) = m) →
      l.length ≤ (o.asked f).length + 1) ∧
    ∀ (α : Type) (o : Observer α) (l : List Message), l.Nodup → (∀ m ∈ l, o.run (w m) ≠ o.run f) →
      l.length ≤ (o.asked f).length := by
  have hx : ∀ (m m' : Message) (_ _ : Unit), @leafInput f (.inhabited p m) = @leafInput f (.inhabited p m') →
      m = m' := fun m m' _ _ h => by
    have := leafInput_inj h
    simp only [Leaf.inhabited.injEq, true_and] at this
    exact this
  refine ⟨fun m m' => ?_, fun o l hl hr => few_right hw hx o l hl hr,
    fun α o l hl hr => few_worlds hw hx o l hl hr⟩
  have lo := (programmed_leaves (x := fun _ : Unit => .inhabited p m) (hw m)).both
    (programmed_leaves (x := fun _ : Unit => .inhabited p m') (hw m'))
  obtain ⟨e1, e2, e3, e4, e5⟩ := hsame m m'
  refine view_same (hT m) (hT m') e2 e3 (fun p' hp' => ?_) e1 lo.branchHash lo.commitmentHash ?_
  · obtain ⟨hne, hs⟩ := hps m p' hp'
    obtain ⟨n, hn⟩ := Option.isSome_iff_exists.1 hs
    exact ⟨n, hn, (e5 p' hne) ▸ hn⟩
  intro i _
  -- what a slot holds in the one tree it holds in the other, up to the message of `p`
  have key : ∀ (m m' : Message) (e : ProtocolId × Message), (T m).map.get (UInt32.ofNat i) = some e →
      (T m').map.get (UInt32.ofNat i) = some (if e.1 = p then (p, m') else e) := by
    intro m m' e he
    obtain ⟨-, d2, d3, -, d5⟩ := hsame m m'
    obtain ⟨k1, k2⟩ := (hT m _ _).1 he
    have g := mem_bmapGet (T m).messages.sorted (k := e.1) (v := e.2) k1
    split
    · next hpe =>
      refine (hT m' _ _).2 ⟨bmapGet_mem (hp m'), ?_⟩
      rw [k2, d2, d3, hpe]
    · next hpe =>
      refine (hT m' _ _).2 ⟨bmapGet_mem ((d5 e.1 hpe).symm.trans g), ?_⟩
      rw [k2, d2, d3]
  simp only [MerkleTree.leafAt]
  cases g : (T m).map.get (UInt32.ofNat i) with
  | none =>
    cases g' : (T m').map.get (UInt32.ofNat i) with
    | none =>
      rw [e4]
      have hne : ∀ u i a, Leaf.entropy u i ≠ .inhabited p a := nofun
      exact (leafHash_other (x := fun _ : Unit => .inhabited p m) (hw m) (fun _ => hne _ _ _)).trans
        (leafHash_other (x := fun _ : Unit => .inhabited p m') (hw m') (fun _ => hne _ _ _)).symm
    | some e => rw [key m' m e g'] at g; cases g
  | some e =>
    rw [key m m' e g]
    simp only
    obtain ⟨q, n⟩ := e
    by_cases hq : q = p
    · have : n = m := by
        have g' := mem_bmapGet (T m).messages.sorted ((hT m _ _).1 g).1
        rw [← OrdMap.get, hq, hp m] at g'
        exact (Option.some.inj g').symm
      subst hq this
      rw [if_pos rfl]
      exact (leafHash_at (x := fun _ : Unit => .inhabited q n) (hw n) ()).trans
        (leafHash_at (x := fun _ : Unit => .inhabited q m') (hw m') ()).symm
    · rw [if_neg hq]
      have hne : ∀ a, Leaf.inhabited q n ≠ .inhabited p a := by
        intro a ha
        simp only [Leaf.inhabited.injEq] at ha
        exact hq ha.1
      exact (leafHash_other (x := fun _ : Unit => .inhabited p m) (hw m) (fun _ => hne _)).trans
        (leafHash_other (x := fun _ : Unit => .inhabited p m') (hw m') (fun _ => hne _)).symm

/-- An observer who tries some values of the entropy against the hash of an unused slot. -/
def tryEntropy (f : Env) (i : UInt32) (h : Bytes32) (other : UInt64) : List UInt64 → Observer UInt64
  | [] => .answer other
  | u :: us => .ask (@leafInput f (.entropy u i)) fun y =>
      if y = h then .answer u else tryEntropy f i h other us

/-- **C90** The bound is met: trying values of the entropy against the hash of an unused slot, which a
proof may contain (`C81_guess`), names the entropy in as many worlds as values are tried, and one. -/
theorem C90_sharp (f : Env) (h : UInt32 → Bytes32) (w : UInt64 → Env)
    (hw : ∀ u, Programmed f (fun i => @leafInput f (.entropy u i)) h (w u)) (i : UInt32)
    (hf : ∀ u, f.sha256 (@leafInput f (.entropy u i)) ≠ h i) (other : UInt64) (us : List UInt64) :
    (∀ u ∈ other :: us, (tryEntropy f i (h i) other us).run (w u) = u) ∧
    ((tryEntropy f i (h i) other us).asked f).length = us.length := by
  constructor
  · induction us with
    | nil => intro u hu; rw [List.mem_singleton.1 hu]; rfl
    | cons v us ih =>
      intro u hu
      simp only [tryEntropy, Observer.run]
      by_cases huv : u = v
      · subst huv
        rw [(hw u).at_x, if_pos rfl]
        rfl
      · rw [(hw u).other, if_neg (hf v)]
        · refine ih u ?_
          simp only [List.mem_cons] at hu ⊢
          rcases hu with h | h | h
          · exact .inl h
          · exact absurd h huv
          · exact .inr h
        · intro j hj
          have := leafInput_inj hj
          simp only [Leaf.entropy.injEq] at this
          exact huv this.1.symm
  · induction us with
    | nil => rfl
    | cons v us ih =>
      simp only [tryEntropy, Observer.asked, if_neg (hf v), List.length_cons, ih]

namespace Sample

private theorem ascending {κ α : Type} [OrdKey κ] {l : List (κ × α)}
    (h : (l.map Prod.fst).Pairwise fun a b => OrdKey.key a < OrdKey.key b) : BMapOk l := by
  rw [List.pairwise_map] at h
  exact h

/-- Messages of which that of protocol 5 is not known. -/
private def messagesWith (m : Message) : MessageMap :=
  ⟨[(p1, m1), (p5, m), (p6, m6)],
    ascending (by decide : [p1, p5, p6].Pairwise fun a b => OrdKey.key a < OrdKey.key b),
    (by decide : 3 ≤ MEDIUM_MAX)⟩

private def treeWith (m : Message) : MerkleTree :=
  ⟨.sha256t, 2, 77, 1, messagesWith m,
    ⟨[(0, (p6, m6)), (1, (p1, m1)), (2, (p5, m))],
      ascending
        (by decide : [(0 : UInt32), 1, 2].Pairwise fun a b => OrdKey.key a < OrdKey.key b),
      (by decide : 3 ≤ MEDIUM_MAX)⟩⟩

private theorem commitsWith (m : Message) :
    MerkleTree.tryCommit none ⟨.sha256t, 2, messagesWith m, some 77⟩ = .ok (.ok (treeWith m)) := by with_unfolding_all rfl

/-- Protocols 1 and 6 are disclosed; slot 3 holds the entropy, which is not known. -/
example (f : Env) (h : UInt32 → Bytes32) : ∃ w : UInt64 → Env,
    (∀ u, Programmed f (fun i => @leafInput f (.entropy u i)) h (w u)) ∧
    (∀ u, ({ tree with entropy := u } : MerkleTree).leafAt 3 = .entropy u 3) ∧
    ∀ u u', SameView (w u) (w u') { tree with entropy := u } { tree with entropy := u' } [p1, p6] := by
  have hx : ∀ u, ∃ w, Programmed f (fun i => @leafInput f (.entropy u i)) h w := fun u =>
    programmed_exists f _ (fun i j hij => by
      have := leafInput_inj hij
      simp only [Leaf.entropy.injEq, true_and] at this
      exact this) h
  refine ⟨fun u => (hx u).choose, fun u => (hx u).choose_spec, fun _ => rfl, ?_⟩
  refine (C90_entropy f h _ (fun u => (hx u).choose_spec) tree holds [p1, p6] ?_).1
  intro p hp
  simp only [List.mem_cons, List.not_mem_nil, or_false] at hp
  rcases hp with rfl | rfl
  · exact ⟨m1, by decide⟩
  · exact ⟨m6, by decide⟩

/-- Protocols 1 and 6 are disclosed; the message of protocol 5 is not known. -/
example (f : Env) (h : Bytes32) : ∃ w : Message → Env,
    (∀ m, Programmed f (fun _ : Unit => @leafInput f (.inhabited p5 m)) (fun _ => h) (w m)) ∧
    ∀ m m', SameView (w m) (w m') (treeWith m) (treeWith m') [p1, p6] := by
  have hx : ∀ m, ∃ w, Programmed f (fun _ : Unit => @leafInput f (.inhabited p5 m)) (fun _ => h) w := fun m =>
    programmed_exists f _ (fun _ _ _ => rfl) _
  refine ⟨fun m => (hx m).choose, fun m => (hx m).choose_spec, ?_⟩
  refine (C90_message f p5 h _ (fun m => (hx m).choose_spec) treeWith
    (fun m => (@C16_committed_trees f _ _ _ (commitsWith m)).1) (fun m => rfl)
    (fun m m' => ⟨rfl, rfl, rfl, rfl, ?_⟩) [p1, p6] ?_).1
  · intro p hp
    have h5 : OrdKey.key p ≠ OrdKey.key p5 := fun h => hp (OrdKey.inj h)
    simp [OrdMap.get, bmapGet, treeWith, messagesWith, h5]
  · intro m p hp
    simp only [List.mem_cons, List.not_mem_nil, or_false] at hp
    rcases hp with rfl | rfl
    · exact ⟨by decide, rfl⟩
    · exact ⟨by decide, rfl⟩

end Sample

end CSV
