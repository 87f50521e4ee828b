import Verif.Spec.Hiding
import Verif.Proofs.TwoWorlds
import Verif.Proofs.Sample

/-!
# C81: what is concealed is hidden
-/

namespace CSV

/-! ## Exchanging strings -/

/-- Exchanges the members of each pair. -/
private def swapAll (l : List (Bytes × Bytes)) (x : Bytes) : Bytes :=
  match l.find? fun e => x = e.1 ∨ x = e.2 with
  | some e => if x = e.1 then e.2 else e.1
  | none => x

private def Apart (a b : Bytes × Bytes) : Prop :=
  a.1 ≠ b.1 ∧ a.1 ≠ b.2 ∧ a.2 ≠ b.1 ∧ a.2 ≠ b.2

private theorem find_pair {l : List (Bytes × Bytes)} (hl : l.Pairwise Apart) {e : Bytes × Bytes} (he : e ∈ l)
    {x : Bytes} (hx : x = e.1 ∨ x = e.2) : (l.find? fun e => x = e.1 ∨ x = e.2) = some e := by
  induction l with
  | nil => simp at he
  | cons a l ih =>
    rw [List.pairwise_cons] at hl
    rcases List.mem_cons.1 he with rfl | h
    · rw [List.find?_cons_of_pos (by simpa using hx)]
    · rw [List.find?_cons_of_neg, ih hl.2 h]
      obtain ⟨h1, h2, h3, h4⟩ := hl.1 e h
      simp only [decide_eq_true_eq, not_or]
      rcases hx with rfl | rfl
      · exact ⟨h1.symm, h3.symm⟩
      · exact ⟨h2.symm, h4.symm⟩

private theorem swap_fst {l : List (Bytes × Bytes)} (hl : l.Pairwise Apart) {e : Bytes × Bytes} (he : e ∈ l) :
    swapAll l e.1 = e.2 := by
  rw [swapAll, find_pair hl he (.inl rfl)]
  simp

private theorem swap_snd {l : List (Bytes × Bytes)} (hl : l.Pairwise Apart) {e : Bytes × Bytes} (he : e ∈ l) :
    swapAll l e.2 = e.1 := by
  rw [swapAll, find_pair hl he (.inr rfl)]
  simp only
  split
  · next h => exact h
  · rfl

private theorem swap_other {l : List (Bytes × Bytes)} {x : Bytes} (h : ∀ e ∈ l, x ≠ e.1 ∧ x ≠ e.2) :
    swapAll l x = x := by
  rw [swapAll, List.find?_eq_none.2]
  intro e he
  simpa using h e he

private theorem swap_swap {l : List (Bytes × Bytes)} (hl : l.Pairwise Apart) (x : Bytes) :
    swapAll l (swapAll l x) = x := by
  by_cases h : ∃ e ∈ l, x = e.1 ∨ x = e.2
  · obtain ⟨e, he, rfl | rfl⟩ := h
    · rw [swap_fst hl he, swap_snd hl he]
    · rw [swap_snd hl he, swap_fst hl he]
  · have : ∀ e ∈ l, x ≠ e.1 ∧ x ≠ e.2 := fun e he =>
      ⟨fun hx => h ⟨e, he, .inl hx⟩, fun hx => h ⟨e, he, .inr hx⟩⟩
    rw [swap_other this, swap_other this]

/-! ## Two trees under two hash functions -/

/-- The pairs of strings of the hidden leaves of two trees, slot by slot. -/
private def pairs [Env] (T1 T2 : MerkleTree) (ps : List ProtocolId) : List (Bytes × Bytes) :=
  ((List.range (2 ^ T1.depth.val)).filter (hides T1 ps)).map fun i =>
    (leafInput (T1.leafAt i), leafInput (T2.leafAt i))

private theorem mem_pairs [Env] {T1 T2 : MerkleTree} {ps : List ProtocolId} {e : Bytes × Bytes} :
    e ∈ pairs T1 T2 ps ↔ ∃ i, i < 2 ^ T1.depth.val ∧ hides T1 ps i = true ∧
      (leafInput (T1.leafAt i), leafInput (T2.leafAt i)) = e := by
  simp [pairs, and_assoc]

private theorem pairs_apart [Env] {T1 T2 : MerkleTree} (h1 : T1.Holds) (h2 : T2.Holds)
    (hd : T1.depth = T2.depth) (hc : T1.cofactor = T2.cofactor) (ps : List ProtocolId) :
    (pairs T1 T2 ps).Pairwise Apart := by
  rw [pairs, List.pairwise_map, List.pairwise_filter]
  refine List.Pairwise.imp_of_mem ?_ List.pairwise_lt_range
  intro i j hi hj hlt _ _
  rw [List.mem_range] at hi hj
  have hi' : i < 2 ^ T2.depth.val := hd ▸ hi
  have hj' : j < 2 ^ T2.depth.val := hd ▸ hj
  refine ⟨fun h => ?_, fun h => ?_, fun h => ?_, fun h => ?_⟩ <;> replace h := leafInput_inj h
  · have := leafAt_slot h1 h1 rfl rfl hi hj h; omega
  · have := leafAt_slot h1 h2 hd hc hi hj h; omega
  · have := leafAt_slot h2 h1 hd.symm hc.symm hi' hj' h; omega
  · have := leafAt_slot h2 h2 rfl rfl hi' hj' h; omega

private theorem swap_length [Env] {T1 T2 : MerkleTree} {ps : List ProtocolId} {x : Bytes} (h : x.length ≠ 77)
    (h' : x.length ≠ 129) : swapAll (pairs T1 T2 ps) x = x := by
  refine swap_other fun e he => ?_
  obtain ⟨i, -, -, rfl⟩ := mem_pairs.1 he
  constructor <;> rintro rfl
  · exact (leafInput_length _).elim h h'
  · exact (leafInput_length _).elim h h'

section
variable (env : Env) (T1 T2 : MerkleTree) (ps : List ProtocolId)

/-- The second hash function. -/
private abbrev env2 : Env := renamed env (swapAll (@pairs env T1 T2 ps))

private theorem sha2 (x : Bytes) : @sha (env2 env T1 T2 ps) x = @sha env (swapAll (@pairs env T1 T2 ps) x) := rfl

private theorem leavesOnly : LeavesOnly env (env2 env T1 T2 ps) := fun x h h' => by
  show env.sha256 (swapAll _ x) = _
  rw [@swap_length env T1 T2 ps _ h h']

variable {T1 T2 ps} (h1 : T1.Holds) (h2 : T2.Holds) (hd : T1.depth = T2.depth) (hc : T1.cofactor = T2.cofactor)
  (hp : ∀ p ∈ ps, ∃ m, T1.messages.get p = some m ∧ T2.messages.get p = some m)
include h1 h2 hd hc hp

/-- Leaves of one slot have one hash. -/
private theorem leafHash2 {i : Nat} (hi : i < 2 ^ T1.depth.val) :
    @leafHash env (T1.leafAt i) = @leafHash (env2 env T1 T2 ps) (T2.leafAt i) := by
  show @sha env (@leafInput env (T1.leafAt i)) =
    @sha (env2 env T1 T2 ps) (@leafInput (env2 env T1 T2 ps) (T2.leafAt i))
  rw [(leavesOnly env T1 T2 ps).leafInput, sha2]
  congr 1
  cases h : hides T1 ps i with
  | true =>
    exact (swap_snd (pairs_apart h1 h2 hd hc ps) (mem_pairs.2 ⟨i, hi, h, rfl⟩)).symm
  | false =>
    obtain ⟨p, m, -, g1, g2⟩ := shown_slot h1 h2 hd hc hp h
    have e : T1.leafAt i = T2.leafAt i := by rw [MerkleTree.leafAt, MerkleTree.leafAt, g1, g2]
    rw [swap_other, e]
    intro x hx
    obtain ⟨j, hj, hh, rfl⟩ := mem_pairs.1 hx
    constructor
    · intro he
      have := leafAt_slot h1 h1 rfl rfl hi hj (e.trans (leafInput_inj he))
      rw [this, hh] at h; cases h
    · intro he
      have := leafAt_slot h1 h2 hd hc hi hj (e.trans (leafInput_inj he))
      rw [this, hh] at h; cases h

end

/-- **C81** What is concealed is hidden. Take two committed trees of one shape which hold the same
messages for the protocols `ps`, and otherwise any messages, in any number, and any entropy. There is a
hash function, obtained from the given one by exchanging the strings of hidden leaves in pairs, under
which the second tree has the commitment, the disclosed block and the disclosed proofs of the first one
under the given function. So an observer who gets these - whatever they compute and whatever hashes
they ask for - gives the same answer in both cases, unless they ask for the hash of a leaf
hidden in one of the trees and not in the other, that is, guess a message together with its protocol or the entropy. -/
theorem C81_hiding (env : Env) (T1 T2 : MerkleTree) (h1 : T1.Holds) (h2 : T2.Holds)
    (hm : T1.method = T2.method) (hd : T1.depth = T2.depth) (hc : T1.cofactor = T2.cofactor)
    (ps : List ProtocolId)
    (hp : ∀ p ∈ ps, ∃ m, T1.messages.get p = some m ∧ T2.messages.get p = some m) :
    Alike env T1 T2 ps := by
  have hdiff : ∀ (T T' : MerkleTree), T.Holds → T'.Holds → T.depth = T'.depth → T.cofactor = T'.cofactor →
      ∀ i, i < 2 ^ T.depth.val → hides T ps i = true → T.leafAt i ≠ T'.leafAt i →
      T.leafAt i ∈ (T.hiddenLeaves ps).filter (· ∉ T'.hiddenLeaves ps) := by
    intro T T' h h' hd hc i hi hh hne
    rw [List.mem_filter]
    constructor
    · rw [hiddenLeaves_eq]
      exact List.mem_map.2 ⟨i, by simp [hi, hh], rfl⟩
    · rw [decide_eq_true_eq, hiddenLeaves_eq]
      intro hn
      obtain ⟨j, hj, he⟩ := List.mem_map.1 hn
      have hj : j < 2 ^ T.depth.val := by rw [hd]; simp at hj; exact hj.1
      exact hne ((leafAt_slot h h' hd hc hi hj he.symm) ▸ he.symm)
  have hsupp : ∀ x, swapAll (@pairs env T1 T2 ps) x ≠ x →
      x ∈ (differing T1 T2 ps).map (@leafInput env) := by
    intro x hx
    have : ∃ e ∈ @pairs env T1 T2 ps, x = e.1 ∨ x = e.2 := by
      apply Classical.byContradiction
      intro hn
      exact hx (swap_other fun e he => ⟨fun h => hn ⟨e, he, .inl h⟩, fun h => hn ⟨e, he, .inr h⟩⟩)
    obtain ⟨e, he, hxe⟩ := this
    have hne : e.1 ≠ e.2 := by
      intro heq
      apply hx
      rcases hxe with rfl | rfl
      · rw [swap_fst (pairs_apart h1 h2 hd hc ps) he, heq]
      · rw [swap_snd (pairs_apart h1 h2 hd hc ps) he, heq]
    obtain ⟨i, hi, hh, rfl⟩ := mem_pairs.1 he
    have hne' : T1.leafAt i ≠ T2.leafAt i := fun h => hne (congrArg (@leafInput env) h)
    simp only [differing, List.map_append, List.mem_append]
    rcases hxe with rfl | rfl
    · exact .inl (List.mem_map_of_mem (hdiff T1 T2 h1 h2 hd hc i hi hh hne'))
    · exact .inr (List.mem_map_of_mem (hdiff T2 T1 h2 h1 hd.symm hc.symm i (hd ▸ hi)
        (hides_same h1 h2 hd hc hp hh) hne'.symm))
  refine ⟨swapAll (@pairs env T1 T2 ps), swap_swap (pairs_apart h1 h2 hd hc ps), hsupp, ?_, ?_⟩
  · exact view_same h1 h2 hd hc hp hm (leavesOnly env T1 T2 ps).branchHash
      (leavesOnly env T1 T2 ps).commitmentHash fun i hi => leafHash2 env h1 h2 hd hc hp hi
  · intro α o ho
    refine observer_same o fun x hx => ?_
    show env.sha256 _ = _
    congr 1
    apply Classical.byContradiction
    intro hn
    exact ho x hx (hsupp x hn)

/-- **C81** The same for two sources: the disclosed block, the commitment and the proofs tell the shape
(method, depth and cofactor) of a commitment and the messages disclosed, and nothing about the number
and content of the other messages and the entropy. -/
theorem C81_sources (env : Env) (rng1 rng2 : Option UInt64) (s1 s2 : MultiSource) (T1 T2 : MerkleTree)
    (h1 : MerkleTree.tryCommit rng1 s1 = .ok (.ok T1)) (h2 : MerkleTree.tryCommit rng2 s2 = .ok (.ok T2))
    (hm : s1.method = s2.method) (hd : T1.depth = T2.depth) (hc : T1.cofactor = T2.cofactor)
    (ps : List ProtocolId)
    (hp : ∀ p ∈ ps, ∃ m, s1.messages.get p = some m ∧ s2.messages.get p = some m) :
    Alike env T1 T2 ps := by
  obtain ⟨g1, e1, -⟩ := @C16_committed_trees env rng1 s1 T1 h1
  obtain ⟨g2, e2, -⟩ := @C16_committed_trees env rng2 s2 T2 h2
  exact C81_hiding env T1 T2 g1 g2 ((C01_slots rng1 s1 T1 h1).1.trans (hm.trans (C01_slots rng2 s2 T2 h2).1.symm))
    hd hc ps (by rw [e1, e2]; exact hp)

namespace Sample

private def source2 : MultiSource := ⟨.sha256t, 2, ⟨[(p1, m1), (p5, m6)], by decide, by decide⟩, some 99⟩

private def tree2 : MerkleTree :=
  ⟨.sha256t, 2, 99, 1, source2.messages, ⟨[(1, (p1, m1)), (2, (p5, m6))], by decide, by decide⟩⟩

private theorem commits2 : MerkleTree.tryCommit none source2 = .ok (.ok tree2) := by rfl

/-- Protocol 1 is disclosed; the one tree holds messages for 5 and 6, the other for 5 alone, a different
one, and another entropy. -/
example : MerkleTree.tryCommit none source = .ok (.ok tree) ∧ MerkleTree.tryCommit none source2 = .ok (.ok tree2) ∧
    tree.hiddenLeaves [p1] = [.inhabited p6 m6, .inhabited p5 m5, .entropy 77 3] ∧
    tree2.hiddenLeaves [p1] = [.entropy 99 0, .inhabited p5 m6, .entropy 99 3] ∧
    ∀ env, Alike env tree tree2 [p1] :=
  ⟨commits, commits2, by decide, by decide, fun env =>
    C81_sources env none none source source2 tree tree2 commits commits2 rfl rfl rfl [p1]
      (by intro p hp; rw [List.mem_singleton.1 hp]; exact ⟨m1, by decide, by decide⟩)⟩

end Sample

private theorem siblings_last [Env] {f : Nat → PT} {w : Nat} :
    ∀ (n lo d pos : Nat), pos < 2 ^ (n + 1) → (∀ i d n pos, PT.siblings w (f i) d n pos = []) →
    ((PT.full f (n + 1) lo).siblings w d (n + 1) pos).getLast? =
      some ((f (lo + if pos % 2 = 0 then pos + 1 else pos - 1)).root w (d + n + 1)) := by
  intro n
  induction n with
  | zero =>
    intro lo d pos h hs
    simp only [PT.full, PT.siblings, hs]
    have : pos = 0 ∨ pos = 1 := by omega
    rcases this with rfl | rfl <;> simp
  | succ n ih =>
    intro lo d pos h hs
    have h2 := Nat.pow_succ 2 (n + 1)
    have h3 := Nat.pow_succ 2 n
    rw [PT.full, PT.siblings, Nat.add_sub_cancel]
    split
    · next hle =>
      rw [List.getLast?_cons, ih _ _ _ (by omega) hs]
      have e : lo + 2 ^ (n + 1) + (if (pos - 2 ^ (n + 1)) % 2 = 0 then pos - 2 ^ (n + 1) + 1
          else pos - 2 ^ (n + 1) - 1) = lo + if pos % 2 = 0 then pos + 1 else pos - 1 := by
        split <;> split <;> omega
      rw [e, Option.getD_some, show d + 1 + n + 1 = d + (n + 1) + 1 by omega]
    · next hle =>
      rw [List.getLast?_cons, ih _ _ _ (by omega) hs, Option.getD_some,
        show d + 1 + n + 1 = d + (n + 1) + 1 by omega]

/-- **C81** The exception is needed: whoever guesses the leaf next to a disclosed one can confirm the
guess with one hash, since a proof contains the hash of that leaf. If the slot is unused, this is the
entropy of the whole tree. -/
theorem C81_guess [Env] (T : MerkleTree) (hT : T.Holds) (b : MerkleBlock) (hb : b.OfTree T) (p : ProtocolId)
    (hp : p ∈ b.knownProtocolIds) (hd : 0 < T.depth.val) :
    ∃ pr, b.toMerkleProof p = .ok (.ok pr) ∧
      pr.path.getLast? = some (sha (leafInput
        (T.leafAt (if pr.pos.toNat % 2 = 0 then pr.pos.toNat + 1 else pr.pos.toNat - 1)))) := by
  refine ⟨_, C57_proof_content T hT b hb p hp, ?_⟩
  have hlt : (T.protocolIdPos p).toNat < 2 ^ T.depth.val :=
    (protocolIdPos_lt p T.cofactor T.depth).2
  obtain ⟨n, hn⟩ := Nat.exists_eq_add_one.2 hd
  simp only [MerkleTree.pt, hn] at hlt ⊢
  rw [siblings_last n 0 0 _ hlt (slot_siblings T · _), slot_root, Nat.zero_add]
  rfl

/-- A proof for protocol 5 (slot 2) shows the hash of the entropy in slot 3. -/
example [Env] : Sample.p5 ∈ (Sample.block).knownProtocolIds ∧ 0 < Sample.tree.depth.val ∧
    (Sample.tree.protocolIdPos Sample.p5).toNat = 2 ∧ Sample.tree.leafAt 3 = .entropy 77 3 := by
  refine ⟨?_, by decide, by decide, rfl⟩
  simp [Sample.block, MerkleBlock.knownProtocolIds]

end CSV
