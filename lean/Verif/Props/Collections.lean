import Verif.Props.Engine
import Verif.Props.Merkle

/-!
# C95: commitments to sets and maps

A set or a map is given by the insertions that made it (`bsetOfList`, `bmapOfList`).
-/

namespace CSV

open OrdKey

/-- The value under which a key was last inserted. -/
def lastValue {κ α : Type} [DecidableEq κ] (k : κ) (l : List (κ × α)) : Option α :=
  (l.reverse.find? fun e => decide (e.1 = k)).map Prod.snd

private theorem sets_eq {κ : Type} [OrdKey κ] (xs ys : List κ) :
    bsetOfList xs = bsetOfList ys ↔ ∀ x, x ∈ xs ↔ x ∈ ys := by
  refine ⟨fun h x => ?_, fun h => (bsetOfList_sorted xs).ext (bsetOfList_sorted ys) fun x => ?_⟩
  · rw [← mem_bsetOfList (l := xs), h, mem_bsetOfList]
  · rw [mem_bsetOfList, mem_bsetOfList, h]

private theorem bmapOfList_snoc {κ α : Type} [OrdKey κ] (l : List (κ × α)) (e : κ × α) :
    bmapOfList (l ++ [e]) = bmapInsert e.1 e.2 (bmapOfList l) := by
  simp [bmapOfList]

private theorem bmapOfList_ok {κ α : Type} [OrdKey κ] [DecidableEq κ] (l : List (κ × α)) :
    BMapOk (bmapOfList l) ∧ ∀ k, bmapGet k (bmapOfList l) = lastValue k l := by
  rw [← List.reverse_reverse l]
  generalize l.reverse = r
  induction r with
  | nil => exact ⟨List.Pairwise.nil, fun _ => rfl⟩
  | cons e r ih =>
    rw [List.reverse_cons, bmapOfList_snoc]
    refine ⟨bmapInsert_sorted ih.1, fun k => ?_⟩
    rw [lastValue, List.reverse_append, List.reverse_reverse, List.reverse_cons, List.reverse_nil, List.nil_append,
      List.singleton_append, List.find?_cons]
    by_cases hk : e.1 = k
    · subst hk
      rw [bmapGet_insert_self]; simp
    · rw [bmapGet_insert_ne (Ne.symm hk), ih.2 k, lastValue, List.reverse_reverse]
      simp [hk]

private theorem maps_eq {κ α : Type} [OrdKey κ] [DecidableEq κ] (l m : List (κ × α)) :
    bmapOfList l = bmapOfList m ↔ ∀ k, lastValue k l = lastValue k m := by
  obtain ⟨a1, a2⟩ := bmapOfList_ok l
  obtain ⟨b1, b2⟩ := bmapOfList_ok m
  refine ⟨fun h k => by rw [← a2, h, b2], fun h => a1.ext b1 fun k => by rw [a2, b2, h]⟩

/-- **C95** The merkle root of a set depends on its members alone, not on the order nor the number of
insertions, and sets with different members have different roots unless hashes collide (for leaves that are
not serialized like a merkle node). -/
theorem C95_merkle_set [Env] {α : Type} [CommitEncode α] [OrdKey α] (enc : α → Bytes)
    (he : LeafEncoding enc) (hinj : ∀ x y, enc x = enc y → x = y) (xs ys : List α) :
    ((∀ x, x ∈ xs ↔ x ∈ ys) → merklize (bsetOfList xs) = merklize (bsetOfList ys)) ∧
    ((bsetOfList xs).length < 2 ^ 32 → (bsetOfList ys).length < 2 ^ 32 →
      (∀ x ∈ xs ++ ys, ∀ n : MerkleNode, enc x ≠ n.enc) →
      NoCollision (leavesInputs enc (bsetOfList xs) ++ leavesInputs enc (bsetOfList ys)) →
      merklize (bsetOfList xs) = merklize (bsetOfList ys) → ∀ x, x ∈ xs ↔ x ∈ ys) := by
  refine ⟨fun h => by rw [(sets_eq xs ys).2 h], fun h1 h2 hs hn h => ?_⟩
  refine (sets_eq xs ys).1 (C35_partial enc he hinj _ _ h1 h2 (.inl fun x hx => ?_) hn h)
  refine hs x (List.mem_append.2 ?_)
  rw [List.mem_append, mem_bsetOfList, mem_bsetOfList] at hx
  exact hx

/-- **C95** What `commit_to_linear_set` hashes determines the members of the set and is determined by
them. -/
theorem C95_linear_set [Env] {α : Type} [OrdKey α] (se : StrictEncode α) (e : CommitEngine) (min max : Nat)
    (xs ys : List α) (e1 e2 : CommitEngine)
    (h1 : e.commitToLinearSet min max (bsetOfList xs) = .ok e1)
    (h2 : e.commitToLinearSet min max (bsetOfList ys) = .ok e2)
    (hd : SelfDelimiting se.enc fun _ => True) (hm : max < 2 ^ 64)
    (l1 : (bsetOfList xs).length ≤ max) (l2 : (bsetOfList ys).length ≤ max)
    (s1 : (encList max se.enc (bsetOfList xs)).length < 2 ^ 64)
    (s2 : (encList max se.enc (bsetOfList ys)).length < 2 ^ 64) :
    e1.hasher = e2.hasher ↔ ∀ x, x ∈ xs ↔ x ∈ ys := by
  refine ⟨fun h => (sets_eq xs ys).1 ?_, fun h => ?_⟩
  · obtain ⟨_, b1, ⟨-, g1, -⟩, -, -, -, rfl⟩ := run_inv (c := .set se min max (bsetOfList xs)) h1
      fun bs hb => by cases hb; exact s1
    obtain ⟨_, b2, ⟨-, g2, -⟩, -, -, -, rfl⟩ := run_inv (c := .set se min max (bsetOfList ys)) h2
      fun bs hb => by cases hb; exact s2
    cases g1; cases g2
    have h' := List.append_cancel_left h
    exact (encList_selfDelimiting hd hm _ _ [] [] ⟨l1, fun _ _ => trivial⟩ ⟨l2, fun _ _ => trivial⟩
      (by rw [List.append_nil, List.append_nil]; exact h')).1
  · rw [(sets_eq xs ys).2 h, h2] at h1
    cases h1; rfl

/-- **C95** What `commit_to_linear_map` hashes determines the value under which each key was last inserted, and
is determined by these. -/
theorem C95_linear_map [Env] {κ α : Type} [OrdKey κ] [DecidableEq κ] (sk : StrictEncode κ) (se : StrictEncode α)
    (e : CommitEngine) (min max : Nat) (l m : List (κ × α)) (e1 e2 : CommitEngine)
    (h1 : e.commitToLinearMap min max (bmapOfList l) = .ok e1)
    (h2 : e.commitToLinearMap min max (bmapOfList m) = .ok e2)
    (hk : SelfDelimiting sk.enc fun _ => True) (hv : SelfDelimiting se.enc fun _ => True) (hm : max < 2 ^ 64)
    (l1 : (bmapOfList l).length ≤ max) (l2 : (bmapOfList m).length ≤ max)
    (s1 : (encList max (fun kv => sk.enc kv.1 ++ se.enc kv.2) (bmapOfList l)).length < 2 ^ 64)
    (s2 : (encList max (fun kv => sk.enc kv.1 ++ se.enc kv.2) (bmapOfList m)).length < 2 ^ 64) :
    e1.hasher = e2.hasher ↔ ∀ k, lastValue k l = lastValue k m := by
  refine ⟨fun h => (maps_eq l m).1 ?_, fun h => ?_⟩
  · obtain ⟨_, b1, ⟨-, g1, -⟩, -, -, -, rfl⟩ := run_inv (c := .map sk se min max (bmapOfList l)) h1
      fun bs hb => by cases hb; exact s1
    obtain ⟨_, b2, ⟨-, g2, -⟩, -, -, -, rfl⟩ := run_inv (c := .map sk se min max (bmapOfList m)) h2
      fun bs hb => by cases hb; exact s2
    cases g1; cases g2
    have h' := List.append_cancel_left h
    exact (encList_selfDelimiting (pair_selfDelimiting hk hv) hm _ _ [] [] ⟨l1, fun _ _ => ⟨trivial, trivial⟩⟩
      ⟨l2, fun _ _ => ⟨trivial, trivial⟩⟩ (by rw [List.append_nil, List.append_nil]; exact h')).1
  · rw [(maps_eq l m).2 h, h2] at h1
    cases h1; rfl

/-! ## Examples -/

@[instance_reducible] private def ids : StrictEncode Bytes32 where
  libName := LIB_NAME_COMMIT_VERIFY
  typeName := some "ProtocolId"
  enc := encBytes32

private theorem ids_delimited : SelfDelimiting ids.enc fun _ => True := by
  intro a b r s _ _ h
  obtain ⟨h1, h2⟩ := append_inj_len (by show a.bytes.length = b.bytes.length; rw [a.len, b.len]) h
  exact ⟨Bytes32.ext' h1, h2⟩

/-- Non-vacuity of `C95_linear_set`: two orders of insertion, one of them with a repetition. -/
example [Env] : ∃ e1 e2, @CommitEngine.commitToLinearSet _ _ ids (.new "t") 0 255
      (bsetOfList [Bytes32.ofNat 6, Bytes32.ofNat 1, Bytes32.ofNat 6]) = .ok e1 ∧
    @CommitEngine.commitToLinearSet _ _ ids (.new "t") 0 255
      (bsetOfList [Bytes32.ofNat 1, Bytes32.ofNat 6]) = .ok e2 ∧ e1.hasher = e2.hasher ∧
    SelfDelimiting ids.enc fun _ => True :=
  ⟨_, _, run_ok (c := .set ids 0 255 (bsetOfList [Bytes32.ofNat 6, Bytes32.ofNat 1, Bytes32.ofNat 6]))
      ⟨rfl, rfl, by decide +kernel⟩ (fun _ => trivial) (fun _ => rfl) (by simp [CommitEngine.new]),
    run_ok (c := .set ids 0 255 (bsetOfList [Bytes32.ofNat 1, Bytes32.ofNat 6]))
      ⟨rfl, rfl, by decide +kernel⟩ (fun _ => trivial) (fun _ => rfl) (by simp [CommitEngine.new]),
    congrArg (_ ++ ·) (by decide +kernel), ids_delimited⟩

/-- Non-vacuity of `C95_linear_map`: the later value counts. -/
example : lastValue 1 [(1, 'a'), (2, 'b'), (1, 'c')] = some 'c' ∧
    bmapOfList [(1, 'a'), (2, 'b'), (1, 'c')] = bmapOfList [(2, 'b'), (1, 'c')] := by decide

/-- An order of leaves. -/
@[instance_reducible] private def leafOrder : OrdKey Leaf where
  key
    | .inhabited p m => 2 * (p.toNat * 2 ^ 256 + m.toNat)
    | .entropy e pos => 2 * (e.toNat * 2 ^ 32 + pos.toNat) + 1
  inj {a b} h := by
    rcases a with ⟨p, m⟩ | ⟨e, pos⟩ <;> rcases b with ⟨p', m'⟩ | ⟨e', pos'⟩ <;> dsimp only at h
    · have := m.toNat_lt; have := m'.toNat_lt
      rw [Bytes32.toNat_inj (by omega : p.toNat = p'.toNat), Bytes32.toNat_inj (by omega : m.toNat = m'.toNat)]
    · omega
    · omega
    · have := pos.toNat_lt; have := pos'.toNat_lt
      rw [UInt64.toNat_inj.1 (by omega : e.toNat = e'.toNat), UInt32.toNat_inj.1 (by omega : pos.toNat = pos'.toNat)]

/-- Non-vacuity of `C95_merkle_set`: leaves are encoded as required and not like merkle nodes. -/
example [Env] : LeafEncoding Leaf.enc ∧ (∀ x y : Leaf, x.enc = y.enc → x = y) ∧
    (∀ (x : Leaf) (n : MerkleNode), x.enc ≠ n.enc) ∧
    @bsetOfList Leaf leafOrder [.entropy 1 2, .entropy 0 7, .entropy 1 2] = [.entropy 0 7, .entropy 1 2] := by
  refine ⟨fun x => commitId_leaf x, fun x y => Leaf.enc_inj, fun x n e => ?_, by decide⟩
  have := congrArg List.length e
  rw [n.enc_length] at this
  have := x.enc_length_le
  omega

end CSV
