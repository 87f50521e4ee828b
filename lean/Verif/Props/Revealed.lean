import Verif.Props.Row
import Verif.Props.Received
import Verif.Props.Absence

/-!
# C30: exactly what a block with the commitment of a tree may reveal
-/

namespace CSV

/-- **C30** A block with the commitment of a committed tree, wherever it comes from and in both profiles, is a view of the
tree followed by further nodes - none in debug builds. It reveals messages which were not committed exactly if there are
such messages among the further nodes. (Unless two different strings hashed for the two have one hash.) -/
theorem C30_exact [Env] (T : MerkleTree) (hT : T.Holds) (b : MerkleBlock) (c : Commitment)
    (hc : T.commitId = .ok c) (hb : b.commitId = .ok c) :
    ∃ (t : PT) (rest : List TreeNode), b.crossSection = t.frontier 0 ++ rest ∧ (dbg = true → rest = []) ∧
      (NoCollision (blockInputs b.depth b.cofactor t ++ T.inputs) →
        (∀ p m, (p, m) ∈ b.knownMessages → T.messages.get p = some m ∨ TreeNode.leaf p m ∈ rest) ∧
        ((∀ p m, (p, m) ∈ b.knownMessages → T.messages.get p = some m) ↔
          ∀ p m, TreeNode.leaf p m ∈ rest → T.messages.get p = some m) ∧
        (rest = [] → b.knownProtocolIds.Nodup)) := by
  obtain ⟨t, rest, e, -, hdbg, hn⟩ := C63_received T b c hc hb
  refine ⟨t, rest, e, hdbg, fun hcol => ?_⟩
  have hof := hn hcol
  obtain ⟨h1, h2⟩ := C30_partial T hT _ hof
  have hk : b.knownMessages = MerkleBlock.knownMessages { b with crossSection := t.frontier 0 } ++ revealed rest := by
    rw [knownMessages_eq, knownMessages_eq, e, revealed_append]
  have hr : ∀ p m, (p, m) ∈ revealed rest ↔ TreeNode.leaf p m ∈ rest := by
    intro p m
    rw [revealed, List.mem_filterMap]
    constructor
    · rintro ⟨x, hx, h⟩
      cases x with
      | concealed => cases h
      | leaf => cases h; exact hx
    · intro h
      exact ⟨_, h, rfl⟩
  have hall : ∀ p m, (p, m) ∈ b.knownMessages → T.messages.get p = some m ∨ TreeNode.leaf p m ∈ rest := by
    intro p m h
    rw [hk, List.mem_append] at h
    exact h.imp (h1 p m) (hr p m).1
  refine ⟨hall, ⟨fun h p m hm => h p m ?_, fun h p m hm => (hall p m hm).elim id (h p m)⟩, ?_⟩
  · rw [hk, List.mem_append]
    exact .inr ((hr p m).2 hm)
  · rintro rfl
    rw [List.append_nil] at e
    have : b = { b with crossSection := t.frontier 0 } := by rw [← e]
    rw [this]
    exact h2

/-- **C30** Which nodes may follow in release builds: exactly those of a row of subtrees as in C29 which begins with the tree.
The commitment is that of the block without them. -/
theorem C30_followed [Env] (hd : dbg = false) (b : MerkleBlock) (t : PT) (hs : b.Shows t) (rest : List TreeNode)
    (c : Commitment) :
    MerkleBlock.commitId { b with crossSection := b.crossSection ++ rest } = .ok c ↔
      b.commitId = .ok c ∧ ∃ row, rest = rowNodes row ∧ Row b.depth.val 0 ((t, 0) :: row) := by
  have hlt := b.depth.isLt
  rw [C29_release hd, shows_commitId hs]
  constructor
  · rintro ⟨t', row, h1, h2, h3⟩
    have hf : t'.Fits (min (b.depth.val + 1) 31) b.depth.val 0 := by
      have hp : Placed b.depth.val 0 t' 0 := by
        cases row with
        | nil => exact h2
        | cons x row => exact h2.1
      have := hp.1
      cases t' with
      | hidden _ => exact Nat.zero_le _
      | leaf _ _ => exact this
      | node _ _ => exact this
    have h1' : t.frontier 0 ++ rest = t'.frontier 0 ++ rowNodes row := by
      rw [← hs.1]; exact h1
    obtain ⟨rfl, rfl⟩ := frontier_inj (by omega) (by omega) (fits_mono (by omega) hs.2) hf h1'
    exact ⟨congrArg Except.ok h3.symm, row, rfl, h2⟩
  · rintro ⟨h, row, rfl, hr⟩
    exact ⟨t, row, by show b.crossSection ++ _ = _; rw [hs.1]; rfl, hr, (Except.ok.inj h).symm⟩

/-- **C30** So in release builds any message for any protocol can be appended to any block of a tree with more than one slot:
the commitment stays. -/
theorem C30_appended [Env] (hd : dbg = false) (b : MerkleBlock) (t : PT) (hs : b.Shows t) (p : ProtocolId) (m : Message)
    (h0 : 1 ≤ b.depth.val) :
    MerkleBlock.commitId { b with crossSection := b.crossSection ++ [.leaf p m] } = b.commitId := by
  have hlt := b.depth.isLt
  have hc := shows_commitId hs
  rw [hc]
  refine (C30_followed hd b t hs [.leaf p m] _).2 ⟨hc, [(.leaf p m, b.depth.val)], rfl, ⟨?_, ?_⟩, ?_, ?_⟩
  · refine fits_mono ?_ hs.2
    split <;> omega
  · intro _; exact Nat.zero_mod _
  · exact ⟨fun h => by omega, fun h => by omega⟩
  · exact ⟨rfl, fun h => by cases h⟩

/-- **C30** With one slot the same attempt panics. -/
theorem C30_not_appended [Env] (hd : dbg = false) (b : MerkleBlock) (t : PT) (hs : b.Shows t) (p : ProtocolId) (m : Message)
    (h0 : b.depth.val = 0) (c : Commitment) :
    MerkleBlock.commitId { b with crossSection := b.crossSection ++ [.leaf p m] } ≠ .ok c := by
  intro h
  obtain ⟨-, row, h1, h2⟩ := (C30_followed hd b t hs [.leaf p m] c).1 h
  cases row with
  | nil => cases h1
  | cons x row =>
    obtain ⟨u, e⟩ := x
    have hp : ∃ o, Placed b.depth.val o u e := by
      cases row with
      | nil => exact ⟨_, h2.2.2⟩
      | cons y row => exact ⟨_, h2.2.2.1⟩
    obtain ⟨o, hp⟩ := hp
    have h1' : [TreeNode.leaf p m] = u.frontier e ++ rowNodes row := h1
    cases u with
    | hidden _ => cases h1'
    | leaf _ _ =>
      have he : e = b.depth.val := hp.1
      have := (h2.2.1.1 (by omega)).1
      omega
    | node l r =>
      have a1 := frontier_pos l (e + 1)
      have a2 := frontier_pos r (e + 1)
      have := congrArg List.length h1'
      simp only [PT.frontier, List.length_append, List.length_cons, List.length_nil] at this
      omega

/-- The block of the sample, in a release build: a message for protocol 9 is appended. -/
example : @MerkleBlock.commitId (realEnv false) { @Sample.block1 (realEnv false) with
    crossSection := (@Sample.block1 (realEnv false)).crossSection ++ [.leaf Sample.p9 Sample.m1] } =
    @MerkleBlock.commitId (realEnv false) (@Sample.block1 (realEnv false)) :=
  letI := realEnv false
  let ⟨_, _, _, _, hs, _⟩ := Sample.view_block1
  C30_appended rfl _ _ hs Sample.p9 Sample.m1 (show 1 ≤ 2 by decide)

/-- A leaf alone is a tree of one slot; with another leaf after it there is no commitment. -/
example (c : Commitment) : @MerkleBlock.commitId (realEnv false)
    ⟨.sha256t, 0, 0, [.leaf Sample.p1 Sample.m1, .leaf Sample.p9 Sample.m1], none⟩ ≠ .ok c :=
  @C30_not_appended (realEnv false) rfl ⟨.sha256t, 0, 0, [.leaf Sample.p1 Sample.m1], none⟩ (.leaf Sample.p1 Sample.m1)
    ⟨rfl, rfl⟩ Sample.p9 Sample.m1 rfl c

/-- The sample block and its tree have one commitment. -/
example [Env] : ∃ c, Sample.tree.commitId = .ok c ∧ Sample.block1.commitId = .ok c ∧ Sample.tree.Holds :=
  ⟨_, tree_commitId _, ofTree_commitId Sample.view_block1, Sample.holds⟩

end CSV
