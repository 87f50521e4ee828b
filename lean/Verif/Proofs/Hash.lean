import Verif.Spec.Hash

/-!
# The commitment engine computes the specified hashes
-/

namespace CSV

theorem ok_bind {α β : Type} (a : α) (f : α → Exec β) : (Except.ok a >>= f) = f a := rfl

theorem bind_ok_iff {α β : Type} {x : Exec α} {f : α → Exec β} {b : β} :
    (x >>= f) = .ok b ↔ ∃ a, x = .ok a ∧ f a = .ok b := by
  cases x with
  | error e => constructor <;> (intro h; try (obtain ⟨_, h, _⟩ := h)) <;> cases h
  | ok a => simp [ok_bind]
theorem error_bind {α β : Type} (p : Panic) (f : α → Exec β) :
    ((Except.error p : Exec α) >>= f) = Except.error p := rfl

theorem debugAssert_true (d : Bool) : debugAssert d true = .ok () := by
  simp [debugAssert]

theorem debugAssert_ok {d c : Bool} (h : c = true) : debugAssert d c = .ok () := by
  simp [debugAssert, h]

theorem MerkleNode.enc_length (n : MerkleNode) : n.enc.length = 98 := by
  simp [MerkleNode.enc, encU8, encU256, encBytes32, leBytes_length, Bytes32.len]

theorem Leaf.enc_length_le (l : Leaf) : l.enc.length ≤ 65 := by
  cases l <;> simp [Leaf.enc, encU64, encU32, encBytes32, leBytes_length, Bytes32.len]

theorem MerkleConcealed.enc_length (c : MerkleConcealed) : c.enc.length = 35 := by
  simp [MerkleConcealed.enc, encU5, encU16, encBytes32, leBytes_length, Bytes32.len]

theorem innerCommitTo_ok [Env] {e : CommitEngine} {m : Nat} {bs : Bytes}
    (h1 : e.finished = false) (h2 : bs.length ≤ m) :
    e.innerCommitTo m bs = .ok { e with hasher := e.hasher ++ bs } := by
  simp [CommitEngine.innerCommitTo, h1, h2, debugAssert_true, ok_bind, Hasher.inputRaw]

theorem commitId_merkleNode [Env] (n : MerkleNode) :
    commitId n = .ok (taggedSha MERKLE_TAG n.enc) := by
  have hl := n.enc_length
  simp only [commitId, commit, CommitEncode.commitEncode, CommitEngine.commitToSerialized,
    commitmentFqn, StrictType.typeName, StrictType.libName, CommitEngine.new,
    StrictEncode.enc, ok_bind]
  rw [debugAssert_ok (by decide), debugAssert_ok (by decide)]
  simp only [ok_bind, CommitEngine.pushStep, List.length_nil, show (0:Nat) < 255 from by omega,
    if_true]
  rw [innerCommitTo_ok rfl (by rw [hl]; decide)]
  simp [ok_bind, Hasher.finish, taggedSha, taggedInput, Hasher.fromTag, CommitEncode.idType,
    merkleHashId, MERKLE_TAG]

theorem commitId_leaf [Env] (l : Leaf) : commitId l = .ok (leafHash l) := by
  have hl := l.enc_length_le
  simp only [commitId, commit, CommitEncode.commitEncode, CommitEngine.commitToSerialized,
    commitmentFqn, StrictType.typeName, StrictType.libName, CommitEngine.new,
    StrictEncode.enc, ok_bind]
  rw [debugAssert_ok (by decide), debugAssert_ok (by decide)]
  simp only [ok_bind, CommitEngine.pushStep, List.length_nil, show (0:Nat) < 255 from by omega,
    if_true]
  rw [innerCommitTo_ok rfl (Nat.le_trans hl (by decide))]
  simp [ok_bind, Hasher.finish, leafHash, leafInput, taggedInput, Hasher.fromTag,
    CommitEncode.idType, merkleHashId, MERKLE_TAG]

theorem commitId_concealed [Env] (c : MerkleConcealed) :
    commitId c = .ok (commitmentHash c) := by
  have hl := c.enc_length
  simp only [commitId, commit, CommitEncode.commitEncode, CommitEngine.commitToSerialized,
    commitmentFqn, StrictType.typeName, StrictType.libName, CommitEngine.new,
    StrictEncode.enc, ok_bind]
  rw [debugAssert_ok (by decide), debugAssert_ok (by decide)]
  simp only [ok_bind, CommitEngine.pushStep, List.length_nil, show (0:Nat) < 255 from by omega,
    if_true]
  rw [innerCommitTo_ok rfl (by rw [hl]; decide)]
  simp [ok_bind, Hasher.finish, commitmentHash, commitmentInput, taggedInput, Hasher.fromTag,
    CommitEncode.idType, mpcCommitmentId, MPC_TAG]

/-- `commit_id` of a block is the commitment hash of its concealed form. -/
theorem MerkleBlock.commitId_eq [Env] (b : MerkleBlock) :
    b.commitId = (do let c ← b.conceal; .ok (commitmentHash c)) := by
  simp only [MerkleBlock.commitId, CSV.commitId, commit, CommitEncode.commitEncode]
  cases hb : b.conceal with
  | error e => rfl
  | ok c =>
    have hl := c.enc_length
    simp only [ok_bind, CommitEngine.commitToConcealed, commitmentFqn, StrictType.typeName,
      StrictType.libName, CommitEngine.new, StrictEncode.enc, CommitEngine.pushStep,
      List.length_nil, show (0:Nat) < 255 from by omega, if_true, Conceal.conceal]
    rw [innerCommitTo_ok rfl (by rw [hl]; decide)]
    simp [ok_bind, Hasher.finish, commitmentHash, commitmentInput, taggedInput, Hasher.fromTag,
      CommitEncode.idType, mpcCommitmentId, MPC_TAG]

/-- `commit_id` of a tree is the commitment hash of its concealed form. -/
theorem MerkleTree.commitId_eq [Env] (t : MerkleTree) :
    t.commitId = (do let c ← t.conceal; .ok (commitmentHash c)) := by
  simp only [MerkleTree.commitId, CSV.commitId, commit, CommitEncode.commitEncode]
  cases hb : t.conceal with
  | error e => rfl
  | ok c =>
    have hl := c.enc_length
    simp only [ok_bind, CommitEngine.commitToConcealed, commitmentFqn, StrictType.typeName,
      StrictType.libName, CommitEngine.new, StrictEncode.enc, CommitEngine.pushStep,
      List.length_nil, show (0:Nat) < 255 from by omega, if_true, Conceal.conceal]
    rw [innerCommitTo_ok rfl (by rw [hl]; decide)]
    simp [ok_bind, Hasher.finish, commitmentHash, commitmentInput, taggedInput, Hasher.fromTag,
      CommitEncode.idType, mpcCommitmentId, MPC_TAG]

theorem branches_eq [Env] (d : U5) (w : Nat) (h1 h2 : MerkleHash) :
    MerkleHash.branches d w h1 h2 = .ok (branchHash d.val w h1 h2) := by
  rw [MerkleHash.branches, commitId_merkleNode]; rfl

theorem treeNodeWith_eq [Env] (h1 h2 : MerkleHash) (d : U5) (w : Nat) :
    TreeNode.with h1 h2 d w = .ok (.concealed d (branchHash d.val w h1 h2)) := by
  rw [TreeNode.with, branches_eq]; rfl

end CSV
