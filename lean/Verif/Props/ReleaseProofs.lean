import Verif.Props.AnyBlock
import Verif.Props.Size
import Verif.Props.MergeAny
import Verif.Props.Unique

/-!
# C80: proofs taken from received blocks in release builds

A release build ignores nodes that follow the root. A block that has a commitment can always be asked for
proofs there, but the proofs need not be those of the commitment.
-/

namespace CSV

private theorem short_map {m : List (U5 × MerkleHash)} (h : BMapOk m) : m.length ≤ 32 := by
  have hn : (m.map fun e => e.1.val).Nodup := by
    rw [List.Nodup, List.pairwise_map]
    exact List.Pairwise.imp (fun h => Nat.ne_of_lt h) h
  have hsub : ∀ x ∈ m.map (fun e => e.1.val), x ∈ List.range 32 := by
    intro x hx
    obtain ⟨e, -, rfl⟩ := List.mem_map.1 hx
    exact List.mem_range.2 e.1.isLt
  have := hn.length_le_of_subset hsub
  simpa using this

/-- **C80** In a release build, for every block that has a commitment: nothing panics, a proof is returned exactly
for the protocols that are revealed, the others are reported, and all proofs can be taken from the
block. -/
theorem C80_release [Env] (hd : dbg = false) (b : MerkleBlock) (c : Commitment) (hc : b.commitId = .ok c) :
    (∀ p, (∃ pr, b.toMerkleProof p = .ok (.ok pr)) ↔ p ∈ b.knownProtocolIds) ∧
    (∀ p, b.toMerkleProof p = .ok (.error ⟨p⟩) ↔ p ∉ b.knownProtocolIds) ∧
    (∃ l, b.intoKnownProofs = .ok l) := by
  have h1 : ∀ x, debugAssert dbg x = .ok () := by intro x; rw [hd]; rfl
  have cases : ∀ p, (p ∉ b.knownProtocolIds ∧ b.toMerkleProof p = .ok (.error ⟨p⟩)) ∨
      (p ∈ b.knownProtocolIds ∧ ∃ pr, b.toMerkleProof p = .ok (.ok pr)) := by
    intro p
    obtain ⟨b', r, e1, -, -, -, -, -, -, e2, -⟩ := C79_conceals b c hc [p]
    simp only [List.mem_singleton, forall_eq] at e2
    cases r with
    | error e =>
      left
      obtain ⟨q⟩ := e
      obtain ⟨h2, h3, -⟩ := (C13_leaf_not_known b [p] q).1 ⟨b', e1⟩
      rw [List.mem_singleton] at h2
      subst h2
      refine ⟨h3, ?_⟩
      rw [MerkleBlock.toMerkleProof, MerkleBlock.concealOther, e1]
      rfl
    | ok n =>
      right
      refine ⟨e2.1 ⟨n, rfl⟩, ?_⟩
      rw [MerkleBlock.toMerkleProof, MerkleBlock.concealOther, e1]
      simp only [ok_bind, Except.map, h1]
      rcases collectPath_keys b'.crossSection [] (by simp [BMapOk]) with ⟨m', h2, h3, -⟩ | ⟨h2, -⟩
      · rw [h2]
        simp only [ok_bind]
        rw [if_pos (by rw [List.length_map]; exact short_map h3)]
        exact ⟨_, rfl⟩
      · rw [hd] at h2; cases h2
  refine ⟨fun p => ?_, fun p => ?_, ?_⟩
  · rcases cases p with ⟨h, e⟩ | ⟨h, e⟩
    · rw [e]; simp [h]
    · exact ⟨fun _ => h, fun _ => e⟩
  · rcases cases p with ⟨h, e⟩ | ⟨h, pr, e⟩
    · exact ⟨fun _ => h, fun _ => e⟩
    · rw [e]; simp [h]
  · have key : ∀ l : List ProtocolId, (∀ p ∈ l, p ∈ b.knownProtocolIds) → ∃ r, l.mapM (m := Exec) (fun id => do
        let r ← b.toMerkleProof id
        match r with
        | .ok proof => .ok (id, proof)
        | .error _ => .error .expect) = .ok r := by
      intro l
      induction l with
      | nil => intro _; exact ⟨_, rfl⟩
      | cons q l ih =>
        intro hl
        rw [List.mapM_cons]
        rcases cases q with ⟨h, e⟩ | ⟨h, pr, e⟩
        · exact absurd (hl q (by simp)) h
        · obtain ⟨r, hr⟩ := ih fun p hp => hl p (by simp [hp])
          rw [e]
          simp only [ok_bind]
          rw [hr]
          exact ⟨_, rfl⟩
    exact key _ fun _ h => h

private theorem settle_append [Env] {D : U5} : ∀ (l r S : List TreeNode),
    settle D S (l ++ r) = (settle D S l).bind fun S => settle D S r
  | [], r, S => rfl
  | x :: l, r, S => by
    simp only [List.cons_append, settle]
    cases push D S x with
    | none => rfl
    | some S' => exact settle_append l r S'

/-- What a release build makes of the frontier of a minimal tree followed by a hidden node of depth 1. -/
private theorem settle_extra [Env] (hd : dbg = false) {D : U5} (h1 : 1 ≤ D.val) {u : PT} (hf : u.Fits D.val D.val 0)
    (hm : u.Minimal) (x : MerkleHash) :
    settle D [] (u.frontier 0 ++ [TreeNode.concealed 1 x]) = some ((u.frontier 0 ++ [TreeNode.concealed 1 x]).reverse) := by
  have hD := D.isLt
  obtain ⟨k, hk, -⟩ := concealOuter_tree (H := D.val) (D := D) (by omega) hD ((u.frontier 0).length + 1) u 0 hf (by omega)
  rw [PT.canon_of_minimal hm] at hk
  have hs := concealOuter_eq hd D (u.frontier 0) 0
  cases h : settle D [] (u.frontier 0) with
  | none =>
    rw [h, hk] at hs
    obtain ⟨e, he⟩ := hs
    cases he
  | some S =>
    rw [h, hk] at hs
    obtain ⟨n, he⟩ := hs
    have hS : S = (u.frontier 0).reverse := by
      have e := congrArg Prod.fst (Except.ok.inj he)
      simp only at e
      rw [e, List.reverse_reverse]
    have hcov : coverage D S = 2 ^ D.val := by
      have : coverage D S = coverage D (u.frontier 0) := by
        rw [hS, coverage, coverage, List.filter_reverse, List.map_reverse, List.sum_reverse]
      rw [this, coverage_frontier hf (Nat.zero_le _)]
      rfl
    have hp : push D S (.concealed 1 x) = some (.concealed 1 x :: S) := by
      cases S with
      | nil => rfl
      | cons s S =>
        cases s with
        | leaf p m => rfl
        | concealed d h =>
          simp only [push]
          by_cases e : d ≠ 1
          · rw [if_pos e]
          · have e : d = 1 := by simpa using e
            subst e
            rw [coverage_cons', nodeCov_concealed (by exact h1)] at hcov
            have e1 : (1 : U5).val = 1 := rfl
            rw [e1] at hcov ⊢
            rw [if_neg (by simp), if_neg (by omega), if_pos]
            have e2 : 2 ^ D.val = 2 * 2 ^ (D.val - 1) := by
              rw [← Nat.pow_succ']; congr 1; omega
            have := Nat.two_pow_pos (D.val - 1)
            rw [show D.val + 1 - 1 = D.val by omega, Nat.mod_eq_of_lt (by omega)]
            omega
    rw [settle_append, h, Option.bind_some, settle, hp, List.reverse_append]
    subst hS
    rfl

private theorem hideLeaves_self [Env] {p : ProtocolId} : ∀ {v : PT}, (∀ e ∈ v.known, e.1 = p) →
    v.hideLeaves (List.contains [p]) = v := by
  intro v
  induction v with
  | hidden _ => intro _; rfl
  | leaf q x =>
    intro hv
    have := hv (q, x) (by simp [PT.known])
    simp only at this
    rw [PT.hideLeaves, if_pos (by simp [this])]
  | node l r ihl ihr =>
    intro hv
    simp only [PT.known, List.mem_append] at hv
    rw [PT.hideLeaves, ihl (fun e he => hv e (.inl he)), ihr (fun e he => hv e (.inr he))]

private theorem path_length (p : ProtocolId) (m : Message) : ∀ (path : List MerkleHash) (pos d : Nat),
    ((PT.path p m pos path).frontier d).length = path.length + 1
  | [], _, _ => rfl
  | h :: rest, pos, d => by
    rw [path_cons]
    split
    · simp only [PT.frontier, List.length_append, path_length p m rest, List.length_cons, List.length_nil]
      omega
    · simp only [PT.frontier, List.length_append, path_length p m rest, List.length_cons, List.length_nil]

/-- **C80** In a release build the proofs taken from a block that has the right commitment can be wrong: take a
proof that verifies and any other hash. There is a block that deserializes, has the same commitment, reveals that
message only and at the slot of its protocol, and whose proof of it has the given hash for the first of
the path. So it does not verify to the commitment, whatever the message (unless two different strings
hashed have one hash). -/
theorem C80_release_wrong [Env] (hd : dbg = false) (pr : MerkleProof) (p : ProtocolId) (m : Message) (c : Commitment)
    (hl : pr.path.length ≤ 32) (hv : pr.convolve p m = .ok (.ok c)) (h : MerkleHash) (rest : List MerkleHash)
    (hp : pr.path = h :: rest) (x : MerkleHash) :
    ∃ o : MerkleBlock, deserialize decMerkleBlock o.enc = some o ∧ o.enc.length = 34 * pr.path.length + 108 ∧
      o.commitId = .ok c ∧
      o.knownMessages = [(p, m)] ∧ o.toMerkleProof p = .ok (.ok { pr with path := x :: rest }) ∧
      (x ≠ h → ∀ m', NoCollision (proofInputs pr p m ++ proofInputs { pr with path := x :: rest } p m') →
        MerkleProof.convolve { pr with path := x :: rest } p m' ≠ .ok (.ok c)) := by
  have h1 : ∀ x, debugAssert dbg x = .ok () := by intro x; rw [hd]; rfl
  obtain ⟨hl', hpos, hc⟩ := convolve_ok hl hv
  obtain ⟨-, hmin⟩ := path_minimal p m pr.path pr.pos.toNat
  have hU := toU5_val hl'
  have hD1 : 1 ≤ (toU5 pr.path.length).val := by rw [hU, hp]; simp
  have hf : (PT.path p m pr.pos.toNat pr.path).Fits (toU5 pr.path.length).val (toU5 pr.path.length).val 0 :=
    path_fits p m pr.path _ 0 (by rw [hU]; omega)
  have hk := path_known p m pr.path pr.pos.toNat
  let o : MerkleBlock := ⟨pr.method, toU5 pr.path.length, pr.cofactor,
    (PT.path p m pr.pos.toNat pr.path).frontier 0 ++ [.concealed 1 x], none⟩
  have hlen : o.crossSection.length = pr.path.length + 2 := by
    simp only [o, List.length_append, path_length, List.length_cons, List.length_nil]
  have hrev : revealed o.crossSection = [(p, m)] := by
    simp only [o]
    rw [revealed_append, revealed_frontier, hk]
    rfl
  refine ⟨o, C38_block_serialized o ⟨by omega, by omega⟩, ?_, ?_, ?_, ?_, ?_⟩
  · rw [C66_block_bytes, hlen, knownMessages_eq, hrev]
    simp only [o, Option.isSome, List.length_cons, List.length_nil, Bool.false_eq_true, if_false]
    omega
  · rw [MerkleBlock.commitId_eq]
    have : o.conceal = .ok ⟨toU5 pr.path.length, pr.cofactor,
        (PT.path p m pr.pos.toNat pr.path).root (2 ^ (toU5 pr.path.length).val) 0⟩ := by
      rw [conceal_settle hd]
      refine ⟨[.concealed 1 x], _, ?_, rfl⟩
      simp only [o, List.map_append, List.map_cons, List.map_nil]
      rw [settle_append, hideAll, map_hideNode_frontier hf]
      have hfh := PT.fits_hideLeaves (keep := fun _ => false) (Nat.le_refl _) hf
      obtain ⟨k, hk', -⟩ := concealOuter_tree (H := (toU5 pr.path.length).val) (D := toU5 pr.path.length) (by omega)
        (toU5 pr.path.length).isLt _ _ 0 hfh (Nat.lt_succ_self _)
      rw [PT.canon_of_known_nil (by rw [PT.known_hideLeaves, hk]; rfl), PT.root_hideLeaves] at hk'
      have hs := concealOuter_eq hd (toU5 pr.path.length)
        (((PT.path p m pr.pos.toNat pr.path).hideLeaves fun _ => false).frontier 0) 0
      rw [hk'] at hs
      cases hh : settle (toU5 pr.path.length) []
          (((PT.path p m pr.pos.toNat pr.path).hideLeaves fun _ => false).frontier 0) with
      | none =>
        rw [hh] at hs
        obtain ⟨e, he⟩ := hs
        cases he
      | some S =>
        rw [hh] at hs
        obtain ⟨n, he⟩ := hs
        have e := congrArg List.reverse (congrArg Prod.fst (Except.ok.inj he))
        simp only [List.reverse_reverse, PT.frontier, List.reverse_cons, List.reverse_nil, List.nil_append] at e
        subst e
        rfl
    rw [this, ok_bind, hc, hU]
  · rw [knownMessages_eq, hrev]
  · rw [MerkleBlock.toMerkleProof, MerkleBlock.concealOther, concealExcept_eq]
    have hm : missing o [p] = [] := by
      rw [missing, List.filter_eq_nil_iff]
      intro q hq
      have : q = p := by simpa using mem_bsetOfList.mp hq
      subst this
      rw [hrev]
      simp
    have hcs : o.crossSection.map (hideNode o.depth (List.contains [p])) = o.crossSection := by
      simp only [o, List.map_append, List.map_cons, List.map_nil]
      rw [map_hideNode_frontier hf, hideLeaves_self (p := p) (by rw [hk]; simp)]
      rfl
    rw [hm]
    simp only
    rw [hcs]
    have hs := concealOuter_eq hd o.depth o.crossSection
      ((revealed o.crossSection).countP (fun e => !List.contains [p] e.1))
    rw [show settle o.depth [] o.crossSection = _ from settle_extra hd hD1 hf hmin x] at hs
    obtain ⟨n, hn⟩ := hs
    rw [List.reverse_reverse] at hn
    rw [hn]
    simp only [ok_bind, h1]
    rw [collectPath_append, collectPath_path p m _ _ _ _ (by omega) (by simp), ok_bind]
    have hins : bmapInsert (1 : U5) x (depthMap 1 pr.path) = depthMap 1 (x :: rest) := by
      rw [hp, depthMap, depthMap]
      rfl
    simp only [List.nil_append, Nat.zero_add, collectPath, h1, ok_bind]
    rw [hins, depthMap_snd, if_pos (by rw [hp] at hl; exact hl)]
    simp only [o, MerkleBlock.protocolIdPos, hpos]
    rfl
  · intro hx m' hn hcon
    have := (C18_binding pr { pr with path := x :: rest } p m m' c hl (by rw [hp] at hl; exact hl) hn hv hcon).2
    have := congrArg MerkleProof.path this
    rw [hp] at this
    exact hx (List.cons.inj this).1.symm

/-- Non-vacuity: with real SHA256 there is a block with the commitment of the sample tree from which a release
build takes a proof that does not verify. -/
example : ∃ (o : MerkleBlock) (pr : MerkleProof) (c : Commitment),
    @MerkleTree.commitId (realEnv false) Sample.tree = .ok c ∧ @MerkleBlock.commitId (realEnv false) o = .ok c ∧
    o.knownMessages = [(Sample.p1, Sample.m1)] ∧ @MerkleBlock.toMerkleProof (realEnv false) o Sample.p1 = .ok (.ok pr) ∧
    @MerkleProof.convolve (realEnv false) pr Sample.p1 Sample.m1 ≠ .ok (.ok c) := by
  letI := realEnv false
  obtain ⟨o, -, -, h1, h2, h3, h4⟩ := C80_release_wrong rfl Sample.proof1 Sample.p1 Sample.m1 Sample.tree.specCommitment
    (show 2 ≤ 32 by decide) Sample.proof1_convolve _ _ rfl (Bytes32.fill 7)
  exact ⟨o, _, _, tree_commitId _, h1, h2, h3, h4 (by decide +kernel) _ (by decide +kernel)⟩

/-- Non-vacuity of C79 and `C80_release`: a block that goes on after the root, revealing one protocol twice,
has a commitment in a release build and none in a debug build. -/
example [Env] (x : MerkleHash) :
    let b : MerkleBlock := ⟨.sha256t, 1, 0,
      [.concealed 0 x, .leaf Sample.p1 Sample.m1, .concealed 0 x, .leaf Sample.p1 Sample.m5], none⟩
    (dbg = false → ∃ c, b.commitId = .ok c) ∧ (dbg = true → ∀ c, b.commitId ≠ .ok c) := by
  intro b
  constructor
  · intro hd
    refine ⟨commitmentHash ⟨1, 0, x⟩, ?_⟩
    rw [MerkleBlock.commitId_eq, (conceal_settle hd b ⟨1, 0, x⟩).2 ⟨[_, _, _], x, rfl, rfl⟩, ok_bind]
  · intro hd c hc
    obtain ⟨t, h1, h2, -⟩ := (C29_debug hd b c).1 hc
    have := (frontier_inj (H := 2) (D := 1) (t1 := t) (t2 := .hidden x) (by decide) (by decide) h2 (Nat.zero_le _)
      (r1 := []) (r2 := b.crossSection.tail) ((List.append_nil _).trans h1.symm)).2
    cases this

end CSV
