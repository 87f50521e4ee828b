import Verif.Proofs.Commit
import Verif.Proofs.View
import Verif.Model.Schemes
import Verif.Props.Schemes
import Verif.Spec.Sample

/-!
# C01 - C03, C06 - C08, C58: committing to a set of messages

The specification is `Spec/Commit.lean`: `slotOf`, `Separates`, `Attempt`, `Earlier`.
-/

namespace CSV

private theorem committed {rng : Option UInt64} {s : MultiSource} {t : MerkleTree}
    (h : MerkleTree.tryCommit rng s = .ok (.ok t)) :
    s.staticEntropy.or rng = some t.entropy ∧ Committed s t.entropy t := by
  rcases tryCommit_spec rng s with ⟨_, _, h'⟩ | ⟨_, _, h'⟩ | ⟨_, e, he, ⟨t', h', hc⟩ | ⟨h', _⟩⟩
  all_goals rw [h] at h'
  all_goals cases h'
  rw [hc.ent]
  exact ⟨he, by have := hc.ent; subst this; exact hc⟩

private theorem mem_iff_get (m : MessageMap) (p : ProtocolId) (x : Message) :
    (p, x) ∈ m.entries ↔ m.get p = some x :=
  ⟨fun h => mem_bmapGet m.sorted h, fun h => bmapGet_mem h⟩

private theorem mem_ids (s : MultiSource) (p : ProtocolId) :
    p ∈ s.ids ↔ ∃ x, s.messages.get p = some x := by
  simp only [MultiSource.ids, List.mem_map, ← mem_iff_get]
  exact ⟨fun ⟨⟨_, x⟩, h, e⟩ => ⟨x, by cases e; exact h⟩, fun ⟨x, h⟩ => ⟨_, h, rfl⟩⟩

/-- **C01** A committed tree holds each message of the source in the slot of its protocol, nothing
else, different protocols are in different slots, and messages, method and entropy are carried over.
-/
theorem C01_slots (rng : Option UInt64) (s : MultiSource) (t : MerkleTree)
    (h : MerkleTree.tryCommit rng s = .ok (.ok t)) :
    t.method = s.method ∧ t.messages = s.messages ∧ s.staticEntropy.or rng = some t.entropy ∧
    (∀ p m, s.messages.get p = some m → t.map.get (t.protocolIdPos p) = some (p, m)) ∧
    (∀ k p m, t.map.get k = some (p, m) → s.messages.get p = some m ∧ k = t.protocolIdPos p) ∧
    (∀ p m q n, s.messages.get p = some m → s.messages.get q = some n →
      t.protocolIdPos p = t.protocolIdPos q → p = q) := by
  obtain ⟨he, hc⟩ := committed h
  have hg : ∀ k p m, t.map.get k = some (p, m) ↔
      s.messages.get p = some m ∧ k = t.protocolIdPos p := by
    intro k p m
    rw [hc.holds, hc.messages, mem_iff_get]
    show _ ∧ _ = slotOf p _ _ ↔ _
    rw [← protocolIdPos_eq, UInt32.toNat_inj]
    exact Iff.rfl
  refine ⟨hc.method, hc.messages, he, fun p m hp => (hg _ _ _).2 ⟨hp, rfl⟩,
    fun k p m hk => (hg k p m).1 hk, fun p m q n hp hq hpq => ?_⟩
  have h1 := (hg _ p m).2 ⟨hp, rfl⟩
  have h2 := (hg _ q n).2 ⟨hq, rfl⟩
  rw [hpq, h2] at h1
  simp only [Option.some.injEq, Prod.mk.injEq] at h1
  exact h1.1.symm

/-- **C01** The leaves under the merkle root: at each slot either the one message whose protocol has
this slot, or, if there is none, the entropy leaf of the slot. -/
theorem C01_leaves (rng : Option UInt64) (s : MultiSource) (t : MerkleTree)
    (h : MerkleTree.tryCommit rng s = .ok (.ok t)) (i : Nat) (hi : i < 2 ^ t.depth.val) :
    (∃ p m, s.messages.get p = some m ∧ slotOf p t.cofactor.toNat t.depth.val = i ∧
      t.leafAt i = .inhabited p m) ∨
    ((∀ p m, s.messages.get p = some m → slotOf p t.cofactor.toNat t.depth.val ≠ i) ∧
      t.leafAt i = .entropy t.entropy (UInt32.ofNat i)) := by
  obtain ⟨he, hc⟩ := committed h
  have h31 : (2:Nat) ^ t.depth.val ≤ 2 ^ 31 :=
    Nat.pow_le_pow_right (by decide) (by have := t.depth.isLt; omega)
  have hu : (UInt32.ofNat i).toNat = i :=
    UInt32.toNat_ofNat_of_lt' (by show i < 4294967296; omega)
  unfold MerkleTree.leafAt
  cases hm : t.map.get (UInt32.ofNat i) with
  | some e =>
    obtain ⟨p, m⟩ := e
    have := (hc.holds _ _).1 hm
    rw [hu, hc.messages, mem_iff_get] at this
    exact Or.inl ⟨p, m, this.1, this.2.symm, rfl⟩
  | none =>
    refine Or.inr ⟨fun p m hp hs => ?_, rfl⟩
    have := (hc.holds (UInt32.ofNat i) (p, m)).2
      ⟨by rw [hc.messages, mem_iff_get]; exact hp, by rw [hu]; exact hs.symm⟩
    rw [hm] at this
    cases this

/-- **C02** The tree has the first depth and cofactor, in the order of attempts, that separate the
protocols. -/
theorem C02_first_fit (rng : Option UInt64) (s : MultiSource) (t : MerkleTree)
    (h : MerkleTree.tryCommit rng s = .ok (.ok t)) :
    Attempt s.ids.length s.minDepth.val t.depth.val t.cofactor.toNat ∧
    Separates s.ids t.depth.val t.cofactor.toNat ∧
    ∀ d c, Attempt s.ids.length s.minDepth.val d c →
      Earlier d c t.depth.val t.cofactor.toNat → ¬ Separates s.ids d c := by
  obtain ⟨-, hc⟩ := committed h
  exact ⟨hc.attempt, hc.separates, hc.first⟩

/-- **C02** Depth, cofactor and slots depend only on the source, not on the random numbers: two
runs give trees that differ at most in their entropy. -/
theorem C02_independent_of_rng (rng rng' : Option UInt64) (s : MultiSource) (t t' : MerkleTree)
    (h : MerkleTree.tryCommit rng s = .ok (.ok t))
    (h' : MerkleTree.tryCommit rng' s = .ok (.ok t')) :
    t' = { t with entropy := t'.entropy } := by
  obtain ⟨-, hc⟩ := committed h
  obtain ⟨-, hc'⟩ := committed h'
  have hd : t.depth.val = t'.depth.val ∧ t.cofactor.toNat = t'.cofactor.toNat := by
    have h1 : ¬ Earlier t'.depth.val t'.cofactor.toNat t.depth.val t.cofactor.toNat :=
      fun hlt => hc.first _ _ hc'.attempt hlt hc'.separates
    have h2 : ¬ Earlier t.depth.val t.cofactor.toNat t'.depth.val t'.cofactor.toNat :=
      fun hlt => hc'.first _ _ hc.attempt hlt hc.separates
    simp only [Earlier] at h1 h2
    omega
  have hdep : t.depth = t'.depth := Fin.ext hd.1
  have hcof : t.cofactor = t'.cofactor := UInt16.toNat_inj.1 hd.2
  have hmap : t.map = t'.map := by
    apply OrdMap.ext'
    apply BMapOk.ext t.map.sorted t'.map.sorted
    intro k
    have : ∀ e, t.map.get k = some e ↔ t'.map.get k = some e := by
      intro e
      rw [hc.holds, hc'.holds, hc.messages, hc'.messages, hdep, hcof]
    simp only [OrdMap.get] at this
    cases h1 : bmapGet k t.map.entries with
    | none =>
      cases h2 : bmapGet k t'.map.entries with
      | none => rfl
      | some e => rw [(this e).2 h2] at h1; cases h1
    | some e => rw [(this e).1 h1]
  obtain ⟨a, b, c, d, e, f⟩ := t
  obtain ⟨a', b', c', d', e', f'⟩ := t'
  simp only at hdep hcof hmap
  have hms := hc.messages.trans hc'.messages.symm
  simp only at hms
  subst hdep hcof hmap hms
  cases a
  cases a'
  rfl

/-- **C03** With an entropy value available nothing panics. -/
theorem C03_no_panic (rng : Option UInt64) (s : MultiSource)
    (h : (s.staticEntropy.or rng).isSome) :
    ∃ r, MerkleTree.tryCommit rng s = .ok r := by
  rcases tryCommit_spec rng s with ⟨_, _, h'⟩ | ⟨_, h0, h'⟩ | ⟨_, e, he, ⟨t', h', hc⟩ | ⟨h', _⟩⟩
  · exact ⟨_, h'⟩
  · rw [h0] at h; cases h
  · exact ⟨_, h'⟩
  · exact ⟨_, h'⟩

/-- **C03** It panics exactly if there is neither static entropy nor a random number generator and
the source is not the trivially empty one. -/
theorem C03_panic_iff (rng : Option UInt64) (s : MultiSource) (p : Panic) :
    MerkleTree.tryCommit rng s = .error p ↔
      p = .expect ∧ s.staticEntropy = none ∧ rng = none ∧
        ¬ (s.minDepth.val = 0 ∧ s.messages.entries = []) := by
  have hnil : s.ids = [] ↔ s.messages.entries = [] := by simp [MultiSource.ids]
  have hz : s.minDepth = 0 ↔ s.minDepth.val = 0 := Fin.ext_iff
  rcases tryCommit_spec rng s with ⟨h1, h2, h'⟩ | ⟨h1, h0, h'⟩ | ⟨_, e, he, ⟨t', h', hc⟩ | ⟨h', _⟩⟩
  · rw [h']; rw [hnil] at h2; rw [hz] at h1; simp [h1, h2]
  · rw [h']
    rw [hnil, hz] at h1
    rw [Option.or_eq_none_iff] at h0
    simp only [Except.error.injEq, h0, h1, not_false_eq_true, and_true]
    exact eq_comm
  · rw [h']
    constructor
    · intro h; cases h
    · rintro ⟨_, ha, hb, _⟩; rw [ha, hb] at he; cases he
  · rw [h']
    constructor
    · intro h; cases h
    · rintro ⟨_, ha, hb, _⟩; rw [ha, hb] at he; cases he

/-- **C03** `Empty` is returned exactly for no messages and zero minimal depth. -/
theorem C03_empty_iff (rng : Option UInt64) (s : MultiSource) :
    MerkleTree.tryCommit rng s = .ok (.error .empty) ↔
      s.minDepth.val = 0 ∧ s.messages.entries = [] := by
  have hnil : s.ids = [] ↔ s.messages.entries = [] := by simp [MultiSource.ids]
  have hz : s.minDepth = 0 ↔ s.minDepth.val = 0 := Fin.ext_iff
  rw [← hnil, ← hz]
  rcases tryCommit_spec rng s with ⟨h1, h2, h'⟩ | ⟨h1, h0, h'⟩ | ⟨h1, e, he, ⟨t', h', hc⟩ | ⟨h', _⟩⟩
  all_goals rw [h']; simp only [h1]
  · simp [h2]
  all_goals simp

/-- **C03** `CantFitInMaxSlots` is returned exactly if every attempt puts two protocols into one
slot (given an entropy value); it reports the number of messages. -/
theorem C03_cant_fit_iff (rng : Option UInt64) (s : MultiSource) (n : Nat)
    (h : (s.staticEntropy.or rng).isSome) :
    MerkleTree.tryCommit rng s = .ok (.error (.cantFitInMaxSlots n)) ↔
      n = s.messages.entries.length ∧
      ∀ d c, Attempt s.messages.entries.length s.minDepth.val d c → ¬ Separates s.ids d c := by
  have hlen : s.messages.entries.length = s.ids.length := by simp [MultiSource.ids]
  rw [hlen]
  have hempty : s.ids = [] → ∀ d c, Separates s.ids d c := by
    intro h d c; rw [h]; exact List.Pairwise.nil
  rcases tryCommit_spec rng s with ⟨h1, h2, h'⟩ | ⟨h1, h0, h'⟩ | ⟨h1, e, he, ⟨t', h', hc⟩ | ⟨h', hn⟩⟩
  · rw [h']
    constructor
    · intro h; cases h
    · rintro ⟨_, hall⟩
      exact absurd (hempty h2 _ _) (hall 0 0 ⟨by rw [h1]; decide, by decide, by simp [h2], by omega⟩)
  · rw [h0] at h; cases h
  · rw [h']
    constructor
    · intro h; cases h
    · rintro ⟨_, hall⟩; exact absurd hc.separates (hall _ _ hc.attempt)
  · rw [h']
    constructor
    · intro h
      injection h with h; injection h with h; injection h with h
      exact ⟨h.symm, hn⟩
    · rintro ⟨rfl, _⟩; rfl

/-- **C03** `TooManyMessages` is never returned. -/
theorem C03_never_too_many (rng : Option UInt64) (s : MultiSource) (n : Nat) :
    MerkleTree.tryCommit rng s ≠ .ok (.error (.tooManyMessages n)) := by
  rcases tryCommit_spec rng s with ⟨h1, h2, h'⟩ | ⟨h1, h0, h'⟩ | ⟨h1, e, he, ⟨t', h', hc⟩ | ⟨h', hn⟩⟩
  all_goals rw [h']; intro h; cases h

/-- Non-vacuity of C01 - C03: three messages, the first attempt fails, the second succeeds. -/
example : MerkleTree.tryCommit none Sample.source = .ok (.ok Sample.tree) ∧
    Attempt 3 2 2 0 ∧ ¬ Separates Sample.source.ids 2 0 ∧
    Attempt 3 2 2 1 ∧ Separates Sample.source.ids 2 1 ∧ Earlier 2 0 2 1 :=
  ⟨Sample.commits, by decide, by decide, by decide, by decide, by simp [Earlier]⟩

/-- All other outcomes occur as well (`CantFitInMaxSlots` in `Props/Fit.lean`). -/
example : MerkleTree.tryCommit none { Sample.source with minDepth := 0, messages := ⟨[], by decide, by decide⟩ }
      = .ok (.error .empty) ∧
    MerkleTree.tryCommit none { Sample.source with staticEntropy := none } = .error .expect :=
  ⟨rfl, rfl⟩

/-- **C06** The slot of a protocol is its id as a little-endian number modulo
`max (2^depth - cofactor) 1`, untruncated, hence inside the tree; trees and blocks use the same
slots. -/
theorem C06_position (p : ProtocolId) (cofactor : UInt16) (depth : U5) :
    (protocolIdPos p cofactor depth).toNat
      = leNat p.bytes % max (2 ^ depth.val - cofactor.toNat) 1 ∧
    (protocolIdPos p cofactor depth).toNat < 2 ^ depth.val ∧ widthLimit depth = 2 ^ depth.val ∧
    (∀ t : MerkleTree, t.depth = depth → t.cofactor = cofactor →
      t.protocolIdPos p = protocolIdPos p cofactor depth) ∧
    (∀ b : MerkleBlock, b.depth = depth → b.cofactor = cofactor →
      b.protocolIdPos p = protocolIdPos p cofactor depth) := by
  refine ⟨protocolIdPos_eq p cofactor depth, ?_, rfl, ?_, ?_⟩
  · rw [protocolIdPos_eq]; exact slotOf_lt _ _ _
  · rintro t rfl rfl; rfl
  · rintro t rfl rfl; rfl

/-- Also with a cofactor above the width. -/
example : (protocolIdPos Sample.p6 1 2).toNat = 0 ∧ (protocolIdPos Sample.p6 500 2).toNat = 0 ∧
    (protocolIdPos (Bytes32.fill 0xFF) 0 31).toNat = 2 ^ 31 - 1 := by decide +kernel

/-- **C07** A committed tree has a cofactor below its width, `factored_width` is
`2^depth - cofactor`, and all slots in use are below it. -/
theorem C07_factored_width [Env] (rng : Option UInt64) (s : MultiSource) (t : MerkleTree)
    (h : MerkleTree.tryCommit rng s = .ok (.ok t)) :
    t.cofactor.toNat < 2 ^ t.depth.val ∧
    t.factoredWidth = .ok (2 ^ t.depth.val - t.cofactor.toNat) ∧
    ∀ k e, t.map.get k = some e → k.toNat < 2 ^ t.depth.val - t.cofactor.toNat := by
  obtain ⟨-, hc⟩ := committed h
  have hlt : t.cofactor.toNat < 2 ^ t.depth.val := by
    obtain ⟨h1, h2, h3, h4⟩ := hc.attempt
    simp only [maxCofactor] at h4
    split at h4
    · rename_i hd
      rcases Nat.eq_zero_or_pos t.depth.val with h0 | h0
      · rcases Nat.lt_or_ge t.cofactor.toNat 1 with hl | hl
        · simp [h0]; omega
        · exfalso
          refine hc.first t.depth.val 0 ⟨h1, h2, h3, Nat.zero_le _⟩ (Or.inr ⟨rfl, hl⟩) ?_
          rw [h0] at h3
          simp only [Separates]
          match hids : s.ids with
          | [] => exact List.Pairwise.nil
          | [a] => exact List.pairwise_singleton _ _
          | a :: b :: l => rw [hids] at h3; simp at h3
      · have : (2:Nat) ^ 1 ≤ 2 ^ t.depth.val := Nat.pow_le_pow_right (by decide) h0
        omega
    · rename_i hd
      have h0 : t.depth.val = t.depth.val - 1 + 1 := by omega
      have : (2:Nat) ^ t.depth.val = 2 * 2 ^ (t.depth.val - 1) := by
        rw [h0, Nat.pow_succ]; simp; omega
      have := Nat.two_pow_pos (t.depth.val - 1)
      omega
  refine ⟨hlt, ?_, ?_⟩
  · exact u32Sub_ok (Nat.le_of_lt hlt)
  · intro k e hk
    have := ((hc.holds k e).1 hk).2
    have hm := Nat.mod_lt e.1.toNat (show max (2 ^ t.depth.val - t.cofactor.toNat) 1 > 0 by omega)
    simp only [slotOf] at this
    omega

/-- **C07** The same for every block showing a part of the tree, and every proof with the depth and
cofactor of the tree. -/
theorem C07_derived [Env] (rng : Option UInt64) (s : MultiSource) (t : MerkleTree)
    (h : MerkleTree.tryCommit rng s = .ok (.ok t)) :
    (∀ b : MerkleBlock, b.OfTree t →
      b.factoredWidth = .ok (2 ^ t.depth.val - t.cofactor.toNat)) ∧
    (∀ p : MerkleProof, p.path.length = t.depth.val → p.cofactor = t.cofactor →
      p.factoredWidth = .ok (2 ^ t.depth.val - t.cofactor.toNat)) := by
  obtain ⟨hlt, -, -⟩ := C07_factored_width rng s t h
  constructor
  · rintro b ⟨-, hd, hc, -⟩
    simp only [MerkleBlock.factoredWidth, MerkleBlock.widthLimit, widthLimit, u32Sub, hd, hc]
    rw [if_pos (Nat.le_of_lt hlt)]
  · intro p hp hc
    have hb := t.depth.isLt
    have hd : p.depth = .ok t.depth := by
      unfold MerkleProof.depth u5With
      have : p.path.length % 256 = t.depth.val := by omega
      rw [dif_pos (by omega)]
      congr 1
      exact Fin.ext this
    simp only [MerkleProof.factoredWidth, MerkleProof.widthLimit, hd, bind, Except.bind, widthLimit,
      u32Sub, hc]
    rw [if_pos (Nat.le_of_lt hlt)]

/-- **C07** For an arbitrary (decoded) tree or block `factored_width` fails exactly if the cofactor
exceeds the width: a debug build panics, a release build returns a number above `2^31`. -/
theorem C07_decoded [env : Env] (t : MerkleTree) (b : MerkleBlock) (hd : b.depth = t.depth)
    (hc : b.cofactor = t.cofactor) :
    t.factoredWidth = b.factoredWidth ∧
    (t.cofactor.toNat ≤ 2 ^ t.depth.val →
      t.factoredWidth = .ok (2 ^ t.depth.val - t.cofactor.toNat)) ∧
    (2 ^ t.depth.val < t.cofactor.toNat →
      if env.debug then t.factoredWidth = .error .overflow
      else t.factoredWidth = .ok (2 ^ 32 + 2 ^ t.depth.val - t.cofactor.toNat)) := by
  refine ⟨?_, ?_, ?_⟩
  · simp only [MerkleTree.factoredWidth, MerkleBlock.factoredWidth, MerkleTree.widthLimit,
      MerkleBlock.widthLimit, hd, hc]
  · intro h
    exact u32Sub_ok h
  · intro h
    have hcb := t.cofactor.toNat_lt
    have hf : t.factoredWidth = u32Sub env.debug (2 ^ t.depth.val) t.cofactor.toNat := rfl
    rw [hf]
    unfold u32Sub
    rw [if_neg (show ¬ t.cofactor.toNat ≤ 2 ^ t.depth.val by omega)]
    cases env.debug
    · show Except.ok _ = Except.ok _
      congr 1
      omega
    · rfl

/-- **C07** For an arbitrary (decoded) proof: the width and the depth cannot be computed for a path of 32 hashes, in
neither profile; for shorter paths `factored_width` fails exactly if the cofactor exceeds the width. -/
theorem C07_decoded_proof [env : Env] (p : MerkleProof) (hl : p.path.length ≤ 32) :
    (p.path.length = 32 →
      p.depth = .error .overflow ∧ p.widthLimit = .error .overflow ∧ p.factoredWidth = .error .overflow) ∧
    (p.path.length < 32 → (∃ d : U5, p.depth = .ok d ∧ d.val = p.path.length) ∧
      p.widthLimit = .ok (2 ^ p.path.length) ∧
      (p.cofactor.toNat ≤ 2 ^ p.path.length →
        p.factoredWidth = .ok (2 ^ p.path.length - p.cofactor.toNat)) ∧
      (2 ^ p.path.length < p.cofactor.toNat →
        if env.debug then p.factoredWidth = .error .overflow
        else p.factoredWidth = .ok (2 ^ 32 + 2 ^ p.path.length - p.cofactor.toNat))) := by
  refine ⟨fun h => ?_, fun h => ?_⟩
  · have hd : p.depth = .error .overflow := by
      simp only [MerkleProof.depth, h]
      rfl
    have hw : p.widthLimit = .error .overflow := by simp only [MerkleProof.widthLimit, hd]; rfl
    exact ⟨hd, hw, by simp only [MerkleProof.factoredWidth, hw]; rfl⟩
  · have hd : p.depth = .ok ⟨p.path.length, h⟩ := by
      unfold MerkleProof.depth u5With
      rw [Nat.mod_eq_of_lt (show p.path.length < 256 by omega), dif_pos h]
    have hw : p.widthLimit = .ok (2 ^ p.path.length) := by simp only [MerkleProof.widthLimit, hd]; rfl
    have hf : p.factoredWidth = u32Sub env.debug (2 ^ p.path.length) p.cofactor.toNat := by
      simp only [MerkleProof.factoredWidth, hw]; rfl
    refine ⟨⟨_, hd, rfl⟩, hw, fun hc => by rw [hf]; exact u32Sub_ok hc, fun hc => ?_⟩
    have hcb := p.cofactor.toNat_lt
    rw [hf]
    unfold u32Sub
    rw [if_neg (show ¬ p.cofactor.toNat ≤ 2 ^ p.path.length by omega)]
    cases env.debug
    · show Except.ok _ = Except.ok _
      congr 1
      omega
    · rfl

/-- Both cases are met: the sample tree, and a decoded block with too large a cofactor. -/
example : Sample.tree.cofactor.toNat = 1 ∧ Sample.tree.depth.val = 2 ∧
    (@MerkleTree.factoredWidth (realEnv true) Sample.tree = .ok 3) ∧
    (@MerkleBlock.factoredWidth (realEnv true) ⟨.sha256t, 2, 5, [], none⟩ = .error .overflow) ∧
    (@MerkleBlock.factoredWidth (realEnv false) ⟨.sha256t, 2, 5, [], none⟩ = .ok (2 ^ 32 - 1)) :=
  ⟨rfl, rfl, rfl, rfl, rfl⟩

/-- **C08** With static entropy the result does not depend on the random number generator, and
verification accepts exactly the tree that committing produces, reports `InvalidMessage` exactly if
committing fails, and `InvalidCommitment` for every other tree. -/
theorem C08_static_entropy (s : MultiSource) (e : UInt64) (hs : s.staticEntropy = some e)
    (rng rng' : Option UInt64) (t : MerkleTree) :
    MerkleTree.tryCommit rng s = MerkleTree.tryCommit rng' s ∧
    (tryCommitVerify (MerkleTree.tryCommit rng') t s = .ok (.ok ()) ↔
      MerkleTree.tryCommit rng s = .ok (.ok t)) ∧
    (tryCommitVerify (MerkleTree.tryCommit rng') t s = .ok (.error .invalidMessage) ↔
      ∃ err, MerkleTree.tryCommit rng s = .ok (.error err)) ∧
    (tryCommitVerify (MerkleTree.tryCommit rng') t s = .ok (.error .invalidCommitment) ↔
      ∃ t', MerkleTree.tryCommit rng s = .ok (.ok t') ∧ t' ≠ t) := by
  have heq : MerkleTree.tryCommit rng s = MerkleTree.tryCommit rng' s := by
    unfold MerkleTree.tryCommit
    rw [hs]; rfl
  obtain ⟨h1, h2, h3, -⟩ := C43_try_commit_verify (MerkleTree.tryCommit rng') t s
  rw [heq]
  exact ⟨rfl, h1, h2, h3⟩

/-- **C08** Without static entropy, verification of a tree succeeds only if the generator returns the
entropy of the tree again; then it succeeds exactly for the trees that committing can produce. -/
theorem C08_random_entropy (s : MultiSource) (hs : s.staticEntropy = none)
    (rng rng' : UInt64) (t : MerkleTree)
    (hc : MerkleTree.tryCommit (some rng) s = .ok (.ok t)) :
    tryCommitVerify (MerkleTree.tryCommit (some rng')) t s = .ok (.ok ()) ↔ rng' = t.entropy := by
  rw [(C43_try_commit_verify (MerkleTree.tryCommit (some rng')) t s).1]
  have he := (committed hc).1
  rw [hs] at he
  simp only [Option.none_or, Option.some.injEq] at he
  constructor
  · intro h
    have := (committed h).1
    rw [hs] at this
    simpa using this
  · rintro rfl
    rw [← he]; exact hc

example : Sample.source.staticEntropy = some 77 ∧
    tryCommitVerify (MerkleTree.tryCommit (some 5)) Sample.tree Sample.source = .ok (.ok ()) ∧
    tryCommitVerify (MerkleTree.tryCommit none) { Sample.tree with entropy := 78 } Sample.source
      = .ok (.error .invalidCommitment) ∧
    tryCommitVerify (MerkleTree.tryCommit (some 5)) Sample.tree
      { Sample.source with staticEntropy := none } = .ok (.error .invalidCommitment) :=
  ⟨rfl, rfl, rfl, rfl⟩

/-- **C58** The default source with static entropy commits to a tree of depth 3 whose eight leaves
are entropy leaves. -/
theorem C58_default (e : UInt64) (rng : Option UInt64) :
    ∃ t, MerkleTree.tryCommit rng (MultiSource.withStaticEntropy e) = .ok (.ok t) ∧
      t.depth.val = 3 ∧ t.cofactor.toNat = 0 ∧ t.entropy = e ∧ t.messages.entries = [] ∧
      ∀ i < 8, t.leafAt i = .entropy e (UInt32.ofNat i) := by
  refine ⟨⟨.sha256t, 3, e, 0, ⟨[], List.Pairwise.nil, Nat.zero_le _⟩,
    ⟨[], List.Pairwise.nil, Nat.zero_le _⟩⟩, ?_, rfl, rfl, rfl, rfl, ?_⟩
  · rfl
  · intro i _; rfl

/-- **C58** The default source without entropy commits exactly if a generator is available. -/
theorem C58_default_rng (rng : Option UInt64) :
    (∃ t, MerkleTree.tryCommit rng MultiSource.default = .ok (.ok t)) ↔ rng.isSome := by
  cases rng with
  | none => constructor
            · rintro ⟨t, h⟩; cases h
            · intro h; cases h
  | some r => exact ⟨fun _ => rfl, fun _ => ⟨⟨.sha256t, 3, r, 0, ⟨[], List.Pairwise.nil, Nat.zero_le _⟩,
    ⟨[], List.Pairwise.nil, Nat.zero_le _⟩⟩, rfl⟩⟩

/-- **C58** The dumb block has a commitment, that of the hidden root it shows. -/
theorem C58_dumb_block [Env] :
    MerkleBlock.strictDumb.commitId = .ok (commitmentHash ⟨1, 0, Bytes32.fill 0⟩) := by
  have h : MerkleBlock.strictDumb.Shows (.hidden (Bytes32.fill 0)) := by
    refine ⟨rfl, ?_⟩
    show 0 ≤ _
    exact Nat.zero_le _
  exact shows_commitId h

end CSV
