import Verif.Cases.Real
import Verif.Props.AnyBuoy
import Verif.Props.Codec
import Verif.Props.Collections
import Verif.Props.Cost
import Verif.Props.Conceal
import Verif.Props.Engine
import Verif.Props.Known
import Verif.Props.Layout
import Verif.Props.Merge
import Verif.Props.Merkle
import Verif.Props.Params
import Verif.Props.Refine
import Verif.Props.Schemes
import Verif.Props.Seals
import Verif.Props.Second
import Verif.Props.Text
import Verif.Props.Validate
import Verif.Props.Vesper
import Verif.Props.Work

/-!
# Cases for the theorems: engines, schemes, seals, validation
-/

namespace CSV

open Sample

/-! ## Buoys -/

example := C28_any_exact (D := U5) (fun d => d.val) u5_laws 2 0 2 [2, 1] (by decide) (by decide)
example := C28_any_level (D := U5) (fun d => d.val) u5_laws 2 2 [2] (by decide) (by decide)
example := C28_flag (.leaf 2) (.leaf 1) 2 true rfl

/-! ## Engines -/

/-- Three calls: a value, an absent optional value and a list. -/
def Sample.calls : List Call :=
  [.serialized (inferInstance : StrictEncode Leaf) (.entropy 1 2), .option (inferInstance : StrictEncode Leaf) none,
    .list (inferInstance : StrictEncode Leaf) 0 255 [.entropy 3 4]]

theorem Sample.calls_done [Env] : ∀ c ∈ calls, c.Allowed ∧ ∃ st bs, c.Does st bs := by
  refine List.forall_mem_cons.2 ⟨⟨?_, _, _, rfl, rfl, ?_⟩, List.forall_mem_cons.2
    ⟨⟨trivial, _, _, rfl, rfl, ?_⟩, List.forall_mem_cons.2 ⟨⟨trivial, _, _, rfl, rfl, ?_⟩, by simp⟩⟩⟩
  · constructor <;> decide
  all_goals decide

example [Env] := C40_returns "urn:test" calls (by decide) calls_done
example [Env] : ∃ e, (CommitEngine.new "urn:test").runAll calls = .ok e ∧ calls.length ≤ 255 ∧
    e.layout.map some = calls.map Call.step := by
  obtain ⟨e, he⟩ := C40_returns "urn:test" calls (by decide) calls_done
  have := C40_feeds "urn:test" calls e he fun c hc bs hb => by
    obtain ⟨-, st, bs', -, h2, h3⟩ := calls_done c hc
    rw [h2] at hb; cases hb; exact h3
  exact ⟨e, he, this.1, this.2.1⟩
example [Env] := C40_finished (.option (inferInstance : StrictEncode Leaf) none) (.serialized ⟨"CommitVerify", "Leaf"⟩) [0]
  (CommitEngine.new "urn:test").setFinished ⟨rfl, rfl, by decide⟩ trivial (by decide : 0 < 255) rfl
example [Env] := C40_layout_shown (.option (inferInstance : StrictEncode Leaf) none)
  (.serialized ⟨"CommitVerify", "Leaf"⟩) [0] (CommitEngine.new "urn:test") ⟨rfl, rfl, by decide⟩ trivial
  (by decide : 0 < 255)

theorem Sample.byCalls : ByCalls Leaf (fun x => [.serialized inferInstance x]) := fun _ x e => by
  simp only [CommitEngine.runAll, Call.run, CommitEncode.commitEncode]
  cases e.commitToSerialized x <;> rfl

example [Env] (id : Bytes32) (h : commitId (Leaf.entropy 7 1) = .ok id) :=
  C36_tagged _ byCalls (Leaf.entropy 7 1) id h (fun c hc bs hb => by
    rw [List.mem_singleton.1 hc] at hb; cases hb; decide)
example [Env] := C62_uniform _ _ byCalls (fun _ _ => rfl) (.entropy 0 0) (.inhabited p1 m1)
example (e : Env) := C83_engine e (CommitEngine.new "urn:test") calls (by
  intro c hc
  simp only [calls, List.mem_cons, List.not_mem_nil, or_false] at hc
  rcases hc with rfl | rfl | rfl <;> trivial)
example [Env] := C42_strict (inferInstance : StrictEncode Leaf) mpcCommitmentId (.entropy 7 1) (by decide)
  (by constructor <;> decide) (by decide)
example [Env] := C42_transparent (inferInstance : StrictEncode Leaf) (fun n : UInt32 => Leaf.entropy 7 n) mpcCommitmentId 3
  (by decide) (by constructor <;> decide) (by decide)

/-! ## Merging with something unrelated -/

/-- Another block: a tree of one leaf. -/
def Sample.other : MerkleBlock := ⟨.sha256t, 0, 0, [.leaf p9 m1], none⟩

example : letI := realEnv true
    ∃ c1 c2, block1.mergeReveal other = .ok (block1, .error (.unrelatedBlocks c1 c2)) := by
  letI := realEnv true
  have h : other.Shows (.leaf p9 m1) := ⟨rfl, rfl⟩
  exact ⟨_, _, C24_unrelated block1 other _ _ committed1 (shows_commitId h) (by decide +kernel)⟩

/-! ## Schemes -/

/-- A scheme that appends the message to the container and keeps the old length as proof. -/
def Sample.append : EmbedScheme (List Nat) (List Nat) Nat Unit where
  restore p c := if p ≤ c.length then .ok (c.take p) else .error .proofMismatch
  embedCommit c m := if m = [] then (c, .error ()) else (c ++ m, .ok c.length)
  containerEq := fun a b => decide (a = b)
  proofEq := fun a b => decide (a = b)

/-- The commitment is source + supplement · message, the proof keeps source and supplement. -/
def Sample.tweak : ConvolveScheme Nat Nat Nat Nat (Nat × Nat) Unit where
  restoreOriginal p _ := p.1
  extractSupplement p := p.2
  convolveCommit src sup m := if m = 0 then .error () else .ok (src + sup * m, (src, sup))
  commitmentEq := fun a b => decide (a = b)
  proofEq := fun a b => decide (a = b)

example : append.verify [1, 2, 3] [3] 2 = .ok () :=
  C44_embed_complete append [1, 2] [1, 2, 3] [3] 2 rfl rfl (fun _ => decide_eq_true rfl) (fun _ => decide_eq_true rfl)
example : append.restore 7 [1, 2, 3] = .error .proofMismatch := C44_proof_mismatch_never append [1, 2, 3] [3] 7 rfl
example : tweak.verify (5, 2) 3 11 = .ok () :=
  C45_convolve_complete tweak 5 2 3 11 (5, 2) rfl rfl rfl (fun _ => decide_eq_true rfl) (fun _ => decide_eq_true rfl)

/-! ## Seals -/

/-- Seals are numbers, a published witness is a list of closed seals and one committed number. -/
def Sample.seals : SealScheme Nat Nat (List Nat × Nat) Nat Nat Nat Unit Unit where
  isIncluded x _ w := w.published.1.contains x
  convolveCommit c m := if m = 0 then .error () else .ok ((c + 1) * m)
  pubId p := p.2
  verifyCommitment p q := if p.2 = q then .ok () else .error ()

example : seals.verifySealsClosing ⟨([1, 2], 12), 3⟩ [2, 1, 1] 3 = .ok () :=
  (C46_seals_order seals ⟨([1, 2], 12), 3⟩ [1, 2] [2, 1, 1] 3 (by intro x; simp; omega)).1 rfl
example := C78_errors seals ⟨([1, 2], 12), 3⟩ [1, 7, 8] 3 _ rfl toString toString (fun _ => "") (fun _ => "")

/-! ## Validation -/

/-- A resolver that counts its questions and denies odd seals. -/
def Sample.count : Resolver Nat Nat Nat := fun st x => (st + 1, if x % 2 = 0 then .ok () else .error x)

theorem Sample.count_answers : count.AnswersAs (fun _ => True) fun x => if x % 2 = 0 then .ok () else .error x :=
  fun _ _ _ => ⟨trivial, rfl⟩

/-- The same resolver later, when seal 3 is closed. -/
def Sample.countLater : Resolver Nat Nat Nat := fun st x => (st + 1, if x % 2 = 0 ∨ x = 3 then .ok () else .error x)

example := C105_order (Failure := Nat) (Warning := Nat) (Info := Nat) count _ _ count_answers 0 5 trivial trivial
  ⟨⟨[], Status.new⟩, [⟨[2, 3], ⟨[], [8], [], []⟩⟩, ⟨[5], Status.new⟩]⟩
  ⟨⟨[], Status.new⟩, [⟨[5], Status.new⟩, ⟨[2, 3], ⟨[], [8], [], []⟩⟩]⟩ rfl (by decide) (List.Perm.swap ..)
example := C105_later (Failure := Nat) (Warning := Nat) (Info := Nat) count countLater _ (fun _ => True) _
  (fun x => if x % 2 = 0 ∨ x = 3 then .ok () else .error x) count_answers (fun _ _ _ => ⟨trivial, rfl⟩)
  (by intro x; by_cases h : x % 2 = 0 <;> simp [h, Resolved])
  ⟨⟨[], Status.new⟩, [⟨[2, 3], ⟨[], [8], [], []⟩⟩, ⟨[5], Status.new⟩]⟩ 0 0 trivial trivial

/-! ## Random hashes -/

example := C89_experiment (fun t => (t.map fun e => e.1).flatten) 2 [Bytes32.fill 1, Bytes32.fill 2]
  ((mem_idLists _ _).2 rfl) true
example := C112_numbers (fun t => (t.map fun e => e.1).flatten) (fun _ => Bytes32.fill 1) (2 ^ 40) (2 ^ 60) (by decide)
example := C112_long_after (fun t => (t.map fun e => e.1).flatten) (fun _ => Bytes32.fill 1) (2 ^ 30) (2 ^ 127) (by decide)
  (by decide)
example := C114_numbers (fun t => (t.map fun e => e.1).flatten) (fun _ => Bytes32.fill 1) (2 ^ 12) (2 ^ 199) (by decide)
  (by decide)

/-! ## Work -/

example (e : Env) (n : Nat) (h : Needs e n fun e' => @MerkleTree.commitId e' Sample.tree) : 4 ≤ n + 3 :=
  C99_tree e Sample.tree n h

end CSV
