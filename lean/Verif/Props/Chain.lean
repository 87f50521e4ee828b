import Verif.Proofs.Later
import Verif.Props.Record
import Verif.Props.Contract
import Verif.Spec.Chain

/-!
# All data below a published hash were there when it was published (C113)

C112 is about proofs and blocks. Here are all data whose strings are linked by their hashes: contents of contracts,
records nested to any depth, and what is committed to through them.
-/

namespace CSV

open Later

/-! ## Values that are fixed by the questions and answers so far -/

/-- The 32 bytes of a string from an offset on. -/
def chunk (off : Nat) (s : Bytes) : Bytes32 :=
  if h : ((s.drop off).take 32).length = 32 then ⟨(s.drop off).take 32, h⟩ else Bytes32.fill 0

theorem chunk_eq {s a b : Bytes} {r : Bytes32} (hs : s = a ++ (r.bytes ++ b)) : chunk a.length s = r := by
  have : (s.drop a.length).take 32 = r.bytes := by
    rw [hs, List.drop_left, ← r.len, List.take_left]
  unfold chunk
  rw [dif_pos (by rw [this, r.len])]
  exact Bytes32.ext' this

/-- What is published, and all 32 bytes in a row in the strings asked for, up to the given length. -/
private def windows (B : Nat) (publish : Transcript → Bytes32) (m : Transcript) : List Bytes32 :=
  publish m :: m.flatMap fun e => (List.range B).map fun i => chunk i e.1

private theorem windows_length (B : Nat) (publish : Transcript → Bytes32) (m : Transcript) :
    (windows B publish m).length = B * m.length + 1 := by
  have : (m.flatMap fun e => (List.range B).map fun i => chunk i e.1).length = B * m.length := by
    induction m with
    | nil => rfl
    | cons e m ih =>
      rw [List.flatMap_cons, List.length_append, ih, List.length_cons, List.length_map, List.length_range,
        Nat.mul_succ, Nat.add_comm]
  rw [windows, List.length_cons, this]

private theorem mem_windows {B : Nat} {publish : Transcript → Bytes32} {m : Transcript} {s a b : Bytes} {r : Bytes32}
    (h : s ∈ m.strings) (hB : s.length ≤ B) (hs : s = a ++ (r.bytes ++ b)) : r ∈ windows B publish m := by
  obtain ⟨e, he, rfl⟩ := List.mem_map.1 h
  refine List.mem_cons_of_mem _ (List.mem_flatMap.2 ⟨e, he, List.mem_map.2 ⟨a.length, ?_, chunk_eq hs⟩⟩)
  have := congrArg List.length hs
  simp only [List.length_append, r.len] at this
  exact List.mem_range.2 (by omega)

theorem run_asked (ask : Transcript → Bytes) (B : Nat) (hB : ∀ m, (ask m).length ≤ B) :
    ∀ (n : Nat) (tape : List Bytes32) (m : Transcript), (∀ s ∈ m.strings, s.length ≤ B) →
    ∀ s ∈ (Transcript.run ask n tape m).strings, s.length ≤ B
  | 0, _, _, h => h
  | n + 1, tape, m, h => by
    have hm : ∀ y, ∀ s ∈ Transcript.strings ((ask m, y) :: m), s.length ≤ B := by
      intro y s hs
      rcases List.mem_cons.1 hs with rfl | hs
      · exact hB m
      · exact h s hs
    cases hy : m.answer (ask m) with
    | some y =>
      have : Transcript.run ask (n + 1) tape m = Transcript.run ask n tape ((ask m, y) :: m) := by
        cases tape <;> simp only [Transcript.run, hy]
      rw [this]
      exact run_asked ask B hB n tape _ (hm y)
    | none =>
      rcases tape with _ | ⟨y, tape⟩
      · simp only [Transcript.run, hy]; exact h
      · simp only [Transcript.run, hy]
        exact run_asked ask B hB n tape _ (hm y)

/-- **C113** Somebody asks for `q` hashes of strings of at most `B` bytes, publishes 32 bytes, and asks for `k` more
hashes. For all but a share of `k (B q + 1) / 2^256` of all tapes, every string that hangs below what was published - the
hash of the first is published, the hash of each further one is contained in the one before, and all are asked for at
some time - was asked for before it was published. -/
theorem C113_below (ask : Transcript → Bytes) (publish : Transcript → Bytes32) (q k B : Nat)
    (hB : ∀ m, (ask m).length ≤ B) :
    ∃ good : List (List Bytes32), good.Sublist (idLists (q + k)) ∧
      2 ^ 256 * (idLists (q + k)).length ≤ 2 ^ 256 * good.length + k * (B * q + 1) * (idLists (q + k)).length ∧
      ∀ tape ∈ good, ∀ e : Env, (Transcript.run ask (q + k) tape []).Of e →
        ∀ s, @Below e (Transcript.run ask (q + k) tape []).strings (publish (Transcript.run ask q tape [])) s →
          s ∈ (Transcript.run ask q tape []).strings := by
  obtain ⟨good, h1, h2, h3⟩ := Later.good ask (windows B publish) B
    (fun m => Nat.le_of_eq (windows_length B publish m)) q k
  refine ⟨good, h1, h2, ?_⟩
  intro tape ht e he s hs
  letI := e
  induction hs with
  | first ha hs =>
    refine (h3 tape ht).early he ha ?_
    rw [show e.sha256 _ = publish _ from hs]
    exact List.mem_cons_self ..
  | next _ hs ha ih =>
    exact (h3 tape ht).early he ha
      (mem_windows ih (run_asked ask B hB q tape [] (fun _ h => by cases h) _ ih) hs)

/-! ## Strings hashed for a proof, a block and a record hang below their commitment or id -/

/-- Below a string that contains a hash hang the strings with this hash. -/
theorem below_of [Env] {asked : List Bytes} {top : Bytes32} {s s' : Bytes} (h : Below asked top s)
    (hi : (sha s').bytes <:+: s) (ha : s' ∈ asked) : Below asked top s' := by
  obtain ⟨a, b, rfl⟩ := hi
  exact .next h (by rw [List.append_assoc]) ha

private theorem pt_below [Env] {asked : List Bytes} {top : Bytes32} {w : Nat} : ∀ (t : PT) (d : Nat),
    (∀ s', sha s' = t.root w d → s' ∈ asked → Below asked top s') →
    (∀ x ∈ t.inputs w d, x ∈ asked) → ∀ x ∈ t.inputs w d, Below asked top x := by
  intro t
  induction t with
  | hidden _ => intro d _ _ x hx; cases hx
  | leaf p m =>
    intro d hr hi x hx
    have : x = leafInput (.inhabited p m) := List.mem_singleton.1 hx
    subst this
    exact hr _ rfl (hi _ hx)
  | node l r ihl ihr =>
    intro d hr hi
    have h0 := hr _ rfl (hi _ (List.mem_cons_self ..))
    intro x hx
    rcases List.mem_cons.1 hx with rfl | hx
    · exact h0
    rcases List.mem_append.1 hx with hx | hx
    · refine ihl _ (fun s' hs' ha => below_of h0 ?_ ha)
        (fun y hy => hi y (List.mem_cons_of_mem _ (List.mem_append_left _ hy))) x hx
      rw [hs']
      refine ⟨(sha (utf8 MERKLE_TAG)).bytes ++ (sha (utf8 MERKLE_TAG)).bytes ++
        (encU8 NodeBranching.branch.toU8 ++ encU8 (UInt8.ofNat d) ++ encU256 (BitVec.ofNat 256 w)),
        (r.root w (d + 1)).bytes, ?_⟩
      simp [branchInput, taggedInput, MerkleNode.enc, encBytes32]
    · refine ihr _ (fun s' hs' ha => below_of h0 ?_ ha)
        (fun y hy => hi y (List.mem_cons_of_mem _ (List.mem_append_right _ hy))) x hx
      rw [hs']
      refine ⟨(sha (utf8 MERKLE_TAG)).bytes ++ (sha (utf8 MERKLE_TAG)).bytes ++
        (encU8 NodeBranching.branch.toU8 ++ encU8 (UInt8.ofNat d) ++ encU256 (BitVec.ofNat 256 w) ++
          (l.root w (d + 1)).bytes), [], ?_⟩
      simp [branchInput, taggedInput, MerkleNode.enc, encBytes32]

private theorem block_below [Env] {asked : List Bytes} {top : Bytes32} {D : U5} {c : UInt16} {t : PT}
    (hc : commitmentHash ⟨D, c, t.root (2 ^ D.val) 0⟩ = top)
    (hi : ∀ x ∈ blockInputs D c t, x ∈ asked) : ∀ x ∈ blockInputs D c t, Below asked top x := by
  have h0 : Below asked top (commitmentInput ⟨D, c, t.root (2 ^ D.val) 0⟩) := .first (hi _ (List.mem_cons_self ..)) hc
  intro x hx
  rcases List.mem_cons.1 hx with rfl | hx
  · exact h0
  · refine pt_below t 0 (fun s' hs' ha => below_of h0 ?_ ha) (fun y hy => hi y (List.mem_cons_of_mem _ hy)) x hx
    rw [hs']
    refine ⟨(sha (utf8 MPC_TAG)).bytes ++ (sha (utf8 MPC_TAG)).bytes ++ (encU5 D ++ encU16 c), [], ?_⟩
    simp [commitmentInput, taggedInput, MerkleConcealed.enc, encBytes32]

private theorem leaf_path [Env] {w : Nat} {p : ProtocolId} {m : Message} : ∀ (path : List MerkleHash) (pos d : Nat),
    leafInput (.inhabited p m) ∈ (PT.path p m pos path).inputs w d
  | [], _, _ => List.mem_singleton.2 rfl
  | h :: rest, pos, d => by
    rw [PT.path]
    split
    · exact List.mem_cons_of_mem _ (List.mem_append_right _ (leaf_path rest _ _))
    · exact List.mem_cons_of_mem _ (List.mem_append_left _ (leaf_path rest _ _))

private theorem node_infix [Env] (kind : NodeBranching) (d w : Nat) (h1 h2 : MerkleHash) :
    h1.bytes <:+: nodeInput kind d w h1 h2 ∧ h2.bytes <:+: nodeInput kind d w h1 h2 := by
  constructor
  · refine ⟨(sha (utf8 MERKLE_TAG)).bytes ++ (sha (utf8 MERKLE_TAG)).bytes ++
      (encU8 kind.toU8 ++ encU8 (UInt8.ofNat d) ++ encU256 (BitVec.ofNat 256 w)), h2.bytes, ?_⟩
    simp [nodeInput, taggedInput, MerkleNode.enc, encBytes32]
  · refine ⟨(sha (utf8 MERKLE_TAG)).bytes ++ (sha (utf8 MERKLE_TAG)).bytes ++
      (encU8 kind.toU8 ++ encU8 (UInt8.ofNat d) ++ encU256 (BitVec.ofNat 256 w) ++ h1.bytes), [], ?_⟩
    simp [nodeInput, taggedInput, MerkleNode.enc, encBytes32]

/-- Below the hash of a node hang the nodes of its tree, and the hashes of the leaves are contained in them. -/
private theorem mtree_below [Env] {asked : List Bytes} {top : Bytes32} {w : Nat} : ∀ (t : MTree) (d : Nat),
    (∀ s', sha s' = t.root w d → s' ∈ asked → Below asked top s') →
    (∀ x ∈ t.inputs w d, x ∈ asked) →
    (∀ x ∈ t.inputs w d, Below asked top x) ∧ ∀ h ∈ t.leaves, ∃ s, Below asked top s ∧ h.bytes <:+: s := by
  intro t
  induction t with
  | empty =>
    intro d hr hi
    refine ⟨fun x hx => ?_, fun h hh => by cases hh⟩
    rw [List.mem_singleton.1 hx]
    exact hr _ rfl (hi _ (List.mem_singleton.2 rfl))
  | lone h =>
    intro d hr hi
    have h0 := hr _ rfl (hi _ (List.mem_singleton.2 rfl))
    refine ⟨fun x hx => ?_, fun h' hh => ?_⟩
    · rw [List.mem_singleton.1 hx]; exact h0
    · rw [List.mem_singleton.1 hh]; exact ⟨_, h0, (node_infix ..).1⟩
  | pair h1 h2 =>
    intro d hr hi
    have h0 := hr _ rfl (hi _ (List.mem_singleton.2 rfl))
    refine ⟨fun x hx => ?_, fun h' hh => ?_⟩
    · rw [List.mem_singleton.1 hx]; exact h0
    · rcases List.mem_cons.1 hh with rfl | hh
      · exact ⟨_, h0, (node_infix ..).1⟩
      · rw [List.mem_singleton.1 hh]; exact ⟨_, h0, (node_infix ..).2⟩
  | fork l r ihl ihr =>
    intro d hr hi
    have h0 := hr _ rfl (hi _ (List.mem_cons_self ..))
    obtain ⟨l1, l2⟩ := ihl (d + 1) (fun s' hs' ha => below_of h0 (hs' ▸ (node_infix ..).1) ha)
      fun y hy => hi y (List.mem_cons_of_mem _ (List.mem_append_left _ hy))
    obtain ⟨r1, r2⟩ := ihr (d + 1) (fun s' hs' ha => below_of h0 (hs' ▸ (node_infix ..).2) ha)
      fun y hy => hi y (List.mem_cons_of_mem _ (List.mem_append_right _ hy))
    refine ⟨fun x hx => ?_, fun h hh => ?_⟩
    · rcases List.mem_cons.1 hx with rfl | hx
      · exact h0
      · exact (List.mem_append.1 hx).elim (l1 x) (r1 x)
    · exact (List.mem_append.1 hh).elim (l2 h) (r2 h)

private theorem list_below [Env] {asked : List Bytes} {top : Bytes32} {s : Bytes} (hs : Below asked top s)
    {ids : List MerkleHash} (hr : (listRoot ids).bytes <:+: s) (hi : ∀ x ∈ listInputs ids, x ∈ asked) :
    (∀ x ∈ listInputs ids, Below asked top x) ∧ ∀ h ∈ ids, ∃ s, Below asked top s ∧ h.bytes <:+: s := by
  have many : ∀ (hr : ((MTree.of ids).root ids.length 0).bytes <:+: s)
      (hi : ∀ x ∈ (MTree.of ids).inputs ids.length 0, x ∈ asked),
      (∀ x ∈ (MTree.of ids).inputs ids.length 0, Below asked top x) ∧
        ∀ h ∈ ids, ∃ s, Below asked top s ∧ h.bytes <:+: s := by
    intro hr hi
    have := mtree_below (MTree.of ids) 0 (fun s' hs' ha => below_of hs (hs' ▸ hr) ha) hi
    rw [(MTree.of_spec ids).1] at this
    exact this
  match ids, hr, hi, many with
  | [], hr, hi, many => exact many hr hi
  | [h], hr, hi, many =>
    refine ⟨fun x hx => (by cases hx), fun h' hh => ?_⟩
    rw [List.mem_singleton.1 hh]
    exact ⟨s, hs, hr⟩
  | _ :: _ :: _, hr, hi, many => exact many hr hi

private theorem id_bytes [Env] {x : Exec Bytes32} {bs : Bytes}
    (h : (do let a ← x; .ok a.bytes : Exec Bytes) = .ok bs) : ∃ a, x = .ok a ∧ bs = a.bytes := by
  obtain ⟨a, h1, h2⟩ := bind_ok_iff.1 h
  exact ⟨a, h1, (Except.ok.inj h2).symm⟩

private theorem id_inv [Env] {r : Record} {id : IdType} {x : r.Val} {a : Bytes32} (hs : r.Sound x)
    (h : r.id id x = .ok a) : ∃ d, callsBytes (r.calls x) = .ok d ∧ a = taggedSha id.tag d :=
  letI := r.encode id
  C36_tagged (α := r.Val) r.calls (fun _ _ _ => rfl) x a h fun c hc => (Record.fine_calls r x hs c hc).2

private theorem callsBytes_cons [Env] {c : Call} {cs : List Call} {d : Bytes}
    (h : callsBytes (c :: cs) = .ok d) :
    ∃ d1 d2, c.bytes = .ok d1 ∧ callsBytes cs = .ok d2 ∧ d = d1 ++ d2 := by
  obtain ⟨d1, h1, h2⟩ := bind_ok_iff.1 h
  obtain ⟨d2, h2, h3⟩ := bind_ok_iff.1 h2
  exact ⟨d1, d2, h1, h2, (Except.ok.inj h3).symm⟩

private theorem mapM_mem {α β : Type} {f : α → Exec β} : ∀ {l : List α} {bs : List β},
    l.mapM f = .ok bs → ∀ x ∈ l, ∃ b ∈ bs, f x = .ok b
  | [], _, _ => fun _ hx => by cases hx
  | _ :: l, _, h => by
    obtain ⟨b, bs, h1, h2, rfl⟩ := Record.mapM_cons_inv h
    intro x hx
    rcases List.mem_cons.1 hx with rfl | hx
    · exact ⟨b, List.mem_cons_self .., h1⟩
    · obtain ⟨b', hb, h⟩ := mapM_mem h2 x hx
      exact ⟨b', List.mem_cons_of_mem _ hb, h⟩

/-- If records hang below a string which contains the bytes of their calls, then they do below one with their id. -/
theorem id_below [Env] {asked : List Bytes} {top : Bytes32} {r : Record}
    {id : IdType} {x : r.Val} {a : Bytes32}
    (ih : ∀ d, callsBytes (r.calls x) = .ok d → (∃ s, Below asked top s ∧ d <:+: s) →
      (∀ t ∈ r.nested x, t ∈ asked) → ∀ t ∈ r.nested x, Below asked top t)
    (hx : r.Sound x) (h : r.id id x = .ok a)
    (hs : ∀ s', sha s' = a → s' ∈ asked → Below asked top s')
    (hi : ∀ t ∈ r.inputs id x, t ∈ asked) : ∀ t ∈ r.inputs id x, Below asked top t := by
  obtain ⟨d, e1, rfl⟩ := id_inv hx h
  have h0 := hs (taggedInput id.tag d) rfl (hi _ (List.mem_append_left _ (Record.own_mem e1)))
  intro t ht
  rcases List.mem_append.1 ht with ht | ht
  · rw [ownInput, e1] at ht
    rw [List.mem_singleton.1 ht]
    exact h0
  · refine ih d e1 ⟨_, h0, ⟨(sha (utf8 id.tag)).bytes ++ (sha (utf8 id.tag)).bytes, [], ?_⟩⟩
      (fun u hu => hi u (List.mem_append_right _ hu)) t ht
    simp [taggedInput]

theorem nested_below [Env] {asked : List Bytes} {top : Bytes32} : ∀ (r : Record) (x : r.Val), r.Sound x →
    ∀ d, callsBytes (r.calls x) = .ok d → (∃ s, Below asked top s ∧ d <:+: s) →
    (∀ t ∈ r.nested x, t ∈ asked) → ∀ t ∈ r.nested x, Below asked top t
  | .nil, _, _, _, _, _, _ => fun _ ht => by cases ht
  | .serialized _ _ rest, v, hx, d, e, ⟨s, hs, hd⟩, hi
  | .option _ _ rest, v, hx, d, e, ⟨s, hs, hd⟩, hi
  | .concealed _ _ _ _ _ rest, v, hx, d, e, ⟨s, hs, hd⟩, hi
  | .list _ _ _ _ rest, v, hx, d, e, ⟨s, hs, hd⟩, hi
  | .set _ _ _ _ rest, v, hx, d, e, ⟨s, hs, hd⟩, hi
  | .map _ _ _ _ _ _ rest, v, hx, d, e, ⟨s, hs, hd⟩, hi => by
    obtain ⟨d1, d2, _, e2, rfl⟩ := callsBytes_cons e
    exact nested_below rest v.2 hx.2 d2 e2 ⟨s, hs, (List.suffix_append d1 d2).isInfix.trans hd⟩ hi
  | .hash _ _ id sub rest, v, hx, d, e, ⟨s, hs, hd⟩, hi => by
    obtain ⟨d1, d2, b1, e2, rfl⟩ := callsBytes_cons e
    obtain ⟨a, h1, rfl⟩ := id_bytes b1
    intro t ht
    rcases List.mem_append.1 ht with ht | ht
    · exact id_below (id := id) (nested_below sub v.1 hx.1) hx.1 h1
        (fun s' hs' ha => below_of hs (hs' ▸ (List.prefix_append a.bytes d2).isInfix.trans hd) ha)
        (fun u hu => hi u (List.mem_append_left _ hu)) t ht
    · exact nested_below rest v.2 hx.2 d2 e2 ⟨s, hs, (List.suffix_append a.bytes d2).isInfix.trans hd⟩
        (fun u hu => hi u (List.mem_append_right _ hu)) t ht
  | .merkle _ _ sub rest, v, hx, d, e, ⟨s, hs, hd⟩, hi => by
    obtain ⟨d1, d2, b1, e2, rfl⟩ := callsBytes_cons e
    obtain ⟨a, h1, rfl⟩ := id_bytes b1
    obtain ⟨ids, f1, g1⟩ := bind_ok_iff.1 h1
    have f1' : v.1.mapM (sub.id merkleHashId) = .ok ids := f1
    have w1 : ids.length < 2 ^ 32 := by
      rcases Nat.lt_or_ge ids.length (2 ^ 32) with h' | h'
      · exact h'
      · rw [(C32_limits ids).2 h'] at g1; cases g1
    rw [merklizeHashes_eq w1] at g1
    obtain rfl := Except.ok.inj g1
    simp only [Record.nested, f1'] at hi ⊢
    obtain ⟨l1, l2⟩ := list_below hs ((List.prefix_append _ d2).isInfix.trans hd)
      fun u hu => hi u (List.mem_append_left _ (List.mem_append_right _ hu))
    intro t ht
    rcases List.mem_append.1 ht with ht | ht
    · rcases List.mem_append.1 ht with ht | ht
      · obtain ⟨x, mx, ht⟩ := List.mem_flatMap.1 ht
        obtain ⟨b, hb, hx'⟩ := mapM_mem f1' x mx
        obtain ⟨s2, hs2, hb2⟩ := l2 b hb
        exact id_below (id := merkleHashId) (nested_below sub x (hx.1 x mx).1) (hx.1 x mx).1 hx'
          (fun s' hs' ha => below_of hs2 (hs' ▸ hb2) ha)
          (fun u hu => hi u (List.mem_append_left _ (List.mem_append_left _ (List.mem_flatMap.2 ⟨x, mx, hu⟩)))) t ht
      · exact l1 t ht
    · exact nested_below rest v.2 hx.2 d2 e2 ⟨s, hs, (List.suffix_append _ d2).isInfix.trans hd⟩
        (fun u hu => hi u (List.mem_append_right _ hu)) t ht

/-- All that is hashed for a record and for a proof of its id hangs below the commitment the proof gives. -/
theorem message_below [Env] {asked : List Bytes} {top : Bytes32} {r : Record} {id : IdType} {x : r.Val} (hx : r.Sound x)
    {pr : MerkleProof} {p : ProtocolId} {m : Message} (hid : r.id id x = .ok m) (hl : pr.path.length ≤ 32)
    (hc : pr.convolve p m = .ok (.ok top)) (hi : ∀ s ∈ r.inputs id x ++ proofInputs pr p m, s ∈ asked) :
    ∀ s ∈ r.inputs id x ++ proofInputs pr p m, Below asked top s := by
  intro s hs
  obtain ⟨hlt, -, hc⟩ := convolve_ok hl hc
  have hp := block_below (t := PT.path p m pr.pos.toNat pr.path) (D := toU5 pr.path.length) (c := pr.cofactor)
    (top := top) (by rw [toU5_val hlt, ← hc])
    (fun y hy => hi y (List.mem_append_right _ hy))
  rcases List.mem_append.1 hs with hs | hs
  · have hleaf := hp (leafInput (.inhabited p m)) (List.mem_cons_of_mem _ (leaf_path _ _ _))
    have hm : m.bytes <:+: leafInput (.inhabited p m) := by
      refine ⟨(sha (utf8 MERKLE_TAG)).bytes ++ (sha (utf8 MERKLE_TAG)).bytes ++ (0x10 :: p.bytes), [], ?_⟩
      simp [leafInput, taggedInput, Leaf.enc, encBytes32]
    exact id_below (nested_below r x hx) hx hid (fun s' hs' ha => below_of hleaf (hs' ▸ hm) ha)
      (fun y hy => hi y (List.mem_append_left _ hy)) s hs
  · exact hp s hs

/-- **C113** So for the id of a record of any nested type: if it is published, then everything that is hashed for it - all
its contents, of the records nested in it and of the nodes over lists of them - was hashed before (or is not hashed
at all). And if a message is such an id, and what is published is a commitment that a proof of the message gives, then
both what is hashed for the record and what is hashed for the proof. -/
theorem C113_contents (ask : Transcript → Bytes) (publish : Transcript → Bytes32) (q k B : Nat)
    (hB : ∀ m, (ask m).length ≤ B) :
    ∃ good : List (List Bytes32), good.Sublist (idLists (q + k)) ∧
      2 ^ 256 * (idLists (q + k)).length ≤ 2 ^ 256 * good.length + k * (B * q + 1) * (idLists (q + k)).length ∧
      ∀ tape ∈ good, ∀ e : Env, (Transcript.run ask (q + k) tape []).Of e →
        ∀ (r : Record) (id : IdType) (x : r.Val), @Record.Sound e r x →
        (@Record.id e r id x = .ok (publish (Transcript.run ask q tape [])) →
          (∀ s ∈ @Record.inputs e r id x, s ∈ (Transcript.run ask (q + k) tape []).strings) →
          ∀ s ∈ @Record.inputs e r id x, s ∈ (Transcript.run ask q tape []).strings) ∧
        (∀ (pr : MerkleProof) (p : ProtocolId) (m : Message), @Record.id e r id x = .ok m → pr.path.length ≤ 32 →
          @MerkleProof.convolve e pr p m = .ok (.ok (publish (Transcript.run ask q tape []))) →
          (∀ s ∈ @Record.inputs e r id x ++ @proofInputs e pr p m, s ∈ (Transcript.run ask (q + k) tape []).strings) →
          ∀ s ∈ @Record.inputs e r id x ++ @proofInputs e pr p m, s ∈ (Transcript.run ask q tape []).strings) := by
  obtain ⟨good, h1, h2, h3⟩ := C113_below ask publish q k B hB
  refine ⟨good, h1, h2, ?_⟩
  intro tape ht e he r id x hx
  letI := e
  refine ⟨fun hid hi s hs => h3 tape ht e he s ?_, fun pr p m hid hl hc hi s hs => h3 tape ht e he s ?_⟩
  · exact id_below (nested_below r x hx) hx hid (fun s' hs' ha => .first ha hs') hi s hs
  · exact message_below hx hid hl hc hi s hs

variable {Seal Pub PubId PubErr : Type}

/-- **C113** Hence a transition of a contract cannot be chosen after the seals it closes were closed: if the published
witnesses of the seals are good for one commitment only, the one published after `q` hashes, then whatever transition
is accepted, all its contents and its proof were hashed by then. -/
theorem C113_contract (ask : Transcript → Bytes) (publish : Transcript → Bytes32) (q k B : Nat)
    (hB : ∀ m, (ask m).length ≤ B) :
    ∃ good : List (List Bytes32), good.Sublist (idLists (q + k)) ∧
      2 ^ 256 * (idLists (q + k)).length ≤ 2 ^ 256 * good.length + k * (B * q + 1) * (idLists (q + k)).length ∧
      ∀ tape ∈ good, ∀ e : Env, (Transcript.run ask (q + k) tape []).Of e →
        ∀ (c : Contract Seal Pub PubId PubErr), @SealScheme.UsesProofs _ _ _ _ e c.scheme →
        ∀ (unspent : Seal → Prop) (t : c.record.Val × MerkleProof), @Contract.Accepts _ _ _ _ e c unspent t →
        (∀ x ∈ c.closes t.1, ∀ pub, c.ledger x = some pub → ∀ a, c.scheme.verifyCommitment pub a = .ok () →
          a = publish (Transcript.run ask q tape [])) →
        (∀ s ∈ @Contract.inputs _ _ _ _ e c t, s ∈ (Transcript.run ask (q + k) tape []).strings) →
        ∀ s ∈ @Contract.inputs _ _ _ _ e c t, s ∈ (Transcript.run ask q tape []).strings := by
  obtain ⟨good, h1, h2, h3⟩ := C113_contents ask publish q k B hB
  refine ⟨good, h1, h2, ?_⟩
  intro tape ht e he c hk unspent t hacc hpub hi
  letI := e
  obtain ⟨hs, hl, hne, -, -, pub, m, hp, hm, hv⟩ := hacc
  obtain ⟨x, hx⟩ := List.exists_mem_of_ne_nil _ hne
  have hin : c.inputs t = c.record.inputs c.idType t.1 ++ proofInputs t.2 c.protocol m := by
    rw [Contract.inputs, hm]
  rw [hin] at hi ⊢
  obtain ⟨-, a, ha, hva⟩ := (C46_seals_closing_ok c.scheme _ _ _).1 hv
  obtain rfl := hpub x hx pub (hp x hx) a hva
  have hc := hk t.2 c.protocol m hl
  rw [show c.scheme.convolveCommit t.2 (c.protocol, m) = .ok _ from ha] at hc
  exact (h3 tape ht e he c.record c.idType t.1 hs).2 t.2 c.protocol m hm (by omega) hc hi

/-- **C113** In numbers: with at most `2^64` hashes of strings of at most 4 GiB in all, something below what was published
is hashed only later for less than one tape in `2^95`. -/
theorem C113_numbers (ask : Transcript → Bytes) (publish : Transcript → Bytes32) (q k : Nat)
    (hB : ∀ m, (ask m).length ≤ 2 ^ 32) (hn : q + k ≤ 2 ^ 64) :
    ∃ good : List (List Bytes32), good.Sublist (idLists (q + k)) ∧
      2 ^ 95 * ((idLists (q + k)).length - good.length) < (idLists (q + k)).length ∧
      ∀ tape ∈ good, ∀ e : Env, (Transcript.run ask (q + k) tape []).Of e →
        ∀ s, @Below e (Transcript.run ask (q + k) tape []).strings (publish (Transcript.run ask q tape [])) s →
          s ∈ (Transcript.run ask q tape []).strings := by
  obtain ⟨good, h1, h2, h3⟩ := C113_below ask publish q k (2 ^ 32) hB
  refine ⟨good, h1, ?_, h3⟩
  have hp : 0 < (idLists (q + k)).length := by
    rw [idLists_length]; exact Nat.pow_pos (Nat.two_pow_pos 256)
  have a2 : k * (2 ^ 32 * q + 1) ≤ 2 ^ 64 * (2 ^ 32 * 2 ^ 64 + 1) := Nat.mul_le_mul (by omega) (by omega)
  have := Nat.mul_le_mul_right (idLists (q + k)).length a2
  generalize k * (2 ^ 32 * q + 1) * (idLists (q + k)).length = X at *
  generalize (idLists (q + k)).length = N at *
  omega

/-- A chain of two strings: the hash of the second is in the middle of the first. -/
example : letI : Env := ⟨fun s => Bytes32.fill (UInt8.ofNat s.length), true⟩
    Below [[9] ++ ((Bytes32.fill 3).bytes ++ [8]), [1, 2, 3]] (Bytes32.fill 34) [1, 2, 3] := by
  letI : Env := ⟨fun s => Bytes32.fill (UInt8.ofNat s.length), true⟩
  exact .next (s := [9] ++ ((Bytes32.fill 3).bytes ++ [8])) (.first (by decide) (by decide)) rfl (by decide)

/-- Somebody hashes all that is hashed for a record with nested records, publishes its id and hashes two strings more. -/
example : ∃ (e : Env) (ask : Transcript → Bytes) (publish : Transcript → Bytes32) (q : Nat) (tape : List Bytes32),
    (∀ m, (ask m).length ≤ 300) ∧ tape ∈ idLists (q + 2) ∧ (Transcript.run ask (q + 2) tape []).Of e ∧
    @Record.Sound e Sample.record (Sample.recordValue 7 5) ∧
    @Record.id e Sample.record mpcCommitmentId (Sample.recordValue 7 5) = .ok (publish (Transcript.run ask q tape [])) ∧
    (@Record.inputs e Sample.record mpcCommitmentId (Sample.recordValue 7 5)).length = 8 ∧
    (∀ s ∈ @Record.inputs e Sample.record mpcCommitmentId (Sample.recordValue 7 5),
      s ∈ (Transcript.run ask (q + 2) tape []).strings) := by
  let e : Env := ⟨fun _ => Bytes32.fill 7, true⟩
  let S := @Record.inputs e Sample.record mpcCommitmentId (Sample.recordValue 7 5)
  have hS : S.length = 8 := by decide +kernel
  have hB : ∀ s ∈ S, s.length ≤ 300 := by decide +kernel
  refine ⟨e, fun m => S.getD m.length [], fun _ => Bytes32.fill 7, 8, List.replicate 10 (Bytes32.fill 7), ?_,
    (mem_idLists _ _).2 rfl, ?_, @Sample.record_sound e _ _, by with_unfolding_all rfl, hS, ?_⟩
  · intro m
    show (S.getD (List.length m) []).length ≤ 300
    rw [List.getD_eq_getElem?_getD]
    cases h : S[List.length m]? with
    | none => simp
    | some s => exact hB s (List.mem_of_getElem? h)
  · unfold Transcript.Of; decide +kernel
  · decide +kernel

end CSV
