import Verif.Proofs.Calls
import Verif.Proofs.Merklize
import Verif.Model.Sha256

/-!
# C36, C37, C40 - C42, C59: tagged hashing and the commitment engine

The specification is `Spec/Calls.lean`.
-/

namespace CSV

/-! ## C40 -/

/-- **C40** If a sequence of commit calls on a fresh engine returns, there were at most 255 of them,
the layout has one step per call in call order, and the hasher has been fed with the tag prefix
followed by the bytes of the calls in call order. -/
theorem C40_feeds [Env] (tag : String) (calls : List Call) (e : CommitEngine)
    (h : (CommitEngine.new tag).runAll calls = .ok e)
    (hs : ∀ c ∈ calls, ∀ bs, c.bytes = .ok bs → bs.length < 2 ^ 64) :
    calls.length ≤ 255 ∧ e.layout.map some = calls.map Call.step ∧
    ∃ data, callsBytes calls = .ok data ∧ e.hasher = taggedInput tag data ∧ e.finished = false := by
  obtain ⟨sts, bss, f1, f2, f3, f4, rfl⟩ := runAll_inv h hs (by simp [CommitEngine.new])
  refine ⟨by simpa [CommitEngine.new] using f4, ?_, bss.flatten, callsBytes_did f1, rfl, rfl⟩
  simp only [CommitEngine.new, List.nil_append]
  clear h hs f2 f3 f4
  induction f1 with
  | nil => rfl
  | cons hd _ ih => simp only [List.map_cons, ih, hd.1]

/-- **C40** Up to 255 calls with named types and computable ids return; debug builds only refuse to
serialize hash types. -/
theorem C40_returns [Env] (tag : String) (calls : List Call) (hl : calls.length ≤ 255)
    (h : ∀ c ∈ calls, c.Allowed ∧ ∃ st bs, c.Does st bs) :
    ∃ e, (CommitEngine.new tag).runAll calls = .ok e := by
  have : ∃ sts bss, Did calls sts bss := by
    clear hl
    induction calls with
    | nil => exact ⟨_, _, .nil⟩
    | cons c cs ih =>
      obtain ⟨_, st, bs, hd⟩ := h c (by simp)
      obtain ⟨sts, bss, hd'⟩ := ih fun c hc => h c (by simp [hc])
      exact ⟨_, _, .cons hd hd'⟩
  obtain ⟨sts, bss, hd⟩ := this
  exact ⟨_, runAll_ok hd (fun _ c hc => (h c hc).1) (fun _ => rfl) (by simpa [CommitEngine.new] using hl)⟩

/-- **C40** More than 255 calls panic, whatever they are. -/
theorem C40_256 [Env] (tag : String) (calls : List Call) (hl : 255 < calls.length) :
    ∃ p, (CommitEngine.new tag).runAll calls = .error p := by
  have step : ∀ (c : Call) (e e' : CommitEngine), c.run e = .ok e' →
      e.layout.length < 255 ∧ e'.layout.length = e.layout.length + 1 := by
    intro c e e' h
    rw [run_eq] at h
    cases h1 : c.step with
    | none => rw [h1] at h; cases h
    | some st =>
      rw [h1] at h
      dsimp only at h
      cases h2 : c.check with
      | error x => rw [h2] at h; cases h
      | ok =>
        rw [h2, ok_bind, CommitEngine.pushStep] at h
        by_cases hl : e.layout.length < 255
        · rw [if_pos hl, ok_bind] at h
          refine ⟨hl, ?_⟩
          cases h3 : c.bytes with
          | error x => rw [h3] at h; cases h
          | ok bs =>
            rw [h3, ok_bind] at h
            simp only [CommitEngine.innerCommitTo] at h
            cases h4 : debugAssert dbg (!e.finished) with
            | error x => rw [h4] at h; cases h
            | ok =>
              rw [h4, ok_bind] at h
              split at h
              · cases h; simp
              · cases h5 : debugAssert dbg false with
                | error x => rw [h5] at h; cases h
                | ok => rw [h5, ok_bind] at h; cases h; simp
        · rw [if_neg hl] at h; cases h
  have all : ∀ (cs : List Call) (e e' : CommitEngine), e.runAll cs = .ok e' → cs ≠ [] →
      e.layout.length + cs.length ≤ 255 := by
    intro cs
    induction cs with
    | nil => intro e e' _ hn; exact absurd rfl hn
    | cons c cs ih =>
      intro e e' h _
      rw [CommitEngine.runAll] at h
      cases h1 : c.run e with
      | error x => rw [h1] at h; cases h
      | ok e1 =>
        rw [h1, ok_bind] at h
        obtain ⟨g1, g2⟩ := step c e e1 h1
        by_cases hn : cs = []
        · subst hn; simp only [List.length_cons, List.length_nil]; omega
        · have := ih e1 e' h hn
          simp only [List.length_cons]
          omega
  cases h : (CommitEngine.new tag).runAll calls with
  | error p => exact ⟨p, rfl⟩
  | ok e =>
    have := all calls _ e h (by rintro rfl; simp at hl)
    omega

/-- **C40** A finished engine accepts no further data in debug builds; a release build goes on
hashing. -/
theorem C40_finished [Env] (c : Call) (st : CommitStep) (bs : Bytes) (e : CommitEngine)
    (hd : c.Does st bs) (ha : c.Allowed) (hl : e.layout.length < 255) (hf : e.finished = true) :
    (dbg = true → c.run e = .error .debugAssert) ∧
    (dbg = false → ∃ e', c.run e = .ok e' ∧ e'.hasher = e.hasher ++ bs) := by
  refine ⟨fun hdbg => ?_, fun hdbg => ?_⟩
  · obtain ⟨h1, h2, h3⟩ := hd
    rw [run_eq, h1]
    simp only [allowed_check h1 (fun _ => ha), ok_bind, CommitEngine.pushStep, hl, if_true, h2]
    simp only [CommitEngine.innerCommitTo, hf, hdbg]
    rfl
  · exact ⟨_, run_ok hd (fun _ => ha) (fun h => by rw [hdbg] at h; cases h) hl, rfl⟩

/-- **C40** Looking at the layout and marking the engine as finished: the layout shown is that of the calls
made, what was fed is kept, and in debug builds nothing more is accepted. -/
theorem C40_layout_shown [Env] (c : Call) (st : CommitStep) (bs : Bytes) (e : CommitEngine)
    (hd : c.Does st bs) (ha : c.Allowed) (hl : e.layout.length < 255) :
    e.asLayout.2 = e.layout ∧ e.asLayout.1.layout = e.layout ∧ e.asLayout.1.hasher = e.hasher ∧
    e.setFinished.layout = e.layout ∧ e.setFinished.hasher = e.hasher ∧
    (dbg = true → c.run e.asLayout.1 = .error .debugAssert ∧ c.run e.setFinished = .error .debugAssert) :=
  ⟨rfl, rfl, rfl, rfl, rfl, fun h => ⟨(C40_finished c st bs e.asLayout.1 hd ha hl rfl).1 h,
    (C40_finished c st bs e.setFinished hd ha hl rfl).1 h⟩⟩

/-- **C40** The engine handed out by committing to a value is finished: in debug builds no data can be added
to it. -/
theorem C40_commit [Env] {α : Type} [CommitEncode α] (x : α) (e : CommitEngine) (h : commit x = .ok e) (c : Call)
    (st : CommitStep) (bs : Bytes) (hd : c.Does st bs) (ha : c.Allowed) (hl : e.layout.length < 255)
    (hdbg : dbg = true) : c.run e = .error .debugAssert := by
  refine (C40_finished c st bs e hd ha hl ?_).1 hdbg
  rw [commit] at h
  cases h' : CommitEncode.commitEncode x (CommitEngine.new (CommitEncode.idType α).tag) with
  | error p => rw [h'] at h; cases h
  | ok e' => rw [h'] at h; cases h; rfl

/-- A leaf, an optional leaf and a list of leaves. -/
example [Env] : ∀ c ∈ [Call.serialized (inferInstance : StrictEncode Leaf) (.entropy 1 2),
      .option (inferInstance : StrictEncode Leaf) none,
      .list (inferInstance : StrictEncode Leaf) 0 255 [.entropy 3 4]],
    c.Allowed ∧ ∃ st bs, c.Does st bs := by
  refine List.forall_mem_cons.2 ⟨⟨?_, _, _, rfl, rfl, ?_⟩, List.forall_mem_cons.2
    ⟨⟨trivial, _, _, rfl, rfl, ?_⟩, List.forall_mem_cons.2 ⟨⟨trivial, _, _, rfl, rfl, ?_⟩, by simp⟩⟩⟩
  · constructor <;> decide
  all_goals decide +kernel

/-! ## C36 -/

/-- **C36** The commitment id of a value that is committed to by a sequence of calls is the SHA256 of
twice the SHA256 of the tag of its commitment type followed by the data of the calls. -/
theorem C36_tagged [Env] {α : Type} [CommitEncode α] (calls : α → List Call)
    (hc : ByCalls α calls) (x : α) (id : Bytes32) (h : commitId x = .ok id)
    (hs : ∀ c ∈ calls x, ∀ bs, c.bytes = .ok bs → bs.length < 2 ^ 64) :
    ∃ data, callsBytes (calls x) = .ok data ∧
      id = sha ((sha (utf8 (CommitEncode.idType α).tag)).bytes ++
        (sha (utf8 (CommitEncode.idType α).tag)).bytes ++ data) := by
  simp only [commitId, commit, hc _ x] at h
  cases hr : (CommitEngine.new (CommitEncode.idType α).tag).runAll (calls x) with
  | error p => rw [hr] at h; cases h
  | ok e =>
    obtain ⟨_, _, data, h1, h2, _⟩ := C40_feeds _ _ _ hr hs
    rw [hr] at h
    simp only [ok_bind, Hasher.finish, Except.ok.injEq] at h
    exact ⟨data, h1, by rw [← h, h2]; rfl⟩

/-- **C36** Two tagged strings are equal only if the hashes of the tags and the data are equal. -/
theorem C36_strings [Env] (tag tag' : String) (data data' : Bytes) :
    taggedInput tag data = taggedInput tag' data' ↔
      sha (utf8 tag) = sha (utf8 tag') ∧ data = data' :=
  ⟨taggedInput_inj, fun ⟨h1, h2⟩ => by rw [taggedInput, taggedInput, h1, h2]⟩

/-- **C36** A tag is determined by its bytes. -/
theorem C36_tags (tag tag' : String) (h : utf8 tag = utf8 tag') : tag = tag' :=
  String.toByteArray_inj.1 (ByteArray.ext (Array.toList_inj.1 h))

/-- **C36** Two values of any two types have the same commitment id only if their tags and their data
are equal, unless SHA256 collides on the tags or on the tagged strings. -/
theorem C36_separated [Env] (tag tag' : String) (data data' : Bytes)
    (hn : NoCollision [utf8 tag, utf8 tag', taggedInput tag data, taggedInput tag' data'])
    (h : taggedSha tag data = taggedSha tag' data') : tag = tag' ∧ data = data' := by
  obtain ⟨h1, h2⟩ := taggedInput_inj (hn _ (by simp) _ (by simp) h)
  exact ⟨C36_tags _ _ (hn _ (by simp) _ (by simp) h1), h2⟩

/-- The tags of the library are ASCII and different. -/
example : (∀ t ∈ [strictHashId, merkleHashId, mpcCommitmentId], ∀ c ∈ t.tag.toList, c.toNat < 128) ∧
    ([strictHashId, merkleHashId, mpcCommitmentId].map IdType.tag).Nodup := by decide +kernel

/-- Leaves, nodes and concealed trees are committed to by one call. -/
example : ByCalls Leaf (fun x => [.serialized inferInstance x]) ∧
    ByCalls MerkleNode (fun x => [.serialized inferInstance x]) ∧
    ByCalls MerkleConcealed (fun x => [.serialized inferInstance x]) := by
  refine ⟨fun _ x e => ?_, fun _ x e => ?_, fun _ x e => ?_⟩ <;>
  · simp only [CommitEngine.runAll, Call.run, CommitEncode.commitEncode]
    cases e.commitToSerialized x <;> rfl

/-! ## C37 -/

private theorem inputWithLen_class {max : Nat} (hm : max ≤ 0xFFFFFFFF) :
    ∃ k m, (k = 1 ∧ m = 2 ^ 8 ∧ max < 2 ^ 8 ∨ k = 2 ∧ m = 2 ^ 16 ∧ max < 2 ^ 16 ∨
        k = 4 ∧ m = 2 ^ 32 ∧ max < 2 ^ 32) ∧
      (∀ (h : Hasher) (data : Bytes), Hasher.inputWithLen max h data =
        .ok (h ++ leBytes (data.length % m) k ++ data)) ∨
    (k = 3 ∧ m = 2 ^ 32 ∧ max < 2 ^ 24 ∧
      ∀ (h : Hasher) (data : Bytes), Hasher.inputWithLen max h data =
        if data.length % m < 2 ^ 24 then .ok (h ++ leBytes (data.length % m) k ++ data)
        else .error .overflow) := by
  by_cases h1 : max ≤ 0xFF
  · exact ⟨1, 2 ^ 8, .inl ⟨.inl ⟨rfl, rfl, by omega⟩, fun h data => by
      simp only [Hasher.inputWithLen, h1, if_true]; rfl⟩⟩
  · by_cases h2 : max ≤ 0xFFFF
    · exact ⟨2, 2 ^ 16, .inl ⟨.inr (.inl ⟨rfl, rfl, by omega⟩), fun h data => by
        simp only [Hasher.inputWithLen, h1, h2, if_true, if_false]; rfl⟩⟩
    · by_cases h3 : max ≤ 0xFFFFFF
      · exact ⟨3, 2 ^ 32, .inr ⟨rfl, rfl, by omega, fun h data => by
          simp only [Hasher.inputWithLen, h1, h2, h3, if_true, if_false]; rfl⟩⟩
      · exact ⟨4, 2 ^ 32, .inl ⟨.inr (.inr ⟨rfl, rfl, by omega⟩), fun h data => by
          simp only [Hasher.inputWithLen, h1, h2, h3, hm, if_true, if_false]; rfl⟩⟩

/-- **C37** Data of at most `MAX` bytes are always accepted, and can be told apart from whatever is
fed after them: equal bytes mean equal data. -/
theorem C37_unambiguous (max : Nat) (hm : max ≤ 0xFFFFFFFF) (h : Hasher) (d1 d2 r1 r2 : Bytes)
    (hd1 : d1.length ≤ max) (hd2 : d2.length ≤ max) :
    ∃ h1 h2, Hasher.inputWithLen max h d1 = .ok h1 ∧ Hasher.inputWithLen max h d2 = .ok h2 ∧
      (h1.inputRaw r1 = h2.inputRaw r2 → d1 = d2 ∧ r1 = r2) := by
  have key : ∀ k m, d1.length < m → d2.length < m → d1.length < 256 ^ k → d2.length < 256 ^ k →
      (h ++ leBytes (d1.length % m) k ++ d1).inputRaw r1 =
        (h ++ leBytes (d2.length % m) k ++ d2).inputRaw r2 → d1 = d2 ∧ r1 = r2 := by
    intro k m a1 a2 b1 b2 e
    rw [Nat.mod_eq_of_lt a1, Nat.mod_eq_of_lt a2] at e
    simp only [Hasher.inputRaw, List.append_assoc] at e
    have e := List.append_cancel_left e
    obtain ⟨e1, e2⟩ := append_inj_len (by rw [leBytes_length, leBytes_length]) e
    have := leBytes_inj b1 b2 e1
    exact append_inj_len this e2
  obtain ⟨k, m, ⟨hk, hi⟩ | ⟨rfl, rfl, hk, hi⟩⟩ := inputWithLen_class hm
  · refine ⟨_, _, hi h d1, hi h d2, fun e => key k m ?_ ?_ ?_ ?_ e⟩
    all_goals
      rcases hk with ⟨rfl, rfl, hk⟩ | ⟨rfl, rfl, hk⟩ | ⟨rfl, rfl, hk⟩ <;> omega
  · have e1 := hi h d1
    have e2 := hi h d2
    rw [if_pos (by omega)] at e1 e2
    exact ⟨_, _, e1, e2, fun e => key 3 (2 ^ 32) (by omega) (by omega) (by omega) (by omega) e⟩

/-- **C37** The prefix is truncated for data of `2^8`, `2^16`, `2^32` or more bytes: feeding the data is
the same as feeding a proper prefix of them with its length and then the rest without length. -/
theorem C37_truncated (max : Nat) (h : Hasher) (data : Bytes) (m : Nat)
    (hm : max ≤ 0xFF ∧ m = 2 ^ 8 ∨ 0xFF < max ∧ max ≤ 0xFFFF ∧ m = 2 ^ 16 ∨
      0xFFFFFF < max ∧ max ≤ 0xFFFFFFFF ∧ m = 2 ^ 32)
    (hl : m ≤ data.length) :
    ∃ d rest, data = d ++ rest ∧ d.length < data.length ∧
      (do let h ← Hasher.inputWithLen max h d; .ok (h.inputRaw rest)) =
        Hasher.inputWithLen max h data := by
  refine ⟨data.take (data.length % m), data.drop (data.length % m), (List.take_append_drop _ _).symm, ?_, ?_⟩
  · have : 0 < m := by rcases hm with ⟨_, rfl⟩ | ⟨_, _, rfl⟩ | ⟨_, _, rfl⟩ <;> omega
    have := Nat.mod_lt data.length this
    rw [List.length_take]
    omega
  · have e : (data.take (data.length % m)).length = data.length % m := by
      rw [List.length_take]
      exact Nat.min_eq_left (Nat.mod_le _ _)
    have t : data.take (data.length % m) ++ data.drop (data.length % m) = data :=
      List.take_append_drop _ _
    rcases hm with ⟨h1, rfl⟩ | ⟨h1, h2, rfl⟩ | ⟨h1, h2, rfl⟩
    · simp only [Hasher.inputWithLen, h1, if_true, ok_bind, Hasher.inputRaw, e, Nat.mod_mod,
        List.append_assoc, t]
    · simp only [Hasher.inputWithLen, show ¬ max ≤ 0xFF by omega, h2, if_true, if_false, ok_bind,
        Hasher.inputRaw, e, Nat.mod_mod, List.append_assoc, t]
    · simp only [Hasher.inputWithLen, show ¬ max ≤ 0xFF by omega, show ¬ max ≤ 0xFFFF by omega,
        show ¬ max ≤ 0xFFFFFF by omega, h2, if_true, if_false, ok_bind,
        Hasher.inputRaw, e, Nat.mod_mod, List.append_assoc, t]

/-- **C37** In the 24-bit class the length is checked (modulo `2^32`) and longer data panic. -/
theorem C37_class24 (max : Nat) (h1 : 0xFFFF < max) (h2 : max ≤ 0xFFFFFF) (h : Hasher) (data : Bytes)
    (hl : data.length < 2 ^ 32) :
    (2 ^ 24 ≤ data.length → Hasher.inputWithLen max h data = .error .overflow) ∧
    (data.length < 2 ^ 24 →
      Hasher.inputWithLen max h data = .ok (h ++ leBytes data.length 3 ++ data)) := by
  simp only [Hasher.inputWithLen, show ¬ max ≤ 0xFF by omega, show ¬ max ≤ 0xFFFF by omega, h2, if_true,
    if_false, Nat.mod_eq_of_lt hl]
  exact ⟨fun h => if_neg (by omega), fun h => if_pos h⟩

/-- **C37** Limits above `2^32 - 1` always panic. -/
theorem C37_too_large (max : Nat) (hm : 0xFFFFFFFF < max) (h : Hasher) (data : Bytes) :
    Hasher.inputWithLen max h data = .error .explicit := by
  simp only [Hasher.inputWithLen, show ¬ max ≤ 0xFF by omega, show ¬ max ≤ 0xFFFF by omega,
    show ¬ max ≤ 0xFFFFFF by omega, show ¬ max ≤ 0xFFFFFFFF by omega, if_false]

/-- 256 bytes with `MAX = 255`. -/
example : (255 ≤ 0xFF ∧ 2 ^ 8 = 2 ^ 8) ∧ 2 ^ 8 ≤ (List.replicate 256 (7 : UInt8)).length := by
  rw [List.length_replicate]; omega

/-! ## C41 -/

private theorem same_data [Env] {c c' : Call} (h : Call.SameTypes c c') (hd : c.Delimited)
    (hd' : c'.Delimited) {bs bs' r r' : Bytes} (hb : c.bytes = .ok bs) (hb' : c'.bytes = .ok bs')
    (he : bs ++ r = bs' ++ r') : Call.SameData c c' ∧ r = r' := by
  cases h with
  | serialized se v w =>
    cases hb; cases hb'
    obtain ⟨rfl, rfl⟩ := hd _ _ _ _ trivial trivial he
    exact ⟨.serialized _ _, rfl⟩
  | option se v w =>
    cases hb; cases hb'
    obtain ⟨rfl, rfl⟩ := encOption_selfDelimiting hd _ _ _ _ (fun _ _ => trivial) (fun _ _ => trivial) he
    exact ⟨.option _ _, rfl⟩
  | hash st ce v w =>
    simp only [Call.bytes] at hb hb'
    cases h1 : commitId v with
    | error x => rw [h1] at hb; cases hb
    | ok a => cases h2 : commitId w with
      | error x => rw [h2] at hb'; cases hb'
      | ok b =>
        rw [h1] at hb; rw [h2] at hb'
        cases hb; cases hb'
        obtain ⟨e, rfl⟩ := append_inj_len (by rw [a.len, b.len]) he
        exact ⟨.hash _ _ _ _ (by rw [h1, h2, Bytes32.ext' e]), rfl⟩
  | merkle st ce v w =>
    simp only [Call.bytes] at hb hb'
    cases h1 : merklize v with
    | error x => rw [h1] at hb; cases hb
    | ok a => cases h2 : merklize w with
      | error x => rw [h2] at hb'; cases hb'
      | ok b =>
        rw [h1] at hb; rw [h2] at hb'
        cases hb; cases hb'
        obtain ⟨e, rfl⟩ := append_inj_len (by rw [a.len, b.len]) he
        exact ⟨.merkle _ _ _ _ (by rw [h1, h2, Bytes32.ext' e]), rfl⟩
  | concealed st co se v w =>
    simp only [Call.bytes] at hb hb'
    cases h1 : co.conceal v with
    | error x => rw [h1] at hb; cases hb
    | ok a => cases h2 : co.conceal w with
      | error x => rw [h2] at hb'; cases hb'
      | ok b =>
        rw [h1] at hb; rw [h2] at hb'
        cases hb; cases hb'
        obtain ⟨e, rfl⟩ := hd _ _ _ _ trivial trivial he
        exact ⟨.concealed _ _ _ _ _ (by rw [h1, h2, e]), rfl⟩
  | list se min max v w =>
    cases hb; cases hb'
    obtain ⟨rfl, rfl⟩ := encList_selfDelimiting hd.1 hd.2.2 _ _ _ _ ⟨hd.2.1, fun _ _ => trivial⟩
      ⟨hd'.2.1, fun _ _ => trivial⟩ he
    exact ⟨.list _ _ _ _, rfl⟩
  | set se min max v w =>
    cases hb; cases hb'
    obtain ⟨rfl, rfl⟩ := encList_selfDelimiting hd.1 hd.2.2 _ _ _ _ ⟨hd.2.1, fun _ _ => trivial⟩
      ⟨hd'.2.1, fun _ _ => trivial⟩ he
    exact ⟨.set _ _ _ _, rfl⟩
  | map sk se min max v w =>
    cases hb; cases hb'
    obtain ⟨rfl, rfl⟩ := encList_selfDelimiting (pair_selfDelimiting hd.1 hd.2.1) hd.2.2.2 _ _ _ _
      ⟨hd.2.2.1, fun _ _ => ⟨trivial, trivial⟩⟩ ⟨hd'.2.2.1, fun _ _ => ⟨trivial, trivial⟩⟩ he
    exact ⟨.map _ _ _ _ _, rfl⟩

/-- **C41** Two sequences of calls of the same methods with the same types feed equal bytes to the
hasher only if they commit to the same data, call by call. -/
theorem C41_bytes [Env] {cs cs' : List Call} (h : CallsRel Call.SameTypes cs cs')
    (hd : ∀ c ∈ cs ++ cs', c.Delimited) {bs : Bytes} (hb : callsBytes cs = .ok bs)
    (hb' : callsBytes cs' = .ok bs) : CallsRel Call.SameData cs cs' := by
  have gen : ∀ {r r' b b' : Bytes}, callsBytes cs = .ok b → callsBytes cs' = .ok b' →
      b ++ r = b' ++ r' → CallsRel Call.SameData cs cs' := by
    intro r r'
    clear hb hb'
    induction h with
    | nil => intro b b' _ _ _; exact .nil
    | @cons c c' cs cs' h1 _ ih =>
      intro b b' hb hb' he
      simp only [callsBytes] at hb hb'
      cases e1 : c.bytes with
      | error x => rw [e1] at hb; cases hb
      | ok x => cases e2 : c'.bytes with
        | error y => rw [e2] at hb'; cases hb'
        | ok y =>
          rw [e1, ok_bind] at hb; rw [e2, ok_bind] at hb'
          cases e3 : callsBytes cs with
          | error z => rw [e3] at hb; cases hb
          | ok z => cases e4 : callsBytes cs' with
            | error u => rw [e4] at hb'; cases hb'
            | ok u =>
              rw [e3] at hb; rw [e4] at hb'
              cases hb; cases hb'
              simp only [List.append_assoc] at he
              obtain ⟨g1, g2⟩ := same_data h1 (hd c (by simp)) (hd c' (by simp)) e1 e2 he
              exact .cons g1 (ih (fun d hd' => hd d (by
                simp only [List.mem_append, List.mem_cons] at hd' ⊢
                rcases hd' with h | h
                · exact .inl (.inr h)
                · exact .inr (.inr h))) e3 e4 g2)
  exact gen hb hb' (r := []) (r' := []) rfl

/-- **C41** Hence two values of a type committed to by such calls with the same commitment id commit
to the same data, unless SHA256 collides on the two hashed strings. -/
theorem C41_binding [Env] {α : Type} [CommitEncode α] (calls : α → List Call) (hc : ByCalls α calls)
    (x y : α) (h : CallsRel Call.SameTypes (calls x) (calls y))
    (hd : ∀ c ∈ calls x ++ calls y, c.Delimited)
    (hs : ∀ c ∈ calls x ++ calls y, ∀ bs, c.bytes = .ok bs → bs.length < 2 ^ 64)
    (id : Bytes32) (hx : commitId x = .ok id) (hy : commitId y = .ok id)
    (hn : ∀ dx dy, callsBytes (calls x) = .ok dx → callsBytes (calls y) = .ok dy →
      NoCollision [taggedInput (CommitEncode.idType α).tag dx, taggedInput (CommitEncode.idType α).tag dy]) :
    CallsRel Call.SameData (calls x) (calls y) := by
  obtain ⟨dx, e1, e2⟩ := C36_tagged calls hc x id hx fun c hc => hs c (by simp [hc])
  obtain ⟨dy, e3, e4⟩ := C36_tagged calls hc y id hy fun c hc => hs c (by simp [hc])
  have := hn dx dy e1 e3 (taggedInput (CommitEncode.idType α).tag dx) (by simp)
    (taggedInput (CommitEncode.idType α).tag dy) (by simp) (e2.symm.trans e4)
  rw [← (taggedInput_inj this).2] at e3
  exact C41_bytes h hd e1 e3

/-- Serializations of leaves are self-delimiting. -/
theorem leaf_delimited : SelfDelimiting Leaf.enc fun _ => True := by
  intro a b r s _ _ h
  cases a with
  | inhabited p m =>
    cases b with
    | inhabited q n =>
      obtain ⟨h1, h2⟩ := append_inj_len (by
        simp [Leaf.enc, encBytes32, Bytes32.len]) h
      exact ⟨Leaf.enc_inj h1, h2⟩
    | entropy e i => simp [Leaf.enc] at h
  | entropy e i =>
    cases b with
    | inhabited q n => simp [Leaf.enc] at h
    | entropy e' i' =>
      obtain ⟨h1, h2⟩ := append_inj_len (by simp [Leaf.enc, encU64, encU32, leBytes_length]) h
      exact ⟨Leaf.enc_inj h1, h2⟩

example (l l' : Leaf) (x : List Leaf) (hx : x.length ≤ 255) :
    CallsRel Call.SameTypes [.serialized (α := Leaf) inferInstance l, .list (α := Leaf) inferInstance 0 255 x]
      [.serialized (α := Leaf) inferInstance l', .list (α := Leaf) inferInstance 0 255 []] ∧
    (Call.serialized (α := Leaf) inferInstance l).Delimited ∧
    (Call.list (α := Leaf) inferInstance 0 255 x).Delimited :=
  ⟨.cons (.serialized _ _ _) (.cons (.list _ _ _ _ _) .nil), leaf_delimited,
    leaf_delimited, hx, by decide⟩

/-- **C41** With differing layouts equal bytes are possible: a list and a set with the same elements,
or one list in place of two, give the same bytes for the same tag. -/
theorem C41_layouts [Env] (l : List Leaf) (hl : l.length ≤ 255) (tag : String) :
    ∃ e e', (CommitEngine.new tag).runAll [.list inferInstance 0 255 l] = .ok e ∧
      (CommitEngine.new tag).runAll [.set inferInstance 0 255 l] = .ok e' ∧
      e.hasher = e'.hasher ∧ e.layout ≠ e'.layout := by
  have hb : (encList 255 Leaf.enc l).length < 2 ^ 64 := by
    simp only [encList, List.length_append, leBytes_length]
    have : ∀ l : List Leaf, (l.flatMap Leaf.enc).length ≤ 65 * l.length := by
      intro l
      induction l with
      | nil => simp
      | cons a l ih =>
        have := a.enc_length_le
        simp only [List.flatMap_cons, List.length_append, List.length_cons]
        omega
    have := this l
    have : lenPrefix 255 = 1 := rfl
    omega
  have r1 := run_ok (c := .list inferInstance 0 255 l) (e := CommitEngine.new tag)
    ⟨rfl, rfl, hb⟩ (fun _ => trivial) (fun _ => rfl) (by simp [CommitEngine.new])
  have r2 := run_ok (c := .set inferInstance 0 255 l) (e := CommitEngine.new tag)
    ⟨rfl, rfl, hb⟩ (fun _ => trivial) (fun _ => rfl) (by simp [CommitEngine.new])
  have a1 : (CommitEngine.new tag).runAll [.list inferInstance 0 255 l] =
      (Call.list inferInstance 0 255 l).run (CommitEngine.new tag) := by
    rw [CommitEngine.runAll, r1]; rfl
  have a2 : (CommitEngine.new tag).runAll [.set inferInstance 0 255 l] =
      (Call.set inferInstance 0 255 l).run (CommitEngine.new tag) := by
    rw [CommitEngine.runAll, r2]; rfl
  exact ⟨_, _, a1.trans r1, a2.trans r2, rfl, by simp [CommitEngine.new]⟩

/-! ## C59 -/

/-- A named wrapper of a confined byte vector (`TinyVec<u8>`). -/
@[instance_reducible]
def tinyBlob : StrictEncode {l : Bytes // l.length ≤ 255} where
  libName := "Test"
  typeName := some "Blob"
  enc l := encList 255 encU8 l.1

/-- **C59** Optional and plain fields leave the same entry in the layout, so that a type that commits to
an optional value and one that commits to a plain value of the same type may have the same tag, the
same layout and the same id for different data: the value `[0]` and the present optional value `[]`. -/
theorem C59_option_layout [Env] (tag : String) :
    ∃ (x y : {l : Bytes // l.length ≤ 255}) (e : CommitEngine), x ≠ y ∧
      (CommitEngine.new tag).runAll [.serialized tinyBlob x] = .ok e ∧
      (CommitEngine.new tag).runAll [.option tinyBlob (some y)] = .ok e := by
  refine ⟨⟨[0], by decide⟩, ⟨[], by decide⟩, ⟨false, (CommitEngine.new tag).hasher ++ [1, 0],
    [.serialized ⟨"Test", "Blob"⟩]⟩, by decide, ?_, ?_⟩
  · rw [CommitEngine.runAll, run_ok (st := .serialized ⟨"Test", "Blob"⟩) (bs := [1, 0])
      ⟨rfl, rfl, by decide⟩ (fun _ => by constructor <;> decide) (fun _ => rfl)
      (by simp [CommitEngine.new]), ok_bind]
    rfl
  · rw [CommitEngine.runAll, run_ok (c := .option tinyBlob (some ⟨[], by decide⟩))
      (e := CommitEngine.new tag) (st := .serialized ⟨"Test", "Blob"⟩) (bs := [1, 0])
      ⟨rfl, rfl, by decide⟩ (fun _ => trivial) (fun _ => rfl)
      (by simp [CommitEngine.new]), ok_bind]
    rfl

/-- **C59** The entries are equal for every type and all values, in every state of the engine. -/
theorem C59_same_step [Env] {α : Type} [StrictEncode α] (e e1 e2 : CommitEngine) (v : α) (o : Option α)
    (h1 : e.commitToSerialized v = .ok e1) (h2 : e.commitToOption o = .ok e2) : e1.layout = e2.layout := by
  have a := run_layout (c := .serialized inferInstance v) h1
  have b := run_layout (c := .option inferInstance o) h2
  rw [show (Call.serialized inferInstance v).step = (Call.option inferInstance o).step from rfl, ← b] at a
  exact List.map_inj_right (fun _ _ => Option.some.inj) |>.1 a

/-- Non-vacuity: a leaf and an absent leaf. -/
example [Env] : ∃ e1 e2, (CommitEngine.new "t").commitToSerialized (Leaf.entropy 1 2) = .ok e1 ∧
    (CommitEngine.new "t").commitToOption (none : Option Leaf) = .ok e2 :=
  ⟨_, _, run_ok (c := .serialized inferInstance (Leaf.entropy 1 2)) (st := .serialized ⟨"CommitVerify", "Leaf"⟩)
      (bs := (Leaf.entropy 1 2).enc) ⟨rfl, rfl, by decide⟩ (fun _ => by constructor <;> decide)
      (fun _ => rfl) (by simp [CommitEngine.new]),
    run_ok (c := .option (α := Leaf) inferInstance none) (st := .serialized ⟨"CommitVerify", "Leaf"⟩)
      (bs := [0]) ⟨rfl, rfl, by decide⟩ (fun _ => trivial) (fun _ => rfl) (by simp [CommitEngine.new])⟩

/-- **C59** Nor is the layout itself hashed: a list and a set of the same elements (and a map, if keys
and values together serialize like the elements) have the same id under one tag, with different
published layouts. -/
theorem C59_layout_not_hashed [Env] (tag : String) {α κ β : Type} (se : StrictEncode α) (sk : StrictEncode κ)
    (sv : StrictEncode β) (f : α → κ × β) (hf : ∀ x, se.enc x = sk.enc (f x).1 ++ sv.enc (f x).2)
    (hs : se.toStrictType.fqn ≠ none) (hk : sk.toStrictType.fqn ≠ none) (hv : sv.toStrictType.fqn ≠ none)
    (min max : Nat) (l : List α) (hl : (encList max se.enc l).length < 2 ^ 64) :
    ∃ e1 e2 e3, (CommitEngine.new tag).runAll [.list se min max l] = .ok e1 ∧
      (CommitEngine.new tag).runAll [.set se min max l] = .ok e2 ∧
      (CommitEngine.new tag).runAll [.map sk sv min max (l.map f)] = .ok e3 ∧
      e1.hasher = e2.hasher ∧ e1.hasher = e3.hasher ∧ e1.layout ≠ e2.layout ∧ e1.layout ≠ e3.layout ∧
      e2.layout ≠ e3.layout := by
  obtain ⟨f1, h1⟩ := Option.ne_none_iff_exists'.1 hs
  obtain ⟨f2, h2⟩ := Option.ne_none_iff_exists'.1 hk
  obtain ⟨f3, h3⟩ := Option.ne_none_iff_exists'.1 hv
  have hm : encList max (fun kv => sk.enc kv.1 ++ sv.enc kv.2) (l.map f) = encList max se.enc l := by
    simp only [encList, List.length_map, List.flatMap_map]
    rw [show (se.enc : α → Bytes) = fun x => sk.enc (f x).1 ++ sv.enc (f x).2 from funext hf]
  have one : ∀ {c : Call} {e : CommitEngine}, Call.run (CommitEngine.new tag) c = .ok e →
      (CommitEngine.new tag).runAll [c] = .ok e := by
    intro c e h
    rw [CommitEngine.runAll, h]; rfl
  have r1 := run_ok (c := .list se min max l) (e := CommitEngine.new tag)
    (st := .collection .list ⟨min, max⟩ f1) (bs := encList max se.enc l)
    ⟨by rw [Call.step, h1]; rfl, rfl, hl⟩ (fun _ => trivial) (fun _ => rfl) (by simp [CommitEngine.new])
  have r2 := run_ok (c := .set se min max l) (e := CommitEngine.new tag)
    (st := .collection .set ⟨min, max⟩ f1) (bs := encList max se.enc l)
    ⟨by rw [Call.step, h1]; rfl, rfl, hl⟩ (fun _ => trivial) (fun _ => rfl) (by simp [CommitEngine.new])
  have r3 := run_ok (c := .map sk sv min max (l.map f)) (e := CommitEngine.new tag)
    (st := .collection (.map f2) ⟨min, max⟩ f3) (bs := encList max se.enc l)
    ⟨by rw [Call.step, h2, h3], by rw [Call.bytes, hm], hl⟩ (fun _ => trivial) (fun _ => rfl)
    (by simp [CommitEngine.new])
  refine ⟨_, _, _, one r1, one r2, one r3, rfl, rfl, ?_, ?_, ?_⟩ <;> simp

/-- Non-vacuity: a list of named pairs of nodes and a map from nodes to nodes. -/
example : ∃ se : StrictEncode (MerkleNode × MerkleNode), se.toStrictType.fqn ≠ none ∧
    (inferInstance : StrictEncode MerkleNode).toStrictType.fqn ≠ none ∧
    ∀ x, se.enc x = StrictEncode.enc x.1 ++ StrictEncode.enc x.2 :=
  ⟨{ libName := "Test", typeName := some "Pair", enc := fun x => StrictEncode.enc x.1 ++ StrictEncode.enc x.2 },
    (by decide), (by decide), fun _ => rfl⟩

/-! ## C42 -/

private theorem one_call [Env] {α : Type} (ce : CommitEncode α) {c : Call} {st : CommitStep} {bs : Bytes}
    {x : α} (h : ce.commitEncode x (CommitEngine.new ce.idType.tag) =
      c.run (CommitEngine.new ce.idType.tag))
    (hd : c.Does st bs) (ha : c.Allowed) : @commitId _ α ce x = .ok (taggedSha ce.idType.tag bs) := by
  simp only [commitId, commit]
  rw [h, run_ok hd (fun _ => ha) (fun _ => rfl) (by simp [CommitEngine.new])]
  rfl

/-- **C42** Strategy `strict`: the id is the tagged hash of the serialization. -/
theorem C42_strict [Env] {α : Type} (se : StrictEncode α) (id : IdType) (x : α)
    (hnamed : se.toStrictType.fqn ≠ none) (ha : (Call.serialized se x).Allowed)
    (hl : (se.enc x).length < 2 ^ 64) :
    @commitId _ α (deriveStrict α id) x = .ok (taggedSha id.tag (se.enc x)) := by
  obtain ⟨f, hf⟩ := Option.ne_none_iff_exists'.1 hnamed
  exact one_call (deriveStrict α id) (c := .serialized se x) (st := .serialized f) rfl
    ⟨by rw [Call.step, hf]; rfl, rfl, hl⟩ ha

/-- **C42** Strategy `transparent`: the id is the tagged hash of the serialization of the inner value. -/
theorem C42_transparent [Env] {α β : Type} (se : StrictEncode β) (inner : α → β) (id : IdType) (x : α)
    (hnamed : se.toStrictType.fqn ≠ none) (ha : (Call.serialized se (inner x)).Allowed)
    (hl : (se.enc (inner x)).length < 2 ^ 64) :
    @commitId _ α (deriveTransparent inner id) x = .ok (taggedSha id.tag (se.enc (inner x))) := by
  obtain ⟨f, hf⟩ := Option.ne_none_iff_exists'.1 hnamed
  exact one_call (deriveTransparent inner id) (c := .serialized se (inner x)) (st := .serialized f) rfl
    ⟨by rw [Call.step, hf]; rfl, rfl, hl⟩ ha

/-- **C42** Strategy `merklize`: the id is the tagged hash of the merkle root of the leaves. -/
theorem C42_merklize [Env] {α β : Type} (st : StrictType β) (ce : CommitEncode β) (leaves : α → List β)
    (id : IdType) (x : α) (hnamed : st.fqn ≠ none) (root : MerkleHash)
    (hr : merklize (leaves x) = .ok root) :
    @commitId _ α (deriveMerklize leaves id) x = .ok (taggedSha id.tag root.bytes) := by
  obtain ⟨f, hf⟩ := Option.ne_none_iff_exists'.1 hnamed
  exact one_call (deriveMerklize leaves id) (c := .merkle st ce (leaves x)) (st := .merklized f) rfl
    ⟨by rw [Call.step, hf]; rfl, by rw [Call.bytes, hr]; rfl, by rw [root.len]; omega⟩ trivial

/-- **C42** Strategy `conceal`: the id is the tagged hash of the serialization of the concealed form of
the concealed form. -/
theorem C42_conceal [Env] {α β γ : Type} (co : Conceal α β) (st : StrictType β) (co' : Conceal β γ)
    (se : StrictEncode γ) (id : IdType) (x : α) (c : β) (c' : γ) (hnamed : st.fqn ≠ none)
    (hc : co.conceal x = .ok c) (hc' : co'.conceal c = .ok c') (hl : (se.enc c').length < 2 ^ 64) :
    @commitId _ α (deriveConceal α id) x = .ok (taggedSha id.tag (se.enc c')) := by
  obtain ⟨f, hf⟩ := Option.ne_none_iff_exists'.1 hnamed
  refine one_call (deriveConceal α id) (c := .concealed st co' se c) (st := .concealed f) ?_
    ⟨by rw [Call.step, hf]; rfl, by rw [Call.bytes, hc']; rfl, hl⟩ trivial
  show (co.conceal x).bind _ = _
  rw [hc]
  rfl

/-- **C42** Values with equal concealed forms have equal ids, and a panic when concealing panics. -/
theorem C42_conceal_equal [Env] {α β γ : Type} (co : Conceal α β) (st : StrictType β) (co' : Conceal β γ)
    (se : StrictEncode γ) (id : IdType) (x y : α) (h : co.conceal x = co.conceal y) :
    @commitId _ α (deriveConceal α id) x = @commitId _ α (deriveConceal α id) y := by
  have : (deriveConceal α id).commitEncode x = (deriveConceal α id).commitEncode y := by
    funext e
    show (co.conceal x).bind _ = (co.conceal y).bind _
    rw [h]
  simp only [commitId, commit, this]

/-- **C42** If concealing a concealed form changes nothing, the id is that of the strict commitment to
the concealed form under the same tag. -/
theorem C42_conceal_strict [Env] {α β : Type} (co : Conceal α β) (co' : Conceal β β)
    (se : StrictEncode β) (id : IdType) (x : α) (c : β) (hnamed : se.toStrictType.fqn ≠ none)
    (ha : (Call.serialized se c).Allowed) (hc : co.conceal x = .ok c) (hi : co'.conceal c = .ok c)
    (hl : (se.enc c).length < 2 ^ 64) :
    @commitId _ α (@deriveConceal α β β co se.toStrictType co' se id) x =
      @commitId _ β (deriveStrict β id) c := by
  rw [C42_conceal co se.toStrictType co' se id x c c hnamed hc hi hl, C42_strict se id c hnamed ha hl]

/-- Multi-protocol trees and blocks are derived this way, and concealed trees are fixed by concealing. -/
example [Env] (t : MerkleTree) (b : MerkleBlock) (c : MerkleConcealed) :
    commitId t = @commitId _ _ (deriveConceal MerkleTree mpcCommitmentId) t ∧
    commitId b = @commitId _ _ (deriveConceal MerkleBlock mpcCommitmentId) b ∧
    Conceal.conceal c = .ok c ∧
    (inferInstance : StrictEncode MerkleConcealed).toStrictType.fqn ≠ none :=
  ⟨rfl, rfl, rfl, by decide⟩

end CSV
