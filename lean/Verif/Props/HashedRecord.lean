import Verif.Props.Hashed
import Verif.Props.Record

/-!
# C84 for nested records
-/

namespace CSV

private theorem run_congr {e e' : Env} (hd : e'.debug = e.debug) {c : Call}
    (h : @Call.bytes e' c = @Call.bytes e c) (eng : CommitEngine) :
    @Call.run e' eng c = @Call.run e eng c := by
  rw [@run_eq e', @run_eq e, h]
  have h1 : @Call.check e' c = @Call.check e c := by
    cases c <;> simp only [Call.check, dbg, hd]
  have h2 : ∀ eng n bs, @CommitEngine.innerCommitTo e' eng n bs = @CommitEngine.innerCommitTo e eng n bs := by
    intro eng n bs
    simp only [CommitEngine.innerCommitTo, dbg, hd]
  rw [h1]
  simp only [h2]

private theorem runAll_cons {e e' : Env} (hd : e'.debug = e.debug) {c : Call} {cs : List Call}
    (h : @Call.bytes e' c = @Call.bytes e c)
    (ht : ∀ eng, @CommitEngine.runAll e' eng cs = @CommitEngine.runAll e eng cs) (eng : CommitEngine) :
    @CommitEngine.runAll e' eng (c :: cs) = @CommitEngine.runAll e eng (c :: cs) := by
  simp only [CommitEngine.runAll, run_congr hd h, ht]

theorem Record.id_same {e e' : Env} {r : Record} {id : IdType} {x : r.Val} (hs : @Record.Sound e r x)
    (ht : e'.sha256 (utf8 id.tag) = e.sha256 (utf8 id.tag))
    (ho : SameHashes e e' (@ownInput e id.tag (r.calls x)))
    (hr : ∀ eng, @CommitEngine.runAll e' eng (r.calls x) = @CommitEngine.runAll e eng (r.calls x)) :
    @Record.id e' r id x = @Record.id e r id x := by
  have hnew : @CommitEngine.new e' id.tag = @CommitEngine.new e id.tag := by
    simp only [CommitEngine.new, Hasher.fromTag, sha, ht]
  rw [@Record.id_def e', @Record.id_def e, hnew, hr]
  cases h : @CommitEngine.runAll e (@CommitEngine.new e id.tag) (r.calls x) with
  | error p => rfl
  | ok eng =>
    obtain ⟨sts, bss, h1, _, _, _, h2⟩ := @runAll_inv e _ _ _ h
      (fun c hc => (@Record.fine_calls e r x hs c hc).2) (by simp [CommitEngine.new])
    have := ho _ (@Record.own_mem e _ _ _ (@callsBytes_did e _ _ _ h1))
    simp only [ok_bind, h2]
    exact congrArg Except.ok this

theorem Record.bind_same {α β : Type} {f : α → Exec β} {a b : Exec α} (h : a = b) : (a >>= f) = (b >>= f) := by
  rw [h]

theorem Record.mapM_same {α β : Type} {f g : α → Exec β} : ∀ {l : List α}, (∀ x ∈ l, f x = g x) →
    l.mapM f = l.mapM g
  | [], _ => rfl
  | a :: l, h => by
    rw [List.mapM_cons, List.mapM_cons, h a (by simp), Record.mapM_same fun x hx => h x (by simp [hx])]

theorem Record.list_same {e e' : Env} (hm : SameHashes e e' tagStrings) {α : Type} {l : List α}
    {f g : α → Exec Bytes32} (hf : ∀ x ∈ l, f x = g x)
    (h : SameHashes e e' (match l.mapM g with
      | .ok ids => @listInputs e ids
      | .error _ => [])) :
    (l.mapM f >>= fun ids => @merklizeHashes e' ids) = (l.mapM g >>= fun ids => @merklizeHashes e ids) := by
  rw [Record.mapM_same hf]
  cases hi : l.mapM g with
  | error p => rw [error_bind, error_bind]
  | ok ids =>
    rw [hi] at h
    simp only [ok_bind]
    rcases Nat.lt_or_ge ids.length (2 ^ 32) with hl | hl
    · rw [@merklizeHashes_eq e' _ hl, @merklizeHashes_eq e _ hl, SameHashes.listRoot_agree hm ids h]
    · rw [(@C32_limits e' ids).2 hl, (@C32_limits e ids).2 hl]

theorem Record.run_same {e e' : Env} (hd : e'.debug = e.debug) (hm : SameHashes e e' tagStrings) :
    ∀ (r : Record) (x : r.Val), @Record.Sound e r x → r.SameConcealed e e' x →
    SameHashes e e' (r.tags ++ @Record.nested e r x) → ∀ eng,
    @CommitEngine.runAll e' eng (r.calls x) = @CommitEngine.runAll e eng (r.calls x)
  | .nil, _, _, _, _, _ => rfl
  | .serialized _ _ rest, v, hs, hc, h, eng | .option _ _ rest, v, hs, hc, h, eng
  | .list _ _ _ _ rest, v, hs, hc, h, eng | .set _ _ _ _ rest, v, hs, hc, h, eng
  | .map _ _ _ _ _ _ rest, v, hs, hc, h, eng =>
    runAll_cons hd rfl (Record.run_same hd hm rest v.2 hs.2 hc h) eng
  | .concealed _ _ _ co se rest, v, hs, hc, h, eng =>
    runAll_cons hd (by
        show (@Conceal.conceal _ _ co e' v.1 >>= fun c => Except.ok (se.enc c)) =
          (@Conceal.conceal _ _ co e v.1 >>= fun c => Except.ok (se.enc c))
        rw [hc.1])
      (Record.run_same hd hm rest v.2 hs.2 hc.2 h) eng
  | .hash _ _ id sub rest, v, hs, hc, h, eng => by
    refine runAll_cons hd (Record.bind_same ?_)
      (Record.run_same hd hm rest v.2 hs.2 hc.2 (h.same_sub fun x hx => ?_)) eng
    · refine Record.id_same hs.1 (h _ (by simp [Record.tags])) (h.same_sub fun x hx => ?_)
        (Record.run_same hd hm sub v.1 hs.1 hc.1 (h.same_sub fun x hx => ?_))
      · simp [Record.nested, hx]
      · rcases List.mem_append.1 hx with hx | hx <;> simp [Record.tags, Record.nested, hx]
    · rcases List.mem_append.1 hx with hx | hx <;> simp [Record.tags, Record.nested, hx]
  | .merkle _ _ sub rest, v, hs, hc, h, eng => by
    refine runAll_cons hd (Record.bind_same ?_)
      (Record.run_same hd hm rest v.2 hs.2 hc.2 (h.same_sub fun x hx => ?_)) eng
    · refine Record.list_same hm (fun x hx => ?_) (h.same_sub fun y hy =>
        List.mem_append_right _ (List.mem_append_left _ (List.mem_append_right _ hy)))
      refine Record.id_same (hs.1 x hx).1 (hm _ (List.mem_cons_self ..)) (h.same_sub fun y hy => ?_)
        (Record.run_same hd hm sub x (hs.1 x hx).1 (hc.1 x hx) (h.same_sub fun y hy => ?_))
      · refine List.mem_append_right _ (List.mem_append_left _ (List.mem_append_left _ ?_))
        exact List.mem_flatMap.2 ⟨x, hx, List.mem_append_left _ hy⟩
      · rcases List.mem_append.1 hy with hy | hy
        · simp [Record.tags, hy]
        · refine List.mem_append_right _ (List.mem_append_left _ (List.mem_append_left _ ?_))
          exact List.mem_flatMap.2 ⟨x, hx, List.mem_append_right _ hy⟩
    · rcases List.mem_append.1 hx with hx | hx <;> simp [Record.tags, Record.nested, hx]

/-- **C84** The id of a nested record - or the panic on computing it - depends on the hash function only
through the hashes of the tags and of the strings of which C76 assumes that no two collide, and
through the concealed forms of its confidential fields. -/
theorem C84_record (e : Env) (r : Record) (id : IdType) (x : r.Val) (hs : @Record.Sound e r x) (e' : Env)
    (hd : e'.debug = e.debug) (hc : r.SameConcealed e e' x)
    (h : SameHashes e e' (tagStrings ++ utf8 id.tag :: r.tags ++ @Record.inputs e r id x)) :
    @Record.id e' r id x = @Record.id e r id x := by
  refine Record.id_same hs (h _ (by simp)) (h.same_sub fun y hy => ?_)
    (Record.run_same hd (h.same_sub fun y hy => by simp [hy]) r x hs hc (h.same_sub fun y hy => ?_))
  · simp [Record.inputs, hy]
  · rcases List.mem_append.1 hy with hy | hy <;> simp [Record.inputs, hy]

/-- Another hash function, which differs from SHA256 on the empty string. -/
@[instance_reducible] private def otherEnv : Env :=
  ⟨fun x => if x = [] then Bytes32.fill 0 else (realEnv true).sha256 x, true⟩

/-- Non-vacuity: different hash functions, a record with a confidential field, a nested record and a
merklized list of three records. -/
example : otherEnv.sha256 [] ≠ (realEnv true).sha256 [] ∧
    @Record.Sound (realEnv true) Sample.record (Sample.recordValue 7 5) ∧
    Sample.record.SameConcealed (realEnv true) otherEnv (Sample.recordValue 7 5) ∧
    SameHashes (realEnv true) otherEnv (tagStrings ++ utf8 mpcCommitmentId.tag :: Sample.record.tags ++
      @Record.inputs (realEnv true) Sample.record mpcCommitmentId (Sample.recordValue 7 5)) ∧
    (@Record.inputs (realEnv true) Sample.record mpcCommitmentId (Sample.recordValue 7 5)).length = 8 ∧
    (@Record.id (realEnv true) Sample.record mpcCommitmentId (Sample.recordValue 7 5)).toOption.isSome
      = true := by
  refine ⟨by decide +kernel, @Sample.record_sound (realEnv true) _ _,
    ⟨rfl, ⟨trivial, ⟨fun _ _ => trivial, trivial⟩⟩⟩, ?_, by decide +kernel, by decide +kernel⟩
  show ∀ x ∈ _, _
  decide +kernel

end CSV
