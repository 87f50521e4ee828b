import Verif.Props.HashedRecord

/-!
# A record hashed with two hash functions

Lemmas for C116.
-/

namespace CSV

theorem minputs_same {e e' : Env} (ht : SameHashes e e' tagStrings) {w : Nat} : ∀ (t : MTree) (d : Nat),
    SameHashes e e' (@MTree.inputs e w t d) →
    @MTree.root e' w t d = @MTree.root e w t d ∧ @MTree.inputs e' w t d = @MTree.inputs e w t d := by
  have htag : e'.sha256 (utf8 MERKLE_TAG) = e.sha256 (utf8 MERKLE_TAG) := ht _ (List.mem_cons_self ..)
  have hin : ∀ k d h1 h2, @nodeInput e' k d w h1 h2 = @nodeInput e k d w h1 h2 := by
    intro k d h1 h2
    simp only [nodeInput, taggedInput, sha, htag]
  intro t
  induction t with
  | empty =>
    intro d h
    exact ⟨SameHashes.hash_agree htag (h _ (List.mem_cons_self ..)), by simp only [MTree.inputs, hin]⟩
  | lone _ =>
    intro d h
    exact ⟨SameHashes.hash_agree htag (h _ (List.mem_cons_self ..)), by simp only [MTree.inputs, hin]⟩
  | pair _ _ =>
    intro d h
    exact ⟨SameHashes.hash_agree htag (h _ (List.mem_cons_self ..)), by simp only [MTree.inputs, hin]⟩
  | fork l r ihl ihr =>
    intro d h
    obtain ⟨l1, l2⟩ := ihl (d + 1) fun x hx => h x (List.mem_cons_of_mem _ (List.mem_append_left _ hx))
    obtain ⟨r1, r2⟩ := ihr (d + 1) fun x hx => h x (List.mem_cons_of_mem _ (List.mem_append_right _ hx))
    refine ⟨?_, ?_⟩
    · simp only [MTree.root, l1, r1]
      exact SameHashes.hash_agree htag (h _ (List.mem_cons_self ..))
    · simp only [MTree.inputs, l1, r1, l2, r2, hin]

theorem listInputs_same {e e' : Env} (ht : SameHashes e e' tagStrings) (l : List MerkleHash)
    (h : SameHashes e e' (@listInputs e l)) : @listInputs e' l = @listInputs e l := by
  match l, h with
  | [], h => exact (minputs_same ht _ 0 h).2
  | [_], _ => rfl
  | _ :: _ :: _, h => exact (minputs_same ht _ 0 h).2

theorem ownInput_same {e e' : Env} {tag : String} {cs : List Call}
    (ht : e'.sha256 (utf8 tag) = e.sha256 (utf8 tag)) (h : @callsBytes e' cs = @callsBytes e cs) :
    @ownInput e' tag cs = @ownInput e tag cs := by
  simp only [ownInput, h, taggedInput, sha, ht]

theorem callsBytes_same {e e' : Env} {c : Call} {cs : List Call} (h : @Call.bytes e' c = @Call.bytes e c)
    (ht : @callsBytes e' cs = @callsBytes e cs) : @callsBytes e' (c :: cs) = @callsBytes e (c :: cs) := by
  simp only [callsBytes, h, ht]

/-- What is committed to and hashed for a record is the same with both functions. -/
theorem Record.same {e e' : Env} (hd : e'.debug = e.debug) (hm : SameHashes e e' tagStrings) :
    ∀ (r : Record) (x : r.Val), @Record.Sound e r x → r.SameConcealed e e' x →
    SameHashes e e' (r.tags ++ @Record.nested e r x) →
    @callsBytes e' (r.calls x) = @callsBytes e (r.calls x) ∧ @Record.nested e' r x = @Record.nested e r x ∧
      @Record.Sound e' r x
  | .nil, _, _, _, _ => ⟨rfl, rfl, trivial⟩
  | .serialized _ _ rest, v, hs, hc, h | .option _ _ rest, v, hs, hc, h
  | .list _ _ _ _ rest, v, hs, hc, h | .set _ _ _ _ rest, v, hs, hc, h
  | .map _ _ _ _ _ _ rest, v, hs, hc, h =>
    let ⟨a, b, c⟩ := Record.same hd hm rest v.2 hs.2 hc h
    ⟨callsBytes_same rfl a, b, hs.1, c⟩
  | .concealed _ _ _ co se rest, v, hs, hc, h => by
    obtain ⟨a, b, c⟩ := Record.same hd hm rest v.2 hs.2 hc.2 h
    have hb : (@Conceal.conceal _ _ co e' v.1 >>= fun c => Except.ok (se.enc c)) =
        (@Conceal.conceal _ _ co e v.1 >>= fun c => Except.ok (se.enc c)) := by rw [hc.1]
    refine ⟨callsBytes_same hb a, b, ⟨hs.1.1, fun bs hbs => hs.1.2 bs ?_⟩, c⟩
    exact hb.symm.trans hbs
  | .hash _ _ id sub rest, v, hs, hc, h => by
    have hr : SameHashes e e' (rest.tags ++ @Record.nested e rest v.2) := h.same_sub fun x hx => by
      rcases List.mem_append.1 hx with hx | hx <;> simp [Record.tags, Record.nested, hx]
    have hsub : SameHashes e e' (sub.tags ++ @Record.nested e sub v.1) := h.same_sub fun x hx => by
      rcases List.mem_append.1 hx with hx | hx <;> simp [Record.tags, Record.nested, hx]
    have htag : e'.sha256 (utf8 id.tag) = e.sha256 (utf8 id.tag) := h _ (by simp [Record.tags])
    obtain ⟨a, b, c⟩ := Record.same hd hm rest v.2 hs.2 hc.2 hr
    obtain ⟨a1, b1, c1⟩ := Record.same hd hm sub v.1 hs.1 hc.1 hsub
    have hid : @Record.id e' sub id v.1 = @Record.id e sub id v.1 :=
      Record.id_same hs.1 htag (h.same_sub fun x hx => by simp [Record.nested, hx])
        (Record.run_same hd hm sub v.1 hs.1 hc.1 hsub)
    refine ⟨callsBytes_same (Record.bind_same hid) a, ?_, c1, c⟩
    simp only [Record.nested, ownInput_same htag a1, b1, b]
  | .merkle _ _ sub rest, v, hs, hc, h => by
    have hr : SameHashes e e' (rest.tags ++ @Record.nested e rest v.2) := h.same_sub fun x hx => by
      rcases List.mem_append.1 hx with hx | hx <;> simp [Record.tags, Record.nested, hx]
    have hsub : ∀ x ∈ v.1, SameHashes e e' (sub.tags ++ @Record.nested e sub x) := by
      intro x hx
      refine h.same_sub fun y hy => ?_
      rcases List.mem_append.1 hy with hy | hy
      · simp [Record.tags, hy]
      · refine List.mem_append_right _ (List.mem_append_left _ (List.mem_append_left _ ?_))
        exact List.mem_flatMap.2 ⟨x, hx, List.mem_append_right _ hy⟩
    have htag : e'.sha256 (utf8 MERKLE_TAG) = e.sha256 (utf8 MERKLE_TAG) := hm _ (List.mem_cons_self ..)
    have hlist : SameHashes e e' (match v.1.mapM (@Record.id e sub merkleHashId) with
        | .ok ids => @listInputs e ids
        | .error _ => []) := h.same_sub fun y hy =>
      List.mem_append_right _ (List.mem_append_left _ (List.mem_append_right _ hy))
    obtain ⟨a, b, c⟩ := Record.same hd hm rest v.2 hs.2 hc.2 hr
    have IH := fun x hx => Record.same hd hm sub x (hs.1 x hx).1 (hc.1 x hx) (hsub x hx)
    have hid : ∀ x ∈ v.1, @Record.id e' sub merkleHashId x = @Record.id e sub merkleHashId x := by
      intro x hx
      refine Record.id_same (hs.1 x hx).1 htag (h.same_sub fun y hy => ?_)
        (Record.run_same hd hm sub x (hs.1 x hx).1 (hc.1 x hx) (hsub x hx))
      refine List.mem_append_right _ (List.mem_append_left _ (List.mem_append_left _ ?_))
      exact List.mem_flatMap.2 ⟨x, hx, List.mem_append_left _ hy⟩
    refine ⟨callsBytes_same (Record.bind_same (Record.list_same hm hid hlist)) a, ?_, fun x hx => ?_, c⟩
    · simp only [Record.nested]
      congr 1
      · congr 1
        · rw [List.flatMap, List.flatMap]
          congr 1
          refine List.map_congr_left fun x hx => ?_
          obtain ⟨a1, b1, -⟩ := IH x hx
          rw [ownInput_same htag a1, b1]
        · rw [Record.mapM_same hid]
          cases hi : v.1.mapM (@Record.id e sub merkleHashId) with
          | error p => rfl
          | ok ids =>
            rw [hi] at hlist
            exact listInputs_same hm ids hlist
    · obtain ⟨a1, -, c1⟩ := IH x hx
      refine ⟨c1, fun n => ?_⟩
      rw [a1]
      exact (hs.1 x hx).2 n

end CSV
