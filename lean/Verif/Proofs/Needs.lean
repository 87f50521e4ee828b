import Verif.Spec.Hashed
import Verif.Proofs.Hash
import Verif.Proofs.Merge
import Verif.Props.Hashed

/-!
# Lemmas: how many strings a computation hashes, for arbitrary blocks
-/

namespace CSV

/-- As `Hashes`, with a bound that depends on the hash function. -/
def Upto (δ : Bool) (n : Env → Nat) {α : Type} (f : Env → α) : Prop :=
  ∃ o : Bytes32 → Bytes32 → Observer α, ∀ e : Env, e.debug = δ →
    (o (e.sha256 (utf8 MERKLE_TAG)) (e.sha256 (utf8 MPC_TAG))).run e = f e ∧
    ((o (e.sha256 (utf8 MERKLE_TAG)) (e.sha256 (utf8 MPC_TAG))).asked e).length ≤ n e

/-- Some hash function. -/
@[instance_reducible] private def someEnv (δ : Bool) : Env := ⟨fun _ => Bytes32.fill 0, δ⟩

/-- Going on with the result of an observer. -/
private def andThen {α β : Type} : Observer (Exec α) → (α → Observer (Exec β)) → Observer (Exec β)
  | .answer (.ok x), g => g x
  | .answer (.error p), _ => .answer (.error p)
  | .ask s k, g => .ask s fun v => andThen (k v) g

private theorem andThen_spec {α β : Type} (e : Env) (g : α → Observer (Exec β)) : ∀ o : Observer (Exec α),
    (andThen o g).run e = (o.run e >>= fun x => (g x).run e) ∧
    ((andThen o g).asked e).length = (o.asked e).length + match o.run e with
      | .ok x => ((g x).asked e).length
      | .error _ => 0 := by
  intro o
  induction o with
  | answer r =>
    cases r with
    | ok x => exact ⟨rfl, (Nat.zero_add _).symm⟩
    | error p => exact ⟨rfl, rfl⟩
  | ask s k ih =>
    obtain ⟨h1, h2⟩ := ih (e.sha256 s)
    refine ⟨h1, ?_⟩
    simp only [andThen, Observer.asked, Observer.run, List.length_cons, h2]
    omega

/-- Applying a function to the result of an observer. -/
private def mapped {α β : Type} (g : α → β) : Observer α → Observer β
  | .answer x => .answer (g x)
  | .ask s k => .ask s fun v => mapped g (k v)

private theorem mapped_spec {α β : Type} (e : Env) (g : α → β) : ∀ o : Observer α,
    (mapped g o).run e = g (o.run e) ∧ (mapped g o).asked e = o.asked e := by
  intro o
  induction o with
  | answer r => exact ⟨rfl, rfl⟩
  | ask s k ih =>
    obtain ⟨h1, h2⟩ := ih (e.sha256 s)
    exact ⟨h1, congrArg (s :: ·) h2⟩

namespace Upto

variable {δ : Bool} {α β : Type}

theorem mono {f : Env → α} {n m : Env → Nat} (h : Upto δ n f) (hn : ∀ e, e.debug = δ → n e ≤ m e) : Upto δ m f := by
  obtain ⟨o, h⟩ := h
  exact ⟨o, fun e hd => ⟨(h e hd).1, Nat.le_trans (h e hd).2 (hn e hd)⟩⟩

theorem const {f : Env → α} (h : ∀ e', e'.debug = (someEnv δ).debug → f e' = f (someEnv δ)) : Upto δ (fun _ => 0) f :=
  ⟨fun _ _ => .answer (f (someEnv δ)), fun e hd => ⟨(h e hd).symm, Nat.le_refl _⟩⟩

theorem bind {f : Env → Exec α} {g : Env → α → Exec β} {n : Env → Nat} {m : α → Env → Nat} (h : Upto δ n f)
    (hg : ∀ x, (∃ e, e.debug = δ ∧ f e = .ok x) → Upto δ (m x) fun e => g e x) :
    Upto δ (fun e => n e + match f e with | .ok x => m x e | .error _ => 0) fun e => f e >>= g e := by
  obtain ⟨o, ho⟩ := h
  have hg' : ∀ x, ∃ o : Bytes32 → Bytes32 → Observer (Exec β), (∃ e, e.debug = δ ∧ f e = .ok x) →
      ∀ e : Env, e.debug = δ →
        (o (e.sha256 (utf8 MERKLE_TAG)) (e.sha256 (utf8 MPC_TAG))).run e = g e x ∧
        ((o (e.sha256 (utf8 MERKLE_TAG)) (e.sha256 (utf8 MPC_TAG))).asked e).length ≤ m x e := by
    intro x
    by_cases hx : ∃ e, e.debug = δ ∧ f e = .ok x
    · obtain ⟨o, h⟩ := hg x hx
      exact ⟨o, fun _ => h⟩
    · exact ⟨fun _ _ => .answer (.error .fuel), fun h => absurd h hx⟩
  refine ⟨fun t u => andThen (o t u) fun x => Classical.choose (hg' x) t u, fun e hd => ?_⟩
  obtain ⟨h1, h2⟩ := ho e hd
  obtain ⟨h3, h4⟩ := andThen_spec e
    (fun x => Classical.choose (hg' x) (e.sha256 (utf8 MERKLE_TAG)) (e.sha256 (utf8 MPC_TAG)))
    (o (e.sha256 (utf8 MERKLE_TAG)) (e.sha256 (utf8 MPC_TAG)))
  rw [h1] at h3 h4
  rw [h3, h4]
  dsimp only
  cases hf : f e with
  | error p => exact ⟨rfl, h2⟩
  | ok x =>
    obtain ⟨k1, k2⟩ := Classical.choose_spec (hg' x) ⟨e, hd, hf⟩ e hd
    exact ⟨k1, Nat.add_le_add h2 k2⟩

theorem map {f : Env → α} {n : Env → Nat} (h : Upto δ n f) (g : α → β) : Upto δ n fun e => g (f e) := by
  obtain ⟨o, h⟩ := h
  refine ⟨fun t u => mapped g (o t u), fun e hd => ?_⟩
  obtain ⟨h1, h2⟩ := mapped_spec e g (o (e.sha256 (utf8 MERKLE_TAG)) (e.sha256 (utf8 MPC_TAG)))
  rw [h1, h2, (h e hd).1]
  exact ⟨rfl, (h e hd).2⟩

theorem congr {f g : Env → α} {n : Env → Nat} (h : Upto δ n f) (hfg : ∀ e', g e' = f e') : Upto δ n g := by
  obtain rfl : g = f := funext hfg
  exact h

end Upto

namespace Hashes

variable {δ : Bool} {α β : Type}

theorem mono {f : Env → α} {n m : Nat} (h : Hashes δ n f) (hn : n ≤ m) : Hashes δ m f :=
  Upto.mono (n := fun _ => n) (m := fun _ => m) h fun _ _ => hn

theorem const {f : Env → α} (h : ∀ e', e'.debug = (someEnv δ).debug → f e' = f (someEnv δ)) : Hashes δ 0 f :=
  Upto.const h

theorem bind {f : Env → Exec α} {g : Env → α → Exec β} {n m : Nat} (h : Hashes δ n f)
    (hg : ∀ x, (∃ e, e.debug = δ ∧ f e = .ok x) → Hashes δ m fun e => g e x) :
    Hashes δ (n + m) fun e => f e >>= g e :=
  (Upto.bind (n := fun _ => n) (m := fun _ _ => m) h hg).mono fun e _ => by
    split <;> omega

theorem map {f : Env → α} {n : Nat} (h : Hashes δ n f) (g : α → β) : Hashes δ n fun e => g (f e) :=
  Upto.map (n := fun _ => n) h g

theorem congr {f g : Env → α} {n : Nat} (h : Hashes δ n f) (hfg : ∀ e', g e' = f e') : Hashes δ n g :=
  Upto.congr (n := fun _ => n) h hfg

theorem merkleTagged (data : Bytes) : Hashes δ 1 fun e => @taggedSha e MERKLE_TAG data :=
  ⟨fun t _ => .ask (t.bytes ++ t.bytes ++ data) .answer, fun _ _ => ⟨rfl, Nat.le_refl _⟩⟩

theorem mpcTagged (data : Bytes) : Hashes δ 1 fun e => @taggedSha e MPC_TAG data :=
  ⟨fun _ u => .ask (u.bytes ++ u.bytes ++ data) .answer, fun _ _ => ⟨rfl, Nat.le_refl _⟩⟩

/-- Somebody who asks for few hashes needs few. -/
theorem needs {f : Env → α} {n : Nat} (h : Hashes δ n f) (e : Env) (hd : e.debug = δ) : Needs e n f := by
  obtain ⟨o, h⟩ := h
  have key : ∀ (e' : Env) (o : Observer α), SameHashes e e' (o.asked e) → o.run e' = o.run e := by
    intro e' o
    induction o with
    | answer a => intro _; rfl
    | ask s k ih =>
      intro hs
      have h1 := hs s (List.mem_cons_self ..)
      simp only [Observer.run]
      rw [h1]
      exact ih _ fun x hx => hs x (List.mem_cons_of_mem _ hx)
  refine ⟨_, (h e hd).2, fun e' hd' hs => ?_⟩
  have h1 : e'.sha256 (utf8 MERKLE_TAG) = e.sha256 (utf8 MERKLE_TAG) :=
    hs _ (List.mem_append_left _ (List.mem_cons_self ..))
  have h2 : e'.sha256 (utf8 MPC_TAG) = e.sha256 (utf8 MPC_TAG) :=
    hs _ (List.mem_append_left _ (List.mem_cons_of_mem _ (List.mem_cons_self ..)))
  rw [← (h e hd).1, ← (h e' (hd'.trans hd)).1, h1, h2]
  exact key e' _ fun x hx => hs x (List.mem_append_right _ hx)

end Hashes

/-- A computation which turns something of size `n` into something smaller but not empty, and hashes as many
strings as the size decreases by. -/
private def Shrinks (δ : Bool) {β : Type} (n : Nat) (size : β → Nat) (f : Env → Exec β) : Prop :=
  (Upto δ (fun e => match f e with
    | .ok x => n - size x
    | .error _ => n - 1) f) ∧
  ∀ e x, e.debug = δ → f e = .ok x → size x ≤ n ∧ (1 ≤ n → 1 ≤ size x)

private theorem Shrinks.const {δ : Bool} {β : Type} {n : Nat} {size : β → Nat} {f : Env → Exec β}
    (h : ∀ e', e'.debug = (someEnv δ).debug → f e' = f (someEnv δ))
    (hs : ∀ x, f (someEnv δ) = .ok x → size x = n) : Shrinks δ n size f := by
  refine ⟨(Upto.const h).mono fun _ _ => Nat.zero_le _, fun e x hd hx => ?_⟩
  have := hs x ((h e hd).symm.trans hx)
  omega

private theorem Shrinks.bind {δ : Bool} {β γ : Type} {n : Nat} {size : β → Nat} {size' : γ → Nat}
    {f : Env → Exec β} {g : Env → β → Exec γ} (h : Shrinks δ n size f)
    (hg : ∀ x, (∃ e, e.debug = δ ∧ f e = .ok x) → Shrinks δ (size x) size' fun e' => g e' x) :
    Shrinks δ n size' fun e' => f e' >>= g e' := by
  refine ⟨(h.1.bind fun x hx => (hg x hx).1).mono fun e hd => ?_, fun e y hd hy => ?_⟩
  · dsimp only
    cases hf : f e with
    | error p => exact Nat.le_refl _
    | ok x =>
      have h1 := h.2 e x hd hf
      have h2 := (hg x ⟨e, hd, hf⟩).2 e
      dsimp only at h2
      rw [ok_bind]
      dsimp only
      cases hy : g e x with
      | error p =>
        dsimp only
        by_cases h0 : n = 0
        · subst h0
          rw [Nat.le_zero.1 h1.1]
          exact Nat.le_refl _
        · rw [Nat.sub_add_sub_cancel h1.1 (h1.2 (Nat.pos_of_ne_zero h0))]
          exact Nat.le_refl _
      | ok y =>
        have h3 := h2 y hd hy
        dsimp only
        rw [Nat.sub_add_sub_cancel h1.1 h3.1]
        exact Nat.le_refl _
  · dsimp only at hy
    cases hf : f e with
    | error p => rw [hf] at hy; cases hy
    | ok x =>
      rw [hf] at hy
      have h1 := h.2 e x hd hf
      have h2 := (hg x ⟨e, hd, hf⟩).2 e y hd hy
      omega

private theorem Shrinks.pre {δ : Bool} {β γ : Type} {n : Nat} {size' : γ → Nat}
    {f : Env → Exec β} {g : Env → β → Exec γ} (h : ∀ e', e'.debug = (someEnv δ).debug → f e' = f (someEnv δ))
    (hg : ∀ x, (∃ e, e.debug = δ ∧ f e = .ok x) → Shrinks δ n size' fun e' => g e' x) :
    Shrinks δ n size' fun e' => f e' >>= g e' :=
  Shrinks.bind (size := fun _ => n) (.const h fun _ _ => rfl) hg

theorem hashes_leaf {δ : Bool} (p : ProtocolId) (m : Message) :
    Hashes δ 1 fun e' => @TreeNode.toMerkleNode e' (.leaf p m) :=
  ((Hashes.merkleTagged (δ := δ) (Leaf.inhabited p m).enc).map Except.ok).congr fun e' => @commitId_leaf e' _

theorem hashes_with {δ : Bool} (h1 h2 : MerkleHash) (d : U5) (w : Nat) :
    Hashes δ 1 fun e' => @TreeNode.with e' h1 h2 d w :=
  ((Hashes.merkleTagged (δ := δ) (MerkleNode.enc ⟨.branch, UInt8.ofNat d.val, BitVec.ofNat 256 w, h1, h2⟩)).map
    fun h => Except.ok (TreeNode.concealed d h)).congr fun e' => @treeNodeWith_eq e' h1 h2 d w

private theorem leaves_length {e : Env} {D : U5} {ps : List ProtocolId} : ∀ (cs : List TreeNode) (c : Nat)
    (nf : List ProtocolId) (x : List TreeNode × Nat × List ProtocolId),
    @concealLeaves e D ps cs c nf = .ok x → x.1.length = cs.length := by
  intro cs
  induction cs with
  | nil => intro c nf x h; simp only [concealLeaves, Except.ok.injEq] at h; rw [← h]
  | cons a cs ih =>
    intro c nf x h
    cases a with
    | concealed d k =>
      simp only [concealLeaves] at h
      cases hr : @concealLeaves e D ps cs c nf with
      | error _ => rw [hr] at h; cases h
      | ok y => rw [hr] at h; cases h; simp [ih _ _ _ hr]
    | leaf p m =>
      simp only [concealLeaves] at h
      split at h
      · cases hr : @concealLeaves e D ps cs c (bsetRemove p nf) with
        | error _ => rw [hr] at h; cases h
        | ok y => rw [hr] at h; cases h; simp [ih _ _ _ hr]
      · rw [TreeNode.toMerkleNode, @commitId_leaf e, ok_bind] at h
        cases hr : @concealLeaves e D ps cs (c + 1) nf with
        | error _ => rw [hr] at h; cases h
        | ok y => rw [hr] at h; cases h; simp [ih _ _ _ hr]

private theorem hashes_leaves {δ : Bool} {D : U5} {ps : List ProtocolId} : ∀ (cs : List TreeNode) (c : Nat)
    (nf : List ProtocolId), Hashes δ cs.length fun e' => @concealLeaves e' D ps cs c nf := by
  intro cs
  induction cs with
  | nil => intro c nf; exact Hashes.const fun _ _ => rfl
  | cons a cs ih =>
    intro c nf
    cases a with
    | concealed d k =>
      simp only [concealLeaves]
      exact (Hashes.bind (m := 0) (ih c nf) fun x _ => Hashes.const fun _ _ => rfl).mono (by simp)
    | leaf p m =>
      simp only [concealLeaves]
      split
      · exact (Hashes.bind (m := 0) (ih c (bsetRemove p nf)) fun x _ => Hashes.const fun _ _ => rfl).mono (by simp)
      · refine ((hashes_leaf p m).bind fun x _ => Hashes.bind (m := 0) (ih (c + 1) nf) fun x _ =>
          Hashes.const fun _ _ => rfl).mono ?_
        simp only [List.length_cons]; omega

private theorem shrinks_step {δ : Bool} {D : U5} (s : ConcealState) :
    Shrinks δ s.cs.length (fun s' : ConcealState => s'.cs.length) fun e' => @concealStep e' D s := by
  cases h1 : s.cs[s.pos]? with
  | none =>
    refine .const (fun e' hd => ?_) fun x hx => ?_
    · simp only [concealStep, h1]
    · simp only [concealStep, h1] at hx; cases hx
  | some a =>
    cases h2 : s.cs[s.pos + 1]? with
    | none =>
      cases a with
      | leaf p m =>
        simp only [concealStep, h1, h2]
        exact .pre (fun e' hd => by simp only [dbg, hd]) fun x _ => .const (fun _ _ => rfl) (by rintro x ⟨⟩; rfl)
      | concealed d k =>
        simp only [concealStep, h1, h2]
        exact .pre (fun e' hd => by simp only [dbg, hd]) fun x _ => .pre (fun e' hd => by simp only [dbg, hd]) fun x _ =>
          .pre (fun e' hd => by simp only [dbg, hd]) fun x _ => .const (fun _ _ => rfl) (by rintro x ⟨⟩; rfl)
    | some b =>
      cases a with
      | leaf p m =>
        cases b <;> simp only [concealStep, h1, h2] <;>
        exact .pre (fun e' hd => by simp only [dbg, hd]) fun x _ => .const (fun _ _ => rfl) (by rintro x ⟨⟩; rfl)
      | concealed d k =>
        cases b with
        | leaf q m' =>
          simp only [concealStep, h1, h2]
          exact .pre (fun e' hd => by simp only [dbg, hd]) fun x _ => .pre (fun e' hd => by simp only [dbg, hd]) fun x _ =>
            .pre (fun e' hd => by simp only [dbg, hd]) fun x _ =>
            .pre (fun e' hd => by simp only [dbg, hd]) fun x _ => .const (fun _ _ => rfl) (by rintro x ⟨⟩; rfl)
        | concealed d' k' =>
          have hlen : s.pos + 1 < s.cs.length := by
            rcases Nat.lt_or_ge (s.pos + 1) s.cs.length with h | h
            · exact h
            · rw [List.getElem?_eq_none h] at h2; cases h2
          simp only [concealStep, h1, h2]
          split
          · refine .pre (fun e' hd => rfl) fun x _ => .pre (fun e' hd => by simp only [dbg, hd]) fun y _ =>
              .pre (fun e' hd => by simp only [dbg, hd]) fun z _ => .pre (fun e' hd => rfl) fun r _ => ?_
            split
            · exact .pre (fun e' hd => by simp only [dbg, hd]) fun x _ => .pre (fun e' hd => by simp only [dbg, hd]) fun x _ =>
                .pre (fun e' hd => by simp only [dbg, hd]) fun x _ => .const (fun _ _ => rfl) (by rintro x ⟨⟩; rfl)
            · have hw := hashes_with (δ := δ) k k' x (widthLimit D)
              refine Shrinks.bind (size := fun _ => s.cs.length - 1) ?_ fun node hn => ?_
              · exact ⟨Upto.mono (n := fun _ => 1) hw fun e _ => by
                  dsimp only
                  rw [@treeNodeWith_eq e]
                  dsimp only
                  omega, fun e x _ _ => by dsimp only; omega⟩
              · simp only [show ¬ s.cs.length ≤ 1 by omega, if_false]
                refine .pre (fun e' hd => by simp only [dbg, hd]) fun x _ => .const (fun _ _ => rfl) ?_
                rintro x ⟨⟩
                simp only [List.length_eraseIdx, List.length_set]
                rw [if_pos hlen]
          · exact .pre (fun e' hd => by simp only [dbg, hd]) fun x _ => .pre (fun e' hd => by simp only [dbg, hd]) fun x _ =>
              .pre (fun e' hd => by simp only [dbg, hd]) fun x _ => .const (fun _ _ => rfl) (by rintro x ⟨⟩; rfl)

private theorem shrinks_inner {δ : Bool} {D : U5} : ∀ (fuel : Nat) (s : ConcealState),
    Shrinks δ s.cs.length (fun s' : ConcealState => s'.cs.length) fun e' => @concealInner e' D fuel s := by
  intro fuel
  induction fuel with
  | zero =>
    intro s
    simp only [concealInner]
    split
    · exact .const (fun _ _ => rfl) (by rintro x ⟨⟩)
    · exact .const (fun _ _ => rfl) (by rintro x ⟨⟩; rfl)
  | succ fuel ih =>
    intro s
    simp only [concealInner]
    split
    · exact Shrinks.bind (shrinks_step s) fun x _ => ih x
    · exact .const (fun _ _ => rfl) (by rintro x ⟨⟩; rfl)

private theorem shrinks_outer {δ : Bool} {D : U5} : ∀ (fuel : Nat) (cs : List TreeNode) (c : Nat),
    Shrinks δ cs.length (fun x : List TreeNode × Nat => x.1.length) fun e' => @concealOuter e' D fuel cs c := by
  intro fuel
  induction fuel with
  | zero => intro cs c; exact .const (fun _ _ => rfl) (by rintro x ⟨⟩)
  | succ fuel ih =>
    intro cs c
    simp only [concealOuter]
    refine .pre (fun e' hd => by simp only [dbg, hd]) fun _ _ => Shrinks.bind (shrinks_inner _ _) fun s _ => ?_
    split
    · exact .const (fun _ _ => rfl) (by rintro x ⟨⟩; rfl)
    · exact .pre (fun e' hd => by simp only [dbg, hd]) fun _ _ => ih _ _

private theorem Shrinks.hashes {δ : Bool} {β : Type} {n : Nat} {size : β → Nat} {f : Env → Exec β}
    (h : Shrinks δ n size f) : Hashes δ (n - 1) f := by
  refine Upto.mono h.1 fun e hd => ?_
  cases hf : f e with
  | error _ => exact Nat.le_refl _
  | ok x =>
    have := h.2 e x hd hf
    dsimp only
    omega

theorem hashes_concealExcept {δ : Bool} (b : MerkleBlock) (ps : List ProtocolId) :
    Hashes δ (2 * b.crossSection.length - 1) fun e' => @MerkleBlock.concealExcept e' b ps := by
  simp only [MerkleBlock.concealExcept]
  refine (Hashes.bind (m := b.crossSection.length - 1) (hashes_leaves _ 0 _) fun x hx => ?_).mono (by omega)
  obtain ⟨e, -, hx⟩ := hx
  have hl := leaves_length _ _ _ _ hx
  obtain ⟨cs, c, nf⟩ := x
  dsimp only at hl ⊢
  cases nf with
  | cons q l => exact (Hashes.const fun _ _ => rfl).mono (Nat.zero_le _)
  | nil =>
    dsimp only
    rw [← hl]
    exact (Hashes.bind (m := 0) (shrinks_outer _ _ _).hashes fun _ _ => Hashes.const fun _ _ => rfl).mono (by omega)

theorem hashes_conceal {δ : Bool} (b : MerkleBlock) :
    Hashes δ (2 * b.crossSection.length - 1) fun e' => @MerkleBlock.conceal e' b := by
  simp only [MerkleBlock.conceal]
  refine (Hashes.bind (m := 0) (hashes_concealExcept b []) fun x _ => ?_).mono (by omega)
  obtain ⟨b', r⟩ := x
  dsimp only
  cases r with
  | error _ => exact Hashes.const fun _ _ => rfl
  | ok _ => exact Hashes.const fun e' hd => by simp only [dbg, hd]

private theorem conceal_nil {e : Env} (b : MerkleBlock) (h : b.crossSection = []) (c : MerkleConcealed) :
    @MerkleBlock.conceal e b ≠ .ok c := by
  obtain ⟨sha, dbg'⟩ := e
  cases dbg' <;> simp [MerkleBlock.conceal, MerkleBlock.concealExcept, h, concealLeaves, bsetOfList, concealOuter,
    concealInner, debugAssert, dbg, bind, Except.bind]

theorem hashes_commitId {δ : Bool} (b : MerkleBlock) :
    Hashes δ (2 * b.crossSection.length) fun e' => @MerkleBlock.commitId e' b := by
  have h : Hashes δ ((2 * b.crossSection.length - 1) + (if b.crossSection = [] then 0 else 1)) fun e' =>
      @MerkleBlock.conceal e' b >>= fun c => .ok (@commitmentHash e' c) := by
    refine (hashes_conceal b).bind fun c hc => ?_
    obtain ⟨e, -, hc⟩ := hc
    rw [if_neg fun h => conceal_nil b h c hc]
    exact (Hashes.mpcTagged c.enc).map Except.ok
  refine (h.congr fun e' => @MerkleBlock.commitId_eq e' b).mono ?_
  split
  · omega
  · rename_i hne
    have := List.length_pos_iff.2 hne
    omega

private theorem collect_const {e : Env} : ∀ (cs : List TreeNode) (m : List (U5 × MerkleHash)) (e' : Env),
    e'.debug = e.debug → @collectPath e' cs m = @collectPath e cs m := by
  intro cs
  induction cs with
  | nil => intro m e' _; rfl
  | cons a cs ih =>
    intro m e' hd
    cases a with
    | leaf _ _ => exact ih m e' hd
    | concealed d h => simp only [collectPath, dbg, hd, ih _ e' hd]

theorem hashes_toMerkleProof {δ : Bool} (b : MerkleBlock) (p : ProtocolId) :
    Hashes δ (2 * b.crossSection.length - 1) fun e' => @MerkleBlock.toMerkleProof e' b p := by
  simp only [MerkleBlock.toMerkleProof, MerkleBlock.concealOther]
  refine (Hashes.bind (m := 0) (Hashes.bind (m := 0) (hashes_concealExcept b [p]) fun _ _ => Hashes.const fun _ _ => rfl)
    fun x _ => ?_).mono (by omega)
  obtain ⟨b', r⟩ := x
  cases r with
  | error _ => exact Hashes.const fun _ _ => rfl
  | ok _ => exact Hashes.const fun e' hd => by simp only [dbg, hd, collect_const _ _ e' hd]

private theorem takeBuoy_total {D limit : U5} : ∀ (l : List TreeNode) (s : Buoy) (x : List TreeNode × List TreeNode),
    takeBuoy D limit s l = .ok x → x.1.length + x.2.length = l.length := by
  intro l
  induction l with
  | nil => rintro s x ⟨⟩; rfl
  | cons a l ih =>
    intro s x h
    simp only [takeBuoy] at h
    cases hp : s.push (a.depthOr D) with
    | error _ => rw [hp] at h; cases h
    | ok y =>
      rw [hp, ok_bind] at h
      split at h
      · cases h; simp; omega
      · cases hr : takeBuoy D limit y.1 l with
        | error _ => rw [hr] at h; cases h
        | ok z =>
          rw [hr] at h; cases h
          have := ih _ _ hr
          simp only [List.length_cons]; omega

private theorem mergeLoop_total {D : U5} : ∀ (fuel : Nat) (a b x : List TreeNode),
    mergeLoop D fuel a b = .ok x → x.length ≤ a.length + b.length := by
  intro fuel
  induction fuel with
  | zero =>
    intro a b x h
    cases a <;> cases b <;> simp only [mergeLoop, Except.ok.injEq, reduceCtorEq] at h <;> subst h <;> simp
  | succ fuel ih =>
    intro a b x h
    cases a with
    | nil => cases b <;> simp only [mergeLoop, Except.ok.injEq] at h <;> subst h <;> simp
    | cons n1 a =>
      cases b with
      | nil => simp only [mergeLoop, Except.ok.injEq] at h; subst h; simp
      | cons n2 b =>
        simp only [mergeLoop] at h
        simp only [List.length_cons]
        split at h
        · have key : ∀ (n : TreeNode), (mergeLoop D fuel a b >>= fun r => Except.ok (n :: r)) = .ok x →
              x.length ≤ a.length + 1 + (b.length + 1) := by
            intro n h
            cases hr : mergeLoop D fuel a b with
            | error _ => rw [hr] at h; cases h
            | ok r =>
              rw [hr] at h; cases h
              have := ih _ _ _ hr
              simp only [List.length_cons]; omega
          split at h
          · exact key _ h
          · split at h
            · exact key _ h
            · exact key _ h
            · have := ih _ _ _ h; omega
            · cases h
        · split at h
          · cases ht : takeBuoy D (n1.depthOr D) (Buoy.new (n2.depthOr D)) b with
            | error _ => rw [ht] at h; cases h
            | ok y =>
              rw [ht, ok_bind] at h
              have h1 := takeBuoy_total _ _ _ ht
              cases hr : mergeLoop D fuel a y.2 with
              | error _ => rw [hr] at h; cases h
              | ok r =>
                rw [hr] at h; cases h
                have := ih _ _ _ hr
                simp only [List.length_cons, List.length_append]; omega
          · cases ht : takeBuoy D (n2.depthOr D) (Buoy.new (n1.depthOr D)) a with
            | error _ => rw [ht] at h; cases h
            | ok y =>
              rw [ht, ok_bind] at h
              have h1 := takeBuoy_total _ _ _ ht
              cases hr : mergeLoop D fuel y.2 b with
              | error _ => rw [hr] at h; cases h
              | ok r =>
                rw [hr] at h; cases h
                have := ih _ _ _ hr
                simp only [List.length_cons, List.length_append]; omega

private theorem sum_const {e : Env} {D : U5} : ∀ (cs : List TreeNode) (acc : Nat) (e' : Env),
    e'.debug = e.debug → @sumWidths e' D cs acc = @sumWidths e D cs acc := by
  intro cs
  induction cs with
  | nil => intro acc e' _; rfl
  | cons a cs ih =>
    intro acc e' hd
    simp only [sumWidths, dbg, hd]
    cases u8Sub e.debug D.val (a.depthOr D).val with
    | error _ => rfl
    | ok h =>
      rw [ok_bind, ok_bind]
      cases u32Pow2 e.debug h with
      | error _ => rfl
      | ok p =>
        rw [ok_bind, ok_bind]
        cases u32Add e.debug acc p with
        | error _ => rfl
        | ok r => exact ih r e' hd

theorem hashes_mergeReveal {δ : Bool} (b o : MerkleBlock) :
    Hashes δ (4 * (b.crossSection.length + o.crossSection.length)) fun e' => @MerkleBlock.mergeReveal e' b o := by
  simp only [MerkleBlock.mergeReveal]
  refine ((hashes_commitId b).bind (m := 2 * o.crossSection.length +
    (2 * (b.crossSection.length + o.crossSection.length))) fun x _ => (hashes_commitId o).bind fun y _ => ?_).mono (by omega)
  split
  · exact (Hashes.const fun _ _ => rfl).mono (Nat.zero_le _)
  · rw [← Nat.zero_add (2 * _)]
    refine (Hashes.const fun _ _ => rfl).bind fun cs hcs => ?_
    rw [← Nat.zero_add (2 * _)]
    refine (Hashes.const fun _ _ => rfl).bind fun cs' hcs' => ?_
    obtain ⟨_, -, hcs⟩ := hcs
    obtain ⟨_, -, hcs'⟩ := hcs'
    have hlen := mergeLoop_total _ _ _ _ hcs
    unfold nonEmptyVec at hcs'
    split at hcs' <;> cases hcs'
    rw [← Nat.zero_add (2 * _)]
    refine (Hashes.const fun e' hd => sum_const _ _ e' hd).bind fun sum _ => ?_
    rw [← Nat.zero_add (2 * _)]
    refine (Hashes.const fun _ _ => rfl).bind fun _ _ => ?_
    refine (Hashes.bind (m := 0) (hashes_commitId { b with crossSection := cs }) fun r _ => ?_).mono
      (show 2 * cs.length + 0 ≤ _ by omega)
    exact Hashes.const fun _ _ => rfl

theorem hashes_intoKnownProofs {δ : Bool} (b : MerkleBlock) :
    Hashes δ (b.knownProtocolIds.length * (2 * b.crossSection.length - 1)) fun e' =>
      @MerkleBlock.intoKnownProofs e' b := by
  simp only [MerkleBlock.intoKnownProofs]
  generalize b.knownProtocolIds = ids
  induction ids with
  | nil => exact (Hashes.const fun _ _ => rfl).mono (Nat.zero_le _)
  | cons p ids ih =>
    simp only [List.mapM_cons]
    refine Hashes.mono (n := (2 * b.crossSection.length - 1 + 0) +
      (ids.length * (2 * b.crossSection.length - 1) + 0)) ?_ (by simp only [List.length_cons, Nat.succ_mul]; omega)
    refine Hashes.bind ((hashes_toMerkleProof b p).bind fun r _ => ?_) fun x _ => ih.bind fun y _ => ?_
    · cases r <;> exact Hashes.const fun _ _ => rfl
    · exact Hashes.const fun _ _ => rfl

private theorem withLoop_total : ∀ (path : List MerkleHash) (d pos w : Nat) (dir rev : List TreeNode)
    (x : List TreeNode × List TreeNode), withLoop path d pos w dir rev = .ok x →
    x.1.length + x.2.length = path.length + dir.length + rev.length := by
  intro path
  induction path with
  | nil => rintro d pos w dir rev x ⟨⟩; simp
  | cons h path ih =>
    intro d pos w dir rev x hx
    simp only [withLoop] at hx
    cases h1 : u5With (d % 256) with
    | error _ => rw [h1] at hx; cases hx
    | ok y =>
      rw [h1, ok_bind] at hx
      cases h2 : u5Add y 1 with
      | error _ => rw [h2] at hx; cases hx
      | ok z =>
        rw [h2, ok_bind] at hx
        split at hx <;>
        · have := ih _ _ _ _ _ _ hx
          simp only [List.length_cons, List.length_append, List.length_nil] at this ⊢
          omega

theorem with_total {pr : MerkleProof} {p : ProtocolId} {m : Message} {b : MerkleBlock}
    (h : MerkleBlock.with pr p m = .ok (.ok b)) : b.crossSection.length = pr.path.length + 1 := by
  simp only [MerkleBlock.with] at h
  cases h1 : pr.widthLimit with
  | error _ => rw [h1] at h; cases h
  | ok w =>
    rw [h1, ok_bind] at h
    cases h2 : pr.depth with
    | error _ => rw [h2] at h; cases h
    | ok d =>
      rw [h2, ok_bind] at h
      split at h
      · cases h
      · cases h3 : withLoop pr.path 0 pr.pos.toNat w [] [] with
        | error _ => rw [h3] at h; cases h
        | ok x =>
          rw [h3, ok_bind] at h
          have ht := withLoop_total _ _ _ _ _ _ _ h3
          unfold nonEmptyVec at h
          split at h
          · rw [ok_bind] at h
            cases h4 : u5With (pr.path.length % 256) with
            | error _ => rw [h4] at h; cases h
            | ok y =>
              rw [h4] at h
              cases h
              simp only [List.length_append, List.length_cons, List.length_nil, List.length_reverse] at ht ⊢
              omega
          · cases h

/-- An inner node. -/
private theorem hashes_branch {δ : Bool} {w d n m : Nat} {l r : Env → MerkleHash}
    (hl : Hashes δ n fun e' => (Except.ok (l e') : Exec MerkleHash))
    (hr : Hashes δ m fun e' => (Except.ok (r e') : Exec MerkleHash)) :
    Hashes δ (n + m + 1) fun e' => (Except.ok (@branchHash e' d w (l e') (r e')) : Exec MerkleHash) := by
  refine ((hl.bind fun x _ => hr.bind fun y _ => (Hashes.merkleTagged (δ := δ)
    (MerkleNode.enc ⟨.branch, UInt8.ofNat d, BitVec.ofNat 256 w, x, y⟩)).map (Except.ok (ε := Panic))).congr
      fun e' => rfl).mono (by omega)

/-- A commitment. -/
private theorem hashes_commitment {δ : Bool} {D : U5} {c : UInt16} {n : Nat} {r : Env → MerkleHash}
    (hr : Hashes δ n fun e' => (Except.ok (r e') : Exec MerkleHash)) :
    Hashes δ (n + 1) fun e' => (Except.ok (@commitmentHash e' ⟨D, c, r e'⟩) : Exec Commitment) :=
  (hr.bind fun x _ => (Hashes.mpcTagged (δ := δ) (MerkleConcealed.enc ⟨D, c, x⟩)).map (Except.ok (ε := Panic))).congr
    fun _ => rfl

private theorem hashes_path {δ : Bool} {w : Nat} {p : ProtocolId} {m : Message} :
    ∀ (path : List MerkleHash) (pos d : Nat), Hashes δ (path.length + 1) fun e' =>
      (Except.ok (@PT.root e' w (PT.path p m pos path) d) : Exec MerkleHash) := by
  intro path
  induction path with
  | nil => intro pos d; exact (Hashes.merkleTagged (δ := δ) (Leaf.inhabited p m).enc).map Except.ok
  | cons h rest ih =>
    intro pos d
    have h0 : Hashes δ 0 fun _ => (Except.ok h : Exec MerkleHash) := Hashes.const fun _ _ => rfl
    simp only [PT.path]
    split
    · exact (hashes_branch h0 (ih _ (d + 1))).mono (by simp)
    · exact (hashes_branch (ih _ (d + 1)) h0).mono (by simp)

theorem hashes_convolve {δ : Bool} (pr : MerkleProof) (hl : pr.path.length ≤ 32) (p : ProtocolId) (m : Message) :
    Hashes δ (pr.path.length + 2) fun e' => @MerkleProof.convolve e' pr p m := by
  by_cases h32 : pr.path.length = 32
  · exact ((Hashes.const (f := fun _ => .error .overflow) fun _ _ => rfl).congr fun e' =>
      @convolve_panic e' pr p m h32).mono (Nat.zero_le _)
  · have hlt : pr.path.length < 32 := by omega
    refine Hashes.congr ?_ fun e' => @convolve_eq e' pr p m hlt
    split
    · exact (Hashes.const fun _ _ => rfl).mono (Nat.zero_le _)
    · exact (hashes_commitment (D := toU5 pr.path.length) (c := pr.cofactor)
        (hashes_path (p := p) (m := m) pr.path pr.pos.toNat 0)).map
          fun x => x >>= fun y => (Except.ok (Except.ok y) : Exec (Except InvalidProof Commitment))

private theorem hashes_full {δ : Bool} {w : Nat} {f : Env → Nat → PT}
    (hf : ∀ i d, Hashes δ 1 fun e' => (Except.ok (@PT.root e' w (f e' i) d) : Exec MerkleHash)) : ∀ (n lo d : Nat),
    Hashes δ (2 ^ (n + 1) - 1) fun e' =>
      (Except.ok (@PT.root e' w (PT.full (f e') n lo) d) : Exec MerkleHash) := by
  intro n
  induction n with
  | zero => intro lo d; exact hf lo d
  | succ n ih =>
    intro lo d
    refine (hashes_branch (ih lo (d + 1)) (ih (lo + 2 ^ n) (d + 1))).mono ?_
    have := Nat.two_pow_pos (n + 1)
    rw [Nat.pow_succ 2 (n + 1)]
    omega

private theorem hashes_slot {δ : Bool} (T : MerkleTree) (w i d : Nat) :
    Hashes δ 1 fun e' => (Except.ok (@PT.root e' w (@MerkleTree.slot e' T i) d) : Exec MerkleHash) :=
  ((Hashes.merkleTagged (δ := δ) (T.leafAt i).enc).map Except.ok).congr fun e' =>
    congrArg Except.ok (@slot_root e' T w i d)

theorem hashes_tree_root {δ : Bool} (T : MerkleTree) :
    Hashes δ (2 ^ (T.depth.val + 1) - 1) fun e' => @MerkleTree.root e' T :=
  (hashes_full (fun i d => hashes_slot T _ i d) T.depth.val 0 0).congr fun e' => @tree_root e' T

theorem hashes_tree_commitId {δ : Bool} (T : MerkleTree) :
    Hashes δ (2 ^ (T.depth.val + 1)) fun e' => @MerkleTree.commitId e' T := by
  refine ((hashes_commitment (D := T.depth) (c := T.cofactor)
    (hashes_full (fun i d => hashes_slot T _ i d) T.depth.val 0 0)).congr fun e' => @tree_commitId e' T).mono ?_
  have := Nat.two_pow_pos (T.depth.val + 1)
  omega

theorem hashes_mergeRevealPath {δ : Bool} (b : MerkleBlock) (pr : MerkleProof) (p : ProtocolId) (m : Message) :
    Hashes δ (4 * (b.crossSection.length + (pr.path.length + 1))) fun e' =>
      @MerkleBlock.mergeRevealPath e' b pr p m := by
  simp only [MerkleBlock.mergeRevealPath]
  rw [← Nat.zero_add (4 * _)]
  refine (Hashes.const fun _ _ => rfl).bind fun r hr => ?_
  cases r with
  | error _ => exact (Hashes.const fun _ _ => rfl).mono (Nat.zero_le _)
  | ok o =>
    obtain ⟨_, -, hr⟩ := hr
    rw [← with_total hr]
    exact hashes_mergeReveal b o

end CSV
