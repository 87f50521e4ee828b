import Verif.Proofs.Suites
import Verif.Spec.Proof
import Verif.Props.Engine
import Verif.Props.Schemes

/-!
# C106: what the test suites for commitment schemes show, and for which schemes they never fail

The suites check, for a sample of messages, that commitments are unique and are verified with the message and
with no other. Below: the exact meaning of a passed run, the schemes which pass every run, and that the two schemes
of the tests are among them.
-/

namespace CSV

open Suites

section Embed
variable {Msg Container Proof E : Type} [DecidableEq Msg] [DecidableEq Container]
  (s : EmbedScheme Msg Container Proof E) (K : Container)

/-- **C106** A run of the embed suite passes exactly if every message can be embedded, is verified with its
commitment and proof and is the only message of the list that is, and if commitments of different positions in the
list differ and an earlier one is not verified with a later message and its proof. -/
theorem C106_embed_suite (l : List Msg) :
    s.suite l K = .ok () ↔
      (∀ m ∈ l, ∃ c p, s.embedCommit K m = (c, .ok p) ∧ ∀ m' ∈ l, (s.verify c m' p = .ok () ↔ m' = m)) ∧
      l.Pairwise (fun a b => ∀ ca pa cb pb, s.embedCommit K a = (ca, .ok pa) → s.embedCommit K b = (cb, .ok pb) →
        ca ≠ cb ∧ s.verify ca b pb ≠ .ok ()) := by
  unfold EmbedScheme.suite
  rw [bind_unit_ok, fold_ok (embedded s K) (fun c m p => s.verify c m p = .ok ()) l _
    (embed_step s l K) l (fun _ h => h) []]
  simp [embedded_some]

/-- **C106** No list with a repeated message passes. -/
theorem C106_embed_nodup (l : List Msg) (h : s.suite l K = .ok ()) : l.Nodup := by
  obtain ⟨h1, h2⟩ := (C106_embed_suite s K l).1 h
  refine List.Pairwise.imp_of_mem (fun {a b} ha _ hab e => ?_) h2
  subst e
  obtain ⟨c, p, g, -⟩ := h1 _ ha
  exact (hab _ _ _ _ g g).1 rfl

/-- **C106** The suite passes on all lists without repetition exactly if every message can be embedded, its
commitment and proof are verified with it and with no other message, and for two different messages the commitments
differ and the one is not verified with the other message and its proof. -/
theorem C106_embed_always :
    (∀ l : List Msg, l.Nodup → s.suite l K = .ok ()) ↔
      (∀ m, ∃ c p, s.embedCommit K m = (c, .ok p) ∧ ∀ m', (s.verify c m' p = .ok () ↔ m' = m)) ∧
      (∀ a b ca pa cb pb, a ≠ b → s.embedCommit K a = (ca, .ok pa) → s.embedCommit K b = (cb, .ok pb) →
        ca ≠ cb ∧ s.verify ca b pb ≠ .ok ()) := by
  constructor
  · intro h
    constructor
    · intro m
      obtain ⟨c, p, g, -⟩ := ((C106_embed_suite s K [m]).1 (h [m] (by simp))).1 m (by simp)
      refine ⟨c, p, g, fun m' => ?_⟩
      by_cases e : m' = m
      · subst e
        obtain ⟨c', p', g', k⟩ := ((C106_embed_suite s K [m']).1 (h [m'] (by simp))).1 m' (by simp)
        rw [g] at g'
        cases g'
        exact k m' (by simp)
      · obtain ⟨c', p', g', k⟩ := ((C106_embed_suite s K [m, m']).1 (h _ (by simp [Ne.symm e]))).1 m (by simp)
        rw [g] at g'
        cases g'
        exact k m' (by simp)
    · intro a b ca pa cb pb hne ha hb
      have := ((C106_embed_suite s K [a, b]).1 (h _ (by simp [hne]))).2
      simp only [List.pairwise_cons] at this
      exact this.1 b (by simp) ca pa cb pb ha hb
  · rintro ⟨h1, h2⟩ l hl
    refine (C106_embed_suite s K l).2 ⟨fun m _ => ?_, ?_⟩
    · obtain ⟨c, p, g, k⟩ := h1 m
      exact ⟨c, p, g, fun m' _ => k m'⟩
    · exact List.Pairwise.imp (fun {a b} hab ca pa cb pb => h2 a b ca pa cb pb hab) hl

/-- **C106** A scheme passes every run on messages without repetition if it compares by equality, can embed the
messages, gives different containers for different messages, and its proofs restore the container embedded into from
any of the containers made of it. -/
theorem C106_embed_sufficient (hp : ∀ p q, s.proofEq p q = true ↔ p = q) (hc : ∀ c d, s.containerEq c d = true ↔ c = d)
    (l : List Msg) (hl : l.Nodup) (hok : ∀ m ∈ l, ∃ c p, s.embedCommit K m = (c, .ok p))
    (hr : ∀ a ∈ l, ∀ b ∈ l, ∀ ca pa cb pb, s.embedCommit K a = (ca, .ok pa) → s.embedCommit K b = (cb, .ok pb) →
      s.restore pa cb = .ok K)
    (hi : ∀ a ∈ l, ∀ b ∈ l, ∀ ca pa cb pb, s.embedCommit K a = (ca, .ok pa) → s.embedCommit K b = (cb, .ok pb) →
      ca = cb → a = b) :
    s.suite l K = .ok () := by
  have key : ∀ a ∈ l, ∀ b ∈ l, ∀ m ∈ l, ∀ ca pa cb pb, s.embedCommit K a = (ca, .ok pa) →
      s.embedCommit K b = (cb, .ok pb) → s.verify cb m pa = .ok () → m = b := by
    intro a ha b hb m hm ca pa cb pb ga gb hv
    obtain ⟨orig, c', p', e1, e2, -, e4⟩ := (C44_embed_verify_ok s cb m pa).1 hv
    rw [hr a ha b hb _ _ _ _ ga gb] at e1
    cases e1
    exact (hi b hb m hm _ _ _ _ gb e2 ((hc _ _).1 e4)).symm
  refine (C106_embed_suite s K l).2 ⟨fun m hm => ?_, ?_⟩
  · obtain ⟨c, p, g⟩ := hok m hm
    refine ⟨c, p, g, fun m' hm' => ⟨fun hv => key m hm m hm m' hm' _ _ _ _ g g hv, ?_⟩⟩
    rintro rfl
    exact C44_embed_complete s K c _ p g (hr _ hm _ hm _ _ _ _ g g) (fun p => (hp p p).2 rfl) (fun c => (hc c c).2 rfl)
  · refine List.Pairwise.imp_of_mem (fun {a b} ha hb hab ca pa cb pb ga gb => ⟨?_, ?_⟩) hl
    · exact fun e => hab (hi a ha b hb _ _ _ _ ga gb e)
    · exact fun hv => hab (key b hb a ha b hb _ _ _ _ gb ga hv).symm

end Embed

section Convolve
variable {Msg Source Suppl Commitment Proof E : Type} [DecidableEq Msg] [DecidableEq Commitment]
  (s : ConvolveScheme Msg Source Suppl Commitment Proof E) (suppl : Suppl) (proof : Proof) (K : Source)

/-- **C106** A run of the convolve suite passes exactly if every message can be committed to, is verified with its
commitment and is the only message of the list that is, and if commitments of different positions in the list differ
and an earlier one is not verified with a later message. -/
theorem C106_convolve_suite (l : List Msg) :
    s.suite suppl proof l K = .ok () ↔
      (∀ m ∈ l, ∃ c p, s.convolveCommit K suppl m = .ok (c, p) ∧ ∀ m' ∈ l, (s.verify proof m' c = .ok () ↔ m' = m)) ∧
      l.Pairwise (fun a b => ∀ ca pa cb pb, s.convolveCommit K suppl a = .ok (ca, pa) →
        s.convolveCommit K suppl b = .ok (cb, pb) → ca ≠ cb ∧ s.verify proof b ca ≠ .ok ()) := by
  unfold ConvolveScheme.suite
  rw [bind_unit_ok, fold_ok (convolved s K suppl) (fun c m _ => s.verify proof m c = .ok ()) l _
    (convolve_step s suppl proof l K) l (fun _ h => h) []]
  simp [convolved_some]

/-- **C106** No list with a repeated message passes. -/
theorem C106_convolve_nodup (l : List Msg) (h : s.suite suppl proof l K = .ok ()) : l.Nodup := by
  obtain ⟨h1, h2⟩ := (C106_convolve_suite s suppl proof K l).1 h
  refine List.Pairwise.imp_of_mem (fun {a b} ha _ hab e => ?_) h2
  subst e
  obtain ⟨c, p, g, -⟩ := h1 _ ha
  exact (hab _ _ _ _ g g).1 rfl

/-- **C106** For a convolve scheme that compares by equality, and whose proof stands for the supplement (with it,
verification repeats what was done with the container, and the same proof is made again), a run passes exactly if the
list has no repetition, every message can be committed to, and the commitments differ. -/
theorem C106_convolve_exact (hp : ∀ p q, s.proofEq p q = true ↔ p = q)
    (hc : ∀ c d, s.commitmentEq c d = true ↔ c = d)
    (hs : ∀ c m, s.convolveCommit (s.restoreOriginal proof c) (s.extractSupplement proof) m =
      s.convolveCommit K suppl m)
    (hsame : ∀ m c p, s.convolveCommit K suppl m = .ok (c, p) → p = proof) (l : List Msg) :
    s.suite suppl proof l K = .ok () ↔
      l.Nodup ∧ (∀ m ∈ l, ∃ c p, s.convolveCommit K suppl m = .ok (c, p)) ∧
      (∀ a ∈ l, ∀ b ∈ l, ∀ ca pa cb pb, s.convolveCommit K suppl a = .ok (ca, pa) →
        s.convolveCommit K suppl b = .ok (cb, pb) → ca = cb → a = b) := by
  have hv : ∀ m c cm pm, s.convolveCommit K suppl m = .ok (cm, pm) → (s.verify proof m c = .ok () ↔ c = cm) := by
    intro m c cm pm h
    have hpm := hsame m cm pm h
    subst hpm
    unfold ConvolveScheme.verify
    rw [hs c m, h]
    simp only [(hp pm pm).2 rfl, Bool.not_true, Bool.false_eq_true, if_false]
    by_cases e : c = cm
    · subst e
      simp [(hc c c).2 rfl]
    · have : s.commitmentEq c cm = false := by
        rw [← Bool.not_eq_true, hc]
        exact e
      simp [this, e]
  constructor
  · intro h
    obtain ⟨h1, h2⟩ := (C106_convolve_suite s suppl proof K l).1 h
    refine ⟨C106_convolve_nodup s suppl proof K l h, fun m hm => ?_, fun a ha b hb ca pa cb pb ga gb e => ?_⟩
    · obtain ⟨c, p, g, -⟩ := h1 m hm
      exact ⟨c, p, g⟩
    · obtain ⟨c', p', g', k⟩ := h1 b hb
      rw [gb] at g'
      cases g'
      exact (k a ha).1 ((hv a cb ca pa ga).2 e.symm)
  · rintro ⟨h1, h2, h3⟩
    refine (C106_convolve_suite s suppl proof K l).2 ⟨fun m hm => ?_, ?_⟩
    · obtain ⟨c, p, g⟩ := h2 m hm
      refine ⟨c, p, g, fun m' hm' => ?_⟩
      obtain ⟨c', p', g'⟩ := h2 m' hm'
      rw [hv m' c c' p' g']
      constructor
      · exact fun e => (h3 m hm m' hm' _ _ _ _ g g' e).symm
      · rintro rfl
        rw [g] at g'
        cases g'
        rfl
    · refine List.Pairwise.imp_of_mem (fun {a b} ha hb hab ca pa cb pb ga gb => ?_) h1
      have : ca ≠ cb := fun e => hab (h3 a ha b hb _ _ _ _ ga gb e)
      exact ⟨this, fun e => this ((hv b ca cb pb gb).1 e)⟩

end Convolve

/-- **C106** The embed scheme of the tests passes exactly the runs on lists without repetition whose messages fit into
the container. -/
theorem C106_dummy_embed (K : Bytes) (l : List Bytes) :
    dummyEmbed.suite l K = .ok () ↔ l.Nodup ∧ ∀ m ∈ l, K.length + m.length ≤ 65535 := by
  have hemb : ∀ m c p, dummyEmbed.embedCommit K m = (c, .ok p) ↔
      K.length + m.length ≤ 65535 ∧ c = K ++ m ∧ p = K := by
    intro m c p
    simp only [dummyEmbed]
    split
    · rename_i h
      simp only [h, true_and, Prod.mk.injEq, Except.ok.injEq]
      exact ⟨fun ⟨a, b⟩ => ⟨a.symm, b.symm⟩, fun ⟨a, b⟩ => ⟨a.symm, b.symm⟩⟩
    · rename_i h
      simp [h]
  constructor
  · intro h
    refine ⟨C106_embed_nodup _ _ _ h, fun m hm => ?_⟩
    obtain ⟨c, p, g, -⟩ := ((C106_embed_suite _ _ _).1 h).1 m hm
    exact ((hemb m c p).1 g).1
  · rintro ⟨h1, h2⟩
    refine C106_embed_sufficient dummyEmbed K (by simp [dummyEmbed]) (by simp [dummyEmbed]) l h1
      (fun m hm => ⟨_, _, (hemb m _ _).2 ⟨h2 m hm, rfl, rfl⟩⟩) ?_ ?_
    · intro a _ b _ ca pa cb pb ga gb
      rw [((hemb _ _ _).1 ga).2.2]
      rfl
    · intro a _ b _ ca pa cb pb ga gb e
      rw [((hemb _ _ _).1 ga).2.1, ((hemb _ _ _).1 gb).2.1] at e
      exact List.append_cancel_left e

/-- The bytes hashed by the convolve scheme of the tests. -/
def dummyInput (suppl : Bytes32) (m : Bytes) : Bytes := suppl.bytes ++ leBytes m.length 4 ++ m

/-- **C106** The convolve scheme of the tests passes exactly the runs on lists without repetition for which SHA256
does not collide on the strings hashed (messages of less than 2^32 bytes). -/
theorem C106_dummy_convolve [Env] (suppl : Bytes32) (K : Bytes) (l : List Bytes) (hl : ∀ m ∈ l, m.length < 2 ^ 32) :
    dummyConvolve.suite suppl suppl l K = .ok () ↔ l.Nodup ∧ NoCollision (l.map (dummyInput suppl)) := by
  have hcomm : ∀ m : Bytes, m.length < 2 ^ 32 →
      dummyConvolve.convolveCommit K suppl m = .ok (sha (dummyInput suppl m), suppl) := by
    intro m hm
    have e : Hasher.inputWithLen 0xFFFFFFFF (Hasher.inputRaw [] suppl.bytes) m = .ok (dummyInput suppl m) := by
      simp only [Hasher.inputWithLen, Hasher.inputRaw, dummyInput, List.nil_append, Nat.mod_eq_of_lt hm]
      simp
    simp only [dummyConvolve]
    rw [e]
    rfl
  have hsame : ∀ m c p, dummyConvolve.convolveCommit K suppl m = .ok (c, p) → p = suppl := by
    intro m c p h
    simp only [dummyConvolve, bind, Except.bind] at h
    split at h
    · cases h
    · cases h
      rfl
  rw [C106_convolve_exact dummyConvolve suppl suppl K (by simp [dummyConvolve]) (by simp [dummyConvolve])
    (fun _ _ => rfl) hsame l]
  constructor
  · rintro ⟨h1, -, h3⟩
    refine ⟨h1, ?_⟩
    intro x hx y hy e
    obtain ⟨a, ha, rfl⟩ := List.mem_map.1 hx
    obtain ⟨b, hb, rfl⟩ := List.mem_map.1 hy
    rw [h3 a ha b hb _ _ _ _ (hcomm a (hl a ha)) (hcomm b (hl b hb)) e]
  · rintro ⟨h1, h2⟩
    refine ⟨h1, fun m hm => ⟨_, _, hcomm m (hl m hm)⟩, fun a ha b hb ca pa cb pb ga gb e => ?_⟩
    rw [hcomm a (hl a ha)] at ga
    rw [hcomm b (hl b hb)] at gb
    cases ga
    cases gb
    have e := h2 _ (List.mem_map_of_mem ha) _ (List.mem_map_of_mem hb) e
    unfold dummyInput at e
    rw [List.append_assoc, List.append_assoc] at e
    have e := List.append_cancel_left e
    exact (append_inj_len (by rw [leBytes_length, leBytes_length]) e).2

/-- **C106** The suites cannot see whether a scheme commits to its container: the convolve scheme of the tests makes
one and the same commitment in all containers, and passes. -/
theorem C106_container_unseen [Env] (K K' : Bytes) (suppl : Bytes32) (m : Bytes) :
    dummyConvolve.convolveCommit K suppl m = dummyConvolve.convolveCommit K' suppl m := rfl

/-- A scheme which forgets the message fails the suite on any two messages. -/
def forgetful : EmbedScheme Bytes Bytes Unit Unit where
  restore _ c := .ok c
  embedCommit c _ := (c, .ok ())
  containerEq a b := decide (a = b)
  proofEq _ _ := true

example : forgetful.suite [[1]] [7] = .ok () ∧ forgetful.suite [[1], [2]] [7] = .error .assert := ⟨rfl, rfl⟩

/-- The suite on messages as those of the tests, which are of different lengths and extend one another. -/
example : dummyEmbed.suite [[], [0], [0xde, 0xad], [0xde, 0xad, 0], [0, 0xde, 0xad]] [] = .ok () ∧
    dummyEmbed.suite [[1], [2], [1]] [] = .error .assert := ⟨rfl, rfl⟩

/-- A hash function that keeps the last byte only: messages with different last bytes pass, others do not. -/
example : letI : Env := ⟨fun x => Bytes32.fill (x.getLastD 0), true⟩
    dummyConvolve.suite (Bytes32.fill 0xFF) (Bytes32.fill 0xFF) [[1], [2]] [0xC0] = .ok () ∧
    dummyConvolve.suite (Bytes32.fill 0xFF) (Bytes32.fill 0xFF) [[1], [2, 1]] [0xC0] = .error .assert := ⟨rfl, rfl⟩

end CSV
