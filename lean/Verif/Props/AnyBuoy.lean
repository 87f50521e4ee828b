import Verif.Proofs.AnyBuoy

/-!
# Buoys for any type of depths (C28)

`MerkleBuoy` is public and generic: the depths may be of any type with equality, a default and subtraction.
-/

namespace CSV

open Literal

/-- **C28** For any type of depths: a buoy started with the depth of the first tip of a subtree and given the
depths of the others is below the root of the subtree until the last one, and then at it, with nothing
nested. -/
theorem C28_any_surfaces {D : Type} [DecidableEq D] [BuoyDepth D] (val : D → Nat) (hv : DepthLaws val)
    (t : Shape) (d x : D) (xs : List D) (h : t.depths (val d) = (x :: xs).map val) :
    (MerkleBuoy.new x).pushAll xs = .ok (MerkleBuoy.new d) ∧
    ∀ u v, xs = u ++ v → v ≠ [] →
      ∃ s, (MerkleBuoy.new x).pushAll u = .ok s ∧ val d < val s.level := by
  obtain ⟨h1, h2⟩ := pushL_tail t (val d) (val x) (xs.map val) h
  have hx : (MerkleBuoy.new x).levels val = [val x] := by simp [MerkleBuoy.new, MerkleBuoy.levels]
  refine ⟨?_, fun u v huv hne => ?_⟩
  · obtain ⟨s, h3, h4⟩ := pushAll_levels hv xs (MerkleBuoy.new x)
    rw [hx, h1] at h4
    rw [h3, levels_single hv h4]
  · obtain ⟨s, h3, h4⟩ := pushAll_levels hv u (MerkleBuoy.new x)
    refine ⟨s, h3, ?_⟩
    rw [← level_levels val s, h4, hx]
    refine h2 (u.map val) (v.map val) (by rw [huv, List.map_append]) ?_
    simpa using hne

/-- **C28** Nothing else surfaces: as long as the nodes seen do not exceed one tree, the buoy is at a level with
nothing nested exactly if the nodes are the tips of a subtree whose root is at this level. -/
theorem C28_any_exact {D : Type} [DecidableEq D] [BuoyDepth D] (val : D → Nat) (hv : DepthLaws val)
    (n : Nat) (d x : D) (xs : List D) (hn : ∀ y ∈ x :: xs, val y ≤ n)
    (hs : share n ((x :: xs).map val) ≤ 2 ^ n) :
    (MerkleBuoy.new x).pushAll xs = .ok (MerkleBuoy.new d) ↔
      ∃ t : Shape, t.depths (val d) = (x :: xs).map val := by
  refine ⟨fun h => ?_, fun ⟨t, h⟩ => (C28_any_surfaces val hv t d x xs h).1⟩
  obtain ⟨s, h3, h4⟩ := pushAll_levels hv xs (MerkleBuoy.new x)
  rw [h] at h3
  cases h3
  obtain ⟨fs, h5, h6, h7, -⟩ := pushL_tips n (xs.map val) [(.tip, val x)] (by simp) trivial
    (by simpa [tips, Shape.depths] using hn) (by simpa [tips, Shape.depths] using hs)
  simp only [MerkleBuoy.new, MerkleBuoy.levels] at h4
  rw [List.map_cons, List.map_nil, ← h4] at h6
  match fs, h6, h7 with
  | [(t, e)], h6, h7 =>
    simp only [List.map_cons, List.map_nil, List.cons.injEq, and_true] at h6
    refine ⟨t, ?_⟩
    rw [h6]
    simpa [tips, Shape.depths] using h7
  | [], h6, _ => simp at h6
  | _ :: _ :: _, h6, _ => simp at h6

/-- **C28** In between, the nodes seen are the tips of a row of subtrees in which no two neighbours could be
joined (they are at different depths), and the level is the depth of the last of them. -/
theorem C28_any_level {D : Type} [DecidableEq D] [BuoyDepth D] (val : D → Nat) (hv : DepthLaws val)
    (n : Nat) (x : D) (xs : List D) (hn : ∀ y ∈ x :: xs, val y ≤ n)
    (hs : share n ((x :: xs).map val) ≤ 2 ^ n) :
    ∃ s row t, (MerkleBuoy.new x).pushAll xs = .ok s ∧
      (row ++ [(t, val s.level)]).flatMap (fun f : Shape × Nat => f.1.depths f.2) = (x :: xs).map val ∧
      ∀ u f g v, row ++ [(t, val s.level)] = u ++ f :: g :: v → f.2 ≠ g.2 := by
  obtain ⟨s, h3, h4⟩ := pushAll_levels hv xs (MerkleBuoy.new x)
  obtain ⟨fs, h5, h6, h7, h8⟩ := pushL_tips n (xs.map val) [(.tip, val x)] (by simp) trivial
    (by simpa [tips, Shape.depths] using hn) (by simpa [tips, Shape.depths] using hs)
  have hx : (MerkleBuoy.new x).levels val = [val x] := by simp [MerkleBuoy.new, MerkleBuoy.levels]
  rw [List.map_cons, List.map_nil, ← hx, ← h4] at h6
  rw [apart_iff] at h8
  rw [tips_reverse] at h7
  cases fs with
  | nil => exact absurd rfl h5
  | cons f fs =>
    obtain ⟨t, d⟩ := f
    have hd : d = val s.level := by
      rw [← level_levels val s, h6]
      rfl
    subst hd
    refine ⟨s, fs.reverse, t, h3, ?_, fun u f g v h => h8 u f g v (by rw [List.reverse_cons, h])⟩
    rw [← List.reverse_cons, h7]
    simp [tips, Shape.depths]

/-- **C28** Pushing never panics, whatever the type of depths. -/
theorem C28_any_no_panic {D : Type} [DecidableEq D] [BuoyDepth D] (val : D → Nat) (hv : DepthLaws val)
    (s : MerkleBuoy D) (l : List D) : ∃ s', s.pushAll l = .ok s' := by
  obtain ⟨s', h, -⟩ := pushAll_levels hv l s
  exact ⟨s', h⟩

/-- The depths of blocks are numbers. -/
theorem u5_laws : DepthLaws (fun d : U5 => d.val) where
  inj _ _ h := Fin.ext h
  zero := rfl
  sub d h := by
    have h0 : d ≠ 0 := fun h' => h (by rw [h']; rfl)
    refine ⟨_, u5Sub_pos h0, ?_⟩
    rw [toU5_val (by omega)]
    omega

/-- So are bytes, in both build profiles. -/
theorem u8_laws [Env] : DepthLaws UInt8.toNat where
  inj a b h := UInt8.toNat_inj.1 h
  zero := rfl
  sub d h := by
    have hd := d.toNat_lt
    refine ⟨UInt8.ofNat (d.toNat - 1), ?_, ?_⟩
    · show (do let x ← u8Sub dbg d.toNat 1; .ok (UInt8.ofNat x) : Exec UInt8) = _
      rw [u8Sub, if_pos (by omega)]
      rfl
    · rw [UInt8.toNat_ofNat']
      omega

/-- Non-vacuity: the depths of the tips of a tree of bytes; and why the nodes must not exceed one tree: the
depths 2, 2, 1 after 3 are not those of a subtree, and yet the buoy is back where it began. -/
example [Env] : (MerkleBuoy.new (3 : UInt8)).pushAll [3, 2, 2, 3, 3] = .ok (MerkleBuoy.new 0) ∧
    share 3 [3, 3, 2, 2, 3, 3] = 2 ^ 3 ∧
    (MerkleBuoy.new (3 : U5)).pushAll [2, 2, 1] = .ok (MerkleBuoy.new 3) ∧
    share 3 [3, 2, 2, 1] > 2 ^ 3 :=
  ⟨(C28_any_surfaces UInt8.toNat u8_laws
      (.fork (.fork (.fork .tip .tip) .tip) (.fork .tip (.fork .tip .tip))) 0 3 [3, 2, 2, 3, 3] rfl).1,
    by decide, by
      simp [MerkleBuoy.new, MerkleBuoy.pushAll, MerkleBuoy.push, BuoyDepth.default, BuoyDepth.subOne,
        ok_bind, MerkleBuoy.level, u5Sub, u5With]
      , by decide⟩

end CSV
