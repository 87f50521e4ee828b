import Verif.Prelude.Bytes

/-!
# `BTreeMap` and `BTreeSet`

Association lists kept strictly ascending by key. The order of keys is given by an injective
map to the naturals: for unsigned integers the value, for byte arrays (compared
lexicographically by Rust) the big-endian number.
-/

namespace CSV

/-- Key types of ordered maps. -/
class OrdKey (κ : Type) where
  /-- position in the order -/
  key : κ → Nat
  /-- the order is total and antisymmetric -/
  inj : ∀ {a b}, key a = key b → a = b

instance : OrdKey Nat := ⟨id, id⟩
instance : OrdKey U5 := ⟨Fin.val, Fin.ext⟩
instance : OrdKey UInt32 := ⟨UInt32.toNat, UInt32.toNat_inj.mp⟩

theorem beNat_inj {a b : Bytes} (hl : a.length = b.length) (h : beNat a = beNat b) : a = b := by
  have := leNat_inj (a := a.reverse) (b := b.reverse) (by simpa using hl) h
  exact List.reverse_inj.mp this

instance : OrdKey Bytes32 :=
  ⟨fun b => beNat b.bytes, fun {a b} h => Bytes32.ext' (beNat_inj (by rw [a.len, b.len]) h)⟩

open OrdKey

/-- `BTreeMap::insert`. -/
def bmapInsert {κ α : Type} [OrdKey κ] (k : κ) (v : α) : List (κ × α) → List (κ × α)
  | [] => [(k, v)]
  | (k', v') :: m =>
    if key k < key k' then (k, v) :: (k', v') :: m
    else if key k = key k' then (k, v) :: m
    else (k', v') :: bmapInsert k v m

/-- `BTreeMap::get`. -/
def bmapGet {κ α : Type} [OrdKey κ] (k : κ) : List (κ × α) → Option α
  | [] => none
  | (k', v') :: m => if key k = key k' then some v' else bmapGet k m

/-- `BTreeSet::insert`. -/
def bsetInsert {κ : Type} [OrdKey κ] (k : κ) : List κ → List κ
  | [] => [k]
  | k' :: m =>
    if key k < key k' then k :: k' :: m
    else if key k = key k' then k' :: m
    else k' :: bsetInsert k m

/-- `BTreeSet::remove`. -/
def bsetRemove {κ : Type} [OrdKey κ] (k : κ) : List κ → List κ
  | [] => []
  | k' :: m => if key k = key k' then m else k' :: bsetRemove k m

/-- Strictly ascending keys: the representation invariant of `BTreeMap`. -/
def BMapOk {κ α : Type} [OrdKey κ] (m : List (κ × α)) : Prop :=
  m.Pairwise fun a b => key a.1 < key b.1

/-- Strictly ascending: the representation invariant of `BTreeSet`. -/
def BSetOk {κ : Type} [OrdKey κ] (m : List κ) : Prop :=
  m.Pairwise fun a b => key a < key b

instance {κ α : Type} [OrdKey κ] (m : List (κ × α)) : Decidable (BMapOk m) :=
  inferInstanceAs (Decidable (m.Pairwise _))

/-- `Confined<BTreeMap<κ, α>, 0, max>` (amplify): an ordered map of at most `max` entries. -/
structure OrdMap (κ α : Type) [OrdKey κ] (max : Nat) where
  /-- entries in the order of iteration -/
  entries : List (κ × α)
  /-- keys are strictly ascending -/
  sorted : BMapOk entries
  /-- confinement -/
  bound : entries.length ≤ max

@[ext] theorem OrdMap.ext' {κ α : Type} [OrdKey κ] {max : Nat} {a b : OrdMap κ α max}
    (h : a.entries = b.entries) : a = b := by
  cases a; cases b; simp_all

instance {κ α : Type} [OrdKey κ] {max : Nat} [DecidableEq κ] [DecidableEq α] :
    DecidableEq (OrdMap κ α max) := fun a b =>
  decidable_of_iff (a.entries = b.entries) ⟨OrdMap.ext', fun h => h ▸ rfl⟩

/-- `BTreeMap::get` on a confined map. -/
def OrdMap.get {κ α : Type} [OrdKey κ] {max : Nat} (m : OrdMap κ α max) (k : κ) : Option α :=
  bmapGet k m.entries

/-- `Confined::try_from(map)`: `none` if the map has more than `max` entries. (The order is an
invariant of `BTreeMap`; it is checked here only to obtain the proof.) -/
def OrdMap.tryFrom {κ α : Type} [OrdKey κ] (max : Nat) (l : List (κ × α)) :
    Option (OrdMap κ α max) :=
  if h : BMapOk l ∧ l.length ≤ max then some ⟨l, h.1, h.2⟩ else none

/-- Collecting an iterator into a `BTreeMap`: later entries replace earlier ones. -/
def bmapOfList {κ α : Type} [OrdKey κ] (l : List (κ × α)) : List (κ × α) :=
  l.foldl (fun m e => bmapInsert e.1 e.2 m) []

/-- Collecting an iterator into a `BTreeSet`. -/
def bsetOfList {κ : Type} [OrdKey κ] (l : List κ) : List κ :=
  l.foldl (fun m e => bsetInsert e m) []

end CSV
