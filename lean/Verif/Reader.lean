import Verif.Val

/-!
# Specification layer: what it means for a reader position to present a value

`Reader ρ` is the `Reader` concept of `include/zerialize/concepts.hpp` lines 68-118 as a record of
functions on reader positions `ρ`. `Agrees R r v` says, only in terms of these functions, that
position `r` presents the value `v`.
-/

namespace Zer

/-- The operations of the `ValueView`/`Reader` concepts. `mapKeys` is the list of keys a complete
range-for over `mapKeys()` yields (or the first exception on the way). `asBlob` returns the bytes;
their address matters only for tensors. -/
structure Reader (ρ : Type) where
  isNull : ρ → Res Bool
  isBool : ρ → Res Bool
  isInt : ρ → Res Bool
  isUInt : ρ → Res Bool
  isFloat : ρ → Res Bool
  isString : ρ → Res Bool
  isBlob : ρ → Res Bool
  isMap : ρ → Res Bool
  isArray : ρ → Res Bool
  asBool : ρ → Res Bool
  asInt64 : ρ → Res Int64
  asUInt64 : ρ → Res UInt64
  asDouble : ρ → Res UInt64
  asString : ρ → Res Bytes
  asStringView : ρ → Res Bytes
  asBlob : ρ → Res Bytes
  mapKeys : ρ → Res (List Bytes)
  contains : ρ → Bytes → Res Bool
  getKey : ρ → Bytes → Res ρ
  arraySize : ρ → Res Nat
  getIdx : ρ → Nat → Res ρ

/-- The value stored first under key `k`. -/
def firstVal (ms : List (Bytes × Val)) (k : Bytes) : Option Val :=
  match ms with
  | [] => none
  | (k', v) :: ms => if k' = k then some v else firstVal ms k

namespace Reader
variable {ρ : Type} (R : Reader ρ)

/-- All nine kind predicates return normally, with these answers; `num` is "isInt or isUInt". -/
def Shows (r : ρ) (nul boo num flt str blb mp ar : Bool) : Prop :=
  R.isNull r = .ok nul ∧ R.isBool r = .ok boo ∧
  (∃ i u, R.isInt r = .ok i ∧ R.isUInt r = .ok u ∧ (i || u) = num) ∧
  R.isFloat r = .ok flt ∧ R.isString r = .ok str ∧ R.isBlob r = .ok blb ∧
  R.isMap r = .ok mp ∧ R.isArray r = .ok ar

/-- The position presents the integer `z`: whichever of `isInt`/`isUInt` holds, the matching
accessor returns `z` exactly. -/
def ShowsInt (r : ρ) (z : Int) : Prop :=
  R.Shows r false false true false false false false false ∧
  (R.isInt r = .ok true → ∃ x, R.asInt64 r = .ok x ∧ x.toInt = z) ∧
  (R.isUInt r = .ok true → ∃ y, R.asUInt64 r = .ok y ∧ (y.toNat : Int) = z)

/-- Position `r` presents value `v`. With `strict`, signed and unsigned integers are told apart and
a blob is not also an array. -/
inductive AgreesW (strict : Prop) : ρ → Val → Prop where
  | null {r} : R.Shows r true false false false false false false false → AgreesW strict r .null
  | bool {r b} : R.Shows r false true false false false false false false →
      R.asBool r = .ok b → AgreesW strict r (.bool b)
  | int {r i} : R.ShowsInt r i.toInt →
      (strict → R.isInt r = .ok true ∧ R.isUInt r = .ok false) → AgreesW strict r (.int i)
  | uint {r n} : R.ShowsInt r (n.toNat : Int) →
      (strict → R.isInt r = .ok false ∧ R.isUInt r = .ok true) → AgreesW strict r (.uint n)
  | dbl {r d} : R.Shows r false false false true false false false false →
      R.asDouble r = .ok d → AgreesW strict r (.dbl d)
  | str {r s} : R.Shows r false false false false true false false false →
      R.asString r = .ok s → R.asStringView r = .ok s → AgreesW strict r (.str s)
  | blob {r s ar} : R.Shows r false false false false false true false ar →
      R.asBlob r = .ok s → (strict → ar = false) → AgreesW strict r (.blob s)
  | arr {r xs} (child : Nat → ρ) :
      R.Shows r false false false false false false false true →
      R.arraySize r = .ok xs.length →
      (∀ i, i < xs.length → R.getIdx r i = .ok (child i)) →
      (∀ i, xs.length ≤ i → R.getIdx r i = .err .deser) →
      (∀ i (h : i < xs.length), AgreesW strict (child i) xs[i]) →
      AgreesW strict r (.arr xs)
  | map {r} {ms : List (Bytes × Val)} (child : Bytes → ρ) :
      R.Shows r false false false false false false true false →
      R.mapKeys r = .ok (ms.map Prod.fst) →
      (∀ k, R.contains r k = .ok (decide (k ∈ ms.map Prod.fst))) →
      (∀ k, k ∈ ms.map Prod.fst → R.getKey r k = .ok (child k)) →
      (∀ k, k ∉ ms.map Prod.fst → R.getKey r k = .err .deser) →
      (∀ k v, firstVal ms k = some v → AgreesW strict (child k) v) →
      AgreesW strict r (.map ms)

/-- Position `r` presents value `v`, integers compared as numbers. -/
abbrev Agrees : ρ → Val → Prop := R.AgreesW False

/-- Position `r` presents exactly the value `v`. -/
abbrev AgreesStrictly : ρ → Val → Prop := R.AgreesW True

theorem AgreesW.weaken {R : Reader ρ} {p q : Prop} (hpq : q → p) {r : ρ} {v : Val}
    (h : R.AgreesW p r v) : R.AgreesW q r v := by
  induction h with
  | null h => exact .null h
  | bool h h' => exact .bool h h'
  | int h h' => exact .int h (fun k => h' (hpq k))
  | uint h h' => exact .uint h (fun k => h' (hpq k))
  | dbl h h' => exact .dbl h h'
  | str h h' h'' => exact .str h h' h''
  | blob h h' h'' => exact .blob h h' (fun k => h'' (hpq k))
  | arr c h1 h2 h3 h4 _ ih => exact .arr c h1 h2 h3 h4 ih
  | map c h1 h2 h3 h4 h5 _ ih => exact .map c h1 h2 h3 h4 h5 ih

end Reader

/-! ## Equality of values up to the kind of an integer -/

mutual
/-- Non-negative signed integers are renamed to unsigned ones; everything else stays. -/
def Val.canon : Val → Val
  | .null => .null
  | .bool b => .bool b
  | .int i => if 0 ≤ i.toInt then .uint i.toUInt64 else .int i
  | .uint n => .uint n
  | .dbl d => .dbl d
  | .str s => .str s
  | .blob s => .blob s
  | .arr xs => .arr (canonList xs)
  | .map ms => .map (canonEntries ms)
def Val.canonList : List Val → List Val
  | [] => []
  | x :: xs => x.canon :: canonList xs
def Val.canonEntries : List (Bytes × Val) → List (Bytes × Val)
  | [] => []
  | (k, v) :: ms => (k, v.canon) :: canonEntries ms
end

/-- Equal except that an integer may be held as signed or as unsigned. -/
def Val.Same (v w : Val) : Prop := v.canon = w.canon

theorem Val.canonList_eq (xs : List Val) : Val.canonList xs = xs.map Val.canon := by
  induction xs with
  | nil => rfl
  | cons x xs ih => simp [Val.canonList, ih]

theorem Val.canonEntries_eq (ms : List (Bytes × Val)) :
    Val.canonEntries ms = ms.map (fun m => (m.1, m.2.canon)) := by
  induction ms with
  | nil => rfl
  | cons m ms ih => cases m; simp [Val.canonEntries, ih]

/-! ## Maps with distinct keys -/

mutual
/-- No map inside the value repeats a key. -/
def Val.Distinct : Val → Prop
  | .arr xs => distinctList xs
  | .map ms => (ms.map Prod.fst).Nodup ∧ distinctEntries ms
  | _ => True
def Val.distinctList : List Val → Prop
  | [] => True
  | x :: xs => x.Distinct ∧ distinctList xs
def Val.distinctEntries : List (Bytes × Val) → Prop
  | [] => True
  | (_, v) :: ms => v.Distinct ∧ distinctEntries ms
end

theorem Val.distinctList_iff (xs : List Val) : Val.distinctList xs ↔ ∀ x ∈ xs, x.Distinct := by
  induction xs with
  | nil => simp [Val.distinctList]
  | cons x xs ih => simp [Val.distinctList, ih]

theorem Val.distinctEntries_iff (ms : List (Bytes × Val)) :
    Val.distinctEntries ms ↔ ∀ m ∈ ms, m.2.Distinct := by
  induction ms with
  | nil => simp [Val.distinctEntries]
  | cons m ms ih => cases m; simp [Val.distinctEntries, ih]

theorem firstVal_isSome {ms : List (Bytes × Val)} {k : Bytes} :
    k ∈ ms.map Prod.fst ↔ ∃ v, firstVal ms k = some v := by
  induction ms with
  | nil => simp [firstVal]
  | cons m ms ih =>
    obtain ⟨k', v⟩ := m
    by_cases h : k' = k
    · simp [firstVal, h]
    · have h' : ¬ k = k' := fun e => h e.symm
      simp only [List.map_cons, List.mem_cons, h', false_or, firstVal, if_neg h]
      exact ih

theorem firstVal_mem {ms : List (Bytes × Val)} {k : Bytes} {v : Val} (h : firstVal ms k = some v) :
    (k, v) ∈ ms := by
  induction ms with
  | nil => simp [firstVal] at h
  | cons m ms ih =>
    obtain ⟨k', v'⟩ := m
    simp only [firstVal] at h
    split at h
    · rename_i e; injection h with h; subst h; subst e; simp
    · exact List.mem_cons_of_mem _ (ih h)

theorem firstVal_of_nodup {ms : List (Bytes × Val)} {k : Bytes} {v : Val}
    (hn : (ms.map Prod.fst).Nodup) (h : (k, v) ∈ ms) : firstVal ms k = some v := by
  induction ms with
  | nil => simp at h
  | cons m ms ih =>
    obtain ⟨k', v'⟩ := m
    simp only [List.map_cons, List.nodup_cons] at hn
    rcases List.mem_cons.1 h with h | h
    · injection h with h1 h2; subst h1; subst h2; simp [firstVal]
    · have : k ∈ ms.map Prod.fst := List.mem_map_of_mem h
      have hne : ¬ k' = k := fun e => hn.1 (e ▸ this)
      simp [firstVal, hne, ih hn.2 h]

end Zer
