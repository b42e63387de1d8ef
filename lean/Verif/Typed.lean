import Verif.Narrow
import Verif.Props.Dyn
import Verif.Props.MsgPack
import Verif.Props.Cbor
import Verif.Props.Json
import Verif.Props.Flex

/-!
# Typed access

The accessors for the individual C++ types (`asInt8` to `asUInt64`, `asFloat`), paths of subscripts into a value, and what it
takes of a reader for a value to come back through the accessor of the type it was written with.
-/

namespace Zer.Typed

open Zer.Dyn

/-! ## Paths -/

/-- One subscript, `r[i]` or `r["key"]`. -/
inductive Step where
  | idx (i : Nat)
  | key (k : Bytes)

/-- The value a chain of subscripts leads to. -/
def valAt : Val → List Step → Option Val
  | v, [] => some v
  | .arr xs, .idx i :: p => match xs[i]? with
    | some x => valAt x p
    | none => none
  | .map ms, .key k :: p => match firstVal ms k with
    | some x => valAt x p
    | none => none
  | _, _ :: _ => none

/-- The position a chain of subscripts leads to. -/
def readAt {ρ : Type} (R : Reader ρ) : ρ → List Step → Res ρ
  | r, [] => .ok r
  | r, .idx i :: p => do let c ← R.getIdx r i; readAt R c p
  | r, .key k :: p => do let c ← R.getKey r k; readAt R c p

/-- Subscripts lead to positions that present what is there. -/
theorem readAt_agrees {ρ : Type} {R : Reader ρ} {q : Prop} {Q : ρ → Prop} (hi : ∀ {r i c}, Q r → R.getIdx r i = .ok c → Q c)
    (hk : ∀ {r k c}, Q r → R.getKey r k = .ok c → Q c) : ∀ {p : List Step} {r : ρ} {v u : Val}, Q r → R.AgreesW q r v →
    valAt v p = some u → ∃ c, readAt R r p = .ok c ∧ Q c ∧ R.AgreesW q c u
  | [], r, v, u, hQ, h, e => by
    have : v = u := by cases v <;> simpa [valAt] using e
    subst this
    exact ⟨r, rfl, hQ, h⟩
  | .idx i :: p, r, v, u, hQ, h, e => by
    cases v <;> simp only [valAt] at e <;> try cases e
    rename_i xs
    split at e
    · rename_i x hx
      obtain ⟨hl, rfl⟩ := List.getElem?_eq_some_iff.1 hx
      cases h with
      | arr child _ _ hg _ hc =>
        have g := hg i hl
        obtain ⟨c, h1, h2, h3⟩ := readAt_agrees hi hk (hi hQ g) (hc i hl) e
        exact ⟨c, by simp only [readAt, g, Res.ok_bind]; exact h1, h2, h3⟩
    · cases e
  | .key k :: p, r, v, u, hQ, h, e => by
    cases v <;> simp only [valAt] at e <;> try cases e
    rename_i ms
    split at e
    · rename_i x hx
      cases h with
      | map child _ _ _ hg _ hc =>
        have g := hg k (firstVal_isSome.2 ⟨x, hx⟩)
        obtain ⟨c, h1, h2, h3⟩ := readAt_agrees hi hk (hk hQ g) (hc k x hx) e
        exact ⟨c, by simp only [readAt, g, Res.ok_bind]; exact h1, h2, h3⟩
    · cases e

/-! ## Accessors -/

/-- A reader with its narrow integer accessors. -/
structure Acc (ρ : Type) extends Reader ρ where
  asIntN : Nat → ρ → Res Int
  asUIntN : Nat → ρ → Res Nat

/-- Widths of the standard integer types. -/
def Width (w : Nat) : Prop := w = 8 ∨ w = 16 ∨ w = 32 ∨ w = 64

/-- `asInt8` to `asInt64`. -/
def Acc.asSigned {ρ : Type} (A : Acc ρ) (w : Nat) (r : ρ) : Res Int :=
  if w = 64 then do let x ← A.asInt64 r; pure x.toInt else A.asIntN w r

/-- `asUInt8` to `asUInt64`. -/
def Acc.asUnsigned {ρ : Type} (A : Acc ρ) (w : Nat) (r : ρ) : Res Nat :=
  if w = 64 then do let x ← A.asUInt64 r; pure x.toNat else A.asUIntN w r

/-- `asFloat`: `static_cast<float>(asDouble())`, zera.hpp:269, msgpack.hpp:345-347, cbor.hpp:259. json.hpp:169 and
flex.hpp:235 make the check of `asDouble` and convert the number; `AsFloat` of flexbuffers converts `AsDouble`. -/
def Acc.asFloat {ρ : Type} (A : Acc ρ) (r : ρ) : Res UInt32 := do
  let d ← A.asDouble r
  pure (UInt32.ofNat (narrow32 d.toNat))

/-- The narrow accessors give the number that the 64-bit accessor gives whenever it fits. -/
structure Acc.Narrows {ρ : Type} (A : Acc ρ) : Prop where
  signed : ∀ {w r x}, Width w → A.asInt64 r = .ok x → -(2 ^ (w - 1) : Int) ≤ x.toInt → x.toInt < 2 ^ (w - 1) →
    A.asIntN w r = .ok x.toInt
  unsigned : ∀ {w r x}, Width w → A.asUInt64 r = .ok x → x.toNat < 2 ^ w → A.asUIntN w r = .ok x.toNat

/-- The position reads as the integer `z` through every accessor in whose range `z` lies. -/
def ReadsNum {ρ : Type} (A : Acc ρ) (r : ρ) (z : Int) : Prop := ∀ w, Width w →
  (-(2 ^ (w - 1) : Int) ≤ z → z < 2 ^ (w - 1) → A.asSigned w r = .ok z) ∧
  (0 ≤ z → z < 2 ^ w → A.asUnsigned w r = .ok z.toNat)

/-- The position reads as the value `v` through the accessors for its type: an integer through all signed (or all unsigned)
accessors in whose range it lies. -/
def ReadsVal {ρ : Type} (A : Acc ρ) (r : ρ) : Val → Prop
  | .null => A.isNull r = .ok true
  | .bool b => A.isBool r = .ok true ∧ A.asBool r = .ok b
  | .int i => ∀ w, Width w → -(2 ^ (w - 1) : Int) ≤ i.toInt → i.toInt < 2 ^ (w - 1) → A.asSigned w r = .ok i.toInt
  | .uint n => ∀ w, Width w → n.toNat < 2 ^ w → A.asUnsigned w r = .ok n.toNat
  | .dbl d => A.isFloat r = .ok true ∧ A.asDouble r = .ok d
  | .str s => A.isString r = .ok true ∧ A.asString r = .ok s ∧ A.asStringView r = .ok s
  | .blob s => A.isBlob r = .ok true ∧ A.asBlob r = .ok s
  | .arr xs => A.isArray r = .ok true ∧ A.arraySize r = .ok xs.length
  | .map ms => A.isMap r = .ok true ∧ A.mapKeys r = .ok (ms.map Prod.fst)

/-- The position gives back the C++ value through the accessor of its type; NaNs as some NaN. -/
def Reads {ρ : Type} (A : Acc ρ) (r : ρ) : Src → Prop
  | .null => A.isNull r = .ok true
  | .bool b => A.isBool r = .ok true ∧ A.asBool r = .ok b
  | .sint w x => Width w → A.asSigned w r = .ok x.toInt
  | .uint w x => Width w → A.asUnsigned w r = .ok x.toNat
  | .flt f => A.isFloat r = .ok true ∧ ∃ g, A.asFloat r = .ok g ∧ (sglVal f.toNat = .nan → sglVal g.toNat = .nan) ∧
      (sglVal f.toNat ≠ .nan → g = f)
  | .dbl d => A.isFloat r = .ok true ∧ A.asDouble r = .ok d
  | .cstr m => A.isString r = .ok true ∧ A.asString r = .ok ((m.getD []).takeWhile (· ≠ 0))
  | .str s => A.isString r = .ok true ∧ A.asString r = .ok s ∧ A.asStringView r = .ok s
  | .blob s => A.isBlob r = .ok true ∧ A.asBlob r = .ok s
  | .seq _ xs => A.isArray r = .ok true ∧ A.arraySize r = .ok xs.length
  | .zvec xs => A.isArray r = .ok true ∧ A.arraySize r = .ok xs.length
  | .smap ms => A.isMap r = .ok true ∧ A.mapKeys r = .ok (ms.map Prod.fst)
  | .umap ms => A.isMap r = .ok true ∧ A.mapKeys r = .ok (ms.map Prod.fst)
  | .zmap ms => A.isMap r = .ok true ∧ A.mapKeys r = .ok (ms.map Prod.fst)
  | .dyn d => ReadsVal A r d.val
  | .custom es => ReadsVal A r (Src.custom es).val

theorem valList_length : ∀ xs : List Src, (Src.valList xs).length = xs.length
  | [] => rfl
  | _ :: xs => by simp [Src.valList, valList_length xs]

theorem valEntries_keys : ∀ ms : List (Bytes × Src), (Src.valEntries ms).map Prod.fst = ms.map Prod.fst
  | [] => rfl
  | (k, x) :: ms => by simp [Src.valEntries, valEntries_keys ms]

/-- What reads as the value of a C++ value reads as the C++ value. -/
theorem reads_of_readsVal {ρ : Type} {A : Acc ρ} {r : ρ} {x : Src} (h : ReadsVal A r x.val) : Reads A r x := by
  cases x with
  | null => exact h
  | bool b => exact h
  | sint w x =>
    intro hw
    have h64 : w ≤ 64 := by rcases hw with rfl | rfl | rfl | rfl <;> omega
    obtain ⟨⟨i, e, hi⟩, -⟩ := c36_numbers h64 x 0
    simp only [Src.val] at e h
    injection e with e
    simp only [ReadsVal, e, hi] at h
    have h1 := x.toInt_lt
    have h2 := x.le_toInt
    exact h w hw (by omega) h1
  | uint w x =>
    intro hw
    have h64 : w ≤ 64 := by rcases hw with rfl | rfl | rfl | rfl <;> omega
    obtain ⟨-, ⟨i, e, hi⟩, -⟩ := c36_numbers h64 x 0
    simp only [Src.val] at e h
    injection e with e
    simp only [ReadsVal, e, hi] at h
    exact h w hw x.isLt
  | flt f =>
    simp only [Src.val, ReadsVal] at h
    have hf : f.toNat < 2 ^ 32 := f.toNat_lt
    have e : (UInt64.ofNat (widen32 f.toNat)).toNat = widen32 f.toNat := by
      rw [UInt64.toNat_ofNat', Nat.mod_eq_of_lt (widen32_lt _)]
    have hn := narrow32_lt (widen32_lt f.toNat)
    have e2 : (UInt32.ofNat (narrow32 (widen32 f.toNat))).toNat = narrow32 (widen32 f.toNat) := by
      rw [UInt32.toNat_ofNat', Nat.mod_eq_of_lt hn]
    refine ⟨h.1, _, by simp only [Acc.asFloat, h.2, Res.ok_bind, Res.pure_eq, e]; rfl, fun hs => ?_, fun hs => ?_⟩
    · rw [e2]
      exact narrow32_nan (widen32_lt _) (by rw [dblVal_widen32]; exact hs)
    · rw [narrow32_widen32 hf hs, UInt32.ofNat_toNat]
  | dbl d => exact h
  | cstr m => exact ⟨h.1, h.2.1⟩
  | str s => exact h
  | blob s => exact h
  | seq c xs => exact ⟨h.1, by rw [← valList_length xs]; exact h.2⟩
  | zvec xs => exact ⟨h.1, by rw [← valList_length xs]; exact h.2⟩
  | smap ms => exact ⟨h.1, by rw [← valEntries_keys ms]; exact h.2⟩
  | umap ms => exact ⟨h.1, by rw [← valEntries_keys ms]; exact h.2⟩
  | zmap ms => exact ⟨h.1, by rw [← valEntries_keys ms]; exact h.2⟩
  | dyn d => exact h
  | custom es => exact h

/-! ## From 64 bits to all widths -/

theorem int64_range (x : Int64) : -2 ^ 63 ≤ x.toInt ∧ x.toInt < 2 ^ 63 := ⟨x.le_toInt, x.toInt_lt⟩

theorem signed_of {ρ : Type} {A : Acc ρ} (N : A.Narrows) {r : ρ} {x : Int64} (h : A.asInt64 r = .ok x) {w : Nat} (hw : Width w)
    (h1 : -(2 ^ (w - 1) : Int) ≤ x.toInt) (h2 : x.toInt < 2 ^ (w - 1)) : A.asSigned w r = .ok x.toInt := by
  unfold Acc.asSigned
  split
  · simp only [h, Res.ok_bind, Res.pure_eq]
  · exact N.signed hw h h1 h2

theorem unsigned_of {ρ : Type} {A : Acc ρ} (N : A.Narrows) {r : ρ} {x : UInt64} (h : A.asUInt64 r = .ok x) {w : Nat} (hw : Width w)
    (h1 : x.toNat < 2 ^ w) : A.asUnsigned w r = .ok x.toNat := by
  unfold Acc.asUnsigned
  split
  · simp only [h, Res.ok_bind, Res.pure_eq]
  · exact N.unsigned hw h h1

/-- Both 64-bit accessors give the number if it is in their range. -/
def Reads64 {ρ : Type} (R : Reader ρ) (r : ρ) (z : Int) : Prop :=
  (z < 2 ^ 63 → ∃ x, R.asInt64 r = .ok x ∧ x.toInt = z) ∧ (0 ≤ z → ∃ y, R.asUInt64 r = .ok y ∧ (y.toNat : Int) = z)

theorem pow_le {w : Nat} (hw : Width w) : (2 : Int) ^ (w - 1) ≤ 2 ^ 63 ∧ (2 : Int) ^ w ≤ 2 ^ 64 := by
  rcases hw with rfl | rfl | rfl | rfl <;> constructor <;> decide

theorem readsNum_of {ρ : Type} {A : Acc ρ} (N : A.Narrows) {r : ρ} {z : Int} (h : Reads64 A.toReader r z) : ReadsNum A r z := by
  intro w hw
  obtain ⟨p1, p2⟩ := pow_le hw
  refine ⟨fun h1 h2 => ?_, fun h1 h2 => ?_⟩
  · obtain ⟨x, hx, rfl⟩ := h.1 (by omega)
    exact signed_of N hx hw h1 h2
  · obtain ⟨y, hy, rfl⟩ := h.2 h1
    exact unsigned_of N hy hw (by exact_mod_cast h2)

/-- A position that presents a value reads as it, where integers do. -/
theorem readsVal_of {ρ : Type} {A : Acc ρ} {q : Prop} {r : ρ} {v : Val} (h : A.AgreesW q r v)
    (hi : ∀ i, v = .int i → ReadsVal A r (.int i)) (hu : ∀ n, v = .uint n → ReadsVal A r (.uint n)) : ReadsVal A r v := by
  cases h with
  | null h => exact h.1
  | bool h h' => exact ⟨h.2.1, h'⟩
  | int _ _ => exact hi _ rfl
  | uint _ _ => exact hu _ rfl
  | dbl h h' => exact ⟨h.2.2.2.1, h'⟩
  | str h h' h'' => exact ⟨h.2.2.2.2.1, h', h''⟩
  | blob h h' _ => exact ⟨h.2.2.2.2.2.1, h'⟩
  | arr c h h' => exact ⟨h.2.2.2.2.2.2.2, h'⟩
  | map c h h' => exact ⟨h.2.2.2.2.2.2.1, h'⟩

theorem readsVal_lax {ρ : Type} {A : Acc ρ} (N : A.Narrows) {q : Prop} {r : ρ} {v : Val} (h : A.AgreesW q r v)
    (hz : ∀ z, A.ShowsInt r z → Reads64 A.toReader r z) : ReadsVal A r v ∧ (v.kind = 2 → ReadsNum A r v.num) := by
  have hn : ∀ z, A.ShowsInt r z → ReadsNum A r z := fun z h => readsNum_of N (hz z h)
  refine ⟨readsVal_of h ?_ ?_, fun hk => ?_⟩
  · rintro i rfl
    cases h with
    | int h _ => exact fun w hw h1 h2 => (hn _ h w hw).1 h1 h2
  · rintro n rfl
    cases h with
    | uint h _ =>
      intro w hw h1
      have := (hn _ h w hw).2 (by omega) (by exact_mod_cast h1)
      rwa [Int.toNat_natCast] at this
  · cases h <;> simp [Val.kind] at hk
    · rename_i h _; exact hn _ h
    · rename_i h _; exact hn _ h

theorem readsVal_strict {ρ : Type} {A : Acc ρ} (N : A.Narrows) {r : ρ} {v : Val} (h : A.AgreesStrictly r v) : ReadsVal A r v := by
  refine readsVal_of h ?_ ?_
  · rintro i rfl
    cases h with
    | int h hs =>
      obtain ⟨x, hx, e⟩ := h.2.1 (hs trivial).1
      intro w hw h1 h2
      rw [← e] at h1 h2 ⊢
      exact signed_of N hx hw h1 h2
  · rintro n rfl
    cases h with
    | uint h hs =>
      obtain ⟨y, hy, e⟩ := h.2.2 (hs trivial).2
      intro w hw h1
      have e : y.toNat = n.toNat := by omega
      rw [← e] at h1 ⊢
      exact unsigned_of N hy hw h1

/-! ## Values that look alike -/

theorem valAt_canon : ∀ (p : List Step) (v : Val), valAt v.canon p = (valAt v p).map Val.canon
  | [], v => by cases v <;> simp [valAt, Val.canon]
  | .idx i :: p, v => by
    cases v with
    | arr xs =>
      simp only [Val.canon, Val.canonList_eq, valAt, List.getElem?_map]
      cases h : xs[i]? with
      | none => rfl
      | some x => exact valAt_canon p x
    | int j => simp only [Val.canon]; split <;> rfl
    | _ => rfl
  | .key k :: p, v => by
    cases v with
    | map ms =>
      simp only [Val.canon, valAt, firstVal_canonEntries]
      cases h : firstVal ms k with
      | none => rfl
      | some x => exact valAt_canon p x
    | int j => simp only [Val.canon]; split <;> rfl
    | _ => rfl

theorem valAt_same {v w u : Val} {p : List Step} (h : v.Same w) (e : valAt w p = some u) :
    ∃ u', valAt v p = some u' ∧ u'.Same u := by
  have h1 := valAt_canon p v
  rw [h, valAt_canon p w, e] at h1
  cases h2 : valAt v p with
  | none => rw [h2] at h1; cases h1
  | some u' =>
    rw [h2] at h1
    injection h1 with h1
    exact ⟨u', rfl, h1.symm⟩

theorem valAt_firstWins : ∀ (p : List Step) (v : Val), valAt v.firstWins p = (valAt v p).map Val.firstWins
  | [], v => by cases v <;> simp [valAt, Val.firstWins]
  | .idx i :: p, v => by
    cases v with
    | arr xs =>
      simp only [Val.firstWins_arr, valAt, List.getElem?_map]
      cases h : xs[i]? with
      | none => rfl
      | some x => exact valAt_firstWins p x
    | _ => rfl
  | .key k :: p, v => by
    cases v with
    | map ms =>
      have e : firstVal ((ms.map Prod.fst).map (fun k => (k, ((firstVal ms k).getD .null).firstWins))) k =
          (firstVal ms k).map Val.firstWins := by
        have : ∀ ks : List Bytes, firstVal (ks.map (fun k => (k, ((firstVal ms k).getD .null).firstWins))) k =
            if k ∈ ks then some ((firstVal ms k).getD .null).firstWins else none := by
          intro ks
          induction ks with
          | nil => rfl
          | cons k' ks ih =>
            simp only [List.map_cons, firstVal, ih, List.mem_cons]
            by_cases h : k' = k
            · subst h; simp
            · simp [h, Ne.symm h]
        rw [this]
        cases h : firstVal ms k with
        | none =>
          rw [if_neg]; · rfl
          intro hk
          obtain ⟨w, hw⟩ := firstVal_isSome.1 hk
          rw [h] at hw; cases hw
        | some x => rw [if_pos (firstVal_isSome.2 ⟨x, h⟩)]; rfl
      rw [Val.firstWins_map]
      simp only [valAt, e]
      cases h : firstVal ms k with
      | none => rfl
      | some x => exact valAt_firstWins p x
    | _ => rfl

/-- The position reads as the value, integers through the accessors of either sign. -/
def Whole {ρ : Type} (A : Acc ρ) (r : ρ) (v : Val) : Prop := ReadsVal A r v ∧ (v.kind = 2 → ReadsNum A r v.num)

theorem whole_int {ρ : Type} {A : Acc ρ} {r : ρ} {v : Val} (hk : v.kind = 2) (h : ReadsNum A r v.num) : Whole A r v := by
  refine ⟨?_, fun _ => h⟩
  cases v <;> simp [Val.kind] at hk
  · exact fun w hw h1 h2 => (h w hw).1 h1 h2
  · intro w hw h1
    have := (h w hw).2 (by simp only [Val.num]; omega) (by simp only [Val.num]; exact_mod_cast h1)
    rwa [Val.num, Int.toNat_natCast] at this

theorem Whole.same {ρ : Type} {A : Acc ρ} {r : ρ} {v w : Val} (h : v.Same w) (hv : Whole A r v) : Whole A r w := by
  have hk := Val.same_kind h
  by_cases h2 : w.kind = 2
  · exact whole_int h2 (Val.same_num h ▸ hv.2 (by rw [hk]; exact h2))
  · refine ⟨?_, fun h => absurd h h2⟩
    have h1 := hv.1
    cases v <;> cases w <;> simp [Val.kind] at hk h2 <;> simp only [Val.Same, Val.canon] at h
    · exact h1
    all_goals injection h with h
    · rw [← h]; exact h1
    · rw [← h]; exact h1
    · rw [← h]; exact h1
    · rw [← h]; exact h1
    · rename_i xs ys
      have : xs.length = ys.length := by simpa [Val.canonList_eq] using congrArg List.length h
      simp only [ReadsVal, ← this]; exact h1
    · rename_i ms ns
      have : ms.map Prod.fst = ns.map Prod.fst := by rw [← Val.canonEntries_keys ms, h, Val.canonEntries_keys]
      simp only [ReadsVal, ← this]; exact h1

theorem Whole.of_firstWins {ρ : Type} {A : Acc ρ} {r : ρ} {v : Val} (h : Whole A r v.firstWins) : Whole A r v := by
  cases v with
  | arr xs =>
    refine ⟨?_, fun h => by simp [Val.kind] at h⟩
    have := h.1
    rw [Val.firstWins_arr] at this
    simpa [ReadsVal] using this
  | map ms =>
    refine ⟨?_, fun h => by simp [Val.kind] at h⟩
    have := h.1
    rw [Val.firstWins_map] at this
    simpa [ReadsVal, List.map_map, Function.comp_def] using this
  | _ => exact h

/-! ## Protocols -/

/-- A protocol with the narrow accessors of its reader. -/
structure AProto extends Proto where
  asIntN : Nat → ρ → Res Int
  asUIntN : Nat → ρ → Res Nat

/-- Its reader. -/
def AProto.acc (P : AProto) : Acc P.ρ := { P.reader with asIntN := P.asIntN, asUIntN := P.asUIntN }

/-- Whatever value of the domain is serialized, every part of it reads back through the accessors of its type. -/
def AProto.TypedRoundTrips (P : AProto) (D : Val → Prop) : Prop :=
  ∀ v b, D v → P.serialize v = .ok b → ∃ r, P.opn b = .ok r ∧ ∀ p u, valAt v p = some u →
    ∃ c, readAt P.reader r p = .ok c ∧ Whole P.acc c u

/-- From a round trip, with integers that read through accessors of either sign at all positions reached. -/
theorem typed_of_lax {P : AProto} {q : Prop} {D : Val → Prop} (H : P.RoundTrips q D) (N : P.acc.Narrows) {Q : P.ρ → Prop}
    (ho : ∀ {v b r}, P.serialize v = .ok b → P.opn b = .ok r → Q r) (hi : ∀ {r i c}, Q r → P.reader.getIdx r i = .ok c → Q c)
    (hk : ∀ {r k c}, Q r → P.reader.getKey r k = .ok c → Q c) (hz : ∀ {r z}, Q r → P.reader.ShowsInt r z → Reads64 P.reader r z) :
    P.TypedRoundTrips D := by
  intro v b hD hb
  obtain ⟨r, hr, ha⟩ := H v b hD hb
  refine ⟨r, hr, fun p u e => ?_⟩
  obtain ⟨c, h1, h2, h3⟩ := readAt_agrees hi hk (ho hb hr) ha e
  exact ⟨c, h1, readsVal_lax (A := P.acc) N h3 fun z h => hz h2 h⟩

theorem checked_narrows {ρ : Type} {A : Acc ρ} (h : ∀ w r, A.asIntN w r = (do
      let x ← A.asInt64 r
      if x.toInt < -(2 ^ (w - 1) : Int) ∨ x.toInt > (2 ^ (w - 1) : Int) - 1 then .err .deser
      else pure x.toInt))
    (h' : ∀ w r, A.asUIntN w r = (do
      let x ← A.asUInt64 r
      if x.toNat > 2 ^ w - 1 then .err .deser
      else pure x.toNat)) : A.Narrows where
  signed {w r x} _ hx h1 h2 := by
    rw [h, hx]
    simp only [Res.ok_bind]
    rw [if_neg (by omega)]; rfl
  unsigned {w r x} _ hx h1 := by
    rw [h', hx]
    simp only [Res.ok_bind]
    rw [if_neg (by omega)]; rfl

theorem cast_narrows {ρ : Type} {A : Acc ρ} (h : ∀ w r, A.asIntN w r = (do
      let x ← A.asInt64 r
      pure (x.toInt.bmod (2 ^ w))))
    (h' : ∀ w r, A.asUIntN w r = (do
      let x ← A.asUInt64 r
      pure (x.toNat % 2 ^ w))) : A.Narrows where
  signed {w r x} hw hx h1 h2 := by
    rw [h, hx]
    simp only [Res.ok_bind, Res.pure_eq]
    rw [Int.bmod_eq_of_le]
    · rcases hw with rfl | rfl | rfl | rfl <;> simp at h1 ⊢ <;> omega
    · rcases hw with rfl | rfl | rfl | rfl <;> simp at h2 ⊢ <;> omega
  unsigned {w r x} _ hx h1 := by
    rw [h', hx]
    simp only [Res.ok_bind, Res.pure_eq]
    rw [Nat.mod_eq_of_lt h1]

end Zer.Typed
