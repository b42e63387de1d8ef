import Verif.Translate

/-!
# A protocol as a bundle, and translation into it

`Proto` bundles what `concepts.hpp:199` (`Protocol`) requires: a root serializer with `finish`, a
writer and a deserializer. `RoundTrips` is the round-trip contract.
-/

namespace Zer

/-- `concepts.hpp:198-211`. `init` is `RootSerializer rs{}`, `opn` constructs the deserializer. -/
structure Proto where
  σ : Type
  ρ : Type
  writer : Writer σ
  init : σ
  finish : σ → Res Bytes
  reader : Reader ρ
  opn : Bytes → Res ρ

namespace Proto

/-- The bytes produced by a call sequence. -/
def bytesOf (P : Proto) (es : List Ev) : Res Bytes := P.writer.run P.init es >>= P.finish

/-- `serialize<P>(value)`, serialize.hpp:40-66 -/
def serialize (P : Proto) (v : Val) : Res Bytes := P.bytesOf (emit v)

/-- `translate<P>(src)`, translate.hpp:77-100 -/
def translate (P : Proto) {ρ : Type} (R : Reader ρ) (fuel : Nat) (r : ρ) : Res P.ρ := do
  let s ← writeValue R P.writer fuel r P.init
  let b ← P.finish s
  P.opn b

/-- Whatever value in the domain is serialized, reading the bytes presents that value (`p`: with
the signedness of integers). -/
def RoundTrips (P : Proto) (p : Prop) (D : Val → Prop) : Prop :=
  ∀ v b, D v → P.serialize v = .ok b → ∃ r, P.opn b = .ok r ∧ P.reader.AgreesW p r v

/-- Every value in the domain can be serialized. -/
def Accepts (P : Proto) (D : Val → Prop) : Prop := ∀ v, D v → ∃ b, P.serialize v = .ok b

end Proto

theorem Val.same_int {v : Val} {z : Int} :
    (v.Same (.uint (UInt64.ofNat z.toNat)) → 0 ≤ z → z < 2 ^ 64 →
      (∃ i : Int64, v = .int i ∧ i.toInt = z) ∨ (∃ n : UInt64, v = .uint n ∧ (n.toNat : Int) = z)) := by
  intro h h0 h1
  have hk := Val.same_kind h
  have hz : (UInt64.ofNat z.toNat).toNat = z.toNat := by
    simp only [UInt64.toNat_ofNat']; omega
  cases v <;> simp [Val.kind] at hk
  · rename_i i
    left
    refine ⟨i, rfl, ?_⟩
    simp only [Val.Same, Val.canon] at h
    split at h
    · injection h with h
      have h2 : i.toUInt64.toNat = i.toInt.toNat := by
        have := Int64.toNat_toUInt64_of_le (x := i) (Int64.le_iff_toInt_le.2 (by simpa using ‹0 ≤ i.toInt›))
        rw [this]; rfl
      rw [h, hz] at h2
      omega
    · cases h
  · rename_i n
    right
    simp only [Val.Same, Val.canon] at h
    injection h with h
    subst h
    refine ⟨_, rfl, ?_⟩
    rw [hz]; omega

/-- Mathematical value of an integer value. -/
def Val.num : Val → Int
  | .int i => i.toInt
  | .uint n => n.toNat
  | _ => 0

theorem Val.same_num {v w : Val} (h : v.Same w) : v.num = w.num := by
  have hi : ∀ i : Int64, 0 ≤ i.toInt → (i.toUInt64.toNat : Int) = i.toInt := by
    intro i h0
    have := Int64.toNat_toUInt64_of_le (x := i) (Int64.le_iff_toInt_le.2 (by simpa using h0))
    have h2 : i.toUInt64.toNat = i.toInt.toNat := by rw [this]; rfl
    omega
  have hk := Val.same_kind h
  unfold Val.Same at h
  cases v <;> cases w <;> simp [Val.kind] at hk <;> simp only [Val.num]
  · rename_i i j
    simp only [Val.canon] at h
    split at h <;> split at h
    · injection h with h; rw [← hi i ‹_›, ← hi j ‹_›, h]
    · cases h
    · cases h
    · injection h with h; rw [h]
  · rename_i i n
    simp only [Val.canon] at h
    split at h
    · injection h with h; rw [← hi i ‹_›, h]
    · cases h
  · rename_i n i
    simp only [Val.canon] at h
    split at h
    · injection h with h; rw [← hi i ‹_›, h]
    · cases h
  · simp only [Val.canon] at h
    injection h with h
    rw [h]

theorem firstVal_canonEntries (ms : List (Bytes × Val)) (k : Bytes) :
    firstVal (Val.canonEntries ms) k = (firstVal ms k).map Val.canon := by
  induction ms with
  | nil => rfl
  | cons m ms ih =>
    obtain ⟨k', v⟩ := m
    simp only [Val.canonEntries, firstVal]
    by_cases h : k' = k
    · simp [h]
    · simp [h, ih]

theorem Val.canonEntries_keys (ms : List (Bytes × Val)) :
    (Val.canonEntries ms).map Prod.fst = ms.map Prod.fst := by
  simp [Val.canonEntries_eq, List.map_map, Function.comp]

namespace Reader

/-- A position that presents a value presents every value equal to it up to integer signedness. -/
theorem Agrees.same {ρ : Type} {R : Reader ρ} : ∀ (v : Val) {w : Val} {r : ρ}, R.Agrees r v →
    v.Same w → R.Agrees r w := by
  intro v
  induction v using Val.ind with
  | null =>
    intro w r h hs
    have hk := Val.same_kind hs
    cases w <;> simp [Val.kind] at hk
    exact h
  | bool b =>
    intro w r h hs
    have hk := Val.same_kind hs
    cases w <;> simp [Val.kind] at hk
    simp only [Val.Same, Val.canon] at hs; injection hs with hs; subst hs; exact h
  | int i =>
    intro w r h hs
    have hk := Val.same_kind hs
    have hn := Val.same_num hs
    cases h with | int h1 _ =>
    cases w <;> simp [Val.kind] at hk <;> simp only [Val.num] at hn
    · exact .int (hn ▸ h1) (fun h => h.elim)
    · exact .uint (hn ▸ h1) (fun h => h.elim)
  | uint i =>
    intro w r h hs
    have hk := Val.same_kind hs
    have hn := Val.same_num hs
    cases h with | uint h1 _ =>
    cases w <;> simp [Val.kind] at hk <;> simp only [Val.num] at hn
    · exact .int (hn ▸ h1) (fun h => h.elim)
    · exact .uint (hn ▸ h1) (fun h => h.elim)
  | dbl b =>
    intro w r h hs
    have hk := Val.same_kind hs
    cases w <;> simp [Val.kind] at hk
    simp only [Val.Same, Val.canon] at hs; injection hs with hs; subst hs; exact h
  | str b =>
    intro w r h hs
    have hk := Val.same_kind hs
    cases w <;> simp [Val.kind] at hk
    simp only [Val.Same, Val.canon] at hs; injection hs with hs; subst hs; exact h
  | blob b =>
    intro w r h hs
    have hk := Val.same_kind hs
    cases w <;> simp [Val.kind] at hk
    simp only [Val.Same, Val.canon] at hs; injection hs with hs; subst hs; exact h
  | arr xs ih =>
    intro w r h hs
    have hk := Val.same_kind hs
    cases w <;> simp [Val.kind] at hk
    rename_i ys
    simp only [Val.Same, Val.canon, Val.canonList_eq] at hs
    injection hs with hs
    have hl : xs.length = ys.length := by simpa using congrArg List.length hs
    cases h with | arr child h1 h2 h3 h4 h5 =>
    refine .arr child h1 (by rw [h2, hl]) (fun i hi => h3 i (by omega)) (fun i hi => h4 i (by omega)) ?_
    intro i hi
    have hi' : i < xs.length := by omega
    refine ih xs[i] (List.getElem_mem _) (h5 i hi') ?_
    have : (xs.map Val.canon)[i]'(by simpa using hi') = (ys.map Val.canon)[i]'(by simpa using hi) := by
      simp only [hs]
    simpa [Val.Same] using this
  | map ms ih =>
    intro w r h hs
    have hk := Val.same_kind hs
    cases w <;> simp [Val.kind] at hk
    rename_i ns
    simp only [Val.Same, Val.canon] at hs
    injection hs with hs
    have hkeys : ms.map Prod.fst = ns.map Prod.fst := by
      rw [← Val.canonEntries_keys ms, hs, Val.canonEntries_keys]
    cases h with | map child h1 h2 h3 h4 h5 h6 =>
    refine .map child h1 (by rw [h2, hkeys]) (fun k => by rw [h3, hkeys])
      (fun k hk => h4 k (hkeys ▸ hk)) (fun k hk => h5 k (hkeys ▸ hk)) ?_
    intro k v hv
    have hv' : k ∈ ms.map Prod.fst := hkeys ▸ firstVal_isSome.2 ⟨v, hv⟩
    obtain ⟨u, hu⟩ := firstVal_isSome.1 hv'
    refine ih (k, u) (firstVal_mem hu) (h6 k u hu) ?_
    have e := congrArg (fun l => firstVal l k) hs
    simp only [firstVal_canonEntries, hu, hv, Option.map_some] at e
    injection e

theorem AgreesW.agrees {ρ : Type} {R : Reader ρ} {p : Prop} {r : ρ} {v : Val}
    (h : R.AgreesW p r v) : R.Agrees r v := h.weaken (fun h => h.elim)

end Reader

end Zer
