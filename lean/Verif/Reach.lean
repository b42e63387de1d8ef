import Verif.Reader

/-!
# Reachable reader positions and what a reader position determines
-/

namespace Zer

mutual
/-- What a reader can show of a value: every entry of a map under a repeated key is replaced by the
value stored first under that key. -/
def Val.firstWins : Val → Val
  | .arr xs => .arr (firstWinsList xs)
  | .map ms => .map (let ms' := firstWinsEntries ms
      ms'.map (fun m => (m.1, (firstVal ms' m.1).getD .null)))
  | v => v
def Val.firstWinsList : List Val → List Val
  | [] => []
  | x :: xs => x.firstWins :: firstWinsList xs
def Val.firstWinsEntries : List (Bytes × Val) → List (Bytes × Val)
  | [] => []
  | (k, v) :: ms => (k, v.firstWins) :: firstWinsEntries ms
end

theorem Val.firstWinsList_eq (xs : List Val) : Val.firstWinsList xs = xs.map Val.firstWins := by
  induction xs with
  | nil => rfl
  | cons x xs ih => simp [Val.firstWinsList, ih]

theorem Val.firstWinsEntries_keys (ms : List (Bytes × Val)) :
    (Val.firstWinsEntries ms).map Prod.fst = ms.map Prod.fst := by
  induction ms with
  | nil => rfl
  | cons m ms ih => cases m; simp [Val.firstWinsEntries, ih]

theorem firstVal_firstWinsEntries (ms : List (Bytes × Val)) (k : Bytes) :
    firstVal (Val.firstWinsEntries ms) k = (firstVal ms k).map Val.firstWins := by
  induction ms with
  | nil => rfl
  | cons m ms ih =>
    obtain ⟨k', v⟩ := m
    simp only [Val.firstWinsEntries, firstVal]
    by_cases h : k' = k
    · simp [h]
    · simp [h, ih]

theorem Val.firstWins_map (ms : List (Bytes × Val)) : (Val.map ms).firstWins =
    .map ((ms.map Prod.fst).map (fun k => (k, ((firstVal ms k).getD .null).firstWins))) := by
  simp only [Val.firstWins]
  rw [← Val.firstWinsEntries_keys, List.map_map]
  congr 1
  apply List.map_congr_left
  intro m _
  simp only [firstVal_firstWinsEntries, Function.comp]
  cases firstVal ms m.1 <;> rfl

theorem Val.firstWins_arr (xs : List Val) : (Val.arr xs).firstWins = .arr (xs.map Val.firstWins) := by
  simp [Val.firstWins, Val.firstWinsList_eq]

/-- The first value stored under a key is unchanged by dropping shadowed values. -/
theorem firstVal_mapKeys {f : Bytes → Val} : ∀ {ks : List Bytes} {k : Bytes}, k ∈ ks →
    firstVal (ks.map (fun k => (k, f k))) k = some (f k)
  | k' :: ks, k, h => by
    simp only [List.map_cons, firstVal]
    by_cases e : k' = k
    · simp [e]
    · have : k ∈ ks := by
        rcases List.mem_cons.1 h with h | h
        · exact absurd h.symm e
        · exact h
      simp [e, firstVal_mapKeys this]

theorem firstVal_none {ms : List (Bytes × Val)} {k : Bytes} (h : k ∉ ms.map Prod.fst) :
    firstVal ms k = none := by
  cases e : firstVal ms k with
  | none => rfl
  | some v => exact absurd (firstVal_isSome.2 ⟨v, e⟩) h

/-- Values without repeated keys have nothing shadowed. -/
theorem Val.firstWins_of_distinct : ∀ v : Val, v.Distinct → v.firstWins = v := by
  intro v
  induction v using Val.ind with
  | null | bool | int | uint | dbl | str | blob => intro _; rfl
  | arr xs ih =>
    intro h
    rw [Val.firstWins_arr]
    have h' := (Val.distinctList_iff xs).1 h
    congr 1
    exact (List.map_congr_left (fun x hx => ih x hx (h' x hx))).trans (List.map_id xs)
  | map ms ih =>
    intro h
    have hn := h.1
    have h' := (Val.distinctEntries_iff ms).1 h.2
    rw [Val.firstWins_map, List.map_map]
    congr 1
    refine (List.map_congr_left (fun m hm => ?_)).trans (List.map_id ms)
    simp only [Function.comp, firstVal_of_nodup hn (show (m.1, m.2) ∈ ms from hm), Option.getD_some,
      ih m hm (h' m hm), id]

namespace Reader
variable {ρ : Type} {R : Reader ρ}

/-- `r'` is obtained from `r` by a chain of successful `operator[]` calls. -/
inductive Reach (R : Reader ρ) (r : ρ) : ρ → Prop where
  | refl : Reach R r r
  | idx {r' r''} (i : Nat) : Reach R r r' → R.getIdx r' i = .ok r'' → Reach R r r''
  | key {r' r''} (k : Bytes) : Reach R r r' → R.getKey r' k = .ok r'' → Reach R r r''

/-- Element access on anything but an array, and member access on anything but a map, fails. -/
structure Kinded (R : Reader ρ) : Prop where
  idx : ∀ r i r', R.isArray r = .ok false → R.getIdx r i ≠ .ok r'
  key : ∀ r k r', R.isMap r = .ok false → R.getKey r k ≠ .ok r'

theorem AgreesStrictly.idx (K : R.Kinded) {r r' : ρ} {v : Val} {i : Nat} (h : R.AgreesStrictly r v)
    (hr : R.getIdx r i = .ok r') :
    ∃ xs, v = .arr xs ∧ ∃ h : i < xs.length, R.AgreesStrictly r' xs[i] := by
  have no : R.isArray r = .ok false → ∃ xs, v = .arr xs ∧
      ∃ h : i < xs.length, R.AgreesStrictly r' xs[i] := fun h => absurd hr (K.idx r i r' h)
  cases h with
  | null h => exact no h.2.2.2.2.2.2.2
  | bool h _ => exact no h.2.2.2.2.2.2.2
  | int h _ => exact no h.1.2.2.2.2.2.2.2
  | uint h _ => exact no h.1.2.2.2.2.2.2.2
  | dbl h _ => exact no h.2.2.2.2.2.2.2
  | str h _ _ => exact no h.2.2.2.2.2.2.2
  | blob h _ ha => rw [ha trivial] at h; exact no h.2.2.2.2.2.2.2
  | map c h _ _ _ _ _ => exact no h.2.2.2.2.2.2.2
  | @arr _ xs c _ _ h3 h4 h5 =>
    refine ⟨xs, rfl, ?_⟩
    by_cases hi : i < xs.length
    · rw [h3 i hi] at hr
      injection hr with hr
      subst hr
      exact ⟨hi, h5 i hi⟩
    · rw [h4 i (by omega)] at hr; cases hr

theorem AgreesStrictly.key (K : R.Kinded) {r r' : ρ} {v : Val} {k : Bytes}
    (h : R.AgreesStrictly r v) (hr : R.getKey r k = .ok r') :
    ∃ ms w, v = .map ms ∧ firstVal ms k = some w ∧ R.AgreesStrictly r' w := by
  have no : R.isMap r = .ok false → ∃ ms w, v = .map ms ∧ firstVal ms k = some w ∧
      R.AgreesStrictly r' w := fun h => absurd hr (K.key r k r' h)
  cases h with
  | null h => exact no h.2.2.2.2.2.2.1
  | bool h _ => exact no h.2.2.2.2.2.2.1
  | int h _ => exact no h.1.2.2.2.2.2.2.1
  | uint h _ => exact no h.1.2.2.2.2.2.2.1
  | dbl h _ => exact no h.2.2.2.2.2.2.1
  | str h _ _ => exact no h.2.2.2.2.2.2.1
  | blob h _ ha => exact no h.2.2.2.2.2.2.1
  | arr c h _ _ _ _ => exact no h.2.2.2.2.2.2.1
  | @map _ ms c _ _ _ h4 h5 h6 =>
    by_cases hk : k ∈ ms.map Prod.fst
    · obtain ⟨w, hw⟩ := firstVal_isSome.1 hk
      rw [h4 k hk] at hr
      injection hr with hr
      subst hr
      exact ⟨ms, w, rfl, hw, h6 k w hw⟩
    · rw [h5 k hk] at hr; cases hr

/-- Every position reached from one that presents a value presents a value. -/
theorem AgreesStrictly.reach (K : R.Kinded) {r r' : ρ} {v : Val} (h : R.AgreesStrictly r v)
    (hr : R.Reach r r') : ∃ v', R.AgreesStrictly r' v' := by
  induction hr with
  | refl => exact ⟨v, h⟩
  | idx i _ hi ih =>
    obtain ⟨v', h'⟩ := ih
    obtain ⟨xs, _, hlt, h''⟩ := AgreesStrictly.idx K h' hi
    exact ⟨_, h''⟩
  | key k _ hk ih =>
    obtain ⟨v', h'⟩ := ih
    obtain ⟨ms, w, _, _, h''⟩ := AgreesStrictly.key K h' hk
    exact ⟨_, h''⟩

/-- A position presents at most one integer. -/
theorem ShowsInt.unique {r : ρ} {z z' : Int} (h : R.ShowsInt r z) (h' : R.ShowsInt r z') : z = z' := by
  obtain ⟨⟨_, _, ⟨i, u, hi, hu, hor⟩, _⟩, h1, h2⟩ := h
  obtain ⟨_, h1', h2'⟩ := h'
  cases i with
  | true =>
    obtain ⟨x, hx, rfl⟩ := h1 hi
    obtain ⟨x', hx', rfl⟩ := h1' hi
    rw [hx] at hx'; injection hx' with e; rw [e]
  | false =>
    have hu : R.isUInt r = .ok true := by simpa [hu] using hor
    obtain ⟨x, hx, rfl⟩ := h2 hu
    obtain ⟨x', hx', rfl⟩ := h2' hu
    rw [hx] at hx'; injection hx' with e; rw [e]

/-- The kind a position shows. -/
theorem Shows.unique {r : ρ} {a1 a2 a3 a4 a5 a6 a7 a8 b1 b2 b3 b4 b5 b6 b7 b8 : Bool}
    (h : R.Shows r a1 a2 a3 a4 a5 a6 a7 a8) (h' : R.Shows r b1 b2 b3 b4 b5 b6 b7 b8) :
    a1 = b1 ∧ a2 = b2 ∧ a3 = b3 ∧ a4 = b4 ∧ a5 = b5 ∧ a6 = b6 ∧ a7 = b7 ∧ a8 = b8 := by
  obtain ⟨h1, h2, ⟨i, u, hi, hu, hor⟩, h4, h5, h6, h7, h8⟩ := h
  obtain ⟨g1, g2, ⟨i', u', gi, gu, gor⟩, g4, g5, g6, g7, g8⟩ := h'
  rw [h1] at g1; rw [h2] at g2; rw [hi] at gi; rw [hu] at gu; rw [h4] at g4; rw [h5] at g5
  rw [h6] at g6; rw [h7] at g7; rw [h8] at g8
  injection g1; injection g2; injection gi; injection gu; injection g4; injection g5; injection g6
  injection g7; injection g8
  subst_vars
  exact ⟨rfl, rfl, rfl, rfl, rfl, rfl, rfl, rfl⟩

end Reader

theorem Val.canon_int_eq {i : Int64} {n : UInt64} (h : i.toInt = (n.toNat : Int)) :
    (Val.int i).canon = (Val.uint n).canon := by
  have h0 : 0 ≤ i.toInt := by omega
  simp only [Val.canon, if_pos h0]
  congr 1
  apply UInt64.toNat.inj
  have h1 : i.toInt < 2 ^ 63 := Int64.toInt_lt i
  have h2 : i.toUInt64.toNat = i.toInt.toNat := by
    have := Int64.toNat_toUInt64_of_le (x := i) (Int64.le_iff_toInt_le.2 (by simpa using h0))
    rw [this]; rfl
  omega

namespace Reader
variable {ρ : Type} {R : Reader ρ}

/-- Kind of a value, integers of either signedness together. -/
def _root_.Zer.Val.kind : Val → Nat
  | .null => 0
  | .bool _ => 1
  | .int _ => 2
  | .uint _ => 2
  | .dbl _ => 3
  | .str _ => 4
  | .blob _ => 5
  | .map _ => 6
  | .arr _ => 7

theorem AgreesW.shows {p : Prop} {r : ρ} {v : Val} (h : R.AgreesW p r v) :
    ∃ ar, R.Shows r (v.kind == 0) (v.kind == 1) (v.kind == 2) (v.kind == 3) (v.kind == 4)
      (v.kind == 5) (v.kind == 6) ar ∧ (v.kind ≠ 5 → ar = (v.kind == 7)) := by
  cases h with
  | null h => exact ⟨_, h, fun _ => rfl⟩
  | bool h => exact ⟨_, h, fun _ => rfl⟩
  | int h => exact ⟨_, h.1, fun _ => rfl⟩
  | uint h => exact ⟨_, h.1, fun _ => rfl⟩
  | dbl h => exact ⟨_, h, fun _ => rfl⟩
  | str h => exact ⟨_, h, fun _ => rfl⟩
  | blob h => exact ⟨_, h, fun h => absurd rfl h⟩
  | arr _ h => exact ⟨_, h, fun _ => rfl⟩
  | map _ h => exact ⟨_, h, fun _ => rfl⟩

theorem AgreesW.kind_unique {p q : Prop} {r : ρ} {v w : Val} (h : R.AgreesW p r v)
    (h' : R.AgreesW q r w) : v.kind = w.kind := by
  obtain ⟨a, h1, h2⟩ := h.shows
  obtain ⟨b, g1, g2⟩ := h'.shows
  obtain ⟨e0, e1, e2, e3, e4, e5, e6, e7⟩ := h1.unique g1
  have hv : v.kind ≤ 7 := by cases v <;> simp [Val.kind]
  have hw : w.kind ≤ 7 := by cases w <;> simp [Val.kind]
  have key : ∀ a : Fin 8, ∀ b : Fin 8, (a.1 == 0) = (b.1 == 0) → (a.1 == 1) = (b.1 == 1) →
      (a.1 == 2) = (b.1 == 2) → (a.1 == 3) = (b.1 == 3) → (a.1 == 4) = (b.1 == 4) →
      (a.1 == 5) = (b.1 == 5) → (a.1 == 6) = (b.1 == 6) → a.1 = b.1 := by decide
  exact key ⟨v.kind, by omega⟩ ⟨w.kind, by omega⟩ e0 e1 e2 e3 e4 e5 e6

/-- What a position presents is determined, up to integer signedness and shadowed map entries. -/
theorem AgreesW.unique {p q : Prop} : ∀ {v w : Val} {r : ρ}, R.AgreesW p r v → R.AgreesW q r w →
    v.firstWins.Same w.firstWins := by
  intro v
  induction v using Val.ind with
  | null =>
    intro w r h h'
    have hk := h.kind_unique h'
    cases w <;> simp [Val.kind] at hk
    rfl
  | bool b =>
    intro w r h h'
    have hk := h.kind_unique h'
    cases w <;> simp [Val.kind] at hk
    cases h with | bool _ e =>
    cases h' with | bool _ e' =>
    rw [e] at e'; injection e' with e'; subst e'; rfl
  | int i =>
    intro w r h h'
    have hk := h.kind_unique h'
    cases w <;> simp [Val.kind] at hk
    · cases h with | int e =>
      cases h' with | int e' =>
      have := Int64.toInt_inj.1 (e.unique e'); subst this; rfl
    · cases h with | int e =>
      cases h' with | uint e' =>
      exact Val.canon_int_eq (e.unique e')
  | uint i =>
    intro w r h h'
    have hk := h.kind_unique h'
    cases w <;> simp [Val.kind] at hk
    · cases h with | uint e =>
      cases h' with | int e' =>
      exact (Val.canon_int_eq (e.unique e').symm).symm
    · cases h with | uint e =>
      cases h' with | uint e' =>
      have := UInt64.toNat.inj (Int.ofNat.inj (e.unique e')); subst this; rfl
  | dbl b =>
    intro w r h h'
    have hk := h.kind_unique h'
    cases w <;> simp [Val.kind] at hk
    cases h with | dbl _ e =>
    cases h' with | dbl _ e' =>
    rw [e] at e'; injection e' with e'; subst e'; rfl
  | str b =>
    intro w r h h'
    have hk := h.kind_unique h'
    cases w <;> simp [Val.kind] at hk
    cases h with | str _ e =>
    cases h' with | str _ e' =>
    rw [e] at e'; injection e' with e'; subst e'; rfl
  | blob b =>
    intro w r h h'
    have hk := h.kind_unique h'
    cases w <;> simp [Val.kind] at hk
    cases h with | blob _ e =>
    cases h' with | blob _ e' =>
    rw [e] at e'; injection e' with e'; subst e'; rfl
  | arr xs ih =>
    intro w r h h'
    have hk := h.kind_unique h'
    cases w <;> simp [Val.kind] at hk
    rename_i ys
    cases h with | arr c _ e1 e2 _ e3 =>
    cases h' with | arr c' _ e1' e2' _ e3' =>
    rw [e1] at e1'; injection e1' with hl
    simp only [Val.Same, Val.firstWins_arr, Val.canon, Val.canonList_eq]
    congr 1
    apply List.ext_getElem (by simpa using hl)
    intro i hi hi'
    simp only [List.length_map] at hi hi'
    have h1 := e2 i hi
    rw [e2' i hi'] at h1
    injection h1 with h1
    have := e3' i hi'
    rw [h1] at this
    simpa [Val.Same] using ih xs[i] (List.getElem_mem _) (e3 i hi) this
  | map ms ih =>
    intro w r h h'
    have hk := h.kind_unique h'
    cases w <;> simp [Val.kind] at hk
    rename_i ns
    cases h with | map c _ e1 _ e2 _ e3 =>
    cases h' with | map c' _ e1' _ e2' _ e3' =>
    rw [e1] at e1'; injection e1' with hl
    simp only [Val.Same, Val.firstWins_map, Val.canon, Val.canonEntries_eq]
    rw [← hl]
    congr 1
    simp only [List.map_map]
    apply List.map_congr_left
    intro m hm
    simp only [Function.comp]
    congr 1
    have hm1 : m.1 ∈ ms.map Prod.fst := List.mem_map_of_mem hm
    have hm2 : m.1 ∈ ns.map Prod.fst := hl ▸ hm1
    obtain ⟨v, hv⟩ := firstVal_isSome.1 hm1
    obtain ⟨w, hw⟩ := firstVal_isSome.1 hm2
    have h1 := e2 _ hm1
    rw [e2' _ hm2] at h1
    injection h1 with h1
    have h3 := e3' _ _ hw
    rw [h1] at h3
    rw [hv, hw]
    exact ih _ (firstVal_mem hv) (e3 _ _ hv) h3

end Reader
end Zer
