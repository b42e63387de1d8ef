import Verif.Transcode

/-!
# Which sign an integer is presented with

`write_value` (translate.hpp:33-72) asks `isInt` before `isUInt` and `isBlob` before `isArray`. `Reader.settled` is the reader as seen
by code that asks in this order: every position is of one kind. What it presents exactly is what a translation writes.
-/

namespace Zer

variable {ρ σ : Type}

/-- The reader as seen by code that asks for the kinds in the order of `write_value`, translate.hpp:34-71: a position that is both
`isInt` and `isUInt` is a signed integer, one that is both `isBlob` and `isArray` a blob. -/
def Reader.settled (R : Reader ρ) : Reader ρ :=
  { R with
    isUInt := fun r => do if ← R.isInt r then pure false else R.isUInt r
    isArray := fun r => do if ← R.isBlob r then pure false else R.isArray r }

/-- What is decided later does not matter where the first answer is no. -/
private theorem bind_ite_congr {α : Type} {x : Res Bool} {a : Res α} {b c : Res α} (h : x = .ok false → b = c) :
    (x >>= fun t => if t = true then a else b) = (x >>= fun t => if t = true then a else c) := by
  cases x with
  | ok t =>
    cases t
    · simpa using h rfl
    · rfl
  | err _ => rfl
  | ub => rfl
  | diverge => rfl

/-- `write_value` does not see the difference. -/
theorem writeValue_settled (R : Reader ρ) (W : Writer σ) : ∀ (f : Nat) (r : ρ) (s : σ),
    writeValue R.settled W f r s = writeValue R W f r s := by
  intro f
  induction f with
  | zero => intro _ _; rfl
  | succ f ih =>
    intro r s
    have hrec : writeValue R.settled W f = writeValue R W f := by funext r s; exact ih r s
    have e1 : ∀ (ks : List Bytes) (s : σ), writeEntries R.settled W (writeValue R W f) r ks s = writeEntries R W (writeValue R W f) r ks s := by
      intro ks
      induction ks with
      | nil => intro _; rfl
      | cons k ks ih => intro s; simp only [writeEntries, ih]; rfl
    have e2 : ∀ (n i : Nat) (s : σ), writeElems R.settled (writeValue R W f) r n i s = writeElems R (writeValue R W f) r n i s := by
      intro n
      induction n with
      | zero => intro _ _; rfl
      | succ n ih => intro i s; simp only [writeElems, ih]; rfl
    simp only [writeValue, hrec, e1, e2]
    refine bind_ite_congr fun _ => bind_ite_congr fun _ => bind_ite_congr fun hi => ?_
    have hu : R.settled.isUInt r = R.isUInt r := by
      show (R.isInt r >>= fun t => if t = true then pure false else R.isUInt r) = _
      rw [show R.isInt r = .ok false from hi]; rfl
    rw [hu]
    refine bind_ite_congr fun _ => bind_ite_congr fun _ => bind_ite_congr fun _ => bind_ite_congr fun hb => ?_
    have ha : R.settled.isArray r = R.isArray r := by
      show (R.isBlob r >>= fun t => if t = true then pure false else R.isArray r) = _
      rw [show R.isBlob r = .ok false from hb]; rfl
    rw [ha]
    rfl

/-- The value with the signs that `signed` gives to its integers. -/
def Val.signs (signed : Int → Bool) : Val → Val
  | .int i => if signed i.toInt then .int i else .uint i.toUInt64
  | .uint n => if signed n.toNat then .int n.toInt64 else .uint n
  | .arr xs => .arr (signsList xs)
  | .map ms => .map (signsEntries ms)
  | v => v
where
  signsList : List Val → List Val
    | [] => []
    | x :: xs => x.signs signed :: signsList xs
  signsEntries : List (Bytes × Val) → List (Bytes × Val)
    | [] => []
    | (k, v) :: ms => (k, v.signs signed) :: signsEntries ms

theorem Val.signsList_eq (g : Int → Bool) (xs : List Val) : Val.signs.signsList g xs = xs.map (Val.signs g) := by
  induction xs with
  | nil => rfl
  | cons x xs ih => simp [Val.signs.signsList, ih]

theorem Val.signsEntries_eq (g : Int → Bool) (ms : List (Bytes × Val)) :
    Val.signs.signsEntries g ms = ms.map (fun m => (m.1, m.2.signs g)) := by
  induction ms with
  | nil => rfl
  | cons m ms ih => obtain ⟨k, v⟩ := m; simp [Val.signs.signsEntries, ih]

theorem Val.signs_arr (g : Int → Bool) (xs : List Val) : (Val.arr xs).signs g = .arr (xs.map (Val.signs g)) := by
  simp only [Val.signs, Val.signsList_eq]

theorem Val.signs_map (g : Int → Bool) (ms : List (Bytes × Val)) : (Val.map ms).signs g = .map (ms.map fun m => (m.1, m.2.signs g)) := by
  simp only [Val.signs, Val.signsEntries_eq]

theorem toInt64_of_lt {n : UInt64} (h : n.toNat < 2 ^ 63) : n.toInt64.toInt = n.toNat := by
  have : n.toInt64.toInt = (n.toNat : Int).bmod (2 ^ 64) := BitVec.toInt_eq_toNat_bmod _
  rw [this, Int.bmod_eq_of_le] <;> omega

/-- A position that presents a value presents it, in the order of `write_value`, with the signs of `isInt`: `K` is what is known of the
positions. -/
theorem Reader.Agrees.signs {R : Reader ρ} {g : Int → Bool} {K : ρ → Val → Prop}
    (kint : ∀ {r i}, K r (.int i) → R.ShowsInt r i.toInt → R.isInt r = .ok (g i.toInt))
    (kuint : ∀ {r} {n : UInt64}, K r (.uint n) → R.ShowsInt r n.toNat → R.isInt r = .ok (g n.toNat))
    (kidx : ∀ {r xs i c}, K r (.arr xs) → R.getIdx r i = .ok c → ∀ h : i < xs.length, K c xs[i])
    (kkey : ∀ {r ms k c w}, K r (.map ms) → R.getKey r k = .ok c → firstVal ms k = some w → K c w) :
    ∀ {r : ρ} {v : Val}, R.Agrees r v → K r v → R.settled.AgreesStrictly r (v.signs g) := by
  have shows : ∀ {r : ρ} {a b n f s bl m ar : Bool}, R.Shows r a b n f s bl m ar → R.settled.Shows r a b n f s bl m (ar && !bl) := by
    intro r a b n f s bl m ar ⟨h1, h2, ⟨i, u, h3, h4, h5⟩, h6, h7, h8, h9, h10⟩
    refine ⟨h1, h2, ⟨i, u && !i, h3, ?_, by revert h5; cases i <;> cases u <;> cases n <;> decide⟩, h6, h7, h8, h9, ?_⟩
    · show (R.isInt r >>= fun t => if t = true then pure false else R.isUInt r) = _
      rw [h3]; cases i
      · simpa using h4
      · simp
    · show (R.isBlob r >>= fun t => if t = true then pure false else R.isArray r) = _
      rw [h8]; cases bl
      · simpa using h10
      · simp
  have sint : ∀ {r : ρ} {z : Int} {t : Bool}, R.ShowsInt r z → R.isInt r = .ok t →
      R.settled.ShowsInt r z ∧ R.settled.isInt r = .ok t ∧ R.settled.isUInt r = .ok (!t) := by
    intro r z t ⟨h1, h2, h3⟩ ht
    have hu : R.settled.isUInt r = .ok (!t) := by
      show (R.isInt r >>= fun t => if t = true then pure false else R.isUInt r) = _
      rw [ht]
      cases t
      · obtain ⟨-, -, ⟨i, u, k1, k2, k3⟩, -⟩ := h1
        rw [ht] at k1; cases k1
        simp only [Bool.false_or] at k3; subst k3
        simpa using k2
      · simp
    refine ⟨⟨shows h1, h2, fun h => ?_⟩, ht, hu⟩
    rw [hu] at h
    cases t
    · obtain ⟨-, -, ⟨i, u, k1, k2, k3⟩, -⟩ := h1
      rw [ht] at k1; cases k1
      simp only [Bool.false_or] at k3; subst k3
      exact h3 k2
    · cases h
  intro r v h
  induction h with
  | null h => intro _; exact .null (shows h)
  | bool h h' => intro _; exact .bool (shows h) h'
  | @int r i h _ =>
    intro k
    obtain ⟨s1, s2, s3⟩ := sint h (kint k h)
    simp only [Val.signs]
    cases e : g i.toInt
    · rw [e] at s2 s3
      obtain ⟨y, -, hy⟩ := s1.2.2 s3
      have : (i.toUInt64.toNat : Int) = i.toInt := by
        have := Val.Same.toNat (i := i) (by omega); omega
      simp only [Bool.false_eq_true, if_false]
      exact .uint (by rw [this]; exact s1) fun _ => ⟨s2, s3⟩
    · rw [e] at s2 s3
      simp only [if_true]
      exact .int s1 fun _ => ⟨s2, s3⟩
  | @uint r n h _ =>
    intro k
    obtain ⟨s1, s2, s3⟩ := sint h (kuint k h)
    simp only [Val.signs]
    cases e : g n.toNat
    · rw [e] at s2 s3
      simp only [Bool.false_eq_true, if_false]
      exact .uint s1 fun _ => ⟨s2, s3⟩
    · rw [e] at s2 s3
      obtain ⟨x, -, hx⟩ := s1.2.1 s2
      have := x.toInt_lt
      simp only [if_true]
      exact .int (by rw [toInt64_of_lt (by omega)]; exact s1) fun _ => ⟨s2, s3⟩
  | dbl h h' => intro _; exact .dbl (shows h) h'
  | str h h' h'' => intro _; exact .str (shows h) h' h''
  | blob h h' h'' => intro _; exact .blob (shows h) h' fun _ => by simp
  | @arr r xs c h1 h2 h3 h4 _ ih =>
    intro k
    rw [Val.signs_arr]
    refine .arr c (shows h1) (by rw [List.length_map]; exact h2) (by rw [List.length_map]; exact h3) (by rw [List.length_map]; exact h4)
      fun i hi => ?_
    rw [List.length_map] at hi
    rw [List.getElem_map]
    exact ih i hi (kidx k (h3 i hi) hi)
  | @map r ms c h1 h2 h3 h4 h5 _ ih =>
    intro k
    rw [Val.signs_map]
    have e : List.map Prod.fst (ms.map fun m => (m.1, m.2.signs g)) = ms.map Prod.fst := by simp [List.map_map, Function.comp]
    refine .map c (shows h1) (by rw [e]; exact h2) (by rw [e]; exact h3) (by rw [e]; exact h4) (by rw [e]; exact h5) fun key v hv => ?_
    rw [Json.firstVal_map] at hv
    obtain ⟨w, hw, rfl⟩ := Option.map_eq_some_iff.1 hv
    have hk : key ∈ ms.map Prod.fst := firstVal_isSome.2 ⟨w, hw⟩
    exact ih key w hw (kkey k (h4 key hk) hw)

/-- A reader that tells the kinds apart is settled as it is. -/
theorem Reader.AgreesStrictly.settled {R : Reader ρ} {r : ρ} {v : Val} (h : R.AgreesStrictly r v) : R.settled.AgreesStrictly r v := by
  have shows : ∀ {r : ρ} {a b f s bl m ar : Bool}, R.Shows r a b false f s bl m ar → (bl = true → ar = false) →
      R.settled.Shows r a b false f s bl m ar := by
    intro r a b f s bl m ar ⟨h1, h2, ⟨i, u, h3, h4, h5⟩, h6, h7, h8, h9, h10⟩ hba
    simp only [Bool.or_eq_false_iff] at h5
    obtain ⟨rfl, rfl⟩ := h5
    refine ⟨h1, h2, ⟨false, false, h3, ?_, rfl⟩, h6, h7, h8, h9, ?_⟩
    · show (R.isInt r >>= fun t => if t = true then pure false else R.isUInt r) = _
      rw [h3]; simpa using h4
    · show (R.isBlob r >>= fun t => if t = true then pure false else R.isArray r) = _
      rw [h8]; cases bl
      · simpa using h10
      · simp [hba rfl]
  have sint : ∀ {r : ρ} {z : Int} {t : Bool}, R.ShowsInt r z → R.isInt r = .ok t → R.isUInt r = .ok (!t) →
      R.settled.ShowsInt r z ∧ R.settled.isUInt r = .ok (!t) := by
    intro r z t ⟨⟨h1, h2, _, h6, h7, h8, h9, h10⟩, h2', h3'⟩ ht htu
    have hu : R.settled.isUInt r = .ok (!t) := by
      show (R.isInt r >>= fun t => if t = true then pure false else R.isUInt r) = _
      rw [ht]; cases t
      · simpa using htu
      · simp
    refine ⟨⟨⟨h1, h2, ⟨t, !t, ht, hu, by cases t <;> rfl⟩, h6, h7, h8, h9, ?_⟩, h2', fun h => ?_⟩, hu⟩
    · show (R.isBlob r >>= fun t => if t = true then pure false else R.isArray r) = _
      rw [h8]; simpa using h10
    · rw [hu] at h
      rw [htu] at h3'
      exact h3' h
  induction h with
  | null h => exact .null (shows h (by simp))
  | bool h h' => exact .bool (shows h (by simp)) h'
  | int h h' =>
    obtain ⟨k1, k2⟩ := h' trivial
    obtain ⟨s1, s2⟩ := sint h k1 k2
    exact .int s1 fun _ => ⟨k1, s2⟩
  | uint h h' =>
    obtain ⟨k1, k2⟩ := h' trivial
    obtain ⟨s1, s2⟩ := sint h k1 k2
    exact .uint s1 fun _ => ⟨k1, s2⟩
  | dbl h h' => exact .dbl (shows h (by simp)) h'
  | str h h' h'' => exact .str (shows h (by simp)) h' h''
  | blob h h' h'' => exact .blob (shows h fun _ => h'' trivial) h' h''
  | arr c h1 h2 h3 h4 _ ih => exact .arr c (shows h1 (by simp)) h2 h3 h4 ih
  | map c h1 h2 h3 h4 h5 _ ih => exact .map c (shows h1 (by simp)) h2 h3 h4 h5 ih

/-- A reader for which every unsigned integer is a signed one presents all integers as signed. -/
theorem Reader.Agrees.allSigned {R : Reader ρ} (hR : ∀ r, R.isUInt r = .ok true → R.isInt r = .ok true) {r : ρ} {v : Val}
    (h : R.Agrees r v) : R.settled.AgreesStrictly r (v.signs fun _ => true) := by
  have k : ∀ {r : ρ} {z : Int}, R.ShowsInt r z → R.isInt r = .ok true := by
    intro r z ⟨⟨_, _, ⟨i, u, h3, h4, h5⟩, _⟩, _⟩
    cases i
    · simp only [Bool.false_or] at h5; subst h5
      exact hR r h4
    · exact h3
  exact Reader.Agrees.signs (K := fun _ _ => True) (fun _ h => k h) (fun _ h => k h) (fun _ _ _ => trivial) (fun _ _ _ => trivial) h trivial

/-! ## Paths -/

/-- One step into a document. -/
inductive Hop where
  | idx (i : Nat)
  | key (k : Bytes)

/-- The value that stands at the end of a path; the first one under a repeated key. -/
def Val.at (v : Val) : List Hop → Option Val
  | [] => some v
  | .idx i :: p => match v with
    | .arr xs => if h : i < xs.length then Val.at xs[i] p else none
    | _ => none
  | .key k :: p => match v with
    | .map ms => match firstVal ms k with
      | some w => Val.at w p
      | none => none
    | _ => none

/-- `r[k1][i2]...`: the lookups of a path. -/
def Reader.goto (R : Reader ρ) : List Hop → ρ → Res ρ
  | [], r => .ok r
  | .idx i :: p, r => R.getIdx r i >>= R.goto p
  | .key k :: p, r => R.getKey r k >>= R.goto p

/-- Where a value stands in a document, the lookups arrive at a position that presents it. -/
theorem Reader.AgreesW.at {R : Reader ρ} {q : Prop} : ∀ (p : List Hop) {r : ρ} {v w : Val}, R.AgreesW q r v → v.at p = some w →
    ∃ c, R.goto p r = .ok c ∧ R.AgreesW q c w := by
  intro p
  induction p with
  | nil => intro r v w h hw; cases hw; exact ⟨r, rfl, h⟩
  | cons s p ih =>
    intro r v w h hw
    cases s with
    | idx i =>
      cases h with
      | @arr _ xs c _ _ h3 _ h5 =>
        simp only [Val.at] at hw
        by_cases hi : i < xs.length
        · rw [dif_pos hi] at hw
          obtain ⟨d, k1, k2⟩ := ih (h5 i hi) hw
          exact ⟨d, by simp only [Reader.goto, h3 i hi, Res.ok_bind, k1], k2⟩
        · rw [dif_neg hi] at hw; cases hw
      | _ => simp [Val.at] at hw
    | key k =>
      cases h with
      | @map _ ms c _ _ _ h4 _ h6 =>
        simp only [Val.at] at hw
        cases hf : firstVal ms k with
        | none => rw [hf] at hw; cases hw
        | some x =>
          rw [hf] at hw
          obtain ⟨d, k1, k2⟩ := ih (h6 k x hf) hw
          exact ⟨d, by simp only [Reader.goto, h4 k (firstVal_isSome.2 ⟨x, hf⟩), Res.ok_bind, k1], k2⟩
      | _ => simp [Val.at] at hw

theorem Reader.goto_settled (R : Reader ρ) : ∀ p r, R.settled.goto p r = R.goto p r := by
  intro p
  have : ∀ {α β : Type} {x : Res α} {f g : α → Res β}, (∀ a, f a = g a) → (x >>= f) = (x >>= g) := by
    intro α β x f g h; rw [funext h]
  induction p with
  | nil => intro _; rfl
  | cons s p ih =>
    intro r
    cases s with
    | idx i => exact this ih
    | key k => exact this ih

theorem firstVal_signs (g : Int → Bool) : ∀ (ms : List (Bytes × Val)) (k : Bytes),
    firstVal (ms.map fun m => (m.1, m.2.signs g)) k = (firstVal ms k).map (Val.signs g)
  | [], _ => rfl
  | (k', v) :: ms, k => by
    simp only [List.map_cons, firstVal]
    by_cases e : k' = k
    · simp [e]
    · simp [e, firstVal_signs g ms k]

theorem Val.at_signs (g : Int → Bool) : ∀ (p : List Hop) {v w : Val}, v.at p = some w → (v.signs g).at p = some (w.signs g) := by
  intro p
  induction p with
  | nil => intro v w h; cases h; rfl
  | cons s p ih =>
    intro v w h
    cases s with
    | idx i =>
      cases v <;> simp only [Val.at] at h <;> try (cases h; done)
      rename_i xs
      by_cases hi : i < xs.length
      · rw [dif_pos hi] at h
        rw [Val.signs_arr]
        simp only [Val.at]
        rw [dif_pos (by simpa using hi), List.getElem_map]
        exact ih h
      · rw [dif_neg hi] at h; cases h
    | key k =>
      cases v <;> simp only [Val.at] at h <;> try (cases h; done)
      rename_i ms
      rw [Val.signs_map]
      simp only [Val.at, firstVal_signs]
      cases hf : firstVal ms k with
      | none => rw [hf] at h; cases h
      | some x => rw [hf] at h; exact ih h

theorem Val.at_canon : ∀ (p : List Hop) {v w : Val}, v.at p = some w → v.canon.at p = some w.canon := by
  intro p
  induction p with
  | nil => intro v w h; cases h; rfl
  | cons s p ih =>
    intro v w h
    cases s with
    | idx i =>
      cases v <;> simp only [Val.at] at h <;> try (cases h; done)
      rename_i xs
      by_cases hi : i < xs.length
      · rw [dif_pos hi] at h
        simp only [Val.canon, Val.canonList_eq, Val.at]
        rw [dif_pos (by simpa using hi), List.getElem_map]
        exact ih h
      · rw [dif_neg hi] at h; cases h
    | key k =>
      cases v <;> simp only [Val.at] at h <;> try (cases h; done)
      rename_i ms
      simp only [Val.canon, Val.at, firstVal_canonEntries]
      cases hf : firstVal ms k with
      | none => rw [hf] at h; cases h
      | some x => rw [hf] at h; exact ih h

/-- What stands at the same place in two values that are equal up to signs is equal up to signs. -/
theorem Val.Same.at {p : List Hop} {v w x y : Val} (h : v.Same w) (hx : v.at p = some x) (hy : w.at p = some y) : x.Same y := by
  have h1 := Val.at_canon p hx
  rw [show v.canon = w.canon from h, Val.at_canon p hy] at h1
  exact (Option.some.inj h1).symm

/-! ## Signs and numbers -/

/-- The signs do not depend on those there were. -/
theorem Val.signs_canon (g : Int → Bool) : ∀ v : Val, v.canon.signs g = v.signs g := by
  intro v
  induction v using Val.ind with
  | int i =>
    by_cases h : 0 ≤ i.toInt
    · simp only [Val.canon, if_pos h, Val.signs]
      have e : ((i.toUInt64.toNat : Nat) : Int) = i.toInt := by rw [Val.Same.toNat h]; omega
      rw [e]
      split
      · rfl
      · rfl
    · simp only [Val.canon, if_neg h]
  | arr xs ih =>
    simp only [Val.canon, Val.canonList_eq, Val.signs_arr, List.map_map]
    congr 1
    exact List.map_congr_left fun x hx => ih x hx
  | map ms ih =>
    simp only [Val.canon, Val.canonEntries_eq, Val.signs_map, List.map_map]
    congr 1
    refine List.map_congr_left fun m hm => ?_
    simp only [Function.comp, ih m hm]
  | _ => rfl

theorem Val.signs_same (g : Int → Bool) {v w : Val} (h : v.Same w) : v.signs g = w.signs g := by
  rw [← Val.signs_canon g v, ← Val.signs_canon g w, show v.canon = w.canon from h]

/-- The signs are possible: negative numbers are signed, numbers of 2^63 and above are not. -/
def Val.Sane (g : Int → Bool) : Val → Prop := Val.Each
  (fun v => match v with
    | .int i => i.toInt < 0 → g i.toInt = true
    | .uint n => 2 ^ 63 ≤ n.toNat → g n.toNat = false
    | _ => True) (fun _ => True)

theorem Val.same_signs (g : Int → Bool) : ∀ {v : Val}, v.Sane g → (v.signs g).Same v := by
  intro v
  induction v using Val.ind with
  | int i =>
    intro h
    simp only [Val.signs]
    split
    · rfl
    · rename_i hg
      have h0 : 0 ≤ i.toInt := by
        by_cases h0 : i.toInt < 0
        · exact absurd (h h0) hg
        · omega
      exact (Val.canon_int_eq (by rw [Val.Same.toNat h0]; omega)).symm
  | uint n =>
    intro h
    simp only [Val.signs]
    split
    · rename_i hg
      have h0 : n.toNat < 2 ^ 63 := by
        by_cases h0 : 2 ^ 63 ≤ n.toNat
        · exact absurd hg (by rw [h h0]; decide)
        · omega
      exact Val.canon_int_eq (toInt64_of_lt h0)
    · rfl
  | arr xs ih =>
    intro h
    rw [Val.signs_arr]
    simp only [Val.Same, Val.canon, Val.canonList_eq, List.map_map]
    congr 1
    exact List.map_congr_left fun x hx => ih x hx ((Val.eachList_iff xs).1 h.2 x hx)
  | map ms ih =>
    intro h
    rw [Val.signs_map]
    simp only [Val.Same, Val.canon, Val.canonEntries_eq, List.map_map]
    congr 1
    refine List.map_congr_left fun m hm => ?_
    simp only [Function.comp]
    rw [ih m hm ((Val.eachEntries_iff ms).1 h.2 m hm).2]
  | _ => intro _; rfl

theorem Val.sane_small {g : Int → Bool} (hg : ∀ z, z < 2 ^ 63 → g z = true) {v : Val} (h : v.Small) : v.Sane g :=
  Val.Each.mono (fun v h => by
    cases v with
    | int i => exact fun h0 => hg _ (by omega)
    | uint n =>
      have h : n.toNat < 2 ^ 63 := h
      exact fun h0 => absurd h (by omega)
    | _ => trivial) (fun _ h => h) h

theorem Val.each_true (v : Val) : v.Each (fun _ => True) (fun _ => True) := by
  induction v using Val.ind with
  | arr xs ih => exact ⟨trivial, (Val.eachList_iff xs).2 ih⟩
  | map ms ih => exact ⟨trivial, (Val.eachEntries_iff ms).2 fun m hm => ⟨trivial, ih m hm⟩⟩
  | _ => trivial

theorem Val.sane_msgpack (v : Val) : v.Sane (fun z => decide (z < 128)) :=
  Val.Each.mono (fun v _ => by
    cases v with
    | int i => exact fun h0 => decide_eq_true (by omega)
    | uint n => exact fun h0 => decide_eq_false (by omega)
    | _ => trivial) (fun _ h => h) (Val.each_true v)

/-! ## The formats -/

/-- What `P` writes for a value in the domain, it presents as the value `s v`, in the order of `write_value`. -/
def Proto.Settles (P : Proto) (s : Val → Val) (D : Val → Prop) : Prop :=
  ∀ v b, D v → P.serialize v = .ok b → ∃ r, P.opn b = .ok r ∧ P.reader.settled.AgreesStrictly r (s v)

theorem Zera.settles : Zera.proto.Settles id (fun _ => True) := by
  intro v b _ hb
  obtain ⟨r, h1, h2⟩ := Zera.proto_roundTrips v b trivial hb
  exact ⟨r, h1, Reader.AgreesStrictly.settled h2⟩

theorem Flex.settles {L : Flex.Lib} (H : L.Law) (dbg : Bool) :
    (Flex.proto L dbg).Settles Val.sortKeys (fun v => v.Distinct ∧ v.NulFree ∧ Flex.Fits v) := by
  intro v b ⟨hd, hn, hf⟩ hb
  obtain ⟨b', r, h1, h2, h3⟩ := Flex.c35_flex_round_trip H dbg hd hn hf
  rw [hb] at h1; cases h1
  exact ⟨r, h2, Reader.AgreesStrictly.settled h3⟩

theorem Cbor.settles {utf8 : Bytes → Bool} {maxDepth fuel : Nat} :
    (Cbor.proto utf8 maxDepth false fuel).Settles (Val.signs fun _ => true) (Cbor.Dom utf8 maxDepth fuel) := by
  intro v b hv hb
  obtain ⟨r, h1, h2⟩ := Cbor.proto_roundTrips v b hv hb
  refine ⟨r, h1, Reader.Agrees.allSigned (fun r h => ?_) h2.agrees⟩
  obtain ⟨x, hx, h⟩ := Res.bind_eq_ok.1 (show (r.head >>= fun h => pure (decide (h.major = 0))) = .ok true from h)
  show (r.head >>= fun h => pure (decide (h.major = 0 ∨ h.major = 1))) = .ok true
  have h : x.major = 0 := of_decide_eq_true (Res.ok.inj h)
  rw [hx]
  simp [h]

theorem Json.settles {T : Json.Text} (L : T.Law) (dbg : Bool) :
    (Json.proto T dbg).Settles (Val.signs fun _ => true) (fun v => Json.Plain v ∧ Json.KeysOk v) := by
  intro v b hv hb
  obtain ⟨r, h1, h2⟩ := Json.proto_roundTrips L dbg v b hv hb
  refine ⟨r, h1, Reader.Agrees.allSigned (fun r h => ?_) h2.agrees⟩
  have h : Json.isUInt r = true := Res.ok.inj h
  show Res.ok (Json.isInt r) = .ok true
  cases r <;> first | rfl | cases h

namespace MsgPack

/-- The chunks that the writer makes of the entries of a map: key, value, key, value. -/
def chunks : List (Bytes × Val) → List Bytes
  | [] => []
  | (k, v) :: ms => (packStrHead k.length ++ k) :: pack (emit v) :: chunks ms

theorem encEntries_chunks : ∀ ms : List (Bytes × Val), Val.sizedEntries ms → EncEntries ms (chunks ms)
  | [], _ => by simp [EncEntries, chunks]
  | (k, v) :: ms, h => by
    simp only [Val.sizedEntries] at h
    simp only [EncEntries, chunks]
    exact ⟨_, _, _, packStrHead_ok h.1, enc_pack v h.2.1, encEntries_chunks ms h.2.2, rfl⟩

theorem pack_chunks : ∀ ms : List (Bytes × Val), pack (emitEntries ms) = (chunks ms).flatten
  | [] => by simp [pack, emitEntries, chunks]
  | (k, v) :: ms => by
    have : pack (.key k :: (emit v ++ emitEntries ms)) =
        (packStrHead k.length ++ k) ++ (pack (emit v) ++ pack (emitEntries ms)) := by
      simp [pack, packEv]
    simp only [emitEntries, this, pack_chunks ms, chunks, List.flatten_cons]

/-- A lookup in a written map gives what was written for the value. -/
theorem getKeyFrom_chunks (key : Bytes) : ∀ (ms : List (Bytes × Val)) (pre rest : Bytes), Val.Below.belowEntries Lim ms →
    Val.sizedEntries ms → ∀ v, firstVal ms key = some v →
    getKeyFrom (pre ++ ((chunks ms).flatten ++ rest)) key ms.length pre.length = .ok (pack (emit v))
  | [], pre, rest, _, _, v, h => by cases h
  | (k, v) :: ms, pre, rest, hb, hz, w, hw => by
    simp only [Val.Below.belowEntries] at hb
    simp only [Val.sizedEntries] at hz
    obtain ⟨c, hc⟩ : ∃ c, c = pack (emit v) := ⟨_, rfl⟩
    obtain ⟨hd, hhd⟩ : ∃ hd, hd = packStrHead k.length := ⟨_, rfl⟩
    have H : StrHead k.length hd := by rw [hhd]; exact packStrHead_ok hz.1
    have E1 : Elem Lim (hd ++ k) := .str H hb.1
    have E2 : Elem Lim c := Enc.elem v hb.2.1 (by rw [hc]; exact enc_pack v hz.2.1)
    have e0 : chunks ((k, v) :: ms) = (hd ++ k) :: c :: chunks ms := by rw [hc, hhd]; rfl
    have e : ((hd ++ k) :: c :: chunks ms).flatten ++ rest = (hd ++ k) ++ (c ++ ((chunks ms).flatten ++ rest)) := by
      simp
    have e' : pre ++ ((hd ++ k) ++ (c ++ ((chunks ms).flatten ++ rest))) =
        (pre ++ (hd ++ k)) ++ (c ++ ((chunks ms).flatten ++ rest)) := by simp
    have e'' : pre.length + (hd ++ k).length = (pre ++ (hd ++ k)).length := by simp
    have step : getKeyFrom (pre ++ (((hd ++ k) :: c :: chunks ms).flatten ++ rest)) key
        (ms.length + 1) pre.length =
        if k = key then .ok c else getKeyFrom ((pre ++ (hd ++ k) ++ c) ++ ((chunks ms).flatten ++ rest)) key
          ms.length (pre ++ (hd ++ k) ++ c).length := by
      simp only [getKeyFrom, subspan_append, Res.ok_bind]
      rw [e, E1.skip]
      simp only [Res.ok_bind, first_append]
      rw [e', e'', subspan_append]
      simp only [Res.ok_bind]
      rw [E2.skip]
      simp only [Res.ok_bind, keyHit_str H, first_append]
      by_cases hk : k = key
      · simp [hk]
      · simp [hk, Nat.add_assoc]
    simp only [List.length_cons, e0, step]
    by_cases hk : k = key
    · subst hk
      simp only [firstVal, if_true] at hw; cases hw
      simp [hc]
    · simp only [firstVal, if_neg hk] at hw
      rw [if_neg hk]
      exact getKeyFrom_chunks key ms (pre ++ (hd ++ k) ++ c) rest hb.2.2 hz.2.2 w hw

theorem isInt_packUInt {n : Nat} : isInt (packUInt n) = decide ((n : Int) < 128) := by
  unfold packUInt
  by_cases h : n < 2 ^ 7
  · rw [if_pos h]
    have : (UInt8.ofNat n).toNat = n := by simp; omega
    simp only [isInt, onMarker, this]
    rw [decide_eq_true (p := (n : Int) < 128) (by omega)]
    exact decide_eq_true (.inl (by omega))
  · rw [if_neg h, decide_eq_false (p := (n : Int) < 128) (by omega)]
    split
    · simp [isInt, onMarker]
    split
    · simp [isInt, onMarker]
    split
    · simp [isInt, onMarker]
    · simp [isInt, onMarker]

theorem isInt_packInt {i : Int} : isInt (packInt i) = decide (i < 128) := by
  unfold packInt
  by_cases h : i < -(2 ^ 5)
  · rw [if_pos h, decide_eq_true (p := i < 128) (by omega)]
    split
    · split <;> simp [isInt, onMarker]
    · split <;> simp [isInt, onMarker]
  · rw [if_neg h]
    by_cases h0 : i < 0
    · rw [if_pos h0, decide_eq_true (p := i < 128) (by omega)]
      have : (UInt8.ofNat (i + 2 ^ 8).toNat).toNat = (i + 2 ^ 8).toNat := by simp; omega
      simp only [isInt, onMarker, this]
      exact decide_eq_true (.inr (.inl (by omega)))
    · rw [if_neg h0, isInt_packUInt]
      have e : (i.toNat : Int) = i := Int.toNat_of_nonneg (by omega)
      rw [e]

/-- What MessagePack writes it presents with the integers below 128 as signed, the others as unsigned. -/
theorem settles : MsgPack.proto.Settles (Val.signs fun z => decide (z < 128)) (fun v => v.Sized ∧ v.Below (2 ^ 32 - 5)) := by
  intro v b ⟨hs, hl⟩ hb
  obtain ⟨r, h1, h2⟩ := proto_roundTrips v b ⟨hs, hl⟩ hb
  have e : b = r := Res.ok.inj h1
  subst e
  rw [serialize_eq] at hb
  refine ⟨b, rfl, Reader.Agrees.signs (R := reader) (K := fun b v => b = pack (emit v) ∧ v.Sized ∧ v.Below Lim) ?_ ?_ ?_ ?_ h2.agrees
    ⟨(Res.ok.inj hb).symm, hs, hl⟩⟩
  · rintro r i ⟨rfl, _⟩ _
    show Res.ok (isInt _) = _
    rw [← isInt_packInt]
    simp [pack, emit, packEv]
  · rintro r n ⟨rfl, _⟩ _
    show Res.ok (isInt _) = _
    rw [← isInt_packUInt]
    simp [pack, emit, packEv]
  · rintro r xs i c ⟨rfl, hs, hl⟩ hc hi
    simp only [Val.Sized] at hs
    have hl : Val.Below.belowList Lim xs := by simpa only [Val.Below] using hl
    have key : ∀ xs : List Val, Val.sizedList xs → Val.Below.belowList Lim xs →
        EncList xs (xs.map fun x => pack (emit x)) ∧ pack (emitList xs) = (xs.map fun x => pack (emit x)).flatten := by
      intro xs
      induction xs with
      | nil => intro _ _; simp [EncList, pack, emitList]
      | cons x xs ih =>
        intro h1 h2
        simp only [Val.sizedList] at h1
        simp only [Val.Below.belowList] at h2
        obtain ⟨k1, k2⟩ := ih h1.2 h2.2
        refine ⟨?_, by simp only [emitList, pack_append, k2, List.map_cons, List.flatten_cons]⟩
        simp only [EncList, List.map_cons]
        exact ⟨_, _, enc_pack x h1.1, k1, rfl⟩
    obtain ⟨k1, k2⟩ := key xs hs.2 hl
    obtain ⟨h1, h2⟩ := EncList.elem xs hl k1
    have e : pack (emit (.arr xs)) = packArrHead xs.length ++ (xs.map fun x => pack (emit x)).flatten ++ [] := by
      rw [← k2]; simp [pack, emit, packEv]
    have hi' : i < (xs.map fun x => pack (emit x)).length := by simpa using hi
    have g := getIdx_chunks (h := packArrHead xs.length) (cs := xs.map fun x => pack (emit x))
      (by simpa using packArrHead_ok hs.1) h2 [] hi'
    rw [← e] at g
    have := (show getIdx (pack (emit (.arr xs))) i = .ok c from hc).symm.trans g
    refine ⟨by rw [Res.ok.inj this, List.getElem_map], ?_, (Val.belowList_iff xs).1 hl _ (List.getElem_mem _)⟩
    have : ∀ (xs : List Val), Val.sizedList xs → ∀ x ∈ xs, x.Sized := by
      intro xs
      induction xs with
      | nil => intro _ x hx; cases hx
      | cons y ys ih =>
        intro h x hx
        simp only [Val.sizedList] at h
        rcases List.mem_cons.1 hx with rfl | hx
        · exact h.1
        · exact ih h.2 x hx
    exact this xs hs.2 _ (List.getElem_mem _)
  · rintro r ms k c w ⟨rfl, hs, hl⟩ hc hw
    simp only [Val.Sized] at hs
    have hl : Val.Below.belowEntries Lim ms := by simpa only [Val.Below] using hl
    have e : pack (emit (.map ms)) = packMapHead ms.length ++ ((chunks ms).flatten ++ []) := by
      rw [← pack_chunks]; simp [pack, emit, packEv]
    have H : MapHead ms.length (packMapHead ms.length) := packMapHead_ok hs.1
    have hm : isMap (packMapHead ms.length ++ ((chunks ms).flatten ++ [])) = true := by
      have := (shows_map H ((chunks ms).flatten ++ [])).2.2.2.2.2.2.1; injection this
    have g : getKey (pack (emit (.map ms))) k = .ok (pack (emit w)) := by
      rw [e]
      simp only [getKey, hm, Res.require_true, Res.ok_bind, mapInfo_head H]
      exact getKeyFrom_chunks k ms (packMapHead ms.length) [] hl hs.2 w hw
    have := (show getKey (pack (emit (.map ms))) k = .ok c from hc).symm.trans g
    have hmem := firstVal_mem hw
    refine ⟨Res.ok.inj this, ?_, ((Val.belowEntries_iff ms).1 hl _ hmem).2⟩
    have : ∀ (ms : List (Bytes × Val)), Val.sizedEntries ms → ∀ m ∈ ms, m.2.Sized := by
      intro ms
      induction ms with
      | nil => intro _ x hx; cases hx
      | cons y ys ih =>
        obtain ⟨k, v⟩ := y
        intro h x hx
        simp only [Val.sizedEntries] at h
        rcases List.mem_cons.1 hx with rfl | hx
        · exact h.2.1
        · exact ih h.2.2 x hx
    exact this ms hs.2 _ hmem

end MsgPack

end Zer
