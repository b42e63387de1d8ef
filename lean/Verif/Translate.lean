import Verif.Reach

/-!
# The generic bridge from a reader to a writer

Model of `include/zerialize/translate.hpp` (cited as `translate.hpp`), over an arbitrary `Reader`
and an arbitrary `Writer`, and its correctness with respect to `Agrees`.
-/

namespace Zer

variable {ρ σ : Type}

/-- `for (...) { w.key(std::string(k)); write_value(v[k], w); }`, translate.hpp:54-57. `rec` is the
recursive call. -/
def writeEntries (R : Reader ρ) (W : Writer σ) (rec : ρ → σ → Res σ) (r : ρ) :
    List Bytes → σ → Res σ
  | [], s => pure s
  | k :: ks, s => do
    let s1 ← W.step s (.key k)
    let c ← R.getKey r k
    let s2 ← rec c s1
    writeEntries R W rec r ks s2

/-- `for (i = start; i < start + n; ++i) write_value(v[i], w);`, translate.hpp:65. -/
def writeElems (R : Reader ρ) (rec : ρ → σ → Res σ) (r : ρ) : Nat → Nat → σ → Res σ
  | 0, _, s => pure s
  | n + 1, i, s => do
    let c ← R.getIdx r i
    let s' ← rec c s
    writeElems R rec r n (i + 1) s'

/-- `write_value`, translate.hpp:33-72. The fuel bounds the recursion depth. The key range is
traversed twice (lines 51 and 54); the model traverses it once because `mapKeys` is a pure function
of the position. -/
def writeValue (R : Reader ρ) (W : Writer σ) : Nat → ρ → σ → Res σ
  | 0, _, _ => .diverge
  | f + 1, r, s => do
    if ← R.isNull r then W.step s .null
    else if ← R.isBool r then do let b ← R.asBool r; W.step s (.bool b)
    else if ← R.isInt r then do let i ← R.asInt64 r; W.step s (.int i)
    else if ← R.isUInt r then do let n ← R.asUInt64 r; W.step s (.uint n)
    else if ← R.isFloat r then do let d ← R.asDouble r; W.step s (.dbl d)
    else if ← R.isString r then do let x ← R.asStringView r; W.step s (.str x)
    else if ← R.isBlob r then do let x ← R.asBlob r; W.step s (.blob x)
    else if ← R.isMap r then do
      let ks ← R.mapKeys r
      let s ← W.step s (.beginMap ks.length)
      let s ← writeEntries R W (writeValue R W f) r ks s
      W.step s .endMap
    else if ← R.isArray r then do
      let n ← R.arraySize r
      let s ← W.step s (.beginArr n)
      let s ← writeElems R (writeValue R W f) r n 0 s
      W.step s .endArr
    else .err .runtime

mutual
/-- Nesting depth of a value; a scalar has depth 1. -/
def Val.depth : Val → Nat
  | .arr xs => depthList xs + 1
  | .map ms => depthEntries ms + 1
  | _ => 1
def Val.depthList : List Val → Nat
  | [] => 0
  | x :: xs => max x.depth (depthList xs)
def Val.depthEntries : List (Bytes × Val) → Nat
  | [] => 0
  | (_, v) :: ms => max v.depth (depthEntries ms)
end

theorem Val.depth_le_list {x : Val} {xs : List Val} (h : x ∈ xs) : x.depth ≤ depthList xs := by
  induction xs with
  | nil => simp at h
  | cons y ys ih =>
    simp only [Val.depthList]
    rcases List.mem_cons.1 h with rfl | h
    · omega
    · have := ih h; omega

theorem Val.depth_le_entries {k : Bytes} {v : Val} {ms : List (Bytes × Val)} (h : (k, v) ∈ ms) :
    v.depth ≤ depthEntries ms := by
  induction ms with
  | nil => simp at h
  | cons y ys ih =>
    obtain ⟨k', v'⟩ := y
    simp only [Val.depthEntries]
    rcases List.mem_cons.1 h with h | h
    · injection h with _ h; subst h; omega
    · have := ih h; omega

theorem Val.canon_firstWins_eq {v w : Val} (h : v = w) : v.Same w := by subst h; rfl

/-- What `write_value` writes for a position: a chosen signedness for every integer. -/
theorem Val.canon_int_of {i : Int64} {n : UInt64} (h : (n.toNat : Int) = i.toInt) :
    (Val.uint n).Same (.int i) := (Val.canon_int_eq h.symm).symm

theorem emitList_eq (xs : List Val) : emitList xs = (xs.map emit).flatten := by
  induction xs with
  | nil => rfl
  | cons x xs ih => simp [emitList, ih]

theorem emitEntries_eq (ms : List (Bytes × Val)) :
    emitEntries ms = (ms.map (fun m => Ev.key m.1 :: emit m.2)).flatten := by
  induction ms with
  | nil => rfl
  | cons x xs ih => obtain ⟨k, v⟩ := x; simp [emitEntries, ih]

/-- The loop over array elements writes the elements one after the other. -/
theorem writeElems_run {R : Reader ρ} {W : Writer σ} {rec : ρ → σ → Res σ} {r : ρ}
    {child : Nat → ρ} {f : Nat → Val} : ∀ (n i : Nat) (s : σ),
    (∀ j, i ≤ j → j < i + n → R.getIdx r j = .ok (child j)) →
    (∀ j, i ≤ j → j < i + n → ∀ s, rec (child j) s = W.run s (emit (f j))) →
    writeElems R rec r n i s = W.run s (emitList ((List.range' i n).map f))
  | 0, i, s, _, _ => by simp [writeElems, emitList]
  | n + 1, i, s, h1, h2 => by
    rw [List.range'_succ]
    simp only [writeElems, List.map_cons, emitList, W.run_append]
    rw [h1 i (by omega) (by omega)]
    simp only [Res.ok_bind]
    rw [h2 i (by omega) (by omega)]
    congr 1; funext s'
    exact writeElems_run n (i + 1) s' (fun j hj hj' => h1 j (by omega) (by omega))
      (fun j hj hj' => h2 j (by omega) (by omega))

/-- The loop over map entries writes key and value alternately. -/
theorem writeEntries_run {R : Reader ρ} {W : Writer σ} {rec : ρ → σ → Res σ} {r : ρ}
    {child : Bytes → ρ} {f : Bytes → Val} : ∀ (ks : List Bytes) (s : σ),
    (∀ k ∈ ks, R.getKey r k = .ok (child k)) →
    (∀ k ∈ ks, ∀ s, rec (child k) s = W.run s (emit (f k))) →
    writeEntries R W rec r ks s = W.run s (emitEntries (ks.map (fun k => (k, f k))))
  | [], s, _, _ => by simp [writeEntries, emitEntries]
  | k :: ks, s, h1, h2 => by
    simp only [writeEntries, List.map_cons, emitEntries, Writer.run_cons, W.run_append]
    congr 1; funext s1
    rw [h1 k (by simp)]
    simp only [Res.ok_bind]
    rw [h2 k (by simp)]
    congr 1; funext s2
    exact writeEntries_run ks s2 (fun k hk => h1 k (by simp [hk])) (fun k hk => h2 k (by simp [hk]))

/-- A position that presents `v` is written as the calls of one fixed value `v'`, for every writer
and every writer state; `v'` equals `v` up to integer signedness (exactly, if the reader presents
the signedness) and shadowed map entries. -/
theorem writeValue_run {p : Prop} {R : Reader ρ} : ∀ (v : Val) (r : ρ), R.AgreesW p r v →
    ∃ v', v'.Same v.firstWins ∧ (p → v' = v.firstWins) ∧
      ∀ (σ : Type) (W : Writer σ) (f : Nat), v.depth ≤ f → ∀ s : σ,
        writeValue R W f r s = W.run s (emit v') := by
  intro v
  induction v using Val.ind with
  | null =>
    intro r h
    cases h with | null hs =>
    obtain ⟨h1, _⟩ := hs
    refine ⟨.null, rfl, fun _ => rfl, fun σ W f hf s => ?_⟩
    obtain ⟨f, rfl⟩ : ∃ g, f = g + 1 := ⟨f - 1, by simp [Val.depth] at hf; omega⟩
    simp [writeValue, h1, emit]
  | bool b =>
    intro r h
    cases h with | bool hs hb =>
    obtain ⟨h1, h2, _⟩ := hs
    refine ⟨.bool b, rfl, fun _ => rfl, fun σ W f hf s => ?_⟩
    obtain ⟨f, rfl⟩ : ∃ g, f = g + 1 := ⟨f - 1, by simp [Val.depth] at hf; omega⟩
    simp [writeValue, h1, h2, hb, emit]
  | int i =>
    intro r h
    cases h with | int hs hstrict =>
    obtain ⟨⟨h1, h2, ⟨ib, ub, h3, h4, hor⟩, _⟩, hi, hu⟩ := hs
    cases ib with
    | true =>
      obtain ⟨x, hx, hxe⟩ := hi h3
      have : x = i := Int64.toInt_inj.1 hxe
      subst this
      refine ⟨.int x, rfl, fun _ => rfl, fun σ W f hf s => ?_⟩
      obtain ⟨f, rfl⟩ : ∃ g, f = g + 1 := ⟨f - 1, by simp [Val.depth] at hf; omega⟩
      simp [writeValue, h1, h2, h3, hx, emit]
    | false =>
      simp only [Bool.false_or] at hor
      subst hor
      obtain ⟨y, hy, hye⟩ := hu h4
      refine ⟨.uint y, Val.canon_int_of hye, fun hp => ?_, fun σ W f hf s => ?_⟩
      · have := (hstrict hp).1
        rw [h3] at this; cases this
      · obtain ⟨f, rfl⟩ : ∃ g, f = g + 1 := ⟨f - 1, by simp [Val.depth] at hf; omega⟩
        simp [writeValue, h1, h2, h3, h4, hy, emit]
  | uint n =>
    intro r h
    cases h with | uint hs hstrict =>
    obtain ⟨⟨h1, h2, ⟨ib, ub, h3, h4, hor⟩, _⟩, hi, hu⟩ := hs
    cases ib with
    | true =>
      obtain ⟨x, hx, hxe⟩ := hi h3
      refine ⟨.int x, Val.canon_int_eq hxe, fun hp => ?_, fun σ W f hf s => ?_⟩
      · have := (hstrict hp).1
        rw [h3] at this; cases this
      · obtain ⟨f, rfl⟩ : ∃ g, f = g + 1 := ⟨f - 1, by simp [Val.depth] at hf; omega⟩
        simp [writeValue, h1, h2, h3, hx, emit]
    | false =>
      simp only [Bool.false_or] at hor
      subst hor
      obtain ⟨y, hy, hye⟩ := hu h4
      have : y = n := UInt64.toNat.inj (Int.ofNat.inj hye)
      subst this
      refine ⟨.uint y, rfl, fun _ => rfl, fun σ W f hf s => ?_⟩
      obtain ⟨f, rfl⟩ : ∃ g, f = g + 1 := ⟨f - 1, by simp [Val.depth] at hf; omega⟩
      simp [writeValue, h1, h2, h3, h4, hy, emit]
  | dbl d =>
    intro r h
    cases h with | dbl hs hb =>
    obtain ⟨h1, h2, ⟨ib, ub, h3, h4, hor⟩, h5, _⟩ := hs
    simp only [Bool.or_eq_false_iff] at hor
    obtain ⟨rfl, rfl⟩ := hor
    refine ⟨.dbl d, rfl, fun _ => rfl, fun σ W f hf s => ?_⟩
    obtain ⟨f, rfl⟩ : ∃ g, f = g + 1 := ⟨f - 1, by simp [Val.depth] at hf; omega⟩
    simp [writeValue, h1, h2, h3, h4, h5, hb, emit]
  | str x =>
    intro r h
    cases h with | str hs _ hb =>
    obtain ⟨h1, h2, ⟨ib, ub, h3, h4, hor⟩, h5, h6, _⟩ := hs
    simp only [Bool.or_eq_false_iff] at hor
    obtain ⟨rfl, rfl⟩ := hor
    refine ⟨.str x, rfl, fun _ => rfl, fun σ W f hf s => ?_⟩
    obtain ⟨f, rfl⟩ : ∃ g, f = g + 1 := ⟨f - 1, by simp [Val.depth] at hf; omega⟩
    simp [writeValue, h1, h2, h3, h4, h5, h6, hb, emit]
  | blob x =>
    intro r h
    cases h with | blob hs hb _ =>
    obtain ⟨h1, h2, ⟨ib, ub, h3, h4, hor⟩, h5, h6, h7, _⟩ := hs
    simp only [Bool.or_eq_false_iff] at hor
    obtain ⟨rfl, rfl⟩ := hor
    refine ⟨.blob x, rfl, fun _ => rfl, fun σ W f hf s => ?_⟩
    obtain ⟨f, rfl⟩ : ∃ g, f = g + 1 := ⟨f - 1, by simp [Val.depth] at hf; omega⟩
    simp [writeValue, h1, h2, h3, h4, h5, h6, h7, hb, emit]
  | arr xs ih =>
    intro r h
    cases h with | arr child hs hn hg _ hc =>
    obtain ⟨h1, h2, ⟨ib, ub, h3, h4, hor⟩, h5, h6, h7, h8, h9⟩ := hs
    simp only [Bool.or_eq_false_iff] at hor
    obtain ⟨rfl, rfl⟩ := hor
    have hex : ∀ i : Nat, ∃ w : Val, ∀ hi : i < xs.length,
        w.Same xs[i].firstWins ∧ (p → w = xs[i].firstWins) ∧
        ∀ (σ : Type) (W : Writer σ) (f : Nat), xs[i].depth ≤ f → ∀ s : σ,
          writeValue R W f (child i) s = W.run s (emit w) := by
      intro i
      by_cases hi : i < xs.length
      · obtain ⟨w, hw⟩ := ih xs[i] (List.getElem_mem _) (child i) (hc i hi)
        exact ⟨w, fun _ => hw⟩
      · exact ⟨.null, fun h => absurd h hi⟩
    let g : Nat → Val := fun i => Classical.choose (hex i)
    have hgs := fun i => Classical.choose_spec (hex i)
    have hlist : ∀ {P : Val → Val → Prop}, (∀ i (hi : i < xs.length), P (g i) xs[i]) →
        ∀ i (h1 : i < ((List.range' 0 xs.length).map g).length) (h2 : i < xs.length),
          P ((List.range' 0 xs.length).map g)[i] xs[i] := by
      intro P h i h1 h2
      simpa using h i h2
    refine ⟨.arr ((List.range' 0 xs.length).map g), ?_, ?_, ?_⟩
    · simp only [Val.Same, Val.firstWins_arr, Val.canon, Val.canonList_eq]
      congr 1
      apply List.ext_getElem (by simp)
      intro i hi hi'
      simp only [List.length_map] at hi'
      have := (hgs i hi').1
      simpa [g, Val.Same] using this
    · intro hp
      rw [Val.firstWins_arr]
      congr 1
      apply List.ext_getElem (by simp)
      intro i hi hi'
      simp only [List.length_map] at hi'
      have := (hgs i hi').2.1 hp
      simpa [g] using this
    · intro σ W f hf s
      obtain ⟨f, rfl⟩ : ∃ g, f = g + 1 := ⟨f - 1, by simp [Val.depth] at hf; omega⟩
      simp only [Val.depth, Nat.add_le_add_iff_right] at hf
      simp only [writeValue, h1, h2, h3, h4, h5, h6, h7, h8, h9, hn, emit, Res.ok_bind,
        Bool.false_eq_true, if_false, if_true, Writer.run_cons, W.run_append]
      rw [show ((List.range' 0 xs.length).map g).length = xs.length by simp]
      congr 1; funext s1
      rw [writeElems_run (W := W) (child := child) (f := g) xs.length 0 s1
        (fun j _ hj => hg j (by omega))
        (fun j _ hj s => (hgs j (by omega)).2.2 σ W f
          (Nat.le_trans (Val.depth_le_list (List.getElem_mem _)) hf) s)]
      congr 1; funext s2
      simp
  | map ms ih =>
    intro r h
    cases h with | map child hs hk _ hg _ hc =>
    obtain ⟨h1, h2, ⟨ib, ub, h3, h4, hor⟩, h5, h6, h7, h8, _⟩ := hs
    simp only [Bool.or_eq_false_iff] at hor
    obtain ⟨rfl, rfl⟩ := hor
    have hex : ∀ k : Bytes, ∃ w : Val, ∀ v, firstVal ms k = some v →
        w.Same v.firstWins ∧ (p → w = v.firstWins) ∧
        ∀ (σ : Type) (W : Writer σ) (f : Nat), v.depth ≤ f → ∀ s : σ,
          writeValue R W f (child k) s = W.run s (emit w) := by
      intro k
      cases hv : firstVal ms k with
      | some v =>
        obtain ⟨w, hw⟩ := ih (k, v) (firstVal_mem hv) (child k) (hc k v hv)
        exact ⟨w, fun v' e => by injection e with e; subst e; exact hw⟩
      | none => exact ⟨.null, fun _ h => by cases h⟩
    let g : Bytes → Val := fun i => Classical.choose (hex i)
    have hgs := fun i => Classical.choose_spec (hex i)
    refine ⟨.map ((ms.map Prod.fst).map (fun k => (k, g k))), ?_, ?_, ?_⟩
    · rw [Val.firstWins_map]
      simp only [Val.Same, Val.canon, Val.canonEntries_eq, List.map_map]
      congr 1
      apply List.map_congr_left
      intro m hm
      obtain ⟨v, hv⟩ := firstVal_isSome.1 (List.mem_map_of_mem (f := Prod.fst) hm)
      have := (hgs m.1 v hv).1
      simpa [g, Val.Same, hv] using this
    · intro hp
      rw [Val.firstWins_map]
      congr 1
      apply List.map_congr_left
      intro k hk
      obtain ⟨v, hv⟩ := firstVal_isSome.1 hk
      have := (hgs k v hv).2.1 hp
      simpa [g, hv] using this
    · intro σ W f hf s
      obtain ⟨f, rfl⟩ : ∃ g, f = g + 1 := ⟨f - 1, by simp [Val.depth] at hf; omega⟩
      simp only [Val.depth, Nat.add_le_add_iff_right] at hf
      simp only [writeValue, h1, h2, h3, h4, h5, h6, h7, h8, hk, emit, Res.ok_bind,
        Bool.false_eq_true, if_false, if_true, Writer.run_cons, W.run_append]
      rw [show ((ms.map Prod.fst).map (fun k => (k, g k))).length = (ms.map Prod.fst).length by simp]
      congr 1; funext s1
      rw [writeEntries_run (W := W) (child := child) (f := g) (ms.map Prod.fst) s1
        (fun k hk' => hg k hk')
        (fun k hk' s => by
          obtain ⟨v, hv⟩ := firstVal_isSome.1 hk'
          exact (hgs k v hv).2.2 σ W f (Nat.le_trans (Val.depth_le_entries (firstVal_mem hv)) hf) s)]
      congr 1; funext s2
      simp

/-! ## Values equal up to integer signedness are presented by the same positions -/

theorem Val.same_kind {v w : Val} (h : v.Same w) : v.kind = w.kind := by
  unfold Val.Same at h
  cases v <;> cases w <;> simp only [Val.canon] at h <;> first
    | rfl
    | (exfalso; revert h; simp; done)
    | (split at h <;> simp at h)
    | (split at h <;> split at h <;> simp at h)

/-! ## Termination for readers whose positions shrink -/

/-- No operation of the reader runs forever on positions with the invariant `I`; lookups only have to
return where the keys can be listed. -/
structure Reader.Total (R : Reader ρ) (I : ρ → Prop) : Prop where
  isNull : ∀ r, I r → Returns (R.isNull r)
  isBool : ∀ r, I r → Returns (R.isBool r)
  isInt : ∀ r, I r → Returns (R.isInt r)
  isUInt : ∀ r, I r → Returns (R.isUInt r)
  isFloat : ∀ r, I r → Returns (R.isFloat r)
  isString : ∀ r, I r → Returns (R.isString r)
  isBlob : ∀ r, I r → Returns (R.isBlob r)
  isMap : ∀ r, I r → Returns (R.isMap r)
  isArray : ∀ r, I r → Returns (R.isArray r)
  asBool : ∀ r, I r → Returns (R.asBool r)
  asInt64 : ∀ r, I r → Returns (R.asInt64 r)
  asUInt64 : ∀ r, I r → Returns (R.asUInt64 r)
  asDouble : ∀ r, I r → Returns (R.asDouble r)
  asString : ∀ r, I r → Returns (R.asString r)
  asStringView : ∀ r, I r → Returns (R.asStringView r)
  asBlob : ∀ r, I r → Returns (R.asBlob r)
  mapKeys : ∀ r, I r → Returns (R.mapKeys r)
  contains : ∀ r k ks, I r → R.mapKeys r = .ok ks → Returns (R.contains r k)
  getKey : ∀ r k ks, I r → R.mapKeys r = .ok ks → Returns (R.getKey r k)
  arraySize : ∀ r, I r → Returns (R.arraySize r)
  getIdx : ∀ r i, I r → Returns (R.getIdx r i)

theorem writeEntries_returns {R : Reader ρ} {W : Writer σ} {I : ρ → Prop} (T : R.Total I)
    (hW : ∀ s e, Returns (W.step s e)) {rec : ρ → σ → Res σ} {r : ρ} (hr : I r)
    {ks0 : List Bytes} (hk0 : R.mapKeys r = .ok ks0) (h : ∀ k c s, R.getKey r k = .ok c → Returns (rec c s)) :
    ∀ ks s, Returns (writeEntries R W rec r ks s)
  | [], _ => returns_pure _
  | k :: ks, s => .bind (hW _ _) fun _ _ => .bind (T.getKey _ _ _ hr hk0) fun c hc =>
      .bind (h k c _ hc) fun _ _ => writeEntries_returns T hW hr hk0 h ks _

theorem writeElems_returns {R : Reader ρ} {I : ρ → Prop} (T : R.Total I) {rec : ρ → σ → Res σ}
    {r : ρ} (hr : I r)
    (h : ∀ i c s, R.getIdx r i = .ok c → Returns (rec c s)) :
    ∀ n i s, Returns (writeElems R rec r n i s)
  | 0, _, _ => returns_pure _
  | n + 1, i, s => .bind (T.getIdx _ _ hr) fun c hc => .bind (h i c _ hc) fun _ _ =>
      writeElems_returns T hr h n (i + 1) _

/-- `write_value` returns if children are smaller than their parents. -/
theorem writeValue_returns {R : Reader ρ} {W : Writer σ} {I : ρ → Prop} (T : R.Total I)
    (hW : ∀ s e, Returns (W.step s e)) (μ : ρ → Nat)
    (hi : ∀ r i c, I r → R.getIdx r i = .ok c → I c ∧ μ c < μ r)
    (hk : ∀ r k c, I r → R.getKey r k = .ok c → I c ∧ μ c < μ r) :
    ∀ f r s, I r → μ r < f → Returns (writeValue R W f r s)
  | 0, _, _, _, h => by omega
  | f + 1, r, s, hr, h => by
    have hI : ∀ i c s, R.getIdx r i = .ok c → Returns (writeValue R W f c s) := fun i c s hc =>
      writeValue_returns T hW μ hi hk f c s (hi r i c hr hc).1 (by have := (hi r i c hr hc).2; omega)
    have hK : ∀ i c s, R.getKey r i = .ok c → Returns (writeValue R W f c s) := fun i c s hc =>
      writeValue_returns T hW μ hi hk f c s (hk r i c hr hc).1 (by have := (hk r i c hr hc).2; omega)
    unfold writeValue
    refine .bind (T.isNull r hr) fun b _ => ?_
    split
    · exact hW _ _
    refine .bind (T.isBool r hr) fun b _ => ?_
    split
    · exact .bind (T.asBool r hr) fun _ _ => hW _ _
    refine .bind (T.isInt r hr) fun b _ => ?_
    split
    · exact .bind (T.asInt64 r hr) fun _ _ => hW _ _
    refine .bind (T.isUInt r hr) fun b _ => ?_
    split
    · exact .bind (T.asUInt64 r hr) fun _ _ => hW _ _
    refine .bind (T.isFloat r hr) fun b _ => ?_
    split
    · exact .bind (T.asDouble r hr) fun _ _ => hW _ _
    refine .bind (T.isString r hr) fun b _ => ?_
    split
    · exact .bind (T.asStringView r hr) fun _ _ => hW _ _
    refine .bind (T.isBlob r hr) fun b _ => ?_
    split
    · exact .bind (T.asBlob r hr) fun _ _ => hW _ _
    refine .bind (T.isMap r hr) fun b _ => ?_
    split
    · exact .bind (T.mapKeys r hr) fun _ hk0 => .bind (hW _ _) fun _ _ =>
        .bind (writeEntries_returns T hW hr hk0 hK _ _) fun _ _ => hW _ _
    refine .bind (T.isArray r hr) fun b _ => ?_
    split
    · exact .bind (T.arraySize r hr) fun _ _ => .bind (hW _ _) fun _ _ =>
        .bind (writeElems_returns T hr hI _ _ _) fun _ _ => hW _ _
    · exact returns_err _

end Zer
