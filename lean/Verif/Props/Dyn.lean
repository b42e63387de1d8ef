import Verif.Dyn.Builder
import Verif.Props.Flex

/-!
# Properties of the ways to describe a value
-/

namespace Zer.Dyn

/-! ### C36 -/

/-- C36: whatever is given to `serialize`, in whatever mixture of dynamic values, builders, containers
and user types, makes exactly the writer calls of the value it describes, on every writer. -/
theorem c36_same_calls {σ : Type} (W : Writer σ) (s : σ) {x : Src} (hx : x.Ok) :
    ser W s x = W.run s (emit x.val) := ser_eq W s x hx

/-- C36: so two descriptions of the same value give the same bytes (or the same exception) in every
protocol, and these are the bytes of the value. -/
theorem c36_same_bytes (P : Proto) {x y : Src} (hx : x.Ok) (hy : y.Ok) (h : x.val = y.val) :
    serialize P x = serialize P y ∧ serialize P x = P.serialize x.val := by
  have e : ∀ z : Src, z.Ok → serialize P z = P.serialize z.val := fun z hz => by
    simp only [serialize, c36_same_calls P.writer P.init hz]; rfl
  exact ⟨by rw [e x hx, e y hy, h], e x hx⟩

/-- C36: the announced sizes are the numbers of children that follow. -/
theorem c36_announced_sizes (v : Val) : countRun [] (emit v) = some [] := count_emit v []

/-- The check of announced sizes is not empty. -/
example : countRun [] [.beginArr 2, .null, .endArr] = none ∧ countRun [] [.beginMap 1, .key [], .null, .endMap] = some [] := by
  decide

/-- `{"a": [1, "x"]}` as a dynamic value, as builders with a `std::vector` inside, and as a dynamic value
that holds a user type. -/
def asDyn : Src := .dyn (.map [([0x61], .arr [.int 1, .str [0x78]])])
def asBuilder : Src := .zmap [([0x61], .zvec [.sint 32 1, .cstr (some [0x78, 0, 0x79])])]
def asMixed : Src := .umap [([0x61], .dyn (.ser (.custom [.beginArr 2, .int 1, .str [0x78], .endArr])))]

example : asDyn.Ok ∧ asBuilder.Ok ∧ asMixed.Ok ∧ asDyn.val = asBuilder.val ∧ asBuilder.val = asMixed.val := by
  refine ⟨by simp [asDyn, Src.Ok, DVal.Ok, DVal.okEntries, DVal.okList], ?_, ?_, rfl, rfl⟩
  · simp [asBuilder, Src.Ok, Src.okEntries, Src.okList]
  · simp only [asMixed, Src.Ok, Src.okEntries, DVal.Ok]
    exact ⟨⟨.arr [.int 1, .str [0x78]], rfl⟩, trivial⟩

/-- C36: integers of every width keep their number, floats their value. -/
theorem c36_numbers {w : Nat} (hw : w ≤ 64) (x : BitVec w) (f : UInt32) :
    (∃ i, (Src.sint w x).val = .int i ∧ i.toInt = x.toInt) ∧
    (∃ n, (Src.uint w x).val = .uint n ∧ n.toNat = x.toNat) ∧
    (∃ d, (Src.flt f).val = .dbl d ∧ dblVal d.toNat = sglVal f.toNat) := by
  refine ⟨⟨_, rfl, ?_⟩, ⟨_, rfl, ?_⟩, ⟨_, rfl, ?_⟩⟩
  · have h1 := x.toInt_lt
    have h2 := x.le_toInt
    have h3 : (2 : Int) ^ (w - 1) ≤ 2 ^ 63 := by
      exact_mod_cast Nat.pow_le_pow_right (n := 2) (by decide) (show w - 1 ≤ 63 by omega)
    rw [Int64.toInt_ofInt_of_le] <;> omega
  · have h1 := x.isLt
    have h3 : 2 ^ w ≤ 2 ^ 64 := Nat.pow_le_pow_right (by decide) hw
    rw [UInt64.toNat_ofNat']; omega
  · rw [UInt64.toNat_ofNat', Nat.mod_eq_of_lt (widen32_lt _)]
    exact dblVal_widen32 _

/-- C36: a dynamic value made from an integer or a float describes what the integer or float itself
describes. -/
theorem c36_dyn_construct {w : Nat} (x : BitVec w) (f : UInt32) :
    (DVal.ofSInt x).val = (Src.sint w x).val ∧ (DVal.ofUInt x).val = (Src.uint w x).val ∧
    (DVal.ofFloat f).val = (Src.flt f).val := ⟨rfl, rfl, rfl⟩

/-- C36 for `std::map`: however it was filled, its keys come in increasing order, each once, with the
value inserted first. -/
theorem c36_std_map (ins : List (Bytes × Src)) :
    ((stdMap ins).map Prod.fst).Pairwise (· < ·) ∧ ((stdMap ins).map Prod.fst).Nodup ∧
    (∀ k, (stdMap ins).lookup k = ins.lookup k) ∧
    (Src.smap (stdMap ins)).val = .map (Src.valEntries (stdMap ins)) := by
  have h := stdMap_sorted ins
  have h' : ((stdMap ins).map Prod.fst).Pairwise (· < ·) := List.pairwise_map.2 h
  exact ⟨h', h'.imp fun h e => by subst e; exact List.lt_irrefl _ h, stdMap_lookup ins, rfl⟩

/-- C36 needs its hypotheses: a null pointer and a C string without end are read outside their bounds,
and a user type that makes the calls of two values breaks the announced sizes. -/
theorem c36_bad_arguments {σ : Type} (W : Writer σ) (s : σ) :
    ser W s (.cstr none) = .ub ∧ ser W s (.cstr (some [0x61])) = .ub ∧
    (ser W s (.zvec [.custom [.null, .null]]) = W.run s [.beginArr 1, .null, .null, .endArr] ∧
      countRun [] [.beginArr 1, .null, .null, .endArr] = none) := by
  refine ⟨rfl, ?_, ?_, by decide⟩
  · simp only [ser, strlen]; rfl
  · simp [ser, serList]

/-! ### C65: lifetimes of builders -/

/-- C65: a builder that is used in the full expression that makes it, or none of whose arguments is a
temporary (at any depth), makes the calls of the value it describes. Missing: builders that are kept
(`c65_builder_lifetime_refuted`). -/
theorem c65_builder_lifetime_partial {σ : Type} {alive : Bool} (W : Writer σ) (s : σ) {b : Bld} (hb : b.src.Ok)
    (h : alive = true ∨ ¬ b.HasTemp) : b.call alive W s = W.run s (emit b.src.val) := by
  rw [Bld.call_eq W s b h, ser_eq W s _ hb]

/-- C65 is false: `auto b = zvec(1, std::string("x")); serialize<P>(b)` reads a destroyed object, on every
writer that accepts the start of an array. -/
theorem c65_builder_lifetime_refuted {σ : Type} (W : Writer σ) (s : σ) :
    let b := Bld.zvec [.val true (.sint 32 1), .val true (.str [0x78])]
    b.src.Ok ∧ b.call true W s = W.run s (emit (.arr [.int 1, .str [0x78]])) ∧
    (∀ s', W.step s (.beginArr 2) = .ok s' → b.call false W s = .ub) := by
  refine ⟨by simp [Bld.src, Bld.srcList, Ref.src, Src.Ok, Src.okList], ?_, ?_⟩
  · exact c65_builder_lifetime_partial W s (by simp [Bld.src, Bld.srcList, Ref.src, Src.Ok, Src.okList]) (.inl rfl)
  · intro s' h
    simp [Bld.call, h, Bld.callList, Ref.call]

/-- C65, the exact condition: of a builder that outlives its full expression, a call never returns if any
argument, at any depth, was a temporary. -/
theorem c65_builder_dead {σ : Type} (W : Writer σ) (s : σ) {b : Bld} (h : b.HasTemp) :
    ∀ s', b.call false W s ≠ .ok s' := Bld.call_dead W s b h

example : (Bld.zmap [([0x61], .bld false (.zvec [.val true (.sint 32 5)]))]).HasTemp ∧
    ¬ (Bld.zvec [.val false (.str [0x78]), .bld false (.zvec [])]).HasTemp := by
  simp [Bld.HasTemp, Bld.hasTempEntries, Bld.hasTempList, Ref.HasTemp]

/-! ### Round trips from descriptions -/

/-- Everything together, for Flex: a `std::map` with NUL-free keys and any content without repeated keys
comes back from Flex in the order of its own iteration. -/
theorem c36_flex_std_map {L : Flex.Lib} (H : L.Law) (dbg : Bool) {x : Src} (hx : x.Ok) (hd : x.val.Distinct)
    (hn : x.val.NulFree) (hs : x.val.Sorted) (hf : Flex.Fits x.val) :
    ∃ b r, serialize (Flex.proto L dbg) x = .ok b ∧ Flex.opn b = .ok r ∧ Flex.reader.AgreesStrictly r x.val := by
  obtain ⟨b, r, h1, h2, h3⟩ := Flex.c35_flex_round_trip H dbg hd hn hf
  rw [Val.sortKeys_of_sorted hs] at h3
  exact ⟨b, r, by rw [(c36_same_bytes _ hx hx rfl).2, h1], h2, h3⟩

end Zer.Dyn
