import Verif.Flex.Write

/-!
# Flex: the reader presents the value behind a document, with sorted keys
-/

namespace Zer

/-- Keys in the order of their bytes. -/
def keyLe {α : Type} (a b : Bytes × α) : Bool := decide (a.1 ≤ b.1)

mutual
/-- The same value with the entries of every map in the order of their keys. -/
def Val.sortKeys : Val → Val
  | .null => .null
  | .bool b => .bool b
  | .int i => .int i
  | .uint n => .uint n
  | .dbl d => .dbl d
  | .str s => .str s
  | .blob s => .blob s
  | .arr xs => .arr (sortKeysList xs)
  | .map ms => .map ((sortKeysEntries ms).mergeSort keyLe)
def Val.sortKeysList : List Val → List Val
  | [] => []
  | x :: xs => x.sortKeys :: sortKeysList xs
def Val.sortKeysEntries : List (Bytes × Val) → List (Bytes × Val)
  | [] => []
  | (k, v) :: ms => (k, v.sortKeys) :: sortKeysEntries ms
end

theorem Val.sortKeysList_eq (xs : List Val) : Val.sortKeysList xs = xs.map Val.sortKeys := by
  induction xs with
  | nil => rfl
  | cons x xs ih => simp [Val.sortKeysList, ih]

theorem Val.sortKeysEntries_eq (ms : List (Bytes × Val)) :
    Val.sortKeysEntries ms = ms.map (fun m => (m.1, m.2.sortKeys)) := by
  induction ms with
  | nil => rfl
  | cons x xs ih => cases x; simp [Val.sortKeysEntries, ih]

theorem Val.sortKeysEntries_keys (ms : List (Bytes × Val)) :
    (Val.sortKeysEntries ms).map Prod.fst = ms.map Prod.fst := by
  simp [Val.sortKeysEntries_eq, List.map_map, Function.comp_def]

theorem keyLe_sorted {α : Type} (l : List (Bytes × α)) :
    (l.mergeSort keyLe).Pairwise (fun a b => a.1 ≤ b.1) := by
  have := List.pairwise_mergeSort (le := keyLe (α := α))
    (fun a b c h1 h2 => by
      simp only [keyLe, decide_eq_true_eq] at h1 h2 ⊢
      exact List.le_trans h1 h2)
    (fun a b => by
      simp only [keyLe, Bool.or_eq_true, decide_eq_true_eq]
      exact List.le_total _ _) l
  exact this.imp (fun h => by simpa [keyLe] using h)

/-- A sorted list of keys is determined by its elements. -/
theorem keys_eq_of_perm {l m : List Bytes} (hl : l.Pairwise (· ≤ ·)) (hm : m.Pairwise (· ≤ ·))
    (h : l.Perm m) : l = m :=
  List.Perm.eq_of_pairwise (fun a b _ _ h1 h2 => List.le_antisymm h1 h2) hl hm h

theorem Val.Distinct.sortKeys : ∀ {v : Val}, v.Distinct → v.sortKeys.Distinct := by
  intro v
  induction v using Val.ind with
  | arr xs ih =>
    intro h
    simp only [Val.Distinct, Val.distinctList_iff] at h
    simp only [Val.sortKeys, Val.Distinct, Val.distinctList_iff, Val.sortKeysList_eq, List.mem_map]
    rintro _ ⟨x, hx, rfl⟩; exact ih x hx (h x hx)
  | map ms ih =>
    intro h
    simp only [Val.Distinct, Val.distinctEntries_iff] at h
    simp only [Val.sortKeys, Val.Distinct, Val.distinctEntries_iff]
    have hp := List.mergeSort_perm (Val.sortKeysEntries ms) keyLe
    refine ⟨?_, ?_⟩
    · rw [(hp.map Prod.fst).nodup_iff, Val.sortKeysEntries_keys]; exact h.1
    · intro m hm
      rw [hp.mem_iff, Val.sortKeysEntries_eq, List.mem_map] at hm
      obtain ⟨x, hx, rfl⟩ := hm
      exact ih x hx (h.2 x hx)
  | _ => intro _; trivial

/-- Every map has its entries in the order of their keys. -/
def Val.Sorted (v : Val) : Prop :=
  v.Each (fun v => match v with
    | .map ms => (ms.map Prod.fst).Pairwise (· ≤ ·)
    | _ => True) (fun _ => True)

/-- Sorting changes nothing that is sorted. -/
theorem Val.sortKeys_of_sorted : ∀ {v : Val}, v.Sorted → v.sortKeys = v := by
  intro v
  induction v using Val.ind with
  | arr xs ih =>
    intro h
    simp only [Val.sortKeys, Val.sortKeysList_eq]
    congr 1
    have := List.map_congr_left (fun x hx => ih x hx (Val.Each.arr h x hx))
    simpa using this
  | map ms ih =>
    intro h
    simp only [Val.sortKeys]
    have e : Val.sortKeysEntries ms = ms := by
      rw [Val.sortKeysEntries_eq]
      have := List.map_congr_left (l := ms) (f := fun m => (m.1, m.2.sortKeys)) (g := id)
        (fun m hm => by simp [ih m hm (Val.Each.map h m hm).2])
      simpa using this
    rw [e]
    congr 1
    apply List.mergeSort_of_pairwise
    have := Val.Each.self h
    exact (List.pairwise_map.1 this).imp (fun h => by simpa [keyLe] using h)
  | _ => intro _; rfl

/-- The sorted value is sorted. -/
theorem Val.sorted_sortKeys : ∀ v : Val, v.sortKeys.Sorted := by
  intro v
  induction v using Val.ind with
  | arr xs ih =>
    simp only [Val.sortKeys, Val.sortKeysList_eq]
    refine ⟨trivial, (Val.eachList_iff _).2 ?_⟩
    intro x hx
    rw [List.mem_map] at hx
    obtain ⟨y, hy, rfl⟩ := hx
    exact ih y hy
  | map ms ih =>
    simp only [Val.sortKeys]
    refine ⟨List.pairwise_map.2 (keyLe_sorted _), (Val.eachEntries_iff _).2 ?_⟩
    intro m hm
    rw [(List.mergeSort_perm _ _).mem_iff, Val.sortKeysEntries_eq, List.mem_map] at hm
    obtain ⟨y, hy, rfl⟩ := hm
    exact ⟨trivial, ih y hy⟩
  | _ => trivial

/-- No key contains a NUL byte. -/
def Val.NulFree (v : Val) : Prop := v.Each (fun _ => True) (fun k => (0 : UInt8) ∉ k)

namespace Flex
variable {L : Lib}

theorem search_map {α : Type} {ms : List (Bytes × α)} (hs : ms.Pairwise (fun a b => a.1 ≤ b.1)) (k : Bytes) :
    (∃ mid v, search (ms.map Prod.fst) k 0 (ms.map Prod.fst).length = some mid ∧
      (ms.map Prod.snd)[mid]? = some v ∧ (k, v) ∈ ms) ∨
    (search (ms.map Prod.fst) k 0 (ms.map Prod.fst).length = none ∧ k ∉ ms.map Prod.fst) := by
  rcases search_all (List.pairwise_map.2 hs) k with ⟨mid, hm, h1, h2⟩ | h
  · left
    have hm' : mid < ms.length := by simpa using hm
    refine ⟨mid, ms[mid].2, h1, by simp [hm'], ?_⟩
    have : ms[mid].1 = k := by simpa using h2
    rw [← this]
    exact List.getElem_mem hm'
  · exact .inr h

theorem contains_sorted {ms : List (Bytes × Doc)} (hs : ms.Pairwise (fun a b => a.1 ≤ b.1)) (k : Bytes) :
    Doc.contains (.map ms) k = .ok (decide (k ∈ ms.map Prod.fst)) := by
  rcases search_map hs k with ⟨mid, v, h1, _, h3⟩ | ⟨h1, h2⟩
  · have : k ∈ ms.map Prod.fst := List.mem_map_of_mem (f := Prod.fst) h3
    simp only [Doc.contains, h1, this]; rfl
  · simp only [Doc.contains, h1, h2]; rfl

theorem getKey_sorted {ms : List (Bytes × Doc)} (hs : ms.Pairwise (fun a b => a.1 ≤ b.1)) (k : Bytes) :
    (∃ v, Doc.getKey (.map ms) k = .ok v ∧ (k, v) ∈ ms) ∨
    (Doc.getKey (.map ms) k = .err .deser ∧ k ∉ ms.map Prod.fst) := by
  rcases search_map hs k with ⟨mid, v, h1, h2, h3⟩ | ⟨h1, h2⟩
  · refine .inl ⟨v, ?_, h3⟩
    simp only [Doc.getKey, h1, h2]; rfl
  · refine .inr ⟨?_, h2⟩
    simp only [Doc.getKey, h1]

/-- The document of a value presents the value with sorted keys. -/
theorem agrees_doc (H : L.Law) : ∀ v : Val, v.Distinct → v.NulFree →
    Doc.reader.AgreesStrictly (toDoc L v) v.sortKeys := by
  intro v
  induction v using Val.ind with
  | null => intro _ _; exact .null ⟨rfl, rfl, ⟨_, _, rfl, rfl, rfl⟩, rfl, rfl, rfl, rfl, rfl⟩
  | bool b => intro _ _; exact .bool ⟨rfl, rfl, ⟨_, _, rfl, rfl, rfl⟩, rfl, rfl, rfl, rfl, rfl⟩ rfl
  | int i =>
    intro _ _
    refine .int ⟨⟨rfl, rfl, ⟨_, _, rfl, rfl, rfl⟩, rfl, rfl, rfl, rfl, rfl⟩, fun _ => ⟨i, rfl, rfl⟩,
      fun h => by cases h⟩ (fun _ => ⟨rfl, rfl⟩)
  | uint n =>
    intro _ _
    refine .uint ⟨⟨rfl, rfl, ⟨_, _, rfl, rfl, rfl⟩, rfl, rfl, rfl, rfl, rfl⟩, (fun h => by cases h),
      fun _ => ⟨n, rfl, rfl⟩⟩ (fun _ => ⟨rfl, rfl⟩)
  | dbl d => intro _ _; exact .dbl ⟨rfl, rfl, ⟨_, _, rfl, rfl, rfl⟩, rfl, rfl, rfl, rfl, rfl⟩ rfl
  | str s => intro _ _; exact .str ⟨rfl, rfl, ⟨_, _, rfl, rfl, rfl⟩, rfl, rfl, rfl, rfl, rfl⟩ rfl rfl
  | blob s =>
    intro _ _
    exact .blob ⟨rfl, rfl, ⟨_, _, rfl, rfl, rfl⟩, rfl, rfl, rfl, rfl, rfl⟩ rfl (fun _ => rfl)
  | arr xs ih =>
    intro hd hn
    simp only [Val.Distinct, Val.distinctList_iff] at hd
    simp only [toDoc, toDocList_eq, Val.sortKeys, Val.sortKeysList_eq]
    refine .arr (fun i => (xs.map (toDoc L))[i]?.getD .null)
      ⟨rfl, rfl, ⟨_, _, rfl, rfl, rfl⟩, rfl, rfl, rfl, rfl, rfl⟩ ?_ ?_ ?_ ?_
    · show Doc.arraySize (.vec (xs.map (toDoc L))) = _
      simp [Doc.arraySize, Doc.isArray, Doc.elems]
    · intro i hi
      simp only [List.length_map] at hi
      show Doc.getIdx (.vec (xs.map (toDoc L))) i = _
      simp [Doc.getIdx, Doc.isArray, Doc.elems, hi]
    · intro i hi
      simp only [List.length_map] at hi
      show Doc.getIdx (.vec (xs.map (toDoc L))) i = _
      simp [Doc.getIdx, Doc.isArray, Doc.elems, hi]
    · intro i hi
      simp only [List.length_map] at hi
      have := ih xs[i] (List.getElem_mem _) (hd _ (List.getElem_mem _)) (Val.Each.arr hn _ (List.getElem_mem _))
      simpa [hi] using this
  | map ms ih =>
    intro hd hn
    simp only [Val.Distinct, Val.distinctEntries_iff] at hd
    have hE : toDocEntries L ms = ms.map (fun m => (m.1, toDoc L m.2)) := by
      rw [toDocEntries_eq]
      apply List.map_congr_left
      intro m hm
      rw [cstr_of_no_nul (Val.Each.map hn m hm).1]
    have hp := H.sort_perm (toDocEntries L ms)
    have hs := H.sort_sorted (toDocEntries L ms)
    have hq := List.mergeSort_perm (Val.sortKeysEntries ms) keyLe
    have hkeys : (L.sort (toDocEntries L ms)).map Prod.fst =
        ((Val.sortKeysEntries ms).mergeSort keyLe).map Prod.fst := by
      apply keys_eq_of_perm (List.pairwise_map.2 hs) (List.pairwise_map.2 (keyLe_sorted _))
      refine (hp.map Prod.fst).trans (List.Perm.trans ?_ (hq.map Prod.fst).symm)
      rw [Val.sortKeysEntries_keys, hE]
      simp [List.map_map, Function.comp_def]
    simp only [toDoc, Val.sortKeys]
    refine .map (fun k => match Doc.getKey (.map (L.sort (toDocEntries L ms))) k with | .ok d => d | _ => .null)
      ⟨rfl, rfl, ⟨_, _, rfl, rfl, rfl⟩, rfl, rfl, rfl, rfl, rfl⟩ ?_ ?_ ?_ ?_ ?_
    · show Doc.mapKeys (.map (L.sort (toDocEntries L ms))) = _
      simp only [Doc.mapKeys, hkeys]
    · intro k
      show Doc.contains (.map (L.sort (toDocEntries L ms))) k = _
      rw [contains_sorted hs, hkeys]
    · intro k hk
      rw [← hkeys] at hk
      show Doc.getKey (.map (L.sort (toDocEntries L ms))) k = _
      rcases getKey_sorted hs k with ⟨d, h1, _⟩ | ⟨_, h2⟩
      · rw [h1]
      · exact absurd hk h2
    · intro k hk
      rw [← hkeys] at hk
      show Doc.getKey (.map (L.sort (toDocEntries L ms))) k = _
      rcases getKey_sorted hs k with ⟨d, h1, h2⟩ | ⟨h1, _⟩
      · exact absurd (List.mem_map_of_mem (f := Prod.fst) h2) hk
      · exact h1
    · intro k w hw
      have hw1 := firstVal_mem hw
      rw [hq.mem_iff, Val.sortKeysEntries_eq, List.mem_map] at hw1
      obtain ⟨m, hm, he⟩ := hw1
      injection he with he1 he2
      have hmem : k ∈ (L.sort (toDocEntries L ms)).map Prod.fst := by
        rw [hkeys]; exact firstVal_isSome.2 ⟨w, hw⟩
      rcases getKey_sorted hs k with ⟨d, h1, h2⟩ | ⟨_, h2⟩
      · rw [hp.mem_iff, hE, List.mem_map] at h2
        obtain ⟨m', hm', he'⟩ := h2
        injection he' with he1' he2'
        have e1 := firstVal_of_nodup hd.1 (show (k, m.2) ∈ ms by rw [← he1]; exact hm)
        have e2 := firstVal_of_nodup hd.1 (show (k, m'.2) ∈ ms by rw [← he1']; exact hm')
        rw [e1] at e2
        injection e2 with e2
        simp only [h1]
        rw [← he2', ← he2, ← e2]
        exact ih m hm (hd.2 m hm) (Val.Each.map hn m hm).2
      · exact absurd hmem h2

/-- What is read from the bytes of a well-formed call sequence. -/
theorem bytesOf_agrees (H : L.Law) (dbg : Bool) {es : List Ev} {v : Val} (h : Tree.eval es = some v) (hd : v.Distinct)
    (hn : v.NulFree) (hf : Fits v) :
    ∃ b r, (proto L dbg).bytesOf es = .ok b ∧ opn b = .ok r ∧ reader.AgreesStrictly r v.sortKeys := by
  obtain ⟨b, r, h1, _, h2, h3⟩ := bytesOf_holds H dbg h hf
  exact ⟨b, r, h1, h2, Holds.agrees (agrees_doc H v hd hn) h3⟩

/-! ## The law can be met -/

/-- Insertion in front of the first entry that is not smaller. -/
def insertKey (x : Bytes × Nat) : List (Bytes × Nat) → List (Bytes × Nat)
  | [] => [x]
  | y :: l => if x.1 ≤ y.1 then x :: y :: l else y :: insertKey x l

/-- Sorting by insertion. -/
def sortKeyed : List (Bytes × Nat) → List (Bytes × Nat)
  | [] => []
  | x :: l => insertKey x (sortKeyed l)

/-- A stable sort, as one implementation of `std::sort` that meets the law (and which can be run). -/
def std : Lib where
  arrange ks := (sortKeyed ks.zipIdx).map Prod.snd

theorem insertKey_perm (x : Bytes × Nat) : ∀ l, (insertKey x l).Perm (x :: l)
  | [] => .refl _
  | y :: l => by
    rw [insertKey]
    split
    · exact .refl _
    · exact ((insertKey_perm x l).cons y).trans (.swap _ _ _)

theorem sortKeyed_perm : ∀ l, (sortKeyed l).Perm l
  | [] => .refl _
  | x :: l => (insertKey_perm x _).trans ((sortKeyed_perm l).cons x)

theorem insertKey_sorted {x : Bytes × Nat} : ∀ {l : List (Bytes × Nat)}, l.Pairwise (fun a b => a.1 ≤ b.1) →
    (insertKey x l).Pairwise (fun a b => a.1 ≤ b.1)
  | [], _ => by simp [insertKey]
  | y :: l, h => by
    rw [insertKey]
    split
    · rename_i hx
      refine .cons ?_ h
      intro z hz
      rcases List.mem_cons.1 hz with rfl | hz
      · exact hx
      · exact List.le_trans hx (List.rel_of_pairwise_cons h hz)
    · rename_i hx
      refine .cons ?_ (insertKey_sorted h.of_cons)
      intro z hz
      rcases List.mem_cons.1 ((insertKey_perm x l).mem_iff.1 hz) with rfl | hz
      · rcases List.le_total z.1 y.1 with e | e
        · exact absurd e hx
        · exact e
      · exact List.rel_of_pairwise_cons h hz

theorem sortKeyed_sorted : ∀ l, (sortKeyed l).Pairwise (fun a b => a.1 ≤ b.1)
  | [] => .nil
  | _ :: l => insertKey_sorted (sortKeyed_sorted l)

theorem std_law : std.Law where
  perm ks := by
    have := (sortKeyed_perm ks.zipIdx).map Prod.snd
    rw [List.zipIdx_map_snd, ← List.range_eq_range'] at this
    exact this
  sorted ks := by
    have hs := List.pairwise_map.2 (sortKeyed_sorted ks.zipIdx)
    have e : ∀ l : List (Bytes × Nat), (∀ x ∈ l, ks[x.2]? = some x.1) →
        (l.map Prod.snd).filterMap (ks[·]?) = l.map Prod.fst := by
      intro l
      induction l with
      | nil => intro _; rfl
      | cons x l ih =>
        intro h
        rw [List.map_cons, List.filterMap_cons, h x (by simp), List.map_cons]
        simp only
        rw [ih (fun y hy => h y (by simp [hy]))]
    show (((sortKeyed ks.zipIdx).map Prod.snd).filterMap (ks[·]?)).Pairwise _
    rw [e]
    · exact hs
    · intro x hx
      have := (sortKeyed_perm ks.zipIdx).mem_iff.1 hx
      exact List.mem_zipIdx_iff_getElem?.1 this

end Flex
end Zer
