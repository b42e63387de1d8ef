import Verif.Text.Spec
import Verif.Props.Flex

/-!
# The Flex reader prints the value with sorted keys
-/

namespace Zer.Flex
open Text
variable {F : Fmt} {L : Lib}

mutual
/-- The text of a document. -/
def dumpDoc (F : Fmt) (pad : Nat) : Doc → Bytes
  | .null => asc "null|null"
  | .bool b => asc "bool| " ++ boolText b
  | .int i => asc "int|" ++ F.dec i.toInt
  | .uint n => asc "uint|" ++ F.dec n.toNat
  | .dbl d => asc "float|" ++ F.dbl d
  | .str s => asc "str|\"" ++ esc s ++ asc "\""
  | .blob s => asc "blob[size=" ++ F.dec s.length ++ asc "]"
  | .map ms => asc "map {\n" ++ dumpEntries F pad ms ++ spaces pad ++ asc "}"
  | .vec xs => asc "arr [\n" ++ dumpList F pad xs ++ spaces pad ++ asc "]"
  | .key _ => asc "any"
def dumpList (F : Fmt) (pad : Nat) : List Doc → Bytes
  | [] => []
  | x :: xs => spaces (pad + 2) ++ dumpDoc F (pad + 2) x ++ (if xs ≠ [] then asc "," else []) ++ asc "\n" ++ dumpList F pad xs
def dumpEntries (F : Fmt) (pad : Nat) : List (Bytes × Doc) → Bytes
  | [] => []
  | (k, v) :: ms => spaces (pad + 2) ++ asc "\"" ++ esc k ++ asc "\": " ++ dumpDoc F (pad + 2) v ++
      (if ms ≠ [] then asc "," else []) ++ asc "\n" ++ dumpEntries F pad ms
end

theorem dumpElems_holds {elem : Ref → Res Bytes} {pad : Nat} {b : Bytes} {p bw : Nat} {xs : List Doc} {child : Nat → Ref}
    (hc : ∀ i, i < xs.length → elemAt b p bw xs.length i = .ok (child i))
    (he : ∀ i (h : i < xs.length), elem (child i) = .ok (dumpDoc F (pad + 2) xs[i])) :
    ∀ k i, i + k = xs.length → dumpElems elem pad b p bw xs.length i k = .ok (dumpList F pad (xs.drop i))
  | 0, i, hi => by rw [dumpElems, List.drop_of_length_le (by omega)]; rfl
  | k + 1, i, hi => by
    rw [dumpElems, hc i (by omega), Res.ok_bind, he i (by omega), Res.ok_bind, dumpElems_holds hc he k (i + 1) (by omega),
      List.drop_eq_getElem_cons (i := i) (by omega)]
    have e : (xs.drop (i + 1) ≠ []) = (i + 1 < xs.length) := by
      rw [ne_eq, List.drop_eq_nil_iff]; simp
    simp only [Res.ok_bind, Res.pure_eq, dumpList, e]

theorem dumpPairs_holds {elem : Ref → Res Bytes} {pad : Nat} {b : Bytes} {p bw n kp kw : Nat} {ms : List (Bytes × Doc)}
    {child : Nat → Ref} (hk : ∀ i (h : i < ms.length), keyAt b kp kw ms.length i = .ok ms[i].1)
    (hc : ∀ i, i < ms.length → elemAt b p bw n i = .ok (child i))
    (he : ∀ i (h : i < ms.length), elem (child i) = .ok (dumpDoc F (pad + 2) ms[i].2)) :
    ∀ k i, i + k = ms.length →
      dumpPairs elem pad b p bw n kp kw ms.length i k = .ok (dumpEntries F pad (ms.drop i))
  | 0, i, hi => by rw [dumpPairs, List.drop_of_length_le (by omega)]; rfl
  | k + 1, i, hi => by
    rw [dumpPairs, hk i (by omega), Res.ok_bind, hc i (by omega), Res.ok_bind, he i (by omega), Res.ok_bind,
      dumpPairs_holds hk hc he k (i + 1) (by omega), List.drop_eq_getElem_cons (i := i) (by omega)]
    have e : (ms.drop (i + 1) ≠ []) = (i + 1 < ms.length) := by
      rw [ne_eq, List.drop_eq_nil_iff]; simp
    simp only [Res.ok_bind, Res.pure_eq, dumpEntries, e]

/-- What holds a document prints as the document. -/
theorem dump_holds {r : Ref} {d : Doc} (h : Holds r d) :
    ∀ f pad, sizeOf d < f → dump F f pad r = .ok (dumpDoc F pad d) := by
  induction h with
  | null h => intro f pad hf; obtain ⟨f, rfl⟩ : ∃ g, f = g + 1 := ⟨f - 1, by omega⟩; simp [dump, isNull, h, dumpDoc]
  | bool h h2 =>
    intro f pad hf; obtain ⟨f, rfl⟩ : ∃ g, f = g + 1 := ⟨f - 1, by omega⟩
    have e := (Holds.bool h h2).same
    simp [dump, e.isNull, e.isBool, e.asBool, Doc.isNull, Doc.isBool, Doc.asBool, dumpDoc, Res.require]
  | int h h2 =>
    intro f pad hf; obtain ⟨f, rfl⟩ : ∃ g, f = g + 1 := ⟨f - 1, by omega⟩
    have e := (Holds.int h h2).same
    simp [dump, e.isNull, e.isBool, e.isInt, e.asInt64, Doc.isNull, Doc.isBool, Doc.isInt, Doc.asInt64, dumpDoc, Res.require]
  | uint h h2 =>
    intro f pad hf; obtain ⟨f, rfl⟩ : ∃ g, f = g + 1 := ⟨f - 1, by omega⟩
    have e := (Holds.uint h h2).same
    simp only [dump, e.isNull, e.isBool, e.isInt, e.isUInt, e.asUInt64]
    rfl
  | dbl h h2 =>
    intro f pad hf; obtain ⟨f, rfl⟩ : ∃ g, f = g + 1 := ⟨f - 1, by omega⟩
    have e := (Holds.dbl h h2).same
    simp only [dump, e.isNull, e.isBool, e.isInt, e.isUInt, e.isFloat, e.asDouble]
    rfl
  | str h h2 =>
    intro f pad hf; obtain ⟨f, rfl⟩ : ∃ g, f = g + 1 := ⟨f - 1, by omega⟩
    have e := (Holds.str h h2).same
    simp only [dump, e.isNull, e.isBool, e.isInt, e.isUInt, e.isFloat, e.isString, e.asString]
    rfl
  | @key r k h =>
    intro f pad hf; obtain ⟨f, rfl⟩ : ∃ g, f = g + 1 := ⟨f - 1, by omega⟩
    have e := (Holds.key (k := k) h).same
    simp only [dump, e.isNull, e.isBool, e.isInt, e.isUInt, e.isFloat, e.isString, e.isBlob, e.isMap, e.isArray]
    rfl
  | @blob r s h h2 =>
    intro f pad hf; obtain ⟨f, rfl⟩ : ∃ g, f = g + 1 := ⟨f - 1, by omega⟩
    have e := (Holds.blob h h2).same
    obtain ⟨q, k1, k2⟩ := Res.bind_eq_ok.1 h2
    obtain ⟨n, k3, k4⟩ := Res.bind_eq_ok.1 k2
    have hn : n = s.length := by
      unfold sliceAt at k4
      split at k4
      · injection k4 with k4; subst k4
        rw [List.length_take, List.length_drop]; omega
      · cases k4
    subst hn
    simp only [dump, e.isNull, e.isBool, e.isInt, e.isUInt, e.isFloat, e.isString, e.isBlob, k1, Res.ok_bind, k3]
    rfl
  | @vec r xs p child h h2 h3 h4 ih =>
    intro f pad hf; obtain ⟨f, rfl⟩ : ∃ g, f = g + 1 := ⟨f - 1, by omega⟩
    have e := (Holds.vec child h h2 h3 h4).same
    have hs : ∀ i (hi : i < xs.length), dump F f (pad + 2) (child i) = .ok (dumpDoc F (pad + 2) xs[i]) := by
      intro i hi
      refine ih i hi f _ ?_
      have := List.sizeOf_lt_of_mem (List.getElem_mem hi)
      simp only [Doc.vec.sizeOf_spec] at hf
      omega
    have hd := dumpElems_holds h3 hs xs.length 0 (by omega)
    simp only [dump, e.isNull, e.isBool, e.isInt, e.isUInt, e.isFloat, e.isString, e.isBlob, e.isMap, e.isArray, h2,
      Res.ok_bind, hd]
    rfl
  | @hollow r h =>
    intro f pad hf; obtain ⟨f, rfl⟩ : ∃ g, f = g + 1 := ⟨f - 1, by omega⟩
    have e := (Holds.hollow h).same
    have hv : r.vector = .ok (0, 0) := by
      rw [Ref.vector, if_neg]
      · rfl
      intro hc
      rcases hc with hc | hc <;> (rw [hc] at h; exact absurd h (by decide))
    simp only [dump, e.isNull, e.isBool, e.isInt, e.isUInt, e.isFloat, e.isString, e.isBlob, e.isMap, e.isArray, hv,
      Res.ok_bind]
    rfl
  | @map r ms p n kp kw child h h2 h3 h4 h5 h6 h7 ih =>
    intro f pad hf; obtain ⟨f, rfl⟩ : ∃ g, f = g + 1 := ⟨f - 1, by omega⟩
    have e := (Holds.map child h h2 h3 h4 h5 h6 h7).same
    have hs : ∀ i (hi : i < ms.length), dump F f (pad + 2) (child i) = .ok (dumpDoc F (pad + 2) ms[i].2) := by
      intro i hi
      refine ih i hi f _ ?_
      have h8 := List.sizeOf_lt_of_mem (List.getElem_mem hi)
      have h9 : sizeOf ms[i].2 < sizeOf ms[i] := by
        rcases ms[i] with ⟨a, b⟩; simp only [Prod.mk.sizeOf_spec]; omega
      simp only [Doc.map.sizeOf_spec] at hf
      omega
    have hd := dumpPairs_holds h5 h6 hs ms.length 0 (by omega)
    simp only [dump, e.isNull, e.isBool, e.isInt, e.isUInt, e.isFloat, e.isString, e.isBlob, e.isMap, h2,
      Res.ok_bind, h3, hd]
    rfl

theorem sorted_eq {α : Type} {l m : List (Bytes × α)} (h : l.Perm m) (hl : l.Pairwise (fun a b => a.1 ≤ b.1))
    (hm : m.Pairwise (fun a b => a.1 ≤ b.1)) (hk : (m.map Prod.fst).Nodup) : l = m := by
  refine List.Perm.eq_of_pairwise (le := fun a b => a.1 ≤ b.1) ?_ hl hm h
  intro a b ha hb h1 h2
  have hab : a.1 = b.1 := List.le_antisymm h1 h2
  rw [h.mem_iff] at ha
  obtain ⟨i, hi, e1⟩ := List.getElem_of_mem ha
  obtain ⟨j, hj, e2⟩ := List.getElem_of_mem hb
  have hij : i = j := by
    refine (List.getElem_inj (h₀ := by simpa using hi) (h₁ := by simpa using hj) hk).1 ?_
    simp [e1, e2, hab]
  subst hij
  rw [← e1, ← e2]

theorem _root_.Zer.Val.NulFree.sortKeys : ∀ {v : Val}, v.NulFree → v.sortKeys.NulFree := by
  intro v
  induction v using Val.ind with
  | arr xs ih =>
    intro h
    refine ⟨trivial, (Val.eachList_iff _).2 ?_⟩
    rw [Val.sortKeysList_eq]
    intro y hy
    obtain ⟨x, hx, rfl⟩ := List.mem_map.1 hy
    exact ih x hx (Val.Each.arr h x hx)
  | map ms ih =>
    intro h
    refine ⟨trivial, (Val.eachEntries_iff _).2 ?_⟩
    intro y hy
    rw [(List.mergeSort_perm (Val.sortKeysEntries ms) keyLe).mem_iff, Val.sortKeysEntries_eq] at hy
    obtain ⟨x, hx, rfl⟩ := List.mem_map.1 hy
    exact ⟨(Val.Each.map h x hx).1, ih x hx (Val.Each.map h x hx).2⟩
  | _ => intro _; trivial

theorem dumpList_prints {xs : List Val} (h : ∀ x ∈ xs, ∀ pad, Prints bar F pad x (dumpDoc F pad (toDoc L x))) (pad : Nat) :
    ∃ ls, PrintsList bar F (pad + 2) xs ls ∧ dumpList F pad (xs.map (toDoc L)) = lines (pad + 2) ls := by
  induction xs with
  | nil => exact ⟨[], rfl, rfl⟩
  | cons x xs ih =>
    obtain ⟨ls, h1, h2⟩ := ih (fun y hy => h y (by simp [hy]))
    refine ⟨_ :: ls, by simp only [PrintsList]; exact ⟨_, ls, h x (by simp) (pad + 2), h1, rfl⟩, ?_⟩
    have e : (xs.map (toDoc L) ≠ []) = (ls ≠ []) := by
      rw [ne_eq, ne_eq, ← List.length_eq_zero_iff, ← List.length_eq_zero_iff, h1.length, List.length_map]
    simp only [List.map_cons, dumpList, lines_cons, h2, e]

theorem dumpEntries_prints {ms : List (Bytes × Val)} (h : ∀ x ∈ ms, ∀ pad, Prints bar F pad x.2 (dumpDoc F pad (toDoc L x.2)))
    (pad : Nat) : ∃ ls, PrintsEntries bar F (pad + 2) ms ls ∧
      dumpEntries F pad (ms.map (fun m => (m.1, toDoc L m.2))) = lines (pad + 2) ls := by
  induction ms with
  | nil => exact ⟨[], rfl, rfl⟩
  | cons x ms ih =>
    obtain ⟨k, x⟩ := x
    obtain ⟨ls, h1, h2⟩ := ih (fun y hy => h y (by simp [hy]))
    refine ⟨_ :: ls, by simp only [PrintsEntries]; exact ⟨_, ls, h (k, x) (by simp) (pad + 2), h1, rfl⟩, ?_⟩
    have e : (ms.map (fun m => (m.1, toDoc L m.2)) ≠ []) = (ls ≠ []) := by
      rw [ne_eq, ne_eq, ← List.length_eq_zero_iff, ← List.length_eq_zero_iff, h1.length, List.length_map]
    simp only [List.map_cons, dumpEntries, lines_cons, h2, e]
    simp [bar]

theorem dump_sorted (H : L.Law) : ∀ v : Val, v.Sorted → v.Distinct → v.NulFree → ∀ pad, Prints bar F pad v (dumpDoc F pad (toDoc L v)) := by
  intro v
  induction v using Val.ind with
  | arr xs ih =>
    intro hs hd hn pad
    simp only [Val.Distinct, Val.distinctList_iff] at hd
    obtain ⟨ls, h1, h2⟩ := dumpList_prints (F := F) (L := L)
      (fun x hx => ih x hx (Val.Each.arr hs x hx) (hd x hx) (Val.Each.arr hn x hx)) pad
    simp only [toDoc, toDocList_eq, dumpDoc, Prints, h2]
    exact ⟨ls, h1, by simp [spaces]⟩
  | map ms ih =>
    intro hs hd hn pad
    simp only [Val.Distinct, Val.distinctEntries_iff] at hd
    obtain ⟨ls, h1, h2⟩ := dumpEntries_prints (F := F) (L := L)
      (fun x hx => ih x hx (Val.Each.map hs x hx).2 (hd.2 x hx) (Val.Each.map hn x hx).2) pad
    have hE : toDocEntries L ms = ms.map (fun m => (m.1, toDoc L m.2)) := by
      rw [toDocEntries_eq]
      apply List.map_congr_left
      intro m hm
      rw [cstr_of_no_nul (Val.Each.map hn m hm).1]
    have hsm : (ms.map (fun m => (m.1, toDoc L m.2))).Pairwise (fun a b => a.1 ≤ b.1) := by
      have : (ms.map Prod.fst).Pairwise (· ≤ ·) := hs.self
      rw [List.pairwise_map]
      exact List.pairwise_map.1 this
    have e : L.sort (toDocEntries L ms) = ms.map (fun m => (m.1, toDoc L m.2)) := by
      rw [hE]
      exact sorted_eq (H.sort_perm _) (H.sort_sorted _) hsm (by simpa [List.map_map, Function.comp_def] using hd.1)
    simp only [toDoc, dumpDoc, Prints, e, h2]
    exact ⟨ls, h1, by simp [spaces]⟩
  | int i => intro _ _ _ pad; exact .inl rfl
  | uint n => intro _ _ _ pad; exact .inr rfl
  | _ => intro _ _ _ pad; simp [Prints, toDoc, dumpDoc, bar, boolText]

theorem toDoc_sortKeys (H : L.Law) : ∀ v : Val, v.Distinct → v.NulFree → toDoc L v.sortKeys = toDoc L v := by
  intro v
  induction v using Val.ind with
  | arr xs ih =>
    intro hd hn
    simp only [Val.Distinct, Val.distinctList_iff] at hd
    simp only [Val.sortKeys, toDoc, toDocList_eq, Val.sortKeysList_eq, List.map_map]
    congr 1
    exact List.map_congr_left fun x hx => ih x hx (hd x hx) (Val.Each.arr hn x hx)
  | map ms ih =>
    intro hd hn
    simp only [Val.Distinct, Val.distinctEntries_iff] at hd
    simp only [Val.sortKeys, toDoc]
    congr 1
    have hq := List.mergeSort_perm (Val.sortKeysEntries ms) keyLe
    have e1 : (Val.sortKeysEntries ms).map (fun m => (cstr m.1, toDoc L m.2)) = toDocEntries L ms := by
      rw [Val.sortKeysEntries_eq, toDocEntries_eq, List.map_map]
      exact List.map_congr_left fun m hm => by
        simp [ih m hm (hd.2 m hm) (Val.Each.map hn m hm).2]
    have hp : (toDocEntries L ((Val.sortKeysEntries ms).mergeSort keyLe)).Perm (toDocEntries L ms) := by
      rw [toDocEntries_eq, ← e1]
      exact hq.map _
    have hk : ((L.sort (toDocEntries L ms)).map Prod.fst).Nodup := by
      rw [((H.sort_perm _).map Prod.fst).nodup_iff, toDocEntries_eq, List.map_map]
      have : ms.map (Prod.fst ∘ fun m => (cstr m.1, toDoc L m.2)) = ms.map Prod.fst :=
        List.map_congr_left fun m hm => by simp [cstr_of_no_nul (Val.Each.map hn m hm).1]
      rw [this]; exact hd.1
    have hpp : (L.sort (toDocEntries L ((Val.sortKeysEntries ms).mergeSort keyLe))).Perm
        (L.sort (toDocEntries L ms)) := (H.sort_perm _).trans (hp.trans (H.sort_perm _).symm)
    refine List.Perm.eq_of_pairwise (le := fun a b => a.1 ≤ b.1) ?_ (H.sort_sorted _) (H.sort_sorted _) hpp
    intro a b ha hb h1 h2
    have hab : a.1 = b.1 := List.le_antisymm h1 h2
    rw [hpp.mem_iff] at ha
    obtain ⟨i, hi, e1⟩ := List.getElem_of_mem ha
    obtain ⟨j, hj, e2⟩ := List.getElem_of_mem hb
    have hij : i = j := by
      refine (List.getElem_inj (h₀ := by simpa using hi) (h₁ := by simpa using hj) hk).1 ?_
      simp [e1, e2, hab]
    subst hij
    rw [← e1, ← e2]
  | _ => intro _ _; rfl

theorem dump_prints (H : L.Law) {v : Val} (hd : v.Distinct) (hn : v.NulFree) (pad : Nat) :
    Prints bar F pad v.sortKeys (dumpDoc F pad (toDoc L v)) := by
  rw [← toDoc_sortKeys H v hd hn]
  exact dump_sorted H _ (Val.sorted_sortKeys v) hd.sortKeys hn.sortKeys pad

theorem dumpElems_mono {e e' : Ref → Res Bytes} (h : ∀ c t, e c = .ok t → e' c = .ok t) {pad : Nat} {b : Bytes} {p bw n : Nat} :
    ∀ k i t, dumpElems e pad b p bw n i k = .ok t → dumpElems e' pad b p bw n i k = .ok t
  | 0, _, _, ht => ht
  | k + 1, i, t, ht => by
    obtain ⟨c, h1, ht⟩ := Res.bind_eq_ok.1 ht
    obtain ⟨x, h2, ht⟩ := Res.bind_eq_ok.1 ht
    obtain ⟨y, h3, ht⟩ := Res.bind_eq_ok.1 ht
    rw [dumpElems, h1, Res.ok_bind, h c x h2, Res.ok_bind, dumpElems_mono h k (i + 1) y h3]
    exact ht

theorem dumpPairs_mono {e e' : Ref → Res Bytes} (h : ∀ c t, e c = .ok t → e' c = .ok t) {pad : Nat} {b : Bytes}
    {p bw n kp kw kn : Nat} :
    ∀ k i t, dumpPairs e pad b p bw n kp kw kn i k = .ok t → dumpPairs e' pad b p bw n kp kw kn i k = .ok t
  | 0, _, _, ht => ht
  | k + 1, i, t, ht => by
    obtain ⟨a, h0, ht⟩ := Res.bind_eq_ok.1 ht
    obtain ⟨c, h1, ht⟩ := Res.bind_eq_ok.1 ht
    obtain ⟨x, h2, ht⟩ := Res.bind_eq_ok.1 ht
    obtain ⟨y, h3, ht⟩ := Res.bind_eq_ok.1 ht
    rw [dumpPairs, h0, Res.ok_bind, h1, Res.ok_bind, h c x h2, Res.ok_bind, dumpPairs_mono h k (i + 1) y h3]
    exact ht

/-- A recursion that has ended does not depend on the bound on its depth. -/
theorem dump_mono : ∀ f pad r t, dump F f pad r = .ok t → dump F (f + 1) pad r = .ok t
  | 0, _, _, _, h => by cases h
  | f + 1, pad, r, t, h => by
    rw [dump] at h ⊢
    split
    · rename_i h1; rw [if_pos h1] at h; exact h
    rename_i h1; rw [if_neg h1] at h
    split
    · rename_i h1; rw [if_pos h1] at h; exact h
    rename_i h1; rw [if_neg h1] at h
    split
    · rename_i h1; rw [if_pos h1] at h; exact h
    rename_i h1; rw [if_neg h1] at h
    split
    · rename_i h1; rw [if_pos h1] at h; exact h
    rename_i h1; rw [if_neg h1] at h
    split
    · rename_i h1; rw [if_pos h1] at h; exact h
    rename_i h1; rw [if_neg h1] at h
    split
    · rename_i h1; rw [if_pos h1] at h; exact h
    rename_i h1; rw [if_neg h1] at h
    split
    · rename_i h1; rw [if_pos h1] at h; exact h
    rename_i h1; rw [if_neg h1] at h
    split
    · rename_i h1; rw [if_pos h1] at h
      obtain ⟨⟨p, n⟩, h2, h⟩ := Res.bind_eq_ok.1 h
      obtain ⟨⟨kp, kw, kn⟩, h3, h⟩ := Res.bind_eq_ok.1 h
      obtain ⟨x, h4, h⟩ := Res.bind_eq_ok.1 h
      rw [h2]
      simp only [Res.ok_bind, h3]
      rw [dumpPairs_mono (dump_mono f (pad + 2)) _ _ _ h4]
      exact h
    rename_i h1; rw [if_neg h1] at h
    split
    · rename_i h1; rw [if_pos h1] at h
      obtain ⟨⟨p, n⟩, h2, h⟩ := Res.bind_eq_ok.1 h
      obtain ⟨x, h4, h⟩ := Res.bind_eq_ok.1 h
      rw [h2]
      simp only [Res.ok_bind]
      rw [dumpElems_mono (dump_mono f (pad + 2)) _ _ _ h4]
      exact h
    rename_i h1; rw [if_neg h1] at h
    exact h

theorem dump_le {f g pad : Nat} {r : Ref} {t : Bytes} (h : dump F f pad r = .ok t) (hfg : f ≤ g) : dump F g pad r = .ok t := by
  induction hfg with
  | refl => exact h
  | step _ ih => exact dump_mono _ _ _ _ ih

theorem dump_det {f g pad : Nat} {r : Ref} {t u : Bytes} (h : dump F f pad r = .ok t) (h' : dump F g pad r = .ok u) : t = u := by
  have h1 := dump_le h (Nat.le_max_left f g)
  have h2 := dump_le h' (Nat.le_max_right f g)
  rw [h1] at h2
  injection h2

end Zer.Flex
