import Verif.Flex.Agree
import Verif.TreeInv
import Verif.Translate

/-!
# Flex: translation from buffers and from documents
-/

namespace Zer.Flex

theorem writeEntries_holds {σ : Type} {W : Writer σ} {f g : Nat} {r : Ref} {d : Doc} (h : SameAnswers r d)
    (ih : ∀ {r : Ref} {d : Doc}, Holds r d → ∀ s, writeValue reader W f r s = writeValue Doc.reader W g d s) :
    ∀ (ks : List Bytes) (s : σ), writeEntries reader W (writeValue reader W f) r ks s =
      writeEntries Doc.reader W (writeValue Doc.reader W g) d ks s
  | [], _ => rfl
  | k :: ks, s => by
    simp only [writeEntries]
    congr 1
    funext s1
    have hk := h.getKey k
    show (getKey r k >>= _) = (Doc.getKey d k >>= _)
    revert hk
    cases getKey r k <;> cases Doc.getKey d k <;> intro hk <;> first
      | cases hk; rfl
      | (simp only [Res.ok_bind]
         rw [ih hk]
         congr 1
         funext s2
         exact writeEntries_holds h ih ks s2)
      | exact hk.elim

theorem writeElems_holds {σ : Type} {W : Writer σ} {f g : Nat} {r : Ref} {d : Doc} (h : SameAnswers r d)
    (ih : ∀ {r : Ref} {d : Doc}, Holds r d → ∀ s, writeValue reader W f r s = writeValue Doc.reader W g d s) :
    ∀ (n i : Nat) (s : σ), writeElems reader (writeValue reader W f) r n i s =
      writeElems Doc.reader (writeValue Doc.reader W g) d n i s
  | 0, _, _ => rfl
  | n + 1, i, s => by
    simp only [writeElems]
    have hk := h.getIdx i
    show (getIdx r i >>= _) = (Doc.getIdx d i >>= _)
    revert hk
    cases getIdx r i <;> cases Doc.getIdx d i <;> intro hk <;> first
      | cases hk; rfl
      | (simp only [Res.ok_bind]
         rw [ih hk]
         congr 1
         funext s2
         exact writeElems_holds h ih n (i + 1) s2)
      | exact hk.elim

/-- Translating a position that holds a document is translating the document. -/
theorem writeValue_holds {σ : Type} (W : Writer σ) : ∀ (f : Nat) {r : Ref} {d : Doc}, Holds r d →
    ∀ s, writeValue reader W f r s = writeValue Doc.reader W f d s
  | 0, _, _, _, _ => rfl
  | f + 1, r, d, h, s => by
    have hs := h.same
    have ih := fun {r : Ref} {d : Doc} (h : Holds r d) => writeValue_holds W f h
    simp only [writeValue, reader, Doc.reader, Res.ok_bind, hs.isNull, hs.isBool, hs.isInt, hs.isUInt, hs.isFloat,
      hs.isString, hs.isBlob, hs.isMap, hs.isArray, hs.asBool, hs.asInt64, hs.asUInt64, hs.asDouble, hs.asString,
      hs.asBlob, hs.mapKeys, hs.arraySize]
    have e1 := writeEntries_holds (W := W) hs ih
    have e2 := writeElems_holds (W := W) hs ih
    simp only [reader, Doc.reader] at e1 e2
    simp only [e1, e2]

/-! ## Documents are finite -/

namespace Doc

theorem reader_total : Doc.reader.Total (fun _ => True) where
  isNull _ _ := returns_ok _
  isBool _ _ := returns_ok _
  isInt _ _ := returns_ok _
  isUInt _ _ := returns_ok _
  isFloat _ _ := returns_ok _
  isString _ _ := returns_ok _
  isBlob _ _ := returns_ok _
  isMap _ _ := returns_ok _
  isArray _ _ := returns_ok _
  asBool v _ := by cases v <;> first | exact returns_ok _ | exact returns_err _
  asInt64 v _ := by cases v <;> first | exact returns_ok _ | exact returns_err _
  asUInt64 v _ := by cases v <;> first | exact returns_ok _ | exact returns_err _
  asDouble v _ := by cases v <;> first | exact returns_ok _ | exact returns_err _
  asString v _ := by cases v <;> first | exact returns_ok _ | exact returns_err _
  asStringView v _ := by cases v <;> first | exact returns_ok _ | exact returns_err _
  asBlob v _ := by cases v <;> first | exact returns_ok _ | exact returns_err _
  mapKeys v _ := by cases v <;> first | exact returns_ok _ | exact returns_err _
  contains v k _ _ _ := by cases v <;> first | exact returns_ok _ | exact returns_err _
  getKey v k _ _ _ := by
    cases v <;> first | exact returns_err _ | skip
    simp only [Doc.reader, Doc.getKey]; split <;> first | exact returns_ok _ | exact returns_err _
  arraySize v _ := .bind (returns_require _ _) fun _ _ => returns_pure _
  getIdx v i _ := by
    refine .bind (returns_require _ _) fun _ _ => ?_
    split <;> first | exact returns_ok _ | exact returns_err _

theorem getIdx_mem {v c : Doc} {i : Nat} (h : v.getIdx i = .ok c) : ∃ xs, v = .vec xs ∧ xs[i]? = some c := by
  obtain ⟨u, _, h⟩ := Res.bind_eq_ok.1 h
  cases v with
  | vec xs =>
    simp only [elems] at h
    split at h
    · rename_i x hx
      injection h with h; subst h
      exact ⟨xs, rfl, hx⟩
    · cases h
  | _ => simp [elems] at h

theorem getKey_mem {v c : Doc} {k : Bytes} (h : v.getKey k = .ok c) : ∃ ms, v = .map ms ∧ (k, c) ∈ ms := by
  cases v with
  | map ms =>
    refine ⟨ms, rfl, ?_⟩
    simp only [getKey] at h
    split at h
    · rename_i mid hs
      obtain ⟨hm, he⟩ := search_sound _ 0 _ rfl (Nat.le_refl _) mid hs
      have hm' : mid < ms.length := by simpa using hm
      have he' : ms[mid].1 = k := by simpa using he
      simp [hm'] at h
      rw [← he', ← h]
      exact List.getElem_mem hm'
    · cases h
  | _ => cases h

theorem getIdx_size {v c : Doc} {i : Nat} (h : v.getIdx i = .ok c) : sizeOf c < sizeOf v := by
  obtain ⟨xs, rfl, hx⟩ := getIdx_mem h
  have := List.sizeOf_lt_of_mem (List.mem_of_getElem? hx)
  simp only [Doc.vec.sizeOf_spec]; omega

theorem getKey_size {v c : Doc} {k : Bytes} (h : v.getKey k = .ok c) : sizeOf c < sizeOf v := by
  obtain ⟨ms, rfl, hx⟩ := getKey_mem h
  have := List.sizeOf_lt_of_mem hx
  simp only [Prod.mk.sizeOf_spec] at this
  simp only [Doc.map.sizeOf_spec]; omega

end Doc

/-- What is reached from a position that holds a document holds a part of it. -/
theorem Holds.reach {r c : Ref} {d : Doc} (h : Holds r d) (hr : reader.Reach r c) :
    ∃ e, Holds c e ∧ Doc.reader.Reach d e := by
  induction hr with
  | refl => exact ⟨d, h, .refl⟩
  | idx i _ hc ih =>
    obtain ⟨e, h1, h2⟩ := ih
    have hs := h1.same.getIdx i
    rw [show getIdx _ i = _ from hc] at hs
    obtain ⟨e', h3, h4⟩ := hs.ok_left
    exact ⟨e', h4, .idx i h2 h3⟩
  | key k _ hc ih =>
    obtain ⟨e, h1, h2⟩ := ih
    have hs := h1.same.getKey k
    rw [show getKey _ k = _ from hc] at hs
    obtain ⟨e', h3, h4⟩ := hs.ok_left
    exact ⟨e', h4, .key k h2 h3⟩

/-! ## The announced sizes -/

theorem run_erase {L : Lib} {dbg : Bool} (s : RS) (es : List Ev) :
    (writer L dbg).run s (es.map Ev.erase) = (writer L dbg).run s es := by
  induction es generalizing s with
  | nil => rfl
  | cons e es ih =>
    have he : (writer L dbg).step s e.erase = (writer L dbg).step s e := by cases e <;> rfl
    simp only [List.map_cons, Writer.run_cons, he, ih]

/-- A well-formed call sequence gives the bytes of the value it spells. -/
theorem bytesOf_serialize {L : Lib} {dbg : Bool} {es : List Ev} {v : Val} (h : Tree.eval es = some v) :
    (proto L dbg).bytesOf es = (proto L dbg).serialize v := by
  rcases (Tree.eval_iff es v).1 h with ⟨rfl, rfl⟩ | h
  · cases dbg <;> rfl
  · have e : (writer L dbg).run {} es = (writer L dbg).run {} (emit v) := by rw [← run_erase _ es, h, run_erase]
    exact congrArg (· >>= finish dbg) e

end Zer.Flex
