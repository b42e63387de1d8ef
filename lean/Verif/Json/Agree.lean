import Verif.Json.Write
import Verif.Cbor.Agree
import Verif.Props.Base64

/-!
# JSON: the reader presents the value behind a document
-/

namespace Zer.Json

/-- An array that looks like a blob. -/
def Mimic (xs : List Val) : Prop := ∃ t, xs = [.str blobTag, .str t, .str blobEncoding]

theorem isBlob_mimic (t : Bytes) : isBlob (.arr [.str blobTag, .str t, .str blobEncoding]) = .ok true := by
  simp [isBlob, isArray, arraySize, getIdx, isString, asString]

theorem isBlob_arr {xs : List Val} (h : ¬ Mimic xs) : isBlob (.arr xs) = .ok false := by
  match xs with
  | [] => rfl
  | [_] => rfl
  | [_, _] => rfl
  | x :: y :: z :: w :: r => simp [isBlob, isArray, arraySize]
  | [x, y, z] =>
    simp only [isBlob, isArray, arraySize, getIdx, if_true, Res.ok_bind, List.length_cons, List.length_nil,
      List.getElem?_cons_zero, List.getElem?_cons_succ]
    cases x <;> try rfl
    rename_i s
    by_cases hs : s = blobTag
    · cases y <;> try (simp [isString, asString]; done)
      rename_i t
      cases z <;> try (simp [isString, asString]; done)
      rename_i e
      have he : e ≠ blobEncoding := by
        intro he; subst hs; subst he; exact h ⟨t, rfl⟩
      simp [isString, asString, hs, he]
    · simp [isString, asString, hs]

theorem isBlob_other {v : Val} (h : isArray v = false) : isBlob v = .ok false := by
  simp [isBlob, h]

/-- Values that come back: no unsigned integer of 2^63 or more, no array that looks like a blob. -/
def Plain (v : Val) : Prop :=
  v.Each (fun v => match v with
    | .uint n => n.toNat < 2 ^ 63
    | .arr xs => ¬ Mimic xs
    | _ => True) (fun _ => True)

theorem canon_toDom_str {x : Val} {s : Bytes} (h : (toDom x).canon = .str s) : x = .str s := by
  cases x <;> simp only [toDom, Val.canon] at h <;> try (cases h; done)
  · split at h <;> cases h
  · injection h with h; rw [h]

theorem mimic_canon {xs : List Val} (h : Mimic (xs.map (fun x => (toDom x).canon))) : Mimic xs := by
  obtain ⟨t, h⟩ := h
  match xs, h with
  | [], h => simp at h
  | [_], h => simp at h
  | [_, _], h => simp at h
  | _ :: _ :: _ :: _ :: _, h => simp at h
  | [x, y, z], h =>
    simp only [List.map_cons, List.map_nil, List.cons.injEq, and_true] at h
    rw [canon_toDom_str h.1, canon_toDom_str h.2.1, canon_toDom_str h.2.2]
    exact ⟨t, rfl⟩

theorem toDom_arr (xs : List Val) : (toDom (.arr xs)).canon = .arr (xs.map (fun x => (toDom x).canon)) := by
  simp [toDom, Val.canon, toDomList_eq, Val.canonList_eq, List.map_map, Function.comp]

theorem toDom_map (ms : List (Bytes × Val)) :
    (toDom (.map ms)).canon = .map (ms.map (fun m => (m.1, (toDom m.2).canon))) := by
  simp [toDom, Val.canon, toDomEntries_eq, Val.canonEntries_eq, List.map_map, Function.comp]

theorem firstVal_map (g : Val → Val) (ms : List (Bytes × Val)) (k : Bytes) :
    firstVal (ms.map (fun m => (m.1, g m.2))) k = (firstVal ms k).map g := by
  induction ms with
  | nil => rfl
  | cons m ms ih =>
    obtain ⟨k', v⟩ := m
    simp only [List.map_cons, firstVal]
    split
    · rfl
    · exact ih

theorem showsInt_uint {n : UInt64} (h : n.toNat < 2 ^ 63) {z : Int} (hz : (n.toNat : Int) = z) :
    reader.ShowsInt (.uint n) z := by
  refine ⟨⟨rfl, rfl, ⟨true, true, rfl, rfl, rfl⟩, rfl, rfl, rfl, rfl, rfl⟩, fun _ => ⟨_, rfl, ?_⟩,
    fun _ => ⟨n, rfl, hz⟩⟩
  rw [← hz]
  have : n.toInt64.toInt = (n.toNat : Int).bmod (2 ^ 64) := by
    rw [UInt64.toInt64]; exact BitVec.toInt_eq_toNat_bmod _
  rw [this, Int.bmod_eq_of_le] <;> omega

/-- A document presents the value it stands for. -/
theorem agrees_dom : ∀ {v : Val}, Plain v → reader.Agrees (toDom v).canon v := by
  intro v
  induction v using Val.ind with
  | null => intro _; exact .null ⟨rfl, rfl, ⟨_, _, rfl, rfl, rfl⟩, rfl, rfl, rfl, rfl, rfl⟩
  | bool b => intro _; exact .bool ⟨rfl, rfl, ⟨_, _, rfl, rfl, rfl⟩, rfl, rfl, rfl, rfl, rfl⟩ rfl
  | int i =>
    intro _
    refine .int ?_ (fun h => h.elim)
    simp only [toDom, Val.canon]
    split
    · rename_i h
      have h2 : i.toUInt64.toNat = i.toInt.toNat := by
        have := Int64.toNat_toUInt64_of_le (x := i) (Int64.le_iff_toInt_le.2 (by simpa using h))
        rw [this]; rfl
      have := i.toInt_lt
      exact showsInt_uint (by omega) (by omega)
    · exact ⟨⟨rfl, rfl, ⟨_, _, rfl, rfl, rfl⟩, rfl, rfl, rfl, rfl, rfl⟩, fun _ => ⟨i, rfl, rfl⟩, fun h => by cases h⟩
  | uint n =>
    intro h
    exact .uint (showsInt_uint h rfl) (fun h => h.elim)
  | dbl d => intro _; exact .dbl ⟨rfl, rfl, ⟨_, _, rfl, rfl, rfl⟩, rfl, rfl, rfl, rfl, rfl⟩ rfl
  | str s => intro _; exact .str ⟨rfl, rfl, ⟨_, _, rfl, rfl, rfl⟩, rfl, rfl, rfl, rfl, rfl⟩ rfl rfl
  | blob s =>
    intro _
    have e : (toDom (.blob s)).canon = .arr [.str blobTag, .str (Base64.encode s), .str blobEncoding] := rfl
    rw [e]
    refine .blob (ar := true) ⟨rfl, rfl, ⟨_, _, rfl, rfl, rfl⟩, rfl, rfl, isBlob_mimic _, rfl, rfl⟩ ?_
      (fun h => h.elim)
    show asBlob _ = _
    simp only [asBlob, isBlob_mimic, Res.ok_bind, Res.require_true]
    exact Base64.c13_base64_round_trip s
  | arr xs ih =>
    intro h
    rw [toDom_arr]
    have hm : ¬ Mimic (xs.map (fun x => (toDom x).canon)) := fun k => h.1 (mimic_canon k)
    have hi := h.arr
    refine .arr (fun i => ((xs.map (fun x => (toDom x).canon))[i]?).getD .null)
      ⟨rfl, rfl, ⟨_, _, rfl, rfl, rfl⟩, rfl, rfl, isBlob_arr hm, rfl, rfl⟩ ?_ ?_ ?_ ?_
    · simp [reader, arraySize]
    · intro i hi; simp [reader, getIdx, hi]
    · intro i hi
      simp only [reader, getIdx]
      rw [List.getElem?_eq_none (by simpa using hi)]
    · intro i hl
      simp only [List.getElem?_map, List.getElem?_eq_getElem hl, Option.map_some, Option.getD_some]
      exact ih _ (List.getElem_mem _) (hi _ (List.getElem_mem _))
  | map ms ih =>
    intro h
    rw [toDom_map]
    have hi := h.map
    have hk : (ms.map (fun m => (m.1, (toDom m.2).canon))).map Prod.fst = ms.map Prod.fst := by
      simp [List.map_map, Function.comp]
    have hf : ∀ k, firstVal (ms.map (fun m => (m.1, (toDom m.2).canon))) k =
        (firstVal ms k).map (fun x => (toDom x).canon) := firstVal_map (fun x => (toDom x).canon) ms
    refine .map (fun k => (firstVal (ms.map (fun m => (m.1, (toDom m.2).canon))) k).getD .null)
      ⟨rfl, rfl, ⟨_, _, rfl, rfl, rfl⟩, rfl, rfl, rfl, rfl, rfl⟩ ?_ ?_ ?_ ?_ ?_
    · simp only [reader, mapKeys]; rw [hk]
    · intro k
      simp only [reader, contains, hf, Option.isSome_map]
      congr 1
      by_cases hm : k ∈ ms.map Prod.fst
      · obtain ⟨v, hv⟩ := firstVal_isSome.1 hm
        rw [decide_eq_true hm, hv]; rfl
      · rw [decide_eq_false hm]
        cases hv : firstVal ms k with
        | none => rfl
        | some v => exact absurd (firstVal_isSome.2 ⟨v, hv⟩) hm
    · intro k hm
      obtain ⟨v, hv⟩ := firstVal_isSome.1 hm
      simp [reader, getKey, hf, hv]
    · intro k hm
      simp only [reader, getKey, hf]
      cases hv : firstVal ms k with
      | none => rfl
      | some v => exact absurd (firstVal_isSome.2 ⟨v, hv⟩) hm
    · intro k v hv
      simp only [hf, hv, Option.map_some, Option.getD_some]
      have hmem := firstVal_mem hv
      exact ih _ hmem (hi _ hmem).2

end Zer.Json
