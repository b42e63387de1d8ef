import Verif.Flex.Behind
import Verif.Props.Cbor

/-!
# CBOR: the byte behind a string

Strings of a CBOR buffer are followed by the next item; the last one by nothing.
-/

namespace Zer

mutual
/-- The last thing in the value is a string: the value itself, or the last element, or the value of the last entry. -/
def Val.endsInStr : Val → Bool
  | .str _ => true
  | .arr xs => endsInStrL xs
  | .map ms => endsInStrE ms
  | _ => false
def Val.endsInStrL : List Val → Bool
  | [] => false
  | x :: xs => (xs.isEmpty && x.endsInStr) || endsInStrL xs
def Val.endsInStrE : List (Bytes × Val) → Bool
  | [] => false
  | (_, x) :: ms => (ms.isEmpty && x.endsInStr) || endsInStrE ms
end

theorem Val.endsInStrL_last : ∀ {xs : List Val} {i : Nat} (h : i < xs.length), i + 1 = xs.length →
    endsInStrL xs = xs[i].endsInStr
  | [x], 0, _, _ => by simp [endsInStrL]
  | x :: y :: xs, 0, _, h => by simp at h
  | [x], i + 1, h, _ => by simp at h
  | x :: y :: xs, i + 1, h, e => by
    rw [endsInStrL, endsInStrL_last (xs := y :: xs) (i := i) (by simpa using h) (by simpa using e)]
    simp

/-- The first entry with that key is the last entry. -/
def lastHit (k : Bytes) : List (Bytes × Val) → Prop
  | [] => False
  | (k', _) :: ms => (k' = k ∧ ms = []) ∨ (k' ≠ k ∧ lastHit k ms)

theorem lastHit_ends {k : Bytes} {w : Val} : ∀ {ms : List (Bytes × Val)}, lastHit k ms → firstVal ms k = some w →
    Val.endsInStrE ms = w.endsInStr
  | (k', x) :: ms, h, hw => by
    rcases h with ⟨rfl, rfl⟩ | ⟨h1, h2⟩
    · simp only [firstVal, if_true] at hw
      injection hw with hw; subst hw
      simp [Val.endsInStrE]
    · simp only [firstVal, if_neg h1] at hw
      cases ms with
      | nil => exact h2.elim
      | cons m ms => rw [Val.endsInStrE, lastHit_ends h2 hw]; simp

/-- With distinct keys the last entry is found. -/
theorem lastHit_exists : ∀ {ms : List (Bytes × Val)}, (ms.map Prod.fst).Nodup → Val.endsInStrE ms = true →
    ∃ k w, lastHit k ms ∧ firstVal ms k = some w ∧ w.endsInStr = true
  | (k', x) :: ms, h, e => by
    cases ms with
    | nil => exact ⟨k', x, .inl ⟨rfl, rfl⟩, by simp [firstVal], by simpa [Val.endsInStrE] using e⟩
    | cons m ms =>
      rw [List.map_cons, List.nodup_cons] at h
      obtain ⟨k, w, h1, h2, h3⟩ := lastHit_exists h.2 (by simpa [Val.endsInStrE] using e)
      have hn : k' ≠ k := by
        rintro rfl
        exact h.1 (firstVal_isSome.2 ⟨w, h2⟩)
      exact ⟨k, w, .inr ⟨hn, h1⟩, by rw [firstVal, if_neg hn]; exact h2, h3⟩

namespace Cbor

/-- The byte behind the view that `asStringView` returns, cbor.hpp:288-293: `buf_[q + h.val]`. -/
def View.behind (r : View) : Res UInt8 :=
  match r.head with
  | .ok h => match r.buf[r.pos + h.hlen + h.val]? with
    | some c => .ok c
    | none => .ub
  | _ => .ub

theorem View.behind_cases (r : View) : r.behind = .ub ∨ ∃ b, r.behind = .ok b := by
  unfold View.behind
  split
  · split
    · exact .inr ⟨_, rfl⟩
    · exact .inl rfl
  · exact .inl rfl

theorem behind_text {s b v : Bytes} {p : Nat} (he : Text false 3 s b) (ha : At v p b) :
    (p + b.length < v.length → ∃ c, View.behind ⟨v, p⟩ = .ok c) ∧ (p + b.length = v.length → View.behind ⟨v, p⟩ = .ub) := by
  cases he with
  | @definite h hh =>
    obtain ⟨a, hr⟩ := hh.read (by omega) false ha.left
    simp only [View.behind, View.head, hr, List.length_append]
    constructor
    · intro hlt
      rw [List.getElem?_eq_getElem (by omega)]
      exact ⟨_, rfl⟩
    · intro heq
      rw [List.getElem?_eq_none (by omega)]
  | chunked h => cases h

/-- Where the value of a key ends: at the end of the map exactly for the last entry. -/
theorem getKeyN_end {v : Bytes} {f : Nat} (hv : v.length < 2 ^ 64) (hf : v.length ≤ f) {key : Bytes} {w : Val} :
    ∀ {ms : List (Bytes × Val)} {cs : List Bytes} {p : Nat}, EncEntries false ms cs → At v p cs.flatten → firstVal ms key = some w →
    ∃ c q, View.getKeyN false f v key ms.length p = .ok ⟨v, q⟩ ∧ Enc false w c ∧ At v q c ∧
      q + c.length ≤ p + cs.flatten.length ∧ (q + c.length = p + cs.flatten.length ↔ lastHit key ms)
  | (k, x) :: ms, cs, p, he, ha, hw => by
    simp only [EncEntries] at he
    obtain ⟨ck, c, cs', hk, hc, hcs, rfl⟩ := he
    simp only [List.flatten_cons] at ha
    have hb := ha.bound
    simp only [List.length_append] at hb
    have hik : Item ck := .str (.inr rfl) hk
    have hs1 := hik.skip false hv ha.left (f := f) (by omega)
    have hs2 := (Enc.item x hc).skip false hv ha.right.left (f := f) (by omega)
    have hstr := asString_text hk (hard := false) hv ha.left (fun hh => by cases hh) hf
    have hlen := hcs.len
    simp only [List.length_cons, View.getKeyN, hstr, hs1, hs2, Res.ok_bind]
    by_cases h : k = key
    · simp only [firstVal, h, if_true] at hw
      injection hw with hw; subst hw
      rw [if_pos h]
      refine ⟨c, _, rfl, hc, ha.right.left, ?_, ?_⟩
      · simp only [List.flatten_cons, List.length_append]; omega
      · simp only [List.flatten_cons, List.length_append, lastHit, h, true_and, ne_eq, not_true_eq_false, false_and, or_false]
        constructor
        · intro e
          have : ms.length = 0 := by omega
          exact List.length_eq_zero_iff.1 this
        · rintro rfl
          simp only [EncEntries] at hcs
          subst hcs
          simp only [List.flatten_nil, List.length_nil]; omega
    · simp only [firstVal, if_neg h] at hw
      rw [if_neg h]
      obtain ⟨c', q, h1, h2, h3, h4, h5⟩ := getKeyN_end hv hf hcs ha.right.right hw
      refine ⟨c', q, h1, h2, h3, ?_, ?_⟩
      · simp only [List.flatten_cons, List.length_append]; omega
      · simp only [List.flatten_cons, List.length_append, lastHit, h, false_and, false_or, ne_eq, not_false_eq_true, true_and]
        rw [← h5]
        omega

theorem getKey_end {ms : List (Bytes × Val)} {cs : List Bytes} {b : Bytes} (he : EncEntries false ms cs)
    (hg : Group false 5 ms.length cs.flatten b) {v : Bytes} (hv : v.length < 2 ^ 64) {p : Nat} (ha : At v p b) {f : Nat}
    (hf : v.length ≤ f) {key : Bytes} {w : Val} (hw : firstVal ms key = some w) :
    ∃ c q, View.getKey false f ⟨v, p⟩ key = .ok ⟨v, q⟩ ∧ Enc false w c ∧ At v q c ∧ q + c.length ≤ p + b.length ∧
      (q + c.length = p + b.length ↔ lastHit key ms) := by
  cases hg with
  | @definite h hh =>
    obtain ⟨a, hr⟩ := hh.read (by omega) false ha.left
    obtain ⟨c, q, h1, h2, h3, h4, h5⟩ := getKeyN_end hv hf he ha.right hw
    refine ⟨c, q, ?_, h2, h3, ?_, ?_⟩
    · simp only [View.getKey, View.head, hr, Res.ok_bind, decide_true, Res.require_true, Bool.false_eq_true, if_false]
      exact h1
    · simp only [List.length_append]; omega
    · rw [← h5]
      simp only [List.length_append]; omega
  | indef h => cases h

theorem getIdx_end {cs : List Bytes} {b : Bytes} (hi : ∀ c ∈ cs, Item c) (hg : Group false 4 cs.length cs.flatten b) {v : Bytes}
    (hv : v.length < 2 ^ 64) {p : Nat} (ha : At v p b) {f : Nat} (hf : v.length ≤ f) {i : Nat} (h : i < cs.length) :
    ∃ q, View.getIdx f ⟨v, p⟩ i = .ok ⟨v, q⟩ ∧ At v q cs[i] ∧ q + cs[i].length ≤ p + b.length ∧
      (q + cs[i].length = p + b.length ↔ i + 1 = cs.length) := by
  cases hg with
  | @definite hd hh =>
    obtain ⟨a, hr⟩ := hh.read (by omega) false ha.left
    have ha2 := ha.right
    have e : cs.flatten = (cs.take i).flatten ++ (cs[i] ++ (cs.drop (i + 1)).flatten) := by
      rw [← List.flatten_cons, ← List.flatten_append, ← List.drop_eq_getElem_cons h, List.take_append_drop]
    have hge := flatten_ge (cs := cs.drop (i + 1)) (fun c hc => (hi c (List.mem_of_mem_drop hc)).pos)
    have hl := congrArg List.length e
    simp only [List.length_append, List.length_drop] at hl hge
    refine ⟨p + hd.length + (cs.take i).flatten.length, ?_, at_nth ha2 i h, ?_, ?_⟩
    · simp only [View.getIdx, View.head, hr, Res.ok_bind, decide_true, Res.require_true]
      simp [h, items_take hv hf hi ha2 (Nat.le_of_lt h)]
    · simp only [List.length_append]; omega
    · simp only [List.length_append]
      constructor
      · intro _; omega
      · intro e'
        have : cs.drop (i + 1) = [] := List.drop_eq_nil_iff.2 (by omega)
        rw [this] at hl
        simp only [List.flatten_nil, List.length_nil] at hl
        omega
  | indef h => cases h

/-- Every string has a byte behind it if something follows the value, or it does not end in a string. -/
theorem Enc.allBehind {v : Bytes} {f : Nat} (hv : v.length < 2 ^ 64) (hf : v.length ≤ f) :
    ∀ (w : Val) {b : Bytes} {p : Nat}, Enc false w b → At v p b → w.Small →
    p + b.length < v.length ∨ w.endsInStr = false → (reader false f).AllBehind View.behind ⟨v, p⟩ := by
  intro w
  induction w using Val.ind with
  | str s =>
    intro b p he ha hs h c x hc hx
    have hag : (reader false f).Agrees _ _ := Enc.agrees (ind := false) (hard := false) hv hf _ he ha hs (fun h => by cases h)
    rcases hc.head with rfl | ⟨xs, i, d, a, _⟩ | ⟨ms, k, d, a, _⟩
    · rcases h with h | h
      · exact (behind_text he ha).1 h
      · simp [Val.endsInStr] at h
    · have := hag.kind_unique a; simp [Val.kind] at this
    · have := hag.kind_unique a; simp [Val.kind] at this
  | arr xs ih =>
    intro b p he ha hs h c x hc hx
    have hag : (reader false f).Agrees _ _ := Enc.agrees (ind := false) (hard := false) hv hf _ he ha hs (fun h => by cases h)
    simp only [Enc] at he
    obtain ⟨cs, hcs, hg⟩ := he
    obtain ⟨hl, hi⟩ := EncList.item xs hcs
    rw [← hl] at hg
    rcases hc.head with rfl | ⟨ys, i, d, a, hlt, e, g⟩ | ⟨ms, k, d, a, _⟩
    · have := hag.kind_unique hx; simp [Val.kind] at this
    · have hl' : ys.length = xs.length := by
        cases a with | arr _ _ hn' =>
        cases hag with | arr _ _ hn => rw [hn] at hn'; injection hn' with hn'; exact hn'.symm
      have hlt' : i < xs.length := by omega
      obtain ⟨q, h1, h2, h3, h4⟩ := getIdx_end hi hg hv ha hf (i := i) (by omega)
      rw [show View.getIdx f ⟨v, p⟩ i = _ from e] at h1
      injection h1 with h1; subst h1
      have hb := ha.bound
      refine ih xs[i] (List.getElem_mem _) (hcs.nth i hlt' (by omega)) h2 (Val.Each.arr hs _ (List.getElem_mem _)) ?_ c x g hx
      by_cases hend : i + 1 = xs.length
      · rcases h with h | h
        · exact .inl (by omega)
        · rw [Val.endsInStr, Val.endsInStrL_last hlt' hend] at h
          exact .inr h
      · have := (not_congr h4).2 (by omega)
        exact .inl (by omega)
    · have := hag.kind_unique a; simp [Val.kind] at this
  | map ms ih =>
    intro b p he ha hs h c x hc hx
    have hag : (reader false f).Agrees _ _ := Enc.agrees (ind := false) (hard := false) hv hf _ he ha hs (fun h => by cases h)
    simp only [Enc] at he
    obtain ⟨cs, hcs, hg⟩ := he
    rcases hc.head with rfl | ⟨ys, i, d, a, _⟩ | ⟨ms', k, d, a, hk, e, g⟩
    · have := hag.kind_unique hx; simp [Val.kind] at this
    · have := hag.kind_unique a; simp [Val.kind] at this
    · have hl' : ms'.map Prod.fst = ms.map Prod.fst := by
        cases a with | map _ _ hn' =>
        cases hag with | map _ _ hn => rw [hn] at hn'; injection hn' with hn'; exact hn'.symm
      obtain ⟨w, hw⟩ := firstVal_isSome.1 (hl' ▸ hk)
      obtain ⟨cw, q, h1, h2, h3, h4, h5⟩ := getKey_end hcs hg hv ha hf hw
      rw [show View.getKey false f ⟨v, p⟩ k = _ from e] at h1
      injection h1 with h1; subst h1
      have hb := ha.bound
      have hmem := firstVal_mem hw
      refine ih (k, w) hmem h2 h3 (Val.Each.map hs _ hmem).2 ?_ c x g hx
      by_cases hend : lastHit k ms
      · have := h5.2 hend
        rcases h with h | h
        · exact .inl (by omega)
        · rw [Val.endsInStr, lastHit_ends hend hw] at h
          exact .inr h
      · have := (not_congr h5).2 hend
        exact .inl (by omega)
  | _ =>
    intro b p he ha hs h c x hc hx
    have hag : (reader false f).Agrees _ _ := Enc.agrees (ind := false) (hard := false) hv hf _ he ha hs (fun h => by cases h)
    rcases hc.head with rfl | ⟨xs, i, d, a, _⟩ | ⟨ms, k, d, a, _⟩
    · have := hag.kind_unique hx; simp [Val.kind] at this
    · have := hag.kind_unique a; simp [Val.kind] at this
    · have := hag.kind_unique a; simp [Val.kind] at this

/-- A string at the very end of the buffer is visited, and has no byte behind it. -/
theorem Enc.noneBehind {v : Bytes} {f : Nat} (hv : v.length < 2 ^ 64) (hf : v.length ≤ f) :
    ∀ (w : Val) {b : Bytes} {p : Nat}, Enc false w b → At v p b → w.Small → w.Distinct → p + b.length = v.length →
    w.endsInStr = true → ∃ c x, (reader false f).Visits ⟨v, p⟩ c ∧ (reader false f).Agrees c (.str x) ∧ c.behind = .ub := by
  intro w
  induction w using Val.ind with
  | str s =>
    intro b p he ha hs _ h _
    exact ⟨_, s, .refl, Enc.agrees (ind := false) (hard := false) hv hf _ he ha hs (fun h => by cases h), (behind_text he ha).2 h⟩
  | arr xs ih =>
    intro b p he ha hs hd h hw
    have hag : (reader false f).Agrees _ _ := Enc.agrees (ind := false) (hard := false) hv hf _ he ha hs (fun h => by cases h)
    simp only [Enc] at he
    obtain ⟨cs, hcs, hg⟩ := he
    obtain ⟨hl, hi⟩ := EncList.item xs hcs
    rw [← hl] at hg
    have hne : 0 < xs.length := by
      cases xs with
      | nil => simp [Val.endsInStr, Val.endsInStrL] at hw
      | cons => simp
    have hlt : xs.length - 1 < xs.length := by omega
    obtain ⟨q, h1, h2, h3, h4⟩ := getIdx_end hi hg hv ha hf (i := xs.length - 1) (by omega)
    have h4 := h4.2 (by omega)
    rw [Val.endsInStr, Val.endsInStrL_last hlt (by omega)] at hw
    obtain ⟨c, x, k1, k2, k3⟩ := ih xs[xs.length - 1] (List.getElem_mem _) (hcs.nth _ hlt (by omega)) h2
      (Val.Each.arr hs _ (List.getElem_mem _)) ((Val.distinctList_iff xs).1 hd _ (List.getElem_mem _)) (by omega) hw
    exact ⟨c, x, .trans (.elem .refl hag hlt h1) k1, k2, k3⟩
  | map ms ih =>
    intro b p he ha hs hd h hw
    have hag : (reader false f).Agrees _ _ := Enc.agrees (ind := false) (hard := false) hv hf _ he ha hs (fun h => by cases h)
    simp only [Enc] at he
    obtain ⟨cs, hcs, hg⟩ := he
    obtain ⟨k, w, e1, e2, e3⟩ := lastHit_exists hd.1 hw
    obtain ⟨cw, q, h1, h2, h3, h4, h5⟩ := getKey_end hcs hg hv ha hf e2
    have h5 := h5.2 e1
    have hmem := firstVal_mem e2
    obtain ⟨c, x, k1, k2, k3⟩ := ih (k, w) hmem h2 h3 (Val.Each.map hs _ hmem).2 ((Val.distinctEntries_iff ms).1 hd.2 _ hmem) (by omega) e3
    exact ⟨c, x, .trans (.entry .refl hag (firstVal_isSome.2 ⟨w, e2⟩) h1) k1, k2, k3⟩
  | _ => intro b p he ha hs _ h hw; simp [Val.endsInStr] at hw

end Cbor
end Zer
