import Verif.Cbor.Exact

/-!
# CBOR: the reader presents everything written in the dialect

As `Cbor/Contain.lean`, for the format extended by the two reserved bytes, lengths definite or not.
-/

namespace Zer.Cbor

open MsgPack (be be_length)

/-! ## Arrays -/

theorem items_takeL {v : Bytes} {f : Nat} (hv : v.length < 2 ^ 64) (hf : v.length ≤ f)
    {cs : List Bytes} {p : Nat} (hi : ∀ c ∈ cs, ItemL c) (ha : At v p cs.flatten) {i : Nat}
    (h : i ≤ cs.length) (raw : Bool) :
    items (skip raw v f) i p = .ok (p + (cs.take i).flatten.length) := by
  have e : cs.take i ++ cs.drop i = cs := List.take_append_drop i cs
  have ha' : At v p (cs.take i).flatten := by
    rw [← e, List.flatten_append] at ha; exact ha.left
  have hl : (cs.take i).length = i := by simp [h]
  have := items_at (rec := skip raw v f) (cs := cs.take i) (fun c hc q hq =>
    (hi c (List.mem_of_mem_take hc)).skip raw hv hq (by have := hq.bound; omega)) ha'
  rw [hl] at this
  exact this

theorem countB_atL {v : Bytes} {f : Nat} (hv : v.length < 2 ^ 64) (hf : v.length ≤ f) :
    ∀ {cs : List Bytes} {p g : Nat}, (∀ c ∈ cs, ItemL c) → At v p (cs.flatten ++ [0xff]) →
    cs.length < g → View.countB f v g p = .ok cs.length
  | [], p, g, _, ha, hg => by
    obtain ⟨g, rfl⟩ : ∃ k, g = k + 1 := ⟨g - 1, by omega⟩
    have ha' : At v p [0xff] := by simpa using ha
    simp [View.countB, decide_eq_true (at_lt ha'), break_lt ha']
  | c :: cs, p, g, hi, ha, hg => by
    simp only [List.length_cons] at hg
    obtain ⟨g, rfl⟩ : ∃ k, g = k + 1 := ⟨g - 1, by omega⟩
    have ha' : At v p (c ++ (cs.flatten ++ [0xff])) := by simpa using ha
    obtain ⟨x, u, hx, hx'⟩ := (hi c (by simp)).first
    have hxa : At v p (x :: u) := hx ▸ ha'.left
    have hs := (hi c (by simp)).skip false hv ha'.left (f := f) (by have := ha'.left.bound; omega)
    simp only [View.countB, decide_eq_true (at_lt hxa), Res.require_true, Res.ok_bind, at_byte hxa,
      if_neg (show x.toNat ≠ 0xff by omega), hs,
      countB_atL hv hf (fun d hd => hi d (by simp [hd])) ha'.right (show cs.length < g by omega)]
    rfl

theorem getIdxB_atL {v : Bytes} {f : Nat} (hv : v.length < 2 ^ 64) (hf : v.length ≤ f) (idx : Nat) :
    ∀ {cs : List Bytes} {p g i : Nat}, (∀ c ∈ cs, ItemL c) → At v p (cs.flatten ++ [0xff]) →
    cs.length < g → i ≤ idx → View.getIdxB f v idx g i p =
      if idx - i < cs.length then .ok ⟨v, p + (cs.take (idx - i)).flatten.length⟩ else .err .deser
  | [], p, g, i, _, ha, hg, hi => by
    obtain ⟨g, rfl⟩ : ∃ k, g = k + 1 := ⟨g - 1, by omega⟩
    have ha' : At v p [0xff] := by simpa using ha
    simp [View.getIdxB, decide_eq_true (at_lt ha'), break_lt ha']
  | c :: cs, p, g, i, hc, ha, hg, hi => by
    simp only [List.length_cons] at hg
    obtain ⟨g, rfl⟩ : ∃ k, g = k + 1 := ⟨g - 1, by omega⟩
    have ha' : At v p (c ++ (cs.flatten ++ [0xff])) := by simpa using ha
    obtain ⟨x, u, hx, hx'⟩ := (hc c (by simp)).first
    have hxa : At v p (x :: u) := hx ▸ ha'.left
    have hs := (hc c (by simp)).skip false hv ha'.left (f := f) (by have := ha'.left.bound; omega)
    simp only [View.getIdxB, decide_eq_true (at_lt hxa), Res.require_true, Res.ok_bind, at_byte hxa,
      if_neg (show x.toNat ≠ 0xff by omega)]
    by_cases h : i = idx
    · subst h; simp
    · rw [if_neg h, hs]
      simp only [Res.ok_bind]
      rw [getIdxB_atL hv hf idx (fun d hd => hc d (by simp [hd])) ha'.right (by omega) (by omega)]
      obtain ⟨k, hk⟩ : ∃ k, idx - i = k + 1 := ⟨idx - i - 1, by omega⟩
      rw [show idx - (i + 1) = k by omega, hk]
      simp [Nat.add_assoc]

theorem arraySize_atL {cs : List Bytes} {b : Bytes} (hi : ∀ c ∈ cs, ItemL c)
    (hg : Group true 4 cs.length cs.flatten b) {v : Bytes} (hv : v.length < 2 ^ 64) {p : Nat}
    (ha : At v p b) {f : Nat} (hf : v.length ≤ f) : View.arraySize f ⟨v, p⟩ = .ok cs.length := by
  obtain ⟨a, k, l, i, hr, hl, _, hb, h1, h2⟩ := hg.read (by omega) false ha
  have hbd := ha.bound
  have hge := flatten_ge (fun c hc => (hi c hc).pos)
  simp only [View.arraySize, View.head, hr, Res.ok_bind, decide_true, Res.require_true]
  cases i
  · simp [(h1 rfl).1]
  · simp only [if_true]
    exact countB_atL hv hf hi (h2 rfl) (by omega)

theorem getIdx_atL {cs : List Bytes} {b : Bytes} (hi : ∀ c ∈ cs, ItemL c)
    (hg : Group true 4 cs.length cs.flatten b) {v : Bytes} (hv : v.length < 2 ^ 64) {p : Nat}
    (ha : At v p b) {f : Nat} (hf : v.length ≤ f) : ∃ q, p + 1 ≤ q ∧
      q + cs.flatten.length ≤ p + b.length ∧ At v q cs.flatten ∧
      ∀ idx, View.getIdx f ⟨v, p⟩ idx =
        if idx < cs.length then .ok ⟨v, q + (cs.take idx).flatten.length⟩ else .err .deser := by
  obtain ⟨a, k, l, i, hr, hl, _, hb, h1, h2⟩ := hg.read (by omega) false ha
  have hbd := ha.bound
  have hge := flatten_ge (fun c hc => (hi c hc).pos)
  refine ⟨p + l, by omega, hb, ?_, ?_⟩
  · cases i
    · exact (h1 rfl).2
    · exact (h2 rfl).left
  intro idx
  simp only [View.getIdx, View.head, hr, Res.ok_bind, decide_true, Res.require_true]
  cases i
  · obtain ⟨rfl, ha2⟩ := h1 rfl
    by_cases h : idx < cs.length
    · simp [h, items_takeL hv hf hi ha2 (Nat.le_of_lt h)]
    · simp [h]
  · simp only [if_true]
    rw [getIdxB_atL hv hf idx hi (h2 rfl) (by omega) (by omega)]
    simp

/-! ## Maps -/

/-- What the key search finds: the encoding of the value of the first entry with that key. -/
def FoundL (ms : List (Bytes × Val)) (k : Bytes) (v : Bytes) (stop : Nat) (x : Res View) :
    Prop :=
  match firstVal ms k with
  | some w => ∃ c q, x = .ok ⟨v, q⟩ ∧ EncL w c ∧ At v q c ∧ q + c.length ≤ stop
  | none => x = .err .deser

theorem getKeyN_atL {hard : Bool} {v : Bytes} {f : Nat} (hv : v.length < 2 ^ 64)
    (hf : v.length ≤ f) (key : Bytes) : ∀ {ms : List (Bytes × Val)} {cs : List Bytes} {p : Nat},
    EncLEntries ms cs → At v p cs.flatten →
    Fine hard v (p + cs.flatten.length) (∀ m ∈ ms, m.1 ≠ []) →
    FoundL ms key v (p + cs.flatten.length) (View.getKeyN hard f v key ms.length p)
  | [], cs, p, _, _, _ => by simp [FoundL, firstVal, View.getKeyN]
  | (k, w) :: ms, cs, p, he, ha, hfine => by
    simp only [EncLEntries] at he
    obtain ⟨ck, c, cs', hk, hc, hcs, rfl⟩ := he
    simp only [List.flatten_cons] at ha
    have hb := ha.bound
    simp only [List.length_append] at hb
    have hik : ItemL ck := .str (.inr rfl) hk
    have hs1 := hik.skip false hv ha.left (f := f) (by omega)
    have hs2 := (EncL.item w hc).skip false hv ha.right.left (f := f) (by omega)
    have hck := (EncL.item w hc).pos
    have hstr := asString_text hk (hard := hard) hv ha.left (fun hh => .inl (by omega)) hf
    simp only [List.length_cons, View.getKeyN, hstr, hs1, hs2, Res.ok_bind]
    by_cases h : k = key
    · simp only [FoundL, firstVal, h, if_true]
      refine ⟨c, _, rfl, hc, ha.right.left, ?_⟩
      simp only [List.flatten_cons, List.length_append]; omega
    · rw [if_neg h]
      have := getKeyN_atL (hard := hard) hv hf key hcs ha.right.right (by
        intro hh
        have := hfine hh
        simp only [List.flatten_cons, List.length_append, ← Nat.add_assoc] at this
        rcases this with h' | h'
        · exact .inl h'
        · exact .inr (fun m hm => h' m (by simp [hm])))
      simpa [FoundL, firstVal, h, Nat.add_assoc] using this

theorem getKeyB_atL {hard : Bool} {v : Bytes} {f : Nat} (hv : v.length < 2 ^ 64)
    (hf : v.length ≤ f) (key : Bytes) : ∀ {ms : List (Bytes × Val)} {cs : List Bytes} {p g : Nat},
    EncLEntries ms cs → At v p (cs.flatten ++ [0xff]) → ms.length < g →
    FoundL ms key v (p + cs.flatten.length) (View.getKeyB hard f v key g p)
  | [], cs, p, g, he, ha, hg => by
    simp only [EncLEntries] at he
    subst he
    obtain ⟨g, rfl⟩ : ∃ k, g = k + 1 := ⟨g - 1, by omega⟩
    have ha' : At v p [0xff] := by simpa using ha
    simp [FoundL, firstVal, View.getKeyB, decide_eq_true (at_lt ha'), break_lt ha']
  | (k, w) :: ms, cs, p, g, he, ha, hg => by
    simp only [List.length_cons] at hg
    obtain ⟨g, rfl⟩ : ∃ k, g = k + 1 := ⟨g - 1, by omega⟩
    simp only [EncLEntries] at he
    obtain ⟨ck, c, cs', hk, hc, hcs, rfl⟩ := he
    have ha' : At v p (ck ++ (c ++ (cs'.flatten ++ [0xff]))) := by simpa using ha
    have hb := ha'.bound
    simp only [List.length_append, List.length_singleton] at hb
    have hik : ItemL ck := .str (.inr rfl) hk
    have hs1 := hik.skip false hv ha'.left (f := f) (by omega)
    have hs2 := (EncL.item w hc).skip false hv ha'.right.left (f := f) (by omega)
    have hstr := asString_text hk (hard := hard) hv ha'.left (fun hh => .inl (by omega)) hf
    obtain ⟨x, u, hx, hx'⟩ := hik.first
    have hxa : At v p (x :: u) := hx ▸ ha'.left
    simp only [View.getKeyB, decide_eq_true (at_lt hxa), Res.require_true, Res.ok_bind, at_byte hxa,
      if_neg (show x.toNat ≠ 0xff by omega), hstr, hs1, hs2]
    by_cases h : k = key
    · simp only [FoundL, firstVal, h, if_true]
      refine ⟨c, _, rfl, hc, ha'.right.left, ?_⟩
      simp only [List.flatten_cons, List.length_append]; omega
    · rw [if_neg h]
      have := getKeyB_atL (hard := hard) hv hf key hcs ha'.right.right (show ms.length < g by omega)
      simpa [FoundL, firstVal, h, Nat.add_assoc] using this

theorem EncLEntries.len {ms : List (Bytes × Val)} {cs : List Bytes}
    (h : EncLEntries ms cs) : 2 * ms.length ≤ cs.flatten.length := by
  obtain ⟨h1, h2⟩ := EncLEntries.item ms h
  have := flatten_ge (fun c hc => (h2 c hc).pos)
  omega

theorem getKey_atL {hard : Bool} {ms : List (Bytes × Val)} {cs : List Bytes} {b : Bytes}
    (he : EncLEntries ms cs) (hg : Group true 5 ms.length cs.flatten b) {v : Bytes}
    (hv : v.length < 2 ^ 64) {p : Nat} (ha : At v p b)
    (hfine : Fine hard v (p + b.length) (∀ m ∈ ms, m.1 ≠ [])) {f : Nat} (hf : v.length ≤ f) :
    ∃ stop, stop ≤ p + b.length ∧ ∀ key, FoundL ms key v stop (View.getKey hard f ⟨v, p⟩ key) := by
  obtain ⟨a, k, l, i, hr, hl, _, hb, h1, h2⟩ := hg.read (by omega) false ha
  have hbd := ha.bound
  have hge := he.len
  refine ⟨p + l + cs.flatten.length, hb, ?_⟩
  intro key
  simp only [View.getKey, View.head, hr, Res.ok_bind, decide_true, Res.require_true]
  cases i
  · obtain ⟨rfl, ha2⟩ := h1 rfl
    simp only [Bool.false_eq_true, if_false]
    refine getKeyN_atL hv hf key he ha2 (fun hh => ?_)
    rcases hfine hh with h' | h'
    · exact .inl (by omega)
    · exact .inr h'
  · simp only [if_true]
    exact getKeyB_atL hv hf key he (h2 rfl) (by omega)

/-! ## `contains` -/

theorem containsN_atL {hard : Bool} {v : Bytes} {f : Nat} (hv : v.length < 2 ^ 64)
    (hf : v.length ≤ f) (key : Bytes) : ∀ {ms : List (Bytes × Val)} {cs : List Bytes} {p : Nat},
    EncLEntries ms cs → At v p cs.flatten →
    View.containsN hard f v key ms.length p = .ok (decide (key ∈ ms.map Prod.fst))
  | [], cs, p, _, _ => by simp [View.containsN]
  | (k, w) :: ms, cs, p, he, ha => by
    simp only [EncLEntries] at he
    obtain ⟨ck, c, cs', hk, hc, hcs, rfl⟩ := he
    simp only [List.flatten_cons] at ha
    have hb := ha.bound
    simp only [List.length_append] at hb
    have hik : ItemL ck := .str (.inr rfl) hk
    have hs1 := hik.skip false hv ha.left (f := f) (by omega)
    have hs2 := (EncL.item w hc).skip false hv ha.right.left (f := f) (by omega)
    have hck := (EncL.item w hc).pos
    have hstr := keyAt_text hk (hard := hard) hv ha.left (fun hh => .inl (by omega)) hf
    simp only [List.length_cons, View.containsN, hstr, hs1, hs2, Res.ok_bind]
    by_cases h : k = key
    · simp [h]
    · rw [if_neg h, containsN_atL hv hf key hcs ha.right.right]
      have h' : ¬ key = k := fun e => h e.symm
      simp [h']

theorem containsB_atL {hard : Bool} {v : Bytes} {f : Nat} (hv : v.length < 2 ^ 64)
    (hf : v.length ≤ f) (key : Bytes) : ∀ {ms : List (Bytes × Val)} {cs : List Bytes} {p g : Nat},
    EncLEntries ms cs → At v p (cs.flatten ++ [0xff]) → ms.length < g →
    View.containsB hard f v key g p = .ok (decide (key ∈ ms.map Prod.fst))
  | [], cs, p, g, he, ha, hg => by
    simp only [EncLEntries] at he
    subst he
    obtain ⟨g, rfl⟩ : ∃ k, g = k + 1 := ⟨g - 1, by omega⟩
    have ha' : At v p [0xff] := by simpa using ha
    simp [View.containsB, decide_eq_true (at_lt ha'), break_lt ha']
  | (k, w) :: ms, cs, p, g, he, ha, hg => by
    simp only [List.length_cons] at hg
    obtain ⟨g, rfl⟩ : ∃ k, g = k + 1 := ⟨g - 1, by omega⟩
    simp only [EncLEntries] at he
    obtain ⟨ck, c, cs', hk, hc, hcs, rfl⟩ := he
    have ha' : At v p (ck ++ (c ++ (cs'.flatten ++ [0xff]))) := by simpa using ha
    have hb := ha'.bound
    simp only [List.length_append, List.length_singleton] at hb
    have hik : ItemL ck := .str (.inr rfl) hk
    have hs1 := hik.skip false hv ha'.left (f := f) (by omega)
    have hs2 := (EncL.item w hc).skip false hv ha'.right.left (f := f) (by omega)
    have hstr := asString_text hk (hard := hard) hv ha'.left (fun hh => .inl (by omega)) hf
    obtain ⟨x, u, hx, hx'⟩ := hik.first
    have hxa : At v p (x :: u) := hx ▸ ha'.left
    simp only [View.containsB, decide_eq_true (at_lt hxa), Res.require_true, Res.ok_bind, at_byte hxa,
      if_neg (show x.toNat ≠ 0xff by omega), hstr, hs1, hs2]
    by_cases h : k = key
    · simp [h]
    · rw [if_neg h, containsB_atL hv hf key hcs ha'.right.right (by omega)]
      have h' : ¬ key = k := fun e => h e.symm
      simp [h']

theorem contains_atL {hard : Bool} {ms : List (Bytes × Val)} {cs : List Bytes} {b : Bytes}
    (he : EncLEntries ms cs) (hg : Group true 5 ms.length cs.flatten b) {v : Bytes}
    (hv : v.length < 2 ^ 64) {p : Nat} (ha : At v p b) {f : Nat} (hf : v.length ≤ f) (key : Bytes) :
    View.contains hard f ⟨v, p⟩ key = .ok (decide (key ∈ ms.map Prod.fst)) := by
  obtain ⟨a, k, l, i, hr, hl, _, hb, h1, h2⟩ := hg.read (by omega) false ha
  have hbd := ha.bound
  have hge := he.len
  simp only [View.contains, View.head, hr, Res.ok_bind, if_true]
  cases i
  · obtain ⟨rfl, ha2⟩ := h1 rfl
    simp only [Bool.false_eq_true, if_false]
    exact containsN_atL hv hf key he ha2
  · simp only [if_true]
    exact containsB_atL hv hf key he (h2 rfl) (by omega)

/-! ## Key iteration -/

theorem keyNext_atL {raw : Bool} {v : Bytes} {f : Nat} (hv : v.length < 2 ^ 64) (hf : v.length ≤ f)
    {ck c : Bytes} (h1 : ItemL ck) (h2 : ItemL c) {p : Nat} (ha : At v p (ck ++ c)) {n : Nat}
    (hn : raw = true ∨ 0 < n) :
    View.keyNext f v raw p n = .ok (p + (ck ++ c).length, if raw then n else n - 1) := by
  have hb := ha.bound
  simp only [List.length_append] at hb
  have hs1 := h1.skip true hv ha.left (f := f) (by omega)
  have hs2 := h2.skip true hv ha.right (f := f) (by omega)
  obtain ⟨x, u, hx, hx'⟩ := h1.first
  have hxa : At v p (x :: u) := hx ▸ ha.left
  cases raw
  · have : n ≠ 0 := by simp at hn; omega
    simp [View.keyNext, hs1, hs2, this, Nat.add_assoc]
  · simp [View.keyNext, at_byte hxa, show x.toNat ≠ 0xff by omega, hs1, hs2, Nat.add_assoc]

theorem keysEnd_atL {n : Nat} {cs : List Bytes} {b : Bytes} (hi : ∀ c ∈ cs, ItemL c)
    (hn : cs.length = 2 * n) (hg : Group true 5 n cs.flatten b) {v : Bytes}
    (hv : v.length < 2 ^ 64) {p : Nat} (ha : At v p b) {f : Nat} (hf : v.length ≤ f) :
    View.keysEnd f v p = .ok (p + b.length) := by
  have hb := ha.bound
  have hge := flatten_ge (fun c hc => (hi c hc).pos)
  have hr : ∀ c ∈ cs, ∀ q, At v q c → skip true v f q = .ok (q + c.length) := fun c hc q hq =>
    (hi c hc).skip true hv hq (by have := hq.bound; omega)
  cases hg with
  | @definite h hh =>
    obtain ⟨a, hr'⟩ := hh.read (by omega) true ha.left
    simp only [View.keysEnd, hr', Res.ok_bind, Bool.false_eq_true, if_false, ← hn]
    rw [items_at hr ha.right, List.length_append, Nat.add_assoc]
  | indef hi' =>
    have hr' := indef_read (show 5 ≤ 6 by omega) true ha
    simp only [List.length_cons, List.length_append, List.length_nil] at hb
    simp only [View.keysEnd, hr', Res.ok_bind, if_true]
    rw [untilBreak_atL true (by omega) (n := n) hn (by omega) hi hr (at_tail ha)]
    simp only [List.length_cons, List.length_append, List.length_nil]; congr 1; omega

theorem keysSeenFrom_atL {hard : Bool} {v : Bytes} {f : Nat} (hv : v.length < 2 ^ 64)
    (hf : v.length ≤ f) : ∀ {ms : List (Bytes × Val)} {cs : List Bytes} {p g : Nat},
    EncLEntries ms cs → At v p cs.flatten → ms.length < g →
    keysSeenFrom hard f v false (p + cs.flatten.length) g p ms.length = .ok (ms.map Prod.fst)
  | [], cs, p, g, he, ha, hg => by
    simp only [EncLEntries] at he
    subst he
    obtain ⟨g, rfl⟩ : ∃ k, g = k + 1 := ⟨g - 1, by omega⟩
    simp [keysSeenFrom]
  | (k, w) :: ms, cs, p, g, he, ha, hg => by
    simp only [List.length_cons] at hg
    obtain ⟨g, rfl⟩ : ∃ k, g = k + 1 := ⟨g - 1, by omega⟩
    simp only [EncLEntries] at he
    obtain ⟨ck, c, cs', hk, hc, hcs, rfl⟩ := he
    have ha' : At v p ((ck ++ c) ++ cs'.flatten) := by simpa using ha
    have hb := ha'.bound
    simp only [List.length_append] at hb
    have hik : ItemL ck := .str (.inr rfl) hk
    have hp1 := hik.pos
    have hp2 := (EncL.item w hc).pos
    have hstr := keyDeref_text hk (hard := hard) hv ha'.left.left (fun hh => .inl (by omega)) hf
    have hnx := keyNext_atL (raw := false) hv hf hik (EncL.item w hc) ha'.left (n := ms.length + 1) (by simp)
    have ih := keysSeenFrom_atL (hard := hard) hv hf hcs ha'.right (show ms.length < g by omega)
    have e : p + (ck :: c :: cs').flatten.length = p + (ck ++ c).length + cs'.flatten.length := by
      simp only [List.flatten_cons, List.length_append]; omega
    have hne : ¬ p = p + (ck :: c :: cs').flatten.length := by
      simp only [List.flatten_cons, List.length_append]; omega
    simp only [keysSeenFrom, if_neg hne, hstr, Res.ok_bind, List.length_cons, hnx]
    simp only [Bool.false_eq_true, if_false, Nat.add_sub_cancel, e, ih]
    rfl

theorem keysB_atL {hard : Bool} {v : Bytes} {f : Nat} (hv : v.length < 2 ^ 64)
    (hf : v.length ≤ f) : ∀ {ms : List (Bytes × Val)} {cs : List Bytes} {p g : Nat},
    EncLEntries ms cs → At v p (cs.flatten ++ [0xff]) → ms.length < g →
    keysSeenFrom hard f v true (p + cs.flatten.length + 1) g p 0 = .ok (ms.map Prod.fst)
  | [], cs, p, g, he, ha, hg => by
    simp only [EncLEntries] at he
    subst he
    obtain ⟨g, rfl⟩ : ∃ k, g = k + 1 := ⟨g - 1, by omega⟩
    have ha' : At v p [0xff] := by simpa using ha
    simp [keysSeenFrom, keyDeref_break ha']
  | (k, w) :: ms, cs, p, g, he, ha, hg => by
    simp only [List.length_cons] at hg
    obtain ⟨g, rfl⟩ : ∃ k, g = k + 1 := ⟨g - 1, by omega⟩
    simp only [EncLEntries] at he
    obtain ⟨ck, c, cs', hk, hc, hcs, rfl⟩ := he
    have ha' : At v p ((ck ++ c) ++ (cs'.flatten ++ [0xff])) := by simpa using ha
    have hb := ha'.bound
    simp only [List.length_append, List.length_singleton] at hb
    have hik : ItemL ck := .str (.inr rfl) hk
    have hp1 := hik.pos
    have hp2 := (EncL.item w hc).pos
    have hstr := keyDeref_text hk (hard := hard) hv ha'.left.left (fun hh => .inl (by omega)) hf
    have hnx := keyNext_atL (raw := true) hv hf hik (EncL.item w hc) ha'.left (n := 0) (by simp)
    have ih := keysB_atL (hard := hard) hv hf hcs ha'.right (show ms.length < g by omega)
    have e : p + (ck :: c :: cs').flatten.length + 1 = p + (ck ++ c).length + cs'.flatten.length + 1 := by
      simp only [List.flatten_cons, List.length_append]; omega
    have hne : ¬ p = p + (ck :: c :: cs').flatten.length + 1 := by omega
    simp only [keysSeenFrom, if_neg hne, hstr, Res.ok_bind, hnx]
    simp only [if_true, e, ih]
    rfl

theorem keysSeen_atL {hard : Bool} {ms : List (Bytes × Val)} {cs : List Bytes} {b : Bytes}
    (he : EncLEntries ms cs) (hg : Group true 5 ms.length cs.flatten b) {v : Bytes}
    (hv : v.length < 2 ^ 64) {p : Nat} (ha : At v p b) {f : Nat} (hf : v.length ≤ f) :
    keysSeen hard f ⟨v, p⟩ = .ok (ms.map Prod.fst) := by
  have hbd := ha.bound
  have hge := he.len
  obtain ⟨hl, hi⟩ := EncLEntries.item ms he
  have hend := keysEnd_atL hi hl hg hv ha hf
  cases hg with
  | @definite h hh =>
    obtain ⟨a, hr⟩ := hh.read (by omega) false ha.left
    obtain ⟨a', hr'⟩ := hh.read (by omega) true ha.left
    have hp := hh.pos
    simp only [List.length_append] at hbd hend
    rw [← Nat.add_assoc] at hend
    have h2 := keysSeenFrom_atL (hard := hard) hv hf he ha.right (show ms.length < f by omega)
    simp only [keysSeen, View.head, hr, hr', Res.ok_bind, decide_true, Res.require_true, hend]
    simpa using h2
  | indef hi' =>
    have hr := indef_read (show 5 ≤ 6 by omega) false ha
    have hr' := indef_read (show 5 ≤ 6 by omega) true ha
    simp only [List.length_cons, List.length_append, List.length_nil] at hbd hend
    have e : p + (cs.flatten.length + (0 + 1) + 1) = p + 1 + cs.flatten.length + 1 := by omega
    rw [e] at hend
    have h2 := keysB_atL (hard := hard) hv hf he (at_tail ha) (show ms.length < f by omega)
    simp only [keysSeen, View.head, hr, hr', Res.ok_bind, decide_true, Res.require_true, hend]
    simpa using h2

/-! ## The reader presents the encoded value -/

theorem EncLList.nth : ∀ {xs : List Val} {cs : List Bytes}, EncLList xs cs →
    ∀ i (h : i < xs.length) (h' : i < cs.length), EncL xs[i] cs[i]
  | x :: xs, cs, h, 0, _, _ => by
    simp only [EncLList] at h; obtain ⟨c, cs', hc, _, rfl⟩ := h; exact hc
  | x :: xs, cs, h, i + 1, h1, h2 => by
    simp only [EncLList] at h; obtain ⟨c, cs', _, hcs, rfl⟩ := h
    exact EncLList.nth hcs i (by simpa using h1) (by simpa using h2)

theorem showsInt_encL {z : Int} {b : Bytes} (H : EncIntL z b) (h1 : -2 ^ 63 ≤ z) (h2 : z < 2 ^ 63)
    {ind hard : Bool} {f : Nat} {v : Bytes} {p : Nat} (ha : At v p b) :
    (readerI ind hard f).ShowsInt ⟨v, p⟩ z := by
  cases H with
  | std H => exact showsInt_enc H h1 h2 ha
  | zero e =>
    subst e
    have hr : readHead false v p = .ok ⟨0, 31, 0, 1, true⟩ := indef_read (m := 0) (by omega) false ha
    refine ⟨by simpa using head_num _ _ _ _ _ (by omega) hr, fun _ => ⟨0, ?_, by decide⟩, fun _ => ⟨0, ?_, by decide⟩⟩
    · cases ind <;> simp [readerI, reader, View.asInt64, View.head, hr]
    · cases ind <;> simp [readerI, reader, View.asUInt64, View.head, hr]
  | minusOne e =>
    subst e
    have hr : readHead false v p = .ok ⟨1, 31, 0, 1, true⟩ := indef_read (m := 1) (by omega) false ha
    refine ⟨by simpa using head_num _ _ _ _ _ (by omega) hr, fun _ => ⟨-1, ?_, by decide⟩, fun hu => ?_⟩
    · cases ind <;> simp [readerI, reader, View.asInt64, View.head, hr]
    · exfalso
      cases ind <;> simp [readerI, reader, View.isUInt, View.head, hr] at hu

theorem EncL.agrees {hard : Bool} {v : Bytes} {f : Nat} (hv : v.length < 2 ^ 64)
    (hf : v.length ≤ f) : ∀ (w : Val) {b : Bytes} {p : Nat}, EncL w b → At v p b → w.Small →
    Fine hard v (p + b.length) w.NoEmpty → (readerI true hard f).Agrees ⟨v, p⟩ w := by
  intro w
  induction w using Val.ind with
  | null =>
    intro b p he ha hs hfine
    simp only [EncL] at he; subst he
    have hr := simple_read (n := 22) (by omega) false ha
    exact .null (by simpa using shows_of_head (hard := hard) (ind := true) (f := f) hr)
  | bool x =>
    intro b p he ha hs hfine
    simp only [EncL] at he; subst he
    cases x
    · have hr := simple_read (n := 20) (by omega) false ha
      exact .bool (by simpa using shows_of_head (hard := hard) (ind := true) (f := f) hr)
        (by simp [readerI_asBool, View.asBool, View.head, hr])
    · have hr := simple_read (n := 21) (by omega) false ha
      exact .bool (by simpa using shows_of_head (hard := hard) (ind := true) (f := f) hr)
        (by simp [readerI_asBool, View.asBool, View.head, hr])
  | int i =>
    intro b p he ha hs hfine
    simp only [EncL] at he
    have h1 := i.le_toInt
    have h2 := i.toInt_lt
    exact .int (showsInt_encL he h1 h2 ha) (fun h => h.elim)
  | uint n =>
    intro b p he ha hs hfine
    simp only [EncL] at he
    simp only [Val.Small, Val.Each] at hs
    exact .uint (showsInt_encL he (by omega) (by omega) ha) (fun h => h.elim)
  | dbl d =>
    intro b p he ha hs hfine
    simp only [EncL] at he
    have h := asDouble_enc (ind := true) (hard := hard) (f := f) he d.toNat_lt ha
    exact .dbl h.1 (by rw [readerI_asDouble, h.2]; simp)
  | str s =>
    intro b p he ha hs hfine
    simp only [EncL] at he
    have hfine' : Fine hard v (p + b.length) (s ≠ []) := hfine
    obtain ⟨a, n, l, i, hr, _⟩ := he.read (.inr rfl) hv ha hfine' hf
    exact .str (by simpa using head_num (hard := hard) (ind := true) (f := f) _ _ _ _ _ (by omega) hr)
      (by rw [readerI_asString]; exact asString_text he hv ha hfine' hf)
      (asStringView_text he hv ha hfine' hf)
  | blob s =>
    intro b p he ha hs hfine
    simp only [EncL] at he
    have hfine' : Fine hard v (p + b.length) (s ≠ []) := hfine
    obtain ⟨a, n, l, i, hr, _⟩ := he.read (.inl rfl) hv ha hfine' hf
    exact .blob (by simpa using head_num (hard := hard) (ind := true) (f := f) _ _ _ _ _ (by omega) hr)
      (asBlob_text he hv ha hfine' hf) (fun h => h.elim)
  | arr xs ih =>
    intro b p he ha hs hfine
    simp only [EncL] at he
    obtain ⟨cs, hc, hg⟩ := he
    obtain ⟨hl, hi⟩ := EncLList.item xs hc
    rw [← hl] at hg
    obtain ⟨a, k, l, i, hr, _⟩ := hg.read (by omega) false ha
    obtain ⟨q, hq1, hq2, haq, hget⟩ := getIdx_atL hi hg hv ha hf
    refine .arr (fun i => ⟨v, q + (cs.take i).flatten.length⟩)
      (by simpa using head_num (hard := hard) (ind := true) (f := f) _ _ _ _ _ (by omega) hr) ?_ ?_ ?_ ?_
    · rw [readerI_arraySize, ← hl]; exact arraySize_atL hi hg hv ha hf
    · intro i hi'; rw [readerI_getIdx, hget, if_pos (by omega)]
    · intro i hi'; rw [readerI_getIdx, hget, if_neg (by omega)]
    · intro i hi'
      have hi2 : i < cs.length := by omega
      have hle := flatten_take_le cs i hi2
      exact ih xs[i] (List.getElem_mem _) (hc.nth i hi' hi2) (at_nth haq i hi2)
        (Val.Each.arr hs _ (List.getElem_mem _))
        (fine_sub hfine (by omega) (fun h => Val.Each.arr h _ (List.getElem_mem _)))
  | map ms ih =>
    intro b p he ha hs hfine
    simp only [EncL] at he
    obtain ⟨cs, hc, hg⟩ := he
    obtain ⟨a, k, l, i, hr, _⟩ := hg.read (by omega) false ha
    obtain ⟨stop, hstop, hkey⟩ := getKey_atL (hard := hard) hc hg hv ha
      (fine_sub hfine (Nat.le_refl _) (fun h m hm => (Val.Each.map h m hm).1)) hf
    refine .map (fun k => match View.getKey hard f ⟨v, p⟩ k with | .ok r => r | _ => ⟨v, p⟩)
      (by simpa using head_num (hard := hard) (ind := true) (f := f) _ _ _ _ _ (by omega) hr) ?_ ?_ ?_ ?_ ?_
    · exact keysSeen_atL hc hg hv ha hf
    · intro k; rw [readerI_contains]; exact contains_atL hc hg hv ha hf k
    · intro k hk
      obtain ⟨w, hw⟩ := firstVal_isSome.1 hk
      have := hkey k
      simp only [FoundL, hw] at this
      obtain ⟨c, q, h, _⟩ := this
      simp [readerI_getKey, h]
    · intro k hk
      have hn : firstVal ms k = none := by
        cases h : firstVal ms k with
        | none => rfl
        | some w => exact absurd (firstVal_isSome.2 ⟨w, h⟩) hk
      have := hkey k
      simp only [FoundL, hn] at this
      rw [readerI_getKey, this]
    · intro k w hw
      have := hkey k
      simp only [FoundL, hw] at this
      obtain ⟨c, q, h, he', ha', hle⟩ := this
      have hmem := firstVal_mem hw
      simp only [h]
      exact ih (k, w) hmem he' ha' (Val.Each.map hs _ hmem).2
        (fine_sub hfine (by omega) (fun h => (Val.Each.map h _ hmem).2))

/-- Nothing outside the signed range is presented: both integer kinds are reported together. -/
theorem small_of_agrees {ind hard : Bool} {f : Nat} : ∀ (x : Val), x.Distinct → ∀ (r : View), (readerI ind hard f).Agrees r x → x.Small := by
  intro x
  induction x using Val.ind with
  | uint n =>
    intro _ r h
    cases h with
    | uint h _ =>
      obtain ⟨hs, h1, h2⟩ := h
      obtain ⟨i, u, hi, hu, e⟩ := hs.2.2.1
      have hi : View.isInt r = .ok i := by cases ind <;> exact hi
      have hu : View.isUInt r = .ok u := by cases ind <;> exact hu
      have key : View.isInt r = .ok true := by
        unfold View.isInt at hi ⊢
        unfold View.isUInt at hu
        obtain ⟨hd, e1, e2⟩ := Res.bind_eq_ok.1 hi
        obtain ⟨hd', e1', e2'⟩ := Res.bind_eq_ok.1 hu
        rw [e1] at e1' ⊢
        injection e1' with e1'
        subst e1'
        simp only [Res.pure_eq, Res.ok.injEq] at e2 e2'
        rw [← e2, ← e2'] at e
        simp only [Res.ok_bind, Res.pure_eq, Res.ok.injEq]
        rcases Bool.or_eq_true_iff.1 e with e | e
        · exact e
        · have := of_decide_eq_true e
          simp [this]
      obtain ⟨y, _, hy⟩ := h1 (by cases ind <;> exact key)
      have := y.toInt_lt
      simp only [Val.Small, Val.Each]
      omega
  | arr xs ih =>
    intro hd r h
    cases h with
    | arr child _ _ _ _ hc =>
      refine ⟨trivial, (Val.eachList_iff xs).2 (fun x hx => ?_)⟩
      obtain ⟨i, hi, rfl⟩ := List.getElem_of_mem hx
      exact ih _ hx ((Val.distinctList_iff xs).1 hd _ hx) _ (hc i hi)
  | map ms ih =>
    intro hd r h
    cases h with
    | map child _ _ _ _ _ hc =>
      refine ⟨trivial, (Val.eachEntries_iff ms).2 (fun m hm => ⟨trivial, ?_⟩)⟩
      exact ih m hm ((Val.distinctEntries_iff ms).1 hd.2 _ hm) _ (hc m.1 m.2 (firstVal_of_nodup hd.1 hm))
  | _ => intro _ _ _; trivial

end Zer.Cbor
