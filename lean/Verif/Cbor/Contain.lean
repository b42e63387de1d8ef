import Verif.Cbor.Agree

/-!
# CBOR: containers
-/

namespace Zer.Cbor

open MsgPack (be be_length)

/-! ## Arrays -/

theorem flatten_take_le (cs : List Bytes) (i : Nat) (h : i < cs.length) :
    (cs.take i).flatten.length + cs[i].length ≤ cs.flatten.length := by
  induction cs generalizing i with
  | nil => simp at h
  | cons c cs ih =>
    cases i with
    | zero => simp
    | succ i =>
      have := ih i (by simpa using h)
      simp only [List.take_succ_cons, List.flatten_cons, List.length_append, List.getElem_cons_succ]
      omega

theorem at_nth {v : Bytes} : ∀ {cs : List Bytes} {p : Nat}, At v p cs.flatten → ∀ i (h : i < cs.length),
    At v (p + (cs.take i).flatten.length) cs[i]
  | c :: cs, p, ha, 0, _ => by simp only [List.flatten_cons] at ha; simpa using ha.left
  | c :: cs, p, ha, i + 1, h => by
    simp only [List.flatten_cons] at ha
    have := at_nth ha.right i (by simpa using h)
    simpa [Nat.add_assoc] using this

theorem items_take {v : Bytes} {f : Nat} (hv : v.length < 2 ^ 64) (hf : v.length ≤ f)
    {cs : List Bytes} {p : Nat} (hi : ∀ c ∈ cs, Item c) (ha : At v p cs.flatten) {i : Nat}
    (h : i ≤ cs.length) (raw : Bool) :
    items (skip raw v f) i p = .ok (p + (cs.take i).flatten.length) := by
  have e : cs.take i ++ cs.drop i = cs := List.take_append_drop i cs
  have ha' : At v p (cs.take i).flatten := by
    rw [← e, List.flatten_append] at ha; exact ha.left
  have hl : (cs.take i).length = i := by simp [h]
  have := items_at (rec := skip raw v f) (cs := cs.take i) (fun c hc q hq =>
    (hi c (List.mem_of_mem_take hc)).skip raw hv hq (by have := hq.bound; omega)) ha'
  rw [hl] at this
  exact this

theorem break_lt {v : Bytes} {p : Nat} (ha : At v p [0xff]) : byteAt v p = .ok 0xff := by
  have := at_byte ha; simpa using this

theorem countB_at {v : Bytes} {f : Nat} (hv : v.length < 2 ^ 64) (hf : v.length ≤ f) :
    ∀ {cs : List Bytes} {p g : Nat}, (∀ c ∈ cs, Item c) → At v p (cs.flatten ++ [0xff]) →
    cs.length < g → View.countB f v g p = .ok cs.length
  | [], p, g, _, ha, hg => by
    obtain ⟨g, rfl⟩ : ∃ k, g = k + 1 := ⟨g - 1, by omega⟩
    have ha' : At v p [0xff] := by simpa using ha
    simp [View.countB, decide_eq_true (at_lt ha'), break_lt ha']
  | c :: cs, p, g, hi, ha, hg => by
    simp only [List.length_cons] at hg
    obtain ⟨g, rfl⟩ : ∃ k, g = k + 1 := ⟨g - 1, by omega⟩
    have ha' : At v p (c ++ (cs.flatten ++ [0xff])) := by simpa using ha
    obtain ⟨x, u, hx, hx'⟩ := (hi c (by simp)).first
    have hxa : At v p (x :: u) := hx ▸ ha'.left
    have hs := (hi c (by simp)).skip false hv ha'.left (f := f) (by have := ha'.left.bound; omega)
    simp only [View.countB, decide_eq_true (at_lt hxa), Res.require_true, Res.ok_bind, at_byte hxa,
      if_neg (show x.toNat ≠ 0xff by omega), hs,
      countB_at hv hf (fun d hd => hi d (by simp [hd])) ha'.right (show cs.length < g by omega)]
    rfl

theorem getIdxB_at {v : Bytes} {f : Nat} (hv : v.length < 2 ^ 64) (hf : v.length ≤ f) (idx : Nat) :
    ∀ {cs : List Bytes} {p g i : Nat}, (∀ c ∈ cs, Item c) → At v p (cs.flatten ++ [0xff]) →
    cs.length < g → i ≤ idx → View.getIdxB f v idx g i p =
      if idx - i < cs.length then .ok ⟨v, p + (cs.take (idx - i)).flatten.length⟩ else .err .deser
  | [], p, g, i, _, ha, hg, hi => by
    obtain ⟨g, rfl⟩ : ∃ k, g = k + 1 := ⟨g - 1, by omega⟩
    have ha' : At v p [0xff] := by simpa using ha
    simp [View.getIdxB, decide_eq_true (at_lt ha'), break_lt ha']
  | c :: cs, p, g, i, hc, ha, hg, hi => by
    simp only [List.length_cons] at hg
    obtain ⟨g, rfl⟩ : ∃ k, g = k + 1 := ⟨g - 1, by omega⟩
    have ha' : At v p (c ++ (cs.flatten ++ [0xff])) := by simpa using ha
    obtain ⟨x, u, hx, hx'⟩ := (hc c (by simp)).first
    have hxa : At v p (x :: u) := hx ▸ ha'.left
    have hs := (hc c (by simp)).skip false hv ha'.left (f := f) (by have := ha'.left.bound; omega)
    simp only [View.getIdxB, decide_eq_true (at_lt hxa), Res.require_true, Res.ok_bind, at_byte hxa,
      if_neg (show x.toNat ≠ 0xff by omega)]
    by_cases h : i = idx
    · subst h; simp
    · rw [if_neg h, hs]
      simp only [Res.ok_bind]
      rw [getIdxB_at hv hf idx (fun d hd => hc d (by simp [hd])) ha'.right (by omega) (by omega)]
      obtain ⟨k, hk⟩ : ∃ k, idx - i = k + 1 := ⟨idx - i - 1, by omega⟩
      rw [show idx - (i + 1) = k by omega, hk]
      simp [Nat.add_assoc]

/-- Positions of the content of a container. -/
theorem Group.read {ind : Bool} {m n : Nat} {c b : Bytes} (hm : m ≤ 6) (hg : Group ind m n c b)
    (raw : Bool) {v : Bytes} {p : Nat} (ha : At v p b) :
    ∃ a k l i, readHead raw v p = .ok ⟨m, a, k, l, i⟩ ∧ 1 ≤ l ∧ (i = true → ind = true) ∧
      p + l + c.length ≤ p + b.length ∧
      (i = false → k = n ∧ At v (p + l) c) ∧ (i = true → At v (p + l) (c ++ [0xff])) := by
  cases hg with
  | @definite h hh =>
    obtain ⟨a, hr⟩ := hh.read hm raw ha.left
    exact ⟨a, n, _, false, hr, hh.pos, by simp, by simp [Nat.add_assoc], fun _ => ⟨rfl, ha.right⟩, by simp⟩
  | indef hi =>
    exact ⟨31, 0, 1, true, indef_read hm raw ha, Nat.le_refl _, fun _ => hi, by simp; omega,
      by simp, fun _ => at_tail ha⟩

theorem arraySize_at {ind : Bool} {cs : List Bytes} {b : Bytes} (hi : ∀ c ∈ cs, Item c)
    (hg : Group ind 4 cs.length cs.flatten b) {v : Bytes} (hv : v.length < 2 ^ 64) {p : Nat}
    (ha : At v p b) {f : Nat} (hf : v.length ≤ f) : View.arraySize f ⟨v, p⟩ = .ok cs.length := by
  obtain ⟨a, k, l, i, hr, hl, _, hb, h1, h2⟩ := hg.read (by omega) false ha
  have hbd := ha.bound
  have hge := flatten_ge (fun c hc => (hi c hc).pos)
  simp only [View.arraySize, View.head, hr, Res.ok_bind, decide_true, Res.require_true]
  cases i
  · simp [(h1 rfl).1]
  · simp only [if_true]
    exact countB_at hv hf hi (h2 rfl) (by omega)

theorem getIdx_at {ind : Bool} {cs : List Bytes} {b : Bytes} (hi : ∀ c ∈ cs, Item c)
    (hg : Group ind 4 cs.length cs.flatten b) {v : Bytes} (hv : v.length < 2 ^ 64) {p : Nat}
    (ha : At v p b) {f : Nat} (hf : v.length ≤ f) : ∃ q, p + 1 ≤ q ∧
      q + cs.flatten.length ≤ p + b.length ∧ At v q cs.flatten ∧
      ∀ idx, View.getIdx f ⟨v, p⟩ idx =
        if idx < cs.length then .ok ⟨v, q + (cs.take idx).flatten.length⟩ else .err .deser := by
  obtain ⟨a, k, l, i, hr, hl, _, hb, h1, h2⟩ := hg.read (by omega) false ha
  have hbd := ha.bound
  have hge := flatten_ge (fun c hc => (hi c hc).pos)
  refine ⟨p + l, by omega, hb, ?_, ?_⟩
  · cases i
    · exact (h1 rfl).2
    · exact (h2 rfl).left
  intro idx
  simp only [View.getIdx, View.head, hr, Res.ok_bind, decide_true, Res.require_true]
  cases i
  · obtain ⟨rfl, ha2⟩ := h1 rfl
    by_cases h : idx < cs.length
    · simp [h, items_take hv hf hi ha2 (Nat.le_of_lt h)]
    · simp [h]
  · simp only [if_true]
    rw [getIdxB_at hv hf idx hi (h2 rfl) (by omega) (by omega)]
    simp

/-! ## Maps -/

/-- What the key search finds: the encoding of the value of the first entry with that key. -/
def Found (ind : Bool) (ms : List (Bytes × Val)) (k : Bytes) (v : Bytes) (stop : Nat) (x : Res View) :
    Prop :=
  match firstVal ms k with
  | some w => ∃ c q, x = .ok ⟨v, q⟩ ∧ Enc ind w c ∧ At v q c ∧ q + c.length ≤ stop
  | none => x = .err .deser

theorem getKeyN_at {ind hard : Bool} {v : Bytes} {f : Nat} (hv : v.length < 2 ^ 64)
    (hf : v.length ≤ f) (key : Bytes) : ∀ {ms : List (Bytes × Val)} {cs : List Bytes} {p : Nat},
    EncEntries ind ms cs → At v p cs.flatten →
    Fine hard v (p + cs.flatten.length) (∀ m ∈ ms, m.1 ≠ []) →
    Found ind ms key v (p + cs.flatten.length) (View.getKeyN hard f v key ms.length p)
  | [], cs, p, _, _, _ => by simp [Found, firstVal, View.getKeyN]
  | (k, w) :: ms, cs, p, he, ha, hfine => by
    simp only [EncEntries] at he
    obtain ⟨ck, c, cs', hk, hc, hcs, rfl⟩ := he
    simp only [List.flatten_cons] at ha
    have hb := ha.bound
    simp only [List.length_append] at hb
    have hik : Item ck := .str (.inr rfl) hk
    have hs1 := hik.skip false hv ha.left (f := f) (by omega)
    have hs2 := (Enc.item w hc).skip false hv ha.right.left (f := f) (by omega)
    have hck := (Enc.item w hc).pos
    have hstr := asString_text hk (hard := hard) hv ha.left (fun hh => .inl (by omega)) hf
    simp only [List.length_cons, View.getKeyN, hstr, hs1, hs2, Res.ok_bind]
    by_cases h : k = key
    · simp only [Found, firstVal, h, if_true]
      refine ⟨c, _, rfl, hc, ha.right.left, ?_⟩
      simp only [List.flatten_cons, List.length_append]; omega
    · rw [if_neg h]
      have := getKeyN_at (hard := hard) hv hf key hcs ha.right.right (by
        intro hh
        have := hfine hh
        simp only [List.flatten_cons, List.length_append, ← Nat.add_assoc] at this
        rcases this with h' | h'
        · exact .inl h'
        · exact .inr (fun m hm => h' m (by simp [hm])))
      simpa [Found, firstVal, h, Nat.add_assoc] using this

theorem getKeyB_at {ind hard : Bool} {v : Bytes} {f : Nat} (hv : v.length < 2 ^ 64)
    (hf : v.length ≤ f) (key : Bytes) : ∀ {ms : List (Bytes × Val)} {cs : List Bytes} {p g : Nat},
    EncEntries ind ms cs → At v p (cs.flatten ++ [0xff]) → ms.length < g →
    Found ind ms key v (p + cs.flatten.length) (View.getKeyB hard f v key g p)
  | [], cs, p, g, he, ha, hg => by
    simp only [EncEntries] at he
    subst he
    obtain ⟨g, rfl⟩ : ∃ k, g = k + 1 := ⟨g - 1, by omega⟩
    have ha' : At v p [0xff] := by simpa using ha
    simp [Found, firstVal, View.getKeyB, decide_eq_true (at_lt ha'), break_lt ha']
  | (k, w) :: ms, cs, p, g, he, ha, hg => by
    simp only [List.length_cons] at hg
    obtain ⟨g, rfl⟩ : ∃ k, g = k + 1 := ⟨g - 1, by omega⟩
    simp only [EncEntries] at he
    obtain ⟨ck, c, cs', hk, hc, hcs, rfl⟩ := he
    have ha' : At v p (ck ++ (c ++ (cs'.flatten ++ [0xff]))) := by simpa using ha
    have hb := ha'.bound
    simp only [List.length_append, List.length_singleton] at hb
    have hik : Item ck := .str (.inr rfl) hk
    have hs1 := hik.skip false hv ha'.left (f := f) (by omega)
    have hs2 := (Enc.item w hc).skip false hv ha'.right.left (f := f) (by omega)
    have hstr := asString_text hk (hard := hard) hv ha'.left (fun hh => .inl (by omega)) hf
    obtain ⟨x, u, hx, hx'⟩ := hik.first
    have hxa : At v p (x :: u) := hx ▸ ha'.left
    simp only [View.getKeyB, decide_eq_true (at_lt hxa), Res.require_true, Res.ok_bind, at_byte hxa,
      if_neg (show x.toNat ≠ 0xff by omega), hstr, hs1, hs2]
    by_cases h : k = key
    · simp only [Found, firstVal, h, if_true]
      refine ⟨c, _, rfl, hc, ha'.right.left, ?_⟩
      simp only [List.flatten_cons, List.length_append]; omega
    · rw [if_neg h]
      have := getKeyB_at (hard := hard) hv hf key hcs ha'.right.right (show ms.length < g by omega)
      simpa [Found, firstVal, h, Nat.add_assoc] using this

theorem EncEntries.len {ind : Bool} {ms : List (Bytes × Val)} {cs : List Bytes}
    (h : EncEntries ind ms cs) : 2 * ms.length ≤ cs.flatten.length := by
  obtain ⟨h1, h2⟩ := EncEntries.item ms h
  have := flatten_ge (fun c hc => (h2 c hc).pos)
  omega

theorem getKey_at {ind hard : Bool} {ms : List (Bytes × Val)} {cs : List Bytes} {b : Bytes}
    (he : EncEntries ind ms cs) (hg : Group ind 5 ms.length cs.flatten b) {v : Bytes}
    (hv : v.length < 2 ^ 64) {p : Nat} (ha : At v p b)
    (hfine : Fine hard v (p + b.length) (∀ m ∈ ms, m.1 ≠ [])) {f : Nat} (hf : v.length ≤ f) :
    ∃ stop, stop ≤ p + b.length ∧ ∀ key, Found ind ms key v stop (View.getKey hard f ⟨v, p⟩ key) := by
  obtain ⟨a, k, l, i, hr, hl, _, hb, h1, h2⟩ := hg.read (by omega) false ha
  have hbd := ha.bound
  have hge := he.len
  refine ⟨p + l + cs.flatten.length, hb, ?_⟩
  intro key
  simp only [View.getKey, View.head, hr, Res.ok_bind, decide_true, Res.require_true]
  cases i
  · obtain ⟨rfl, ha2⟩ := h1 rfl
    simp only [Bool.false_eq_true, if_false]
    refine getKeyN_at hv hf key he ha2 (fun hh => ?_)
    rcases hfine hh with h' | h'
    · exact .inl (by omega)
    · exact .inr h'
  · simp only [if_true]
    exact getKeyB_at hv hf key he (h2 rfl) (by omega)

/-! ## `contains` -/

theorem keyAt_text {ind : Bool} {s b : Bytes} (hh : Text ind 3 s b)
    {hard : Bool} {v : Bytes} (hv : v.length < 2 ^ 64) {p : Nat} (ha : At v p b)
    (hfine : Fine hard v (p + b.length) (s ≠ [])) {f : Nat} (hf : v.length ≤ f) :
    View.keyAt hard f v p = .ok s := by
  obtain ⟨a, n, l, i, hr, _, h2, h3⟩ := hh.read (.inr rfl) hv ha hfine hf
  simp only [View.keyAt, hr, Res.ok_bind]
  cases i
  · simpa using (h3 rfl).2
  · simpa using asString_text hh hv ha hfine hf

theorem containsN_at {ind hard : Bool} {v : Bytes} {f : Nat} (hv : v.length < 2 ^ 64)
    (hf : v.length ≤ f) (key : Bytes) : ∀ {ms : List (Bytes × Val)} {cs : List Bytes} {p : Nat},
    EncEntries ind ms cs → At v p cs.flatten →
    View.containsN hard f v key ms.length p = .ok (decide (key ∈ ms.map Prod.fst))
  | [], cs, p, _, _ => by simp [View.containsN]
  | (k, w) :: ms, cs, p, he, ha => by
    simp only [EncEntries] at he
    obtain ⟨ck, c, cs', hk, hc, hcs, rfl⟩ := he
    simp only [List.flatten_cons] at ha
    have hb := ha.bound
    simp only [List.length_append] at hb
    have hik : Item ck := .str (.inr rfl) hk
    have hs1 := hik.skip false hv ha.left (f := f) (by omega)
    have hs2 := (Enc.item w hc).skip false hv ha.right.left (f := f) (by omega)
    have hck := (Enc.item w hc).pos
    have hstr := keyAt_text hk (hard := hard) hv ha.left (fun hh => .inl (by omega)) hf
    simp only [List.length_cons, View.containsN, hstr, hs1, hs2, Res.ok_bind]
    by_cases h : k = key
    · simp [h]
    · rw [if_neg h, containsN_at hv hf key hcs ha.right.right]
      have h' : ¬ key = k := fun e => h e.symm
      simp [h']

theorem containsB_at {ind hard : Bool} {v : Bytes} {f : Nat} (hv : v.length < 2 ^ 64)
    (hf : v.length ≤ f) (key : Bytes) : ∀ {ms : List (Bytes × Val)} {cs : List Bytes} {p g : Nat},
    EncEntries ind ms cs → At v p (cs.flatten ++ [0xff]) → ms.length < g →
    View.containsB hard f v key g p = .ok (decide (key ∈ ms.map Prod.fst))
  | [], cs, p, g, he, ha, hg => by
    simp only [EncEntries] at he
    subst he
    obtain ⟨g, rfl⟩ : ∃ k, g = k + 1 := ⟨g - 1, by omega⟩
    have ha' : At v p [0xff] := by simpa using ha
    simp [View.containsB, decide_eq_true (at_lt ha'), break_lt ha']
  | (k, w) :: ms, cs, p, g, he, ha, hg => by
    simp only [List.length_cons] at hg
    obtain ⟨g, rfl⟩ : ∃ k, g = k + 1 := ⟨g - 1, by omega⟩
    simp only [EncEntries] at he
    obtain ⟨ck, c, cs', hk, hc, hcs, rfl⟩ := he
    have ha' : At v p (ck ++ (c ++ (cs'.flatten ++ [0xff]))) := by simpa using ha
    have hb := ha'.bound
    simp only [List.length_append, List.length_singleton] at hb
    have hik : Item ck := .str (.inr rfl) hk
    have hs1 := hik.skip false hv ha'.left (f := f) (by omega)
    have hs2 := (Enc.item w hc).skip false hv ha'.right.left (f := f) (by omega)
    have hstr := asString_text hk (hard := hard) hv ha'.left (fun hh => .inl (by omega)) hf
    obtain ⟨x, u, hx, hx'⟩ := hik.first
    have hxa : At v p (x :: u) := hx ▸ ha'.left
    simp only [View.containsB, decide_eq_true (at_lt hxa), Res.require_true, Res.ok_bind, at_byte hxa,
      if_neg (show x.toNat ≠ 0xff by omega), hstr, hs1, hs2]
    by_cases h : k = key
    · simp [h]
    · rw [if_neg h, containsB_at hv hf key hcs ha'.right.right (by omega)]
      have h' : ¬ key = k := fun e => h e.symm
      simp [h']

theorem contains_at {ind hard : Bool} {ms : List (Bytes × Val)} {cs : List Bytes} {b : Bytes}
    (he : EncEntries ind ms cs) (hg : Group ind 5 ms.length cs.flatten b) {v : Bytes}
    (hv : v.length < 2 ^ 64) {p : Nat} (ha : At v p b) {f : Nat} (hf : v.length ≤ f) (key : Bytes) :
    View.contains hard f ⟨v, p⟩ key = .ok (decide (key ∈ ms.map Prod.fst)) := by
  obtain ⟨a, k, l, i, hr, hl, _, hb, h1, h2⟩ := hg.read (by omega) false ha
  have hbd := ha.bound
  have hge := he.len
  simp only [View.contains, View.head, hr, Res.ok_bind, if_true]
  cases i
  · obtain ⟨rfl, ha2⟩ := h1 rfl
    simp only [Bool.false_eq_true, if_false]
    exact containsN_at hv hf key he ha2
  · simp only [if_true]
    exact containsB_at hv hf key he (h2 rfl) (by omega)

/-! ## Key iteration -/

theorem keyDeref_text {ind : Bool} {s b : Bytes} (hh : Text ind 3 s b)
    {hard : Bool} {v : Bytes} (hv : v.length < 2 ^ 64) {p : Nat} (ha : At v p b)
    (hfine : Fine hard v (p + b.length) (s ≠ [])) {f : Nat} (hf : v.length ≤ f) :
    View.keyDeref hard f v p = .ok s := by
  have hs := asString_text hh hv ha hfine hf
  cases hh with
  | @definite h hh =>
    have hb := ha.bound
    obtain ⟨a, hr⟩ := hh.read (by omega) true ha.left
    have hg : hard = true → p + h.length < v.length := by
      intro hh
      simp only [List.length_append] at hb
      rcases hfine hh with h' | h'
      · simp only [List.length_append] at h'; omega
      · have := List.length_pos_iff.2 h'; omega
    simp only [View.keyDeref, hr, Res.ok_bind]
    simpa using range_at ha.right hg
  | @chunked b hi hc =>
    have hr := indef_read (show 3 ≤ 6 by omega) true ha
    simp only [View.keyDeref, hr, Res.ok_bind]
    simpa using hs

theorem keyNext_at {raw : Bool} {v : Bytes} {f : Nat} (hv : v.length < 2 ^ 64) (hf : v.length ≤ f)
    {ck c : Bytes} (h1 : Item ck) (h2 : Item c) {p : Nat} (ha : At v p (ck ++ c)) {n : Nat}
    (hn : raw = true ∨ 0 < n) :
    View.keyNext f v raw p n = .ok (p + (ck ++ c).length, if raw then n else n - 1) := by
  have hb := ha.bound
  simp only [List.length_append] at hb
  have hs1 := h1.skip true hv ha.left (f := f) (by omega)
  have hs2 := h2.skip true hv ha.right (f := f) (by omega)
  obtain ⟨x, u, hx, hx'⟩ := h1.first
  have hxa : At v p (x :: u) := hx ▸ ha.left
  cases raw
  · have : n ≠ 0 := by simp at hn; omega
    simp [View.keyNext, hs1, hs2, this, Nat.add_assoc]
  · simp [View.keyNext, at_byte hxa, show x.toNat ≠ 0xff by omega, hs1, hs2, Nat.add_assoc]

theorem keysEnd_at {ind : Bool} {n : Nat} {cs : List Bytes} {b : Bytes} (hi : ∀ c ∈ cs, Item c)
    (hn : cs.length = 2 * n) (hg : Group ind 5 n cs.flatten b) {v : Bytes}
    (hv : v.length < 2 ^ 64) {p : Nat} (ha : At v p b) {f : Nat} (hf : v.length ≤ f) :
    View.keysEnd f v p = .ok (p + b.length) := by
  have hb := ha.bound
  have hge := flatten_ge (fun c hc => (hi c hc).pos)
  have hr : ∀ c ∈ cs, ∀ q, At v q c → skip true v f q = .ok (q + c.length) := fun c hc q hq =>
    (hi c hc).skip true hv hq (by have := hq.bound; omega)
  cases hg with
  | @definite h hh =>
    obtain ⟨a, hr'⟩ := hh.read (by omega) true ha.left
    simp only [View.keysEnd, hr', Res.ok_bind, Bool.false_eq_true, if_false, ← hn]
    rw [items_at hr ha.right, List.length_append, Nat.add_assoc]
  | indef hi' =>
    have hr' := indef_read (show 5 ≤ 6 by omega) true ha
    simp only [List.length_cons, List.length_append, List.length_nil] at hb
    simp only [View.keysEnd, hr', Res.ok_bind, if_true]
    rw [untilBreak_at true (by omega) (n := n) hn (by omega) hi hr (at_tail ha)]
    simp only [List.length_cons, List.length_append, List.length_nil]; congr 1; omega

theorem keysFrom_at {ind hard : Bool} {v : Bytes} {f : Nat} (hv : v.length < 2 ^ 64)
    (hf : v.length ≤ f) : ∀ {ms : List (Bytes × Val)} {cs : List Bytes} {p g : Nat},
    EncEntries ind ms cs → At v p cs.flatten → ms.length < g →
    View.keysFrom hard f v false (p + cs.flatten.length) g p ms.length = .ok (ms.map Prod.fst)
  | [], cs, p, g, he, ha, hg => by
    simp only [EncEntries] at he
    subst he
    obtain ⟨g, rfl⟩ : ∃ k, g = k + 1 := ⟨g - 1, by omega⟩
    simp [View.keysFrom]
  | (k, w) :: ms, cs, p, g, he, ha, hg => by
    simp only [List.length_cons] at hg
    obtain ⟨g, rfl⟩ : ∃ k, g = k + 1 := ⟨g - 1, by omega⟩
    simp only [EncEntries] at he
    obtain ⟨ck, c, cs', hk, hc, hcs, rfl⟩ := he
    have ha' : At v p ((ck ++ c) ++ cs'.flatten) := by simpa using ha
    have hb := ha'.bound
    simp only [List.length_append] at hb
    have hik : Item ck := .str (.inr rfl) hk
    have hp1 := hik.pos
    have hp2 := (Enc.item w hc).pos
    have hstr := keyDeref_text hk (hard := hard) hv ha'.left.left (fun hh => .inl (by omega)) hf
    have hnx := keyNext_at (raw := false) hv hf hik (Enc.item w hc) ha'.left (n := ms.length + 1) (by simp)
    have ih := keysFrom_at (hard := hard) hv hf hcs ha'.right (show ms.length < g by omega)
    have e : p + (ck :: c :: cs').flatten.length = p + (ck ++ c).length + cs'.flatten.length := by
      simp only [List.flatten_cons, List.length_append]; omega
    have hne : ¬ p = p + (ck :: c :: cs').flatten.length := by
      simp only [List.flatten_cons, List.length_append]; omega
    simp only [View.keysFrom, if_neg hne, hstr, Res.ok_bind, List.length_cons, hnx]
    simp only [Bool.false_eq_true, if_false, Nat.add_sub_cancel, e, ih]
    rfl

theorem keysSeenFrom_at {ind hard : Bool} {v : Bytes} {f : Nat} (hv : v.length < 2 ^ 64)
    (hf : v.length ≤ f) : ∀ {ms : List (Bytes × Val)} {cs : List Bytes} {p g : Nat},
    EncEntries ind ms cs → At v p cs.flatten → ms.length < g →
    keysSeenFrom hard f v false (p + cs.flatten.length) g p ms.length = .ok (ms.map Prod.fst)
  | [], cs, p, g, he, ha, hg => by
    simp only [EncEntries] at he
    subst he
    obtain ⟨g, rfl⟩ : ∃ k, g = k + 1 := ⟨g - 1, by omega⟩
    simp [keysSeenFrom]
  | (k, w) :: ms, cs, p, g, he, ha, hg => by
    simp only [List.length_cons] at hg
    obtain ⟨g, rfl⟩ : ∃ k, g = k + 1 := ⟨g - 1, by omega⟩
    simp only [EncEntries] at he
    obtain ⟨ck, c, cs', hk, hc, hcs, rfl⟩ := he
    have ha' : At v p ((ck ++ c) ++ cs'.flatten) := by simpa using ha
    have hb := ha'.bound
    simp only [List.length_append] at hb
    have hik : Item ck := .str (.inr rfl) hk
    have hp1 := hik.pos
    have hp2 := (Enc.item w hc).pos
    have hstr := keyDeref_text hk (hard := hard) hv ha'.left.left (fun hh => .inl (by omega)) hf
    have hnx := keyNext_at (raw := false) hv hf hik (Enc.item w hc) ha'.left (n := ms.length + 1) (by simp)
    have ih := keysSeenFrom_at (hard := hard) hv hf hcs ha'.right (show ms.length < g by omega)
    have e : p + (ck :: c :: cs').flatten.length = p + (ck ++ c).length + cs'.flatten.length := by
      simp only [List.flatten_cons, List.length_append]; omega
    have hne : ¬ p = p + (ck :: c :: cs').flatten.length := by
      simp only [List.flatten_cons, List.length_append]; omega
    simp only [keysSeenFrom, if_neg hne, hstr, Res.ok_bind, List.length_cons, hnx]
    simp only [Bool.false_eq_true, if_false, Nat.add_sub_cancel, e, ih]
    rfl

/-- At the break byte of an indefinite map, dereferencing raises. -/
theorem keyDeref_break {hard : Bool} {v : Bytes} {f : Nat} {p : Nat} (ha : At v p [0xff]) :
    View.keyDeref hard f v p = .err .deser := by
  have h := at_lt ha
  have hr : ∀ raw, readHead raw v p = .ok ⟨7, 31, 0, 1, true⟩ := by
    intro raw
    simp [readHead, h, break_lt ha]
  simp [View.keyDeref, View.asString, View.head, hr]

theorem keysB_at {ind hard : Bool} {v : Bytes} {f : Nat} (hv : v.length < 2 ^ 64)
    (hf : v.length ≤ f) : ∀ {ms : List (Bytes × Val)} {cs : List Bytes} {p g : Nat},
    EncEntries ind ms cs → At v p (cs.flatten ++ [0xff]) → ms.length < g →
    View.keysFrom hard f v true (p + cs.flatten.length + 1) g p 0 = .err .deser ∧
    keysSeenFrom hard f v true (p + cs.flatten.length + 1) g p 0 = .ok (ms.map Prod.fst)
  | [], cs, p, g, he, ha, hg => by
    simp only [EncEntries] at he
    subst he
    obtain ⟨g, rfl⟩ : ∃ k, g = k + 1 := ⟨g - 1, by omega⟩
    have ha' : At v p [0xff] := by simpa using ha
    simp [View.keysFrom, keysSeenFrom, keyDeref_break ha']
  | (k, w) :: ms, cs, p, g, he, ha, hg => by
    simp only [List.length_cons] at hg
    obtain ⟨g, rfl⟩ : ∃ k, g = k + 1 := ⟨g - 1, by omega⟩
    simp only [EncEntries] at he
    obtain ⟨ck, c, cs', hk, hc, hcs, rfl⟩ := he
    have ha' : At v p ((ck ++ c) ++ (cs'.flatten ++ [0xff])) := by simpa using ha
    have hb := ha'.bound
    simp only [List.length_append, List.length_singleton] at hb
    have hik : Item ck := .str (.inr rfl) hk
    have hp1 := hik.pos
    have hp2 := (Enc.item w hc).pos
    have hstr := keyDeref_text hk (hard := hard) hv ha'.left.left (fun hh => .inl (by omega)) hf
    have hnx := keyNext_at (raw := true) hv hf hik (Enc.item w hc) ha'.left (n := 0) (by simp)
    have ih := keysB_at (hard := hard) hv hf hcs ha'.right (show ms.length < g by omega)
    have e : p + (ck :: c :: cs').flatten.length + 1 = p + (ck ++ c).length + cs'.flatten.length + 1 := by
      simp only [List.flatten_cons, List.length_append]; omega
    have hne : ¬ p = p + (ck :: c :: cs').flatten.length + 1 := by omega
    simp only [View.keysFrom, keysSeenFrom, if_neg hne, hstr, Res.ok_bind, hnx]
    simp only [if_true, e, ih.1, ih.2]
    exact ⟨rfl, rfl⟩

theorem keysSeen_at {ind hard : Bool} {ms : List (Bytes × Val)} {cs : List Bytes} {b : Bytes}
    (he : EncEntries ind ms cs) (hg : Group ind 5 ms.length cs.flatten b) {v : Bytes}
    (hv : v.length < 2 ^ 64) {p : Nat} (ha : At v p b) {f : Nat} (hf : v.length ≤ f) :
    keysSeen hard f ⟨v, p⟩ = .ok (ms.map Prod.fst) ∧
    (∀ {h}, readHead false v p = .ok h →
      View.mapKeys hard f ⟨v, p⟩ = if h.indef then .err .deser else .ok (ms.map Prod.fst)) := by
  have hbd := ha.bound
  have hge := he.len
  obtain ⟨hl, hi⟩ := EncEntries.item ms he
  have hend := keysEnd_at hi hl hg hv ha hf
  cases hg with
  | @definite h hh =>
    obtain ⟨a, hr⟩ := hh.read (by omega) false ha.left
    obtain ⟨a', hr'⟩ := hh.read (by omega) true ha.left
    have hp := hh.pos
    simp only [List.length_append] at hbd hend
    rw [← Nat.add_assoc] at hend
    have h1 := keysFrom_at (hard := hard) hv hf he ha.right (show ms.length < f by omega)
    have h2 := keysSeenFrom_at (hard := hard) hv hf he ha.right (show ms.length < f by omega)
    refine ⟨?_, ?_⟩
    · simp only [keysSeen, View.head, hr, hr', Res.ok_bind, decide_true, Res.require_true, hend]
      simpa using h2
    · intro hd hhd
      rw [hr] at hhd; injection hhd with hhd; subst hhd
      simp only [View.mapKeys, View.head, hr, hr', Res.ok_bind, decide_true, Res.require_true, hend]
      simpa using h1
  | indef hi' =>
    have hr := indef_read (show 5 ≤ 6 by omega) false ha
    have hr' := indef_read (show 5 ≤ 6 by omega) true ha
    simp only [List.length_cons, List.length_append, List.length_nil] at hbd hend
    have e : p + (cs.flatten.length + (0 + 1) + 1) = p + 1 + cs.flatten.length + 1 := by omega
    rw [e] at hend
    obtain ⟨h1, h2⟩ := keysB_at (hard := hard) hv hf he (at_tail ha) (show ms.length < f by omega)
    refine ⟨?_, ?_⟩
    · simp only [keysSeen, View.head, hr, hr', Res.ok_bind, decide_true, Res.require_true, hend]
      simpa using h2
    · intro hd hhd
      rw [hr] at hhd; injection hhd with hhd; subst hhd
      simp only [View.mapKeys, View.head, hr, hr', Res.ok_bind, decide_true, Res.require_true, hend]
      simpa using h1

theorem mapKeys_at {ind hard : Bool} {ms : List (Bytes × Val)} {cs : List Bytes} {b : Bytes}
    (he : EncEntries ind ms cs) (hg : Group ind 5 ms.length cs.flatten b) {v : Bytes}
    (hv : v.length < 2 ^ 64) {p : Nat} (ha : At v p b) {f : Nat} (hf : v.length ≤ f) :
    (readerI ind hard f).mapKeys ⟨v, p⟩ = .ok (ms.map Prod.fst) := by
  obtain ⟨h1, h2⟩ := keysSeen_at (hard := hard) he hg hv ha hf
  cases ind
  · cases hg with
    | definite hh =>
      obtain ⟨a, hr⟩ := hh.read (by omega) false ha.left
      have := h2 hr
      simp only [Bool.false_eq_true, if_false] at this
      exact this
    | indef h => cases h
  · exact h1

/-! ## The reader presents the encoded value -/

theorem EncList.nth {ind : Bool} : ∀ {xs : List Val} {cs : List Bytes}, EncList ind xs cs →
    ∀ i (h : i < xs.length) (h' : i < cs.length), Enc ind xs[i] cs[i]
  | x :: xs, cs, h, 0, _, _ => by
    simp only [EncList] at h; obtain ⟨c, cs', hc, _, rfl⟩ := h; exact hc
  | x :: xs, cs, h, i + 1, h1, h2 => by
    simp only [EncList] at h; obtain ⟨c, cs', _, hcs, rfl⟩ := h
    exact EncList.nth hcs i (by simpa using h1) (by simpa using h2)

theorem readerI_getIdx (ind hard : Bool) (f : Nat) : (readerI ind hard f).getIdx = View.getIdx f := by
  cases ind <;> rfl
theorem readerI_arraySize (ind hard : Bool) (f : Nat) :
    (readerI ind hard f).arraySize = View.arraySize f := by cases ind <;> rfl
theorem readerI_getKey (ind hard : Bool) (f : Nat) :
    (readerI ind hard f).getKey = View.getKey hard f := by cases ind <;> rfl
theorem readerI_contains (ind hard : Bool) (f : Nat) :
    (readerI ind hard f).contains = View.contains hard f := by cases ind <;> rfl
theorem readerI_asString (ind hard : Bool) (f : Nat) :
    (readerI ind hard f).asString = View.asString hard f := by cases ind <;> rfl
theorem readerI_asDouble (ind hard : Bool) (f : Nat) :
    (readerI ind hard f).asDouble = View.asDouble := by cases ind <;> rfl
theorem readerI_asBool (ind hard : Bool) (f : Nat) :
    (readerI ind hard f).asBool = View.asBool := by cases ind <;> rfl

theorem fine_sub {hard : Bool} {v : Bytes} {s s' : Nat} {e e' : Prop} (h : Fine hard v s e)
    (hs : s' ≤ s) (he : e → e') : Fine hard v s' e' := by
  intro hh
  rcases h hh with h | h
  · exact .inl (by omega)
  · exact .inr (he h)

theorem Enc.agrees {ind hard : Bool} {v : Bytes} {f : Nat} (hv : v.length < 2 ^ 64)
    (hf : v.length ≤ f) : ∀ (w : Val) {b : Bytes} {p : Nat}, Enc ind w b → At v p b → w.Small →
    Fine hard v (p + b.length) w.NoEmpty → (readerI ind hard f).Agrees ⟨v, p⟩ w := by
  intro w
  induction w using Val.ind with
  | null =>
    intro b p he ha hs hfine
    simp only [Enc] at he; subst he
    have hr := simple_read (n := 22) (by omega) false ha
    exact .null (by simpa using shows_of_head (hard := hard) (ind := ind) (f := f) hr)
  | bool x =>
    intro b p he ha hs hfine
    simp only [Enc] at he; subst he
    cases x
    · have hr := simple_read (n := 20) (by omega) false ha
      exact .bool (by simpa using shows_of_head (hard := hard) (ind := ind) (f := f) hr)
        (by simp [readerI_asBool, View.asBool, View.head, hr])
    · have hr := simple_read (n := 21) (by omega) false ha
      exact .bool (by simpa using shows_of_head (hard := hard) (ind := ind) (f := f) hr)
        (by simp [readerI_asBool, View.asBool, View.head, hr])
  | int i =>
    intro b p he ha hs hfine
    simp only [Enc] at he
    have h1 := i.le_toInt
    have h2 := i.toInt_lt
    exact .int (showsInt_enc he h1 h2 ha) (fun h => h.elim)
  | uint n =>
    intro b p he ha hs hfine
    simp only [Enc] at he
    simp only [Val.Small, Val.Each] at hs
    exact .uint (showsInt_enc he (by omega) (by omega) ha) (fun h => h.elim)
  | dbl d =>
    intro b p he ha hs hfine
    simp only [Enc] at he
    have h := asDouble_enc (ind := ind) (hard := hard) (f := f) he d.toNat_lt ha
    exact .dbl h.1 (by rw [readerI_asDouble, h.2]; simp)
  | str s =>
    intro b p he ha hs hfine
    simp only [Enc] at he
    have hfine' : Fine hard v (p + b.length) (s ≠ []) := hfine
    obtain ⟨a, n, l, i, hr, _⟩ := he.read (.inr rfl) hv ha hfine' hf
    exact .str (by simpa using head_num (hard := hard) (ind := ind) (f := f) _ _ _ _ _ (by omega) hr)
      (by rw [readerI_asString]; exact asString_text he hv ha hfine' hf)
      (asStringView_text he hv ha hfine' hf)
  | blob s =>
    intro b p he ha hs hfine
    simp only [Enc] at he
    have hfine' : Fine hard v (p + b.length) (s ≠ []) := hfine
    obtain ⟨a, n, l, i, hr, _⟩ := he.read (.inl rfl) hv ha hfine' hf
    exact .blob (by simpa using head_num (hard := hard) (ind := ind) (f := f) _ _ _ _ _ (by omega) hr)
      (asBlob_text he hv ha hfine' hf) (fun h => h.elim)
  | arr xs ih =>
    intro b p he ha hs hfine
    simp only [Enc] at he
    obtain ⟨cs, hc, hg⟩ := he
    obtain ⟨hl, hi⟩ := EncList.item xs hc
    rw [← hl] at hg
    obtain ⟨a, k, l, i, hr, _⟩ := hg.read (by omega) false ha
    obtain ⟨q, hq1, hq2, haq, hget⟩ := getIdx_at hi hg hv ha hf
    refine .arr (fun i => ⟨v, q + (cs.take i).flatten.length⟩)
      (by simpa using head_num (hard := hard) (ind := ind) (f := f) _ _ _ _ _ (by omega) hr) ?_ ?_ ?_ ?_
    · rw [readerI_arraySize, ← hl]; exact arraySize_at hi hg hv ha hf
    · intro i hi'; rw [readerI_getIdx, hget, if_pos (by omega)]
    · intro i hi'; rw [readerI_getIdx, hget, if_neg (by omega)]
    · intro i hi'
      have hi2 : i < cs.length := by omega
      have hle := flatten_take_le cs i hi2
      exact ih xs[i] (List.getElem_mem _) (hc.nth i hi' hi2) (at_nth haq i hi2)
        (Val.Each.arr hs _ (List.getElem_mem _))
        (fine_sub hfine (by omega) (fun h => Val.Each.arr h _ (List.getElem_mem _)))
  | map ms ih =>
    intro b p he ha hs hfine
    simp only [Enc] at he
    obtain ⟨cs, hc, hg⟩ := he
    obtain ⟨a, k, l, i, hr, _⟩ := hg.read (by omega) false ha
    obtain ⟨stop, hstop, hkey⟩ := getKey_at (hard := hard) hc hg hv ha
      (fine_sub hfine (Nat.le_refl _) (fun h m hm => (Val.Each.map h m hm).1)) hf
    refine .map (fun k => match View.getKey hard f ⟨v, p⟩ k with | .ok r => r | _ => ⟨v, p⟩)
      (by simpa using head_num (hard := hard) (ind := ind) (f := f) _ _ _ _ _ (by omega) hr) ?_ ?_ ?_ ?_ ?_
    · exact mapKeys_at hc hg hv ha hf
    · intro k; rw [readerI_contains]; exact contains_at hc hg hv ha hf k
    · intro k hk
      obtain ⟨w, hw⟩ := firstVal_isSome.1 hk
      have := hkey k
      simp only [Found, hw] at this
      obtain ⟨c, q, h, _⟩ := this
      simp [readerI_getKey, h]
    · intro k hk
      have hn : firstVal ms k = none := by
        cases h : firstVal ms k with
        | none => rfl
        | some w => exact absurd (firstVal_isSome.2 ⟨w, h⟩) hk
      have := hkey k
      simp only [Found, hn] at this
      rw [readerI_getKey, this]
    · intro k w hw
      have := hkey k
      simp only [Found, hw] at this
      obtain ⟨c, q, h, he', ha', hle⟩ := this
      have hmem := firstVal_mem hw
      simp only [h]
      exact ih (k, w) hmem he' ha' (Val.Each.map hs _ hmem).2
        (fine_sub hfine (by omega) (fun h => (Val.Each.map h _ hmem).2))

end Zer.Cbor
