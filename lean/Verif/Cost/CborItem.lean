import Verif.Cost.CborLook

/-!
# CBOR: steps on well-formed items
-/

namespace Zer.Cbor

open Cnt (tick)
open MsgPack (be be_length)

theorem walk_items {raw : Bool} {v : Bytes} (hv : v.length < 2 ^ 64) {f : Nat} (hf : v.length ≤ f) : ∀ {cs : List Bytes} {q : Nat} {Q : Nat → Prop},
    (∀ c ∈ cs, Item c) → At v q cs.flatten → Q (q + cs.flatten.length) → Walk raw v f cs.length q Q
  | [], q, Q, _, _, hQ => hQ
  | c :: cs, q, Q, hi, ha, hQ => by
    simp only [List.flatten_cons] at ha
    have hic := hi c (by simp)
    have hb := ha.left.bound
    refine ⟨hic.cheap raw hv ha.left (by omega), fun r hr => ?_⟩
    rw [skipC_res, hic.skip raw hv ha.left (by omega)] at hr
    injection hr with hr
    subst hr
    refine walk_items hv hf (fun d hd => hi d (by simp [hd])) ha.right ?_
    rw [List.flatten_cons, List.length_append, ← Nat.add_assoc] at hQ
    exact hQ

theorem walkB_items {raw : Bool} {v : Bytes} (hv : v.length < 2 ^ 64) {f : Nat} (hf : v.length ≤ f) {k : Nat} :
    ∀ {n : Nat} {cs : List Bytes} {q : Nat} (g : Nat), cs.length = k * n → (∀ c ∈ cs, Item c) → At v q (cs.flatten ++ [0xff]) →
    WalkB raw v f k g q
  | _, _, _, 0, _, _, _ => trivial
  | 0, cs, q, g + 1, hn, _, ha => by
    have : cs = [] := List.length_eq_zero_iff.1 (by simpa using hn)
    subst this
    exact .inl (break_lt ha)
  | n + 1, cs, q, g + 1, hn, hi, ha => by
    obtain ⟨a, b, rfl, hka, hkb⟩ := split_k hn
    have ha' : At v q (a.flatten ++ (b.flatten ++ [0xff])) := by simpa using ha
    refine .inr ?_
    rw [← hka]
    refine walk_items hv hf (fun d hd => hi d (by simp only [List.mem_append]; exact .inl hd)) ha'.left ?_
    exact walkB_items hv hf g (by rw [hka]; exact hkb) (fun d hd => hi d (by simp only [List.mem_append]; exact .inr hd)) ha'.right

theorem Group.walks {ind : Bool} {m k n : Nat} {cs : List Bytes} {b : Bytes} (hm : m ≤ 6) (hl : cs.length = k * n) (hi : ∀ c ∈ cs, Item c)
    (hg : Group ind m n cs.flatten b) (raw : Bool) {v : Bytes} (hv : v.length < 2 ^ 64) {f : Nat} (hf : v.length ≤ f) {p : Nat}
    (ha : At v p b) : Walks raw v f k p := by
  obtain ⟨a, n', l, i, hr, _, _, _, h1, h2⟩ := hg.read hm raw ha
  intro h hr'
  rw [hr] at hr'
  injection hr' with hr'
  subst hr'
  refine ⟨fun hi' => ?_, fun hi' g => ?_⟩
  · obtain ⟨e, ha'⟩ := h1 hi'
    simp only
    rw [e, ← hl]
    exact walk_items hv hf hi ha' trivial
  · exact walkB_items hv hf g hl hi (h2 hi')

/-- The content of an array or map. -/
theorem Item.group {b : Bytes} (h : Item b) {v : Bytes} {p : Nat} (ha : At v p b) {hd : Head} (hr : readHead false v p = .ok hd) :
    (hd.major = 4 → ∃ (ind : Bool) (cs : List Bytes), (∀ c ∈ cs, Item c) ∧ Group ind 4 cs.length cs.flatten b) ∧
    (hd.major = 5 → ∃ (ind : Bool) (n : Nat) (cs : List Bytes), cs.length = 2 * n ∧ (∀ c ∈ cs, Item c) ∧ Group ind 5 n cs.flatten b) := by
  have byH : ∀ {h' : Head}, readHead false v p = .ok h' → hd = h' := by
    intro h' e; rw [hr] at e; injection e
  have no : hd.major ≠ 4 ∧ hd.major ≠ 5 → (hd.major = 4 → ∃ (ind : Bool) (cs : List Bytes), (∀ c ∈ cs, Item c) ∧ Group ind 4 cs.length cs.flatten b) ∧
      (hd.major = 5 → ∃ (ind : Bool) (n : Nat) (cs : List Bytes), cs.length = 2 * n ∧ (∀ c ∈ cs, Item c) ∧ Group ind 5 n cs.flatten b) :=
    fun hm => ⟨fun h => absurd h hm.1, fun h => absurd h hm.2⟩
  cases h with
  | num hm hh => obtain ⟨a, hr'⟩ := hh.read (by omega) false ha; exact no (by rw [byH hr']; simp; omega)
  | @str ind m s _ hm ht =>
    have e : m ≠ 4 ∧ m ≠ 5 := by omega
    cases ht with
    | definite hh => obtain ⟨a, hr'⟩ := hh.read (by omega) false ha.left; exact no (by rw [byH hr']; exact e)
    | chunked => exact no (by rw [byH (indef_read (by omega) false ha)]; exact e)
  | @arr ind cs _ hi hg =>
    refine ⟨fun _ => ⟨ind, cs, hi, hg⟩, fun h5 => ?_⟩
    obtain ⟨a, n', l, i, hr', _⟩ := hg.read (by omega) false ha
    rw [byH hr'] at h5
    simp at h5
  | @map ind n cs _ hl hi hg =>
    refine ⟨fun h4 => ?_, fun _ => ⟨ind, n, cs, hl, hi, hg⟩⟩
    obtain ⟨a, n', l, i, hr', _⟩ := hg.read (by omega) false ha
    rw [byH hr'] at h4
    simp at h4
  | tag hh _ => obtain ⟨a, hr'⟩ := hh.read (by omega) false ha.left; exact no (by rw [byH hr']; simp)
  | simple hn => exact no (by rw [byH (simple_read hn false ha)]; simp)
  | flt hx => exact no (by rw [byH (flt_read false hx ha)]; simp)

/-- The positions of well-formed items in `v`. -/
def Starts (v : Bytes) (r : View) : Prop := r.buf = v ∧ ∃ c, Item c ∧ At v r.pos c

theorem Starts.map {v : Bytes} (hv : v.length < 2 ^ 64) {p : Nat} (h : Starts v ⟨v, p⟩) (hm : View.isMap ⟨v, p⟩ = .ok true) (raw : Bool)
    {f : Nat} (hf : v.length ≤ f) : Walks raw v f 2 p := by
  obtain ⟨_, c, hc, ha⟩ := h
  obtain ⟨hd, hr, e⟩ := Res.bind_eq_ok.1 hm
  simp only [Res.pure_eq, Res.ok.injEq, decide_eq_true_iff] at e
  obtain ⟨ind, n, cs, hl, hi, hg⟩ := (hc.group ha hr).2 e
  exact hg.walks (by omega) hl hi raw hv hf ha

theorem Starts.arr {v : Bytes} (hv : v.length < 2 ^ 64) {p : Nat} (h : Starts v ⟨v, p⟩) (hm : View.isArray ⟨v, p⟩ = .ok true) (raw : Bool)
    {f : Nat} (hf : v.length ≤ f) : Walks raw v f 1 p := by
  obtain ⟨_, c, hc, ha⟩ := h
  obtain ⟨hd, hr, e⟩ := Res.bind_eq_ok.1 hm
  simp only [Res.pure_eq, Res.ok.injEq, decide_eq_true_iff] at e
  obtain ⟨ind, cs, hi, hg⟩ := (hc.group ha hr).1 e
  exact hg.walks (by omega) (by omega) hi raw hv hf ha

/-- Well-formed items, whatever surrounds them. -/
theorem within_items {v : Bytes} (hv : v.length < 2 ^ 64) {f : Nat} (hf : v.length < f) :
    Costs.Within (reader false f) (costs false f) (Starts v) (2 * (v.length + 1)) where
  mapKeys := by
    rintro ⟨_, p⟩ ⟨rfl, h⟩ _ hm
    exact Nat.le_trans ((Starts.map hv ⟨rfl, h⟩ hm true (by omega)).mapKeys hv false) (by omega)
  getKey := by
    rintro ⟨_, p⟩ k ⟨rfl, h⟩ _ hm
    refine ⟨(Starts.map hv ⟨rfl, h⟩ hm false (by omega)).getKey hv false k, fun c hc => ?_⟩
    rw [(costs_of false f).getKey] at hc
    obtain ⟨b, hb, ha⟩ := h
    rcases hb.getKey hv (Nat.le_of_lt hf) ha k with e | ⟨q, d, e, hd, hq, _⟩
    · have : View.getKey false f ⟨_, p⟩ k = .ok c := hc
      rw [e] at this; cases this
    · have : View.getKey false f ⟨_, p⟩ k = .ok c := hc
      rw [e] at this
      injection this with this
      subst this
      exact ⟨rfl, d, hd, hq⟩
  arraySize := by
    rintro ⟨_, p⟩ ⟨rfl, h⟩ _ hm
    exact Nat.le_trans (Starts.arr hv ⟨rfl, h⟩ hm false (by omega)).arraySize (by omega)
  getIdx := by
    rintro ⟨_, p⟩ i ⟨rfl, h⟩ _ hm
    refine ⟨Nat.le_trans ((Starts.arr hv ⟨rfl, h⟩ hm false (by omega)).getIdx i) (by omega), fun c hc => ?_⟩
    rw [(costs_of false f).getIdx] at hc
    obtain ⟨b, hb, ha⟩ := h
    rcases hb.getIdx hv (Nat.le_of_lt hf) ha i with e | ⟨q, d, e, hd, hq, _⟩
    · have : View.getIdx f ⟨_, p⟩ i = .ok c := hc
      rw [e] at this; cases this
    · have : View.getIdx f ⟨_, p⟩ i = .ok c := hc
      rw [e] at this
      injection this with this
      subst this
      exact ⟨rfl, d, hd, hq⟩

/-! ## Items that stand still -/

theorem itemsC_still {rec : Nat → Cnt Nat} {q : Nat} (h : rec q = ⟨1, .ok q⟩) : ∀ n, itemsC rec n q = ⟨n, .ok q⟩
  | 0 => rfl
  | n + 1 => by
    simp only [itemsC, h]
    show Cnt.mk (1 + (itemsC rec n q).cost) (itemsC rec n q).res = _
    rw [itemsC_still h n, Nat.add_comm]

/-- An array of `2^64 - 1` elements that is followed by a text of `2^64 - 9` bytes. -/
def stall : Bytes := (0x9b :: be 8 (2 ^ 64 - 1)) ++ (0x7b :: be 8 (2 ^ 64 - 9))

theorem stall_text (raw : Bool) (f : Nat) : skipC raw stall (f + 1) 9 = ⟨1, .ok 9⟩ := by
  have ha : At stall 9 (0x7b :: be 8 (2 ^ 64 - 9)) := ⟨0x9b :: be 8 (2 ^ 64 - 1), [], by simp [stall], by simp⟩
  obtain ⟨a, hr⟩ := (Hd.w8 (m := 3) (show 2 ^ 64 - 9 < 2 ^ 64 by decide)).read (by omega) raw ha
  have hl : (UInt8.ofNat (3 * 32 + 27) :: be 8 (2 ^ 64 - 9)).length = 9 := by simp
  rw [hl] at hr
  have e : u64 (9 + 9 + (2 ^ 64 - 9)) = 9 := by decide
  have hs : stall.length = 18 := by simp [stall]
  have hb : decide (9 ≤ stall.length) = true := by rw [hs]; decide
  simp only [skipC, hr, Cnt.monadLift_eq, Cnt.lift_ok_bind, if_neg (show ¬ 3 ≤ 1 by omega), if_pos (show 3 ≤ 3 by omega), Bool.false_eq_true,
    if_false, e, hb, ensure_true]
  rfl

theorem stall_skip (raw : Bool) (f : Nat) : skipC raw stall (f + 2) 0 = ⟨2 ^ 64, .ok 9⟩ := by
  have ha : At stall 0 (0x9b :: be 8 (2 ^ 64 - 1)) := ⟨[], 0x7b :: be 8 (2 ^ 64 - 9), by simp [stall], rfl⟩
  obtain ⟨a, hr⟩ := (Hd.w8 (m := 4) (show 2 ^ 64 - 1 < 2 ^ 64 by decide)).read (by omega) raw ha
  have hl : (UInt8.ofNat (4 * 32 + 27) :: be 8 (2 ^ 64 - 1)).length = 9 := by simp
  rw [hl] at hr
  rw [show f + 2 = (f + 1) + 1 by omega, skipC]
  simp only [hr, Cnt.monadLift_eq, Cnt.lift_ok_bind, if_neg (show ¬ 4 ≤ 1 by omega), if_neg (show ¬ 4 ≤ 3 by omega), Bool.false_eq_true,
    if_false, if_true, Nat.zero_add]
  rw [itemsC_still (stall_text raw f)]
  show Cnt.mk (1 + (2 ^ 64 - 1)) _ = _
  rw [show 1 + (2 ^ 64 - 1) = 2 ^ 64 by decide]

/-! ## An array of nulls -/

/-- Header of the longest form and `n` nulls. -/
def nulls (n : Nat) : Bytes := (0x9b :: be 8 n) ++ List.replicate n 0xf6

theorem nulls_length (n : Nat) : (nulls n).length = 9 + n := by simp [nulls]; omega

theorem nulls_at {n i : Nat} (hi : i < n) : At (nulls n) (9 + i) [0xf6] := by
  refine ⟨(0x9b :: be 8 n) ++ List.replicate i 0xf6, List.replicate (n - i - 1) 0xf6, ?_, by simp; omega⟩
  rw [List.append_assoc, nulls]
  congr 1
  rw [show ([0xf6] : Bytes) = List.replicate 1 0xf6 from rfl, List.replicate_append_replicate, List.replicate_append_replicate]
  congr 1
  omega

theorem nulls_head {n : Nat} (hn : n < 2 ^ 64) : ∃ a, readHead false (nulls n) 0 = .ok ⟨4, a, n, 9, false⟩ := by
  have ha : At (nulls n) 0 (0x9b :: be 8 n) := ⟨[], List.replicate n 0xf6, by simp [nulls], rfl⟩
  obtain ⟨a, hr⟩ := (Hd.w8 (m := 4) hn).read (by omega) false ha
  have hl : (UInt8.ofNat (4 * 32 + 27) :: be 8 n).length = 9 := by simp
  rw [hl] at hr
  exact ⟨a, hr⟩

theorem nulls_skip {n i f : Nat} (hi : i < n) : skipC false (nulls n) (f + 1) (9 + i) = ⟨1, .ok (9 + (i + 1))⟩ := by
  have hr := simple_read (n := 22) (by omega) false (t := []) (nulls_at hi)
  simp only [skipC, hr, Cnt.monadLift_eq, Cnt.lift_ok_bind]
  rfl

theorem nulls_items {n f : Nat} : ∀ j i, i + j ≤ n → itemsC (skipC false (nulls n) (f + 1)) j (9 + i) = ⟨j, .ok (9 + (i + j))⟩
  | 0, i, _ => rfl
  | j + 1, i, h => by
    simp only [itemsC, nulls_skip (show i < n by omega)]
    have := nulls_items (n := n) (f := f) j (i + 1) (by omega)
    show Cnt.mk (1 + (itemsC _ j (9 + (i + 1))).cost) (itemsC _ j (9 + (i + 1))).res = _
    rw [this]
    show Cnt.mk (1 + j) (Res.ok (9 + (i + 1 + j))) = _
    rw [Nat.add_comm 1 j, show i + 1 + j = i + (j + 1) by omega]

theorem nulls_getIdx {n i f : Nat} (hn : n < 2 ^ 64) (hi : i < n) : getIdxC (f + 1) ⟨nulls n, 0⟩ i = ⟨i, .ok ⟨nulls n, 9 + i⟩⟩ := by
  obtain ⟨a, hr⟩ := nulls_head hn
  have := nulls_items (n := n) (f := f) i 0 (by omega)
  simp only [getIdxC, View.head, hr, Cnt.monadLift_eq, Cnt.lift_ok_bind, decide_true, Res.require_true, Bool.false_eq_true, if_false,
    decide_eq_true hi, Nat.zero_add]
  rw [show (9 : Nat) = 9 + 0 from rfl, this, Nat.zero_add]
  rfl

theorem nulls_elem {n i f g : Nat} {s : Nat} (hi : i < n) :
    writeValueC (reader false f) (costs false f) counter (g + 1) ⟨nulls n, 9 + i⟩ s = ⟨0, .ok (s + 1)⟩ := by
  have hr := simple_read (n := 22) (by omega) false (t := []) (nulls_at hi)
  have h0 : (reader false f).isNull ⟨nulls n, 9 + i⟩ = .ok true := by
    show View.isNull _ = _
    simp [View.isNull, View.head, hr]
  rw [writeValueC]
  simp only [h0, Cnt.monadLift_eq, Cnt.lift_ok_bind, if_true]
  rfl

theorem nulls_elems {n f g : Nat} (hn : n < 2 ^ 64) : ∀ k i s, i + k ≤ n →
    (writeElemsC (costs false (f + 1)) (writeValueC (reader false (f + 1)) (costs false (f + 1)) counter (g + 1)) ⟨nulls n, 0⟩ k i s).res = .ok (s + k) ∧
    2 * (writeElemsC (costs false (f + 1)) (writeValueC (reader false (f + 1)) (costs false (f + 1)) counter (g + 1)) ⟨nulls n, 0⟩ k i s).cost + k =
      k * (2 * i + k)
  | 0, i, s, _ => ⟨rfl, by simp [writeElemsC]⟩
  | k + 1, i, s, h => by
    obtain ⟨h1, h2⟩ := nulls_elems (f := f) (g := g) hn k (i + 1) (s + 1) (by omega)
    have e1 : (costs false (f + 1)).getIdx ⟨nulls n, 0⟩ i = ⟨i, .ok ⟨nulls n, 9 + i⟩⟩ := nulls_getIdx hn (by omega)
    rw [writeElemsC, e1]
    have b : ∀ {α β : Type} {c : Nat} {a : α} {k : α → Cnt β}, ((⟨c, .ok a⟩ : Cnt α) >>= k) = ⟨c + (k a).cost, (k a).res⟩ := fun {_ _ _ _ _} => rfl
    rw [b, nulls_elem (by omega), b]
    refine ⟨by show _ = _; rw [h1]; congr 1; omega, ?_⟩
    have q : (k + 1) * (2 * i + (k + 1)) = k * (2 * (i + 1) + k) + 2 * i + 1 := by
      rw [Nat.succ_mul, show k * (2 * (i + 1) + k) = k * ((2 * i + (k + 1)) + 1) from by congr 1; omega, Nat.mul_add k _ 1]
      omega
    rw [q, ← h2]
    show 2 * (i + (0 + _)) + _ = _
    omega

theorem nulls_cost {n : Nat} (hn : n < 2 ^ 64) (f g : Nat) :
    (writeValueC (reader false (f + 1)) (costs false (f + 1)) counter (g + 2) ⟨nulls n, 0⟩ 0).res = .ok (n + 2) ∧
    2 * (writeValueC (reader false (f + 1)) (costs false (f + 1)) counter (g + 2) ⟨nulls n, 0⟩ 0).cost + n = n * n := by
  obtain ⟨h1, h2⟩ := nulls_elems (f := f) (g := g) hn n 0 1 (by omega)
  obtain ⟨a, hr⟩ := nulls_head hn
  have e : writeValueC (reader false (f + 1)) (costs false (f + 1)) counter (g + 2) ⟨nulls n, 0⟩ 0 =
      Cnt.lift (.ok 1) >>= fun s => writeElemsC (costs false (f + 1))
        (writeValueC (reader false (f + 1)) (costs false (f + 1)) counter (g + 1)) ⟨nulls n, 0⟩ n 0 s >>= fun s =>
          Cnt.lift (counter.step s .endArr) := by
    obtain ⟨s1, s2, ⟨i, u, si, su, siu⟩, s4, s5, s6, s7, s8⟩ := head_num (hard := false) (ind := false) (f := f + 1) 4 a n 9 false (by omega) hr
    have hsz : (costs false (f + 1)).arraySize ⟨nulls n, 0⟩ = Cnt.lift (.ok n) := by
      show arraySizeC _ _ = _
      simp only [arraySizeC, View.head, hr, Cnt.monadLift_eq, Cnt.lift_ok_bind, decide_true, Res.require_true, Bool.false_eq_true, if_false]
      rfl
    rw [readerI_false] at *
    obtain ⟨rfl, rfl⟩ : i = false ∧ u = false := by cases i <;> cases u <;> simp_all
    rw [writeValueC]
    simp only [s1, s2, si, su, s4, s5, s6, s7, s8, hsz, Cnt.monadLift_eq, Cnt.lift_ok_bind, Bool.false_eq_true, if_false, if_true,
      decide_true, show decide (4 = 3) = false from rfl, show decide (4 = 2) = false from rfl, show decide (4 = 5) = false from rfl,
      show counter.step 0 (.beginArr n) = .ok 1 from rfl]
  rw [e, Cnt.lift_ok_bind]
  refine ⟨?_, ?_⟩
  · rw [Cnt.bind_res, h1]; show Res.ok _ = _; congr 1; omega
  · rw [Cnt.bind_ok_cost h1, Cnt.lift_cost, Nat.add_zero, h2]
    simp

end Zer.Cbor
