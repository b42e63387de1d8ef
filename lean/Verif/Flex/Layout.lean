import Verif.Flex.Sim

/-!
# Flex: what the builder lays out
-/

namespace Zer.Flex

/-- Two lists whose elements are related one by one. -/
inductive All2 {α β : Type} (R : α → β → Prop) : List α → List β → Prop where
  | nil : All2 R [] []
  | cons {a b as bs} : R a b → All2 R as bs → All2 R (a :: as) (b :: bs)

namespace All2
variable {α β : Type} {R : α → β → Prop}

theorem length {xs : List α} {ys : List β} (h : All2 R xs ys) : xs.length = ys.length := by
  induction h with
  | nil => rfl
  | cons _ _ ih => simp [ih]

theorem append {xs xs' : List α} {ys ys' : List β} (h : All2 R xs ys) (h' : All2 R xs' ys') :
    All2 R (xs ++ xs') (ys ++ ys') := by
  induction h with
  | nil => exact h'
  | cons h _ ih => exact .cons h ih

theorem snoc {xs : List α} {ys : List β} {a : α} {b : β} (h : All2 R xs ys) (h' : R a b) :
    All2 R (xs ++ [a]) (ys ++ [b]) := h.append (.cons h' .nil)

theorem imp {S : α → β → Prop} {xs : List α} {ys : List β} (hi : ∀ a b, R a b → S a b) (h : All2 R xs ys) :
    All2 S xs ys := by
  induction h with
  | nil => exact .nil
  | cons h _ ih => exact .cons (hi _ _ h) ih

theorem get {xs : List α} {ys : List β} (h : All2 R xs ys) :
    ∀ i (h1 : i < xs.length) (h2 : i < ys.length), R xs[i] ys[i] := by
  induction h with
  | nil => intro i h1; simp at h1
  | cons h _ ih =>
    intro i h1 h2
    cases i with
    | zero => exact h
    | succ i => exact ih i _ _

theorem get? {xs : List α} {ys : List β} (h : All2 R xs ys) (i : Nat) :
    (xs[i]? = none ∧ ys[i]? = none) ∨ ∃ a b, xs[i]? = some a ∧ ys[i]? = some b ∧ R a b := by
  by_cases hi : i < xs.length
  · have hj : i < ys.length := h.length ▸ hi
    exact .inr ⟨_, _, List.getElem?_eq_getElem hi, List.getElem?_eq_getElem hj, h.get i hi hj⟩
  · refine .inl ⟨List.getElem?_eq_none (by omega), List.getElem?_eq_none ?_⟩
    rw [← h.length]; omega

theorem take {xs : List α} {ys : List β} (h : All2 R xs ys) (n : Nat) : All2 R (xs.take n) (ys.take n) := by
  induction h generalizing n with
  | nil => simp; exact .nil
  | cons h _ ih =>
    cases n with
    | zero => exact .nil
    | succ n => exact .cons h (ih n)

theorem drop {xs : List α} {ys : List β} (h : All2 R xs ys) (n : Nat) : All2 R (xs.drop n) (ys.drop n) := by
  induction h generalizing n with
  | nil => simp; exact .nil
  | cons h t ih =>
    cases n with
    | zero => exact .cons h t
    | succ n => exact ih n

theorem map_left {γ : Type} {S : γ → β → Prop} {f : α → γ} {xs : List α} {ys : List β} (h : All2 R xs ys)
    (hi : ∀ a b, R a b → S (f a) b) : All2 S (xs.map f) ys := by
  induction h with
  | nil => exact .nil
  | cons h _ ih => exact .cons (hi _ _ h) ih

theorem map_right {γ : Type} {S : α → γ → Prop} {f : β → γ} {xs : List α} {ys : List β} (h : All2 R xs ys)
    (hi : ∀ a b, R a b → S a (f b)) : All2 S xs (ys.map f) := by
  induction h with
  | nil => exact .nil
  | cons h _ ih => exact .cons (hi _ _ h) ih

theorem filterMap_get {xs : List α} {ys : List β} (h : All2 R xs ys) (is : List Nat) :
    All2 R (is.filterMap (xs[·]?)) (is.filterMap (ys[·]?)) := by
  induction is with
  | nil => exact .nil
  | cons i is ih =>
    rcases h.get? i with ⟨h1, h2⟩ | ⟨a, b, h1, h2, h3⟩
    · simpa [List.filterMap_cons, h1, h2] using ih
    · simp only [List.filterMap_cons, h1, h2]
      exact .cons h3 ih

theorem split {xs : List α} {ys zs : List β} (h : All2 R xs (ys ++ zs)) :
    All2 R (xs.take ys.length) ys ∧ All2 R (xs.drop ys.length) zs := by
  have h1 := h.take ys.length
  have h2 := h.drop ys.length
  simp only [List.take_left, List.drop_left] at h1 h2
  exact ⟨h1, h2⟩

end All2

/-- Sorting moves related entries together. -/
theorem sort_all2 {α β : Type} {L : Lib} {R : Bytes × α → Bytes × β → Prop} {xs : List (Bytes × α)}
    {ys : List (Bytes × β)} (h : All2 R xs ys) (hk : xs.map Prod.fst = ys.map Prod.fst) :
    All2 R (L.sort xs) (L.sort ys) := by
  unfold Lib.sort
  rw [← h.length, ← hk]
  split
  · exact h
  · exact h.filterMap_get _

/-! ## Widths -/

/-! ## What the law of the library says about entries -/

theorem range_filterMap {α : Type} : ∀ l : List α, (List.range l.length).filterMap (l[·]?) = l
  | [] => rfl
  | a :: l => by
    rw [List.length_cons, List.range_succ_eq_map, List.filterMap_cons]
    simp only [List.getElem?_cons_zero, List.filterMap_map, Function.comp_def, List.getElem?_cons_succ]
    rw [range_filterMap l]

theorem Lib.Law.sort_perm {L : Lib} (H : L.Law) {α : Type} (ms : List (Bytes × α)) : (L.sort ms).Perm ms := by
  unfold Lib.sort
  split
  · exact .refl _
  · have := (H.perm (ms.map Prod.fst)).filterMap (ms[·]?)
    rw [List.length_map, range_filterMap] at this
    exact this

theorem Lib.Law.sort_sorted {L : Lib} (H : L.Law) {α : Type} (ms : List (Bytes × α)) :
    (L.sort ms).Pairwise (fun a b => a.1 ≤ b.1) := by
  unfold Lib.sort
  split
  · rename_i h
    match ms, h with
    | [], _ => exact .nil
    | [_], _ => simp
    | _ :: _ :: _, h => simp at h
  · have := H.sorted (ms.map Prod.fst)
    have e : (L.arrange (ms.map Prod.fst)).filterMap ((ms.map Prod.fst)[·]?) =
        ((L.arrange (ms.map Prod.fst)).filterMap (ms[·]?)).map Prod.fst := by
      rw [List.map_filterMap]
      congr 1
      funext i
      simp
    rw [e] at this
    exact List.pairwise_map.1 this

theorem Lib.Law.sort_length {L : Lib} (H : L.Law) {α : Type} (ms : List (Bytes × α)) :
    (L.sort ms).length = ms.length := (H.sort_perm ms).length_eq

theorem widthU_le3 (n : Nat) : widthU n ≤ 3 := by unfold widthU; split <;> (try split) <;> (try split) <;> omega

theorem lt_of_widthU {n x : Nat} (h : widthU n ≤ x) (hx : x ≤ 3) (hn : n < 2 ^ 64) : n < 2 ^ (8 * 2 ^ x) := by
  unfold widthU at h
  match x, hx with
  | 0, _ =>
    show n < 2 ^ 8
    repeat' split at h
    all_goals omega
  | 1, _ =>
    show n < 2 ^ 16
    repeat' split at h
    all_goals omega
  | 2, _ =>
    show n < 2 ^ 32
    repeat' split at h
    all_goals omega
  | 3, _ => exact hn

theorem padding_lt (n : Nat) {w : Nat} (hw : 0 < w) : padding n w < w := Nat.mod_lt _ hw

theorem elemWidth_le3 {v : BV} (hv : v.w ≤ 3) (n idx : Nat) : v.elemWidth n idx ≤ 3 := by
  unfold BV.elemWidth
  split
  · exact hv
  · repeat' split
    all_goals omega

/-- The offset to a value fits wherever `ElemWidth` was respected. -/
theorem offset_fits {v : BV} {n idx bit j : Nat} (ht : isInline v.ty = false) (hu : v.u ≤ n)
    (hb : v.elemWidth n idx ≤ bit) (hb3 : bit ≤ 3) (hj : j ≤ idx)
    (hq : n + padding n (2 ^ bit) + j * 2 ^ bit < 2 ^ 64) :
    n + padding n (2 ^ bit) + j * 2 ^ bit - v.u < 2 ^ (8 * 2 ^ bit) := by
  have key : ∀ x, offsetWidth v.u n idx x = x → x ≤ 3 →
      n + padding n (2 ^ x) + idx * 2 ^ x - v.u < 2 ^ 64 →
      n + padding n (2 ^ x) + idx * 2 ^ x - v.u < 2 ^ (8 * 2 ^ x) := by
    intro x h hx hlt
    exact lt_of_widthU (Nat.le_of_eq h) hx hlt
  have le32 : ∀ m x, widthU m = x → x ≤ 2 → m < 2 ^ 32 := by
    intro m x h hx
    unfold widthU at h
    repeat' split at h
    all_goals omega
  unfold BV.elemWidth at hb
  rw [ht] at hb
  simp only [Bool.false_eq_true, if_false] at hb
  have p1 := padding_lt n (w := 2 ^ 0) (by decide)
  have p2 := padding_lt n (w := 2 ^ 1) (by decide)
  have p4 := padding_lt n (w := 2 ^ 2) (by decide)
  match bit, hb3 with
  | 3, _ => show _ < 2 ^ 64; omega
  | 0, _ =>
    have h0 : offsetWidth v.u n idx 0 = 0 := by
      by_cases h : offsetWidth v.u n idx 0 = 0
      · exact h
      · rw [if_neg h] at hb; repeat' split at hb
        all_goals omega
    have := key 0 h0 (by omega) (by have := le32 _ _ h0 (by omega); omega)
    have hh : j * 2 ^ 0 ≤ idx * 2 ^ 0 := Nat.mul_le_mul_right _ hj
    show _ < 2 ^ 8
    change _ < 2 ^ 8 at this
    omega
  | 1, _ =>
    have hh : j * 2 ^ 1 ≤ idx * 2 ^ 1 := Nat.mul_le_mul_right _ hj
    show _ < 2 ^ 16
    by_cases h0 : offsetWidth v.u n idx 0 = 0
    · have := key 0 h0 (by omega) (by have := le32 _ _ h0 (by omega); omega)
      change _ < 2 ^ 8 at this
      omega
    · have h1 : offsetWidth v.u n idx 1 = 1 := by
        by_cases h : offsetWidth v.u n idx 1 = 1
        · exact h
        · rw [if_neg h0, if_neg h] at hb; repeat' split at hb
          all_goals omega
      have := key 1 h1 (by omega) (by have := le32 _ _ h1 (by omega); omega)
      change _ < 2 ^ 16 at this
      omega
  | 2, _ =>
    have hh : j * 2 ^ 2 ≤ idx * 2 ^ 2 := Nat.mul_le_mul_right _ hj
    show _ < 2 ^ 32
    by_cases h0 : offsetWidth v.u n idx 0 = 0
    · have := key 0 h0 (by omega) (by have := le32 _ _ h0 (by omega); omega)
      change _ < 2 ^ 8 at this
      omega
    · by_cases h1 : offsetWidth v.u n idx 1 = 1
      · have := key 1 h1 (by omega) (by have := le32 _ _ h1 (by omega); omega)
        change _ < 2 ^ 16 at this
        omega
      · have h2 : offsetWidth v.u n idx 2 = 2 := by
          by_cases h : offsetWidth v.u n idx 2 = 2
          · exact h
          · rw [if_neg h0, if_neg h1, if_neg h] at hb; omega
        have := key 2 h2 (by omega) (by have := le32 _ _ h2 (by omega); omega)
        change _ < 2 ^ 32 at this
        omega

/-! ## Bytes of elements -/

theorem bytes_length (v : BV) (n w : Nat) : (v.bytes n w).length = w := by
  unfold BV.bytes
  split
  · split
    · rename_i h; rw [le_length, h]
    · rw [le_length]
  · split <;> rw [le_length]

/-- The elements, where they stand. -/
theorem writeAll_spec (w : Nat) : ∀ (vs : List BV) (b : Bytes),
    ∃ e, writeAll b w vs = b ++ e ∧ e.length = vs.length * w ∧
      ∀ i (h : i < vs.length), At (b ++ e) (b.length + i * w) (vs[i].bytes (b.length + i * w) w)
  | [], b => ⟨[], by simp [writeAll], by simp, fun i h => by simp at h⟩
  | v :: vs, b => by
    obtain ⟨e, h1, h2, h3⟩ := writeAll_spec w vs (b ++ v.bytes b.length w)
    have hl : (b ++ v.bytes b.length w).length = b.length + w := by simp [bytes_length]
    refine ⟨v.bytes b.length w ++ e, by rw [writeAll, h1, List.append_assoc], ?_, ?_⟩
    · simp only [List.length_append, bytes_length, h2, List.length_cons, Nat.succ_mul]; omega
    · intro i hi
      rw [← List.append_assoc]
      cases i with
      | zero =>
        simp only [Nat.zero_mul, Nat.add_zero, List.getElem_cons_zero]
        exact (At.self_end _ _).append_right e
      | succ i =>
        have := h3 i (by simpa using hi)
        rw [hl] at this
        have e1 : b.length + (i + 1) * w = b.length + w + i * w := by rw [Nat.succ_mul]; omega
        rw [e1]
        simpa using this

theorem align_spec (b : Bytes) (w : Nat) : align b w = b ++ List.replicate (padding b.length w) 0 := rfl

theorem align_length (b : Bytes) (w : Nat) : (align b w).length = b.length + padding b.length w := by
  simp [align]

theorem widest_get (n step : Nat) : ∀ (vs : List BV) (idx i : Nat) (h : i < vs.length),
    vs[i].elemWidth n (idx + step * i) ≤ widest n step idx vs
  | [], _, i, h => by simp at h
  | v :: vs, idx, 0, _ => Nat.le_max_left _ _
  | v :: vs, idx, i + 1, h => by
    have := widest_get n step vs (idx + step) i (by simpa using h)
    have e : idx + step * (i + 1) = idx + step + step * i := by rw [Nat.mul_succ]; omega
    rw [e]
    exact Nat.le_trans this (Nat.le_max_right _ _)

theorem widest_le3 (n step : Nat) : ∀ (vs : List BV) (idx : Nat), (∀ v ∈ vs, v.w ≤ 3) → widest n step idx vs ≤ 3
  | [], _, _ => by simp [widest]
  | v :: vs, idx, h =>
    Nat.max_le.2 ⟨elemWidth_le3 (h v (by simp)) _ _, widest_le3 n step vs _ fun x hx => h x (by simp [hx])⟩

/-- The number of words in front of a vector. -/
def prefixLen : Option BV → Nat
  | none => 1
  | some _ => 3

/-- What `CreateVector` appends. -/
structure Layout (b : Bytes) (vals : List BV) (len step : Nat) (typed : Bool) (keys : Option BV)
    (B : Bytes) (v : BV) : Prop where
  ext : ∃ suf, B = b ++ suf
  ty : v.ty = match keys with
    | some _ => 9
    | none => if typed then (vals.head?.elim 4 BV.ty) + 10 else 10
  pos : v.u = b.length + padding b.length (2 ^ v.w) + prefixLen keys * 2 ^ v.w
  bit : (∀ x ∈ vals, x.w ≤ 3) → (∀ k, keys = some k → k.w ≤ 3) → v.w ≤ 3
  wlen : widthU len ≤ v.w
  wvals : ∀ i (h : i < vals.length), vals[i].elemWidth b.length (prefixLen keys + step * i) ≤ v.w
  wkeys : ∀ k, keys = some k → k.elemWidth b.length 0 ≤ v.w
  size : At B (v.u - 2 ^ v.w) (le (2 ^ v.w) len)
  kpos : ∀ k, keys = some k → At B (v.u - 3 * 2 ^ v.w) (le (2 ^ v.w) (v.u - 3 * 2 ^ v.w - k.u)) ∧
    At B (v.u - 2 * 2 ^ v.w) (le (2 ^ v.w) (2 ^ k.w))
  elem : ∀ i (h : i < vals.length), At B (v.u + i * 2 ^ v.w) (vals[i].bytes (v.u + i * 2 ^ v.w) (2 ^ v.w))
  types : typed = false →
    At B (v.u + vals.length * 2 ^ v.w) (vals.map (fun x => UInt8.ofNat (x.packed v.w)))
  bound : v.u + vals.length * 2 ^ v.w ≤ B.length
  total : B.length = v.u + vals.length * 2 ^ v.w + if typed then 0 else vals.length

theorem createVector_layout (b : Bytes) (vals : List BV) (len step : Nat) (typed : Bool) (keys : Option BV) :
    Layout b vals len step typed keys (createVector b vals len step typed keys).1
      (createVector b vals len step typed keys).2 := by
  cases keys with
  | none =>
    simp only [createVector]
    generalize hbit : max (widthU len) (widest b.length step 1 vals) = bit
    obtain ⟨e, h1, h2, h3⟩ := writeAll_spec (2 ^ bit) vals (align b (2 ^ bit) ++ le (2 ^ bit) len)
    have hl : (align b (2 ^ bit) ++ le (2 ^ bit) len).length = b.length + padding b.length (2 ^ bit) + 2 ^ bit := by
      rw [List.length_append, align_length, le_length]
    rw [h1]
    have hsz : At (align b (2 ^ bit) ++ le (2 ^ bit) len ++ e)
        (b.length + padding b.length (2 ^ bit) + 2 ^ bit - 2 ^ bit) (le (2 ^ bit) len) := by
      rw [Nat.add_sub_cancel, ← align_length]
      exact (At.self_end _ _).append_right e
    refine ⟨?_, rfl, ?_, ?_, ?_, ?_, ?_, ?_, ?_, ?_, ?_, ?_, ?_⟩
    · refine ⟨List.replicate (padding b.length (2 ^ bit)) 0 ++ (le (2 ^ bit) len ++ (e ++
        (if typed then [] else vals.map (fun v => UInt8.ofNat (v.packed bit))))), ?_⟩
      cases typed <;> simp [align]
    · simp only [hl, prefixLen]; omega
    · intro hv _
      show bit ≤ 3
      rw [← hbit]
      exact Nat.max_le.2 ⟨widthU_le3 _, widest_le3 _ _ _ _ hv⟩
    · show _ ≤ bit
      rw [← hbit]; exact Nat.le_max_left _ _
    · intro i hi
      show _ ≤ bit
      rw [← hbit]; exact Nat.le_trans (widest_get _ _ _ _ _ hi) (Nat.le_max_right _ _)
    · intro k hk; cases hk
    · simp only [hl]
      cases typed
      · exact hsz.append_right _
      · exact hsz
    · intro k hk; cases hk
    · intro i hi
      have := h3 i hi
      simp only
      cases typed
      · exact this.append_right _
      · exact this
    · intro ht
      subst ht
      have : (align b (2 ^ bit) ++ le (2 ^ bit) len ++ e).length =
          (align b (2 ^ bit) ++ le (2 ^ bit) len).length + vals.length * 2 ^ bit := by
        rw [List.length_append, h2]
      simp only [← this]
      exact At.self_end _ _
    · cases typed <;> simp [h2] <;> omega
    · cases typed <;> simp [h2] <;> omega
  | some k =>
    simp only [createVector]
    generalize hbit : max (max (widthU len) (k.elemWidth b.length 0)) (widest b.length step 3 vals) = bit
    generalize hb1 : align b (2 ^ bit) = b1
    generalize hb2 : b1 ++ le (2 ^ bit) (b1.length - k.u) ++ le (2 ^ bit) (2 ^ k.w) = b2
    obtain ⟨e, h1, h2, h3⟩ := writeAll_spec (2 ^ bit) vals (b2 ++ le (2 ^ bit) len)
    have hl1 : b1.length = b.length + padding b.length (2 ^ bit) := by rw [← hb1, align_length]
    have hl2 : b2.length = b1.length + 2 ^ bit + 2 ^ bit := by
      rw [← hb2]; simp only [List.length_append, le_length]
    have hl : (b2 ++ le (2 ^ bit) len).length = b.length + padding b.length (2 ^ bit) + 3 * 2 ^ bit := by
      rw [List.length_append, le_length, hl2, hl1]; omega
    rw [h1]
    have hsz : At (b2 ++ le (2 ^ bit) len ++ e) ((b2 ++ le (2 ^ bit) len).length - 2 ^ bit)
        (le (2 ^ bit) len) := by
      rw [List.length_append, le_length, Nat.add_sub_cancel]
      exact (At.self_end _ _).append_right e
    have hk1 : At (b2 ++ le (2 ^ bit) len ++ e) ((b2 ++ le (2 ^ bit) len).length - 3 * 2 ^ bit)
        (le (2 ^ bit) ((b2 ++ le (2 ^ bit) len).length - 3 * 2 ^ bit - k.u)) := by
      have e1 : (b2 ++ le (2 ^ bit) len).length - 3 * 2 ^ bit = b1.length := by rw [hl, hl1]; omega
      rw [e1, ← hb2]
      exact (((At.self_end _ _).append_right _).append_right _).append_right e
    have hk2 : At (b2 ++ le (2 ^ bit) len ++ e) ((b2 ++ le (2 ^ bit) len).length - 2 * 2 ^ bit)
        (le (2 ^ bit) (2 ^ k.w)) := by
      have e1 : (b2 ++ le (2 ^ bit) len).length - 2 * 2 ^ bit =
          (b1 ++ le (2 ^ bit) (b1.length - k.u)).length := by
        rw [hl, List.length_append, le_length, hl1]; omega
      rw [e1, ← hb2]
      exact ((At.self_end _ _).append_right _).append_right e
    refine ⟨?_, rfl, ?_, ?_, ?_, ?_, ?_, ?_, ?_, ?_, ?_, ?_, ?_⟩
    · refine ⟨List.replicate (padding b.length (2 ^ bit)) 0 ++ (le (2 ^ bit) (b1.length - k.u) ++
        (le (2 ^ bit) (2 ^ k.w) ++ (le (2 ^ bit) len ++ (e ++
        (if typed then [] else vals.map (fun v => UInt8.ofNat (v.packed bit))))))), ?_⟩
      cases typed <;> simp [align, ← hb2, ← hb1]
    · simp only [hl, prefixLen]
    · intro hv hk
      show bit ≤ 3
      rw [← hbit]
      exact Nat.max_le.2 ⟨Nat.max_le.2 ⟨widthU_le3 _, elemWidth_le3 (hk k rfl) _ _⟩, widest_le3 _ _ _ _ hv⟩
    · show _ ≤ bit
      rw [← hbit]; exact Nat.le_trans (Nat.le_max_left _ _) (Nat.le_max_left _ _)
    · intro i hi
      show _ ≤ bit
      rw [← hbit]; exact Nat.le_trans (widest_get _ _ _ _ _ hi) (Nat.le_max_right _ _)
    · intro k' hk'
      cases hk'
      show _ ≤ bit
      rw [← hbit]; exact Nat.le_trans (Nat.le_max_right _ _) (Nat.le_max_left _ _)
    · simp only
      cases typed
      · exact hsz.append_right _
      · exact hsz
    · intro k' hk'
      cases hk'
      simp only
      cases typed
      · exact ⟨hk1.append_right _, hk2.append_right _⟩
      · exact ⟨hk1, hk2⟩
    · intro i hi
      have := h3 i hi
      simp only
      cases typed
      · exact this.append_right _
      · exact this
    · intro ht
      subst ht
      have : (b2 ++ le (2 ^ bit) len ++ e).length =
          (b2 ++ le (2 ^ bit) len).length + vals.length * 2 ^ bit := by
        rw [List.length_append, h2]
      simp only [← this]
      exact At.self_end _ _
    · cases typed <;> simp [h2] <;> omega
    · cases typed <;> simp [h2] <;> omega

end Zer.Flex
