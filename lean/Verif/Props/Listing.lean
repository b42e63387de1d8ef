import Verif.Listing
import Verif.Cbor.Exact
import Verif.Props.Look

/-!
# C96: the keys of a map can be kept, and listed from any reader

Three ways of using `mapKeys()` that the type of the range (a forward range of `std::string_view`)
invites: keeping the views for after the loop, looping over the keys of a temporary reader, and taking
`begin()` and `end()` from two calls.
-/

namespace Zer

open KeyView

/-! ## MessagePack -/

namespace MsgPack

theorem keyPlace_of {v k : Bytes} {off : Nat} (h : keyDeref v off = .ok k) :
    ∃ x, keyPlace v off = .ok x ∧ x.later v = .ok k := by
  unfold keyDeref at h
  obtain ⟨ks, h1, h⟩ := Res.bind_eq_ok.1 h
  obtain ⟨sz, h2, h⟩ := Res.bind_eq_ok.1 h
  obtain ⟨kd, h3, h⟩ := Res.bind_eq_ok.1 h
  unfold asStringView at h
  obtain ⟨⟨p, n⟩, h4, h5⟩ := Res.bind_eq_ok.1 h
  refine ⟨.inBuf (off + p) n, ?_, ?_⟩
  · simp only [keyPlace, h1, h2, h3, h4, Res.ok_bind, h5]; rfl
  · unfold subspan at h1
    split at h1
    · rename_i ho
      injection h1 with h1; subst h1
      unfold first at h3
      split at h3
      · rename_i hm
        injection h3 with h3; subst h3
        exact sliceAt_nested h5 ho hm
      · cases h3
    · cases h1

theorem keptFrom_of {v : Bytes} {count endOff : Nat} : ∀ {f i off : Nat} {ks : List Bytes},
    keysFrom v count endOff f i off = .ok ks →
    ∃ xs, keptFrom v count endOff f i off = .ok xs ∧ laterAll v xs = .ok ks
  | 0, i, off, ks, h => by cases h
  | f + 1, i, off, ks, h => by
    unfold keysFrom at h
    unfold keptFrom
    by_cases hc : i = count ∧ off = endOff
    · rw [if_pos hc] at h ⊢
      exact ⟨[], rfl, h⟩
    · rw [if_neg hc] at h ⊢
      obtain ⟨k, h1, h⟩ := Res.bind_eq_ok.1 h
      obtain ⟨off', h2, h⟩ := Res.bind_eq_ok.1 h
      obtain ⟨ks', h3, h⟩ := Res.bind_eq_ok.1 h
      cases h
      obtain ⟨x, e1, e2⟩ := keyPlace_of h1
      obtain ⟨xs, e3, e4⟩ := keptFrom_of h3
      exact ⟨x :: xs, by rw [e1, h2]; simp only [Res.ok_bind]; rw [e3]; rfl, laterAll_ok_ok e2 e4⟩

/-- C96 for MessagePack, any bytes: keys that can be listed can be kept. -/
theorem c96_msgpack_kept {v : Bytes} {ks : List Bytes} (h : mapKeys v = .ok ks) : keptKeys v = .ok ks := by
  unfold mapKeys at h
  obtain ⟨_, h1, h⟩ := Res.bind_eq_ok.1 h
  obtain ⟨⟨n, off⟩, h2, h⟩ := Res.bind_eq_ok.1 h
  obtain ⟨e, h3, h⟩ := Res.bind_eq_ok.1 h
  obtain ⟨xs, e1, e2⟩ := keptFrom_of h
  simp only [keptKeys, kept, h1, h2, h3, Res.ok_bind, e1, e2]

/-- A map of two entries, the second key with a separate length byte. -/
example : mapKeys [0x82, 0xa1, 0x61, 0x01, 0xd9, 0x02, 0x62, 0x63, 0xc0] = .ok [[0x61], [0x62, 0x63]] ∧
    kept [0x82, 0xa1, 0x61, 0x01, 0xd9, 0x02, 0x62, 0x63, 0xc0] = .ok [.inBuf 2 1, .inBuf 6 2] := by
  constructor <;> rfl

end MsgPack

/-! ## ZERA -/

namespace Zera.View

theorem mapKeys_keysView (v : View) :
    v.mapKeys = v.keysView >>= fun ce => v.keysFrom ce.1 ce.2 := by
  simp only [mapKeys, keysView, bind_assoc, pure_bind]

theorem keyPlace_of {v : View} {cur : Nat} {k : Bytes} (h : v.keyDeref cur = .ok k) :
    ∃ x, v.keyPlace cur = .ok x ∧ x.later v.buf = .ok k := by
  unfold keyDeref at h
  obtain ⟨n, h1, h⟩ := Res.bind_eq_ok.1 h
  obtain ⟨p, h2, h⟩ := Res.bind_eq_ok.1 h
  exact ⟨.inBuf (cur + 4) n, by simp only [keyPlace, h1, h2, h, Res.ok_bind]; rfl, h⟩

theorem keptFrom_of {v : View} : ∀ {n cur : Nat} {ks : List Bytes}, v.keysFrom n cur = .ok ks →
    ∃ xs, v.keptFrom n cur = .ok xs ∧ laterAll v.buf xs = .ok ks
  | 0, cur, ks, h => ⟨[], rfl, h⟩
  | n + 1, cur, ks, h => by
    unfold keysFrom at h
    obtain ⟨k, h1, h⟩ := Res.bind_eq_ok.1 h
    obtain ⟨cur', h2, h⟩ := Res.bind_eq_ok.1 h
    obtain ⟨ks', h3, h⟩ := Res.bind_eq_ok.1 h
    cases h
    obtain ⟨x, e1, e2⟩ := keyPlace_of h1
    obtain ⟨xs, e3, e4⟩ := keptFrom_of h3
    exact ⟨x :: xs, by simp only [keptFrom, e1, h2, e3, Res.ok_bind]; rfl, laterAll_ok_ok e2 e4⟩

/-- C96 for ZERA, any bytes: keys that can be listed can be kept, as long as the reader lives during the
loop. -/
theorem c96_zera_kept {v : View} {ks : List Bytes} (h : v.mapKeys = .ok ks) : v.keptKeys = .ok ks := by
  rw [mapKeys_keysView] at h
  obtain ⟨⟨n, e⟩, h1, h⟩ := Res.bind_eq_ok.1 h
  obtain ⟨xs, e1, e2⟩ := keptFrom_of h
  simp only [keptKeys, h1, Res.ok_bind, e1, e2]

/-- C96 for ZERA, any bytes, exactly: a loop over the keys of a temporary reader, such as
`for (auto k : doc["m"].mapKeys())`, is defined before C++23 only for a map without keys. From C++23 on
it lists the keys. -/
theorem c96_zera_temporary_exact {v : View} {ks : List Bytes} (h : v.mapKeys = .ok ks) :
    v.keysOfTemporary false = (if ks = [] then .ok [] else .ub) ∧ v.keysOfTemporary true = .ok ks := by
  rw [mapKeys_keysView] at h
  obtain ⟨⟨n, e⟩, h1, h⟩ := Res.bind_eq_ok.1 h
  dsimp only at h
  refine ⟨?_, by simp only [keysOfTemporary, h1, Res.ok_bind, if_true]; exact h⟩
  cases n with
  | zero =>
    cases h
    simp only [keysOfTemporary, h1, Res.ok_bind, if_true, Bool.false_eq_true, if_false]; rfl
  | succ n =>
    unfold keysFrom at h
    obtain ⟨k, h2, h⟩ := Res.bind_eq_ok.1 h
    obtain ⟨cur', h3, h⟩ := Res.bind_eq_ok.1 h
    obtain ⟨ks', h4, h⟩ := Res.bind_eq_ok.1 h
    cases h
    unfold keyDeref at h2
    obtain ⟨m, h5, _⟩ := Res.bind_eq_ok.1 h2
    simp only [keysOfTemporary, h1, Res.ok_bind, Bool.false_eq_true, if_false, Nat.succ_ne_zero, keyDerefGone, h5,
      List.cons_ne_nil]
    rfl

/-- `{"m": {"k": null}}`: the keys of `doc["m"]` are listed when the reader has a name, and listing them
is undefined when it has none. -/
theorem c96_zera_temporary_refuted : ∃ b r m, serialize (.map [([109], .map [([107], .null)])]) = .ok b ∧ initFrom b = .ok r ∧
    r.getKey [109] = .ok m ∧ m.mapKeys = .ok [[107]] ∧ m.keysOfTemporary false = .ub := by
  have h : (do
    let b ← serialize (.map [([109], .map [([107], .null)])])
    let r ← initFrom b
    let m ← r.getKey [109]
    m.mapKeys) = .ok [[107]] := by decide +kernel
  obtain ⟨b, h1, h⟩ := Res.bind_eq_ok.1 h
  obtain ⟨r, h2, h⟩ := Res.bind_eq_ok.1 h
  obtain ⟨m, h3, h⟩ := Res.bind_eq_ok.1 h
  exact ⟨b, r, m, h1, h2, h3, h, (c96_zera_temporary_exact h).1⟩

end Zera.View

/-! ## Flex -/

namespace Flex

theorem sliceAt_of_cstrAt {b k : Bytes} {q : Nat} (h : cstrAt b q = .ok k) : sliceAt b q k.length = .ok k :=
  (at_of_cstrAt h).1.left.sliceAt

theorem keyPlace_of {b k : Bytes} {kp kw kn i : Nat} (h : keyAt b kp kw kn i = .ok k) :
    ∃ x, keyPlace b kp kw kn i = .ok x ∧ x.later b = .ok k := by
  unfold keyAt at h
  unfold keyPlace
  by_cases hi : kn ≤ i
  · rw [if_pos hi] at h ⊢
    cases h
    exact ⟨_, rfl, by simp [KeyView.later, sliceAt]⟩
  · rw [if_neg hi] at h ⊢
    obtain ⟨q, h1, h⟩ := Res.bind_eq_ok.1 h
    exact ⟨.inBuf q k.length, by simp only [h1, h, Res.ok_bind]; rfl, sliceAt_of_cstrAt h⟩

theorem keptFrom_of {b : Bytes} {kp kw kn : Nat} : ∀ {n i : Nat} {ks : List Bytes},
    keysFrom b kp kw kn i n = .ok ks →
    ∃ xs, keptFrom b kp kw kn i n = .ok xs ∧ laterAll b xs = .ok ks
  | 0, i, ks, h => ⟨[], rfl, h⟩
  | n + 1, i, ks, h => by
    unfold keysFrom at h
    obtain ⟨k, h1, h⟩ := Res.bind_eq_ok.1 h
    obtain ⟨ks', h3, h⟩ := Res.bind_eq_ok.1 h
    cases h
    obtain ⟨x, e1, e2⟩ := keyPlace_of h1
    obtain ⟨xs, e3, e4⟩ := keptFrom_of h3
    exact ⟨x :: xs, by simp only [keptFrom, e1, e3, Res.ok_bind]; rfl, laterAll_ok_ok e2 e4⟩

/-- C96 for Flex, any bytes: keys that can be listed can be kept. -/
theorem c96_flex_kept {r : Ref} {ks : List Bytes} (h : mapKeys r = .ok ks) : keptKeys r = .ok ks := by
  unfold mapKeys at h
  obtain ⟨_, h1, h⟩ := Res.bind_eq_ok.1 h
  obtain ⟨⟨p, n⟩, h2, h⟩ := Res.bind_eq_ok.1 h
  obtain ⟨⟨kp, kw, kn⟩, h3, h⟩ := Res.bind_eq_ok.1 h
  obtain ⟨xs, e1, e2⟩ := keptFrom_of h
  simp only [keptKeys, h1, h2, h3, Res.ok_bind, e1, e2]

theorem between_same {b : Bytes} {kp kw kn : Nat} (hkn : kn < 2 ^ 64) : ∀ {n i : Nat} {ks : List Bytes},
    i + n = kn → keysFrom b kp kw kn i n = .ok ks → ∀ g, n < g → between b kp kw kn true g i = .ok ks
  | 0, i, ks, hi, h, g, hg => by
    obtain ⟨g, rfl⟩ : ∃ k, g = k + 1 := ⟨g - 1, by omega⟩
    rw [between, if_pos ⟨rfl, by omega⟩]; exact h
  | n + 1, i, ks, hi, h, g, hg => by
    obtain ⟨g, rfl⟩ : ∃ k, g = k + 1 := ⟨g - 1, by omega⟩
    unfold keysFrom at h
    obtain ⟨k, h1, h⟩ := Res.bind_eq_ok.1 h
    obtain ⟨ks', h3, h⟩ := Res.bind_eq_ok.1 h
    cases h
    have hu : u64 (i + 1) = i + 1 := by simp only [u64]; omega
    rw [between, if_neg (by omega), h1, hu]
    simp only [Res.ok_bind, between_same hkn (show i + 1 + n = kn by omega) h3 g (by omega)]
    rfl

theorem keyAt_of_keysFrom {b : Bytes} {kp kw kn : Nat} : ∀ {n i : Nat} {ks : List Bytes},
    keysFrom b kp kw kn i n = .ok ks → ∀ j, i ≤ j → j < i + n → ∃ k, keyAt b kp kw kn j = .ok k
  | 0, i, ks, h, j, h1, h2 => by omega
  | n + 1, i, ks, h, j, h1, h2 => by
    unfold keysFrom at h
    obtain ⟨k, h3, h⟩ := Res.bind_eq_ok.1 h
    obtain ⟨ks', h4, _⟩ := Res.bind_eq_ok.1 h
    by_cases hj : j = i
    · subst hj; exact ⟨k, h3⟩
    · exact keyAt_of_keysFrom h4 j (by omega) (by omega)

theorem between_other {b : Bytes} {kp kw kn : Nat} (hk : ∀ j, ∃ k, keyAt b kp kw kn j = .ok k) :
    ∀ g i, between b kp kw kn false g i = .diverge
  | 0, i => rfl
  | g + 1, i => by
    obtain ⟨k, h⟩ := hk i
    rw [between, if_neg (by simp), h]
    simp only [Res.ok_bind, between_other hk g]
    rfl

/-- C96 for Flex, any bytes: from `begin()` to `end()` of one range the iterators run through the keys. -/
theorem c96_flex_one_range {r : Ref} {ks : List Bytes} (h : mapKeys r = .ok ks) (hn : ks.length < 2 ^ 64) :
    ∀ g, ks.length < g → keysBetween true g r = .ok ks := by
  intro g hg
  unfold mapKeys at h
  obtain ⟨_, h1, h⟩ := Res.bind_eq_ok.1 h
  obtain ⟨⟨p, n⟩, h2, h⟩ := Res.bind_eq_ok.1 h
  obtain ⟨⟨kp, kw, kn⟩, h3, h⟩ := Res.bind_eq_ok.1 h
  have hl : ∀ {n i : Nat} {ks : List Bytes}, keysFrom r.buf kp kw kn i n = .ok ks → ks.length = n := by
    intro n
    induction n with
    | zero => intro i ks h; cases h; rfl
    | succ n ih =>
      intro i ks h
      unfold keysFrom at h
      obtain ⟨k, h1, h⟩ := Res.bind_eq_ok.1 h
      obtain ⟨ks', h3, h⟩ := Res.bind_eq_ok.1 h
      cases h
      simp [ih h3]
  have e := hl h
  simp only [keysBetween, h1, h2, h3, Res.ok_bind]
  exact between_same (by omega) (by omega) h g (by omega)

/-- C96 is false of Flex for every map there is, even the empty one: from the `begin()` of one call of
`mapKeys` to the `end()` of another, the iterators never arrive. -/
theorem c96_flex_two_calls_refuted {r : Ref} {ks : List Bytes} (h : mapKeys r = .ok ks) :
    ∀ g, keysBetween false g r = .diverge := by
  intro g
  unfold mapKeys at h
  obtain ⟨_, h1, h⟩ := Res.bind_eq_ok.1 h
  obtain ⟨⟨p, n⟩, h2, h⟩ := Res.bind_eq_ok.1 h
  obtain ⟨⟨kp, kw, kn⟩, h3, h⟩ := Res.bind_eq_ok.1 h
  simp only [keysBetween, h1, h2, h3, Res.ok_bind]
  refine between_other (fun j => ?_) g 0
  by_cases hj : kn ≤ j
  · exact ⟨[], by rw [keyAt, if_pos hj]; rfl⟩
  · exact keyAt_of_keysFrom h j (by omega) (by omega)

/-- A map with the keys "c" and "b": kept they are the two strings at the start of the buffer. -/
example : (opn [99, 0, 98, 0, 2, 5, 4, 2, 1, 2, 1, 2, 8, 8, 4, 36, 1] >>= mapKeys) = .ok [[99], [98]] ∧
    (opn [99, 0, 98, 0, 2, 5, 4, 2, 1, 2, 1, 2, 8, 8, 4, 36, 1] >>= keptKeys) = .ok [[99], [98]] ∧
    (opn [99, 0, 98, 0, 2, 5, 4, 2, 1, 2, 1, 2, 8, 8, 4, 36, 1] >>= keysBetween true 3) = .ok [[99], [98]] ∧
    (opn [99, 0, 98, 0, 2, 5, 4, 2, 1, 2, 1, 2, 8, 8, 4, 36, 1] >>= keysBetween false 300) = .diverge := by
  refine ⟨?_, ?_, ?_, ?_⟩ <;> decide +kernel

end Flex

/-! ## CBOR -/

namespace Cbor.View

theorem range_slice {hard : Bool} {v s : Bytes} {q n : Nat} (h : range hard v q n = .ok s) : sliceAt v q n = .ok s := by
  unfold range at h
  split at h
  · cases h
  · exact h

theorem keyPlace_of {hard : Bool} {f : Nat} {v : Bytes} {q : Nat} {k : Bytes} (h : keyDeref hard f v q = .ok k) :
    ∃ x, keyPlace hard f v q = .ok x ∧ (x.later v = .ok k ∨ (x = .inScratch ∧ At v q [0x7f])) := by
  unfold keyDeref at h
  unfold keyPlace
  obtain ⟨kh, h1, h⟩ := Res.bind_eq_ok.1 h
  rw [h1, Res.ok_bind]
  by_cases hc : kh.major = 3 ∧ kh.indef = false
  · rw [if_pos hc] at h ⊢
    exact ⟨.inBuf (q + kh.hlen) kh.val, by rw [h]; rfl, .inl (range_slice h)⟩
  · rw [if_neg hc] at h ⊢
    refine ⟨.inScratch, by rw [h]; rfl, .inr ⟨rfl, ?_⟩⟩
    unfold asString at h
    obtain ⟨h0, h2, h⟩ := Res.bind_eq_ok.1 h
    obtain ⟨_, h3, h⟩ := Res.bind_eq_ok.1 h
    have h2' : readHead false v q = .ok h0 := h2
    have e := le_readHead_raw _ _ _ h2'
    rw [h1] at e
    cases e
    have hm : kh.major = 3 := by
      by_cases hm : kh.major = 3
      · exact hm
      · rw [decide_eq_false hm] at h3; cases h3
    have hi : kh.indef = true := by
      cases hi : kh.indef with
      | true => rfl
      | false => exact absurd ⟨hm, hi⟩ hc
    have := ((hd_inv h2' (by omega)).2 hi).1
    rw [hm] at this
    exact this

theorem keptFrom_of {hard : Bool} {f : Nat} {v : Bytes} {indef : Bool} {stop : Nat} :
    ∀ {g q n : Nat} {ks : List Bytes}, keysFrom hard f v indef stop g q n = .ok ks →
    ∃ xs, keptFrom hard f v indef stop g q n = .ok xs ∧
      (laterAll v xs = .ok ks ∨ (laterAll v xs = .ub ∧ (0x7f : UInt8) ∈ v))
  | 0, q, n, ks, h => by cases h
  | g + 1, q, n, ks, h => by
    unfold keysFrom at h
    unfold keptFrom
    by_cases hc : q = stop
    · rw [if_pos hc] at h ⊢
      exact ⟨[], rfl, .inl h⟩
    · rw [if_neg hc] at h ⊢
      obtain ⟨k, h1, h⟩ := Res.bind_eq_ok.1 h
      obtain ⟨⟨q', n'⟩, h2, h⟩ := Res.bind_eq_ok.1 h
      obtain ⟨ks', h3, h⟩ := Res.bind_eq_ok.1 h
      cases h
      obtain ⟨x, e1, e2⟩ := keyPlace_of h1
      obtain ⟨xs, e3, e4⟩ := keptFrom_of h3
      refine ⟨x :: xs, by rw [e1, h2]; simp only [Res.ok_bind]; rw [e3]; rfl, ?_⟩
      rcases e2 with e2 | ⟨rfl, ha⟩
      · rcases e4 with e4 | ⟨e4, hm⟩
        · exact .inl (laterAll_ok_ok e2 e4)
        · exact .inr ⟨laterAll_ok_ub e2 e4, hm⟩
      · obtain ⟨a, b, rfl, _⟩ := ha
        exact .inr ⟨laterAll_scratch _ _, by simp⟩

/-- C96 for CBOR, any bytes: keys that can be listed can be kept if the byte 0x7f (the head of a chunked
text string) occurs nowhere in the buffer; otherwise reading the kept keys gives the keys or is
undefined, nothing else. -/
theorem c96_cbor_kept_partial {hard : Bool} {f : Nat} {r : View} {ks : List Bytes}
    (h : mapKeys hard f r = .ok ks) :
    (keptKeys hard f r = .ok ks ∨ keptKeys hard f r = .ub) ∧
    ((0x7f : UInt8) ∉ r.buf → keptKeys hard f r = .ok ks) := by
  unfold mapKeys at h
  obtain ⟨h0, h1, h⟩ := Res.bind_eq_ok.1 h
  obtain ⟨_, h2, h⟩ := Res.bind_eq_ok.1 h
  obtain ⟨h', h3, h⟩ := Res.bind_eq_ok.1 h
  obtain ⟨stop, h4, h⟩ := Res.bind_eq_ok.1 h
  obtain ⟨xs, e1, e2⟩ := keptFrom_of h
  have e : keptKeys hard f r = laterAll r.buf xs := by
    simp only [keptKeys, kept, h1, h2, h3, h4, Res.ok_bind, e1]
  rw [e]
  rcases e2 with e2 | ⟨e2, hm⟩
  · exact ⟨.inl e2, fun _ => e2⟩
  · exact ⟨.inr e2, fun hn => absurd hm hn⟩

/-- The encodings of the keys among those of keys and values. -/
def keyParts : List Bytes → List Bytes
  | ck :: _ :: cs => ck :: keyParts cs
  | _ => []

/-- Whether an encoding starts with the head of a chunked text string. -/
def chunked (c : Bytes) : Bool := decide (c.head? = some 0x7f)

theorem keyPlace_text {ind : Bool} {s b : Bytes} (hh : Text ind 3 s b) {hard : Bool} {v : Bytes}
    (hv : v.length < 2 ^ 64) {p : Nat} (ha : At v p b) (hfine : Fine hard v (p + b.length) (s ≠ [])) {f : Nat}
    (hf : v.length ≤ f) :
    ∃ x, keyPlace hard f v p = .ok x ∧ (chunked b = true → x = .inScratch) ∧ (chunked b = false → x.later v = .ok s) := by
  have hd := keyDeref_text hh hv ha hfine hf
  cases hh with
  | @definite h hh =>
    obtain ⟨a, hr⟩ := hh.read (by omega) true ha.left
    have hc : chunked (h ++ s) = false := by
      obtain ⟨x, t, hx, _⟩ := hh.first (by omega)
      have hr' := hr
      subst hx
      by_cases h7 : x = 0x7f
      · exfalso
        subst h7
        have := indef_read (show 3 ≤ 6 by omega) true (show At v p (indefHd 3 :: (t ++ s)) from ha)
        rw [this] at hr
        have hr := congrArg Head.indef (Res.ok.inj hr)
        cases hr
      · simp [chunked, h7]
    simp only [keyDeref, hr, Res.ok_bind, and_self, if_true] at hd
    refine ⟨.inBuf (p + h.length) s.length, ?_, by simp [hc], fun _ => range_slice hd⟩
    simp only [keyPlace, hr, Res.ok_bind, and_self, if_true, hd]; rfl
  | @chunked b hi hc =>
    have hr := indef_read (show 3 ≤ 6 by omega) true ha
    simp only [keyDeref, hr, Res.ok_bind, Bool.true_eq_false, and_false, if_false] at hd
    refine ⟨.inScratch, ?_, fun _ => rfl, fun h => ?_⟩
    · simp only [keyPlace, hr, Res.ok_bind, Bool.true_eq_false, and_false, if_false, hd]; rfl
    · have : chunked (indefHd 3 :: (b ++ [0xff])) = true := rfl
      rw [this] at h; cases h

theorem keptFrom_at {ind hard : Bool} {v : Bytes} {f : Nat} (hv : v.length < 2 ^ 64)
    (hf : v.length ≤ f) : ∀ {ms : List (Bytes × Val)} {cs : List Bytes} {p g : Nat},
    EncEntries ind ms cs → At v p cs.flatten → ms.length < g →
    ∃ xs, keptFrom hard f v false (p + cs.flatten.length) g p ms.length = .ok xs ∧
      laterAll v xs = if (keyParts cs).any chunked then .ub else .ok (ms.map Prod.fst)
  | [], cs, p, g, he, ha, hg => by
    simp only [EncEntries] at he
    subst he
    obtain ⟨g, rfl⟩ : ∃ k, g = k + 1 := ⟨g - 1, by omega⟩
    exact ⟨[], by simp [keptFrom], rfl⟩
  | (k, w) :: ms, cs, p, g, he, ha, hg => by
    simp only [List.length_cons] at hg
    obtain ⟨g, rfl⟩ : ∃ k, g = k + 1 := ⟨g - 1, by omega⟩
    simp only [EncEntries] at he
    obtain ⟨ck, c, cs', hk, hc, hcs, rfl⟩ := he
    have ha' : At v p ((ck ++ c) ++ cs'.flatten) := by simpa using ha
    have hb := ha'.bound
    simp only [List.length_append] at hb
    have hik : Item ck := .str (.inr rfl) hk
    have hp1 := hik.pos
    have hp2 := (Enc.item w hc).pos
    obtain ⟨x, hx, hx1, hx2⟩ := keyPlace_text hk (hard := hard) hv ha'.left.left (fun hh => .inl (by omega)) hf
    have hnx := keyNext_at (raw := false) hv hf hik (Enc.item w hc) ha'.left (n := ms.length + 1) (by simp)
    obtain ⟨xs, ih, ih'⟩ := keptFrom_at (hard := hard) hv hf hcs ha'.right (show ms.length < g by omega)
    have e : p + (ck :: c :: cs').flatten.length = p + (ck ++ c).length + cs'.flatten.length := by
      simp only [List.flatten_cons, List.length_append]; omega
    have hne : ¬ p = p + (ck :: c :: cs').flatten.length := by
      simp only [List.flatten_cons, List.length_append]; omega
    refine ⟨x :: xs, ?_, ?_⟩
    · simp only [keptFrom, if_neg hne, hx, Res.ok_bind, List.length_cons, hnx]
      simp only [Bool.false_eq_true, if_false, Nat.add_sub_cancel, e, ih]
      rfl
    · cases hch : chunked ck with
      | true =>
        rw [hx1 hch, laterAll_scratch]
        simp [keyParts, hch]
      | false =>
        have h2 := hx2 hch
        simp only [keyParts, List.any_cons, hch, Bool.false_or]
        cases ha : (keyParts cs').any chunked with
        | true =>
          rw [ha, if_pos rfl] at ih'
          rw [laterAll_ok_ub h2 ih', if_pos rfl]
        | false =>
          rw [ha, if_neg Bool.false_ne_true] at ih'
          rw [laterAll_ok_ok h2 ih', if_neg Bool.false_ne_true]
          rfl

/-- C96 for CBOR, exactly, for every encoding of every map of definite length, at any place in a buffer:
the kept keys are the keys if no key is written in chunks, and reading them is undefined otherwise. -/
theorem c96_cbor_kept_exact {ind hard : Bool} {ms : List (Bytes × Val)} {cs : List Bytes} {h : Bytes}
    (he : EncEntries ind ms cs) (hh : Hd 5 ms.length h) {v : Bytes} (hv : v.length < 2 ^ 64) {p : Nat}
    (ha : At v p (h ++ cs.flatten)) {f : Nat} (hf : v.length ≤ f) :
    mapKeys hard f ⟨v, p⟩ = .ok (ms.map Prod.fst) ∧
    keptKeys hard f ⟨v, p⟩ = if (keyParts cs).any chunked then .ub else .ok (ms.map Prod.fst) := by
  have hbd := ha.bound
  have hge := he.len
  obtain ⟨hl, hi⟩ := EncEntries.item ms he
  have hend := keysEnd_at hi hl (.definite (ind := ind) hh) hv ha hf
  obtain ⟨a, hr⟩ := hh.read (by omega) false ha.left
  obtain ⟨a', hr'⟩ := hh.read (by omega) true ha.left
  have hp := hh.pos
  simp only [List.length_append] at hbd hend
  rw [← Nat.add_assoc] at hend
  refine ⟨by simpa using (keysSeen_at (hard := hard) he (.definite hh) hv ha hf).2 hr, ?_⟩
  obtain ⟨xs, h1, h2⟩ := keptFrom_at (hard := hard) hv hf he ha.right (show ms.length < f by omega)
  rw [← h2]
  simp only [keptKeys, kept, View.head, hr, hr', Res.ok_bind, decide_true, Res.require_true, hend, Bool.false_eq_true,
    if_false, h1]

theorem keyParts_definite : ∀ {ms : List (Bytes × Val)} {cs : List Bytes}, EncEntries false ms cs →
    (keyParts cs).any chunked = false
  | [], cs, he => by simp only [EncEntries] at he; subst he; rfl
  | (k, w) :: ms, cs, he => by
    simp only [EncEntries] at he
    obtain ⟨ck, c, cs', hk, hc, hcs, rfl⟩ := he
    simp only [keyParts, List.any_cons, keyParts_definite hcs, Bool.or_false]
    cases hk with
    | @definite h hh =>
      obtain ⟨x, t, hx, _⟩ := hh.first (by omega)
      subst hx
      by_cases h7 : x = 0x7f
      · exfalso
        subst h7
        have h1 := indef_read (show 3 ≤ 6 by omega) true (show At ((0x7f : UInt8) :: t) 0 (indefHd 3 :: t) from ⟨[], [], by simp; rfl, rfl⟩)
        obtain ⟨a, h2⟩ := hh.read (by omega) true (show At ((0x7f : UInt8) :: t) 0 ((0x7f : UInt8) :: t) from ⟨[], [], by simp, rfl⟩)
        rw [h1] at h2
        have h2 := congrArg Head.indef (Res.ok.inj h2)
        cases h2
      · simp [chunked, h7]
    | chunked h => cases h

/-- C96 for CBOR of definite lengths throughout, such as the library writes: the keys of every map can be
kept. -/
theorem c96_cbor_definite_kept {hard : Bool} {ms : List (Bytes × Val)} {b : Bytes} (he : Enc false (.map ms) b)
    {v : Bytes} (hv : v.length < 2 ^ 64) {p : Nat} (ha : At v p b) {f : Nat} (hf : v.length ≤ f) :
    keptKeys hard f ⟨v, p⟩ = .ok (ms.map Prod.fst) := by
  simp only [Enc] at he
  obtain ⟨cs, he, hg⟩ := he
  cases hg with
  | definite hh =>
    have := (c96_cbor_kept_exact (hard := hard) he hh hv ha hf).2
    rw [keyParts_definite he, if_neg Bool.false_ne_true] at this
    exact this
  | indef h => cases h

/-- C96 is false of CBOR: the map `{"a": 1}` whose key is written in one chunk lists its key, but a kept
view of the key dangles. -/
theorem c96_cbor_kept_refuted (hard : Bool) : ∃ v : Bytes, Enc true (.map [([0x61], .uint 1)]) v ∧
    mapKeys hard 6 ⟨v, 0⟩ = .ok [[0x61]] ∧ keptKeys hard 6 ⟨v, 0⟩ = .ub := by
  have he : EncEntries true [([0x61], .uint 1)] [[0x7f, 0x61, 0x61, 0xff], [0x01]] := by
    simp only [EncEntries]
    refine ⟨[0x7f, 0x61, 0x61, 0xff], [0x01], [], ?_, ?_, rfl, rfl⟩
    · exact .chunked (b := [0x61, 0x61]) rfl (.cons (h := [0x61]) (s := [0x61]) (t := []) (b := []) (.imm (by decide)) .nil)
    · simp only [Enc, EncInt]
      exact .inl ⟨by decide, .imm (by decide)⟩
  have hh : Hd 5 1 [0xa1] := .imm (by decide)
  refine ⟨[0xa1, 0x7f, 0x61, 0x61, 0xff, 0x01], ?_, ?_⟩
  · simp only [Enc]
    exact ⟨_, he, .definite hh⟩
  · have := c96_cbor_kept_exact (hard := hard) he hh (v := [0xa1, 0x7f, 0x61, 0x61, 0xff, 0x01]) (by decide) (p := 0)
      ⟨[], [], rfl, rfl⟩ (f := 6) (by decide)
    exact this

end Cbor.View

end Zer
