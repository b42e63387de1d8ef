import Verif.Cbor.Contain
import Verif.MsgPack.Contain
import Verif.Settle
import Verif.Props.Prefix
import Verif.Json.Print
import Verif.Props.Flex
import Verif.Props.ZeraFormat
import Verif.Each

/-!
# C105: what has arrived can be read

Neither reader of the stream formats looks at what comes behind the value it was asked for. `Here` describes the bytes of a message up to
the end of a value: heads announce how much there will be, what is complete is complete, and the value itself is there.
-/

namespace Zer

theorem firstVal_split {k : Bytes} {w : Val} : ∀ {ms : List (Bytes × Val)}, firstVal ms k = some w →
    ∃ l r, ms = l ++ (k, w) :: r ∧ k ∉ l.map Prod.fst
  | [], h => by simp [firstVal] at h
  | (a, x) :: ms, h => by
    by_cases e : a = k
    · subst e
      simp only [firstVal, if_true] at h
      injection h with h
      subst h
      exact ⟨[], ms, rfl, by simp⟩
    · simp only [firstVal, if_neg e] at h
      obtain ⟨l, r, rfl, hn⟩ := firstVal_split h
      refine ⟨(a, x) :: l, r, rfl, ?_⟩
      simp only [List.map_cons, List.mem_cons, not_or]
      exact ⟨fun e' => e e'.symm, hn⟩

end Zer

namespace Zer.Cbor

/-- The head of an array or map that announces more than `n` entries, or does not say how many. -/
def Opens (ind : Bool) (m n : Nat) (h : Bytes) : Prop :=
  (∃ k, n < k ∧ Hd m k h) ∨ (ind = true ∧ h = [indefHd m])

/-- `Here ind x path b`: `b` is the beginning of a message, up to the end of the value `x` at the path. -/
inductive Here (ind : Bool) (x : Val) : List Hop → Bytes → Prop where
  | here {b : Bytes} : Enc ind x b → Here ind x [] b
  | idx {h b : Bytes} {ys : List Val} {cs : List Bytes} {p : List Hop} : Opens ind 4 ys.length h → EncList ind ys cs →
      Here ind x p b → Here ind x (.idx ys.length :: p) (h ++ (cs.flatten ++ b))
  | key {h k ck b : Bytes} {ms : List (Bytes × Val)} {cs : List Bytes} {p : List Hop} : Opens ind 5 ms.length h →
      EncEntries ind ms cs → k ∉ ms.map Prod.fst → Text ind 3 k ck → Here ind x p b →
      Here ind x (.key k :: p) (h ++ (cs.flatten ++ (ck ++ b)))

theorem Opens.first {ind : Bool} {m n : Nat} {h : Bytes} (ho : Opens ind m n h) (hm : m ≤ 6) : ∃ x t, h = x :: t ∧ x.toNat < 0xff := by
  rcases ho with ⟨k, _, hh⟩ | ⟨_, rfl⟩
  · exact hh.first hm
  · exact ⟨_, _, rfl, indefHd_lt hm⟩

theorem Here.first {ind : Bool} {x : Val} {p : List Hop} {b : Bytes} (h : Here ind x p b) : ∃ y t, b = y :: t ∧ y.toNat < 0xff := by
  cases h with
  | here h => exact (Enc.item x h).first
  | idx ho => obtain ⟨y, t, rfl, hy⟩ := ho.first (by omega); exact ⟨y, _, rfl, hy⟩
  | key ho => obtain ⟨y, t, rfl, hy⟩ := ho.first (by omega); exact ⟨y, _, rfl, hy⟩

section
variable {ind hard : Bool} {v : Bytes} {f : Nat} (hv : v.length < 2 ^ 64) (hf : v.length ≤ f)
include hv hf

theorem getIdxB_upto {y : UInt8} {u : Bytes} (hy : y.toNat < 0xff) (j : Nat) : ∀ {cs : List Bytes} {p g i : Nat}, (∀ c ∈ cs, Item c) →
    At v p (cs.flatten ++ y :: u) → cs.length < g → i + cs.length = j →
    View.getIdxB f v j g i p = .ok ⟨v, p + cs.flatten.length⟩
  | [], p, g, i, _, ha, hg, hi => by
    obtain ⟨g, rfl⟩ : ∃ k, g = k + 1 := ⟨g - 1, by omega⟩
    have ha' : At v p (y :: u) := by simpa using ha
    simp only [List.length_nil, Nat.add_zero] at hi
    simp [View.getIdxB, decide_eq_true (at_lt ha'), at_byte ha', show y.toNat ≠ 0xff by omega, hi]
  | c :: cs, p, g, i, hc, ha, hg, hi => by
    simp only [List.length_cons] at hg hi
    obtain ⟨g, rfl⟩ : ∃ k, g = k + 1 := ⟨g - 1, by omega⟩
    have ha' : At v p (c ++ (cs.flatten ++ y :: u)) := by simpa using ha
    have hb := ha'.bound
    have hci := hc c (by simp)
    have hs := hci.skip false hv ha'.left (f := f) (by simp only [List.length_append] at hb; omega)
    obtain ⟨z, w, hz, hz'⟩ := hci.first
    have hza : At v p (z :: w) := hz ▸ ha'.left
    have ih := getIdxB_upto hy j (fun d hd => hc d (by simp [hd])) ha'.right (show cs.length < g by omega) (show i + 1 + cs.length = j by omega)
    simp only [View.getIdxB, decide_eq_true (at_lt hza), Res.require_true, Res.ok_bind, at_byte hza,
      if_neg (show z.toNat ≠ 0xff by omega), if_neg (show ¬ i = j by omega), hs, ih]
    simp [Nat.add_assoc]

theorem getIdx_upto {h : Bytes} {cs : List Bytes} {b : Bytes} (ho : Opens ind 4 cs.length h) (hc : ∀ c ∈ cs, Item c)
    (hb : ∃ y u, b = y :: u ∧ y.toNat < 0xff) {p : Nat} (ha : At v p (h ++ (cs.flatten ++ b))) :
    View.getIdx f ⟨v, p⟩ cs.length = .ok ⟨v, p + h.length + cs.flatten.length⟩ := by
  have hge := flatten_ge (fun c h => (hc c h).pos)
  have hbd := ha.bound
  simp only [List.length_append] at hbd
  rcases ho with ⟨k, hk, hh⟩ | ⟨_, rfl⟩
  · obtain ⟨a, hr⟩ := hh.read (by omega) false ha.left
    have hi := items_at (cs := cs) (fun c hc' q hq => (hc c hc').skip false hv hq (f := f) (by have := hq.bound; omega)) ha.right.left
    simp only [View.getIdx, View.head, hr, Res.ok_bind, decide_true, Res.require_true, Bool.false_eq_true, if_false,
      decide_eq_true hk, hi]
    rfl
  · obtain ⟨y, u, rfl, hy⟩ := hb
    have hr := indef_read (show 4 ≤ 6 by omega) false (show At v p (indefHd 4 :: (cs.flatten ++ y :: u)) from ha)
    have := getIdxB_upto (f := f) hv hf hy cs.length (i := 0) hc ha.right (show cs.length < f by simp only [List.length_cons] at hbd; omega) (by omega)
    simp only [View.getIdx, View.head, hr, Res.ok_bind, decide_true, Res.require_true, if_true]
    exact this

theorem getKeyN_upto {k ck : Bytes} (hk : Text ind 3 k ck) {b : Bytes} (hb : 1 ≤ b.length) : ∀ {ms : List (Bytes × Val)} {cs : List Bytes} {p n : Nat},
    EncEntries ind ms cs → k ∉ ms.map Prod.fst → At v p (cs.flatten ++ (ck ++ b)) → ms.length < n →
    View.getKeyN hard f v k n p = .ok ⟨v, p + cs.flatten.length + ck.length⟩
  | [], cs, p, n, he, _, ha, hn => by
    simp only [EncEntries] at he
    subst he
    obtain ⟨n, rfl⟩ : ∃ k, n = k + 1 := ⟨n - 1, by omega⟩
    have ha' : At v p (ck ++ b) := by simpa using ha
    have hbd := ha'.bound
    simp only [List.length_append] at hbd
    have hs1 := (Item.str (.inr rfl) hk).skip false hv ha'.left (f := f) (by omega)
    have hstr := asString_text hk (hard := hard) hv ha'.left (fun _ => .inl (by omega)) hf
    simp [View.getKeyN, hstr, hs1]
  | (k', w) :: ms, cs, p, n, he, hn', ha, hn => by
    simp only [List.length_cons] at hn
    simp only [List.map_cons, List.mem_cons, not_or] at hn'
    obtain ⟨n, rfl⟩ : ∃ k, n = k + 1 := ⟨n - 1, by omega⟩
    simp only [EncEntries] at he
    obtain ⟨ck', c, cs', hk', hc, hcs, rfl⟩ := he
    have ha' : At v p (ck' ++ (c ++ (cs'.flatten ++ (ck ++ b)))) := by simpa using ha
    have hbd := ha'.bound
    simp only [List.length_append] at hbd
    have hs1 := (Item.str (.inr rfl) hk').skip false hv ha'.left (f := f) (by omega)
    have hs2 := (Enc.item w hc).skip false hv ha'.right.left (f := f) (by omega)
    have hstr := asString_text hk' (hard := hard) hv ha'.left (fun _ => .inl (by omega)) hf
    have ih := getKeyN_upto hk hb hcs hn'.2 ha'.right.right (show ms.length < n by omega)
    simp only [View.getKeyN, hstr, hs1, hs2, Res.ok_bind, if_neg (show ¬ k' = k from fun e => hn'.1 e.symm), ih]
    simp [Nat.add_assoc]

theorem getKeyB_upto {k ck : Bytes} (hk : Text ind 3 k ck) {b : Bytes} (hb : 1 ≤ b.length) : ∀ {ms : List (Bytes × Val)} {cs : List Bytes} {p g : Nat},
    EncEntries ind ms cs → k ∉ ms.map Prod.fst → At v p (cs.flatten ++ (ck ++ b)) → ms.length < g →
    View.getKeyB hard f v k g p = .ok ⟨v, p + cs.flatten.length + ck.length⟩
  | [], cs, p, n, he, _, ha, hn => by
    simp only [EncEntries] at he
    subst he
    obtain ⟨n, rfl⟩ : ∃ k, n = k + 1 := ⟨n - 1, by omega⟩
    have ha' : At v p (ck ++ b) := by simpa using ha
    have hbd := ha'.bound
    simp only [List.length_append] at hbd
    have hik : Item ck := .str (.inr rfl) hk
    have hs1 := hik.skip false hv ha'.left (f := f) (by omega)
    have hstr := asString_text hk (hard := hard) hv ha'.left (fun _ => .inl (by omega)) hf
    obtain ⟨x, u, hx, hx'⟩ := hik.first
    have hxa : At v p (x :: u) := hx ▸ ha'.left
    simp [View.getKeyB, decide_eq_true (at_lt hxa), at_byte hxa, show x.toNat ≠ 0xff by omega, hstr, hs1]
  | (k', w) :: ms, cs, p, n, he, hn', ha, hn => by
    simp only [List.length_cons] at hn
    simp only [List.map_cons, List.mem_cons, not_or] at hn'
    obtain ⟨n, rfl⟩ : ∃ k, n = k + 1 := ⟨n - 1, by omega⟩
    simp only [EncEntries] at he
    obtain ⟨ck', c, cs', hk', hc, hcs, rfl⟩ := he
    have ha' : At v p (ck' ++ (c ++ (cs'.flatten ++ (ck ++ b)))) := by simpa using ha
    have hbd := ha'.bound
    simp only [List.length_append] at hbd
    have hik : Item ck' := .str (.inr rfl) hk'
    have hs1 := hik.skip false hv ha'.left (f := f) (by omega)
    have hs2 := (Enc.item w hc).skip false hv ha'.right.left (f := f) (by omega)
    have hstr := asString_text hk' (hard := hard) hv ha'.left (fun _ => .inl (by omega)) hf
    obtain ⟨x, u, hx, hx'⟩ := hik.first
    have hxa : At v p (x :: u) := hx ▸ ha'.left
    have ih := getKeyB_upto hk hb hcs hn'.2 ha'.right.right (show ms.length < n by omega)
    simp only [View.getKeyB, decide_eq_true (at_lt hxa), Res.require_true, Res.ok_bind, at_byte hxa,
      if_neg (show x.toNat ≠ 0xff by omega), hstr, hs1, hs2, if_neg (show ¬ k' = k from fun e => hn'.1 e.symm), ih]
    simp [Nat.add_assoc]

theorem getKey_upto {h k ck : Bytes} {ms : List (Bytes × Val)} {cs : List Bytes} {b : Bytes} (ho : Opens ind 5 ms.length h)
    (he : EncEntries ind ms cs) (hn : k ∉ ms.map Prod.fst) (hk : Text ind 3 k ck)
    (hb : 1 ≤ b.length) {p : Nat} (ha : At v p (h ++ (cs.flatten ++ (ck ++ b)))) :
    View.getKey hard f ⟨v, p⟩ k = .ok ⟨v, p + h.length + cs.flatten.length + ck.length⟩ := by
  have hge := he.len
  have hbd := ha.bound
  simp only [List.length_append] at hbd
  rcases ho with ⟨n, hn', hh⟩ | ⟨_, rfl⟩
  · obtain ⟨a, hr⟩ := hh.read (by omega) false ha.left
    simp only [View.getKey, View.head, hr, Res.ok_bind, decide_true, Res.require_true, Bool.false_eq_true, if_false]
    exact getKeyN_upto hv hf hk hb he hn ha.right hn'
  · have hr := indef_read (show 5 ≤ 6 by omega) false (show At v p (indefHd 5 :: (cs.flatten ++ (ck ++ b))) from ha)
    simp only [View.getKey, View.head, hr, Res.ok_bind, decide_true, Res.require_true, if_true]
    exact getKeyB_upto hv hf hk hb he hn ha.right (by omega)

theorem Here.goto {x : Val} (hx : x.Small) {path : List Hop} {b : Bytes} (h : Here ind x path b) : ∀ {p : Nat}, At v p b →
    Fine hard v (p + b.length) x.NoEmpty →
    ∃ q, (readerI ind hard f).goto path ⟨v, p⟩ = .ok q ∧ (readerI ind hard f).Agrees q x := by
  induction h with
  | here he => intro p ha hfine; exact ⟨_, rfl, Enc.agrees hv hf x he ha hx hfine⟩
  | @idx h b ys cs path ho hc hb ih =>
    intro p ha hfine
    obtain ⟨hl, hi⟩ := EncList.item ys hc
    have hg := getIdx_upto (f := f) hv hf (hl ▸ ho) hi hb.first ha
    obtain ⟨q, h1, h2⟩ := ih (p := p + h.length + cs.flatten.length) ha.right.right
      (by simpa only [List.length_append, Nat.add_assoc] using hfine)
    refine ⟨q, ?_, h2⟩
    show (readerI ind hard f).getIdx _ _ >>= _ = _
    rw [readerI_getIdx, ← hl, hg]
    exact h1
  | @key h k ck b ms cs path ho hc hn hk hb ih =>
    intro p ha hfine
    have hb1 : 1 ≤ b.length := by obtain ⟨_, _, rfl, _⟩ := hb.first; simp
    have hg := getKey_upto (hard := hard) hv hf ho hc hn hk hb1 ha
    obtain ⟨q, h1, h2⟩ := ih (p := p + h.length + cs.flatten.length + ck.length) ha.right.right.right
      (by simpa only [List.length_append, Nat.add_assoc] using hfine)
    refine ⟨q, ?_, h2⟩
    show (readerI ind hard f).getKey _ _ >>= _ = _
    rw [readerI_getKey, hg]
    exact h1

end

/-! ### Every value of a document arrives before what is behind it -/

theorem EncList.split {ind : Bool} : ∀ {xs : List Val} {cs : List Bytes} {i : Nat} (_ : EncList ind xs cs) (h : i < xs.length),
    ∃ l c r, cs = l ++ c :: r ∧ EncList ind (xs.take i) l ∧ Enc ind xs[i] c
  | x :: xs, cs, 0, he, _ => by
    simp only [EncList] at he
    obtain ⟨c, cs', hc, _, rfl⟩ := he
    exact ⟨[], c, cs', rfl, by simp [EncList], hc⟩
  | x :: xs, cs, i + 1, he, h => by
    simp only [EncList] at he
    obtain ⟨c, cs', hc, hcs, rfl⟩ := he
    obtain ⟨l, d, r, rfl, h1, h2⟩ := EncList.split hcs (show i < xs.length by simpa using h)
    exact ⟨c :: l, d, r, rfl, by simp only [List.take_succ_cons, EncList]; exact ⟨c, l, hc, h1, rfl⟩, h2⟩

theorem EncEntries.split {ind : Bool} {k : Bytes} {w : Val} {r : List (Bytes × Val)} : ∀ {l : List (Bytes × Val)} {cs : List Bytes},
    EncEntries ind (l ++ (k, w) :: r) cs →
    ∃ cl ck c cr, cs = cl ++ ck :: c :: cr ∧ EncEntries ind l cl ∧ Text ind 3 k ck ∧ Enc ind w c
  | [], cs, he => by
    simp only [List.nil_append, EncEntries] at he
    obtain ⟨ck, c, cs', hk, hc, _, rfl⟩ := he
    exact ⟨[], ck, c, cs', rfl, by simp [EncEntries], hk, hc⟩
  | (a, x) :: l, cs, he => by
    simp only [List.cons_append, EncEntries] at he
    obtain ⟨ca, cx, cs', ha, hx, hcs, rfl⟩ := he
    obtain ⟨cl, ck, c, cr, rfl, h1, h2, h3⟩ := EncEntries.split hcs
    exact ⟨ca :: cx :: cl, ck, c, cr, rfl, by simp only [EncEntries]; exact ⟨ca, cx, cl, ha, hx, h1, rfl⟩, h2, h3⟩

theorem Group.opens {ind : Bool} {m n i : Nat} {c b : Bytes} (hg : Group ind m n c b) (hi : i < n) :
    ∃ h t, b = h ++ (c ++ t) ∧ Opens ind m i h := by
  cases hg with
  | @definite h hh => exact ⟨h, [], by simp, .inl ⟨n, hi, hh⟩⟩
  | indef hi' => exact ⟨[indefHd m], [0xff], by simp, .inr ⟨hi', rfl⟩⟩

/-- Every encoding of a document reaches, for every path in it, a point where the value at that path has arrived. -/
theorem Enc.arrives {ind : Bool} {x : Val} : ∀ (path : List Hop) {v : Val} {b : Bytes}, Enc ind v b → v.at path = some x →
    ∃ b1 b2, b = b1 ++ b2 ∧ Here ind x path b1
  | [], v, b, he, hx => by
    simp only [Val.at] at hx
    injection hx with hx
    subst hx
    exact ⟨b, [], by simp, .here he⟩
  | .idx i :: path, v, b, he, hx => by
    cases v <;> simp only [Val.at] at hx <;> try cases hx
    rename_i xs
    by_cases hi : i < xs.length
    · rw [dif_pos hi] at hx
      simp only [Enc] at he
      obtain ⟨cs, hc, hg⟩ := he
      obtain ⟨l, c, r, rfl, h1, h2⟩ := hc.split hi
      obtain ⟨h, t, rfl, ho⟩ := hg.opens hi
      obtain ⟨b1, b2, rfl, hh⟩ := Enc.arrives path h2 hx
      have e : (xs.take i).length = i := by rw [List.length_take]; omega
      refine ⟨h ++ (l.flatten ++ b1), b2 ++ (r.flatten ++ t), by simp, ?_⟩
      have := Here.idx (ys := xs.take i) (h := h) (by rw [e]; exact ho) h1 hh
      rwa [e] at this
    · rw [dif_neg hi] at hx; cases hx
  | .key k :: path, v, b, he, hx => by
    cases v <;> simp only [Val.at] at hx <;> try cases hx
    rename_i ms
    cases hw : firstVal ms k with
    | none => rw [hw] at hx; cases hx
    | some w =>
      rw [hw] at hx
      obtain ⟨l, r, rfl, hn⟩ := firstVal_split hw
      simp only [Enc] at he
      obtain ⟨cs, hc, hg⟩ := he
      obtain ⟨cl, ck, c, cr, rfl, h1, h2, h3⟩ := hc.split
      obtain ⟨h, t, rfl, ho⟩ := hg.opens (i := l.length) (by simp)
      obtain ⟨b1, b2, rfl, hh⟩ := Enc.arrives path h3 hx
      exact ⟨h ++ (cl.flatten ++ (ck ++ b1)), b2 ++ (cr.flatten ++ t), by simp, .key ho h1 hn h2 hh⟩

/-- C105 for CBOR, whole: at any depth, of definite and of indefinite length, a value can be read as soon as its bytes and those before
them are there, whatever comes behind. `hard`: with the checks of a hardened library an empty text at the very end of the bytes needs
one more byte, as in C28. -/
theorem c105_cbor {ind hard : Bool} {x : Val} {path : List Hop} {b t : Bytes} (h : Here ind x path b) (hx : x.Small)
    (hb : (b ++ t).length < 2 ^ 64) (hh : hard = true → t ≠ [] ∨ x.NoEmpty) {f : Nat} (hf : (b ++ t).length ≤ f) :
    ∃ q, (readerI ind hard f).goto path ⟨b ++ t, 0⟩ = .ok q ∧ (readerI ind hard f).Agrees q x := by
  refine h.goto hb hf hx ⟨[], t, rfl, rfl⟩ (fun e => ?_)
  rcases hh e with h' | h'
  · have := List.length_pos_iff.2 h'
    exact .inl (by simp; omega)
  · exact .inr h'

/-- C105 for CBOR: every value of every document has its point of arrival in every encoding, from which on it can be read, whatever comes
behind. -/
theorem c105_cbor_arrives {ind : Bool} {v x : Val} {path : List Hop} {b : Bytes} (he : Enc ind v b) (hv : v.at path = some x) (hx : x.Small) :
    ∃ b1 b2, b = b1 ++ b2 ∧ ∀ t, (b1 ++ t).length < 2 ^ 64 → ∀ f, (b1 ++ t).length ≤ f →
      ∃ q, (readerI ind false f).goto path ⟨b1 ++ t, 0⟩ = .ok q ∧ (readerI ind false f).Agrees q x := by
  obtain ⟨b1, b2, rfl, h⟩ := Enc.arrives path he hv
  exact ⟨b1, b2, rfl, fun t hb f hf => c105_cbor h hx hb (by simp) hf⟩

end Zer.Cbor

namespace Zer.MsgPack

/-- `Here x path b`: `b` is the beginning of a message, up to the end of the element or entry of the root in which `x` is. -/
inductive Here (x : Val) : List Hop → Bytes → Prop where
  | here {b : Bytes} : Enc x b → Here x [] b
  | idx {n : Nat} {h c : Bytes} {ys : List Val} {y : Val} {cs : List Bytes} {p : List Hop} : ArrHead n h → ys.length < n →
      Val.Below.belowList Lim ys → EncList ys cs → y.Below Lim → Enc y c → y.at p = some x →
      Here x (.idx ys.length :: p) (h ++ (cs.flatten ++ c))
  | key {n : Nat} {h k hk c : Bytes} {ms : List (Bytes × Val)} {y : Val} {cs : List Bytes} {p : List Hop} : MapHead n h → ms.length < n →
      Val.Below.belowEntries Lim ms → EncEntries ms cs → k ∉ ms.map Prod.fst → k.length < Lim → StrHead k.length hk →
      y.Below Lim → Enc y c → y.at p = some x → Here x (.key k :: p) (h ++ (cs.flatten ++ (hk ++ k ++ c)))

theorem getIdx_upto {n : Nat} {h c : Bytes} {cs : List Bytes} (H : ArrHead n h) (hn : cs.length < n)
    (hc : ∀ c ∈ cs, Elem Lim c) (he : Elem Lim c) (t : Bytes) :
    getIdx (h ++ (cs.flatten ++ (c ++ t))) cs.length = .ok c := by
  have hl := skipLoop_chunks (rec := skip) cs h (c ++ t) (fun c hc' t => (hc c hc').skip t)
  simp only [getIdx, arrInfo_head H, Res.ok_bind, decide_eq_true hn, Res.require_true, hl]
  have e3 : h ++ (cs.flatten ++ (c ++ t)) = (h ++ cs.flatten) ++ (c ++ t) := by simp
  have e4 : h.length + cs.flatten.length = (h ++ cs.flatten).length := by simp
  rw [e3, e4, subspan_append]
  simp only [Res.ok_bind]
  rw [he.skip]
  simp only [Res.ok_bind, first_append]

theorem getKeyFrom_upto {k hk c : Bytes} (hkl : k.length < Lim) (H : StrHead k.length hk) (hc : Elem Lim c) (t : Bytes) :
    ∀ (ms : List (Bytes × Val)) (cs : List Bytes) (pre : Bytes) (n : Nat), Val.Below.belowEntries Lim ms → EncEntries ms cs →
    k ∉ ms.map Prod.fst → ms.length < n →
    getKeyFrom (pre ++ (cs.flatten ++ ((hk ++ k) ++ (c ++ t)))) k n pre.length = .ok c
  | [], cs, pre, n, _, he, _, hn => by
    simp only [EncEntries] at he
    subst he
    obtain ⟨n, rfl⟩ : ∃ m, n = m + 1 := ⟨n - 1, by omega⟩
    have E1 : Elem Lim (hk ++ k) := .str H hkl
    have e' : pre ++ ((hk ++ k) ++ (c ++ t)) = (pre ++ (hk ++ k)) ++ (c ++ t) := by simp
    have e'' : pre.length + (hk ++ k).length = (pre ++ (hk ++ k)).length := by simp
    show getKeyFrom (pre ++ ((hk ++ k) ++ (c ++ t))) k (n + 1) pre.length = _
    simp only [getKeyFrom, subspan_append, Res.ok_bind]
    rw [E1.skip]
    simp only [Res.ok_bind, first_append]
    rw [e', e'', subspan_append]
    simp only [Res.ok_bind]
    rw [hc.skip]
    simp only [Res.ok_bind, keyHit_str H, first_append, decide_true, if_true]
  | (a, x) :: ms, cs, pre, n, hb, he, hn', hn => by
    simp only [List.length_cons] at hn
    simp only [List.map_cons, List.mem_cons, not_or] at hn'
    obtain ⟨n, rfl⟩ : ∃ m, n = m + 1 := ⟨n - 1, by omega⟩
    simp only [EncEntries] at he
    simp only [Val.Below.belowEntries] at hb
    obtain ⟨hd, d, cs', Ha, hd', hcs, rfl⟩ := he
    have E1 : Elem Lim (hd ++ a) := .str Ha hb.1
    have E2 : Elem Lim d := Enc.elem x hb.2.1 hd'
    have e : ((hd ++ a) :: d :: cs').flatten ++ ((hk ++ k) ++ (c ++ t)) = (hd ++ a) ++ (d ++ (cs'.flatten ++ ((hk ++ k) ++ (c ++ t)))) := by simp
    have e' : pre ++ ((hd ++ a) ++ (d ++ (cs'.flatten ++ ((hk ++ k) ++ (c ++ t))))) =
        (pre ++ (hd ++ a)) ++ (d ++ (cs'.flatten ++ ((hk ++ k) ++ (c ++ t)))) := by simp
    have e'' : pre.length + (hd ++ a).length = (pre ++ (hd ++ a)).length := by simp
    have ih := getKeyFrom_upto hkl H hc t ms cs' (pre ++ (hd ++ a) ++ d) n hb.2.2 hcs hn'.2 (by omega)
    simp only [getKeyFrom, subspan_append, Res.ok_bind]
    rw [e, E1.skip]
    simp only [Res.ok_bind, first_append]
    rw [e', e'', subspan_append]
    simp only [Res.ok_bind]
    rw [E2.skip]
    simp only [Res.ok_bind, keyHit_str Ha, decide_eq_false (show ¬ a = k from fun e => hn'.1 e.symm), Bool.false_eq_true, if_false]
    rw [← ih]
    simp [Nat.add_assoc]

/-- C105 for MessagePack: a value can be read as soon as the element or entry of the root in which it is has arrived, whatever comes
behind. Missing: values of an element that has not arrived whole (`c105_msgpack_refuted`). -/
theorem c105_msgpack_partial {x : Val} (hx : x.Below (2 ^ 32 - 5)) {path : List Hop} {b : Bytes} (h : Here x path b) (t : Bytes) :
    ∃ q, reader.goto path (b ++ t) = .ok q ∧ reader.Agrees q x := by
  cases h with
  | here he => exact ⟨_, rfl, agrees_of_enc x _ t hx he⟩
  | @idx n h c ys y cs p H hn hb hc hy he hat =>
    obtain ⟨h1, h2⟩ := EncList.elem ys hb hc
    have hg := getIdx_upto H (h1 ▸ hn) h2 (Enc.elem y hy he) t
    have ha := agrees_of_enc y c [] hy he
    rw [List.append_nil] at ha
    obtain ⟨q, k1, k2⟩ := Reader.AgreesW.at p ha hat
    refine ⟨q, ?_, k2⟩
    show getIdx _ _ >>= _ = _
    rw [← h1, show h ++ (cs.flatten ++ c) ++ t = h ++ (cs.flatten ++ (c ++ t)) by simp, hg]
    exact k1
  | @key n h k hk c ms y cs p H hn hb hc hn' hkl Hk hy he hat =>
    have hg := getKeyFrom_upto hkl Hk (Enc.elem y hy he) t ms cs h n hb hc hn' hn
    have ha := agrees_of_enc y c [] hy he
    rw [List.append_nil] at ha
    obtain ⟨q, k1, k2⟩ := Reader.AgreesW.at p ha hat
    refine ⟨q, ?_, k2⟩
    have hm : isMap (h ++ (cs.flatten ++ ((hk ++ k) ++ (c ++ t)))) = true := by
      have := (shows_map H (cs.flatten ++ ((hk ++ k) ++ (c ++ t)))).2.2.2.2.2.2.1; injection this
    show getKey _ _ >>= _ = _
    rw [show h ++ (cs.flatten ++ (hk ++ k ++ c)) ++ t = h ++ (cs.flatten ++ ((hk ++ k) ++ (c ++ t))) by simp]
    simp only [getKey, hm, Res.require_true, Res.ok_bind, mapInfo_head H, hg]
    exact k1

theorem EncList.split : ∀ {xs : List Val} {cs : List Bytes} {i : Nat} (_ : EncList xs cs) (h : i < xs.length),
    ∃ l c r, cs = l ++ c :: r ∧ EncList (xs.take i) l ∧ Enc xs[i] c
  | x :: xs, cs, 0, he, _ => by
    simp only [EncList] at he
    obtain ⟨c, cs', hc, _, rfl⟩ := he
    exact ⟨[], c, cs', rfl, by simp [EncList], hc⟩
  | x :: xs, cs, i + 1, he, h => by
    simp only [EncList] at he
    obtain ⟨c, cs', hc, hcs, rfl⟩ := he
    obtain ⟨l, d, r, rfl, h1, h2⟩ := EncList.split hcs (show i < xs.length by simpa using h)
    exact ⟨c :: l, d, r, rfl, by simp only [List.take_succ_cons, EncList]; exact ⟨c, l, hc, h1, rfl⟩, h2⟩

theorem EncEntries.split {k : Bytes} {w : Val} {r : List (Bytes × Val)} : ∀ {l : List (Bytes × Val)} {cs : List Bytes},
    EncEntries (l ++ (k, w) :: r) cs →
    ∃ cl hk c cr, cs = cl ++ (hk ++ k) :: c :: cr ∧ EncEntries l cl ∧ StrHead k.length hk ∧ Enc w c
  | [], cs, he => by
    simp only [List.nil_append, EncEntries] at he
    obtain ⟨hk, c, cs', hk', hc, _, rfl⟩ := he
    exact ⟨[], hk, c, cs', rfl, by simp [EncEntries], hk', hc⟩
  | (a, x) :: l, cs, he => by
    simp only [List.cons_append, EncEntries] at he
    obtain ⟨ca, cx, cs', ha, hx, hcs, rfl⟩ := he
    obtain ⟨cl, ck, c, cr, rfl, h1, h2, h3⟩ := EncEntries.split hcs
    exact ⟨(ca ++ a) :: cx :: cl, ck, c, cr, rfl, by simp only [EncEntries]; exact ⟨ca, cx, cl, ha, hx, h1, rfl⟩, h2, h3⟩

theorem Enc.arrives {x : Val} (path : List Hop) {v : Val} {b : Bytes} (hv : v.Below (2 ^ 32 - 5)) (he : Enc v b) (hx : v.at path = some x) :
    ∃ b1 b2, b = b1 ++ b2 ∧ Here x path b1 := by
  match path with
  | [] =>
    simp only [Val.at] at hx
    injection hx with hx
    subst hx
    exact ⟨b, [], by simp, .here he⟩
  | .idx i :: path =>
    cases v <;> simp only [Val.at] at hx <;> try cases hx
    rename_i xs
    by_cases hi : i < xs.length
    · rw [dif_pos hi] at hx
      simp only [Enc] at he
      obtain ⟨h, cs, H, hc, rfl⟩ := he
      have hb := (Val.belowList_iff (L := Lim) xs).1 (by simpa only [Val.Below] using hv)
      obtain ⟨l, c, r, rfl, h1, h2⟩ := hc.split hi
      have e : (xs.take i).length = i := by rw [List.length_take]; omega
      refine ⟨h ++ (l.flatten ++ c), r.flatten, by simp, ?_⟩
      have := Here.idx (ys := xs.take i) (h := h) H (by rw [e]; exact hi)
        ((Val.belowList_iff _).2 (fun y hy => hb y (List.mem_of_mem_take hy))) h1 (hb _ (List.getElem_mem hi)) h2 hx
      rwa [e] at this
    · rw [dif_neg hi] at hx; cases hx
  | .key k :: path =>
    cases v <;> simp only [Val.at] at hx <;> try cases hx
    rename_i ms
    cases hw : firstVal ms k with
    | none => rw [hw] at hx; cases hx
    | some w =>
      rw [hw] at hx
      obtain ⟨l, r, rfl, hn⟩ := firstVal_split hw
      simp only [Enc] at he
      obtain ⟨h, cs, H, hc, rfl⟩ := he
      have hb := (Val.belowEntries_iff (L := Lim) _).1 (by simpa only [Val.Below] using hv)
      obtain ⟨cl, hk, c, cr, rfl, h1, h2, h3⟩ := hc.split
      have hkw := hb (k, w) (by simp)
      exact ⟨h ++ (cl.flatten ++ (hk ++ k ++ c)), cr.flatten, by simp, .key H (by simp)
        ((Val.belowEntries_iff _).2 (fun m hm => hb m (by simp [hm]))) h1 hn hkw.1 h2 hkw.2 h3 hx⟩

theorem below_at {x : Val} : ∀ (path : List Hop) {v : Val}, v.Below Lim → v.at path = some x → x.Below Lim
  | [], v, hv, hx => by simp only [Val.at] at hx; injection hx with hx; exact hx ▸ hv
  | .idx i :: path, v, hv, hx => by
    cases v <;> simp only [Val.at] at hx <;> try cases hx
    rename_i xs
    by_cases hi : i < xs.length
    · rw [dif_pos hi] at hx
      exact below_at path ((Val.belowList_iff (L := Lim) xs).1 (by simpa only [Val.Below] using hv) _ (List.getElem_mem hi)) hx
    · rw [dif_neg hi] at hx; cases hx
  | .key k :: path, v, hv, hx => by
    cases v <;> simp only [Val.at] at hx <;> try cases hx
    rename_i ms
    cases hw : firstVal ms k with
    | none => rw [hw] at hx; cases hx
    | some w =>
      rw [hw] at hx
      exact below_at path ((Val.belowEntries_iff (L := Lim) ms).1 (by simpa only [Val.Below] using hv) _ (firstVal_mem hw)).2 hx

/-- C105 for MessagePack: every value of every document has its point of arrival in every encoding, the end of the element or entry of
the root in which it is. -/
theorem c105_msgpack_arrives {v x : Val} {path : List Hop} {b : Bytes} (hv : v.Below (2 ^ 32 - 5)) (he : Enc v b)
    (hat : v.at path = some x) :
    ∃ b1 b2, b = b1 ++ b2 ∧ ∀ t, ∃ q, reader.goto path (b1 ++ t) = .ok q ∧ reader.Agrees q x := by
  obtain ⟨b1, b2, rfl, h⟩ := Enc.arrives path hv he hat
  exact ⟨b1, b2, rfl, c105_msgpack_partial (below_at path hv hat) h⟩

/-- `{"a": 1, "b": [tr`, then nothing: `a` is there. -/
example : Here (.uint 1) [.key [0x61]] [0x82, 0xa1, 0x61, 0x01] ∧
    ∃ q, reader.goto [.key [0x61]] ([0x82, 0xa1, 0x61, 0x01] ++ [0xa1, 0x62, 0x92]) = .ok q ∧ reader.Agrees q (.uint 1) := by
  have h : Here (.uint 1) [.key [0x61]] [0x82, 0xa1, 0x61, 0x01] :=
    Here.key (n := 2) (h := [0x82]) (k := [0x61]) (hk := [0xa1]) (c := [1]) (ms := []) (y := .uint 1) (cs := [])
      (.fix (by omega)) (by simp) (by simp [Val.Below.belowEntries]) (by simp [EncEntries]) (by simp) (by simp [Lim]) (.fix (by simp)) trivial
      (EncInt.posfix (z := 1) (by omega) (by omega)) rfl
  exact ⟨h, c105_msgpack_partial (by simp [Val.Below]) h _⟩

/-- C105 is false for MessagePack inside an element that has not arrived whole: `operator[]` passes over the element it returns. Of
`[[1, 2]]` all but the last byte is there, the 1 included, and `v[0]` raises. -/
theorem c105_msgpack_refuted : ∃ (v : Val) (b1 b2 : Bytes), v.Below (2 ^ 32 - 5) ∧ proto.serialize v = .ok (b1 ++ b2) ∧
    v.at [.idx 0, .idx 0] = some (.uint 1) ∧ b1 = [0x91, 0x92, 0x01] ∧ reader.goto [.idx 0, .idx 0] b1 = .err .deser := by
  refine ⟨.arr [.arr [.uint 1, .uint 2]], [0x91, 0x92, 0x01], [0x02], ?_, ?_, rfl, rfl, ?_⟩
  · simp [Val.Below, Val.Below.belowList]
  · rw [serialize_eq]; rfl
  · decide +kernel

end Zer.MsgPack

namespace Zer.Cbor

/-- `[[1, ` of an array of two arrays of two, the inner of indefinite length, then nothing: the 1 is there. -/
example : Here true (.uint 1) [.idx 0, .idx 0] [0x82, 0x9f, 0x01] ∧
    ∃ q, (readerI true true 9).goto [.idx 0, .idx 0] ⟨[0x82, 0x9f, 0x01] ++ [], 0⟩ = .ok q ∧ (readerI true true 9).Agrees q (.uint 1) := by
  have h : Here true (.uint 1) [.idx 0, .idx 0] [0x82, 0x9f, 0x01] :=
    Here.idx (h := [0x82]) (ys := []) (cs := []) (b := [0x9f, 0x01]) (.inl ⟨2, by simp, .imm (by omega)⟩) (by simp [EncList])
      (Here.idx (h := [0x9f]) (ys := []) (cs := []) (b := [0x01]) (.inr ⟨rfl, rfl⟩) (by simp [EncList])
        (.here (.inl ⟨by simp, .imm (by simp)⟩)))
  exact ⟨h, c105_cbor h (by simp [Val.Small, Val.Each]) (by simp) (fun _ => .inr trivial) (by simp)⟩

end Zer.Cbor

namespace Zer.Zera

/-- C105 is false for ZERA: the parts of a message are referred to from its first bytes, and a message whose envelope is not whole is
refused. Of `[1, 2]` all but the last byte is there, the 1 included. For every document: `c74_zera_refused`. -/
theorem c105_zera_refuted : ∃ (v : Val) (b1 b2 : Bytes), serialize v = .ok (b1 ++ b2) ∧ v.at [.idx 0] = some (.uint 1) ∧ b2.length = 1 ∧
    initFrom b1 = .err .deser := by
  refine ⟨.arr [.uint 1, .uint 2], (match serialize (.arr [.uint 1, .uint 2]) with | .ok b => b.dropLast | _ => []),
    (match serialize (.arr [.uint 1, .uint 2]) with | .ok b => b.drop (b.length - 1) | _ => []), ?_, rfl, ?_, ?_⟩ <;> decide +kernel

end Zer.Zera

namespace Zer.Json

/-- C105 is false for JSON: the text is read as a whole. Of `[1,2]` all but the bracket is there. -/
theorem c105_json_refuted (fmt : UInt64 → Bytes) : (∃ d, opn (std fmt) [0x5b, 0x31, 0x2c, 0x32, 0x5d] = .ok d) ∧
    opn (std fmt) [0x5b, 0x31, 0x2c, 0x32] = .err .deser := by
  have h1 : (readText [0x5b, 0x31, 0x2c, 0x32, 0x5d]).isSome = true := by decide +kernel
  have h2 : (readText [0x5b, 0x31, 0x2c, 0x32]).isNone = true := by decide +kernel
  obtain ⟨d, hd⟩ := Option.isSome_iff_exists.1 h1
  refine ⟨⟨d, ?_⟩, ?_⟩
  · simp only [opn, std, hd]
  · simp only [opn, std, Option.isNone_iff_eq_none.1 h2]

end Zer.Json

namespace Zer.Flex

/-- C105 is false for Flex: the root is found from the last bytes. Of `[1, 2]` all but the last byte is there, and what is taken for
the width of the root is the type of the array. -/
theorem c105_flex_refuted : ∃ (v : Val) (b1 b2 : Bytes), (proto std false).serialize v = .ok (b1 ++ b2) ∧
    v.at [.idx 0] = some (.uint 1) ∧ b2.length = 1 ∧ opn b1 = .ub := by
  refine ⟨.arr [.uint 1, .uint 2], [2, 1, 2, 8, 8, 4, 40], [1], by decide +kernel, rfl, rfl, by decide +kernel⟩

end Zer.Flex

namespace Zer.Zera

section
variable {st : Prop} {env arena arena' : Bytes} {v : View} {q : Nat}

theorem members_find (H : Holds v env arena') (key : Bytes) : ∀ (ms : List (Bytes × Val)) (o : Nat) {w : Val},
    Members st env arena o ms → firstVal ms key = some w →
    ∃ o', Ref st env arena o' w ∧ v.getKeyFrom key ms.length o = .ok { v with vr := some (HeaderSize + o') }
  | [], o, w, _, hw => by simp [firstVal] at hw
  | (k, x) :: ms, o, w, .cons h1 h2 h3 h4 h5 h6, hw => by
    have hb := h5.bound
    have hk : k.length < 2 ^ 16 := h1.1
    have hlt := H.envLt
    rw [← H.envSize] at hlt hb
    have r1 := (h1.trans H.envAt).readU16
    have r2 := (h2.trans H.envAt).readU16
    have r3 := (H.envAt.trans h4).sliceAt
    rw [← Nat.add_assoc] at r2
    have e1 : u32 o = o := by simp [u32]; omega
    have e2 : u32 (o + 4) = o + 4 := by simp [u32]; omega
    have e0 : o + (4 + k.length + 16) = o + 4 + k.length + 16 := by omega
    have e3 : u32 (o + 4 + k.length + 16) = o + 4 + k.length + 16 := by simp [u32]; omega
    have e4 : u32 (o + 4 + k.length) = o + 4 + k.length := by simp [u32]; omega
    have step : v.getKeyFrom key ((k, x) :: ms).length o =
        if k = key then .ok { v with vr := some (HeaderSize + (o + 4 + k.length)) }
        else v.getKeyFrom key ms.length (o + 4 + k.length + 16) := by
      simp only [List.length_cons, View.getKeyFrom, View.keyHit, e0, e1, e2, e3, e4, r1, r2, Res.ok_bind,
        envPtrAt_ok (ofs := o) (need := 4) (v := v) (by omega),
        envPtrAt_ok (ofs := o + 4) (need := k.length) (v := v) (by omega),
        envPtrAt_ok (ofs := o + 4 + k.length) (need := 16) (v := v) (by omega),
        envPtrAt_ok (ofs := o + 4 + k.length + 16) (need := 0) (v := v) (by omega)]
      by_cases hkey : k = key
      · subst hkey; simp [r3]
      · by_cases hlen : k.length = key.length
        · rw [if_pos hlen, ← hlen, r3]; simp [hkey]
        · rw [if_neg hlen]; simp [hkey]
    by_cases hkey : k = key
    · subst hkey
      simp only [firstVal, if_true] at hw
      injection hw with hw
      subst hw
      exact ⟨o + 4 + k.length, h5, by rw [step, if_pos rfl]⟩
    · simp only [firstVal, if_neg hkey] at hw
      rw [step, if_neg hkey]
      exact members_find H key ms _ h6 hw

/-- Lookups look at the envelope only, whatever is in the arena. -/
theorem Ref.goto : ∀ (path : List Hop) {x y : Val} {v : View} {q : Nat}, Seen v env arena' q → Ref st env arena q y → y.at path = some x →
    ∃ o, Ref st env arena o x ∧ reader.goto path v = .ok { v with vr := some (HeaderSize + o) }
  | [], x, y, v, q, S, hr, hx => by
    simp only [Val.at] at hx
    injection hx with hx
    subst hx
    refine ⟨q, hr, ?_⟩
    have := S.at_
    cases v
    simp only at this
    subst this
    rfl
  | .idx i :: path, x, y, v, q, S, hr, hx => by
    cases y <;> simp only [Val.at] at hx <;> try cases hx
    rename_i xs
    by_cases hi : i < xs.length
    · rw [dif_pos hi] at hx
      cases hr with
      | @arr _ _ a b c _ h hn he _ =>
        have hlt := S.holds.envLt
        have hbd := he.bound hn.bound
        rw [← S.holds.envSize] at hlt hbd
        have hcnt := (hn.trans S.holds.envAt).readU32
        have e1 : v.envPtrAt a 4 = .ok (HeaderSize + a) := envPtrAt_ok (by omega)
        have e3 : u32 (a + 4 + 16 * i) = a + 4 + 16 * i := by simp [u32]; omega
        have hidx : v.getIdx i = .ok { v with vr := some (HeaderSize + (a + 4 + 16 * i)) } := by
          simp only [View.getIdx, sees_tag S h, sees_flagsOk S h rfl, sees_a S h, Res.ok_bind, e1, hcnt]
          simp [hi, e3, envPtrAt_ok (ofs := a + 4 + 16 * i) (need := 16) (v := v) (by omega), tArray]
        obtain ⟨o, h1, h2⟩ := Ref.goto path S.moved (he.get i hi) hx
        refine ⟨o, h1, ?_⟩
        show v.getIdx i >>= _ = _
        rw [hidx]
        exact h2
    · rw [dif_neg hi] at hx; cases hx
  | .key k :: path, x, y, v, q, S, hr, hx => by
    cases y <;> simp only [Val.at] at hx <;> try cases hx
    rename_i ms
    cases hw : firstVal ms k with
    | none => rw [hw] at hx; cases hx
    | some w =>
      rw [hw] at hx
      cases hr with
      | @obj _ _ a b c _ h hn he _ =>
        have hlt := S.holds.envLt
        have hbd := hn.bound
        rw [← S.holds.envSize] at hlt hbd
        have hcnt := (hn.trans S.holds.envAt).readU32
        have e1 : v.envPtrAt a 4 = .ok (HeaderSize + a) := envPtrAt_ok (by omega)
        have e3 : u32 (a + 4) = a + 4 := by simp [u32]; omega
        obtain ⟨o', k1, k2⟩ := members_find S.holds k ms _ he hw
        have hgk : v.getKey k = .ok { v with vr := some (HeaderSize + o') } := by
          simp only [View.getKey, sees_tag S h, sees_flagsOk S h rfl, sees_a S h, Res.ok_bind, e1, hcnt, e3]
          exact k2
        obtain ⟨o, h1, h2⟩ := Ref.goto path S.moved k1 hx
        refine ⟨o, h1, ?_⟩
        show v.getKey k >>= _ = _
        rw [hgk]
        exact h2

/-- No strings and no blobs, but for keys. -/
def _root_.Zer.Val.Bare (v : Val) : Prop := v.Each (fun x => (∀ s, x ≠ .str s) ∧ (∀ s, x ≠ .blob s)) (fun _ => True)

theorem elems_arena : ∀ {vs : List Val} {p : Nat}, (∀ x ∈ vs, ∀ q, Ref st env arena q x → Ref st env arena' q x) →
    Elems st env arena p vs → Elems st env arena' p vs
  | [], _, _, _ => .nil
  | x :: vs, p, h, .cons h1 h2 => .cons (h x (by simp) _ h1) (elems_arena (fun y hy => h y (by simp [hy])) h2)

theorem members_arena : ∀ {ms : List (Bytes × Val)} {p : Nat}, (∀ m ∈ ms, ∀ q, Ref st env arena q m.2 → Ref st env arena' q m.2) →
    Members st env arena p ms → Members st env arena' p ms
  | [], _, _, _ => .nil
  | (k, x) :: ms, p, h, .cons h1 h2 h3 h4 h5 h6 =>
    .cons h1 h2 h3 h4 (h (k, x) (by simp) _ h5) (members_arena (fun m hm => h m (by simp [hm])) h6)

theorem Ref.bare : ∀ (x : Val), x.Bare → ∀ (q : Nat), Ref st env arena q x → Ref st env arena' q x := by
  intro x
  induction x using Val.ind with
  | null => intro _ q h; cases h with | null h1 h2 => exact .null h1 h2
  | bool b => intro _ q h; cases h with | bool h1 h2 => exact .bool h1 h2
  | int i => intro _ q h; cases h with | int h1 h2 h3 => exact .int h1 h2 h3
  | uint n => intro _ q h; cases h with | uint h1 h2 h3 => exact .uint h1 h2 h3
  | dbl d => intro _ q h; cases h with | dbl h1 h2 h3 => exact .dbl h1 h2 h3
  | str s => intro h; exact absurd rfl (h.1 s)
  | blob s => intro h; exact absurd rfl (h.2 s)
  | arr xs ih =>
    intro hb q h
    have hb' := (Val.eachList_iff xs).1 (show Val.eachList _ _ xs from hb.2)
    cases h with
    | arr h1 h2 h3 h4 => exact .arr h1 h2 (elems_arena (fun x hx q => ih x hx (hb' x hx) q) h3) h4
  | map ms ih =>
    intro hb q h
    have hb' := (Val.eachEntries_iff ms).1 (show Val.eachEntries _ _ ms from hb.2)
    cases h with
    | obj h1 h2 h3 h4 => exact .obj h1 h2 (members_arena (fun m hm q => ih m hm (hb' m hm).2 q) h3) h4

end

theorem num_take {b b' : Bytes} {n p k x : Nat} (h : Num b p k x) (ht : b'.take n = b.take n) (hn : p + k ≤ n) : Num b' p k x := by
  refine ⟨h.1, ?_⟩
  have h1 : At (b.take n) p (num k x) := by
    have e : b = b.take n ++ b.drop n := (List.take_append_drop n b).symm
    have hb := h.bound
    refine at_part (b := b) (o := 0) ⟨[], b.drop n, by simp, rfl⟩ (by simpa using h.2) ?_
    rw [num_length, List.length_take]; omega
  rw [← ht] at h1
  have := h1.append_right (b'.drop n)
  rwa [List.take_append_drop] at this

/-- C105 for ZERA: as soon as the envelope is there, every path can be followed, whatever is behind it, and every value without strings
and blobs can be read; strings and blobs can be as soon as their bytes in the arena are there too (`Ref` with the arena that has arrived).
Missing: before that, nothing can be read (`c105_zera_refuted`). -/
theorem c105_zera_partial {st : Prop} {b b' : Bytes} {v x : Val} {root es ao : Nat} (M : Message st b v root es ao) {path : List Hop}
    (hx : v.at path = some x) (ht : b'.take ao = b.take ao) (hl : ao ≤ b'.length) :
    ∃ r q o, initFrom b' = .ok r ∧ reader.goto path r = .ok q ∧ Ref st ((b.drop 20).take es) (b.drop ao) o x ∧
      (Ref st ((b.drop 20).take es) (b'.drop ao) o x → reader.AgreesStrictly q x) ∧
      (x.Bare → reader.AgreesStrictly q x) := by
  have hb := M.value.bound
  have hin := M.inside
  have hap := M.apart
  have hao : ao < 2 ^ 32 := M.hdrArena.1
  have henv : (b'.drop 20).take es = (b.drop 20).take es := by
    have e : ∀ c : Bytes, (c.drop 20).take es = ((c.take ao).drop 20).take es := by
      intro c
      rw [List.drop_take, List.take_take, Nat.min_eq_left (by omega)]
    rw [e b', e b, ht]
  have hlen : ((b'.drop 20).take es).length = es := by
    rw [List.length_take, List.length_drop]; omega
  rw [← henv, hlen] at hb
  have e : u32 (20 + es) = 20 + es := by simp [u32]; omega
  have e2 : u64 (es + 18446744073709551600) = es - 16 := by simp only [u64]; omega
  have hopen : initFrom b' = .ok ⟨b', es, ao, some (HeaderSize + root)⟩ := by
    simp only [initFrom, parseHeader, (num_take M.magic ht (by omega)).readU32, (num_take M.version ht (by omega)).readU16,
      (num_take M.flags ht (by omega)).readU16, (num_take M.hdrRoot ht (by omega)).readU32, (num_take M.hdrEnv ht (by omega)).readU32,
      (num_take M.hdrArena ht (by omega)).readU32, Res.ok_bind, Res.pure_eq]
    simp [HeaderSize, e, e2, show 20 ≤ b'.length by omega, hap, hl, M.aligned, Magic, Version, ArenaBaseAlign, show es ≤ b'.length by omega,
      show root < es by omega, show root ≤ es - 16 by omega]
  have S : Seen ⟨b', es, ao, some (HeaderSize + root)⟩ ((b.drop 20).take es) (b'.drop ao) root :=
    ⟨⟨henv ▸ at_take (show 20 ≤ b'.length by omega), at_drop hl, by rw [← henv]; exact hlen.symm, by simp [View.arenaLen],
      by rw [← henv]; omega, M.aligned⟩, rfl⟩
  obtain ⟨o, h1, h2⟩ := Ref.goto path S M.value hx
  exact ⟨_, _, o, hopen, h2, h1, fun h => Ref.agrees x S.moved h, fun h => Ref.agrees x S.moved (Ref.bare x h o h1)⟩

/-- C105 for ZERA: in every message there is such a point, behind the envelope. -/
theorem c105_zera_arrives {thr : Nat} {v : Val} {b : Bytes} (h : serializeEvs thr (emit v) = .ok b) :
    ∃ b1 b2, b = b1 ++ b2 ∧ ∀ (path : List Hop) (x : Val), v.at path = some x → ∀ t, ∃ r q, initFrom (b1 ++ t) = .ok r ∧
      reader.goto path r = .ok q ∧ (x.Bare → reader.AgreesStrictly q x) := by
  obtain ⟨root, es, ao, M⟩ := c91_zera_serialize h
  refine ⟨b.take ao, b.drop ao, (List.take_append_drop ao b).symm, fun path x hx t => ?_⟩
  have hin := M.inside
  have e : (b.take ao).length = ao := by rw [List.length_take]; omega
  obtain ⟨r, q, o, h1, h2, -, -, h3⟩ := c105_zera_partial M (b' := b.take ao ++ t) hx
    (by rw [List.take_append_of_le_length (by omega), List.take_take, Nat.min_self]) (by rw [List.length_append]; omega)
  exact ⟨r, q, h1, h2, h3⟩

/-- A map with a long text and a number behind it: the number can be read before the text is there. -/
example : ∃ b, serializeEvs 12 (emit (.map [([0x61], .str (List.replicate 20 0x78)), ([0x62], .uint 7)])) = .ok b ∧
    (Val.map [([0x61], .str (List.replicate 20 0x78)), ([0x62], .uint 7)]).at [.key [0x62]] = some (.uint 7) ∧ (Val.uint 7).Bare := by
  have h : (match serializeEvs 12 (emit (.map [([0x61], .str (List.replicate 20 0x78)), ([0x62], .uint 7)])) with | .ok _ => true | _ => false) = true := by
    decide +kernel
  cases e : serializeEvs 12 (emit (.map [([0x61], .str (List.replicate 20 0x78)), ([0x62], .uint 7)])) with
  | ok b => exact ⟨b, rfl, rfl, by simp [Val.Bare, Val.Each]⟩
  | _ => rw [e] at h; cases h

end Zer.Zera
