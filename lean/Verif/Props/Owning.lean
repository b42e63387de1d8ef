import Verif.Props.Dyn

/-!
# Property C112: a dynamic value owns what it holds

`dyn::Value` (dynamic.hpp:105-172) is made from strings, views and pointers (lines 111-141), kept, and serialized later, when the buffers that the
views and pointers went to may be gone or hold something else. `Heap` is what the buffers hold at a time. A `Serializable` (lines 71-91) holds a
copy of the object it is made from, and serializes that; the object may itself be a view.
-/

namespace Zer.Dyn

/-- What the buffers of the program hold; `none`: not alive. -/
abbrev Heap := Nat → Option Bytes

/-- A pointer with what can be read from it on: a buffer and a place in it. -/
structure Place where
  buf : Nat
  off : Nat

/-- The memory from a place to the end of its buffer. A place behind the end is not one. -/
def Heap.from (H : Heap) (p : Place) : Option Bytes :=
  match H p.buf with
  | some b => if p.off ≤ b.length then some (b.drop p.off) else none
  | none => none

/-- Reading `n` bytes. -/
def Heap.read (H : Heap) (p : Place) (n : Nat) : Res Bytes :=
  match H.from p with
  | some m => if n ≤ m.length then .ok (m.take n) else .ub
  | none => .ub

/-- Reading up to the first NUL. -/
def Heap.cstr (H : Heap) (p : Place) : Res Bytes := strlen (H.from p)

/-- Objects that a `Serializable` is made from: those that hold their data, views (`std::string_view`, `std::span<const std::byte>`), pointers, and
`std::vector`s of such objects. -/
inductive Obj where
  | owner (x : Src)
  | view (p : Place) (n : Nat)
  | span (p : Place) (n : Nat)
  | cstr (p : Place)
  | vec (xs : List Obj)

/-- Arguments from which a `Value` is made, dynamic.hpp:111-141, 174-187. -/
inductive Arg where
  | null
  | bool (b : Bool)
  | sint (w : Nat) (x : BitVec w)
  | uint (w : Nat) (x : BitVec w)
  | flt (bits : UInt32)
  | dbl (bits : UInt64)
  | str (s : Bytes)
  | view (p : Place) (n : Nat)
  | cstr (p : Place)
  | blob (s : Bytes)
  | span (p : Place) (n : Nat)
  | arr (xs : List Arg)
  | map (ms : List (Bytes × Arg))
  | ser (o : Obj)

/-- What the `Value` keeps: the alternatives of its variant, dynamic.hpp:158-169. -/
inductive Kept where
  | null
  | bool (b : Bool)
  | int (i : Int64)
  | uint (n : UInt64)
  | dbl (bits : UInt64)
  | str (s : Bytes)
  | blob (s : Bytes)
  | arr (xs : List Kept)
  | map (ms : List (Bytes × Kept))
  | ser (o : Obj)

mutual
/-- The constructors, dynamic.hpp:111-141: strings, views and spans are copied (`std::string(sv)`, `std::string(s)`,
`std::vector<std::byte>(blob.begin(), blob.end())`); a `Serializable` copies the object (`std::make_shared<V>`, line 78). -/
def Arg.make (H : Heap) : Arg → Res Kept
  | .null => .ok .null
  | .bool b => .ok (.bool b)
  | .sint _ x => .ok (.int (toI64 x))
  | .uint _ x => .ok (.uint (toU64 x))
  | .flt x => .ok (.dbl (toF64 x))
  | .dbl x => .ok (.dbl x)
  | .str s => .ok (.str s)
  | .view p n => Kept.str <$> H.read p n
  | .cstr p => Kept.str <$> H.cstr p
  | .blob s => .ok (.blob s)
  | .span p n => Kept.blob <$> H.read p n
  | .arr xs => Kept.arr <$> Arg.makeList H xs
  | .map ms => Kept.map <$> Arg.makeEntries H ms
  | .ser o => .ok (.ser o)
def Arg.makeList (H : Heap) : List Arg → Res (List Kept)
  | [] => .ok []
  | x :: xs => do
    let y ← x.make H
    let ys ← Arg.makeList H xs
    pure (y :: ys)
def Arg.makeEntries (H : Heap) : List (Bytes × Arg) → Res (List (Bytes × Kept))
  | [] => .ok []
  | (k, x) :: ms => do
    let y ← x.make H
    let ys ← Arg.makeEntries H ms
    pure ((k, y) :: ys)
end

mutual
/-- What `serialize(*ptr, wv)` finds when it is called (dynamic.hpp:79-82, with the overloads of serializers.hpp:47-53, 66-74). -/
def Obj.now (H : Heap) : Obj → Res Src
  | .owner x => .ok x
  | .view p n => Src.str <$> H.read p n
  | .span p n => Src.blob <$> H.read p n
  | .cstr p => Src.str <$> H.cstr p
  | .vec xs => Src.seq .vector <$> Obj.nowList H xs
def Obj.nowList (H : Heap) : List Obj → Res (List Src)
  | [] => .ok []
  | x :: xs => do
    let y ← x.now H
    let ys ← Obj.nowList H xs
    pure (y :: ys)
end

mutual
/-- What `dyn::serialize` (dynamic.hpp:192-230) finds in the value when it is called. -/
def Kept.now (H : Heap) : Kept → Res DVal
  | .null => .ok .null
  | .bool b => .ok (.bool b)
  | .int i => .ok (.int i)
  | .uint n => .ok (.uint n)
  | .dbl x => .ok (.dbl x)
  | .str s => .ok (.str s)
  | .blob s => .ok (.blob s)
  | .arr xs => DVal.arr <$> Kept.nowList H xs
  | .map ms => DVal.map <$> Kept.nowEntries H ms
  | .ser o => DVal.ser <$> o.now H
def Kept.nowList (H : Heap) : List Kept → Res (List DVal)
  | [] => .ok []
  | x :: xs => do
    let y ← x.now H
    let ys ← Kept.nowList H xs
    pure (y :: ys)
def Kept.nowEntries (H : Heap) : List (Bytes × Kept) → Res (List (Bytes × DVal))
  | [] => .ok []
  | (k, x) :: ms => do
    let y ← x.now H
    let ys ← Kept.nowEntries H ms
    pure ((k, y) :: ys)
end

/-- `serialize<P>(value)` at a time. -/
def Kept.serialize (P : Proto) (H : Heap) (k : Kept) : Res Bytes := k.now H >>= fun d => Dyn.serialize P (.dyn d)

mutual
/-- The objects hold their data. -/
def Obj.Owns : Obj → Prop
  | .owner x => x.Ok
  | .vec xs => Obj.ownsList xs
  | _ => False
def Obj.ownsList : List Obj → Prop
  | [] => True
  | x :: xs => x.Owns ∧ Obj.ownsList xs
end

mutual
/-- Every `Serializable` in the value is made from an object that holds its data; views and pointers may be given everywhere else. -/
def Arg.Owns : Arg → Prop
  | .arr xs => Arg.ownsList xs
  | .map ms => Arg.ownsEntries ms
  | .ser o => o.Owns
  | _ => True
def Arg.ownsList : List Arg → Prop
  | [] => True
  | x :: xs => x.Owns ∧ Arg.ownsList xs
def Arg.ownsEntries : List (Bytes × Arg) → Prop
  | [] => True
  | (_, x) :: ms => x.Owns ∧ Arg.ownsEntries ms
end

mutual
/-- The value that an object holds, for objects that hold their data. -/
def Obj.val : Obj → Val
  | .owner x => x.val
  | .vec xs => .arr (Obj.valList xs)
  | _ => .null
def Obj.valList : List Obj → List Val
  | [] => []
  | x :: xs => x.val :: Obj.valList xs
end

/-- The text behind a place when the value is made, if there is one. -/
def Heap.text (H : Heap) (p : Place) (n : Nat) : Bytes := (((H p.buf).getD []).drop p.off).take n

mutual
/-- The value that the arguments describe when the dynamic value is made. -/
def Arg.val (H : Heap) : Arg → Val
  | .null => .null
  | .bool b => .bool b
  | .sint _ x => .int (Int64.ofInt x.toInt)
  | .uint _ x => .uint (UInt64.ofNat x.toNat)
  | .flt x => .dbl (UInt64.ofNat (widen32 x.toNat))
  | .dbl x => .dbl x
  | .str s => .str s
  | .view p n => .str (H.text p n)
  | .cstr p => .str ((((H p.buf).getD []).drop p.off).takeWhile (· ≠ 0))
  | .blob s => .blob s
  | .span p n => .blob (H.text p n)
  | .arr xs => .arr (Arg.valList H xs)
  | .map ms => .map (Arg.valEntries H ms)
  | .ser o => o.val
def Arg.valList (H : Heap) : List Arg → List Val
  | [] => []
  | x :: xs => x.val H :: Arg.valList H xs
def Arg.valEntries (H : Heap) : List (Bytes × Arg) → List (Bytes × Val)
  | [] => []
  | (k, x) :: ms => (k, x.val H) :: Arg.valEntries H ms
end

theorem Heap.read_ok {H : Heap} {p : Place} {n : Nat} {s : Bytes} (h : H.read p n = .ok s) : s = H.text p n := by
  unfold Heap.read Heap.from at h
  unfold Heap.text
  cases hb : H p.buf with
  | none => rw [hb] at h; cases h
  | some b =>
    rw [hb] at h
    simp only at h
    by_cases ho : p.off ≤ b.length
    · rw [if_pos ho] at h
      simp only at h
      by_cases hn : n ≤ (b.drop p.off).length
      · rw [if_pos hn] at h; exact (Res.ok.inj h).symm
      · rw [if_neg hn] at h; cases h
    · rw [if_neg ho] at h; cases h

theorem Heap.cstr_ok {H : Heap} {p : Place} {s : Bytes} (h : H.cstr p = .ok s) :
    s = (((H p.buf).getD []).drop p.off).takeWhile (· ≠ 0) := by
  unfold Heap.cstr Heap.from at h
  cases hb : H p.buf with
  | none => rw [hb] at h; cases h
  | some b =>
    rw [hb] at h
    simp only at h
    by_cases ho : p.off ≤ b.length
    · rw [if_pos ho] at h
      simp only [strlen] at h
      split at h
      · exact (Res.ok.inj h).symm
      · cases h
    · rw [if_neg ho] at h; cases h

theorem Res.map_ok_iff {α β : Type} {f : α → β} {x : Res α} {b : β} : f <$> x = .ok b ↔ ∃ a, x = .ok a ∧ f a = b := by
  cases x with
  | ok a => exact ⟨fun h => ⟨a, rfl, Res.ok.inj h⟩, fun ⟨a', h, e⟩ => by cases h; rw [← e]; rfl⟩
  | _ => exact ⟨fun h => (by cases h), fun ⟨_, h, _⟩ => (by cases h)⟩

mutual
theorem Obj.now_owns (H : Heap) : ∀ (o : Obj), o.Owns → ∃ x, o.now H = .ok x ∧ x.Ok ∧ x.val = o.val
  | .owner x, h => ⟨x, rfl, h, rfl⟩
  | .vec xs, h => by
    obtain ⟨ys, h1, h2, h3⟩ := Obj.nowList_owns H xs h
    exact ⟨.seq .vector ys, by simp only [Obj.now, h1]; rfl, h2, by simp only [Src.val, Obj.val, h3]⟩
  | .view _ _, h => h.elim
  | .span _ _, h => h.elim
  | .cstr _, h => h.elim
theorem Obj.nowList_owns (H : Heap) : ∀ (xs : List Obj), Obj.ownsList xs →
    ∃ ys, Obj.nowList H xs = .ok ys ∧ Src.okList ys ∧ Src.valList ys = Obj.valList xs
  | [], _ => ⟨[], rfl, trivial, rfl⟩
  | x :: xs, h => by
    obtain ⟨y, h1, h2, h3⟩ := Obj.now_owns H x h.1
    obtain ⟨ys, k1, k2, k3⟩ := Obj.nowList_owns H xs h.2
    exact ⟨y :: ys, by simp only [Obj.nowList, h1, k1, Res.ok_bind, Res.pure_eq], ⟨h2, k2⟩, by simp only [Src.valList, Obj.valList, h3, k3]⟩
end

mutual
theorem Arg.now_make (H : Heap) : ∀ (a : Arg), a.Owns → ∀ {k : Kept}, a.make H = .ok k →
    ∀ H', ∃ d, k.now H' = .ok d ∧ d.Ok ∧ d.val = a.val H
  | .null, _, k, h, H' => by cases h; exact ⟨.null, rfl, trivial, rfl⟩
  | .bool b, _, k, h, H' => by cases h; exact ⟨.bool b, rfl, trivial, rfl⟩
  | .sint w x, _, k, h, H' => by cases h; exact ⟨.int (toI64 x), rfl, trivial, rfl⟩
  | .uint w x, _, k, h, H' => by cases h; exact ⟨.uint (toU64 x), rfl, trivial, rfl⟩
  | .flt x, _, k, h, H' => by cases h; exact ⟨.dbl (toF64 x), rfl, trivial, rfl⟩
  | .dbl x, _, k, h, H' => by cases h; exact ⟨.dbl x, rfl, trivial, rfl⟩
  | .str s, _, k, h, H' => by cases h; exact ⟨.str s, rfl, trivial, rfl⟩
  | .blob s, _, k, h, H' => by cases h; exact ⟨.blob s, rfl, trivial, rfl⟩
  | .view p n, _, k, h, H' => by
    obtain ⟨s, h1, rfl⟩ := Res.map_ok_iff.1 h
    exact ⟨.str s, rfl, trivial, by rw [Heap.read_ok h1]; rfl⟩
  | .cstr p, _, k, h, H' => by
    obtain ⟨s, h1, rfl⟩ := Res.map_ok_iff.1 h
    exact ⟨.str s, rfl, trivial, by rw [Heap.cstr_ok h1]; rfl⟩
  | .span p n, _, k, h, H' => by
    obtain ⟨s, h1, rfl⟩ := Res.map_ok_iff.1 h
    exact ⟨.blob s, rfl, trivial, by rw [Heap.read_ok h1]; rfl⟩
  | .arr xs, ho, k, h, H' => by
    obtain ⟨ks, h1, rfl⟩ := Res.map_ok_iff.1 h
    obtain ⟨ds, k1, k2, k3⟩ := Arg.now_makeList H xs ho h1 H'
    exact ⟨.arr ds, by simp only [Kept.now, k1]; rfl, k2, by simp only [DVal.val, Arg.val, k3]⟩
  | .map ms, ho, k, h, H' => by
    obtain ⟨ks, h1, rfl⟩ := Res.map_ok_iff.1 h
    obtain ⟨ds, k1, k2, k3⟩ := Arg.now_makeEntries H ms ho h1 H'
    exact ⟨.map ds, by simp only [Kept.now, k1]; rfl, k2, by simp only [DVal.val, Arg.val, k3]⟩
  | .ser o, ho, k, h, H' => by
    cases h
    obtain ⟨x, h1, h2, h3⟩ := Obj.now_owns H' o ho
    exact ⟨.ser x, by simp only [Kept.now, h1]; rfl, h2, h3⟩
theorem Arg.now_makeList (H : Heap) : ∀ (xs : List Arg), Arg.ownsList xs → ∀ {ks : List Kept}, Arg.makeList H xs = .ok ks →
    ∀ H', ∃ ds, Kept.nowList H' ks = .ok ds ∧ DVal.okList ds ∧ DVal.valList ds = Arg.valList H xs
  | [], _, ks, h, H' => by cases h; exact ⟨[], rfl, trivial, rfl⟩
  | x :: xs, ho, ks, h, H' => by
    simp only [Arg.makeList] at h
    obtain ⟨y, h1, h⟩ := Res.bind_eq_ok.1 h
    obtain ⟨ys, h2, h⟩ := Res.bind_eq_ok.1 h
    cases h
    obtain ⟨d, j1, j2, j3⟩ := Arg.now_make H x ho.1 h1 H'
    obtain ⟨ds, k1, k2, k3⟩ := Arg.now_makeList H xs ho.2 h2 H'
    exact ⟨d :: ds, by simp only [Kept.nowList, j1, k1, Res.ok_bind, Res.pure_eq], ⟨j2, k2⟩, by simp only [DVal.valList, Arg.valList, j3, k3]⟩
theorem Arg.now_makeEntries (H : Heap) : ∀ (ms : List (Bytes × Arg)), Arg.ownsEntries ms → ∀ {ks : List (Bytes × Kept)},
    Arg.makeEntries H ms = .ok ks →
    ∀ H', ∃ ds, Kept.nowEntries H' ks = .ok ds ∧ DVal.okEntries ds ∧ DVal.valEntries ds = Arg.valEntries H ms
  | [], _, ks, h, H' => by cases h; exact ⟨[], rfl, trivial, rfl⟩
  | (k, x) :: ms, ho, ks, h, H' => by
    simp only [Arg.makeEntries] at h
    obtain ⟨y, h1, h⟩ := Res.bind_eq_ok.1 h
    obtain ⟨ys, h2, h⟩ := Res.bind_eq_ok.1 h
    cases h
    obtain ⟨d, j1, j2, j3⟩ := Arg.now_make H x ho.1 h1 H'
    obtain ⟨ds, k1, k2, k3⟩ := Arg.now_makeEntries H ms ho.2 h2 H'
    exact ⟨(k, d) :: ds, by simp only [Kept.nowEntries, j1, k1, Res.ok_bind, Res.pure_eq], ⟨j2, k2⟩,
      by simp only [DVal.valEntries, Arg.valEntries, j3, k3]⟩
end

/-- C112: a dynamic value that was made at one time is serialized at any later time, whatever has become of the buffers it was made from, to the bytes of
the value that it was made from, in every format. Missing: `Serializable`s that are made from views and pointers (`c112_view_refuted`). -/
theorem c112_owns_partial (P : Proto) {H : Heap} {a : Arg} (ha : a.Owns) {k : Kept} (hk : a.make H = .ok k) (H' : Heap) :
    k.serialize P H' = P.serialize (a.val H) := by
  obtain ⟨d, h1, h2, h3⟩ := Arg.now_make H a ha hk H'
  have hx : (Src.dyn d).Ok := h2
  rw [Kept.serialize, h1, Res.ok_bind, (c36_same_bytes P hx hx rfl).2]
  simp only [Src.val, h3]

/-- C112, an instance: `dyn::map({{"k", dyn::array({sv, dyn::serializable(std::vector<std::string>{"z"})})}})` with a view of two bytes of a buffer that
is then freed. -/
example : ∃ k, (Arg.map [([107], .arr [.view ⟨0, 1⟩ 2, .ser (.vec [.owner (.str [122])])])]).make
      (fun i => if i = 0 then some [1, 97, 98, 2] else none) = .ok k ∧
    k.serialize Zera.proto (fun _ => none) = Zera.proto.serialize (.map [([107], .arr [.str [97, 98], .arr [.str [122]]])]) := by
  refine ⟨_, rfl, ?_⟩
  exact c112_owns_partial Zera.proto (H := fun i => if i = 0 then some [1, 97, 98, 2] else none)
    (a := .map [([107], .arr [.view ⟨0, 1⟩ 2, .ser (.vec [.owner (.str [122])])])]) (by simp [Arg.Owns, Arg.ownsEntries, Arg.ownsList, Obj.Owns,
      Obj.ownsList, Src.Ok]) rfl _

/-- C112 is false for `dyn::serializable(sv)` of a `std::string_view`, although `dyn::Value(sv)` copies the text: after the buffer has changed other
bytes are written, and after it is gone it is read all the same. -/
theorem c112_view_refuted (P : Proto) : ∃ (H H1 H2 : Heap) (a : Arg) (k : Kept), a.make H = .ok k ∧ k.serialize P H = P.serialize (.str [97]) ∧
    k.serialize P H1 = P.serialize (.str [98]) ∧ k.serialize P H2 = .ub ∧
    ∃ k', (Arg.view ⟨0, 0⟩ 1).make H = .ok k' ∧ ∀ H', k'.serialize P H' = P.serialize (.str [97]) := by
  refine ⟨fun _ => some [97], fun _ => some [98], fun _ => none, .ser (.view ⟨0, 0⟩ 1), _, rfl, ?_, ?_, rfl, _, rfl,
    fun H' => c112_owns_partial P (H := fun _ => some [97]) (a := .view ⟨0, 0⟩ 1) trivial rfl H'⟩
  · exact (c36_same_bytes P (x := .dyn (.ser (.str [97]))) trivial (y := .str [97]) trivial rfl).2
  · exact (c36_same_bytes P (x := .dyn (.ser (.str [98]))) trivial (y := .str [98]) trivial rfl).2

end Zer.Dyn
