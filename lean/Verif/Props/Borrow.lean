import Verif.Json.Dangling
import Verif.Json.Toy

/-!
# C60: does the JSON writer keep references to its arguments?

A history lists the writer calls, each with the caller's memory at that time; `m` is the memory when `finish()` runs.
-/

namespace Zer.Json.Heap

/-- The calls with the contents every argument has when it is passed. -/
def SaysNow : List (Mem × Call) → List Ev → Prop
  | [], es => es = []
  | (m0, c) :: h, es => ∃ e es', Says m0 m0.read c e ∧ SaysNow h es' ∧ es = e :: es'

theorem says_late {m : Mem} : ∀ {h : List (Mem × Call)} {es : List Ev}, SaysNow h es →
    (∀ m0 t, (m0, Call.str t) ∈ h → m.read t = m0.read t) → SaysAll m.read h es
  | [], _, h, _ => h
  | (m0, c) :: h, _, ⟨e, es', h1, h2, h3⟩, hm => by
    refine ⟨e, es', ?_, says_late h2 (fun m1 t ht => hm m1 t (by simp [ht])), h3⟩
    cases c with
    | str t => obtain ⟨b, k1, k2⟩ := h1; exact ⟨b, by rw [hm m0 t (by simp)]; exact k1, k2⟩
    | _ => exact h1

/-- C60, what the JSON writer does, any history: the bytes are those of the calls with the contents keys and blobs had when
they were passed and the contents strings have when `finish()` runs. -/
theorem c60_json_strings_read_late (T : Text) (dbg : Bool) {h : List (Mem × Call)} {es : List Ev} {m : Mem}
    (hs : SaysAll m.read h es) : (run dbg {} h >>= finish T m) = (proto T dbg).bytesOf es :=
  refine T dbg hs

/-- C60 for JSON, any history in which strings (not keys or blobs) still have their contents when `finish()` runs: the bytes
are those of the calls with the contents at the time of the calls. Missing: histories in which strings change or are
destroyed, for which this is false (`c60_json_borrow_refuted`, `c60_json_dangling_refuted`). -/
theorem c60_json_borrow_partial (T : Text) (dbg : Bool) {h : List (Mem × Call)} {es : List Ev} {m : Mem} (hs : SaysNow h es)
    (hm : ∀ m0 t, (m0, Call.str t) ∈ h → m.read t = m0.read t) :
    (run dbg {} h >>= finish T m) = (proto T dbg).bytesOf es :=
  refine T dbg (says_late hs hm)

/-- Memory with one allocation. -/
def one (b : Bytes) : Mem := fun a => if a = 0 then some b else none

/-- The hypotheses are met: a map whose key is destroyed at once, and whose string moves with its allocation. -/
example : SaysNow [(one [0x6b, 0x76], .beginMap 1), (one [0x6b, 0x76], .key ⟨0, 0, 1⟩), (one [0, 0x76], .str ⟨0, 1, 1⟩), (one [0, 0x76], .endMap)]
      [.beginMap 1, .key [0x6b], .str [0x76], .endMap] ∧
    ∀ m0 t, (m0, Call.str t) ∈ [(one [0x6b, 0x76], Call.beginMap 1), (one [0x6b, 0x76], .key ⟨0, 0, 1⟩), (one [0, 0x76], .str ⟨0, 1, 1⟩),
      (one [0, 0x76], .endMap)] → (one [0xff, 0x76]).read t = m0.read t := by
  refine ⟨⟨_, _, rfl, ⟨_, _, ⟨_, rfl, rfl⟩, ⟨_, _, ⟨_, rfl, rfl⟩, ⟨_, _, rfl, rfl, rfl⟩, rfl⟩, rfl⟩, rfl⟩, fun m0 t ht => ?_⟩
  simp at ht
  obtain ⟨rfl, rfl⟩ := ht
  rfl

/-- C60 is false for JSON: the same string call is followed by different bytes when the caller reuses the buffer before
`finish()`. -/
theorem c60_json_borrow_refuted {T : Text} (L : T.Law) (dbg : Bool) :
    ∃ (h : List (Mem × Call)) (es : List Ev) (m : Mem) (b b' : Bytes), SaysNow h es ∧ (proto T dbg).bytesOf es = .ok b ∧
      (run dbg {} h >>= finish T m) = .ok b' ∧ b' ≠ b := by
  have one_char : ∀ c : UInt8, c < 0x80 → ∃ b, T.print (.str [c]) = some b ∧ T.parse b = some (.str [c]) := by
    intro c hc
    exact L.written (.str [c]) (L.ascii _ (by simpa using hc))
  obtain ⟨b, h1, h2⟩ := one_char 0x61 (by decide)
  obtain ⟨b', h3, h4⟩ := one_char 0x62 (by decide)
  refine ⟨[(one [0x61], .str ⟨0, 0, 1⟩)], [.str [0x61]], one [0x62], b, b', ⟨_, _, ⟨_, rfl, rfl⟩, rfl, rfl⟩, ?_, ?_, ?_⟩
  · show (match T.print (.str [0x61]) with | some b => Res.ok b | none => .err .runtime) = .ok b
    rw [h1]
  · show (match T.print (.str [0x62]) with | some b => Res.ok b | none => .err .runtime) = .ok b'
    rw [h3]
  · rintro rfl
    rw [h2] at h4
    simp at h4

/-- C60 is false for JSON in every document with a non-empty string: if the string is destroyed after the calls, `finish()`
has undefined behaviour. -/
theorem c60_json_dangling_refuted (T : Text) (dbg : Bool) {h : List (Mem × Call)} {s : RS} (hr : run dbg {} h = .ok s) {m0 m : Mem}
    {t : Slice} (ht : (m0, Call.str t) ∈ h) (hne : t.len ≠ 0) (hm : m t.a = none) : (run dbg {} h >>= finish T m) = .ub := by
  rw [hr]
  show finish T m s = .ub
  unfold finish
  rw [doc_dangling hr ht (by simp [Mem.read, hne, hm])]
  rfl

/-- The hypotheses are met: a string in a list, destroyed before `finish()`. -/
example : ∃ s, run true {} [(one [0x61], .beginArr 1), (one [0x61], .str ⟨0, 0, 1⟩), (fun _ => none, .endArr)] = .ok s := ⟨_, rfl⟩

/-- C60 for JSON, keys and blobs: when no strings are passed the memory at `finish()` is irrelevant. -/
theorem c60_json_keys_blobs_copied (T : Text) (dbg : Bool) {h : List (Mem × Call)} {es : List Ev} (hs : SaysNow h es)
    (hn : ∀ m0 t, (m0, Call.str t) ∉ h) (m : Mem) : (run dbg {} h >>= finish T m) = (proto T dbg).bytesOf es :=
  c60_json_borrow_partial T dbg hs (fun m0 t ht => absurd ht (hn m0 t))

end Zer.Json.Heap
