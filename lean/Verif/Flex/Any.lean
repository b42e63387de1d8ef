import Verif.Flex.Sim
import Verif.Translate

/-!
# Flex: arbitrary bytes

Nothing here assumes that a position holds a document.
-/

namespace Zer.Flex

theorem returns_ub {α : Type} : Returns (.ub : Res α) := fun h => by cases h

theorem returns_readU (b : Bytes) (p w : Nat) : Returns (readU b p w) := by
  refine .bind ?_ fun _ _ => returns_pure _
  unfold sliceAt
  split
  · exact returns_ok _
  · exact returns_ub

theorem returns_readI (b : Bytes) (p w : Nat) : Returns (readI b p w) := .bind (returns_readU _ _ _) fun _ _ => returns_pure _

theorem returns_readF (b : Bytes) (p w : Nat) : Returns (readF b p w) := .bind (returns_readU _ _ _) fun _ _ => returns_pure _

theorem returns_indirect (b : Bytes) (p w : Nat) : Returns (indirect b p w) := by
  refine .bind (returns_readU _ _ _) fun _ _ => ?_
  split
  · exact returns_pure _
  · exact returns_ub

theorem returns_sizeAt (b : Bytes) (p w : Nat) : Returns (sizeAt b p w) := by
  unfold sizeAt
  split
  · exact returns_readU _ _ _
  · exact returns_ub

theorem returns_sized (r : Ref) : Returns r.sized := by
  refine .bind (returns_indirect _ _ _) fun _ _ => .bind (returns_sizeAt _ _ _) fun _ _ => ?_
  unfold sliceAt
  split
  · exact returns_ok _
  · exact returns_ub

theorem returns_vector (r : Ref) : Returns r.vector := by
  unfold Ref.vector
  split
  · exact .bind (returns_indirect _ _ _) fun _ _ => .bind (returns_sizeAt _ _ _) fun _ _ => returns_pure _
  · exact returns_pure _

theorem returns_elemAt (b : Bytes) (p bw n i : Nat) : Returns (elemAt b p bw n i) := by
  unfold elemAt
  split
  · exact returns_pure _
  · refine .bind ?_ fun _ _ => returns_pure _
    unfold byteAt
    split
    · exact returns_ok _
    · exact returns_ub

theorem returns_keysAt (b : Bytes) (p bw : Nat) : Returns (keysAt b p bw) := by
  unfold keysAt
  split
  · exact .bind (returns_indirect _ _ _) fun _ _ => .bind (returns_readU _ _ _) fun _ _ =>
      .bind (returns_sizeAt _ _ _) fun _ _ => returns_pure _
  · exact returns_ub

theorem returns_keyAt (b : Bytes) (kp kw kn i : Nat) : Returns (keyAt b kp kw kn i) := by
  unfold keyAt
  split
  · exact returns_pure _
  · refine .bind (returns_indirect _ _ _) fun _ _ => ?_
    unfold cstrAt
    split
    · exact returns_ok _
    · exact returns_ub

theorem returns_keysFrom (b : Bytes) (kp kw kn : Nat) : ∀ n i, Returns (keysFrom b kp kw kn i n)
  | 0, _ => returns_pure _
  | n + 1, i => .bind (returns_keyAt _ _ _ _ _) fun _ _ => .bind (returns_keysFrom b kp kw kn n (i + 1)) fun _ _ => returns_pure _

theorem returns_require (c : Bool) (e : Err) : Returns (Res.require c e) := by
  cases c
  · exact returns_err _
  · exact returns_ok _

theorem returns_mapKeys (r : Ref) : Returns (mapKeys r) :=
  .bind (returns_require _ _) fun _ _ => .bind (returns_vector _) fun _ _ => .bind (returns_keysAt _ _ _) fun _ _ =>
    returns_keysFrom _ _ _ _ _ _

/-- The search ends in any range in which the sum of two indices is a `size_t`. -/
theorem loop_returns (b : Bytes) (kp kw : Nat) {kn : Nat} (hn : kn ≤ 2 ^ 63) (key : Bytes) :
    ∀ fuel lo hi, hi - lo < fuel → hi ≤ kn → Returns (loop b kp kw kn key fuel lo hi) := by
  intro fuel
  induction fuel with
  | zero => intro lo hi hf; omega
  | succ fuel ih =>
    intro lo hi hf hhi
    rw [loop]
    by_cases hlt : lo < hi
    · have hm : u64 (lo + hi) = lo + hi := Nat.mod_eq_of_lt (by omega)
      rw [if_pos hlt]
      simp only [hm]
      refine .bind (returns_keyAt _ _ _ _ _) fun sv _ => ?_
      cases order sv key with
      | lt => exact ih _ _ (by omega) hhi
      | gt => exact ih _ _ (by omega) (by omega)
      | eq => exact returns_pure _
    · rw [if_neg hlt]; exact returns_pure _

theorem readU_bound {b : Bytes} {p w n : Nat} (h : readU b p w = .ok n) : p + scalarWidth w ≤ b.length := by
  obtain ⟨s, h, _⟩ := Res.bind_eq_ok.1 h
  unfold sliceAt at h
  split at h
  · assumption
  · cases h

theorem scalarWidth_pos (w : Nat) : 0 < scalarWidth w := by
  unfold scalarWidth
  repeat' split
  all_goals omega

/-- A key that could be read has its entry in the buffer. -/
theorem keyAt_bound {b : Bytes} {kp kw kn i : Nat} {k : Bytes} (hi : i < kn) (h : keyAt b kp kw kn i = .ok k) :
    u64 (i * kw) < b.length := by
  unfold keyAt at h
  rw [if_neg (by omega)] at h
  obtain ⟨q, h, _⟩ := Res.bind_eq_ok.1 h
  obtain ⟨o, h, _⟩ := Res.bind_eq_ok.1 h
  have := readU_bound h
  have := scalarWidth_pos kw
  omega

theorem keysFrom_get {b : Bytes} {kp kw kn : Nat} : ∀ {n i : Nat} {ks : List Bytes}, keysFrom b kp kw kn i n = .ok ks →
    ks.length = n ∧ ∀ j (hj : j < ks.length), keyAt b kp kw kn (i + j) = .ok ks[j]
  | 0, i, ks, h => by
    injection h with h; subst h
    exact ⟨rfl, fun j hj => absurd hj (Nat.not_lt_zero _)⟩
  | n + 1, i, ks, h => by
    obtain ⟨k, h1, h⟩ := Res.bind_eq_ok.1 h
    obtain ⟨ks', h2, h⟩ := Res.bind_eq_ok.1 h
    injection h with h; subst h
    obtain ⟨h3, h4⟩ := keysFrom_get h2
    refine ⟨by simp [h3], fun j hj => ?_⟩
    cases j with
    | zero => exact h1
    | succ j =>
      have := h4 j (by simpa using hj)
      rw [show i + (j + 1) = i + 1 + j by omega]
      exact this

/-- Keys that can be listed are fewer than 2^63: each has an entry in the buffer, unless the entries have no width, and then
their number was read from one byte. -/
theorem keys_few {b : Bytes} (hb : b.length < 2 ^ 60) {p bw kp kw kn : Nat} (h : keysAt b p bw = .ok (kp, kw, kn)) {ks : List Bytes}
    (hk : keysFrom b kp kw kn 0 kn = .ok ks) : kn < 2 ^ 63 := by
  unfold keysAt at h
  split at h
  · obtain ⟨kp', h1, h⟩ := Res.bind_eq_ok.1 h
    obtain ⟨kw', h2, h⟩ := Res.bind_eq_ok.1 h
    obtain ⟨kn', h3, h⟩ := Res.bind_eq_ok.1 h
    injection h with h
    injection h with e1 h
    injection h with e2 e3
    subst e1; subst e3; subst e2
    by_cases h0 : kw' % 256 = 0
    · rw [h0] at h3
      unfold sizeAt at h3
      rw [if_pos (Nat.zero_le _)] at h3
      have h4 := readU_lt h3
      have e : 2 ^ (8 * scalarWidth 0) = 256 := rfl
      rw [e] at h4
      omega
    · refine Nat.lt_of_not_le fun hge => ?_
      obtain ⟨hl, hg⟩ := keysFrom_get hk
      have hw : kw' % 256 < 256 := Nat.mod_lt _ (by decide)
      generalize kw' % 256 = w at h0 hw hl hg
      have hq : 2 ^ 60 / w ≤ 2 ^ 60 := Nat.div_le_self _ _
      have h5 := hg (2 ^ 60 / w + 1) (by omega)
      have h6 := keyAt_bound (by omega) h5
      have h7 : 2 ^ 60 < (2 ^ 60 / w + 1) * w := by
        have := Nat.lt_mul_div_succ (2 ^ 60) (show 0 < w by omega)
        rwa [Nat.mul_comm] at this
      have h8 : (2 ^ 60 / w + 1) * w ≤ 2 ^ 60 + w := by
        rw [Nat.add_mul, Nat.one_mul]
        exact Nat.add_le_add_right (Nat.div_mul_le_self _ _) _
      rw [Nat.zero_add] at h6
      have h9 : u64 ((2 ^ 60 / w + 1) * w) = (2 ^ 60 / w + 1) * w := Nat.mod_eq_of_lt (by omega)
      rw [h9] at h6
      omega
  · cases h

/-- The end of `operator[]`: the value at the index that was found. -/
def pick (r : Ref) (p n : Nat) : Option Nat → Res Ref
  | some mid => elemAt r.buf p r.bw n mid
  | none => .err .deser

/-- Where the keys can be listed, `contains` and `operator[]` search that list. -/
theorem lookup_eq {r : Ref} (hb : r.buf.length < 2 ^ 60) {ks : List Bytes} (h : mapKeys r = .ok ks) :
    ∃ p n, r.vector = .ok (p, n) ∧ ∀ k, contains r k = .ok (search ks k 0 ks.length).isSome ∧
      getKey r k = pick r p n (search ks k 0 ks.length) := by
  obtain ⟨u, hm, h⟩ := Res.bind_eq_ok.1 h
  obtain ⟨⟨p, n⟩, h1, h⟩ := Res.bind_eq_ok.1 h
  obtain ⟨⟨kp, kw, kn⟩, h2, h⟩ := Res.bind_eq_ok.1 h
  have hm : isMap r = true := by
    cases hc : isMap r with
    | true => rfl
    | false => rw [hc] at hm; cases hm
  have hn := keys_few hb h2 h
  obtain ⟨e, hg⟩ := keysFrom_get h
  simp only [Nat.zero_add] at hg
  replace h1 : r.vector = .ok (p, n) := h1
  replace h2 : keysAt r.buf p r.bw = .ok (kp, kw, kn) := h2
  clear h
  subst e
  refine ⟨p, n, h1, fun k => ?_⟩
  have hl := loop_keys hn hg k
  generalize hF : loopFuel = F at hl
  have hc : contains r k = (r.vector >>= fun x => keysAt r.buf x.1 r.bw >>= fun y =>
      loop r.buf y.1 y.2.1 y.2.2 k F 0 y.2.2 >>= fun o => pure o.isSome) := by
    simp only [contains, hm, if_true, hF]
  have hg : getKey r k = (r.vector >>= fun x => keysAt r.buf x.1 r.bw >>= fun y =>
      loop r.buf y.1 y.2.1 y.2.2 k F 0 y.2.2 >>= fun o => pick r x.1 x.2 o) := by
    simp only [getKey, hm, Res.require, if_true, Res.ok_bind, hF]
    rfl
  rw [hc, hg, h1]
  simp only [Res.ok_bind, h2, hl]
  exact ⟨rfl, trivial⟩

theorem elemAt_buf {b : Bytes} {p bw n i : Nat} {c : Ref} (h : elemAt b p bw n i = .ok c) : c.buf.length ≤ b.length := by
  unfold elemAt at h
  split at h
  · injection h with h; subst h; exact Nat.zero_le _
  · obtain ⟨t, _, h⟩ := Res.bind_eq_ok.1 h
    injection h with h; subst h; exact Nat.le_refl _

theorem getIdx_buf {r c : Ref} {i : Nat} (h : getIdx r i = .ok c) : c.buf.length ≤ r.buf.length := by
  obtain ⟨_, _, h⟩ := Res.bind_eq_ok.1 h
  obtain ⟨⟨p, n⟩, _, h⟩ := Res.bind_eq_ok.1 h
  obtain ⟨_, _, h⟩ := Res.bind_eq_ok.1 h
  exact elemAt_buf h

theorem getKey_buf {r c : Ref} {k : Bytes} (h : getKey r k = .ok c) : c.buf.length ≤ r.buf.length := by
  obtain ⟨_, _, h⟩ := Res.bind_eq_ok.1 h
  obtain ⟨⟨p, n⟩, _, h⟩ := Res.bind_eq_ok.1 h
  obtain ⟨⟨kp, kw, kn⟩, _, h⟩ := Res.bind_eq_ok.1 h
  obtain ⟨o, _, h⟩ := Res.bind_eq_ok.1 h
  cases o with
  | none => cases h
  | some mid => exact elemAt_buf h

/-- No accessor runs forever on bytes shorter than 2^60, except lookups in maps whose keys cannot be listed. -/
theorem reader_total : reader.Total (fun r => r.buf.length < 2 ^ 60) where
  isNull _ _ := returns_ok _
  isBool _ _ := returns_ok _
  isInt _ _ := returns_ok _
  isUInt _ _ := returns_ok _
  isFloat _ _ := returns_ok _
  isString _ _ := returns_ok _
  isBlob _ _ := returns_ok _
  isMap _ _ := returns_ok _
  isArray _ _ := returns_ok _
  asBool _ _ := .bind (returns_require _ _) fun _ _ => .bind (returns_readU _ _ _) fun _ _ => returns_pure _
  asInt64 r _ := .bind (returns_require _ _) fun _ _ => by
    unfold Ref.int64
    split
    · exact returns_readI _ _ _
    · exact .bind (returns_indirect _ _ _) fun _ _ => returns_readI _ _ _
  asUInt64 r _ := .bind (returns_require _ _) fun _ _ => .bind (by
    unfold Ref.uint64
    split
    · exact returns_readU _ _ _
    · exact .bind (returns_indirect _ _ _) fun _ _ => returns_readU _ _ _) fun _ _ => returns_pure _
  asDouble r _ := .bind (returns_require _ _) fun _ _ => by
    unfold Ref.double
    split
    · exact returns_readF _ _ _
    · exact .bind (returns_indirect _ _ _) fun _ _ => returns_readF _ _ _
  asString r _ := .bind (returns_require _ _) fun _ _ => returns_sized _
  asStringView r _ := .bind (returns_require _ _) fun _ _ => returns_sized _
  asBlob r _ := .bind (returns_require _ _) fun _ _ => returns_sized _
  mapKeys r _ := returns_mapKeys r
  contains r k ks h hk := by
    obtain ⟨p, n, _, h1⟩ := lookup_eq h hk
    show Returns (contains r k)
    rw [(h1 k).1]
    exact returns_ok _
  getKey r k ks h hk := by
    obtain ⟨p, n, _, h1⟩ := lookup_eq h hk
    show Returns (getKey r k)
    rw [(h1 k).2]
    cases search ks k 0 ks.length with
    | none => exact returns_err _
    | some mid => exact returns_elemAt _ _ _ _ _
  arraySize r _ := .bind (returns_require _ _) fun _ _ => .bind (returns_vector _) fun _ _ => returns_pure _
  getIdx r i _ := .bind (returns_require _ _) fun _ _ => .bind (returns_vector _) fun _ _ => .bind (returns_require _ _) fun _ _ =>
    returns_elemAt _ _ _ _ _

end Zer.Flex
