import Verif.Base64.Lemmas

/-!
# Properties C13-C15: base64
-/

namespace Zer.Base64

/-- C13: decoding what was encoded gives the original bytes. -/
theorem c13_base64_round_trip (b : Bytes) : decode (encode b) = .ok b := by
  obtain ⟨ds, h1, h2⟩ := digits_rfc b
  rw [encode_rfc, decode_digits h1, h2]

/-- C13: different inputs have different texts. -/
theorem c13_base64_injective {a b : Bytes} (h : encode a = encode b) : a = b := by
  have := c13_base64_round_trip a
  rw [h, c13_base64_round_trip] at this
  injection this with this
  exact this.symm

/-- C14: the text is the one of RFC 4648 section 4. -/
theorem c14_base64_rfc4648 (b : Bytes) : encode b = rfc b := encode_rfc b

/-- C14: length, alphabet and place of padding. -/
theorem c14_base64_shape (b : Bytes) :
    (encode b).length = 4 * ((b.length + 2) / 3) ∧
    ∃ body k, encode b = body ++ List.replicate k 0x3d ∧ k = (3 - b.length % 3) % 3 ∧
      ∀ c ∈ body, ∃ d, d < 64 ∧ c = letter d := by
  rw [encode_rfc]
  refine ⟨?_, ?_⟩
  · induction b using rfc.induct with
    | case1 a b c t ih => simp only [rfc, List.length_cons, ih]; omega
    | case2 => simp [rfc]
    | case3 => simp [rfc]
    | case4 => simp [rfc]
  · induction b using rfc.induct with
    | case1 a b c t ih =>
      have ha := UInt8.toNat_lt a
      have hb := UInt8.toNat_lt b
      have hc := UInt8.toNat_lt c
      obtain ⟨body, k, h1, h2, h3⟩ := ih
      simp only [rfc, h1, ← List.cons_append]
      refine ⟨_, k, rfl, ?_, ?_⟩
      · simp only [List.length_cons]; omega
      · intro x hx
        simp only [List.mem_cons] at hx
        rcases hx with rfl | rfl | rfl | rfl | hx
        · exact ⟨_, by omega, rfl⟩
        · exact ⟨_, by omega, rfl⟩
        · exact ⟨_, by omega, rfl⟩
        · exact ⟨_, by omega, rfl⟩
        · exact h3 x hx
    | case2 a b =>
      have ha := UInt8.toNat_lt a
      have hb := UInt8.toNat_lt b
      refine ⟨(rfc [a, b]).take 3, 1, rfl, rfl, ?_⟩
      show ∀ x ∈ [_, _, _], _
      intro x hx
      simp only [List.mem_cons, List.not_mem_nil, or_false] at hx
      rcases hx with rfl | rfl | rfl
      all_goals exact ⟨_, by omega, rfl⟩
    | case3 a =>
      have ha := UInt8.toNat_lt a
      refine ⟨(rfc [a]).take 2, 2, rfl, rfl, ?_⟩
      show ∀ x ∈ [_, _], _
      intro x hx
      simp only [List.mem_cons, List.not_mem_nil, or_false] at hx
      rcases hx with rfl | rfl
      all_goals exact ⟨_, by omega, rfl⟩
    | case4 => exact ⟨[], 0, rfl, rfl, by simp⟩

/-- The vectors of RFC 4648 section 10 ("fo" and "foobar"), as a check of the specification. -/
example : rfc [0x66, 0x6f] = [0x5a, 0x6d, 0x38, 0x3d] ∧
    rfc [0x66, 0x6f, 0x6f, 0x62, 0x61, 0x72] = [0x5a, 0x6d, 0x39, 0x76, 0x59, 0x6d, 0x46, 0x79] := by decide

/-- A text of the form RFC 4648 prescribes: whole groups of four letters, the last group possibly
ending in one or two pads. -/
inductive WellFormed : Bytes → Prop
  | nil : WellFormed []
  | one {a b : UInt8} : (value a).isSome → (value b).isSome → WellFormed [a, b, 0x3d, 0x3d]
  | two {a b c : UInt8} : (value a).isSome → (value b).isSome → (value c).isSome →
      WellFormed [a, b, c, 0x3d]
  | group {a b c d : UInt8} {t : Bytes} : (value a).isSome → (value b).isSome → (value c).isSome →
      (value d).isSome → WellFormed t → WellFormed (a :: b :: c :: d :: t)

/-- C15 is false: texts that are not well-formed are accepted. A lone letter, a letter after the
padding, bytes outside the alphabet after the padding. -/
theorem c15_base64_rejects_refuted :
    (¬ WellFormed [0x41] ∧ decode [0x41] = .ok []) ∧
    (¬ WellFormed [0x41, 0x41, 0x3d, 0x41] ∧ decode [0x41, 0x41, 0x3d, 0x41] = .ok [0]) ∧
    (¬ WellFormed [0x3d, 0x00] ∧ decode [0x3d, 0x00] = .ok []) := by
  refine ⟨⟨nofun, by decide⟩, ⟨?_, by decide⟩, ⟨nofun, by decide⟩⟩
  intro h
  cases h with
  | group _ _ h _ _ => exact absurd h (by decide)

/-- C15, what holds: `decode` raises a DeserializationError exactly if a byte outside the alphabet
precedes the first '='; otherwise the result is the bits of the letters before the first '=', cut
to whole bytes. Missing: rejection of bad lengths and of what follows the padding, which is not
done (`c15_base64_rejects_refuted`). -/
theorem c15_base64_rejects_partial (s : Bytes) :
    (decode s = .err .deser ↔ ∃ c ∈ s.takeWhile (· ≠ 0x3d), value c = none) ∧
    (∀ b, decode s = .ok b ↔
      ∃ ds, (s.takeWhile (· ≠ 0x3d)).map value = ds.map some ∧ b = bytesOf ds) := by
  have key : ∀ s : Bytes, (digits s = none ↔ ∃ c ∈ s.takeWhile (· ≠ 0x3d), value c = none) ∧
      ∀ ds, digits s = some ds ↔ (s.takeWhile (· ≠ 0x3d)).map value = ds.map some := by
    intro s
    induction s with
    | nil =>
      refine ⟨by simp [digits], fun ds => ?_⟩
      simp only [digits, List.takeWhile_nil, List.map_nil, Option.some.injEq]
      exact ⟨by rintro rfl; rfl, fun h => (List.map_eq_nil_iff.1 h.symm).symm⟩
    | cons c cs ih =>
      by_cases hc : c = 0x3d
      · refine ⟨by simp [digits, hc], fun ds => ?_⟩
        simp only [digits, hc, if_true, Option.some.injEq]
        rw [List.takeWhile_cons_of_neg (by simp)]
        exact ⟨by rintro rfl; rfl, fun h => (List.map_eq_nil_iff.1 h.symm).symm⟩
      · rw [List.takeWhile_cons_of_pos (by simpa using hc)]
        simp only [digits, hc, if_false]
        cases hd : value c with
        | none =>
          refine ⟨by simp [hd], fun ds => ?_⟩
          simp only [List.map_cons, hd]
          exact ⟨nofun, fun h => by cases ds <;> simp at h⟩
        | some d =>
          cases hds : digits cs with
          | none =>
            refine ⟨⟨fun _ => ?_, fun _ => rfl⟩, fun ds => ⟨nofun, fun h => ?_⟩⟩
            · obtain ⟨x, hx, hv⟩ := ih.1.1 hds
              exact ⟨x, List.mem_cons_of_mem _ hx, hv⟩
            · cases ds with
              | nil => simp at h
              | cons e es =>
                simp only [List.map_cons] at h
                injection h with _ h
                rw [(ih.2 es).2 h] at hds; cases hds
          | some ds' =>
            refine ⟨⟨nofun, ?_⟩, fun ds => ?_⟩
            · rintro ⟨x, hx, hv⟩
              rcases List.mem_cons.1 hx with rfl | hx
              · rw [hd] at hv; cases hv
              · rw [ih.1.2 ⟨x, hx, hv⟩] at hds; cases hds
            · have h1 := (ih.2 ds').1 hds
              simp only [Option.some.injEq, List.map_cons, hd, h1]
              constructor
              · rintro rfl; rfl
              · intro h
                cases ds with
                | nil => simp at h
                | cons e es =>
                  simp only [List.map_cons] at h
                  injection h with h2 h3
                  injection h2 with h2
                  rw [h2, (List.map_inj_right (fun a b h => by injection h)).1 h3]
  refine ⟨?_, fun b => ?_⟩
  · rw [← (key s).1]
    refine ⟨fun h => ?_, decode_bad⟩
    cases hds : digits s with
    | none => rfl
    | some ds => rw [decode_digits hds] at h; cases h
  · constructor
    · intro h
      cases hds : digits s with
      | none => rw [decode_bad hds] at h; cases h
      | some ds =>
        rw [decode_digits hds] at h
        injection h with h
        exact ⟨ds, ((key s).2 ds).1 hds, h.symm⟩
    · rintro ⟨ds, h1, rfl⟩
      exact decode_digits (((key s).2 ds).2 h1)

/-- Every well-formed text is accepted. -/
theorem c15_base64_accepts_wellFormed {s : Bytes} (h : WellFormed s) :
    ∃ b, decode s = .ok b ∧ b.length ≤ 3 * (s.length / 4) := by
  have : ∃ ds, digits s = some ds ∧ (bytesOf ds).length ≤ 3 * (s.length / 4) := by
    have ne : ∀ c : UInt8, (value c).isSome → c ≠ 0x3d := by
      rintro c h rfl; simp [value_pad] at h
    induction h with
    | nil => exact ⟨[], rfl, by decide⟩
    | one ha hb =>
      obtain ⟨x, hx⟩ := Option.isSome_iff_exists.1 ha
      obtain ⟨y, hy⟩ := Option.isSome_iff_exists.1 hb
      exact ⟨[x, y], by simp [digits, ne _ ha, ne _ hb, hx, hy], by simp [bytesOf]⟩
    | two ha hb hc =>
      obtain ⟨x, hx⟩ := Option.isSome_iff_exists.1 ha
      obtain ⟨y, hy⟩ := Option.isSome_iff_exists.1 hb
      obtain ⟨z, hz⟩ := Option.isSome_iff_exists.1 hc
      exact ⟨[x, y, z], by simp [digits, ne _ ha, ne _ hb, ne _ hc, hx, hy, hz], by simp [bytesOf]⟩
    | group ha hb hc hd _ ih =>
      obtain ⟨ds, h1, h2⟩ := ih
      obtain ⟨x, hx⟩ := Option.isSome_iff_exists.1 ha
      obtain ⟨y, hy⟩ := Option.isSome_iff_exists.1 hb
      obtain ⟨z, hz⟩ := Option.isSome_iff_exists.1 hc
      obtain ⟨w, hw⟩ := Option.isSome_iff_exists.1 hd
      refine ⟨x :: y :: z :: w :: ds, by
        simp [digits, ne _ ha, ne _ hb, ne _ hc, ne _ hd, hx, hy, hz, hw, h1], ?_⟩
      simp only [bytesOf, List.length_cons]
      omega
  obtain ⟨ds, h1, h2⟩ := this
  exact ⟨_, decode_digits h1, h2⟩

/-- What the encoder writes is well-formed. -/
theorem c15_base64_encoder_wellFormed (b : Bytes) : WellFormed (encode b) := by
  have v : ∀ d, d < 64 → (value (letter d)).isSome := fun d hd => by rw [value_letter hd]; rfl
  rw [encode_rfc]
  induction b using rfc.induct with
  | case1 a b c t ih =>
    have ha := UInt8.toNat_lt a
    have hb := UInt8.toNat_lt b
    have hc := UInt8.toNat_lt c
    exact .group (v _ (by omega)) (v _ (by omega)) (v _ (by omega)) (v _ (by omega)) ih
  | case2 a b =>
    have ha := UInt8.toNat_lt a
    have hb := UInt8.toNat_lt b
    exact .two (v _ (by omega)) (v _ (by omega)) (v _ (by omega))
  | case3 a =>
    have ha := UInt8.toNat_lt a
    exact .one (v _ (by omega)) (v _ (by omega))
  | case4 => exact .nil

example : ∃ b : Bytes, b.length = 4 ∧ encode b = [0x41, 0x51, 0x49, 0x44, 0x42, 0x41, 0x3d, 0x3d] :=
  ⟨[1, 2, 3, 4], rfl, by decide⟩

end Zer.Base64
