import Verif.Zera.Repr

/-!
# The ZERA writer refines the abstract document builder

`Rel s t` relates a state of `RootSerializer` to the document built so far. Each call either keeps
the relation or raises SerializationError.
-/

namespace Zer.Zera

/-- An open container holds the references of the children seen so far. -/
def RelCtx (env arena : Bytes) : Ctx → Frame → Prop
  | .arr p n, .arr xs => ∃ ps : List (Bytes × Val), xs = ps.map Prod.snd ∧
      p = le32 0 ++ (ps.map Prod.fst).flatten ∧ n = u32 ps.length ∧
      ∀ q ∈ ps, Repr env arena q.1 q.2
  | .map p n pend, .map ms pk => ∃ ps : List (Bytes × Bytes × Val),
      ms = ps.map (fun q => (q.1, q.2.2)) ∧
      (∀ q ∈ ps, q.1.length < 2 ^ 16) ∧ (∀ q ∈ ps, Repr env arena q.2.1 q.2.2) ∧
      (match pk with
       | none => pend = none ∧ n = u32 ps.length ∧
          p = le32 0 ++ (ps.map (fun q => entry q.1 q.2.1)).flatten
       | some k => k.length < 2 ^ 16 ∧ n = u32 (ps.length + 1) ∧
          ∃ p1, p1 = le32 0 ++ (ps.map (fun q => entry q.1 q.2.1)).flatten ++
              le16 k.length ++ le16 0 ++ k ∧
            pend = some p1.length ∧ p = p1 ++ List.replicate 16 0)
  | _, _ => False

/-- Open containers correspond pairwise. -/
def RelStack (env arena : Bytes) : List Ctx → List Frame → Prop
  | [], [] => True
  | c :: cs, f :: fs => RelCtx env arena c f ∧ RelStack env arena cs fs
  | _, _ => False

/-- The root reference, if written, denotes the root value. -/
def RelRoot (env arena : Bytes) : Option Nat → Option Val → Prop
  | none, none => True
  | some o, some v => o < 2 ^ 32 ∧ ∃ vr, At env o vr ∧ Repr env arena vr v
  | _, _ => False

structure Rel (s : RS) (t : Tree) : Prop where
  stack : RelStack s.env s.arena s.st t.stack
  root : RelRoot s.env s.arena s.root t.root

theorem RelCtx.mono {env arena : Bytes} {c : Ctx} {f : Frame} (h : RelCtx env arena c f)
    (e e' : Bytes) : RelCtx (env ++ e) (arena ++ e') c f := by
  cases c <;> cases f <;> simp only [RelCtx] at h ⊢
  · obtain ⟨ps, h1, h2, h3, h4⟩ := h
    exact ⟨ps, h1, h2, h3, fun q hq => (h4 q hq).mono _ _⟩
  · obtain ⟨ps, h1, h2, h3, h4⟩ := h
    exact ⟨ps, h1, h2, fun q hq => (h3 q hq).mono _ _, h4⟩

theorem RelStack.mono {env arena : Bytes} : ∀ {cs : List Ctx} {fs : List Frame},
    RelStack env arena cs fs → ∀ e e', RelStack (env ++ e) (arena ++ e') cs fs
  | [], [], _, _, _ => trivial
  | _ :: _, _ :: _, h, e, e' => ⟨h.1.mono e e', h.2.mono e e'⟩
  | [], _ :: _, h, _, _ => h.elim
  | _ :: _, [], h, _, _ => h.elim

theorem RelRoot.mono {env arena : Bytes} {r : Option Nat} {v : Option Val}
    (h : RelRoot env arena r v) (e e' : Bytes) : RelRoot (env ++ e) (arena ++ e') r v := by
  cases r <;> cases v <;> simp only [RelRoot] at h ⊢
  obtain ⟨h1, vr, h2, h3⟩ := h
  exact ⟨h1, vr, h2.append_right _, h3.mono _ _⟩

theorem Rel.mono {s : RS} {t : Tree} (h : Rel s t) (e e' : Bytes) :
    Rel { s with env := s.env ++ e, arena := s.arena ++ e' } t :=
  ⟨h.stack.mono e e', h.root.mono e e'⟩

/-- Outcome of a call in relation to the abstract step. -/
def Sim (x : Res RS) (y : Option Tree) (thr : Nat) : Prop :=
  (∃ s' t', x = .ok s' ∧ y = some t' ∧ Rel s' t' ∧ s'.thr = thr) ∨ x = .err .ser

theorem entries_append (ps : List (Bytes × Bytes × Val)) (q : Bytes × Bytes × Val) :
    ((ps ++ [q]).map (fun q => entry q.1 q.2.1)).flatten =
      (ps.map (fun q => entry q.1 q.2.1)).flatten ++ entry q.1 q.2.1 := by
  simp

/-- Delivering a reference to a represented value. -/
theorem deliver_sim {s : RS} {t : Tree} (R : Rel s t) {vr : Bytes} {v : Val}
    (hr : Repr s.env s.arena vr v) : Sim (deliverVr s vr) (t.deliver v) s.thr := by
  obtain ⟨st, env, arena, root, thr⟩ := s
  obtain ⟨stack, troot⟩ := t
  have hst := R.stack
  have hro := R.root
  simp only at hst hro hr
  cases st with
  | nil =>
    cases stack with
    | cons _ _ => exact hst.elim
    | nil =>
      cases root with
      | some o =>
        cases troot with
        | none => exact hro.elim
        | some w => right; simp [deliverVr, writeRootVr]
      | none =>
        cases troot with
        | some w => exact hro.elim
        | none =>
          by_cases hb : env.length > u32max
          · right; simp only [deliverVr, writeRootVr, appendEnv, if_pos hb, Res.err_bind]
          · left
            have hlt : env.length < 2 ^ 32 := by simp [u32max] at hb; omega
            refine ⟨⟨[], env ++ vr, arena, some (u32 env.length), thr⟩, _,
              by simp only [deliverVr, writeRootVr, appendEnv, if_neg hb, Res.ok_bind,
                Res.pure_eq], rfl, ⟨trivial, ?_⟩, rfl⟩
            simp only [RelRoot, u32, Nat.mod_eq_of_lt hlt]
            exact ⟨hlt, vr, At.self_end _ _, by simpa using hr.mono vr []⟩
  | cons c cs =>
    cases stack with
    | nil => exact hst.elim
    | cons f fs =>
      obtain ⟨hc, hs⟩ := hst
      cases c with
      | arr p n =>
        cases f with
        | map _ _ => exact hc.elim
        | arr xs =>
          obtain ⟨ps, h1, h2, h3, h4⟩ := hc
          left
          refine ⟨_, _, rfl, rfl, ⟨⟨⟨ps ++ [(vr, v)], ?_, ?_, ?_, ?_⟩, hs⟩, hro⟩, rfl⟩
          · simp [h1]
          · simp [h2]
          · simp [h3, u32]
          · intro q hq
            rcases List.mem_append.1 hq with hq | hq
            · exact h4 q hq
            · simp at hq; subst hq; exact hr
      | map p n pend =>
        cases f with
        | arr _ => exact hc.elim
        | map ms pk =>
          obtain ⟨ps, h1, h2, h3, h4⟩ := hc
          cases pk with
          | none =>
            obtain ⟨h5, h6, h7⟩ := h4
            subst h5; right; rfl
          | some k =>
            obtain ⟨h5, h6, p1, h7, h8, h9⟩ := h4
            subst h8; left
            have hlen : ¬ (p1.length + 16 > p.length) := by rw [h9]; simp
            refine ⟨⟨.map (p.take p1.length ++ vr ++ p.drop (p1.length + 16)) n none :: cs, env, arena,
                root, thr⟩, _,
              by simp only [deliverVr, if_neg hlen], rfl,
              ⟨⟨⟨ps ++ [(k, vr, v)], ?_, ?_, ?_, ?_⟩, hs⟩, hro⟩, rfl⟩
            · simp [h1]
            · intro q hq
              rcases List.mem_append.1 hq with hq | hq
              · exact h2 q hq
              · simp at hq; subst hq; exact h5
            · intro q hq
              rcases List.mem_append.1 hq with hq | hq
              · exact h3 q hq
              · simp at hq; subst hq; exact hr
            · refine ⟨rfl, by simp [h6], ?_⟩
              have e1 : p.take p1.length = p1 := by rw [h9]; simp
              have e2 : p.drop (p1.length + 16) = [] := by rw [h9]; simp
              rw [entries_append, e1, e2, h7]
              simp [entry]

/-- Payloads always have room for the count. -/
theorem writeU32At_zero (rest : Bytes) (n : Nat) :
    writeU32At (le32 0 ++ rest) 0 n = .ok (le32 n ++ rest) := by
  have : 0 + 4 ≤ (le32 0 ++ rest).length := by simp
  rw [writeU32At, if_pos this]
  simp [le32]

theorem le32_u32 (n : Nat) : le32 (u32 n) = le32 n := by
  have key : ∀ k, k < 4 → UInt8.ofNat ((u32 n >>> (8 * k)) &&& 0xff) =
      UInt8.ofNat ((n >>> (8 * k)) &&& 0xff) := by
    intro k hk
    apply UInt8.toNat.inj
    rw [ofNat_and_toNat, ofNat_and_toNat]
    simp only [u32, Nat.shiftRight_eq_div_pow]
    have : k = 0 ∨ k = 1 ∨ k = 2 ∨ k = 3 := by omega
    rcases this with rfl | rfl | rfl | rfl <;> simp <;> omega
  have k0 := key 0 (by omega)
  have k1 := key 1 (by omega)
  have k2 := key 2 (by omega)
  have k3 := key 3 (by omega)
  simp only [Nat.mul_zero, Nat.shiftRight_zero, Nat.mul_one] at k0 k1 k2 k3
  simp only [le32, k0, k1]
  simp only [show 8 * 2 = 16 from rfl, show 8 * 3 = 24 from rfl] at k2 k3
  rw [k2, k3]

theorem inline_bytes {s : Bytes} (h : s.length ≤ 12) :
    (makeVr tString 1 s.length 0 0 0).take 4 ++ s ++
      (makeVr tString 1 s.length 0 0 0).drop (4 + s.length) = inlineVr s := by
  have e : makeVr tString 1 s.length 0 0 0 =
      ([UInt8.ofNat tString, UInt8.ofNat 1] ++ le16 s.length) ++ List.replicate 12 0 := by
    simp [makeVr, le32, List.replicate]
  rw [e]
  have e4 : ([UInt8.ofNat tString, UInt8.ofNat 1] ++ le16 s.length).length = 4 := rfl
  rw [List.take_append_of_le_length (by rw [e4]; omega), List.take_of_length_le (by rw [e4]; omega),
    List.drop_append, List.drop_eq_nil_of_le (by rw [e4]; omega), e4, Nat.add_sub_cancel_left,
    List.drop_replicate]
  simp [inlineVr]

theorem replicate_append_at (b z x : Bytes) : At (b ++ z ++ x) (b ++ z).length x := At.self_end _ _

/-- Every writer call is simulated by the abstract builder or raises SerializationError. -/
theorem step_sim {s : RS} {t : Tree} (R : Rel s t) (e : Ev) :
    Sim (step s e) (t.step e) s.thr := by
  cases e with
  | null => exact deliver_sim R .null
  | bool b => exact deliver_sim R (.bool b)
  | int i => exact deliver_sim R (.int i)
  | uint n => exact deliver_sim R (.uint n)
  | dbl d => exact deliver_sim R (.dbl d)
  | str sv =>
    simp only [step]
    by_cases h : sv.length ≤ min s.thr InlineMax
    · rw [if_pos h]
      have h12 : sv.length ≤ 12 := by simp [InlineMax] at h; omega
      rw [inline_bytes h12]
      exact deliver_sim R (.strInline sv h12)
    · rw [if_neg h]
      by_cases h2 : sv.length > u32max
      · rw [if_pos h2]; right; rfl
      · rw [if_neg h2]
        have hlen : sv.length < 2 ^ 32 := by simp [u32max] at h2; omega
        simp only [arenaPut, Nat.max_self, alignUp_one, Nat.sub_self, List.replicate_zero,
          List.append_nil, if_neg h2]
        by_cases h3 : s.arena.length > u32max
        · rw [if_pos h3]; right; rfl
        · rw [if_neg h3]
          have hofs : s.arena.length < 2 ^ 32 := by simp [u32max] at h3; omega
          simp only [Res.ok_bind, u32, Nat.mod_eq_of_lt hofs]
          have R' := R.mono [] sv
          simp only [List.append_nil] at R'
          exact deliver_sim R' (.strArena sv _ hofs hlen (At.self_end _ _))
  | blob b =>
    simp only [step]
    by_cases h2 : b.length > u32max
    · rw [if_pos h2]; right; rfl
    · rw [if_neg h2]
      have hlen : b.length < 2 ^ 32 := by simp [u32max] at h2; omega
      have hmax : max 1 ArenaBaseAlign = 16 := by decide
      simp only [arenaPut, hmax, if_neg h2]
      have hal : (s.arena ++ List.replicate (alignUp s.arena.length 16 - s.arena.length) 0).length =
          alignUp s.arena.length 16 := by
        have := alignUp_ge s.arena.length 16
        simp; omega
      rw [hal]
      by_cases h3 : alignUp s.arena.length 16 > u32max
      · rw [if_pos h3]; right; rfl
      · rw [if_neg h3]
        have hofs : alignUp s.arena.length 16 < 2 ^ 32 := by simp [u32max] at h3; omega
        simp only [Res.ok_bind, u32, Nat.mod_eq_of_lt hofs, appendEnv]
        by_cases h4 : s.env.length > u32max
        · rw [if_pos h4]; right; rfl
        · rw [if_neg h4]
          have hso : s.env.length < 2 ^ 32 := by simp [u32max] at h4; omega
          simp only [Res.ok_bind, Nat.mod_eq_of_lt hso]
          have R' := R.mono (shapeBytes b.length)
            (List.replicate (alignUp s.arena.length 16 - s.arena.length) 0 ++ b)
          rw [← List.append_assoc] at R'
          have hat := replicate_append_at s.arena
            (List.replicate (alignUp s.arena.length 16 - s.arena.length) 0) b
          rw [hal] at hat
          exact deliver_sim R' (.blob b _ _ hofs hlen hso (alignUp_dvd _ (by decide)) hat
            (At.self_end _ _))
  | key k =>
    obtain ⟨st, env, arena, root, thr⟩ := s
    obtain ⟨stack, troot⟩ := t
    have hst := R.stack
    cases st with
    | nil => right; rfl
    | cons c cs =>
      cases c with
      | arr p n => right; rfl
      | map p n pend =>
        cases stack with
        | nil => exact hst.elim
        | cons f fs =>
          obtain ⟨hc, hs⟩ := hst
          cases f with
          | arr _ => exact hc.elim
          | map ms pk =>
            obtain ⟨ps, h1, h2, h3, h4⟩ := hc
            cases pk with
            | some k' =>
              obtain ⟨h5, h6, p1, h7, h8, h9⟩ := h4
              subst h8; right; rfl
            | none =>
              obtain ⟨h5, h6, h7⟩ := h4
              subst h5
              by_cases hk : k.length > u16max
              · right; simp only [step, if_pos hk]
              · left
                have hk' : k.length < 2 ^ 16 := by simp [u16max] at hk; omega
                refine ⟨⟨.map (p ++ le16 k.length ++ le16 0 ++ k ++ List.replicate 16 0) (u32 (n + 1))
                    (some (p ++ le16 k.length ++ le16 0 ++ k).length) :: cs, env, arena, root, thr⟩, _,
                  by simp only [step, if_neg hk], rfl,
                  ⟨⟨⟨ps, h1, h2, h3, hk', ?_, _, ?_, rfl, rfl⟩, hs⟩, R.root⟩, rfl⟩
                · simp [h6, u32]
                · rw [h7]
  | beginArr n =>
    left
    exact ⟨_, _, rfl, rfl, ⟨⟨⟨[], rfl, by simp, rfl, by simp⟩, R.stack⟩, R.root⟩, rfl⟩
  | beginMap n =>
    left
    exact ⟨_, _, rfl, rfl, ⟨⟨⟨[], rfl, by simp, by simp, rfl, rfl, by simp⟩, R.stack⟩, R.root⟩, rfl⟩
  | endArr =>
    obtain ⟨st, env, arena, root, thr⟩ := s
    obtain ⟨stack, troot⟩ := t
    have hst := R.stack
    cases st with
    | nil => right; rfl
    | cons c cs =>
      cases c with
      | map p n pend => right; rfl
      | arr p n =>
        cases stack with
        | nil => exact hst.elim
        | cons f fs =>
          obtain ⟨hc, hs⟩ := hst
          cases f with
          | map _ _ => exact hc.elim
          | arr xs =>
            obtain ⟨ps, h1, h2, h3, h4⟩ := hc
            simp only [step, h2, h3, writeU32At_zero, Res.ok_bind, appendEnv]
            by_cases h5 : env.length > u32max
            · rw [if_pos h5]; right; rfl
            · rw [if_neg h5]
              have hofs : env.length < 2 ^ 32 := by simp [u32max] at h5; omega
              simp only [Res.ok_bind, le32_u32]
              rw [show u32 env.length = env.length from Nat.mod_eq_of_lt hofs]
              have R0 : Rel ⟨cs, env, arena, root, thr⟩ ⟨fs, troot⟩ := ⟨hs, R.root⟩
              have R' := R0.mono (le32 ps.length ++ (ps.map Prod.fst).flatten) []
              simp only [List.append_nil] at R'
              simp only [Tree.step, h1]
              refine deliver_sim R' (.arr ps _ hofs (At.self_end _ _) ?_)
              intro q hq
              have := (h4 q hq).mono (le32 ps.length ++ (ps.map Prod.fst).flatten) []
              simpa using this
  | endMap =>
    obtain ⟨st, env, arena, root, thr⟩ := s
    obtain ⟨stack, troot⟩ := t
    have hst := R.stack
    cases st with
    | nil => right; rfl
    | cons c cs =>
      cases c with
      | arr p n => right; rfl
      | map p n pend =>
        cases stack with
        | nil => exact hst.elim
        | cons f fs =>
          obtain ⟨hc, hs⟩ := hst
          cases f with
          | arr _ => exact hc.elim
          | map ms pk =>
            obtain ⟨ps, h1, h2, h3, h4⟩ := hc
            cases pk with
            | some k' =>
              obtain ⟨h5, h6, p1, h7, h8, h9⟩ := h4
              subst h8; right; rfl
            | none =>
              obtain ⟨h5, h6, h7⟩ := h4
              subst h5
              simp only [step, h6, h7, writeU32At_zero, Res.ok_bind, appendEnv]
              by_cases h8 : env.length > u32max
              · rw [if_pos h8]; right; rfl
              · rw [if_neg h8]
                have hofs : env.length < 2 ^ 32 := by simp [u32max] at h8; omega
                simp only [Res.ok_bind, le32_u32]
                rw [show u32 env.length = env.length from Nat.mod_eq_of_lt hofs]
                have R0 : Rel ⟨cs, env, arena, root, thr⟩ ⟨fs, troot⟩ := ⟨hs, R.root⟩
                have R' := R0.mono
                  (le32 ps.length ++ (ps.map (fun q => entry q.1 q.2.1)).flatten) []
                simp only [List.append_nil] at R'
                simp only [Tree.step, h1]
                refine deliver_sim R' (.map ps _ hofs (At.self_end _ _) h2 ?_)
                intro q hq
                have := (h3 q hq).mono
                  (le32 ps.length ++ (ps.map (fun q => entry q.1 q.2.1)).flatten) []
                simpa using this

theorem run_sim : ∀ (es : List Ev) {s : RS} {t : Tree}, Rel s t →
    Sim (writer.run s es) (t.run es) s.thr
  | [], s, t, R => .inl ⟨s, t, rfl, rfl, R, rfl⟩
  | e :: es, s, t, R => by
    rcases step_sim R e with ⟨s', t', h1, h2, h3, h4⟩ | h
    · have := run_sim es h3
      rw [h4] at this
      simpa [writer, h1, Tree.run, h2] using this
    · right; simp [writer, h]

theorem rel_init (thr : Nat) : Rel { thr := thr } {} := ⟨trivial, trivial⟩

/-! ## finish -/

theorem header_length (a b c : Nat) :
    (le32 Magic ++ le16 Version ++ le16 1 ++ le32 a ++ le32 b ++ le32 c).length = HeaderSize := rfl

/-- Everything `finish` establishes about the buffer it returns. -/
structure Finished (b : Bytes) (env arena : Bytes) (root : Nat) (arenaOfs : Nat) : Prop where
  eq : b = assemble env arena root arenaOfs
  arenaOfs_eq : arenaOfs = alignUp (HeaderSize + env.length) ArenaBaseAlign
  envLt : env.length < 2 ^ 32
  arenaLt : arena.length < 2 ^ 32
  arenaOfsLt : arenaOfs < 2 ^ 32
  rootLt : root < 2 ^ 32

theorem finish_sim {s : RS} {t : Tree} (R : Rel s t) :
    (∃ b v env arena root arenaOfs vr, finish s = .ok b ∧ t.finish = some v ∧
      Finished b env arena root arenaOfs ∧ At env root vr ∧ Repr env arena vr v) ∨
    finish s = .err .ser := by
  obtain ⟨st, env, arena, root, thr⟩ := s
  obtain ⟨stack, troot⟩ := t
  have hst := R.stack
  have hro := R.root
  cases st with
  | cons c cs => right; rfl
  | nil =>
    cases stack with
    | cons _ _ => exact hst.elim
    | nil =>
      have main : ∀ (env : Bytes) (o : Nat) (vr : Bytes) (v : Val), o < 2 ^ 32 → At env o vr →
          Repr env arena vr v →
          (∃ b env' arena' root arenaOfs,
            (if env.length > u32max then (.err .ser : Res Bytes)
              else if arena.length > u32max then .err .ser
              else if alignUp (HeaderSize + u32 env.length) ArenaBaseAlign > u32max then .err .ser
              else .ok (assemble env arena o
                (alignUp (HeaderSize + u32 env.length) ArenaBaseAlign))) = .ok b ∧
            Finished b env' arena' root arenaOfs ∧ env' = env ∧ arena' = arena ∧ root = o) ∨
          (if env.length > u32max then (.err .ser : Res Bytes)
              else if arena.length > u32max then .err .ser
              else if alignUp (HeaderSize + u32 env.length) ArenaBaseAlign > u32max then .err .ser
              else .ok (assemble env arena o
                (alignUp (HeaderSize + u32 env.length) ArenaBaseAlign))) = .err .ser := by
        intro env o vr v ho hat hr
        by_cases h1 : env.length > u32max
        · right; rw [if_pos h1]
        · by_cases h2 : arena.length > u32max
          · right; rw [if_neg h1, if_pos h2]
          · by_cases h3 : alignUp (HeaderSize + u32 env.length) ArenaBaseAlign > u32max
            · right; rw [if_neg h1, if_neg h2, if_pos h3]
            · left
              have l1 : env.length < 2 ^ 32 := by simp [u32max] at h1; omega
              have l2 : arena.length < 2 ^ 32 := by simp [u32max] at h2; omega
              refine ⟨_, env, arena, o, _, by rw [if_neg h1, if_neg h2, if_neg h3],
                ⟨rfl, by rw [u32, Nat.mod_eq_of_lt l1], l1, l2, ?_, ho⟩, rfl, rfl, rfl⟩
              simp [u32max] at h3; omega
      cases root with
      | some o =>
        cases troot with
        | none => exact hro.elim
        | some v =>
          obtain ⟨ho, vr, hat, hr⟩ := hro
          rcases main env o vr v ho hat hr with ⟨b, _, _, _, ao, h1, h2, rfl, rfl, rfl⟩ | h
          · left; exact ⟨b, v, _, _, _, ao, vr, h1, rfl, h2, hat, hr⟩
          · right; exact h
      | none =>
        cases troot with
        | some v => exact hro.elim
        | none =>
          by_cases hb : env.length > u32max
          · right; simp only [finish, writeRootVr, appendEnv, if_pos hb, Res.err_bind]
          · have hlt : env.length < 2 ^ 32 := by simp [u32max] at hb; omega
            have hu : u32 env.length = env.length := Nat.mod_eq_of_lt hlt
            have hfin : finish ⟨[], env, arena, none, thr⟩ =
                finish ⟨[], env ++ makeVr tNull 0 0 0 0 0, arena, some env.length, thr⟩ := by
              simp only [finish, writeRootVr, appendEnv, if_neg hb, Res.ok_bind, Res.pure_eq, hu]
            rw [hfin]
            rcases main (env ++ makeVr tNull 0 0 0 0 0) env.length _ .null hlt (At.self_end _ _)
              .null with ⟨b, _, _, _, ao, h1, h2, rfl, rfl, rfl⟩ | h
            · left
              exact ⟨b, .null, _, _, _, ao, _, h1, rfl, h2, At.self_end _ _, .null⟩
            · right; exact h

/-- Opening a finished buffer positions the reader at the root reference. -/
theorem Finished.opens {b env arena vr : Bytes} {root ao : Nat} (F : Finished b env arena root ao)
    (hat : At env root vr) (hl : vr.length = 16) :
    initFrom b = .ok ⟨b, env.length, ao, some (HeaderSize + root)⟩ ∧
    Holds ⟨b, env.length, ao, some (HeaderSize + root)⟩ env arena := by
  have hge := alignUp_ge (HeaderSize + env.length) ArenaBaseAlign
  have hdv := alignUp_dvd (HeaderSize + env.length) (a := ArenaBaseAlign) (by decide)
  rw [← F.arenaOfs_eq] at hge hdv
  have hbd := hat.bound
  rw [hl] at hbd
  have hb := F.eq
  have e1 := F.envLt
  have e2 := F.arenaLt
  have e3 := F.arenaOfsLt
  have e4 := F.rootLt
  have hlen : b.length = ao + arena.length := by
    rw [hb]; simp only [assemble, List.length_append, List.length_replicate, le32_length, le16_length]
    simp only [HeaderSize] at hge ⊢; omega
  -- header fields
  have hdr : At b 0 (le32 Magic ++ le16 Version ++ le16 1 ++ le32 root ++ le32 env.length ++ le32 ao) :=
    ⟨[], env ++ (List.replicate (ao - (HeaderSize + env.length)) 0 ++ arena), by
      rw [hb]; simp [assemble], rfl⟩
  have hc := readU32_at hdr.right
  have hb' := readU32_at hdr.left.right
  have ha := readU32_at hdr.left.left.right
  have hf := readU16_at hdr.left.left.left.right
  have hv := readU16_at hdr.left.left.left.left.right
  have hm := readU32_at hdr.left.left.left.left.left
  simp only [List.length_append, le32_length, le16_length] at hc hb' ha hf hv
  have hH : parseHeader b = .ok ⟨Magic, Version, 1, root, env.length, ao⟩ := by
    have hsz : HeaderSize ≤ b.length := by omega
    simp only [parseHeader, hsz, decide_true, Res.require_true, Res.ok_bind, hm, hv, hf, ha, hb', hc]
    simp only [Res.pure_eq, Nat.mod_eq_of_lt e1, Nat.mod_eq_of_lt e3, Nat.mod_eq_of_lt e4]
    rfl
  constructor
  · have hu : u32 (HeaderSize + env.length) = HeaderSize + env.length := by
      simp only [u32]; apply Nat.mod_eq_of_lt; omega
    have hw : u64 (env.length + 2 ^ 64 - 16) = env.length - 16 := by
      simp only [u64]; omega
    have d1 : env.length ≤ b.length := by omega
    have d2 : root < env.length := by omega
    have d3 : ao ≤ b.length := by omega
    have d5 : root ≤ env.length - 16 := by omega
    simp only [initFrom, hH, Res.ok_bind, hu, hw]
    simp [d1, d2, d3, d5, hdv, hge]
  · refine ⟨?_, ?_, rfl, ?_, e1, hdv⟩
    · exact ⟨le32 Magic ++ le16 Version ++ le16 1 ++ le32 root ++ le32 env.length ++ le32 ao,
        List.replicate (ao - (HeaderSize + env.length)) 0 ++ arena, by
          rw [hb]; simp [assemble], rfl⟩
    · refine ⟨le32 Magic ++ le16 Version ++ le16 1 ++ le32 root ++ le32 env.length ++ le32 ao ++ env
        ++ List.replicate (ao - (HeaderSize + env.length)) 0, [], by rw [hb]; simp [assemble], ?_⟩
      simp only [List.length_append, List.length_replicate, le32_length, le16_length]
      simp only [HeaderSize] at hge ⊢; omega
    · simp only [View.arenaLen, hlen]; omega

end Zer.Zera
