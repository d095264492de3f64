import Verif.Env.Lemmas
/-!
# Properties of the environment variables: C44, C45, C48, C49
-/
namespace Verif.Env

/-! ## C44: OSHMPI_AMO_OPS -/

/-- the value is one of the two special ones: it starts with `none` or `any_op` -/
def Special (s : List Char) : Prop := "none".toList <+: s ∨ "any_op".toList <+: s

theorem amo_good : GoodTbl amoTbl := by
  unfold GoodTbl; decide

theorem mem_amoOps (o : AmoOp) : o ∈ amoOps := by cases o <;> decide

theorem mem_amoTbl (e : List Char × Nat) : e ∈ amoTbl ↔ ∃ o : AmoOp, e = (o.name, o.shift) := by
  unfold amoTbl
  rw [List.mem_map]
  constructor
  · rintro ⟨o, _, rfl⟩; exact ⟨o, rfl⟩
  · rintro ⟨o, rfl⟩; exact ⟨o, mem_amoOps o, rfl⟩

theorem shift_inj (a b : AmoOp) (h : a.shift = b.shift) : a = b := by
  cases a <;> cases b <;> first | rfl | (exact absurd h (by decide))

theorem shift_lt (a : AmoOp) : a.shift < 14 := by cases a <;> decide

theorem shift_surj (i : Nat) (h : i < 14) : ∃ o : AmoOp, o.shift = i := by
  have : ∀ i : Fin 14, ∃ o ∈ amoOps, o.shift = i.val := by decide
  obtain ⟨o, _, ho⟩ := this ⟨i, h⟩
  exact ⟨o, ho⟩

theorem setEnv_plain {s : List Char} (h : ¬ Special s) : setEnvAmoOps s 0 = orBits amoTbl (tokens s) 0 := by
  unfold Special at h
  unfold setEnvAmoOps
  rw [if_neg (by simp only [startsWith, List.isPrefixOf_iff_prefix]; exact fun c => h (Or.inl c)),
    if_neg (by simp only [startsWith, List.isPrefixOf_iff_prefix]; exact fun c => h (Or.inr c))]
  simp only []
  split
  · rfl
  · rename_i hz
    exact (not_not.1 hz).symm

/-- Parsing: for every non-empty text that is not one of the special values, operation `o` is declared exactly if some
entry of the comma separated list starts with the name of `o`; no other bit is set. -/
theorem C44_parse_partial (s : List Char) (h0 : s ≠ []) (h : ¬ Special s) :
    (∀ o : AmoOp, (envAmoOps (some s)).testBit o.shift = true ↔ ∃ t, IsToken s t ∧ o.name <+: t) ∧
    envAmoOps (some s) < 2 ^ 14 := by
  have e : envAmoOps (some s) = orBits amoTbl (tokens s) 0 := by
    unfold envAmoOps
    simp only []
    rw [if_pos (by simpa using h0), setEnv_plain h]
  rw [e]
  constructor
  · intro o
    rw [testBit_orBits]
    simp only [Nat.zero_testBit, Bool.false_eq_true, false_or]
    constructor
    · rintro ⟨t, ht, hm⟩
      obtain ⟨e, he, h1, h2⟩ := firstMatch_mem hm
      obtain ⟨o', rfl⟩ := (mem_amoTbl e).1 he
      have := shift_inj _ _ h1
      subst this
      exact ⟨t, (mem_tokens s t).1 ht, h2⟩
    · rintro ⟨t, ht, hp⟩
      exact ⟨t, (mem_tokens s t).2 ht,
        firstMatch_of_prefix amo_good ((mem_amoTbl (o.name, o.shift)).2 ⟨o, rfl⟩) hp⟩
  · apply Nat.lt_pow_two_of_testBit
    intro i hi
    by_contra hc
    rw [Bool.not_eq_false, testBit_orBits] at hc
    simp only [Nat.zero_testBit, Bool.false_eq_true, false_or] at hc
    obtain ⟨t, _, hm⟩ := hc
    obtain ⟨e, he, h1, _⟩ := firstMatch_mem hm
    obtain ⟨o', rfl⟩ := (mem_amoTbl e).1 he
    have := shift_lt o'
    simp only [] at h1
    omega

/-- Exactness for well-formed lists: if every entry is one of the 14 names or starts with none of them, the declared set
is exactly the set of names that occur. -/
theorem C44_exact (s : List Char) (h0 : s ≠ []) (h : ¬ Special s)
    (hw : ∀ t, IsToken s t → (∃ o : AmoOp, t = o.name) ∨ ∀ o : AmoOp, ¬ o.name <+: t) (o : AmoOp) :
    (envAmoOps (some s)).testBit o.shift = true ↔ IsToken s o.name := by
  rw [(C44_parse_partial s h0 h).1 o]
  constructor
  · rintro ⟨t, ht, hp⟩
    rcases hw t ht with ⟨o', rfl⟩ | hn
    · have : ∀ a b : AmoOp, a.name <+: b.name → a = b := by
        intro a b
        cases a <;> cases b <;> first | (intro _; rfl) | (intro c; exact absurd c (by decide))
      rw [this o o' hp]; exact ht
    · exact absurd hp (hn o)
  · intro ht
    exact ⟨o.name, ht, List.prefix_refl _⟩

/-- the hypotheses of `C44_parse_partial` are met by "fadd,,fetch,foo" -/
example : "fadd,,fetch,foo".toList ≠ [] ∧ ¬ Special "fadd,,fetch,foo".toList ∧
    (∀ t, IsToken "fadd,,fetch,foo".toList t → (∃ o : AmoOp, t = o.name) ∨ ∀ o : AmoOp, ¬ o.name <+: t) ∧
    envAmoOps (some "fadd,,fetch,foo".toList) = 2 ^ 3 + 2 ^ 5 := by
  refine ⟨by decide, by unfold Special; decide, ?_, by decide⟩
  intro t ht
  rw [← mem_tokens] at ht
  have : tokens "fadd,,fetch,foo".toList = ["fadd".toList, "fetch".toList, "foo".toList] := by decide
  rw [this] at ht
  simp only [List.mem_cons, List.not_mem_nil, or_false] at ht
  rcases ht with rfl | rfl | rfl
  · exact Or.inl ⟨.fadd, rfl⟩
  · exact Or.inl ⟨.fetch, rfl⟩
  · right; intro o; cases o <;> decide

/-- not set or empty: all operations are declared; `none`: no operation -/
theorem C44_default : envAmoOps none = 2 ^ 14 - 1 ∧ envAmoOps (some []) = 2 ^ 14 - 1 ∧
    (∀ r, envAmoOps (some ("any_op".toList ++ r)) = 2 ^ 14 - 1) ∧ (∀ r, envAmoOps (some ("none".toList ++ r)) = 0) := by
  refine ⟨by decide, by decide, ?_, ?_⟩
  · intro r
    have : setEnvAmoOps ("any_op".toList ++ r) 0 = 2 ^ 14 - 1 := by
      unfold setEnvAmoOps
      rw [if_neg, if_pos]
      · decide
      · simp only [startsWith, List.isPrefixOf_iff_prefix]; exact ⟨r, rfl⟩
      · simp only [startsWith, List.isPrefixOf_iff_prefix]
        rintro ⟨q, hq⟩
        exact absurd (List.cons.inj hq).1 (by decide)
    unfold envAmoOps
    simp only []
    rw [if_pos (by simp), this]
  · intro r
    have : setEnvAmoOps ("none".toList ++ r) 0 = 0 := by
      unfold setEnvAmoOps
      rw [if_pos]
      simp only [startsWith, List.isPrefixOf_iff_prefix]; exact ⟨r, rfl⟩
    unfold envAmoOps
    simp only []
    rw [if_pos (by simp), this]

/-- Round trip: for every set of operations, parsing the printed text yields the set again. -/
theorem C44_roundtrip (ops : Nat) (h : ops < 2 ^ 14) : envAmoOps (some (getstrAmoOps ops)) = ops := by
  by_cases hz : ops = 0
  · subst hz; decide
  have bits : ∀ i, (orBits amoTbl (tokens (printGo ops amoTbl [])) 0).testBit i = ops.testBit i := by
    intro i
    rw [Bool.eq_iff_iff, orBits_print amo_good]
    constructor
    · rintro ⟨e, _, hv, rfl⟩; exact hv
    · intro hv
      have hi : i < 14 := by
        by_contra hc
        rw [Nat.testBit_lt_two_pow (Nat.lt_of_lt_of_le h (Nat.pow_le_pow_right (by omega) (by omega)))] at hv
        cases hv
      obtain ⟨o, rfl⟩ := shift_surj i hi
      exact ⟨(o.name, o.shift), (mem_amoTbl _).2 ⟨o, rfl⟩, hv, rfl⟩
  have heq : orBits amoTbl (tokens (printGo ops amoTbl [])) 0 = ops := Nat.eq_of_testBit_eq bits
  have hne : printGo ops amoTbl [] ≠ [] := by
    intro hc
    rw [hc] at heq
    exact hz (heq.symm.trans (by decide))
  have hs : ¬ Special (printGo ops amoTbl []) := by
    rcases printGo_head amoTbl ops with hc | ⟨e, he, hp⟩
    · exact absurd hc hne
    · obtain ⟨o, rfl⟩ := (mem_amoTbl e).1 he
      rintro (hn | hn)
      · rcases List.prefix_or_prefix_of_prefix hp hn with g | g <;> revert g <;> cases o <;> decide
      · rcases List.prefix_or_prefix_of_prefix hp hn with g | g <;> revert g <;> cases o <;> decide
  have hp : getstrAmoOps ops = printGo ops amoTbl [] := by
    unfold getstrAmoOps printTbl
    simp only []
    rw [if_neg (by simpa using hne)]
  rw [hp]
  unfold envAmoOps
  simp only []
  rw [if_pos (by simpa using hne), setEnv_plain hs, heq]

example : (5 : Nat) < 2 ^ 14 ∧ getstrAmoOps 37 = "cswap,inc,fetch".toList := by decide

/-- What fails: names are compared as prefixes ("order" declares `or`), a list that starts with `none` declares nothing
although it names operations, and "all", which the README describes as identical to the full list, declares nothing. -/
theorem C44_fails :
    (envAmoOps (some "order".toList) = 2 ^ AmoOp.or.shift ∧ ¬ IsToken "order".toList AmoOp.or.name) ∧
    (IsToken "none,cswap".toList AmoOp.cswap.name ∧ envAmoOps (some "none,cswap".toList) = 0) ∧
    envAmoOps (some "all".toList) = 0 := by
  refine ⟨⟨by decide, ?_⟩, ⟨?_, by decide⟩, by decide⟩
  · rw [← mem_tokens]; decide
  · rw [← mem_tokens]; decide

/-! ## C45: when AMOs may use MPI accumulates directly -/

/-- the MPI operation an AMO is mapped to on the direct path (amo_impl.h L74-137 and the public functions: inc/add are
MPI_SUM, fetch MPI_NO_OP, set/swap MPI_REPLACE) -/
def AmoOp.acc : AmoOp → AccOp
  | .cswap => .cswap
  | .finc | .inc | .fadd | .add => .sum
  | .fetch => .noop
  | .set | .swap => .replace
  | .fand | .and => .band
  | .for | .or => .bor
  | .fxor | .xor => .bxor

/-- MPI standard, info key "accumulate_ops": with `same_op` concurrent accumulates to the same address must use the same
operation; with `same_op_no_op` they may in addition use MPI_NO_OP -/
def Atomic (h : AccHint) (a b : AccOp) : Prop := a = b ∨ (h = .sameOpNoOp ∧ (a = .noop ∨ b = .noop))

instance (h : AccHint) (a b : AccOp) : Decidable (Atomic h a b) := by unfold Atomic; infer_instance

theorem zero_bit {ops : Nat} {o : AmoOp} (h : ops.testBit o.shift = true) : ops ≠ 0 := by
  rintro rfl; simp at h

/-- the seven classes as a function of what is declared -/
def whichB (c f r n o x : Bool) : List AccOp :=
  (if c then [AccOp.cswap] else []) ++ [AccOp.sum] ++ (if f then [AccOp.noop] else []) ++
  (if r then [AccOp.replace] else []) ++ (if n then [AccOp.band] else []) ++ (if o then [AccOp.bor] else []) ++
  (if x then [AccOp.bxor] else [])

theorem whichOps_eq {ops : Nat} (hz : ops ≠ 0) : whichOps ops =
    whichB (ops.testBit AmoOp.cswap.shift) (ops.testBit AmoOp.fetch.shift)
      (ops.testBit AmoOp.set.shift || ops.testBit AmoOp.swap.shift)
      (ops.testBit AmoOp.fand.shift || ops.testBit AmoOp.and.shift)
      (ops.testBit AmoOp.for.shift || ops.testBit AmoOp.or.shift)
      (ops.testBit AmoOp.fxor.shift || ops.testBit AmoOp.xor.shift) := by
  have : (ops != 0) = true := by simpa using hz
  unfold whichOps whichB
  simp only [this, Bool.or_true, Bool.true_or, if_true]

theorem whichB_len : ∀ c f r n o x : Bool,
    ((whichB c f r n o x).length = 1 ↔ c = false ∧ f = false ∧ r = false ∧ n = false ∧ o = false ∧ x = false) ∧
    ((whichB c f r n o x).length = 2 ∧ f = true ↔ c = false ∧ f = true ∧ r = false ∧ n = false ∧ o = false ∧ x = false) := by
  intro c f r n o x
  cases c <;> cases f <;> cases r <;> cases n <;> cases o <;> cases x <;> decide

theorem other_false {ops : Nat}
    (h : ops.testBit AmoOp.cswap.shift = false ∧
      (ops.testBit AmoOp.set.shift || ops.testBit AmoOp.swap.shift) = false ∧
      (ops.testBit AmoOp.fand.shift || ops.testBit AmoOp.and.shift) = false ∧
      (ops.testBit AmoOp.for.shift || ops.testBit AmoOp.or.shift) = false ∧
      (ops.testBit AmoOp.fxor.shift || ops.testBit AmoOp.xor.shift) = false) (o : AmoOp)
    (ho : ops.testBit o.shift = true) : o.acc = .sum ∨ o.acc = .noop := by
  obtain ⟨h1, h2, h3, h4, h5⟩ := h
  rw [Bool.or_eq_false_iff] at h2 h3 h4 h5
  cases o <;> first
    | exact Or.inl rfl
    | exact Or.inr rfl
    | (rw [h1] at ho; cases ho)
    | (rw [h2.1] at ho; cases ho)
    | (rw [h2.2] at ho; cases ho)
    | (rw [h3.1] at ho; cases ho)
    | (rw [h3.2] at ho; cases ho)
    | (rw [h4.1] at ho; cases ho)
    | (rw [h4.2] at ho; cases ho)
    | (rw [h5.1] at ho; cases ho)
    | (rw [h5.2] at ho; cases ho)

theorem other_false' {ops : Nat}
    (h : ∀ o : AmoOp, ops.testBit o.shift = true → o.acc = .sum ∨ o.acc = .noop) :
    ops.testBit AmoOp.cswap.shift = false ∧
      (ops.testBit AmoOp.set.shift || ops.testBit AmoOp.swap.shift) = false ∧
      (ops.testBit AmoOp.fand.shift || ops.testBit AmoOp.and.shift) = false ∧
      (ops.testBit AmoOp.for.shift || ops.testBit AmoOp.or.shift) = false ∧
      (ops.testBit AmoOp.fxor.shift || ops.testBit AmoOp.xor.shift) = false := by
  have f : ∀ o : AmoOp, o.acc ≠ .sum → o.acc ≠ .noop → ops.testBit o.shift = false := by
    intro o h1 h2
    cases hb : ops.testBit o.shift with
    | false => rfl
    | true => rcases h o hb with c | c <;> contradiction
  rw [f .cswap (by decide) (by decide), f .set (by decide) (by decide), f .swap (by decide) (by decide),
    f .fand (by decide) (by decide), f .and (by decide) (by decide), f .for (by decide) (by decide),
    f .or (by decide) (by decide), f .fxor (by decide) (by decide), f .xor (by decide) (by decide)]
  decide

/-- what a direct decision looks like -/
theorem direct_shape {ops : Nat} (hz : ops ≠ 0)
    (h : ∀ o : AmoOp, ops.testBit o.shift = true → o.acc = .sum ∨ o.acc = .noop) :
    setMpiInfoArgs ops = if ops.testBit AmoOp.fetch.shift = true then ⟨[.sum, .noop], .sameOpNoOp, true⟩
      else ⟨[.sum], .sameOp, true⟩ := by
  obtain ⟨h1, h2, h3, h4, h5⟩ := other_false' h
  unfold setMpiInfoArgs
  rw [whichOps_eq hz, h1, h2, h3, h4, h5]
  cases ops.testBit AmoOp.fetch.shift <;> decide

/-- exactly when the direct path is chosen by the code: some operation is declared and all declared ones are additions or
fetches -/
theorem C45_direct_iff (ops : Nat) : (setMpiInfoArgs ops).direct = true ↔
    ops ≠ 0 ∧ ∀ o : AmoOp, ops.testBit o.shift = true → o.acc = .sum ∨ o.acc = .noop := by
  by_cases hz : ops = 0
  · subst hz
    constructor
    · intro h; exact absurd h (by decide)
    · rintro ⟨h, _⟩; exact absurd rfl h
  constructor
  · intro hd
    refine ⟨hz, ?_⟩
    unfold setMpiInfoArgs at hd
    rw [whichOps_eq hz] at hd
    simp only [(whichB_len _ _ _ _ _ _).1, (whichB_len _ _ _ _ _ _).2] at hd
    split at hd
    · rename_i h
      exact other_false ⟨h.1, h.2.2⟩
    · split at hd
      · rename_i h
        exact other_false ⟨h.1, h.2.2⟩
      · cases hd
  · rintro ⟨_, ha⟩
    rw [direct_shape hz ha]
    split <;> rfl

/-- For every declared set: if the direct path is chosen, any two declared AMOs (also one with itself) are mutually
atomic under the hint passed to MPI, and every declared AMO is in the list of operations announced to MPI. With the
default configuration (auto) the run-time choice is exactly this one, a function of the declared set alone. -/
theorem C45_direct_atomic (ops : Nat)
    (hd : directAmo .auto .auto (setMpiInfoArgs ops).direct = true) (a b : AmoOp)
    (ha : ops.testBit a.shift = true) (hb : ops.testBit b.shift = true) :
    Atomic (setMpiInfoArgs ops).hint a.acc b.acc ∧ a.acc ∈ (setMpiInfoArgs ops).which := by
  have hd : (setMpiInfoArgs ops).direct = true := by simpa [directAmo] using hd
  have hall := (C45_direct_iff ops).1 hd
  rw [direct_shape hall.1 hall.2]
  have noF : ∀ o : AmoOp, ops.testBit o.shift = true → ops.testBit AmoOp.fetch.shift = false → o.acc = .sum := by
    intro o ho hf
    rcases hall.2 o ho with c | c
    · exact c
    · have : o = .fetch := by cases o <;> first | rfl | (exact absurd c (by decide))
      subst this
      rw [hf] at ho; cases ho
  cases hf : ops.testBit AmoOp.fetch.shift with
  | true =>
    rw [if_pos rfl]
    refine ⟨?_, by rcases hall.2 a ha with c | c <;> rw [c] <;> simp⟩
    rcases hall.2 a ha with c | c <;> rcases hall.2 b hb with c' | c' <;> rw [c, c'] <;> decide
  | false =>
    rw [if_neg (by simp), noF a ha hf, noF b hb hf]
    decide

/-- hypotheses met: {finc, add, fetch} is direct -/
example : directAmo .auto .auto (setMpiInfoArgs (2 ^ 1 + 2 ^ 4 + 2 ^ 5)).direct = true ∧
    (2 ^ 1 + 2 ^ 4 + 2 ^ 5 : Nat).testBit AmoOp.finc.shift = true ∧
    (2 ^ 1 + 2 ^ 4 + 2 ^ 5 : Nat).testBit AmoOp.fetch.shift = true := by decide

/-- every declared operation is announced, whether direct or not -/
theorem C45_which_covers (ops : Nat) (a : AmoOp) (ha : ops.testBit a.shift = true) :
    a.acc ∈ (setMpiInfoArgs ops).which := by
  have hz := zero_bit ha
  have : (setMpiInfoArgs ops).which = whichOps ops := by
    unfold setMpiInfoArgs
    simp only []
    split
    · rfl
    · split <;> rfl
  rw [this, whichOps_eq hz]
  unfold whichB
  cases a <;> simp only [AmoOp.acc, ha, Bool.true_or, Bool.or_true, if_true] <;> simp

/-- The converse in the README ("if all PEs issue concurrent AMOs only with the same operation ... OSHMPI can directly
utilize MPI accumulate operations") fails for every single operation that is not an addition or a fetch: L60 tests
`amo_ops` without a mask, so MPI_SUM is counted too. -/
theorem C45_single_op_not_direct (o : AmoOp) (h1 : o.acc ≠ .sum) (h2 : o.acc ≠ .noop) :
    (setMpiInfoArgs (2 ^ o.shift)).direct = false := by
  cases o <;> first | (exact absurd rfl h1) | (exact absurd rfl h2) | decide

example : AmoOp.cswap.acc ≠ .sum ∧ AmoOp.cswap.acc ≠ .noop := by decide

/-- The hint does not cover what the library issues on the same windows itself: with {inc} declared the hint is `same_op`,
but `shmem_wait_until` polls with MPI_NO_OP (p2p_impl.h); and for every declared set the lock's MPI_REPLACE and
compare-and-swap on one word (lock_impl.h) are not mutually atomic under the hint. -/
theorem C45_library_ops_not_covered :
    ((setMpiInfoArgs (2 ^ AmoOp.inc.shift)).direct = true ∧
      ¬ Atomic (setMpiInfoArgs (2 ^ AmoOp.inc.shift)).hint AmoOp.inc.acc .noop) ∧
    ∀ ops, ¬ Atomic (setMpiInfoArgs ops).hint .replace .cswap := by
  refine ⟨by decide, ?_⟩
  intro ops h
  rcases h with h | ⟨_, h | h⟩ <;> cases h

/-- The two explicit overrides (configure `--enable-amo=direct`, debug mode `direct`) take the direct path whatever is
declared; `--enable-amo=am` and debug mode `am` never take it. -/
theorem C45_overrides (dbg : Dbg) (d : Bool) : directAmo .direct dbg d = true ∧ directAmo .am dbg d = false ∧
    directAmo .auto .direct d = true ∧ directAmo .auto .am d = false := by
  cases dbg <;> cases d <;> decide

/-- the printed debug mode parses to itself (whatever was set before for `am` and `direct`; `auto` leaves the default) -/
theorem C44_dbg_roundtrip (m : Dbg) : setEnvDbg (getstrDbg m) .auto = m := by cases m <;> decide

/-! ## C49: device memory -/

/-- For all features, buffers and operations in the default configuration: a transfer that involves no device memory is
direct; one that does is direct iff its feature is enabled, goes through active messages iff it is not but `pt2pt` is,
and aborts iff neither is. -/
theorem C49_decision (features : Nat) (originDev : Bool) (kind : MemKind) (op : RmaOp) :
    directRma .auto .auto features originDev kind op =
      if kind = .host ∧ originDev = false then .ok true
      else if features.testBit (match op with | .put => 1 | .get => 2) then .ok true
      else if features.testBit 0 then .ok false
      else .abort := by
  unfold directRma checkGpuDirectRma
  generalize features.testBit 0 = b0
  cases op
  · simp only []
    generalize features.testBit 1 = b1
    cases kind <;> cases originDev <;> cases b0 <;> cases b1 <;> rfl
  · simp only []
    generalize features.testBit 2 = b1
    cases kind <;> cases originDev <;> cases b0 <;> cases b1 <;> rfl

/-- with host memory on both sides the features are irrelevant and nothing aborts, in every configuration -/
theorem C49_host (cfg : RmaCfg) (dbg : Dbg) (features : Nat) (op : RmaOp) :
    ∃ d, directRma cfg dbg features false .host op = .ok d ∧ (cfg = .auto → dbg = .auto → d = true) := by
  unfold directRma checkGpuDirectRma
  cases cfg <;> cases dbg <;> cases op <;> simp

theorem gpu_good : GoodTbl gpuTbl := by
  unfold GoodTbl; decide

/-- OSHMPI_MPI_GPU_FEATURES: for every set of features parsing the printed text yields the set; the default is all -/
theorem C49_features_roundtrip (f : Nat) (h : f < 2 ^ 4) : envGpu (some (getstrGpu f)) = f ∧ envGpu none = 15 ∧
    envGpu (some "all".toList) = 15 ∧ envGpu (some "none".toList) = 0 := by
  refine ⟨?_, by decide, by decide, by decide⟩
  have : ∀ i : Fin 16, envGpu (some (getstrGpu i.val)) = i.val := by decide
  exact this ⟨f, h⟩

/-- feature `e` is enabled iff its name starts an entry of the list -/
theorem C49_features_parse (s : List Char) (h0 : s ≠ []) (h1 : ¬ "none".toList <+: s) (h2 : ¬ "all".toList <+: s)
    (e : List Char × Nat) (he : e ∈ gpuTbl) :
    (envGpu (some s)).testBit e.2 = true ↔ ∃ t, IsToken s t ∧ e.1 <+: t := by
  have eq : envGpu (some s) = orBits gpuTbl (tokens s) 0 := by
    unfold envGpu setEnvGpu
    simp only []
    rw [if_pos (by simpa using h0), if_neg (by simpa [startsWith, List.isPrefixOf_iff_prefix] using h1),
      if_neg (by simpa [startsWith, List.isPrefixOf_iff_prefix] using h2)]
    split
    · rfl
    · rename_i hz
      exact (not_not.1 hz).symm
  rw [eq, testBit_orBits]
  simp only [Nat.zero_testBit, Bool.false_eq_true, false_or]
  constructor
  · rintro ⟨t, ht, hm⟩
    obtain ⟨e', he', g1, g2⟩ := firstMatch_mem hm
    have : e' = e := by
      have inj : ∀ a ∈ gpuTbl, ∀ b ∈ gpuTbl, a.2 = b.2 → a = b := by decide
      exact inj e' he' e he g1
    subst this
    exact ⟨t, (mem_tokens s t).1 ht, g2⟩
  · rintro ⟨t, ht, hp⟩
    exact ⟨t, (mem_tokens s t).2 ht, firstMatch_of_prefix gpu_good he hp⟩

example : "pt2pt,get".toList ≠ [] ∧ ¬ "none".toList <+: "pt2pt,get".toList ∧ ¬ "all".toList <+: "pt2pt,get".toList ∧
    envGpu (some "pt2pt,get".toList) = 5 := by decide

/-! ## C48: thread level -/

/-- the MPI side: a level is one of the four -/
def ThreadCfg.Wf (c : ThreadCfg) : Prop :=
  c.limit ≤ 3 ∧ (∀ l, c.mpiBefore = some l → l ≤ 3) ∧ ∀ r, c.mpiAnswer r ≤ 3

/-- the MPI thread level in force -/
def ThreadCfg.mpi (c : ThreadCfg) (asked : Nat) : Nat := match c.mpiBefore with
  | some l => l
  | none => c.mpiAnswer asked

/-- Without asynchronous thread: for all requests, MPI answers and build limits the provided level is the minimum of the
request, the build's limit and what MPI provides when asked for the minimum of the first two. Hence it is never above the
build limit, MPI's level or the request. -/
theorem C48_level (c : ThreadCfg) (hw : c.Wf) (ha : c.async = false) (r : Nat) (hr : r ≤ 3) :
    threadLevel c r = .ok (min (min r c.limit) (c.mpi (min r c.limit))) := by
  obtain ⟨h1, h2, h3⟩ := hw
  unfold threadLevel
  rw [if_neg (by omega), ha]
  simp only [Bool.false_eq_true, if_false, false_and]
  have e : (if c.limit = 0 ∧ 0 < r then 0 else if c.limit = 1 ∧ 1 < r then 1 else if c.limit = 2 ∧ 2 < r then 2 else r)
      = min r c.limit := by
    split
    · omega
    · split
      · omega
      · split <;> omega
  rw [e]
  congr 1
  show (if c.mpi (min r c.limit) < min r c.limit then c.mpi (min r c.limit) else min r c.limit) = _
  split <;> omega

/-- With asynchronous thread: either the level is MULTIPLE or the program is aborted; it is provided iff the build and
MPI support it. -/
theorem C48_async (c : ThreadCfg) (hw : c.Wf) (ha : c.async = true) (r : Nat) (hr : r ≤ 3) :
    threadLevel c r = if c.limit = 3 ∧ c.mpi 3 = 3 then .ok 3 else .abort := by
  obtain ⟨h1, h2, h3⟩ := hw
  have hm : ∀ a, c.mpi a ≤ 3 := by
    intro a
    unfold ThreadCfg.mpi
    cases hb : c.mpiBefore with
    | none => exact h3 a
    | some l => exact h2 l hb
  unfold threadLevel
  rw [if_neg (by omega), ha]
  simp only [if_true, true_and]
  have e : (if c.limit = 0 ∧ 0 < 3 then 0 else if c.limit = 1 ∧ 1 < 3 then 1 else if c.limit = 2 ∧ 2 < 3 then 2 else 3)
      = c.limit := by
    split
    · omega
    · split
      · omega
      · split <;> omega
  rw [e]
  show (if (if c.mpi c.limit < c.limit then c.mpi c.limit else c.limit) < 3 then Res.abort
    else .ok (if c.mpi c.limit < c.limit then c.mpi c.limit else c.limit)) = _
  have hm' := hm c.limit
  by_cases hl : c.limit = 3
  · rw [hl] at hm' ⊢
    by_cases h3' : c.mpi 3 = 3
    · simp [h3']
    · have : c.mpi 3 < 3 := by omega
      simp [this, h3']
  · rw [if_pos (by split <;> omega), if_neg (by tauto)]

/-- A request outside the four levels aborts. -/
theorem C48_unknown_aborts (c : ThreadCfg) (r : Nat) (hr : 3 < r) : threadLevel c r = .abort := by
  unfold threadLevel; rw [if_pos hr]

/-- For any sequence of `shmem_init_thread` calls that do not abort, starting uninitialised: the query returns what the
first call reported, every later call reports the same level, and every call reports success exactly if the level is at
least the requested one. -/
def initAll (c : ThreadCfg) : TState → List Nat → Res (TState × List (Nat × Int))
  | s, [] => .ok (s, [])
  | s, r :: rs => (initThread c s r).bind fun x => (initAll c x.1 rs).bind fun y => .ok (y.1, (x.2.1, x.2.2) :: y.2)

theorem initAll_inited (c : ThreadCfg) (rs : List Nat) : ∀ s : TState, s.inited = true →
    initAll c s rs = .ok (s, rs.map fun r => (s.level, if r ≤ s.level then (0 : Int) else -2)) := by
  induction rs with
  | nil => intro s _; rfl
  | cons r rs ih =>
    intro s hs
    unfold initAll initThread
    rw [if_pos hs]
    simp only [Res.bind_ok]
    rw [ih s hs]
    simp

theorem C48_query (c : ThreadCfg) (r : Nat) (rs : List Nat) (l0 : Nat) (s : TState) (out : List (Nat × Int))
    (h : initAll c ⟨false, l0⟩ (r :: rs) = .ok (s, out)) :
    threadLevel c r = .ok (queryThread s) ∧
    out = (r :: rs).map fun q => (queryThread s, if q ≤ queryThread s then (0 : Int) else -2) := by
  unfold initAll initThread at h
  rw [if_neg (by simp)] at h
  cases ht : threadLevel c r with
  | ok l =>
    rw [ht] at h
    simp only [Res.bind_ok] at h
    rw [initAll_inited c rs ⟨true, l⟩ rfl] at h
    simp only [Res.bind_ok] at h
    cases h
    exact ⟨rfl, rfl⟩
  | abort => rw [ht] at h; cases h
  | ub => rw [ht] at h; cases h
  | hang => rw [ht] at h; cases h

/-- a build limited to SERIALIZED over an MPI that grants everything: MULTIPLE requested, SERIALIZED provided, error
returned; asking for SINGLE later reports the level in force -/
example : initAll ⟨2, false, none, id⟩ ⟨false, 0⟩ [3, 0] = .ok (⟨true, 2⟩, [(2, -2), (2, 0)]) := by decide

example : (⟨2, false, none, fun r => min r 3⟩ : ThreadCfg).Wf := by
  refine ⟨by decide, ?_, ?_⟩
  · intro l h; cases h
  · intro r; show min r 3 ≤ 3; omega

end Verif.Env
