import Verif.P2p.Model
/-!
# Property C43: `wait_until`, `wait` and `test`
-/
namespace Verif.P2p

/-- the six relations, as OpenSHMEM lists them -/
inductive Cmp where
  | eq | ne | gt | ge | lt | le
deriving DecidableEq, Repr

/-- values of the public constants -/
def Cmp.code : Cmp → Int
  | .eq => 0x100001 | .ne => 0x100002 | .gt => 0x100003 | .ge => 0x100004 | .lt => 0x100005 | .le => 0x100006

/-- the mathematical relation on integers -/
def Cmp.rel : Cmp → Int → Int → Prop
  | .eq, a, b => a = b
  | .ne, a, b => a ≠ b
  | .gt, a, b => a > b
  | .ge, a, b => a ≥ b
  | .lt, a, b => a < b
  | .le, a, b => a ≤ b

theorem comp_rel (t : CTy) (a b : BitVec t.bits) (c : Cmp) (ret : Nat) :
    (c.rel (t.val a) (t.val b) → comp t a c.code b ret = 1) ∧ (¬ c.rel (t.val a) (t.val b) → comp t a c.code b ret = 0) := by
  cases c <;> simp [comp, Cmp.code, Cmp.rel]

/-- C43. `test` returns 1 if the relation holds for the value read and 0 otherwise, for every type and value. -/
theorem C43_test (t : CTy) (a b : BitVec t.bits) (c : Cmp) :
    (test t a c.code b = 1 ↔ c.rel (t.val a) (t.val b)) ∧ (test t a c.code b = 0 ↔ ¬ c.rel (t.val a) (t.val b)) := by
  have h := comp_rel t a b c 0
  unfold test
  by_cases hr : c.rel (t.val a) (t.val b)
  · rw [h.1 hr]; simp [hr]
  · rw [h.2 hr]; simp [hr]

/-- the number of a bit pattern: two's complement for signed, positional for unsigned types -/
theorem C43_val (t : CTy) (x : BitVec t.bits) :
    (t.signed = false → t.val x = x.toNat) ∧ (t.signed = true → t.val x = x.toInt) := by
  unfold CTy.val
  cases t.signed <;> simp

theorem waitLoop_spec (t : CTy) (obs : Nat → BitVec t.bits) (b : BitVec t.bits) (c : Cmp) :
    ∀ fuel i ret k v, waitLoop t obs c.code b fuel i ret = some (k, v) →
      i ≤ k ∧ v = obs k ∧ c.rel (t.val (obs k)) (t.val b) ∧
      ∀ j, i ≤ j → j < k → ¬ c.rel (t.val (obs j)) (t.val b) := by
  intro fuel
  induction fuel with
  | zero => intro i ret k v h; simp [waitLoop] at h
  | succ fuel ih =>
    intro i ret k v h
    simp only [waitLoop] at h
    have hc := comp_rel t (obs i) b c ret
    by_cases hr : c.rel (t.val (obs i)) (t.val b)
    · rw [hc.1 hr, if_pos (by decide)] at h
      simp only [Option.some.injEq, Prod.mk.injEq] at h
      obtain ⟨rfl, rfl⟩ := h
      exact ⟨Nat.le_refl _, rfl, hr, fun j h1 h2 => by omega⟩
    · rw [hc.2 hr, if_neg (by decide)] at h
      obtain ⟨h1, h2, h3, h4⟩ := ih _ _ _ _ h
      refine ⟨by omega, h2, h3, ?_⟩
      intro j hj hk
      by_cases e : j = i
      · subst e; exact hr
      · exact h4 j (by omega) hk

/-- C43. If `wait_until` returns, the last value it read satisfies the relation (and it is the first that does). -/
theorem C43_wait_safe {t : CTy} {obs : Nat → BitVec t.bits} {b : BitVec t.bits} {c : Cmp} {fuel k : Nat}
    {v : BitVec t.bits} (h : waitUntil t obs c.code b fuel = some (k, v)) :
    v = obs k ∧ c.rel (t.val v) (t.val b) ∧ ∀ j < k, ¬ c.rel (t.val (obs j)) (t.val b) := by
  obtain ⟨_, h2, h3, h4⟩ := waitLoop_spec t obs b c _ _ _ _ _ h
  exact ⟨h2, by rw [h2]; exact h3, fun j hj => h4 j (Nat.zero_le _) hj⟩

theorem waitLoop_live (t : CTy) (obs : Nat → BitVec t.bits) (b : BitVec t.bits) (c : Cmp) :
    ∀ fuel i ret n, i ≤ n → n < i + fuel → c.rel (t.val (obs n)) (t.val b) →
      ∃ k, k ≤ n ∧ waitLoop t obs c.code b fuel i ret = some (k, obs k) := by
  intro fuel
  induction fuel with
  | zero => intro i ret n h1 h2; omega
  | succ fuel ih =>
    intro i ret n h1 h2 hr
    simp only [waitLoop]
    have hc := comp_rel t (obs i) b c ret
    by_cases hi : c.rel (t.val (obs i)) (t.val b)
    · exact ⟨i, h1, by rw [hc.1 hi, if_pos (by decide)]⟩
    · have hne : i ≠ n := by rintro rfl; exact hi hr
      obtain ⟨k, hk, e⟩ := ih (i + 1) 0 n (by omega) (by omega) hr
      exact ⟨k, hk, by rw [hc.2 hi, if_neg (by decide)]; exact e⟩

/-- C43. `wait_until` returns at the latest with the first read that sees the relation true; so it returns if the
relation holds from some time on. -/
theorem C43_wait_live {t : CTy} {obs : Nat → BitVec t.bits} {b : BitVec t.bits} {c : Cmp} {n : Nat}
    (h : c.rel (t.val (obs n)) (t.val b)) {fuel : Nat} (hf : n < fuel) :
    ∃ k, k ≤ n ∧ waitUntil t obs c.code b fuel = some (k, obs k) :=
  waitLoop_live t obs b c fuel 0 0 n (Nat.zero_le _) (by omega) h

/-- C43. The deprecated `wait` returns exactly when a read differs from the given value. -/
theorem C43_wait_deprecated {t : CTy} {obs : Nat → BitVec t.bits} {b : BitVec t.bits} :
    (∃ fuel k v, wait t obs b fuel = some (k, v)) ↔ ∃ n, t.val (obs n) ≠ t.val b := by
  constructor
  · rintro ⟨fuel, k, v, h⟩
    have := C43_wait_safe (c := .ne) h
    exact ⟨k, by rw [← this.1]; exact this.2.1⟩
  · rintro ⟨n, h⟩
    obtain ⟨k, _, e⟩ := C43_wait_live (c := .ne) (n := n) (obs := obs) (b := b) h (Nat.lt_succ_self n)
    exact ⟨_, _, _, e⟩

theorem waitLoop_bad (t : CTy) (obs : Nat → BitVec t.bits) (b : BitVec t.bits) {op : Int}
    (h : op < 0x100001 ∨ 0x100006 < op) : ∀ fuel i, waitLoop t obs op b fuel i 0 = none := by
  intro fuel
  induction fuel with
  | zero => intro i; rfl
  | succ fuel ih =>
    intro i
    have : comp t (obs i) op b 0 = 0 := by
      unfold comp
      repeat rw [if_neg (by omega)]
    simp only [waitLoop]
    rw [this, if_neg (by decide)]
    exact ih _

/-- A code that is none of the six is not diagnosed: `test` says 0 and `wait_until` never returns (the assertion in
the default branch has the condition the wrong way round). -/
theorem C43_bad_code (t : CTy) (obs : Nat → BitVec t.bits) (a b : BitVec t.bits) {op : Int}
    (h : op < 0x100001 ∨ 0x100006 < op) : test t a op b = 0 ∧ ∀ fuel, waitUntil t obs op b fuel = none := by
  constructor
  · unfold test comp
    repeat rw [if_neg (by omega)]
  · intro fuel; exact waitLoop_bad t obs b h fuel 0

/-! ## Non-vacuity -/

/-- 0xffff is less than 1 as `short`, greater as `unsigned short` -/
example : test ⟨16, true⟩ 0xffff Cmp.lt.code 1 = 1 ∧ test ⟨16, false⟩ 0xffff Cmp.lt.code 1 = 0 := by decide

example : waitUntil ⟨32, true⟩ (fun n => if n < 3 then 5 else 0xffffffff) Cmp.lt.code 0 10 = some (3, 0xffffffff) := by
  decide

end Verif.P2p
