import Verif.Amo.Props
/-!
# Property C24, exactly: when a handler is undefined, and what it does otherwise
-/
namespace Verif.Amo

theorem opSint_ub {k v b : Nat} (hb : b < 256 ^ k)
    (h : ¬ (-(256 ^ k / 2 : Int) ≤ (BitVec.ofNat (8 * k) b).toInt + (BitVec.ofNat (8 * k) v).toInt ∧
      (BitVec.ofNat (8 * k) b).toInt + (BitVec.ofNat (8 * k) v).toInt < (256 ^ k / 2 : Int))) :
    opSint k .sum (v % 256 ^ k) b = .ub := by
  have e1 := sval_word k v
  have e2 := sval_word k b
  rw [Nat.mod_eq_of_lt hb] at e2
  simp only [opSint]
  rw [if_neg (by rw [e1, e2]; exact h)]

/-- an addition that overflows a signed type -/
theorem am_ub (fp : Fp) (junk m : Mem) (dest : Nat) {ty : TyIdx} {a : Api} (h : ty ∈ a.types) (hk : ty.kind = .sint ty.bytes)
    (ho : ¬ NoOverflow m dest ty.bytes a) : am fp junk m dest ty a = .ub := by
  unfold NoOverflow at ho
  push Not at ho
  obtain ⟨v, hv, ho⟩ := ho
  have hs : ty ∈ stdTypes := by cases a <;> simp only [Api.addend, reduceCtorEq] at hv <;> exact h
  have key : opOf fp ty .sum (v % 256 ^ ty.bytes) (m.load dest ty.bytes) = .ub := by
    unfold opOf
    simp only [hk]
    exact opSint_ub (Mem.load_lt _ _ _) (fun hc => absurd (ho hc.1) (not_le.mpr hc.2))
  have post : amPost fp junk m dest ty ty.bytes .sum v = .ub := by
    unfold amPost postCb
    simp only [(width_eq hs).1, load_fill, key]
    rfl
  have fetch : amFetch fp junk m dest ty ty.bytes .sum v = .ub := by
    unfold amFetch fetchCb
    rw [if_pos (by decide)]
    simp only [(width_eq hs).1, load_fill, key]
    rfl
  cases a <;> simp only [Api.addend, Option.some.injEq, reduceCtorEq] at hv <;> subst hv <;>
    simp only [am, post, fetch] <;> rfl

/-- C24. Signed types, exactly: the routine does what OpenSHMEM says if and only if its addition does not overflow; if it
does, the behaviour is undefined. -/
theorem C24_signed_iff (fp : Fp) (junk m : Mem) (dest : Nat) {ty : TyIdx} {a : Api} (h : ty ∈ a.types)
    (hk : ty.kind = .sint ty.bytes) :
    ((∃ r, am fp junk m dest ty a = .ok r ∧ Meets m dest ty.bytes a r) ↔ NoOverflow m dest ty.bytes a) ∧
    (¬ NoOverflow m dest ty.bytes a → am fp junk m dest ty a = .ub) := by
  refine ⟨⟨fun ⟨r, e, _⟩ => ?_, fun ho => am_int fp junk m dest h ?_ (fun _ => ho)⟩, am_ub fp junk m dest h hk⟩
  · by_contra ho
    rw [am_ub fp junk m dest h hk ho] at e
    cases e
  · constructor <;> rintro rfl <;> cases hk

/-- C24. All types: whenever the handler does not fail, it has done what OpenSHMEM says. -/
theorem C24_ok (fp : Fp) (junk m : Mem) (dest : Nat) {ty : TyIdx} {a : Api} (h : ty ∈ a.types) {r : Mem × Nat}
    (e : am fp junk m dest ty a = .ok r) : Meets m dest ty.bytes a r := by
  by_cases hf : ty = .float ∨ ty = .double
  · obtain ⟨r', e', hm⟩ := C24_fp fp junk m dest h hf
    rw [e] at e'
    cases e'
    exact hm
  · push Not at hf
    have ho : ty.kind = .sint ty.bytes → NoOverflow m dest ty.bytes a := by
      intro hk
      by_contra hn
      rw [am_ub fp junk m dest h hk hn] at e
      cases e
    obtain ⟨r', e', hm⟩ := am_int fp junk m dest h hf ho
    rw [e] at e'
    cases e'
    exact hm

/-- hypotheses met: an `int` next to overflow; adding 1 is fine, adding 2 is undefined -/
example : TyIdx.int ∈ (Api.add 1).types ∧ TyIdx.int.kind = .sint TyIdx.int.bytes ∧
    NoOverflow (Mem.store (fun _ => 7) 8 4 0x7ffffffe) 8 4 (.add 1) ∧
    ¬ NoOverflow (Mem.store (fun _ => 7) 8 4 0x7ffffffe) 8 4 (.add 2) := by
  refine ⟨by decide, by decide, ?_, ?_⟩
  · intro v hv
    cases hv
    decide
  · intro h
    exact absurd (h 2 rfl) (by decide)

end Verif.Amo
