import Verif.Flow.AmoEx
/-!
# C116: fetching additions that do not overlap

tests/int_amo.c L30-52: one PE calls `shmem_int_atomic_fetch_inc` ITER times on a counter of another PE and checks that call `x` returns `x`.
-/
namespace Verif.Flow
open Verif.Sobj Verif.Rma Verif.Vis Verif.Api
open Verif.Amo (TyIdx)

/-! ## Specification -/

/-- all calls on the object are fetching additions (`fetch_inc`, `fetch_add`, any version) -/
def FetchOnly (nm : Nat → Option (Nat × AName)) (N : Nat) : Prop :=
  ∀ k < N, ∀ p n, nm k = some (p, n) → n.rt.void = false ∧ (n.rt.operand n.value).isSome

/-- no PE is inside a call on the object: none waits for an access to its first byte -/
def Outside (g : G) (t : Nat) (a : Int) : Prop := ∀ q, ∀ b ∈ g.busy q, ¬ b.writes (t, a)

/-! ## Proof -/

section
variable {S : Sys} {N : Nat} {h : Nat → G} {ev : Nat → Ev} {t : Nat} {row : Row} {bases : Nat → BitVec 64} {off : BitVec 64}
  {nm : Nat → Option (Nat × AName)}

/-- a call on the object is one of the calls named -/
theorem named_amo (hb : row.mpi.bytes = row.ty.sizeof) (hm : Named S h ev N t row bases off nm) {k : Nat} (hk : k < N) {q : Nat} {ctx : Option (Nat × Nat)}
    {addr : BitVec 64} {op : Amo.Api} {ep : Nat} (he : ev k = .amo q t ctx addr (bases t + off).toInt row.mpi op ep) :
    ∃ n, nm k = some (q, n) ∧ n.rt.means n.cond n.value = op := by
  cases hn : nm k with
  | none =>
    have := bytes_pos row.mpi
    refine absurd ⟨(bases t + off).toInt, le_refl _, by omega, ?_⟩ (hm.2 k hk hn)
    rw [he]
    exact ⟨rfl, le_refl _, by dsimp only; omega⟩
  | some y =>
    obtain ⟨p, n⟩ := y
    have e := (aimed_ev (hm.1 k hk p n hn)).1
    rw [he] at e
    injection e with e1 _ _ _ _ _ e2 _
    exact ⟨n, by rw [e1], e2.symm⟩

/-- calls of PE `q` on the object that `P` describes -/
theorem none_called (hb : row.mpi.bytes = row.ty.sizeof) (hm : Named S h ev N t row bases off nm) {k : Nat} (hk : k ≤ N) {q : Nat} {P : Amo.Api → Bool}
    (hP : ∀ i < k, ∀ n, nm i = some (q, n) → P (n.rt.means n.cond n.value) = false) :
    ((List.range k).map ev).countP (Ev.isCall q fun i => decide (i.t = t ∧ i.a = (bases t + off).toInt ∧ i.ty = row.mpi) && P i.api) = 0 := by
  rw [List.countP_eq_zero]
  intro e he hc
  obtain ⟨i, hi, rfl⟩ := List.mem_map.1 he
  have hi := List.mem_range.1 hi
  cases e : ev i with
  | amo p' t' ctx addr a' ty' op ep =>
    rw [e] at hc
    simp only [Ev.isCall, Bool.and_eq_true, decide_eq_true_eq] at hc
    obtain ⟨rfl, ⟨rfl, rfl, rfl⟩, hc⟩ := hc
    obtain ⟨n, h1, h2⟩ := named_amo hb hm (by omega) e
    rw [← h2, hP i hi n h1] at hc
    cases hc
  | put _ _ _ _ _ _ _ => rw [e] at hc; cases hc
  | get _ _ _ _ _ _ _ => rw [e] at hc; cases hc
  | store _ _ _ => rw [e] at hc; cases hc
  | poll _ _ _ _ => rw [e] at hc; cases hc
  | touch _ _ => rw [e] at hc; cases hc
  | call _ _ => rw [e] at hc; cases hc
  | enter _ => rw [e] at hc; cases hc
  | leave _ => rw [e] at hc; cases hc
  | done _ _ _ => rw [e] at hc; cases hc
  | tau => rw [e] at hc; cases hc

/-- what was never called is not in flight -/
theorem none_flies (x : Exec S N h ev) (hb : row.mpi.bytes = row.ty.sizeof) (hn : Calm (h 0) t (bases t + off).toInt row.ty.sizeof)
    (hm : Named S h ev N t row bases off nm) {k : Nat} (hk : k ≤ N) {q : Nat} {P : Amo.Api → Bool}
    (hP : ∀ i < k, ∀ n, nm i = some (q, n) → P (n.rt.means n.cond n.value) = false) {b : Atom}
    (hf : (∃ y ∈ (h k).fly q, b ∈ y.todo) ∨ b ∈ (h k).busy q) :
    b.is (fun i => decide (i.t = t ∧ i.a = (bases t + off).toInt ∧ i.ty = row.mpi) && P i.api) = false := by
  have hpos := bytes_pos row.mpi
  have h1 := count_run q (fun i => decide (i.t = t ∧ i.a = (bases t + off).toInt ∧ i.ty = row.mpi) && P i.api)
    (exec_run fun j hj => x.step j (by omega) : Run S (h 0) ((List.range k).map ev) (h k))
  rw [calm_zero (hn _ (le_refl _) (by omega)), none_called hb hm hk hP] at h1
  have h2 : inFlight q (fun i => decide (i.t = t ∧ i.a = (bases t + off).toInt ∧ i.ty = row.mpi) && P i.api) (h k) = 0 := by omega
  unfold inFlight at h2
  obtain ⟨h3, h4⟩ := Nat.add_eq_zero_iff.1 h2
  rcases hf with ⟨y, hy, hb'⟩ | hb'
  · have := List.sum_eq_zero_iff.1 h3 _ (List.mem_map.2 ⟨y, hy, rfl⟩)
    have := List.countP_eq_zero.1 this b hb'
    simpa using this
  · have := List.countP_eq_zero.1 h4 b hb'
    simpa using this

theorem av_zero {a : Int} {ty : TyIdx} {b : Atom} (hb : b.is (fun i => decide (i.t = t ∧ i.a = a ∧ i.ty = ty)) = false) : av t a ty b = 0 := by
  cases b with
  | set d a' v => rfl
  | mv s sa d a' => rfl
  | upd d a' ty' api am =>
    simp only [Atom.is, decide_eq_false_iff_not] at hb
    exact if_neg hb

theorem outside_is {g : G} {a : Int} {ty : TyIdx} (ho : Outside g t a) :
    ∀ q, ∀ b ∈ g.busy q, b.is (fun i => decide (i.t = t ∧ i.a = a ∧ i.ty = ty)) = false := by
  intro q b hb'
  have h1 := ho q b hb'
  cases b with
  | set d a' v => rfl
  | mv s sa d a' => rfl
  | upd d a' ty' api am =>
    simp only [Atom.is, decide_eq_false_iff_not]
    rintro ⟨rfl, rfl, rfl⟩
    have := bytes_pos ty'
    exact h1 ⟨rfl, le_refl _, by dsimp only; omega⟩

/-- nothing in flight will add to the object -/
theorem fetch_total (x : Exec S N h ev) (hb : row.mpi.bytes = row.ty.sizeof) (hn : Calm (h 0) t (bases t + off).toInt row.ty.sizeof)
    (hm : Named S h ev N t row bases off nm) {k : Nat} (hk : k ≤ N) (hv : FetchOnly nm k) (ho : ∀ q, ∀ b ∈ (h k).busy q, b.is (fun i => decide (i.t = t ∧ i.a = (bases t + off).toInt ∧ i.ty = row.mpi)) = false) :
    total S t (bases t + off).toInt row.mpi (h k) = 0 := by
  refine Finset.sum_eq_zero fun q _ => ?_
  have e1 : flyv t (bases t + off).toInt row.mpi ((h k).fly q) = 0 := by
    unfold flyv
    refine List.sum_eq_zero fun v hv' => ?_
    obtain ⟨y, hy, rfl⟩ := List.mem_map.1 hv'
    refine avs_zero fun b hb' => av_zero ?_
    have h1 := none_flies x hb hn hm hk (q := q) (P := fun op => !yields op) (fun i hi n hn' => by
      rw [← returns_eq, means_void, (hv i hi q n hn').1]; rfl) (Or.inl ⟨y, hy, hb'⟩)
    have h2 := x.noRet hk q y hy b hb'
    cases b with
    | set d a' v => rfl
    | mv s sa d a' => rfl
    | upd d a' ty' api am =>
      simp only [Atom.inv] at h2
      have h3 : yields api = false := by
        cases hy : yields api with
        | false => rfl
        | true => rw [hy, if_pos rfl] at h2; cases h2
      simp only [Atom.is, h3, Bool.not_false, Bool.and_true] at h1 ⊢
      exact h1
  have e2 : avs t (bases t + off).toInt row.mpi ((h k).busy q) = 0 := by
    exact avs_zero fun b hb' => av_zero (ho q b hb')
  rw [e1, e2, add_zero]

/-- the sum of the operands, when nothing in a call's own accesses adds -/
theorem fetch_sum (x : Exec S N h ev) (hrow : row ∈ stdRows) (hn : Calm (h 0) t (bases t + off).toInt row.ty.sizeof)
    (hm : Named S h ev N t row bases off nm) {k : Nat} (hk : k ≤ N) (hv : FetchOnly nm k)
    (ho : ∀ q, ∀ b ∈ (h k).busy q, b.is (fun i => decide (i.t = t ∧ i.a = (bases t + off).toInt ∧ i.ty = row.mpi)) = false) :
    Api.wordAt ((h k).mem t) (bases t + off).toInt row.ty.sizeof =
      Api.wordAt ((h 0).mem t) (bases t + off).toInt row.ty.sizeof + BitVec.ofNat _ (operands nm k) := by
  have hb : row.mpi.bytes = row.ty.sizeof ∧ row.mpi ∈ Amo.stdTypes := by
    have : ∀ r ∈ stdRows, r.mpi.bytes = r.ty.sizeof ∧ r.mpi ∈ Amo.stdTypes := by decide
    exact this row hrow
  have hpos := bytes_pos row.mpi
  have hm' : Named S h ev k t row bases off nm := ⟨fun j hj => hm.1 j (by omega), fun j hj => hm.2 j (by omega)⟩
  have ha0 : Adds (h 0) t (bases t + off).toInt row.mpi := fun b hb' u h1 h2 h3 hw => absurd hw (by
    have := hn u.2 h2 (by rw [← hb.1]; exact h3) b hb'
    rw [← h1] at this
    exact this)
  have hs := sum_run hb.2 ha0 (exec_run fun j hj => x.step j (by omega) : Run S (h 0) ((List.range k).map ev) (h k)) (fun e he ht => by
    obtain ⟨i, hi, rfl⟩ := List.mem_map.1 he
    have hi := List.mem_range.1 hi
    cases hi' : nm i with
    | none =>
      unfold Ev.touches at ht
      rw [hb.1] at ht
      exact absurd ht (hm'.2 i hi hi')
    | some y =>
      obtain ⟨p, n⟩ := y
      obtain ⟨v, hv'⟩ := Option.isSome_iff_exists.1 (hv i hi p n hi').2
      exact ⟨p, _, _, _, _, v, (aimed_ev (hm'.1 i hi p n hi')).1, by rw [means_add]; exact hv'⟩)
  rw [fetch_total x hb.1 hn hm hk hv ho, total_zero (hn _ (le_refl _) (by omega)), add_zero, add_zero, added_named hb.1 hm'] at hs
  rw [← hb.1]
  exact hs

/-- **C116** An integer object that is changed only by fetching additions of any PEs: whenever no PE is inside such a call, whatever else is in flight, the
object has grown by exactly the sum of the operands of all calls so far, modulo its size. -/
theorem C116_counter (x : Exec S N h ev) (hrow : row ∈ stdRows) (hn : Calm (h 0) t (bases t + off).toInt row.ty.sizeof)
    (hm : Named S h ev N t row bases off nm) {k : Nat} (hk : k ≤ N) (hv : FetchOnly nm k) (ho : Outside (h k) t (bases t + off).toInt) :
    Api.wordAt ((h k).mem t) (bases t + off).toInt row.ty.sizeof =
      Api.wordAt ((h 0).mem t) (bases t + off).toInt row.ty.sizeof + BitVec.ofNat _ (operands nm k) :=
  fetch_sum x hrow hn hm hk hv (outside_is ho)

/-- **C116** What such a call returns: if no PE is inside a call on the object when it returns, the result and its own operand make up all that was added by
the calls up to now. So without overlapping calls each returns the first value plus all earlier operands. -/
theorem C116_fetch (x : Exec S N h ev) (hrow : row ∈ stdRows) (hn : Calm (h 0) t (bases t + off).toInt row.ty.sizeof)
    (hm : Named S h ev N t row bases off nm) {i j p r v : Nat} {n : AName} (he : Ended S h ev N i p n t row bases off j r)
    (hv : FetchOnly nm (j + 1)) (hop : n.rt.operand n.value = some v) (ho : Outside (h (j + 1)) t (bases t + off).toInt) :
    BitVec.ofNat (8 * row.ty.sizeof) r + BitVec.ofNat _ v =
      Api.wordAt ((h 0).mem t) (bases t + off).toInt row.ty.sizeof + BitVec.ofNat _ (operands nm (j + 1)) := by
  obtain ⟨a1, a2, a3, a4⟩ := he
  obtain ⟨h1, h2, _⟩ := C97_return x a1 a2 a3 a4
  rw [← C116_counter x hrow hn hm (by omega) hv ho, h2, h1, BitVec.ofNat_toNat, BitVec.setWidth_eq]
  exact (spec_add (by rw [means_add]; exact hop)).symm

/-- no other PE ever calls: then nobody but `p` is inside a call on the object -/
theorem only_outside (x : Exec S N h ev) (hb : row.mpi.bytes = row.ty.sizeof) (hn : Calm (h 0) t (bases t + off).toInt row.ty.sizeof)
    (hm : Named S h ev N t row bases off nm) {k : Nat} (hk : k ≤ N) {p : Nat} (hp : ∀ i < k, ∀ q n, nm i = some (q, n) → q = p)
    (hb0 : (h k).busy p = []) : ∀ q, ∀ b ∈ (h k).busy q, b.is (fun i => decide (i.t = t ∧ i.a = (bases t + off).toInt ∧ i.ty = row.mpi)) = false := by
  intro q b hb'
  by_cases hq : q = p
  · subst hq
    rw [hb0] at hb'
    cases hb'
  · have := none_flies x hb hn hm hk (q := q) (P := fun _ => true) (fun i hi n hn' => absurd (hp i hi q n hn') hq) (Or.inr hb')
    simpa using this

/-- **C116** One PE alone calls fetching additions on the object (tests/int_amo.c L33-42): every call returns exactly the first value plus the operands of all
its earlier calls; nothing is assumed about what else is in flight. With `fetch_inc` and first value 0, call number `x` returns `x`. -/
theorem C116_alone (x : Exec S N h ev) (hrow : row ∈ stdRows) (hn : Calm (h 0) t (bases t + off).toInt row.ty.sizeof)
    (hm : Named S h ev N t row bases off nm) {i j p r v : Nat} {n : AName} (he : Ended S h ev N i p n t row bases off j r)
    (hv : FetchOnly nm (j + 1)) (hop : n.rt.operand n.value = some v) (hp : ∀ k ≤ j, ∀ q n, nm k = some (q, n) → q = p) :
    BitVec.ofNat (8 * row.ty.sizeof) r + BitVec.ofNat _ v =
        Api.wordAt ((h 0).mem t) (bases t + off).toInt row.ty.sizeof + BitVec.ofNat _ (operands nm (j + 1)) ∧
    Api.wordAt ((h (j + 1)).mem t) (bases t + off).toInt row.ty.sizeof =
      Api.wordAt ((h 0).mem t) (bases t + off).toInt row.ty.sizeof + BitVec.ofNat _ (operands nm (j + 1)) := by
  have hb : row.mpi.bytes = row.ty.sizeof := by
    have : ∀ r ∈ stdRows, r.mpi.bytes = r.ty.sizeof := by decide
    exact this row hrow
  obtain ⟨a1, a2, a3, a4⟩ := he
  obtain ⟨h1, h2, _⟩ := C97_return x a1 a2 a3 a4
  have hs := fetch_sum x hrow hn hm (k := j + 1) (by omega) hv
    (only_outside x hb hn hm (by omega) (fun k hk => hp k (by omega)) a3.2.2.1)
  refine ⟨?_, hs⟩
  rw [← hs, h2, h1, BitVec.ofNat_toNat, BitVec.setWidth_eq]
  exact (spec_add (by rw [means_add]; exact hop)).symm

end

/-! ## Non-vacuity -/

namespace AEx

/-- Both PEs increment the counter of PE 1, one after the other, by different versions of `fetch_inc` (`exH`, Flow/AmoEx.lean): the second call returns 1, and the
counter is 2 in the end. -/
example : BitVec.ofNat 64 (exRes (exMem exM .finc) .finc) = 1 ∧ Api.wordAt ((exH .finc .finc 4).mem 1) (exBases 1 + 0x18#64).toInt exRow.ty.sizeof = 2 := by
  have x := exExec exOpF exOpF
  have hm : Named (exS true) (exH .finc .finc) (exE .finc .finc) 4 1 exRow exBases 0x18#64 exNm :=
    exNamed (l := []) (fun _ _ => rfl) (fun _ _ => rfl) (fun k h1 h2 => absurd h2 (by simpa using h1)) (fun e he => by cases he)
  have hv : FetchOnly exNm 4 := by
    intro k _ p n e
    match k, e with
    | 0, e => cases e; exact ⟨rfl, rfl⟩
    | 2, e => cases e; exact ⟨rfl, rfl⟩
    | 1, e => cases e
    | k + 3, e => cases e
  have a2 : Aimed (exS true) (exH .finc .finc) (exE .finc .finc) 2 1 exB 1 exRow exBases 0x18#64 :=
    exAim2 exOpF rfl rfl (by decide) rfl rfl rfl (fun _ => rfl)
  have ho : Outside (exH .finc .finc 4) 1 (exBases 1 + 0x18#64).toInt := by
    intro q b hb
    have h1 : (exG4 .finc .finc).busy q = [] := by
      show Function.update (Function.update (Function.update (Function.update (ginit exM).busy 0 [exU .finc]) 0 ([] ++ [])) 1 [exU .finc]) 1 ([] ++ []) q = []
      simp only [upd_at]
      split
      · rfl
      · split <;> rfl
    have hb : b ∈ (exG4 .finc .finc).busy q := hb
    rw [h1] at hb
    cases hb
  have e0 : Api.wordAt ((exH .finc .finc 0).mem 1) (exBases 1 + 0x18#64).toInt exRow.ty.sizeof = 0 := by decide +kernel
  have e1 := C116_fetch x (by decide) exCalm hm ⟨a2, rfl, (exRet _ _).2, by decide⟩ hv rfl ho
  have e2 := C116_counter x (by decide) exCalm hm (le_refl 4) hv ho
  rw [e0] at e1 e2
  have e3 : operands exNm 4 = 2 := by decide
  refine ⟨?_, by rw [e2]; show 0 + BitVec.ofNat _ (operands exNm 4) = _; rw [e3]; rfl⟩
  have e4 : BitVec.ofNat 64 (exRes (exMem exM .finc) .finc) + 1#64 = 0#64 + BitVec.ofNat 64 (operands exNm 4) := e1
  rw [e3] at e4
  have e5 : BitVec.ofNat 64 (exRes (exMem exM .finc) .finc) = (0#64 + BitVec.ofNat 64 2) - 1#64 := by rw [← e4]; simp
  rw [e5]
  rfl

/-- `C116_alone` for the call of PE 0 (step 0, returns in step 1): until then it is the only caller; the call returns 0 and the counter is 1. -/
example : Api.wordAt ((exH .finc .finc 2).mem 1) (exBases 1 + 0x18#64).toInt exRow.ty.sizeof = 1 := by
  have x := exExec exOpF exOpF
  have hm : Named (exS true) (exH .finc .finc) (exE .finc .finc) 4 1 exRow exBases 0x18#64 exNm :=
    exNamed (l := []) (fun _ _ => rfl) (fun _ _ => rfl) (fun k h1 h2 => absurd h2 (by simpa using h1)) (fun e he => by cases he)
  have a0 : Aimed (exS true) (exH .finc .finc) (exE .finc .finc) 0 0 exA 1 exRow exBases 0x18#64 :=
    exAim0 exOpF rfl rfl (by decide) rfl rfl rfl (fun _ => rfl)
  have e0 : Api.wordAt ((exH .finc .finc 0).mem 1) (exBases 1 + 0x18#64).toInt exRow.ty.sizeof = 0 := by decide +kernel
  have e1 := (C116_alone x (by decide) exCalm hm (j := 1) (v := 1) ⟨a0, rfl, (exRet _ _).1, by decide⟩
    (by
      intro k hk p n e
      match k, e with
      | 0, e => cases e; exact ⟨rfl, rfl⟩
      | 1, e => cases e) rfl
    (by
      intro k hk q n e
      match k, e with
      | 0, e => cases e; rfl
      | 1, e => cases e)).2
  rw [e0] at e1
  exact e1.trans (by show 0 + BitVec.ofNat _ (operands exNm 2) = _; rw [show operands exNm 2 = 1 by decide]; rfl)

end AEx

end Verif.Flow
