import Verif.Coll.ExactStrided
/-!
# Puts and gets for every count

The number of elements is a `size_t`, MPI gets an `int` (rma_impl.h L28-29), and so does the handler of an active message for the number of bytes
(rma_am_impl.h L25, rma_am_impl.c L19). Here: what contiguous puts and gets do for every count.
-/
namespace Verif.Rma
open Verif.Sobj Verif.Coll

theorem flat_basic_len (n k : Nat) : ((Ty.basic k).flat n).length = n * k := by
  rw [flat_basic, idx_range, List.length_map, List.length_range]

/-- the number of bytes a handler sees: only the low 32 bits of the count matter -/
theorem bytes_wrap (k N : Nat) : toI32 (toSize (k * N)) = toI32 (k * (N % 2 ^ 32)) := by
  have h : toSize (k * N) % 2 ^ 32 = k * (N % 2 ^ 32) % 2 ^ 32 := by
    unfold toSize
    rw [Nat.mod_mod_of_dvd _ (by decide : 2 ^ 32 ∣ 2 ^ 64), Nat.mul_mod, Nat.mul_mod k (N % 2 ^ 32), Nat.mod_mod]
  unfold toI32
  rw [Int.bmod_def, Int.bmod_def]
  omega

/-- a message into a larger buffer -/
theorem msg_short (src dst : IMem) (sa da : Int) {R n k : Nat} (h : R ≤ n * k) (h1 : R < 2 ^ 31) (h2 : n < 2 ^ 31) :
    ∃ r, mpiMsg src dst sa (R : Int) (Ty.basic 1) da (n : Int) (Ty.basic k) = .ok r ∧ Copied src dst r sa da R := by
  have _ := h1; have _ := h2
  have e1 : (Ty.basic 1).flat R = (List.range R).map (fun (x : Nat) => (x : Int)) := by
    rw [flat_basic, idx_range, Nat.mul_one]
  have e2 : (Ty.basic k).flat n = (List.range (n * k)).map (fun (x : Nat) => (x : Int)) := by rw [flat_basic, idx_range]
  unfold mpiMsg addrs
  rw [if_neg (by omega)]
  simp only [Int.toNat_natCast]
  rw [if_neg (by rw [List.length_map, List.length_map, flat_basic_len, flat_basic_len]; omega)]
  refine ⟨_, rfl, ?_⟩
  have hz : (((Ty.basic k).flat n).map (fun d => da + d)).zip ((((Ty.basic 1).flat R).map (fun d => sa + d)).map src) =
      (((Ty.basic 1).flat R).map (fun d => da + d)).zip ((((Ty.basic 1).flat R).map (fun d => sa + d)).map src) := by
    have e3 : n * k = R + (n * k - R) := by omega
    rw [e1, e2, e3, List.range_add, List.map_append, List.map_append]
    generalize hl : (((List.range R).map (fun (x : Nat) => (x : Int))).map (fun d => sa + d)).map src = l
    have hlen : l.length = R := by rw [← hl]; simp
    conv => lhs; rw [← List.append_nil l]
    rw [List.zip_append (by rw [List.length_map, List.length_map, List.length_range, hlen]), List.zip_nil_right, List.append_nil]
  rw [hz]
  have := contig_copied src dst sa da R 1
  rw [Nat.mul_one, ← flat_basic] at this
  exact this

/-- **C17** put, every count. Only the low 32 bits `n'` of the count matter. With MPI operations `n'` elements are copied, or, if `n'` is 2^31 or more, the
program is aborted. With active messages they are copied if they are fewer than 2^31 bytes, otherwise the program is aborted. -/
theorem C17_put_counts (procs : Nat → Proc) (path : Path) (ctx : Option (Obj × Attr)) (k me pe : Nat) (origin target r : BitVec 64) (N : Nat) (m : Mems)
    (hr : resolve procs path ctx me pe target = .ok r) :
    (N % 2 ^ 32 < 2 ^ 31 ∧ (path = .am → k * (N % 2 ^ 32) < 2 ^ 31) → ∃ m', ctxPut procs path ctx k k me pe origin target N m = .ok m' ∧
      Copied (m me) (m pe) (m' pe) origin.toInt r.toInt (N % 2 ^ 32 * k) ∧ ∀ q, q ≠ pe → m' q = m q) ∧
    (¬ (N % 2 ^ 32 < 2 ^ 31 ∧ (path = .am → k * (N % 2 ^ 32) < 2 ^ 31)) → ctxPut procs path ctx k k me pe origin target N m = .abort) := by
  unfold ctxPut
  constructor
  · rintro ⟨hN, ham⟩
    by_cases h0 : N = 0
    · subst h0
      rw [if_pos rfl]
      exact ⟨m, rfl, copied_zero _ _ _ _ _, fun _ _ => rfl⟩
    rw [if_neg h0, hr]
    simp only [Res.bind_ok]
    have hx := contig_xfer (m me) (m pe) origin.toInt r.toInt (N % 2 ^ 32) k hN
    rw [← toI32_wrap hN] at hx
    cases path with
    | direct mode =>
      obtain ⟨x, e, hc⟩ := hx.1
      simp only
      rw [e]
      exact ⟨_, rfl, by rw [Function.update_self]; exact hc, fun q hq => Function.update_of_ne hq _ _⟩
    | am =>
      obtain ⟨x, e, hc⟩ := (hx.2 (ham rfl)).1
      simp only
      rw [toSize_lt (ham rfl), ← bytes_wrap] at e
      rw [e]
      exact ⟨_, rfl, by rw [Function.update_self]; exact hc, fun q hq => Function.update_of_ne hq _ _⟩
  · intro hno
    have h0 : N ≠ 0 := by
      rintro rfl
      exact hno ⟨by decide, fun _ => by simp⟩
    rw [if_neg h0, hr]
    simp only [Res.bind_ok]
    by_cases hN : N % 2 ^ 32 < 2 ^ 31
    · have ham : path = .am ∧ ¬ k * (N % 2 ^ 32) < 2 ^ 31 := by
        by_contra hc
        exact hno ⟨hN, fun e => by by_contra h; exact hc ⟨e, h⟩⟩
      obtain ⟨rfl, hb⟩ := ham
      simp only
      rw [bytes_wrap]
      unfold mpiMsg
      by_cases hR : k * (N % 2 ^ 32) % 2 ^ 32 < 2 ^ 31
      · rw [toI32_mod hN, toI32_mod hR, if_neg (by omega)]
        simp only [Int.toNat_natCast]
        rw [if_pos]
        · rfl
        · unfold addrs
          rw [List.length_map, List.length_map, flat_basic_len, flat_basic_len, Nat.mul_comm (N % 2 ^ 32) k]
          generalize k * (N % 2 ^ 32) = y at *
          omega
      · rw [if_pos (Or.inr (toI32_neg (by omega)))]; rfl
    · have hneg := toI32_neg (n := N) (by omega)
      cases path with
      | direct mode =>
        simp only
        unfold mpiXfer
        rw [if_pos (Or.inl hneg)]; rfl
      | am =>
        simp only
        unfold mpiMsg
        rw [if_pos (Or.inl hneg)]; rfl

/-- **C17** get, every count. With MPI operations as for put. With active messages the target sends as many bytes as the low 32 bits of the number of
bytes say, so beyond 2^32 bytes a get may return with only a part of the elements; if these bits are 2^31 or more the program is aborted. -/
theorem C17_get_counts (procs : Nat → Proc) (path : Path) (ctx : Option (Obj × Attr)) (k me pe : Nat) (origin target r : BitVec 64) (N : Nat) (m : Mems)
    (hr : resolve procs path ctx me pe target = .ok r) :
    (N % 2 ^ 32 < 2 ^ 31 ∧ (path = .am → k * (N % 2 ^ 32) % 2 ^ 32 < 2 ^ 31) → ∃ m', ctxGet procs path ctx k k me pe origin target N m = .ok m' ∧
      Copied (m pe) (m me) (m' me) r.toInt origin.toInt (if path = .am then k * (N % 2 ^ 32) % 2 ^ 32 else N % 2 ^ 32 * k) ∧ ∀ q, q ≠ me → m' q = m q) ∧
    (¬ (N % 2 ^ 32 < 2 ^ 31 ∧ (path = .am → k * (N % 2 ^ 32) % 2 ^ 32 < 2 ^ 31)) → ctxGet procs path ctx k k me pe origin target N m = .abort) := by
  unfold ctxGet
  constructor
  · rintro ⟨hN, ham⟩
    by_cases h0 : N = 0
    · subst h0
      rw [if_pos rfl]
      refine ⟨m, rfl, ?_, fun _ _ => rfl⟩
      have e : (if path = .am then k * (0 % 2 ^ 32) % 2 ^ 32 else 0 % 2 ^ 32 * k) = 0 * k := by simp
      rw [e]
      exact copied_zero _ _ _ _ _
    rw [if_neg h0, hr]
    simp only [Res.bind_ok]
    cases path with
    | direct mode =>
      have hx := contig_xfer (m pe) (m me) r.toInt origin.toInt (N % 2 ^ 32) k hN
      rw [← toI32_wrap hN] at hx
      obtain ⟨x, e, hc⟩ := hx.1
      simp only
      rw [e, if_neg (by simp)]
      exact ⟨_, rfl, by rw [Function.update_self]; exact hc, fun q hq => Function.update_of_ne hq _ _⟩
    | am =>
      obtain ⟨x, e, hc⟩ := msg_short (m pe) (m me) r.toInt origin.toInt (R := k * (N % 2 ^ 32) % 2 ^ 32) (n := N % 2 ^ 32) (k := k)
        (by rw [Nat.mul_comm (N % 2 ^ 32) k]; exact Nat.mod_le _ _) (ham rfl) hN
      simp only
      rw [bytes_wrap, toI32_mod (ham rfl), toI32_mod hN, e, if_pos trivial]
      exact ⟨_, rfl, by rw [Function.update_self]; exact hc, fun q hq => Function.update_of_ne hq _ _⟩
  · intro hno
    have h0 : N ≠ 0 := by
      rintro rfl
      exact hno ⟨by decide, fun _ => by simp⟩
    rw [if_neg h0, hr]
    simp only [Res.bind_ok]
    by_cases hN : N % 2 ^ 32 < 2 ^ 31
    · have ham : path = .am ∧ ¬ k * (N % 2 ^ 32) % 2 ^ 32 < 2 ^ 31 := by
        by_contra hc
        exact hno ⟨hN, fun e => by by_contra h; exact hc ⟨e, h⟩⟩
      obtain ⟨rfl, hb⟩ := ham
      simp only
      rw [bytes_wrap]
      unfold mpiMsg
      rw [if_pos (Or.inl (toI32_neg (by omega)))]; rfl
    · have hneg := toI32_neg (n := N) (by omega)
      cases path with
      | direct mode =>
        simp only
        unfold mpiXfer
        rw [if_pos (Or.inl hneg)]; rfl
      | am =>
        simp only
        unfold mpiMsg
        rw [if_pos (Or.inr hneg)]; rfl

/-- **C17** What fails beyond the abort of `C17_am_fails`: on the active-message path a get of 2^29 elements of 8 bytes returns and has got nothing. -/
theorem C17_get_am_fails (procs : Nat → Proc) (ctx : Option (Obj × Attr)) (me pe : Nat) (origin target r : BitVec 64) (m : Mems)
    (hr : resolve procs .am ctx me pe target = .ok r) : ctxGet procs .am ctx 8 8 me pe origin target (2 ^ 29) m = .ok m := by
  obtain ⟨m', h1, h2, h3⟩ := (C17_get_counts procs .am ctx 8 me pe origin target r (2 ^ 29) m hr).1 ⟨by decide, fun _ => by decide⟩
  rw [h1]
  congr 1
  funext q
  by_cases hq : q = me
  · subst hq
    funext x
    rw [if_pos rfl] at h2
    have := h2 x
    rw [if_neg (by
      have e : 8 * (2 ^ 29 % 2 ^ 32) % 2 ^ 32 = 0 := by decide
      rw [e]; omega)] at this
    exact this
  · exact h3 q hq

/-- hypotheses of the theorems: the objects of `Rma/Props.lean`, an address of the heap, both paths -/
example : ∃ r, resolve (exProcs true) .am none 0 1 0x10018#64 = .ok r ∧ resolve (exProcs true) (.direct .rel) none 0 1 0x10018#64 = .ok r :=
  ⟨0x20018#64, by decide +kernel, by decide +kernel⟩

end Verif.Rma
