import Verif.Env.Size
import Mathlib.Tactic.Linarith
import Mathlib.Tactic.Positivity
import Mathlib.Tactic.NormNum
import Mathlib.Tactic.Ring
import Mathlib.Tactic.FieldSimp
import Mathlib.Algebra.Order.Field.Power
/-!
# C46: sizes in the environment
-/
namespace Verif.Env

/-- text of a list of decimal digits -/
def text (ds : List (Fin 10)) : List Char := ds.map fun d => Char.ofNat (48 + d.val)

/-- value of a list of decimal digits, most significant first -/
def value (ds : List (Fin 10)) : Nat := ds.foldl (fun a d => 10 * a + d.val) 0

theorem digitVal_text (d : Fin 10) : digitVal (Char.ofNat (48 + d.val)) = some d.val := by
  revert d; decide

theorem scanDigits_text (ds : List (Fin 10)) (rest : List Char) (hr : ∀ c cs, rest = c :: cs → digitVal c = none) :
    ∀ acc cnt, scanDigits acc cnt (text ds ++ rest) =
      (ds.foldl (fun a d => 10 * a + d.val) acc, cnt + ds.length, rest) := by
  induction ds with
  | nil =>
    intro acc cnt
    cases rest with
    | nil => rfl
    | cons c cs =>
      show scanDigits acc cnt (c :: cs) = _
      unfold scanDigits
      rw [hr c cs rfl]
      rfl
  | cons d ds ih =>
    intro acc cnt
    show scanDigits acc cnt (Char.ofNat (48 + d.val) :: (text ds ++ rest)) = _
    unfold scanDigits
    rw [digitVal_text]
    simp only []
    rw [ih]
    simp [Nat.add_assoc, Nat.add_comm 1]

theorem rne_int (n : Int) : rne (n : Rat) = n := by
  unfold rne
  simp

theorem rne_close (q : Rat) : |(rne q : Rat) - q| ≤ 1 / 2 := by
  have h1 := Int.floor_le q
  have h2 := Int.lt_floor_add_one q
  unfold rne
  simp only []
  rw [abs_le]
  split
  · constructor <;> linarith
  · split
    · push_cast; constructor <;> linarith
    · split
      · constructor <;> linarith
      · push_cast; constructor <;> linarith

/-- numbers with at most 24 significant bits in the normal range are not rounded -/
theorem fl32_exact (m j : Nat) (hm : m < 2 ^ 24) (hj : j ≤ 104) : fl32 ((m * 2 ^ j : Nat) : Rat) = some ((m * 2 ^ j : Nat) : Rat) := by
  unfold fl32
  by_cases hz : ((m * 2 ^ j : Nat) : Rat) = 0
  · rw [if_pos hz, hz]
  rw [if_neg hz]
  have hpos : (0 : Rat) < ((m * 2 ^ j : Nat) : Rat) := lt_of_le_of_ne (by positivity) (Ne.symm hz)
  have hlog := Int.zpow_log_le_self (b := 2) (by omega) hpos
  push_cast at hlog hz hpos ⊢
  set e := Int.log 2 ((m : Rat) * 2 ^ j) with he
  -- the scaled value is an integer
  have hbnd : max e (-126) - 23 ≤ (j : Int) := by
    rcases le_total e (-126) with h | h
    · rw [max_eq_right h]; omega
    · rw [max_eq_left h]
      by_contra hc
      have h1 : (m : Rat) * 2 ^ j < 2 ^ 24 * 2 ^ j := by
        have : (m : Rat) < 2 ^ 24 := by exact_mod_cast hm
        exact mul_lt_mul_of_pos_right this (by positivity)
      have h2 : (2 : Rat) ^ 24 * 2 ^ j = 2 ^ (24 + (j : Int)) := by
        rw [zpow_add₀ (by norm_num)]; norm_cast
      have h3 : (2 : Rat) ^ e < 2 ^ (24 + (j : Int)) := lt_of_le_of_lt hlog (h2 ▸ h1)
      have h4 := (zpow_lt_zpow_iff_right₀ (a := (2 : Rat)) (by norm_num)).1 h3
      omega
  set s := max e (-126) - 23 with hs
  have hq : (m : Rat) * 2 ^ j / 2 ^ s = ((m * 2 ^ ((j : Int) - s).toNat : Int) : Rat) := by
    push_cast
    rw [div_eq_iff (by positivity), mul_assoc]
    congr 1
    have : (2 : Rat) ^ ((j : Int) - s).toNat = 2 ^ ((j : Int) - s) := by
      rw [← zpow_natCast]; congr 1; omega
    rw [this, ← zpow_add₀ (by norm_num)]
    rw [show (j : Int) - s + s = j by ring, zpow_natCast]
  rw [hq, rne_int]
  have hback : (((m * 2 ^ ((j : Int) - s).toNat : Int) : Rat)) * 2 ^ s = (m : Rat) * 2 ^ j := by
    rw [← hq, div_mul_cancel₀ _ (by positivity)]
  rw [hback, if_pos]
  have h1 : (m : Rat) * 2 ^ j < 2 ^ 24 * 2 ^ j := by
    have : (m : Rat) < 2 ^ 24 := by exact_mod_cast hm
    exact mul_lt_mul_of_pos_right this (by positivity)
  have h2 : (2 : Rat) ^ 24 * 2 ^ j ≤ 2 ^ (128 : Int) := by
    have : (2 : Rat) ^ (128 : Int) = 2 ^ 24 * 2 ^ 104 := by norm_num
    rw [this]
    apply mul_le_mul_of_nonneg_left _ (by positivity)
    exact pow_le_pow_right₀ (by norm_num) hj
  linarith

/-- rounding changes a number in the normal range by at most one part in 2^24 -/
theorem fl32_close (q r : Rat) (hq : 2 ^ (-126 : Int) ≤ q) (h : fl32 q = some r) : |r - q| ≤ q / 2 ^ 24 := by
  have hpos : 0 < q := lt_of_lt_of_le (by positivity) hq
  unfold fl32 at h
  rw [if_neg hpos.ne'] at h
  simp only [] at h
  split at h
  · cases h
    have hlog := Int.zpow_log_le_self (b := 2) (by omega) hpos
    have hge : -126 ≤ Int.log 2 q := by
      have := Int.lt_zpow_succ_log_self (b := 2) (by omega) q
      have h3 : (2 : Rat) ^ (-126 : Int) < 2 ^ (Int.log 2 q + 1) := lt_of_le_of_lt hq (by exact_mod_cast this)
      have h4 := (zpow_lt_zpow_iff_right₀ (a := (2 : Rat)) (by norm_num)).1 h3
      omega
    rw [max_eq_left hge]
    push_cast at hlog
    set e := Int.log 2 q
    have hc := rne_close (q / 2 ^ (e - 23))
    have hp : (0 : Rat) < 2 ^ (e - 23) := by positivity
    have : (rne (q / 2 ^ (e - 23)) : Rat) * 2 ^ (e - 23) - q
        = ((rne (q / 2 ^ (e - 23)) : Rat) - q / 2 ^ (e - 23)) * 2 ^ (e - 23) := by
      rw [sub_mul, div_mul_cancel₀ _ hp.ne']
    rw [this, abs_mul, abs_of_pos hp]
    calc _ ≤ 1 / 2 * (2 : Rat) ^ (e - 23) := mul_le_mul_of_nonneg_right hc hp.le
      _ = 2 ^ e / 2 ^ 24 := by
        rw [zpow_sub₀ (by norm_num)]; norm_num; ring
      _ ≤ q / 2 ^ 24 := by
        apply div_le_div_of_nonneg_right hlog (by positivity)
  · cases h

/-- the suffix of a size: nothing, or a unit letter (followed by anything) -/
def IsUnit (u : List Char) (f : Nat) : Prop :=
  (u = [] ∧ f = 1) ∨ ∃ c cs, u = c :: cs ∧ f = unitFactor c ∧ c ∈ ['K', 'k', 'M', 'm', 'G', 'g', 'T', 't']

theorem IsUnit.nodigit {u : List Char} {f : Nat} (h : IsUnit u f) :
    (∀ c cs, u = c :: cs → digitVal c = none) ∧ ∀ cs, u ≠ '.' :: cs := by
  rcases h with ⟨rfl, _⟩ | ⟨c, cs, rfl, _, hc⟩
  · exact ⟨(fun _ _ h => by cases h), (fun _ h => by cases h)⟩
  · have h1 : ∀ c ∈ ['K', 'k', 'M', 'm', 'G', 'g', 'T', 't'], digitVal c = none ∧ c ≠ '.' := by decide
    refine ⟨?_, ?_⟩
    · intro c' cs' e; cases e; exact (h1 c hc).1
    · intro cs' e; cases e; exact (h1 _ hc).2 rfl

theorem IsUnit.nox {u : List Char} {f : Nat} (h : IsUnit u f) :
    ∀ c cs, u = c :: cs → c ≠ 'x' ∧ c ≠ 'X' ∧ c ≠ 'e' ∧ c ≠ 'E' := by
  rcases h with ⟨rfl, _⟩ | ⟨c, cs, rfl, _, hc⟩
  · exact fun _ _ h => by cases h
  · have h1 : ∀ c ∈ ['K', 'k', 'M', 'm', 'G', 'g', 'T', 't'], c ≠ 'x' ∧ c ≠ 'X' ∧ c ≠ 'e' ∧ c ≠ 'E' := by decide
    intro c' cs' e; cases e; exact h1 c hc

theorem scanExp_none (u : List Char) (h : ∀ c cs, u = c :: cs → c ≠ 'e' ∧ c ≠ 'E') : scanExp 'e' 'E' u = (0, u) := by
  cases u with
  | nil => rfl
  | cons c cs =>
    unfold scanExp
    dsimp only
    rw [if_neg (by have := h c cs rfl; tauto)]

/-- a text that begins with a digit is read as a decimal number, unless it begins with `0x` -/
theorem strtofScan_digit (d : Fin 10) (t : List Char) (hx : ∀ c cs, t = c :: cs → c ≠ 'x' ∧ c ≠ 'X') (q : Rat) (r : List Char)
    (h : scanDec (Char.ofNat (48 + d.val) :: t) = some (q, r)) :
    strtofScan (Char.ofNat (48 + d.val) :: t) = (.fin false (q * 10 ^ (scanExp 'e' 'E' r).1), (scanExp 'e' 'E' r).2) := by
  have h1 : ∀ d : Fin 10, isBlank (Char.ofNat (48 + d.val)) = false ∧ Char.ofNat (48 + d.val) ≠ '-' ∧ Char.ofNat (48 + d.val) ≠ '+' ∧
      (Char.ofNat (48 + d.val)).toLower ≠ 'i' ∧ (Char.ofNat (48 + d.val)).toLower ≠ 'n' := by decide
  obtain ⟨b1, b2, b3, b4, b5⟩ := h1 d
  have hdrop : (Char.ofNat (48 + d.val) :: t).dropWhile isBlank = Char.ofNat (48 + d.val) :: t := by
    rw [List.dropWhile_cons_of_neg (by rw [b1]; decide)]
  have hsign : scanSign (Char.ofNat (48 + d.val) :: t) = (false, Char.ofNat (48 + d.val) :: t) := by
    unfold scanSign
    dsimp only
    rw [if_neg b2, if_neg b3]
  have hsp : isSpecial (Char.ofNat (48 + d.val) :: t) = false := by
    unfold isSpecial
    simp only [List.take_succ_cons, List.map_cons, Bool.or_eq_false_iff, decide_eq_false_iff_not, List.cons.injEq, not_and]
    exact ⟨fun h => absurd h b4, fun h => absurd h b5⟩
  have hnum : scanNum (Char.ofNat (48 + d.val) :: t) = some (q * 10 ^ (scanExp 'e' 'E' r).1, (scanExp 'e' 'E' r).2) := by
    unfold scanNum
    have hhex : afterHex (Char.ofNat (48 + d.val) :: t) = none := by
      cases t with
      | nil => rfl
      | cons x t =>
        unfold afterHex
        dsimp only
        rw [if_neg (by have := hx _ _ rfl; tauto)]
    simp only [hhex, h, Option.bind_none]
  unfold strtofScan
  rw [hdrop, hsign]
  simp only [hsp, hnum]
  simp

theorem scanDec_int (ds : List (Fin 10)) (hd : ds ≠ []) (u : List Char) (h1 : ∀ c cs, u = c :: cs → digitVal c = none)
    (h2 : ∀ cs, u ≠ '.' :: cs) : scanDec (text ds ++ u) = some ((value ds : Rat), u) := by
  unfold scanDec
  rw [scanDigits_text ds u h1]
  simp only []
  have hk : ¬ (0 + ds.length = 0) := by
    cases ds with
    | nil => exact absurd rfl hd
    | cons d ds => simp
  have hp : afterPoint u = none := by
    cases u with
    | nil => rfl
    | cons c cs =>
      unfold afterPoint
      dsimp only
      rw [if_neg (by rintro rfl; exact h2 cs rfl)]
  rw [hp]
  dsimp only
  rw [if_neg hk]; rfl

theorem digit_nox (d : Fin 10) : Char.ofNat (48 + d.val) ≠ 'x' ∧ Char.ofNat (48 + d.val) ≠ 'X' := by
  revert d; decide

theorem text_nox (ds : List (Fin 10)) (w : List Char) (hw : ∀ c cs, w = c :: cs → c ≠ 'x' ∧ c ≠ 'X') :
    ∀ c cs, text ds ++ w = c :: cs → c ≠ 'x' ∧ c ≠ 'X' := by
  cases ds with
  | nil => exact hw
  | cons d ds => intro c cs e; cases e; exact digit_nox d

theorem strtofScan_int (ds : List (Fin 10)) (hd : ds ≠ []) (u : List Char) (f : Nat) (hu : IsUnit u f) :
    strtofScan (text ds ++ u) = (.fin false (value ds : Rat), u) := by
  cases ds with
  | nil => exact absurd rfl hd
  | cons d ds =>
    have := strtofScan_digit d (text ds ++ u) (text_nox ds u fun c cs e => ⟨(hu.nox c cs e).1, (hu.nox c cs e).2.1⟩) _ _
      (scanDec_int (d :: ds) hd u hu.nodigit.1 hu.nodigit.2)
    rw [scanExp_none u fun c cs e => (hu.nox c cs e).2.2] at this
    simpa [text] using this

theorem strToSize_unit (v : Rat) (n : Nat) (u : List Char) (f : Nat) (hu : IsUnit u f) (s : List Char)
    (hs : strtofScan s = (.fin false v, u)) (hv : fl32 v = some (n : Rat)) (hb : n * f < 2 ^ 64) : strToSize s = .ok (n * f) := by
  unfold strToSize
  rw [hs]
  simp only [hv, Bool.false_eq_true, if_false]
  have hn : ∀ m : Nat, (-1 : Rat) < (m : Rat) := fun m => lt_of_lt_of_le (by norm_num) (Nat.cast_nonneg m)
  rcases hu with ⟨rfl, rfl⟩ | ⟨c, cs, rfl, rfl, _⟩
  · simp only [toU64f, Int.floor_natCast, Int.toNat_natCast]
    rw [Nat.mul_one] at hb ⊢
    rw [if_pos ⟨hn n, hb⟩]
  · simp only []
    have : ((n : Rat) * (unitFactor c : Rat)) = ((n * unitFactor c : Nat) : Rat) := by push_cast; rfl
    rw [this]
    simp only [toU64f, Int.ceil_natCast, Int.cast_natCast, Int.floor_natCast, Int.toNat_natCast]
    rw [if_pos ⟨hn _, hb⟩]

/-- For every decimal integer whose value has at most 24 significant bits (in particular every value below 2^24), with or
without unit: the result is exactly number times unit, if that fits in 64 bits. Missing for the full property: integers
with more significant bits, see `C46_fails`. -/
theorem C46_integer_partial (ds : List (Fin 10)) (hd : ds ≠ []) (u : List Char) (f : Nat) (hu : IsUnit u f) (m j : Nat)
    (hv : value ds = m * 2 ^ j) (hm : m < 2 ^ 24) (hj : j ≤ 104) (hb : value ds * f < 2 ^ 64) :
    strToSize (text ds ++ u) = .ok (value ds * f) := by
  refine strToSize_unit (value ds : Rat) (value ds) u f hu _ (strtofScan_int ds hd u f hu) ?_ hb
  rw [hv]; exact fl32_exact m j hm hj

/-- "134217728" (the default heap size), "512M" -/
example : text [5, 1, 2] ++ ['M'] = "512M".toList ∧ IsUnit ['M'] (1024 ^ 2) ∧ value [5, 1, 2] = 1 * 2 ^ 9 ∧
    value [1, 3, 4, 2, 1, 7, 7, 2, 8] = 1 * 2 ^ 27 := by
  refine ⟨by decide, Or.inr ⟨'M', [], rfl, by decide, by decide⟩, by decide, by decide⟩

/-- Units multiply: for the same number the result with unit T is 1024 times that with G, and so on (whenever both fit). -/
theorem C46_units (c : Char) (hc : c ∈ ['K', 'k', 'M', 'm', 'G', 'g', 'T', 't']) :
    ∃ p, unitFactor c = 1024 ^ p ∧ (c = 'K' ∨ c = 'k' → p = 1) ∧ (c = 'M' ∨ c = 'm' → p = 2) ∧
      (c = 'G' ∨ c = 'g' → p = 3) ∧ (c = 'T' ∨ c = 't' → p = 4) := by
  simp only [List.mem_cons, List.not_mem_nil, or_false] at hc
  rcases hc with rfl | rfl | rfl | rfl | rfl | rfl | rfl | rfl
  · exact ⟨1, by decide⟩
  · exact ⟨1, by decide⟩
  · exact ⟨2, by decide⟩
  · exact ⟨2, by decide⟩
  · exact ⟨3, by decide⟩
  · exact ⟨3, by decide⟩
  · exact ⟨4, by decide⟩
  · exact ⟨4, by decide⟩

theorem strtofScan_dec (ds fs : List (Fin 10)) (hd : ds ≠ []) (u : List Char) (f : Nat) (hu : IsUnit u f) :
    strtofScan (text ds ++ '.' :: (text fs ++ u)) = (.fin false ((value ds : Rat) + (value fs : Rat) / 10 ^ fs.length), u) := by
  have hdec : scanDec (text ds ++ '.' :: (text fs ++ u)) = some ((value ds : Rat) + (value fs : Rat) / 10 ^ fs.length, u) := by
    unfold scanDec
    rw [scanDigits_text ds _ (by intro c cs h; cases h; decide)]
    have hp : afterPoint ('.' :: (text fs ++ u)) = some (text fs ++ u) := rfl
    simp only [hp]
    rw [scanDigits_text fs u hu.nodigit.1]
    simp only []
    have hk : ¬ (0 + ds.length = 0 ∧ 0 + fs.length = 0) := by
      cases ds with
      | nil => exact absurd rfl hd
      | cons d ds => simp
    rw [if_neg hk]
    simp [value]
  cases ds with
  | nil => exact absurd rfl hd
  | cons d ds =>
    have := strtofScan_digit d (text ds ++ '.' :: (text fs ++ u))
      (text_nox ds _ (by intro c cs e; cases e; decide)) _ _ hdec
    rw [scanExp_none u fun c cs e => (hu.nox c cs e).2.2] at this
    simpa [text] using this

/-- For every decimal number with a unit (value at least 2^-126, not too large): the result is an integer within one part
in 2^24 of number times unit, rounded up. -/
theorem C46_decimal (ds fs : List (Fin 10)) (hd : ds ≠ []) (u : List Char) (f : Nat) (hu : IsUnit u f) (hne : u ≠ [])
    (q : Rat) (hq : q = (value ds : Rat) + (value fs : Rat) / 10 ^ fs.length) (hmin : 2 ^ (-126 : Int) ≤ q) (n : Nat)
    (h : strToSize (text ds ++ '.' :: (text fs ++ u)) = .ok n) :
    ∃ r : Rat, |r - q * f| ≤ q * f / 2 ^ 24 ∧ r ≤ n ∧ (n : Rat) < r + 1 := by
  unfold strToSize at h
  rw [strtofScan_dec ds fs hd u f hu, ← hq] at h
  simp only [Bool.false_eq_true, if_false] at h
  cases hv : fl32 q with
  | none => rw [hv] at h; cases h
  | some v =>
    rw [hv] at h
    rcases hu with ⟨rfl, _⟩ | ⟨c, cs, rfl, rfl, _⟩
    · exact absurd rfl hne
    · simp only [toU64f] at h
      split at h
      · cases h
        have hcl := fl32_close q v hmin hv
        have hfpos : (0 : Rat) ≤ (unitFactor c : Rat) := by positivity
        have hqpos : 0 < q := lt_of_lt_of_le (by positivity) hmin
        refine ⟨v * unitFactor c, ?_, ?_, ?_⟩
        · rw [← sub_mul, abs_mul, abs_of_nonneg hfpos]
          calc _ ≤ q / 2 ^ 24 * (unitFactor c : Rat) := mul_le_mul_of_nonneg_right hcl hfpos
            _ = _ := by ring
        · have h1 : (v * (unitFactor c : Rat)) ≤ (⌈v * (unitFactor c : Rat)⌉ : Rat) := Int.le_ceil _
          have h2 : (⌈v * (unitFactor c : Rat)⌉ : Int) ≤ ((⌊((⌈v * (unitFactor c : Rat)⌉ : Int) : Rat)⌋.toNat : Nat) : Int) := by
            rw [Int.floor_intCast]; exact Int.self_le_toNat _
          have h3 : ((⌈v * (unitFactor c : Rat)⌉ : Int) : Rat)
              ≤ (((⌊((⌈v * (unitFactor c : Rat)⌉ : Int) : Rat)⌋.toNat : Nat) : Int) : Rat) := by exact_mod_cast h2
          rw [Int.cast_natCast] at h3
          linarith
        · have hvpos : 0 ≤ v := by
            have := (abs_le.1 hcl).1
            have : q / 2 ^ 24 ≤ q := by
              rw [div_le_iff₀ (by positivity)]; nlinarith
            linarith
          have hnn : 0 ≤ ⌈v * (unitFactor c : Rat)⌉ := Int.ceil_nonneg (mul_nonneg hvpos hfpos)
          rw [Int.floor_intCast]
          have h4 : ((⌈v * (unitFactor c : Rat)⌉.toNat : Nat) : Rat) = (⌈v * (unitFactor c : Rat)⌉ : Rat) := by
            have : ((⌈v * (unitFactor c : Rat)⌉.toNat : Nat) : Int) = ⌈v * (unitFactor c : Rat)⌉ := Int.toNat_of_nonneg hnn
            exact_mod_cast this
          rw [h4]
          exact Int.ceil_lt_add_one _
      · cases h

/-- the example of the OpenSHMEM specification: "3.1M" is 3250586 -/
theorem C46_spec_example : strToSize "3.1M".toList = .ok 3250586 := by decide +kernel

/-- What fails: integers with more than 24 significant bits are rounded to single precision. "16777217" (2^24 + 1) gives
16777216, and "4294967295" gives 4294967296. -/
theorem C46_fails : strToSize "16777217".toList = .ok 16777216 ∧ strToSize "4294967295".toList = .ok 4294967296 := by
  decide +kernel

/-- Leading blanks do not matter. -/
theorem C46_blanks (b s : List Char) (hb : ∀ c ∈ b, isBlank c = true) : strToSize (b ++ s) = strToSize s := by
  have hdrop : (b ++ s).dropWhile isBlank = s.dropWhile isBlank := by
    induction b with
    | nil => rfl
    | cons c b ih =>
      rw [List.cons_append, List.dropWhile_cons_of_pos (hb c (by simp))]
      exact ih fun d hd => hb d (by simp [hd])
  have hz : ∀ e : List Char, (match e with
      | [] => toU64f (if false then -(0 : Rat) else 0)
      | c :: _ => toU64f (⌈(if false then -(0 : Rat) else 0) * unitFactor c⌉ : Int)) = .ok 0 := by
    intro e
    cases e with
    | nil => simp [toU64f]
    | cons c cs => simp [toU64f]
  have h0 : fl32 0 = some 0 := by unfold fl32; rw [if_pos rfl]
  unfold strToSize strtofScan
  rw [hdrop]
  generalize hp : scanSign (s.dropWhile isBlank) = p
  obtain ⟨neg, t⟩ := p
  dsimp only
  by_cases hs : isSpecial t = true
  · rw [if_pos hs, if_pos hs]
  · rw [if_neg hs, if_neg hs]
    cases hn : scanNum t with
    | some x => rfl
    | none =>
      dsimp only
      rw [h0]
      exact (hz _).trans (hz _).symm

/-- Decimal exponents: `ds` "e" `es` is `ds` times ten to the `es`, exactly, if that has at most 24 significant bits. -/
theorem C46_exponent (ds es : List (Fin 10)) (hd : ds ≠ []) (he : es ≠ []) (u : List Char) (f : Nat) (hu : IsUnit u f) (m j : Nat)
    (hv : value ds * 10 ^ value es = m * 2 ^ j) (hm : m < 2 ^ 24) (hj : j ≤ 104) (hb : value ds * 10 ^ value es * f < 2 ^ 64) :
    strToSize (text ds ++ 'e' :: (text es ++ u)) = .ok (value ds * 10 ^ value es * f) := by
  have hexp : scanExp 'e' 'E' ('e' :: (text es ++ u)) = ((value es : Int), u) := by
    unfold scanExp
    dsimp only
    rw [if_pos (Or.inl rfl)]
    have hs : scanSign (text es ++ u) = (false, text es ++ u) := by
      cases es with
      | nil => exact absurd rfl he
      | cons d es =>
        have h1 : ∀ d : Fin 10, Char.ofNat (48 + d.val) ≠ '-' ∧ Char.ofNat (48 + d.val) ≠ '+' := by decide
        show scanSign (Char.ofNat (48 + d.val) :: (text es ++ u)) = _
        unfold scanSign
        dsimp only
        rw [if_neg (h1 d).1, if_neg (h1 d).2]
        rfl
    rw [hs]
    dsimp only
    rw [scanDigits_text es u hu.nodigit.1]
    dsimp only
    rw [if_neg (by cases es with
      | nil => exact absurd rfl he
      | cons d es => simp)]
    rfl
  have hsc : strtofScan (text ds ++ 'e' :: (text es ++ u)) = (.fin false ((value ds * 10 ^ value es : Nat) : Rat), u) := by
    cases ds with
    | nil => exact absurd rfl hd
    | cons d ds =>
      have := strtofScan_digit d (text ds ++ 'e' :: (text es ++ u)) (text_nox ds _ (by intro c cs e; cases e; decide)) _ _
        (scanDec_int (d :: ds) hd ('e' :: (text es ++ u)) (by intro c cs e; cases e; decide) (by intro cs e; cases e))
      rw [hexp] at this
      dsimp only at this
      rw [zpow_natCast] at this
      rw [show (text (d :: ds) ++ 'e' :: (text es ++ u)) = Char.ofNat (48 + d.val) :: (text ds ++ 'e' :: (text es ++ u)) from rfl, this]
      push_cast
      rfl
  refine strToSize_unit _ (value ds * 10 ^ value es) u f hu _ hsc ?_ hb
  rw [hv]; exact fl32_exact m j hm hj

/-- "2e3k" -/
example : text [2] ++ 'e' :: (text [3] ++ ['k']) = "2e3k".toList ∧ IsUnit ['k'] 1024 ∧ value [2] * 10 ^ value [3] = 125 * 2 ^ 4 ∧
    strToSize "2e3k".toList = .ok 2048000 := by
  refine ⟨by decide, Or.inr ⟨'k', [], rfl, by decide, by decide⟩, by decide, by decide +kernel⟩

/-- Negative decimal exponents: `ds` "e-" `es` is `ds` divided by ten to the `es`: exactly, if that is a natural number with at most 24
significant bits. -/
theorem C46_exponent_negative (ds es : List (Fin 10)) (hd : ds ≠ []) (he : es ≠ []) (u : List Char) (f : Nat) (hu : IsUnit u f) (n m j : Nat)
    (hv : value ds = n * 10 ^ value es) (hn : n = m * 2 ^ j) (hm : m < 2 ^ 24) (hj : j ≤ 104) (hb : n * f < 2 ^ 64) :
    strToSize (text ds ++ 'e' :: '-' :: (text es ++ u)) = .ok (n * f) := by
  have hexp : scanExp 'e' 'E' ('e' :: '-' :: (text es ++ u)) = (-(value es : Int), u) := by
    unfold scanExp
    dsimp only
    rw [if_pos (Or.inl rfl)]
    have hs : scanSign ('-' :: (text es ++ u)) = (true, text es ++ u) := by
      unfold scanSign
      exact if_pos rfl
    rw [hs]
    dsimp only
    rw [scanDigits_text es u hu.nodigit.1]
    dsimp only
    rw [if_neg (by cases es with
      | nil => exact absurd rfl he
      | cons d es => simp)]
    rfl
  have hsc : strtofScan (text ds ++ 'e' :: '-' :: (text es ++ u)) = (.fin false ((n : Nat) : Rat), u) := by
    cases ds with
    | nil => exact absurd rfl hd
    | cons d ds =>
      have := strtofScan_digit d (text ds ++ 'e' :: '-' :: (text es ++ u)) (text_nox ds _ (by intro c cs e; cases e; decide)) _ _
        (scanDec_int (d :: ds) hd ('e' :: '-' :: (text es ++ u)) (by intro c cs e; cases e; decide) (by intro cs e; cases e))
      rw [hexp] at this
      dsimp only at this
      rw [show (text (d :: ds) ++ 'e' :: '-' :: (text es ++ u)) = Char.ofNat (48 + d.val) :: (text ds ++ 'e' :: '-' :: (text es ++ u)) from rfl,
        this, hv]
      rw [zpow_neg, zpow_natCast]
      push_cast
      rw [mul_assoc, mul_inv_cancel₀ (by positivity), mul_one]
  refine strToSize_unit _ n u f hu _ hsc ?_ hb
  rw [hn]; exact fl32_exact m j hm hj

/-- "3000e-3k" -/
example : text [3, 0, 0, 0] ++ 'e' :: '-' :: (text [3] ++ ['k']) = "3000e-3k".toList ∧ IsUnit ['k'] 1024 ∧
    value [3, 0, 0, 0] = 3 * 10 ^ value [3] ∧ strToSize "3000e-3k".toList = .ok 3072 := by
  refine ⟨by decide, Or.inr ⟨'k', [], rfl, by decide, by decide⟩, by decide, by decide +kernel⟩

end Verif.Env
