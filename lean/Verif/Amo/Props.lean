import Verif.Amo.Model
import Mathlib.Tactic.IntervalCases
/-!
# Property C24: what an atomic operation computes
-/
namespace Verif.Amo

/-- specification: the operations OpenSHMEM names, on `w`-bit words: (new word, returned word if the call returns one) -/
def spec {w : Nat} (x : BitVec w) : Api → BitVec w × Option (BitVec w)
  | .cswap c v => (if x = BitVec.ofNat w c then BitVec.ofNat w v else x, some x)
  | .finc => (x + 1, some x)
  | .inc => (x + 1, none)
  | .fadd v => (x + BitVec.ofNat w v, some x)
  | .add v => (x + BitVec.ofNat w v, none)
  | .fetch => (x, some x)
  | .set v => (BitVec.ofNat w v, none)
  | .swap v => (BitVec.ofNat w v, some x)
  | .fand v => (x &&& BitVec.ofNat w v, some x)
  | .and v => (x &&& BitVec.ofNat w v, none)
  | .for v => (x ||| BitVec.ofNat w v, some x)
  | .or v => (x ||| BitVec.ofNat w v, none)
  | .fxor v => (x ^^^ BitVec.ofNat w v, some x)
  | .xor v => (x ^^^ BitVec.ofNat w v, none)

/-- the `8k`-bit word at an address -/
def word (m : Mem) (a k : Nat) : BitVec (8 * k) := BitVec.ofNat (8 * k) (m.load a k)

/-- a result `(memory, returned value)` is what the specification says: the word at `dest` is the new word, the value
returned is the old one, and no other byte changed -/
def Meets (m : Mem) (dest k : Nat) (a : Api) (r : Mem × Nat) : Prop :=
  word r.1 dest k = (spec (word m dest k) a).1 ∧
  (∀ x, (spec (word m dest k) a).2 = some x → BitVec.ofNat (8 * k) r.2 = x ∧ r.2 < 256 ^ k) ∧
  ∀ p, p < dest ∨ dest + k ≤ p → r.1 p = m p

/-- what the call adds, if it adds -/
def Api.addend : Api → Option Nat
  | .finc => some 1 | .inc => some 1 | .fadd v => some v | .add v => some v
  | .cswap _ _ => none | .fetch => none | .set _ => none | .swap _ => none | .fand _ => none | .and _ => none
  | .for _ => none | .or _ => none | .fxor _ => none | .xor _ => none

/-- if the call adds, the sum of the two signed numbers is representable in `8k` bits -/
def NoOverflow (m : Mem) (dest k : Nat) (a : Api) : Prop := ∀ v, a.addend = some v →
  -(256 ^ k / 2 : Int) ≤ (word m dest k).toInt + (BitVec.ofNat (8 * k) v).toInt ∧
  (word m dest k).toInt + (BitVec.ofNat (8 * k) v).toInt < (256 ^ k / 2 : Int)

theorem p256 (k : Nat) : (2 : Nat) ^ (8 * k) = 256 ^ k := by rw [Nat.pow_mul]

theorem load_fill (junk : Mem) (k v : Nat) : (fill junk k v).load 0 k = v % 256 ^ k := by
  unfold fill; rw [Mem.load_copy, Mem.load_store]

theorem word_store (m : Mem) (a k v : Nat) : word (m.store a k v) a k = BitVec.ofNat (8 * k) v := by
  unfold word
  rw [Mem.load_store]
  apply BitVec.eq_of_toNat_eq
  simp only [BitVec.toNat_ofNat, p256]
  exact Nat.mod_mod _ _

theorem toNat_word (m : Mem) (a k : Nat) : (word m a k).toNat = m.load a k := by
  unfold word
  rw [BitVec.toNat_ofNat, p256, Nat.mod_eq_of_lt (Mem.load_lt _ _ _)]

theorem ofNat_mod (k v : Nat) : BitVec.ofNat (8 * k) (v % 256 ^ k) = BitVec.ofNat (8 * k) v := by
  apply BitVec.eq_of_toNat_eq
  simp only [BitVec.toNat_ofNat, p256]
  exact Nat.mod_mod _ _

theorem load_reply (junk : Mem) (k x : Nat) : (Mem.copy junk 0 (junk.store 0 k x) 0 k).load 0 k = x % 256 ^ k := by
  rw [Mem.load_copy, Mem.load_store]

/-- new word for each integer operation -/
def wordOp {w : Nat} (op : OpIdx) (a b : BitVec w) : BitVec w := match op with
  | .band => b &&& a
  | .bor => b ||| a
  | .bxor => b ^^^ a
  | .noop => b
  | .replace => a
  | .sum => b + a

theorem ofNat_mpiOp (k : Nat) (op : OpIdx) (v b : Nat) :
    BitVec.ofNat (8 * k) (mpiOp k op (v % 256 ^ k) b) = wordOp op (BitVec.ofNat (8 * k) v) (BitVec.ofNat (8 * k) b) := by
  cases op
  · simp only [mpiOp, wordOp]; rw [BitVec.and_comm, BitVec.ofNat_and, ofNat_mod]
  · simp only [mpiOp, wordOp]; rw [BitVec.or_comm, BitVec.ofNat_or, ofNat_mod]
  · simp only [mpiOp, wordOp]; rw [BitVec.xor_comm, BitVec.ofNat_xor, ofNat_mod]
  · rfl
  · simp only [mpiOp, wordOp]; rw [ofNat_mod]
  · simp only [mpiOp, wordOp]; rw [ofNat_mod, BitVec.ofNat_add, ofNat_mod]

theorem sval_word (k v : Nat) : sval k (v % 256 ^ k) = (BitVec.ofNat (8 * k) v).toInt := by
  unfold sval
  rw [BitVec.toInt_eq_toNat_bmod, BitVec.toNat_ofNat, p256]

theorem sval_mod (k x : Nat) : sval k x % (256 ^ k : Int) = (x : Int) % (256 ^ k : Int) := by
  unfold sval
  have : (((256 ^ k : Nat)) : Int) = (256 ^ k : Int) := by push_cast; rfl
  rw [← this, Int.bmod_emod]

theorem sum_mod (k a b : Nat) : ((sval k b + sval k a) % (256 ^ k : Int)).toNat = (b + a) % 256 ^ k := by
  rw [Int.add_emod, sval_mod, sval_mod, ← Int.add_emod]
  have : (((256 ^ k : Nat)) : Int) = (256 ^ k : Int) := by push_cast; rfl
  rw [← this]
  norm_cast

theorem opSint_ok {k : Nat} {op : OpIdx} {v b : Nat} (hb : b < 256 ^ k)
    (h : op = .sum → -(256 ^ k / 2 : Int) ≤ (BitVec.ofNat (8 * k) b).toInt + (BitVec.ofNat (8 * k) v).toInt ∧
      (BitVec.ofNat (8 * k) b).toInt + (BitVec.ofNat (8 * k) v).toInt < (256 ^ k / 2 : Int)) :
    opSint k op (v % 256 ^ k) b = .ok (mpiOp k op (v % 256 ^ k) b) := by
  cases op
  · rfl
  · rfl
  · rfl
  · rfl
  · rfl
  · have h := h rfl
    simp only [opSint, mpiOp]
    have e1 := sval_word k v
    have e2 := sval_word k b
    rw [Nat.mod_eq_of_lt hb] at e2
    rw [if_pos (by rw [e1, e2]; exact h), sum_mod]

theorem opUint_ok (k : Nat) (op : OpIdx) (a b : Nat) : opUint k op a b = .ok (mpiOp k op a b) := by
  cases op <;> rfl

/-- integer types: the C type the handler picks has the size of the API's type -/
theorem width_eq {ty : TyIdx} (h : ty ∈ stdTypes) : ty.kind.width = ty.bytes ∧
    (ty.kind = .sint ty.bytes ∨ ty.kind = .uint ty.bytes) := by
  cases ty <;> simp_all [stdTypes, TyIdx.kind, TyIdx.bytes, Kind.width]

theorem bitws_std {ty : TyIdx} (h : ty ∈ bitwsTypes) : ty ∈ stdTypes := by
  cases ty <;> simp_all [stdTypes, bitwsTypes]

/-- one integer operation on one integer type -/
theorem opOf_ok (fp : Fp) {ty : TyIdx} (h : ty ∈ stdTypes) {op : OpIdx} {v b : Nat} (hb : b < 256 ^ ty.bytes)
    (ho : ty.kind = .sint ty.bytes → op = .sum →
      -(256 ^ ty.bytes / 2 : Int) ≤ (BitVec.ofNat (8 * ty.bytes) b).toInt + (BitVec.ofNat (8 * ty.bytes) v).toInt ∧
      (BitVec.ofNat (8 * ty.bytes) b).toInt + (BitVec.ofNat (8 * ty.bytes) v).toInt < (256 ^ ty.bytes / 2 : Int)) :
    opOf fp ty op (v % 256 ^ ty.bytes) b = .ok (mpiOp ty.bytes op (v % 256 ^ ty.bytes) b) := by
  unfold opOf
  rcases (width_eq h).2 with e | e
  · simp only [e]; exact opSint_ok hb (ho e)
  · simp only [e]; exact opUint_ok _ _ _ _

/-- the word at `dest` as the handler sees it, for `opOf_ok` -/
def Fine (m : Mem) (dest : Nat) (ty : TyIdx) (op : OpIdx) (v : Nat) : Prop :=
  ty.kind = .sint ty.bytes → op = .sum →
    -(256 ^ ty.bytes / 2 : Int) ≤ (word m dest ty.bytes).toInt + (BitVec.ofNat (8 * ty.bytes) v).toInt ∧
    (word m dest ty.bytes).toInt + (BitVec.ofNat (8 * ty.bytes) v).toInt < (256 ^ ty.bytes / 2 : Int)

theorem amPost_ok (fp : Fp) (junk m : Mem) (dest : Nat) {ty : TyIdx} (h : ty ∈ stdTypes) {op : OpIdx} {v : Nat}
    (ho : Fine m dest ty op v) :
    amPost fp junk m dest ty ty.bytes op v =
      .ok (m.store dest ty.bytes (mpiOp ty.bytes op (v % 256 ^ ty.bytes) (m.load dest ty.bytes))) := by
  unfold amPost postCb
  simp only [(width_eq h).1, load_fill]
  rw [opOf_ok fp h (Mem.load_lt _ _ _) ho, Res.bind_ok]

theorem opOf_noop (fp : Fp) {ty : TyIdx} (h : ty ∈ extTypes) (a b : Nat) : opOf fp ty .noop a b = .ok b := by
  cases ty <;> simp_all [extTypes, stdTypes, opOf, TyIdx.kind, opSint, opUint, opFp]

theorem width_ext {ty : TyIdx} (h : ty ∈ extTypes) : ty.kind.width = ty.bytes := by
  cases ty <;> simp_all [extTypes, stdTypes, TyIdx.kind, TyIdx.bytes, Kind.width]

theorem reply_ok (junk m : Mem) (dest k : Nat) :
    (Mem.copy junk 0 (junk.store 0 k (m.load dest k)) 0 k).load 0 k = m.load dest k := by
  rw [load_reply, Nat.mod_eq_of_lt (Mem.load_lt _ _ _)]

theorem amFetch_ok (fp : Fp) (junk m : Mem) (dest : Nat) {ty : TyIdx} (h : ty ∈ stdTypes) {op : OpIdx} {v : Nat}
    (hn : op ≠ .noop) (ho : Fine m dest ty op v) :
    amFetch fp junk m dest ty ty.bytes op v =
      .ok (m.store dest ty.bytes (mpiOp ty.bytes op (v % 256 ^ ty.bytes) (m.load dest ty.bytes)),
        m.load dest ty.bytes) := by
  unfold amFetch fetchCb
  rw [if_pos hn]
  simp only [(width_eq h).1, load_fill]
  rw [opOf_ok fp h (Mem.load_lt _ _ _) ho]
  simp only [Res.bind_ok, reply_ok]

theorem amFetch_noop (fp : Fp) (junk m : Mem) (dest : Nat) {ty : TyIdx} (h : ty ∈ extTypes) (v : Nat) :
    amFetch fp junk m dest ty ty.bytes .noop v = .ok (m, m.load dest ty.bytes) := by
  unfold amFetch fetchCb
  simp only [width_ext h]
  rw [opOf_noop fp h]
  simp only [Res.bind_ok, reply_ok, Mem.store_load]

theorem sval_inj {k a b : Nat} (ha : a < 256 ^ k) (hb : b < 256 ^ k) (h : sval k a = sval k b) : a = b := by
  have h1 := sval_mod k a
  have h2 := sval_mod k b
  rw [h, h2] at h1
  have : (((256 ^ k : Nat)) : Int) = (256 ^ k : Int) := by push_cast; rfl
  rw [← this] at h1
  norm_cast at h1
  rw [Nat.mod_eq_of_lt ha, Nat.mod_eq_of_lt hb] at h1
  exact h1.symm

theorem amCswap_ok (fp : Fp) (junk m : Mem) (dest : Nat) {ty : TyIdx} (h : ty ∈ stdTypes) (c v : Nat) :
    amCswap fp junk m dest ty ty.bytes c v =
      .ok (if m.load dest ty.bytes = c % 256 ^ ty.bytes then m.store dest ty.bytes (v % 256 ^ ty.bytes) else m,
        m.load dest ty.bytes) := by
  have he : cEq fp ty (m.load dest ty.bytes) (c % 256 ^ ty.bytes) =
      .ok (decide (m.load dest ty.bytes = c % 256 ^ ty.bytes)) := by
    unfold cEq
    rcases (width_eq h).2 with e | e
    · simp only [e]
      congr 1
      rw [decide_eq_decide]
      exact ⟨fun hs => sval_inj (Mem.load_lt _ _ _) (Nat.mod_lt _ (Nat.pow_pos (by decide))) hs, fun hs => by rw [hs]⟩
    · simp only [e]
  unfold amCswap cswapCb
  simp only [(width_eq h).1, load_fill]
  rw [he]
  simp only [Res.bind_ok, reply_ok, decide_eq_true_eq]

theorem meets_store (m : Mem) (dest k x : Nat) (a : Api) (hx : BitVec.ofNat (8 * k) x = (spec (word m dest k) a).1)
    (hr : (spec (word m dest k) a).2 = some (word m dest k)) : Meets m dest k a (m.store dest k x, m.load dest k) := by
  refine ⟨by rw [word_store]; exact hx, ?_, fun p hp => Mem.store_frame _ _ _ _ _ hp⟩
  intro y hy
  rw [hr] at hy
  cases hy
  exact ⟨rfl, Mem.load_lt _ _ _⟩

theorem meets_store_void (m : Mem) (dest k x : Nat) (a : Api) (hx : BitVec.ofNat (8 * k) x = (spec (word m dest k) a).1)
    (hr : (spec (word m dest k) a).2 = none) : Meets m dest k a (m.store dest k x, 0) := by
  refine ⟨by rw [word_store]; exact hx, ?_, fun p hp => Mem.store_frame _ _ _ _ _ hp⟩
  intro y hy
  rw [hr] at hy
  cases hy

theorem all_std {a : Api} {ty : TyIdx} (h : ty ∈ a.types) (hi : ty ≠ .float ∧ ty ≠ .double) : ty ∈ stdTypes := by
  cases a <;> first | exact h | exact bitws_std h | (cases ty <;> simp_all [Api.types, extTypes, stdTypes])

/-- C24 on any integer type, if a signed addition does not overflow -/
theorem am_int (fp : Fp) (junk m : Mem) (dest : Nat) {ty : TyIdx} {a : Api} (h : ty ∈ a.types)
    (hi : ty ≠ .float ∧ ty ≠ .double) (ho : ty.kind = .sint ty.bytes → NoOverflow m dest ty.bytes a) :
    ∃ r, am fp junk m dest ty a = .ok r ∧ Meets m dest ty.bytes a r := by
  have hs := all_std h hi
  have key : ∀ op v, BitVec.ofNat (8 * ty.bytes) (mpiOp ty.bytes op (v % 256 ^ ty.bytes) (m.load dest ty.bytes)) =
      wordOp op (BitVec.ofNat (8 * ty.bytes) v) (word m dest ty.bytes) := fun op v => ofNat_mpiOp _ _ _ _
  have fine : ∀ op v, op ≠ .sum → Fine m dest ty op v := fun op v hop _ e => absurd e hop
  have fineS : ∀ v, a.addend = some v → Fine m dest ty .sum v := fun v hv hk _ => ho hk v hv
  cases a with
  | cswap c v =>
    refine ⟨_, amCswap_ok fp junk m dest hs c v, ?_⟩
    have hiff : m.load dest ty.bytes = c % 256 ^ ty.bytes ↔ word m dest ty.bytes = BitVec.ofNat (8 * ty.bytes) c := by
      rw [← BitVec.toNat_inj, toNat_word, BitVec.toNat_ofNat, p256]
    refine ⟨?_, ?_, ?_⟩
    · simp only [spec]
      by_cases hc : m.load dest ty.bytes = c % 256 ^ ty.bytes
      · rw [if_pos hc, if_pos (hiff.1 hc), word_store, ofNat_mod]
      · rw [if_neg hc, if_neg (fun h => hc (hiff.2 h))]
    · intro x hx
      simp only [spec, Option.some.injEq] at hx
      subst hx
      exact ⟨rfl, Mem.load_lt _ _ _⟩
    · intro p hp
      simp only
      split
      · exact Mem.store_frame _ _ _ _ _ hp
      · rfl
  | finc => exact ⟨_, amFetch_ok fp junk m dest hs (by decide) (fineS 1 rfl), meets_store _ _ _ _ _ (key _ _) rfl⟩
  | inc =>
    refine ⟨_, ?_, meets_store_void _ _ _ _ .inc (key .sum 1) rfl⟩
    simp only [am]; rw [amPost_ok fp junk m dest hs (fineS 1 rfl)]; rfl
  | fadd v => exact ⟨_, amFetch_ok fp junk m dest hs (by decide) (fineS v rfl), meets_store _ _ _ _ _ (key _ _) rfl⟩
  | add v =>
    refine ⟨_, ?_, meets_store_void _ _ _ _ (.add v) (key .sum v) rfl⟩
    simp only [am]; rw [amPost_ok fp junk m dest hs (fineS v rfl)]; rfl
  | fetch =>
    refine ⟨_, amFetch_noop fp junk m dest h 0, rfl, ?_, fun p _ => rfl⟩
    intro x hx
    simp only [spec, Option.some.injEq] at hx
    subst hx
    exact ⟨rfl, Mem.load_lt _ _ _⟩
  | set v =>
    refine ⟨_, ?_, meets_store_void _ _ _ _ (.set v) (key .replace v) rfl⟩
    simp only [am]; rw [amPost_ok fp junk m dest hs (fine _ _ (by decide))]; rfl
  | swap v =>
    exact ⟨_, amFetch_ok fp junk m dest hs (by decide) (fine _ _ (by decide)), meets_store _ _ _ _ _ (key _ _) rfl⟩
  | fand v =>
    exact ⟨_, amFetch_ok fp junk m dest hs (by decide) (fine _ _ (by decide)), meets_store _ _ _ _ _ (key _ _) rfl⟩
  | and v =>
    refine ⟨_, ?_, meets_store_void _ _ _ _ (.and v) (key .band v) rfl⟩
    simp only [am]; rw [amPost_ok fp junk m dest hs (fine _ _ (by decide))]; rfl
  | «for» v =>
    exact ⟨_, amFetch_ok fp junk m dest hs (by decide) (fine _ _ (by decide)), meets_store _ _ _ _ _ (key _ _) rfl⟩
  | or v =>
    refine ⟨_, ?_, meets_store_void _ _ _ _ (.or v) (key .bor v) rfl⟩
    simp only [am]; rw [amPost_ok fp junk m dest hs (fine _ _ (by decide))]; rfl
  | fxor v =>
    exact ⟨_, amFetch_ok fp junk m dest hs (by decide) (fine _ _ (by decide)), meets_store _ _ _ _ _ (key _ _) rfl⟩
  | xor v =>
    refine ⟨_, ?_, meets_store_void _ _ _ _ (.xor v) (key .bxor v) rfl⟩
    simp only [am]; rw [amPost_ok fp junk m dest hs (fine _ _ (by decide))]; rfl

/-- C24. Unsigned types: every routine does what OpenSHMEM says on the full width, whatever the memory, the operands
and the uninitialised bytes of the packet; only the word itself changes. -/
theorem C24_unsigned (fp : Fp) (junk m : Mem) (dest : Nat) {ty : TyIdx} {a : Api} (h : ty ∈ a.types)
    (hu : ty.kind = .uint ty.bytes) : ∃ r, am fp junk m dest ty a = .ok r ∧ Meets m dest ty.bytes a r := by
  apply am_int fp junk m dest h
  · constructor <;> rintro rfl <;> cases hu
  · intro hk; rw [hu] at hk; cases hk

/-- C24. Signed types: the same, provided an addition does not overflow the type. Missing: overflowing additions, which
are undefined behaviour in the handler (`C24_signed_overflow_ub`). -/
theorem C24_signed_partial (fp : Fp) (junk m : Mem) (dest : Nat) {ty : TyIdx} {a : Api} (h : ty ∈ a.types)
    (hi : ty ≠ .float ∧ ty ≠ .double) (ho : NoOverflow m dest ty.bytes a) :
    ∃ r, am fp junk m dest ty a = .ok r ∧ Meets m dest ty.bytes a r :=
  am_int fp junk m dest h hi (fun _ => ho)

/-- C24 is false for signed types: incrementing the largest `int` over active messages is undefined behaviour instead
of wrapping around. -/
theorem C24_signed_overflow_ub (fp : Fp) : ∃ m : Mem, word m 0 4 = 0x7fffffff ∧ ∀ junk,
    am fp junk m 0 .int .inc = .ub := by
  refine ⟨Mem.store (fun _ => 0) 0 4 0x7fffffff, by decide, ?_⟩
  intro junk
  simp only [am, amPost, postCb, TyIdx.kind, Kind.width, TyIdx.bytes, load_fill, opOf, opSint, Mem.load_store]
  rw [if_neg (by unfold sval; decide)]
  rfl

/-- C24. The direct MPI path does the same on all integer types. -/
theorem C24_direct (m : Mem) (dest : Nat) {ty : TyIdx} {a : Api} : Meets m dest ty.bytes a (direct m dest ty a) := by
  have key : ∀ op v, BitVec.ofNat (8 * ty.bytes) (mpiOp ty.bytes op v (m.load dest ty.bytes)) =
      wordOp op (BitVec.ofNat (8 * ty.bytes) v) (word m dest ty.bytes) := by
    intro op v
    cases op
    · simp only [mpiOp, wordOp]; rw [BitVec.and_comm, BitVec.ofNat_and]; rfl
    · simp only [mpiOp, wordOp]; rw [BitVec.or_comm, BitVec.ofNat_or]; rfl
    · simp only [mpiOp, wordOp]; rw [BitVec.xor_comm, BitVec.ofNat_xor]; rfl
    · rfl
    · rfl
    · simp only [mpiOp, wordOp]; rw [ofNat_mod, BitVec.ofNat_add]; rfl
  cases a with
  | cswap c v =>
    have hiff : m.load dest ty.bytes = c % 256 ^ ty.bytes ↔ word m dest ty.bytes = BitVec.ofNat (8 * ty.bytes) c := by
      rw [← BitVec.toNat_inj, toNat_word, BitVec.toNat_ofNat, p256]
    refine ⟨?_, ?_, ?_⟩
    · simp only [spec, direct, mpiCas]
      by_cases hc : m.load dest ty.bytes = c % 256 ^ ty.bytes
      · rw [if_pos hc, if_pos (hiff.1 hc), word_store]
      · rw [if_neg hc, if_neg (fun h => hc (hiff.2 h))]
    · intro x hx
      simp only [spec, Option.some.injEq] at hx
      subst hx
      exact ⟨rfl, Mem.load_lt _ _ _⟩
    · intro p hp
      simp only [direct, mpiCas]
      split
      · exact Mem.store_frame _ _ _ _ _ hp
      · rfl
  | finc => exact meets_store _ _ _ _ _ (key _ _) rfl
  | inc => exact meets_store_void _ _ _ _ .inc (key _ _) rfl
  | fadd v => exact meets_store _ _ _ _ _ (key _ _) rfl
  | add v => exact meets_store_void _ _ _ _ (.add v) (key _ _) rfl
  | fetch => exact meets_store _ _ _ _ _ (key .noop 0) rfl
  | set v => exact meets_store_void _ _ _ _ (.set v) (key _ _) rfl
  | swap v => exact meets_store _ _ _ _ _ (key _ _) rfl
  | fand v => exact meets_store _ _ _ _ _ (key _ _) rfl
  | and v => exact meets_store_void _ _ _ _ (.and v) (key _ _) rfl
  | «for» v => exact meets_store _ _ _ _ _ (key _ _) rfl
  | or v => exact meets_store_void _ _ _ _ (.or v) (key _ _) rfl
  | fxor v => exact meets_store _ _ _ _ _ (key _ _) rfl
  | xor v => exact meets_store_void _ _ _ _ (.xor v) (key _ _) rfl

/-- C24. Floating-point types offer fetch, set and swap; they move the bit pattern unchanged. -/
theorem C24_fp (fp : Fp) (junk m : Mem) (dest : Nat) {ty : TyIdx} {a : Api} (h : ty ∈ a.types)
    (hf : ty = .float ∨ ty = .double) : ∃ r, am fp junk m dest ty a = .ok r ∧ Meets m dest ty.bytes a r := by
  have hx : ty ∈ extTypes := by rcases hf with rfl | rfl <;> decide
  have hrep : ∀ v b, opOf fp ty .replace v b = .ok v := by
    intro v b
    rcases hf with rfl | rfl <;> rfl
  cases a with
  | fetch =>
    refine ⟨_, amFetch_noop fp junk m dest hx 0, rfl, ?_, fun p _ => rfl⟩
    intro x hx
    simp only [spec, Option.some.injEq] at hx
    subst hx
    exact ⟨rfl, Mem.load_lt _ _ _⟩
  | set v =>
    refine ⟨(m.store dest ty.bytes (v % 256 ^ ty.bytes), 0), ?_, meets_store_void _ _ _ _ (.set v) (ofNat_mod _ _) rfl⟩
    simp only [am, amPost, postCb, width_ext hx, load_fill, hrep, Res.bind_ok]
  | swap v =>
    refine ⟨(m.store dest ty.bytes (v % 256 ^ ty.bytes), m.load dest ty.bytes), ?_,
      meets_store _ _ _ _ (.swap v) (ofNat_mod _ _) rfl⟩
    simp only [am, amFetch, fetchCb]
    rw [if_pos (by decide)]
    simp only [width_ext hx, load_fill, hrep, Res.bind_ok, reply_ok]
  | cswap c v => rcases hf with rfl | rfl <;> exact absurd h (by simp [Api.types, stdTypes])
  | finc => rcases hf with rfl | rfl <;> exact absurd h (by simp [Api.types, stdTypes])
  | inc => rcases hf with rfl | rfl <;> exact absurd h (by simp [Api.types, stdTypes])
  | fadd v => rcases hf with rfl | rfl <;> exact absurd h (by simp [Api.types, stdTypes])
  | add v => rcases hf with rfl | rfl <;> exact absurd h (by simp [Api.types, stdTypes])
  | fand v => rcases hf with rfl | rfl <;> exact absurd h (by simp [Api.types, bitwsTypes])
  | and v => rcases hf with rfl | rfl <;> exact absurd h (by simp [Api.types, bitwsTypes])
  | «for» v => rcases hf with rfl | rfl <;> exact absurd h (by simp [Api.types, bitwsTypes])
  | or v => rcases hf with rfl | rfl <;> exact absurd h (by simp [Api.types, bitwsTypes])
  | fxor v => rcases hf with rfl | rfl <;> exact absurd h (by simp [Api.types, bitwsTypes])
  | xor v => rcases hf with rfl | rfl <;> exact absurd h (by simp [Api.types, bitwsTypes])

/-- C24. A packet with a type the handlers do not know, or a bitwise operation on a floating-point type, aborts (no
memory is produced). -/
theorem C24_unsupported_aborts (fp : Fp) (m : Mem) (dest : Nat) (ty : TyIdx) (op : OpIdx) (c v junk : Mem) :
    (ty ∉ extTypes → postCb fp m dest ty op v = .abort ∧ fetchCb fp m dest ty op v junk = .abort ∧
      cswapCb fp m dest ty c v junk = .abort) ∧
    ((ty = .float ∨ ty = .double) → (op = .band ∨ op = .bor ∨ op = .bxor) →
      postCb fp m dest ty op v = .abort ∧ fetchCb fp m dest ty op v junk = .abort) := by
  constructor
  · intro h
    cases ty <;> simp_all [extTypes, stdTypes, postCb, fetchCb, cswapCb, cEq, opOf, TyIdx.kind]
  · rintro (rfl | rfl) (rfl | rfl | rfl) <;> exact ⟨rfl, rfl⟩

/-! ## Non-vacuity -/

/-- 0xffffffff + 1 wraps to 0 in `unsigned int` without touching the neighbours -/
example : TyIdx.uint ∈ Api.finc.types ∧ TyIdx.uint.kind = .uint TyIdx.uint.bytes := by decide

example : NoOverflow (Mem.store (fun _ => 7) 8 4 0xfffffffe) 8 4 (.add 5) := by
  intro v hv
  cases hv
  decide

end Verif.Amo
