import Verif.Tag.Model
/-!
# Headers in memory describe the list of chunks
-/
namespace Verif.Tag
open Heap Dl

/-! ## Words -/

theorem ld_lt (m : Mem) (a : Nat) : ld m a < 2 ^ 64 := by
  unfold ld
  have h0 := (m a).isLt
  have h1 := (m (a + 1)).isLt
  have h2 := (m (a + 2)).isLt
  have h3 := (m (a + 3)).isLt
  have h4 := (m (a + 4)).isLt
  have h5 := (m (a + 5)).isLt
  have h6 := (m (a + 6)).isLt
  have h7 := (m (a + 7)).isLt
  omega

theorem ld_congr {m m' : Mem} {a : Nat} (h : ∀ x, a ≤ x → x < a + 8 → m' x = m x) : ld m' a = ld m a := by
  unfold ld
  rw [h a (by omega) (by omega), h (a + 1) (by omega) (by omega), h (a + 2) (by omega) (by omega), h (a + 3) (by omega) (by omega),
    h (a + 4) (by omega) (by omega), h (a + 5) (by omega) (by omega), h (a + 6) (by omega) (by omega), h (a + 7) (by omega) (by omega)]

theorem st_of_ne {m : Mem} {a v x : Nat} (h : x < a ∨ a + 8 ≤ x) : st m a v x = m x := by
  unfold st
  rw [if_neg (by omega)]

theorem st_at {m : Mem} {a v : Nat} (k : Nat) (h : k < 8) : st m a v (a + k) = BitVec.ofNat 8 (v / 2 ^ (8 * k)) := by
  unfold st
  rw [if_pos (by omega), Nat.add_sub_cancel_left]

theorem ld_st_same {m : Mem} {a v : Nat} (h : v < 2 ^ 64) : ld (st m a v) a = v := by
  unfold ld
  have e0 := st_at (m := m) (a := a) (v := v) 0 (by omega)
  rw [Nat.add_zero] at e0
  rw [e0, st_at 1 (by omega), st_at 2 (by omega), st_at 3 (by omega), st_at 4 (by omega), st_at 5 (by omega), st_at 6 (by omega), st_at 7 (by omega)]
  simp only [BitVec.toNat_ofNat]
  omega

theorem ld_st_ne {m : Mem} {a b v : Nat} (h : b + 8 ≤ a ∨ a + 8 ≤ b) : ld (st m a v) b = ld m b :=
  ld_congr (fun x h1 h2 => st_of_ne (by omega))

/-! ## Flags -/

theorem or_small {s k : Nat} (hs : 8 ∣ s) (hk : k < 8) : s ||| k = s + k := by
  obtain ⟨q, rfl⟩ := hs
  exact (Nat.two_pow_add_eq_or_of_lt (i := 3) hk q).symm

theorem or_one {s : Nat} (hs : 8 ∣ s) : s ||| 1 = s + 1 := or_small hs (by omega)
theorem or_three {s : Nat} (hs : 8 ∣ s) : s ||| 1 ||| 2 = s + 3 := by
  rw [Nat.or_assoc]; exact or_small hs (k := 3) (by omega)
theorem or_flag {s b : Nat} (hs : 8 ∣ s) (hb : b < 2) : b ||| s ||| 2 = s + b + 2 := by
  rw [Nat.or_comm b s, Nat.or_assoc]
  have : b = 0 ∨ b = 1 := by omega
  rcases this with rfl | rfl
  · exact or_small hs (k := 2) (by omega)
  · exact or_small hs (k := 3) (by omega)

theorem and_one (w : Nat) : w &&& 1 = w % 2 := Nat.and_two_pow_sub_one_eq_mod w 1
theorem and_three (w : Nat) : w &&& 3 = w % 4 := Nat.and_two_pow_sub_one_eq_mod w 2
theorem and_two (w : Nat) : w &&& 2 = w / 2 % 2 * 2 := by
  apply Nat.eq_of_testBit_eq
  intro i
  rw [Nat.testBit_and]
  have e : w / 2 % 2 * 2 = 2 ^ 1 * (w / 2 % 2) := by omega
  rw [e, Nat.testBit_two_pow_mul, show (2 : Nat) = 2 ^ 1 from rfl, Nat.testBit_two_pow]
  by_cases h : i = 1
  · subst h
    simp [Nat.testBit_succ, Nat.testBit_zero]
  · have : ¬1 = i := fun hh => h hh.symm
    simp only [this, decide_false, Bool.and_false]
    by_cases h1 : 1 ≤ i
    · obtain ⟨k, rfl⟩ := Nat.exists_eq_add_of_le h1
      have hk : k ≠ 0 := by omega
      obtain ⟨j, rfl⟩ := Nat.exists_eq_succ_of_ne_zero hk
      have hz : w / 2 ^ 1 % 2 < 2 := Nat.mod_lt _ (by omega)
      rw [Nat.add_sub_cancel_left, Nat.testBit_succ]
      have : w / 2 ^ 1 % 2 ^ 1 / 2 = 0 := by omega
      rw [this]; simp
    · have : i = 0 := by omega
      subst this; simp

/-- what the flags of a header say -/
theorem head_flags {m : Mem} {p s b u : Nat} (h : ld m (p + 8) = s + b + 2 * u) (hs : 8 ∣ s) (hb : b < 2) (hu : u < 2) :
    pinuse m p = decide (b = 1) ∧ cinuse m p = decide (u = 1) ∧ inuseBits m p = b + 2 * u ∧ chunksize m p = s := by
  unfold pinuse cinuse inuseBits chunksize head
  rw [h, and_one, and_two, and_three]
  obtain ⟨k, rfl⟩ := hs
  refine ⟨?_, ?_, by omega, by omega⟩
  · rw [decide_eq_decide]; omega
  · rw [decide_eq_decide]; omega

/-! ## Chunks in memory -/

/-- in use (or lost): the `CINUSE_BIT`, L2235-2236 -/
def inUse : Use → Nat
  | .free => 0
  | .user _ => 1
  | .dead => 1

theorem inUse_lt (u : Use) : inUse u < 2 := by cases u <;> simp [inUse]

/-- headers of the chunks `cs` from offset `o` on; `b`: the chunk before is in use -/
def Pre (m : Mem) : Nat → Nat → List Chunk → Prop
  | _, _, [] => True
  | o, b, c :: cs => ld m (o + 8) = c.size + b + 2 * inUse c.use ∧ (c.use = .free → ld m (o + c.size) = c.size) ∧ Pre m (o + c.size) (inUse c.use) cs

/-- the same, followed by `top` with `t` bytes -/
def Lay (m : Mem) (t : Nat) : Nat → Nat → List Chunk → Prop
  | o, b, [] => ld m (o + 8) = t + b
  | o, b, c :: cs => ld m (o + 8) = c.size + b + 2 * inUse c.use ∧ (c.use = .free → ld m (o + c.size) = c.size) ∧ Lay m t (o + c.size) (inUse c.use) cs

/-- the last chunk, or what is before the first, is in use -/
def lastUse (b : Nat) : List Chunk → Nat
  | [] => b
  | c :: cs => lastUse (inUse c.use) cs

theorem lastUse_lt {b : Nat} (hb : b < 2) (l : List Chunk) : lastUse b l < 2 := by
  induction l generalizing b with
  | nil => exact hb
  | cons c l ih => exact ih (inUse_lt _)

theorem lastUse_snoc {b : Nat} {c : Chunk} (l : List Chunk) : lastUse b (l ++ [c]) = inUse c.use := by
  induction l generalizing b with
  | nil => rfl
  | cons d l ih => exact ih

theorem lay_append {m : Mem} {t : Nat} (l r : List Chunk) : ∀ (o b : Nat), Lay m t o b (l ++ r) ↔ Pre m o b l ∧ Lay m t (o + total l) (lastUse b l) r := by
  induction l with
  | nil => intro o b; simp [Pre, total, lastUse]
  | cons c l ih =>
    intro o b
    simp only [List.cons_append, Lay, Pre, total, lastUse, ih, Nat.add_assoc]
    constructor
    · rintro ⟨h1, h2, h3, h4⟩; exact ⟨⟨h1, h2, h3⟩, h4⟩
    · rintro ⟨⟨h1, h2, h3⟩, h4⟩; exact ⟨h1, h2, h3, h4⟩

theorem pre_append {m : Mem} (l r : List Chunk) : ∀ (o b : Nat), Pre m o b (l ++ r) ↔ Pre m o b l ∧ Pre m (o + total l) (lastUse b l) r := by
  induction l with
  | nil => intro o b; simp [Pre, total, lastUse]
  | cons c l ih =>
    intro o b
    simp only [List.cons_append, Pre, total, lastUse, ih, Nat.add_assoc]
    constructor
    · rintro ⟨h1, h2, h3, h4⟩; exact ⟨⟨h1, h2, h3⟩, h4⟩
    · rintro ⟨⟨h1, h2, h3⟩, h4⟩; exact ⟨h1, h2, h3, h4⟩

/-- sizes are multiples of 16 and not 0 -/
def Siz (cs : List Chunk) : Prop := ∀ c ∈ cs, 16 ∣ c.size ∧ 0 < c.size

theorem siz_cons {c : Chunk} {cs : List Chunk} : Siz (c :: cs) ↔ (16 ∣ c.size ∧ 0 < c.size) ∧ Siz cs := by
  unfold Siz; simp
theorem siz_append {l r : List Chunk} : Siz (l ++ r) ↔ Siz l ∧ Siz r := by
  unfold Siz
  constructor
  · exact fun h => ⟨fun c hc => h c (by simp [hc]), fun c hc => h c (by simp [hc])⟩
  · rintro ⟨h1, h2⟩ c hc
    rcases List.mem_append.1 hc with hc | hc
    · exact h1 c hc
    · exact h2 c hc

theorem WF.siz {h : Heap} (w : WF h) : Siz h.chunks := fun c hc => ⟨(w.good c hc).1, (w.good c hc).2.1⟩

/-- a chunk at offset `p` of a list that begins at `o` -/
def At (o : Nat) (cs : List Chunk) (p s : Nat) (u : Use) : Prop := ∃ l r, cs = l ++ ⟨s, u⟩ :: r ∧ o + total l = p

theorem at_cons {o p s : Nat} {u : Use} {c : Chunk} {cs : List Chunk} : At o (c :: cs) p s u ↔ (p = o ∧ c = ⟨s, u⟩) ∨ At (o + c.size) cs p s u := by
  constructor
  · rintro ⟨l, r, e, hp⟩
    cases l with
    | nil =>
      simp only [List.nil_append, List.cons.injEq] at e
      exact .inl ⟨by simp [total] at hp; omega, e.1⟩
    | cons d l =>
      simp only [List.cons_append, List.cons.injEq] at e
      obtain ⟨rfl, rfl⟩ := e
      simp only [total] at hp
      exact .inr ⟨l, r, rfl, by omega⟩
  · rintro (⟨rfl, rfl⟩ | ⟨l, r, rfl, hp⟩)
    · exact ⟨[], cs, rfl, rfl⟩
    · exact ⟨c :: l, r, rfl, by simp only [total]; omega⟩

theorem at_bound {o p s : Nat} {u : Use} {cs : List Chunk} (h : At o cs p s u) : o ≤ p ∧ p + s ≤ o + total cs := by
  obtain ⟨l, r, rfl, rfl⟩ := h
  simp only [total_append, total]
  omega

theorem at_append {o p s : Nat} {u : Use} {l r : List Chunk} : At o (l ++ r) p s u ↔ At o l p s u ∨ At (o + total l) r p s u := by
  induction l generalizing o with
  | nil =>
    simp only [List.nil_append, total, Nat.add_zero]
    constructor
    · exact .inr
    · rintro (⟨l, r', e, -⟩ | h)
      · exact absurd e (by simp)
      · exact h
  | cons c l ih =>
    rw [List.cons_append, at_cons, ih, at_cons, or_assoc]
    simp only [total, Nat.add_assoc]

theorem at_mem {o p s : Nat} {u : Use} {cs : List Chunk} (h : At o cs p s u) : (⟨s, u⟩ : Chunk) ∈ cs := by
  obtain ⟨l, r, rfl, rfl⟩ := h
  simp

/-- bytes that are not part of a header: of a free chunk all but the head, of another one also the `prev_foot` behind it -/
def Soft (cs : List Chunk) (o x : Nat) : Prop :=
  (∃ p s u, At o cs p s u ∧ p + 16 ≤ x ∧ x < p + s + 8 * inUse u) ∨ o + total cs + 16 ≤ x

theorem lay_soft {m m' : Mem} {t : Nat} : ∀ {cs : List Chunk} {o b : Nat}, Siz cs → (∀ x, o + 8 ≤ x → ¬Soft cs o x → m' x = m x) → Lay m t o b cs → Lay m' t o b cs := by
  intro cs
  induction cs with
  | nil =>
    intro o b _ h hl
    unfold Lay at hl ⊢
    rw [← hl]
    refine ld_congr (fun x h1 h2 => h x (by omega) ?_)
    rintro (⟨p, s, u, ⟨l, r, e, -⟩, -⟩ | h3)
    · exact absurd e (by simp)
    · simp only [total] at h3; omega
  | cons c cs ih =>
    intro o b hs h hl
    obtain ⟨⟨c1, c2⟩, hs⟩ := siz_cons.1 hs
    unfold Lay at hl ⊢
    obtain ⟨l1, l2, l3⟩ := hl
    have c3 : 16 ≤ c.size := by omega
    have hfar : ∀ {p s : Nat} {u : Use}, At (o + c.size) cs p s u → o + c.size ≤ p := fun ha => (at_bound ha).1
    refine ⟨?_, fun hf => ?_, ih hs (fun x hx hn => h x (by omega) ?_) l3⟩
    · rw [← l1]
      refine ld_congr (fun x h1 h2 => h x (by omega) ?_)
      rintro (⟨p, s, u, ha, k1, k2⟩ | k)
      · rcases at_cons.1 ha with ⟨rfl, -⟩ | ha
        · omega
        · have := hfar ha; omega
      · simp only [total] at k; omega
    · have := l2 hf
      rw [← this]
      have e : o + ld m (o + c.size) = o + c.size := by rw [this]
      rw [e]
      refine ld_congr (fun x h1 h2 => h x (by omega) ?_)
      rintro (⟨p, s, u, ha, k1, k2⟩ | k)
      · rcases at_cons.1 ha with ⟨rfl, rfl⟩ | ha
        · simp only at hf h1 h2
          subst hf
          simp only [inUse] at k2
          omega
        · have := hfar ha; omega
      · simp only [total] at k; omega
    · rintro (⟨p, s, u, ha, k1, k2⟩ | k)
      · rcases at_cons.1 ha with ⟨rfl, rfl⟩ | ha
        · simp only at hx
          have := inUse_lt u
          omega
        · exact hn (.inl ⟨p, s, u, ha, k1, k2⟩)
      · refine hn (.inr ?_)
        simp only [total] at k; omega

/-- headers from `o` on depend on bytes from `o + 8` on only -/
theorem lay_congr {m m' : Mem} {t : Nat} : ∀ {cs : List Chunk} {o b : Nat}, Siz cs → (∀ x, o + 8 ≤ x → m' x = m x) → Lay m t o b cs → Lay m' t o b cs :=
  fun hs h hl => lay_soft hs (fun x hx _ => h x hx) hl

/-- headers of chunks before `o + total cs` depend on bytes before `o + total cs + 8` only -/
theorem pre_congr {m m' : Mem} : ∀ {cs : List Chunk} {o b : Nat}, Siz cs → (∀ x, x < o + total cs + 8 → m' x = m x) → Pre m o b cs → Pre m' o b cs := by
  intro cs
  induction cs with
  | nil => intros; trivial
  | cons c cs ih =>
    intro o b hs h hl
    obtain ⟨⟨c1, c2⟩, hs⟩ := siz_cons.1 hs
    unfold Pre at hl ⊢
    obtain ⟨l1, l2, l3⟩ := hl
    simp only [total] at h
    have c3 : 16 ≤ c.size := by omega
    refine ⟨?_, fun hf => ?_, ih hs (fun x hx => h x (by omega)) l3⟩
    · rw [← l1]
      exact ld_congr (fun x h1 h2 => h x (by omega))
    · have := l2 hf
      rw [← this]
      have e : o + ld m (o + c.size) = o + c.size := by rw [this]
      rw [e]
      exact ld_congr (fun x h1 h2 => h x (by omega))

/-- header at `o` -/
def first (t : Nat) : List Chunk → Nat
  | [] => t
  | c :: _ => c.size + 2 * inUse c.use

theorem lay_first {m : Mem} {t o b : Nat} {cs : List Chunk} (h : Lay m t o b cs) : ld m (o + 8) = first t cs + b := by
  cases cs with
  | nil => exact h
  | cons c cs => have := h.1; simp only [first]; omega

theorem first_even {t : Nat} {cs : List Chunk} (ht : 16 ∣ t) (hs : Siz cs) : first t cs % 2 = 0 := by
  cases cs with
  | nil => simp only [first]; omega
  | cons c cs => have := (siz_cons.1 hs).1.1; simp only [first]; omega

/-- only the flag in the first header changes -/
theorem lay_flag {m m' : Mem} {t o b b' : Nat} {cs : List Chunk} (hs : Siz cs) (h1 : ld m' (o + 8) = first t cs + b') (h2 : ∀ x, o + 16 ≤ x → m' x = m x)
    (h : Lay m t o b cs) : Lay m' t o b' cs := by
  cases cs with
  | nil => exact h1
  | cons c cs =>
    obtain ⟨⟨c1, c2⟩, hs⟩ := siz_cons.1 hs
    obtain ⟨l1, l2, l3⟩ := h
    simp only [first] at h1
    refine ⟨by omega, fun hf => ?_, lay_congr hs (fun x hx => h2 x (by omega)) l3⟩
    have := l2 hf
    rw [← this]
    have e : o + ld m (o + c.size) = o + c.size := by rw [this]
    rw [e]
    exact ld_congr (fun x k1 k2 => h2 x (by omega))

theorem first_le {t : Nat} {cs : List Chunk} : first t cs ≤ t + total cs + 2 := by
  cases cs with
  | nil => simp [first]; omega
  | cons c cs => have := inUse_lt c.use; simp only [first, total]; omega

theorem setPinuse_ne {m : Mem} {p x : Nat} (h : x < p + 8 ∨ p + 16 ≤ x) : setPinuse m p x = m x := st_of_ne (by omega)
theorem clearPinuse_ne {m : Mem} {p x : Nat} (h : x < p + 8 ∨ p + 16 ≤ x) : clearPinuse m p x = m x := st_of_ne (by omega)

theorem lay_setPinuse {m : Mem} {t o b : Nat} {cs : List Chunk} (ht : 16 ∣ t) (hs : Siz cs) (hb : b < 2) (h64 : t + total cs + 8 < 2 ^ 64) (h : Lay m t o b cs) :
    Lay (setPinuse m o) t o 1 cs := by
  refine lay_flag hs ?_ (fun x hx => setPinuse_ne (.inr hx)) h
  have h1 := lay_first h
  have h2 := first_even (t := t) ht hs
  have h3 := first_le (t := t) (cs := cs)
  unfold setPinuse head
  have e : ld m (o + 8) ||| 1 = first t cs + 1 := by
    rw [h1]
    have hd : first t cs + b = 2 ^ 1 * (first t cs / 2) + b := by omega
    rw [hd, Nat.two_pow_add_eq_or_of_lt (i := 1) (by omega), Nat.or_assoc]
    have : b ||| 1 = 1 := by
      have : b = 0 ∨ b = 1 := by omega
      rcases this with rfl | rfl <;> rfl
    rw [this, ← Nat.two_pow_add_eq_or_of_lt (i := 1) (by omega)]
    omega
  rw [e]
  exact ld_st_same (by omega)

theorem lay_clearPinuse {m : Mem} {t o b : Nat} {cs : List Chunk} (ht : 16 ∣ t) (hs : Siz cs) (hb : b < 2) (h64 : t + total cs + 8 < 2 ^ 64) (h : Lay m t o b cs) :
    Lay (clearPinuse m o) t o 0 cs := by
  refine lay_flag hs ?_ (fun x hx => clearPinuse_ne (.inr hx)) h
  have h1 := lay_first h
  have h2 := first_even (t := t) ht hs
  have h3 := first_le (t := t) (cs := cs)
  unfold clearPinuse head
  rw [h1]
  have e : (first t cs + b) / 2 * 2 = first t cs := by omega
  rw [e, Nat.add_zero]
  exact ld_st_same (by omega)

end Verif.Tag
