import Verif.Vis.Count
/-!
# Properties C74-C76: tickets, elections and spin locks made of AMOs
-/
namespace Verif.Vis
open Verif.Sobj Verif.Rma
open Verif.Order (St Pend Cfg Op)
open Verif.Amo (TyIdx Fp)

/-! ## Tickets and winners -/

/-- what a list of additions has added -/
def addsUp (w : Nat) (l : List (Nat × Amo.Api × Nat)) : BitVec w := (l.map (fun c => BitVec.ofNat w (c.2.1.addend.getD 0))).sum

theorem spec_add {w : Nat} {x : BitVec w} {api : Amo.Api} {v : Nat} (h : api.addend = some v) :
    (Amo.spec x api).1 = x + BitVec.ofNat w v := by
  cases api <;> simp only [Amo.Api.addend, Option.some.injEq, reduceCtorEq] at h <;> subst h <;> simp [Amo.spec]

theorem spec_ret {w : Nat} {x : BitVec w} {api : Amo.Api} (h : yields api = true) : (Amo.spec x api).2 = some x := by
  cases api <;> simp_all [yields, Amo.spec]

theorem seq_adds {w : Nat} {x z : BitVec w} {l : List (Nat × Amo.Api × Nat)} (h : Seq x l z)
    (ha : ∀ c ∈ l, ∃ v, c.2.1.addend = some v) : z = x + addsUp w l := by
  induction h with
  | nil x => simp [addsUp]
  | @cons x z q r api l h s ih =>
    obtain ⟨v, hv⟩ := ha _ (List.mem_cons_self ..)
    rw [ih (fun c hc => ha c (List.mem_cons_of_mem _ hc)), spec_add hv]
    unfold addsUp
    simp only [List.map_cons, List.sum_cons, hv, Option.getD_some]
    rw [BitVec.add_assoc]

/-- C74. A counter that is only changed by additions: `fetch_add`/`fetch_inc` returns the start value plus what all additions
performed before it have added. -/
theorem C74_prefix {S : Sys} {g0 g : G} {l : List Ev} (h : Run S g0 l g) {t : Nat} {a : Int} {ty : TyIdx}
    (hn : ∀ y, a ≤ y → y < a + ty.bytes → NoWriter g0 (t, y))
    (hl : OnlyBy t a ty (fun api => ∃ v, api.addend = some v) l)
    {l1 l2 : List (Nat × Amo.Api × Nat)} {q r : Nat} {api : Amo.Api} (hs : acts t a ty l = l1 ++ (q, api, r) :: l2)
    (hr : yields api = true) :
    BitVec.ofNat (8 * ty.bytes) r = wordAt (g0.mem t) a ty + addsUp _ l1 ∧ r < 2 ^ (8 * ty.bytes) := by
  have h1 := C73_linear h hn (only_amo hl)
  have hadd : ∀ c ∈ l1, ∃ v, c.2.1.addend = some v := fun c hc => only_acts h hn hl c (by rw [hs]; simp [hc])
  rw [hs] at h1
  obtain ⟨y, h2, h3⟩ := seq_split h1
  cases h3 with
  | cons h4 s =>
    obtain ⟨h5, h6⟩ := h4 y (spec_ret hr)
    exact ⟨by rw [h5]; exact seq_adds h2 hadd, h6⟩

theorem addsUp_inc (w : Nat) {l : List (Nat × Amo.Api × Nat)} (h : ∀ c ∈ l, c.2.1.addend = some 1) :
    addsUp w l = BitVec.ofNat w l.length := by
  induction l with
  | nil => simp [addsUp]
  | cons c l ih =>
    have := ih (fun c hc => h c (List.mem_cons_of_mem _ hc))
    unfold addsUp at this ⊢
    simp only [List.map_cons, List.sum_cons, this, h c (List.mem_cons_self ..), Option.getD_some, List.length_cons]
    rw [BitVec.ofNat_add, BitVec.add_comm]

/-- C74. Tickets: if the counter is only incremented by one (`inc`, `fetch_inc`, or additions of 1), the values returned are
consecutive: the call performed as number `i` gets start + `i`, so no two of at most 2^bits calls get the same. -/
theorem C74_tickets {S : Sys} {g0 g : G} {l : List Ev} (h : Run S g0 l g) {t : Nat} {a : Int} {ty : TyIdx}
    (hn : ∀ y, a ≤ y → y < a + ty.bytes → NoWriter g0 (t, y))
    (hl : OnlyBy t a ty (fun api => api.addend = some 1) l) :
    (∀ i c, (acts t a ty l)[i]? = some c → yields c.2.1 = true →
      BitVec.ofNat (8 * ty.bytes) c.2.2 = wordAt (g0.mem t) a ty + BitVec.ofNat _ i) ∧
    ((acts t a ty l).length ≤ 2 ^ (8 * ty.bytes) → ∀ (i j : Nat) (c d : Nat × Amo.Api × Nat), (acts t a ty l)[i]? = some c → (acts t a ty l)[j]? = some d →
      yields c.2.1 = true → yields d.2.1 = true → c.2.2 = d.2.2 → i = j) := by
  have hinc : ∀ c ∈ acts t a ty l, c.2.1.addend = some 1 := only_acts h hn hl
  have hl' : OnlyBy t a ty (fun api => ∃ v, api.addend = some v) l := by
    intro e he ht
    obtain ⟨p, ctx, addr, api, ep, h1, h2⟩ := hl e he ht
    exact ⟨p, ctx, addr, api, ep, h1, 1, h2⟩
  have key : ∀ i c, (acts t a ty l)[i]? = some c → yields c.2.1 = true →
      BitVec.ofNat (8 * ty.bytes) c.2.2 = wordAt (g0.mem t) a ty + BitVec.ofNat _ i := by
    intro i c hi hc
    obtain ⟨hlt, rfl⟩ := List.getElem?_eq_some_iff.mp hi
    have hs : acts t a ty l = (acts t a ty l).take i ++ (acts t a ty l)[i] :: (acts t a ty l).drop (i + 1) := by
      rw [← List.drop_eq_getElem_cons hlt, List.take_append_drop]
    have h1 : ∀ c ∈ (acts t a ty l).take i, c.2.1.addend = some 1 := fun c hc => hinc c (List.mem_of_mem_take hc)
    obtain ⟨e, _⟩ := C74_prefix h hn hl' (q := (acts t a ty l)[i].1) (api := (acts t a ty l)[i].2.1) (r := (acts t a ty l)[i].2.2) hs hc
    rw [e, addsUp_inc _ h1, List.length_take, Nat.min_eq_left (by omega)]
  refine ⟨key, ?_⟩
  intro hlen i j c d hi hj hc hd he
  have e1 := key i c hi hc
  have e2 := key j d hj hd
  rw [he, e2] at e1
  have e3 := (BitVec.add_right_inj _).mp e1
  have hi' := (List.getElem?_eq_some_iff.mp hi).1
  have hj' := (List.getElem?_eq_some_iff.mp hj).1
  have := congrArg BitVec.toNat e3
  rw [BitVec.toNat_ofNat, BitVec.toNat_ofNat, Nat.mod_eq_of_lt (by omega), Nat.mod_eq_of_lt (by omega)] at this
  exact this.symm

/-- the routine is a compare-and-swap from `c` to something else -/
def Claims (w c : Nat) (api : Amo.Api) : Prop := ∃ v, api = .cswap c v ∧ BitVec.ofNat w v ≠ BitVec.ofNat w c

theorem seq_lost {w c : Nat} {x z : BitVec w} {l : List (Nat × Amo.Api × Nat)} (h : Seq x l z) (hx : x ≠ BitVec.ofNat w c)
    (hc : ∀ d ∈ l, Claims w c d.2.1) : ∀ d ∈ l, BitVec.ofNat w d.2.2 ≠ BitVec.ofNat w c := by
  induction h with
  | nil x => intro d hd; cases hd
  | @cons x z q r api l h s ih =>
    obtain ⟨v, hv, _⟩ := hc _ (List.mem_cons_self ..)
    dsimp only at hv
    subst hv
    have hsp : (Amo.spec x (.cswap c v)).1 = x := by simp only [Amo.spec]; rw [if_neg hx]
    intro d hd
    rcases List.mem_cons.mp hd with rfl | hd
    · rw [(h x rfl).1]; exact hx
    · rw [hsp] at ih
      exact ih hx (fun d hd => hc d (List.mem_cons_of_mem _ hd)) d hd

/-- C75. Election: PEs compete with compare-and-swap for a word that holds `c`, each replacing `c` by something else. In every
execution the first one performed gets `c` back (it has won), and nobody else does. -/
theorem C75_winner {S : Sys} {g0 g : G} {l : List Ev} (h : Run S g0 l g) {t : Nat} {a : Int} {ty : TyIdx} {c : Nat}
    (hn : ∀ y, a ≤ y → y < a + ty.bytes → NoWriter g0 (t, y))
    (hl : OnlyBy t a ty (Claims (8 * ty.bytes) c) l)
    (h0 : wordAt (g0.mem t) a ty = BitVec.ofNat _ c) :
    ∀ i d, (acts t a ty l)[i]? = some d → (BitVec.ofNat (8 * ty.bytes) d.2.2 = BitVec.ofNat _ c ↔ i = 0) := by
  have h1 := C73_linear h hn (only_amo hl)
  have hc : ∀ d ∈ acts t a ty l, Claims (8 * ty.bytes) c d.2.1 := only_acts h hn hl
  rw [h0] at h1
  generalize acts t a ty l = as at h1 hc
  generalize wordAt (g.mem t) a ty = z at h1
  generalize hx : BitVec.ofNat (8 * ty.bytes) c = x at h1
  subst hx
  cases h1 with
  | nil => intro i d hd; simp at hd
  | @cons _ _ q r api l' h2 s =>
    obtain ⟨v, hv, hne⟩ := hc _ (List.mem_cons_self ..)
    dsimp only at hv
    subst hv
    have hsp : (Amo.spec (BitVec.ofNat (8 * ty.bytes) c) (.cswap c v)).1 = BitVec.ofNat _ v := by
      simp [Amo.spec]
    rw [hsp] at s
    have hlost := seq_lost s hne (fun d hd => hc d (List.mem_cons_of_mem _ hd))
    intro i d hd
    cases i with
    | zero =>
      simp only [List.getElem?_cons_zero, Option.some.injEq] at hd
      subst hd
      exact ⟨fun _ => rfl, fun _ => (h2 _ rfl).1⟩
    | succ i =>
      simp only [List.getElem?_cons_succ] at hd
      have := hlost d (List.mem_of_getElem? hd)
      exact ⟨fun h => absurd h this, fun h => absurd h (Nat.succ_ne_zero i)⟩

/-- if the word has become `c`, some routine made it so -/
theorem seq_back {w c : Nat} {x z : BitVec w} {l : List (Nat × Amo.Api × Nat)} (h : Seq x l z) (hx : x ≠ BitVec.ofNat w c)
    (hz : z = BitVec.ofNat w c) : ∃ d ∈ l, ∃ x : BitVec w, x ≠ BitVec.ofNat w c ∧ (Amo.spec x d.2.1).1 = BitVec.ofNat w c := by
  induction h with
  | nil x => exact absurd hz hx
  | @cons x z q r api l h s ih =>
    by_cases hy : (Amo.spec x api).1 = BitVec.ofNat w c
    · exact ⟨_, List.mem_cons_self .., x, hx, hy⟩
    · obtain ⟨d, hd, hh⟩ := ih hy hz
      exact ⟨d, List.mem_cons_of_mem _ hd, hh⟩

/-- C75. A word used as a lock: between two successful compare-and-swaps from `c` some AMO has put `c` back. -/
theorem C75_between {S : Sys} {g0 g : G} {l : List Ev} (h : Run S g0 l g) {t : Nat} {a : Int} {ty : TyIdx} {c : Nat}
    (hn : ∀ y, a ≤ y → y < a + ty.bytes → NoWriter g0 (t, y))
    (hl : ∀ e ∈ l, e.touches t a ty → e.IsAmo t a ty)
    {l1 l2 l3 : List (Nat × Amo.Api × Nat)} {q q' r r' v v' : Nat}
    (hs : acts t a ty l = l1 ++ (q, .cswap c v, r) :: (l2 ++ (q', .cswap c v', r') :: l3))
    (hv : BitVec.ofNat (8 * ty.bytes) v ≠ BitVec.ofNat _ c) (hr : BitVec.ofNat (8 * ty.bytes) r = BitVec.ofNat _ c)
    (hr' : BitVec.ofNat (8 * ty.bytes) r' = BitVec.ofNat _ c) :
    ∃ d ∈ l2, ∃ x : BitVec (8 * ty.bytes), x ≠ BitVec.ofNat _ c ∧ (Amo.spec x d.2.1).1 = BitVec.ofNat _ c := by
  have h1 := C73_linear h hn hl
  rw [hs] at h1
  obtain ⟨y, _, h2⟩ := seq_split h1
  cases h2 with
  | cons h3 s =>
    have hy : y = BitVec.ofNat _ c := (h3 y rfl).1.symm.trans hr
    have hsp : (Amo.spec y (.cswap c v)).1 = BitVec.ofNat _ v := by subst hy; simp [Amo.spec]
    rw [hsp] at s
    obtain ⟨z, h4, h5⟩ := seq_split s
    cases h5 with
    | cons h6 _ =>
      have hz : z = BitVec.ofNat _ c := (h6 z rfl).1.symm.trans hr'
      exact seq_back h4 hv hz

/-! ## Spin lock -/

/-- a prefix of the AMOs performed comes from a prefix of the history -/
theorem acts_prefix (t : Nat) (a : Int) (ty : TyIdx) {l : List Ev} {as bs : List (Nat × Amo.Api × Nat)}
    (h : acts t a ty l = as ++ bs) : ∃ l1 l2, l = l1 ++ l2 ∧ acts t a ty l1 = as := by
  induction l generalizing as with
  | nil =>
    have : as = [] := (List.append_eq_nil_iff.mp h.symm).1
    exact ⟨[], [], rfl, this.symm⟩
  | cons e l ih =>
    have h0 : acts t a ty (e :: l) = acts t a ty [e] ++ acts t a ty l := acts_append t a ty [e] l
    have h1 : acts t a ty [e] = [] ∨ ∃ c, acts t a ty [e] = [c] := by
      cases e with
      | done q b r =>
        cases b with
        | set d a' v => exact Or.inl rfl
        | mv s sa d a' => exact Or.inl rfl
        | upd d a' ty' api am =>
          simp only [acts]
          split
          · exact Or.inr ⟨_, rfl⟩
          · exact Or.inl rfl
      | put p tgt nbi ctx addr xs ep => exact Or.inl rfl
      | get p tgt nbi ctx addr xs ep => exact Or.inl rfl
      | amo p tgt ctx addr a ty api ep => exact Or.inl rfl
      | store p a v => exact Or.inl rfl
      | poll p a n r => exact Or.inl rfl
      | touch p ws => exact Or.inl rfl
      | call p op => exact Or.inl rfl
      | enter p => exact Or.inl rfl
      | leave p => exact Or.inl rfl
      | tau => exact Or.inl rfl
    rw [h0] at h
    cases as with
    | nil => exact ⟨[], e :: l, rfl, rfl⟩
    | cons c as =>
      rcases h1 with h1 | ⟨d, h1⟩
      · rw [h1, List.nil_append] at h
        obtain ⟨l1, l2, rfl, h2⟩ := ih h
        exact ⟨e :: l1, l2, rfl, by rw [show e :: l1 = [e] ++ l1 from rfl, acts_append, h1, h2]; rfl⟩
      · rw [h1] at h
        simp only [List.cons_append, List.nil_append, List.cons.injEq] at h
        obtain ⟨rfl, h⟩ := h
        obtain ⟨l1, l2, rfl, h2⟩ := ih h
        exact ⟨e :: l1, l2, rfl, by rw [show e :: l1 = [e] ++ l1 from rfl, acts_append, h1, h2]; rfl⟩

/-- try to take the lock -/
def isTry (w : Nat) : Amo.Api → Prop
  | .cswap c v => c = 0 ∧ BitVec.ofNat w v ≠ 0
  | .finc | .inc | .fadd _ | .add _ | .fetch | .set _ | .swap _ | .fand _ | .and _ | .for _ | .or _ | .fxor _ | .xor _ => False

/-- release the lock -/
def isRel : Amo.Api → Bool
  | .set v => v == 0
  | .finc | .inc | .fadd _ | .add _ | .fetch | .cswap _ _ | .swap _ | .fand _ | .and _ | .for _ | .or _ | .fxor _ | .xor _ => false

/-- how often PE `q` got the lock: its compare-and-swaps that returned 0 -/
def got (w q : Nat) (as : List (Nat × Amo.Api × Nat)) : Nat :=
  as.countP (fun c => decide (c.1 = q) && !isRel c.2.1 && decide (BitVec.ofNat w c.2.2 = 0))

/-- how often PE `q`'s releases were performed -/
def freed (q : Nat) (as : List (Nat × Amo.Api × Nat)) : Nat := as.countP (fun c => decide (c.1 = q) && isRel c.2.1)

theorem seq_owner {w : Nat} {z : BitVec w} (as : List (Nat × Amo.Api × Nat)) (h : Seq 0 as z)
    (ha : ∀ c ∈ as, isTry w c.2.1 ∨ isRel c.2.1 = true)
    (hp : ∀ l1 l2, as = l1 ++ l2 → ∀ q, freed q l1 ≤ got w q l1) :
    ∃ o : Option Nat, (z = 0 ↔ o = none) ∧ ∀ q, got w q as = freed q as + if o = some q then 1 else 0 := by
  induction as using List.reverseRecOn generalizing z with
  | nil =>
    cases h
    exact ⟨none, by simp, by simp [got, freed]⟩
  | append_singleton as c ih =>
    obtain ⟨y, h1, h2⟩ := seq_split h
    obtain ⟨o, ho, hq⟩ := ih h1 (fun c hc => ha c (by simp [hc])) (fun l1 l2 e => hp l1 (l2 ++ [c]) (by rw [e]; simp))
    cases h2 with
    | @cons _ _ q r api l h3 s =>
      cases s
      have hg : ∀ p, got w p (as ++ [(q, api, r)]) = got w p as +
          if (decide (q = p) && !isRel api && decide (BitVec.ofNat w r = 0)) = true then 1 else 0 := by
        intro p
        unfold got
        rw [List.countP_append, List.countP_singleton]
      have hf : ∀ p, freed p (as ++ [(q, api, r)]) = freed p as + if (decide (q = p) && isRel api) = true then 1 else 0 := by
        intro p
        unfold freed
        rw [List.countP_append, List.countP_singleton]
      rcases ha (q, api, r) (by simp) with h4 | h4
      · cases api with
        | cswap c v =>
          obtain ⟨rfl, hv⟩ := h4
          have hr : BitVec.ofNat w r = y := (h3 y rfl).1
          by_cases hy : y = 0
          · have e0 : (Amo.spec y (.cswap 0 v)).1 = BitVec.ofNat w v := by subst hy; simp [Amo.spec]
            rw [e0]
            refine ⟨some q, ⟨fun h => absurd h hv, fun h => by cases h⟩, fun p => ?_⟩
            rw [hg, hf, hq p, ho.mp hy, hr, hy]
            by_cases e : q = p <;> simp [e, isRel]
          · have e0 : (Amo.spec y (.cswap 0 v)).1 = y := by simp [Amo.spec]; intro h; exact absurd h hy
            rw [e0]
            refine ⟨o, ho, fun p => ?_⟩
            rw [hg, hf, hq p, hr]
            simp only [isRel, Bool.and_false, Bool.not_false, Bool.and_true, Bool.false_eq_true, if_false, Nat.add_zero]
            have hy' : ¬ (decide (q = p) && decide (y = 0)) = true := by
              rw [Bool.and_eq_true, decide_eq_true_eq, decide_eq_true_eq]
              exact fun h => hy h.2
            rw [if_neg hy', Nat.add_zero]
        | finc => exact h4.elim
        | inc => exact h4.elim
        | fadd v => exact h4.elim
        | add v => exact h4.elim
        | fetch => exact h4.elim
        | set v => exact h4.elim
        | swap v => exact h4.elim
        | fand v => exact h4.elim
        | and v => exact h4.elim
        | «for» v => exact h4.elim
        | or v => exact h4.elim
        | fxor v => exact h4.elim
        | xor v => exact h4.elim
      · have e0 : (Amo.spec y api).1 = 0 := by
          cases api <;> simp only [isRel, beq_iff_eq, Bool.false_eq_true] at h4
          subst h4; rfl
        rw [e0]
        have h5 := hp (as ++ [(q, api, r)]) [] (by simp) q
        rw [hg, hf, hq q] at h5
        simp only [h4, decide_true, Bool.and_true, if_true, Bool.not_true, Bool.and_false, Bool.false_and, Bool.false_eq_true,
          if_false, Nat.add_zero] at h5
        have h6 : o = some q := by
          by_contra hne
          rw [if_neg hne] at h5
          omega
        refine ⟨none, by simp, fun p => ?_⟩
        rw [hg, hf, hq p, h6]
        by_cases e : q = p <;> simp [e, h4]

/-- the calls of PE `q` that release the lock word -/
def relCalls (q t : Nat) (a : Int) (ty : TyIdx) (l : List Ev) : Nat :=
  l.countP (Ev.isCall q fun i => decide (i.t = t ∧ i.a = a ∧ i.ty = ty) && isRel i.api)

theorem freed_done (q t : Nat) (a : Int) (ty : TyIdx) (l : List Ev) : freed q (acts t a ty l) =
    l.countP (Ev.isDone q fun i => decide (i.t = t ∧ i.a = a ∧ i.ty = ty) && isRel i.api) := by
  induction l with
  | nil => rfl
  | cons e l ih =>
    cases e with
    | done p b r =>
      cases b with
      | set d a' v => simpa [acts, Ev.isDone, Atom.is, List.countP_cons] using ih
      | mv s sa d a' => simpa [acts, Ev.isDone, Atom.is, List.countP_cons] using ih
      | upd d a' ty' api am =>
        simp only [acts, Ev.isDone, Atom.is, List.countP_cons]
        split
        · rename_i h
          unfold freed at ih ⊢
          rw [List.countP_cons, ih]
          simp [h]
        · rename_i h
          rw [ih]
          simp [h]
    | amo p tgt ctx addr a ty api ep => simpa [acts, Ev.isDone, List.countP_cons] using ih
    | put p tgt nbi ctx addr xs ep => simpa [acts, Ev.isDone, List.countP_cons] using ih
    | get p tgt nbi ctx addr xs ep => simpa [acts, Ev.isDone, List.countP_cons] using ih
    | store p a v => simpa [acts, Ev.isDone, List.countP_cons] using ih
    | poll p a n r => simpa [acts, Ev.isDone, List.countP_cons] using ih
    | touch p ws => simpa [acts, Ev.isDone, List.countP_cons] using ih
    | call p op => simpa [acts, Ev.isDone, List.countP_cons] using ih
    | enter p => simpa [acts, Ev.isDone, List.countP_cons] using ih
    | leave p => simpa [acts, Ev.isDone, List.countP_cons] using ih
    | tau => simpa [acts, Ev.isDone, List.countP_cons] using ih

/-- C76. A spin lock made of AMOs: a word that holds 0; PEs try to take it with `atomic_compare_swap(word, 0, v)`, `v ≠ 0`, and
release it with `atomic_set(word, 0)`, each PE releasing only what it got (`hrel`: in no prefix of the history has a PE called
more releases than it got the lock). PE `q` is in its critical section when it got the lock more often than it called a release.
In every execution, at every moment, at most one PE is, and only once. -/
theorem C76_spinlock {S : Sys} {g0 g : G} {l : List Ev} (h : Run S g0 l g) {t : Nat} {a : Int} {ty : TyIdx}
    (hn : ∀ y, a ≤ y → y < a + ty.bytes → NoWriter g0 (t, y)) (h0 : wordAt (g0.mem t) a ty = 0)
    (hl : OnlyBy t a ty (fun api => isTry (8 * ty.bytes) api ∨ isRel api = true) l)
    (hrel : ∀ l1 l2, l = l1 ++ l2 → ∀ q, relCalls q t a ty l1 ≤ got (8 * ty.bytes) q (acts t a ty l1)) (p q : Nat)
    (hcp : relCalls p t a ty l < got (8 * ty.bytes) p (acts t a ty l))
    (hcq : relCalls q t a ty l < got (8 * ty.bytes) q (acts t a ty l)) :
    p = q ∧ got (8 * ty.bytes) p (acts t a ty l) = relCalls p t a ty l + 1 := by
  have hle : ∀ l1 l2, l = l1 ++ l2 → ∀ q, freed q (acts t a ty l1) ≤ relCalls q t a ty l1 := by
    intro l1 l2 e q
    subst e
    obtain ⟨g1, h1, _⟩ := run_split h
    rw [freed_done]
    have := bytes_pos ty
    exact C73_at_most_once h1 (hn a (le_refl _) (by omega)) q isRel
  have hs := C73_linear h hn (only_amo hl)
  rw [h0] at hs
  obtain ⟨o, _, ho⟩ := seq_owner _ hs (only_acts h hn hl) (fun as bs e q => by
    obtain ⟨l1, l2, e1, e2⟩ := acts_prefix t a ty e
    have h1 := hle l1 l2 e1 q
    have h2 := hrel l1 l2 e1 q
    rw [e2] at h1 h2
    omega)
  have kp := hle l [] (by simp) p
  have kq := hle l [] (by simp) q
  have op := ho p
  have oq := ho q
  by_cases e1 : o = some p
  · by_cases e2 : o = some q
    · rw [e1] at e2
      rw [if_pos e1] at op
      exact ⟨by cases e2; rfl, by omega⟩
    · rw [if_neg e2] at oq
      omega
  · rw [if_neg e1] at op
    omega

end Verif.Vis
