import Verif.Bsp.Model
/-!
# Phases: lemmas and the invariant
-/
namespace Verif.Bsp
open Verif.Sobj Verif.Rma Verif.Vis
open Verif.Order (Pend)
open Verif.Amo (TyIdx)

theorem pick_some {xs : List (Int × Int)} (h : ∀ x ∈ xs, ∀ y ∈ xs, x.1 = y.1 → x = y) {x : Int × Int} (hx : x ∈ xs) : pick xs x.1 = some x := by
  unfold pick
  cases hf : xs.find? (fun y => y.1 == x.1) with
  | none =>
    have := List.find?_eq_none.mp hf x hx
    simp at this
  | some y =>
    have h1 := List.find?_some hf
    have h2 := List.mem_of_find?_eq_some hf
    rw [h y h2 x hx (by simpa using h1)]

theorem pick_none {xs : List (Int × Int)} {a : Int} (h : ¬ ∃ x ∈ xs, x.1 = a) : pick xs a = none := by
  unfold pick
  rw [List.find?_eq_none]
  intro x hx e
  exact h ⟨x, hx, by simpa using e⟩

/-- an action changes only what it writes -/
theorem apply_frame (p : Nat) (m : Mems) (a : Act) {b : Nat × Int} (h : ¬ a.writes p b) : a.apply p m b.1 b.2 = m b.1 b.2 := by
  cases a with
  | put tgt nbi xs =>
    show (if b.1 = tgt then _ else _) = _
    by_cases e : b.1 = tgt
    · rw [if_pos e, pick_none (fun hx => h ⟨e, hx⟩)]; rfl
    · rw [if_neg e]
  | get tgt nbi xs =>
    show (if b.1 = p then _ else _) = _
    by_cases e : b.1 = p
    · rw [if_pos e, pick_none (fun hx => h ⟨e, hx⟩)]; rfl
    · rw [if_neg e]
  | store a v =>
    show (if b.1 = p ∧ b.2 = a then _ else _) = _
    rw [if_neg]
    rintro ⟨h1, h2⟩
    exact h (Prod.ext h1 h2)
  | add tgt a ty v =>
    show (if b.1 = tgt then _ else _) = _
    by_cases e : b.1 = tgt
    · rw [if_pos e]
      unfold addTo
      rw [if_neg (fun hx => h ⟨e, hx⟩)]
    · rw [if_neg e]
  | quiet => rfl

/-! ## Counters -/

theorem load_inj {m m' : Mem} {a k : Nat} (h : m.load a k = m'.load a k) : ∀ i < k, m (a + i) = m' (a + i) := by
  induction k generalizing a with
  | zero => intro i hi; omega
  | succ k ih =>
    intro i hi
    simp only [Mem.load] at h
    have h1 := (m a).isLt
    have h2 := (m' a).isLt
    cases i with
    | zero => exact BitVec.eq_of_toNat_eq (by rw [Nat.add_zero]; omega)
    | succ i =>
      have := ih (a := a + 1) (by omega) i (by omega)
      rwa [show a + 1 + i = a + (i + 1) by omega] at this

/-- a word determines its bytes -/
theorem wordAt_inj {m m' : IMem} {a : Int} {ty : TyIdx} (h : wordAt m a ty = wordAt m' a ty) {y : Int} (h1 : a ≤ y) (h2 : y < a + ty.bytes) :
    m y = m' y := by
  have e : (view m a).load 0 ty.bytes = (view m' a).load 0 ty.bytes := by
    have := congrArg BitVec.toNat h
    unfold wordAt at this
    rw [BitVec.toNat_ofNat, BitVec.toNat_ofNat, show (2 : Nat) ^ (8 * ty.bytes) = 256 ^ ty.bytes by rw [Nat.pow_mul]] at this
    rwa [Nat.mod_eq_of_lt (Mem.load_lt _ _ _), Nat.mod_eq_of_lt (Mem.load_lt _ _ _)] at this
  have := load_inj e (y - a).toNat (by omega)
  unfold view at this
  rwa [show a + ((0 + (y - a).toNat : Nat) : Int) = y by omega] at this

theorem wordAt_addTo (m : IMem) (a : Int) (ty : TyIdx) (v : Nat) :
    wordAt (addTo m a ty v) a ty = wordAt m a ty + BitVec.ofNat (8 * ty.bytes) v := by
  have e : (view (addTo m a ty v) a).load 0 ty.bytes = ((view m a).store 0 ty.bytes ((view m a).load 0 ty.bytes + v)).load 0 ty.bytes := by
    refine Mem.load_congr fun x _ hx => ?_
    unfold view addTo
    rw [if_pos (by omega)]
    congr 1
    omega
  rw [wordAt_view, wordAt_view, e, Mem.load_store, ← BitVec.ofNat_add]
  apply BitVec.eq_of_toNat_eq
  rw [BitVec.toNat_ofNat, BitVec.toNat_ofNat, show (2 : Nat) ^ (8 * ty.bytes) = 256 ^ ty.bytes by rw [Nat.pow_mul], Nat.mod_mod]

/-- an action that does nothing to a word but add to it -/
theorem apply_word (p : Nat) (m : Mems) (c : Act) {t : Nat} {a : Int} {ty : TyIdx}
    (h : ∀ b : Nat × Int, b.1 = t → a ≤ b.2 → b.2 < a + ty.bytes → c.writes p b → ∃ v, c = .add t a ty v) :
    wordAt (c.apply p m t) a ty = wordAt (m t) a ty + c.addend t a ty := by
  by_cases hc : ∃ v, c = .add t a ty v
  · obtain ⟨v, rfl⟩ := hc
    have e1 : Act.addend t a ty (.add t a ty v) = BitVec.ofNat (8 * ty.bytes) v := if_pos ⟨rfl, rfl, rfl⟩
    have e2 : Act.apply p m (.add t a ty v) t = addTo (m t) a ty v := by
      funext y
      exact if_pos rfl
    rw [e1, e2, wordAt_addTo]
  · have e1 : c.addend t a ty = 0 := by
      cases c with
      | add t' a' ty' v =>
        refine if_neg ?_
        rintro ⟨rfl, rfl, rfl⟩
        exact hc ⟨v, rfl⟩
      | _ => rfl
    rw [e1, add_zero]
    refine wordAt_congr fun y h1 h2 => ?_
    exact apply_frame p m c (b := (t, y)) (fun hw => hc (h (t, y) rfl h1 h2 hw))

theorem addends_append (t : Nat) (a : Int) (ty : TyIdx) (l1 l2 : List Act) :
    addends t a ty (l1 ++ l2) = addends t a ty l1 + addends t a ty l2 := by simp [addends]

/-- a phase without additions -/
theorem Phase.plain {n : Nat} {D : Nat × Int → Prop} {P : Prog} {k : Nat} {m m' : Mems} {acts : Nat → List Act}
    (hna : ∀ p < n, ∀ a ∈ acts p, a.isAdd = false)
    (follows : ∀ p < n, ∀ i ≤ (acts p).length, P.next p k i (alone m p (acts p) i p) = (acts p)[i]?)
    (result : ∀ p < n, ∀ b, (∃ a ∈ acts p, a.writes p b) → m' b.1 b.2 = alone m p (acts p) (acts p).length b.1 b.2)
    (rest : ∀ b, D b → (∀ p < n, ∀ a ∈ acts p, ¬ a.writes p b) → m' b.1 b.2 = m b.1 b.2)
    (inside : ∀ p < n, ∀ a ∈ acts p, ∀ b, a.writes p b ∨ a.reads p b → D b)
    (looksIn : ∀ p < n, ∀ i ≤ (acts p).length, ∀ a, P.looks p k i a → D (p, a))
    (race : ∀ p < n, ∀ q < n, p ≠ q → ∀ a ∈ acts p, ∀ b, a.writes p b →
      (∀ c ∈ acts q, ¬ c.writes q b ∧ ¬ c.reads q b) ∧ (b.1 = q → ∀ i ≤ (acts q).length, ¬ P.looks q k i b.2))
    (own : ∀ p < n, ∀ i j, i < j → j ≤ (acts p).length → ¬ QuietBetween (acts p) i j → ∀ a, (acts p)[i]? = some a →
      (∀ b, a.lateWrite → a.writes p b → (∀ c, (acts p)[j]? = some c → ¬ c.writes p b ∧ ¬ c.reads p b) ∧ (b.1 = p → ¬ P.looks p k j b.2)) ∧
      (∀ b, a.lateRead → a.reads p b → ∀ c, (acts p)[j]? = some c → ¬ c.writes p b))
    (clean : ∀ p < n, ∀ a ∈ acts p, a.Clean p) : Phase n D P k m acts m' where
  follows := follows
  result := fun p hp b ⟨a, ha, _, hw⟩ => result p hp b ⟨a, ha, hw⟩
  counts := fun p hp t a ty v ha => by have := hna p hp _ ha; cases this
  rest := rest
  inside := inside
  looksIn := looksIn
  race := fun p hp q hq hne a ha _ => race p hp q hq hne a ha
  own := fun p hp i j h1 h2 h3 a ha _ => own p hp i j h1 h2 h3 a ha
  words := fun p hp t a ty v ha => by have := hna p hp _ ha; cases this
  clean := clean

theorem alone_zero (m : Mems) (p : Nat) (l : List Act) : alone m p l 0 = m := by simp [alone]

theorem alone_succ (m : Mems) (p : Nat) {l : List Act} {i : Nat} {a : Act} (h : l[i]? = some a) :
    alone m p l (i + 1) = a.apply p (alone m p l i) := by
  unfold alone
  rw [List.take_succ_eq_append_getElem (by exact (List.getElem?_eq_some_iff.mp h).1), List.foldl_append]
  obtain ⟨hi, e⟩ := List.getElem?_eq_some_iff.mp h
  simp [e]

theorem addends_succ (t : Nat) (a : Int) (ty : TyIdx) {l : List Act} {i : Nat} {c : Act} (h : l[i]? = some c) :
    addends t a ty (l.take (i + 1)) = addends t a ty (l.take i) + c.addend t a ty := by
  rw [List.take_succ_eq_append_getElem (by exact (List.getElem?_eq_some_iff.mp h).1), addends_append]
  obtain ⟨hi, e⟩ := List.getElem?_eq_some_iff.mp h
  simp [e, addends]

/-- actions that do nothing to a word but add to it -/
theorem alone_word (m : Mems) (p : Nat) (l : List Act) {t : Nat} {a : Int} {ty : TyIdx}
    (h : ∀ c ∈ l, ∀ b : Nat × Int, b.1 = t → a ≤ b.2 → b.2 < a + ty.bytes → c.writes p b → ∃ v, c = .add t a ty v) :
    ∀ i ≤ l.length, wordAt (alone m p l i t) a ty = wordAt (m t) a ty + addends t a ty (l.take i) := by
  intro i
  induction i with
  | zero => intro _; rw [alone_zero]; simp [addends]
  | succ i ih =>
    intro hi
    have e : l[i]? = some l[i] := List.getElem?_eq_getElem (by omega)
    rw [alone_succ m p e, apply_word p _ _ (h _ (List.getElem_mem _)), ih (by omega), addends_succ t a ty e, add_assoc]

/-- the first `c p` actions of PE `p` write the byte -/
def Wrote (acts : Nat → List Act) (c : Nat → Nat) (p : Nat) (b : Nat × Int) : Prop :=
  ∃ j a, j < c p ∧ (acts p)[j]? = some a ∧ a.writes p b

theorem alone_same (m : Mems) (acts : Nat → List Act) (c : Nat → Nat) (p : Nat) {b : Nat × Int} (h : ¬ Wrote acts c p b) :
    ∀ i ≤ c p, i ≤ (acts p).length → alone m p (acts p) i b.1 b.2 = m b.1 b.2 := by
  intro i
  induction i with
  | zero => intro _ _; rw [alone_zero]
  | succ i ih =>
    intro h1 h2
    have e : (acts p)[i]? = some (acts p)[i] := List.getElem?_eq_getElem (by omega)
    rw [alone_succ m p e, apply_frame p _ _ (fun hw => h ⟨i, _, by omega, e, hw⟩)]
    exact ih (by omega) (by omega)

/-- the value a byte has, once everything done is performed -/
def Val (n : Nat) (m : Mems) (acts : Nat → List Act) (c : Nat → Nat) (b : Nat × Int) (v : BitVec 8) : Prop :=
  (∃ p < n, Wrote acts c p b ∧ v = alone m p (acts p) (c p) b.1 b.2) ∨ ((∀ p < n, ¬ Wrote acts c p b) ∧ v = m b.1 b.2)

/-- the byte will be written by the last action of PE `p` that writes it -/
structure Flying (S : Sys) (K : Nat) (g : G) (acts : Nat → List Act) (c : Nat → Nat) (b : Nat × Int) (v : BitVec 8) (p j : Nat) (a : Act)
    (own : Option Pend) (src : Option (Nat × Int)) : Prop where
  hp : p < S.npes
  hj : j < c p
  ha : (acts p)[j]? = some a
  hw : a.writes p b
  hk : g.arr p = K
  only : Only g p own src b v
  oquiet : ¬ QuietBetween (acts p) j (c p)
  onone : own = none → g.busy p ≠ []
  osome : ∀ pd, own = some pd → a.lateWrite ∧ Order.Covered (S.cf p) pd ∧ pd.ep = K
  osrc : ∀ k', src = some k' → a.reads p k' ∧ (own ≠ none → a.lateRead)

/-- the byte has its value, or will get it -/
def ByteOk (S : Sys) (K : Nat) (g : G) (m : Mems) (acts : Nat → List Act) (c : Nat → Nat) (b : Nat × Int) : Prop :=
  ∃ v, Val S.npes m acts c b v ∧ ((NoWriter g b ∧ g.mem b.1 b.2 = v) ∨ ∃ p j a own src, Flying S K g acts c b v p j a own src)

/-- the counter has its value, up to additions in flight, which are of actions done -/
structure WordOk (S : Sys) (K : Nat) (g : G) (m : Mems) (acts : Nat → List Act) (c : Nat → Nat) (t : Nat) (a : Int) (ty : TyIdx) : Prop where
  adds : Adds g t a ty
  sum : wordAt (g.mem t) a ty + total S t a ty g = wordAt (m t) a ty + ∑ q ∈ Finset.range S.npes, addends t a ty ((acts q).take (c q))
  by_ : ∀ b r own, At g b r own → ∀ y, a ≤ y → y < a + ty.bytes → b.writes (t, y) → r < S.npes ∧ g.arr r = K ∧ ∃ j v, j < c r ∧
    (acts r)[j]? = some (.add t a ty v) ∧ ¬ QuietBetween (acts r) j (c r) ∧
    ∀ pd, own = some pd → Order.Covered (S.cf r) pd ∧ pd.ep = K

/-- is the word a counter of the phase? -/
def Counter (n : Nat) (acts : Nat → List Act) (t : Nat) (a : Int) (ty : TyIdx) : Prop := ∃ p < n, ∃ v, .add t a ty v ∈ acts p

/-- is the byte in a counter? -/
def InCounter (n : Nat) (acts : Nat → List Act) (b : Nat × Int) : Prop :=
  ∃ t a ty, Counter n acts t a ty ∧ b.1 = t ∧ a ≤ b.2 ∧ b.2 < a + ty.bytes

/-- the actions of the phase each PE has done -/
def done (K : Nat) (x : X) (acts : Nat → List Act) : Nat → Nat := fun p => if x.g.arr p = K then x.pos p else (acts p).length

/-- the invariant in phase `K` -/
structure Inv (S : Sys) (D : Nat × Int → Prop) (M : Nat → Mems) (acts : Nat → Nat → List Act) (K : Nat) (x : X) : Prop where
  gi : GI S x.g
  lo : ∀ p < S.npes, K ≤ x.g.arr p
  min : ∃ p < S.npes, x.g.arr p = K
  one : ∀ p < S.npes, x.g.arr p ≤ x.g.lv p + 1
  pos0 : ∀ p < S.npes, x.g.arr p ≠ x.g.lv p → x.pos p = 0
  len : ∀ p < S.npes, x.g.arr p = K → x.pos p ≤ (acts K p).length
  byte : ∀ b, D b → ¬ InCounter S.npes (acts K) b → ByteOk S K x.g (M K) (acts K) (done K x (acts K)) b
  word : ∀ t a ty, Counter S.npes (acts K) t a ty → WordOk S K x.g (M K) (acts K) (done K x (acts K)) t a ty

theorem done_le {S : Sys} {D : Nat × Int → Prop} {M : Nat → Mems} {acts : Nat → Nat → List Act} {K : Nat} {x : X} (h : Inv S D M acts K x)
    {p : Nat} (hp : p < S.npes) : done K x (acts K) p ≤ (acts K p).length := by
  unfold done
  split
  · rename_i e; exact h.len p hp e
  · exact Nat.le_refl _

/-- a PE that can make a call is in the current phase -/
theorem free_phase {S : Sys} {D : Nat × Int → Prop} {M : Nat → Mems} {acts : Nat → Nat → List Act} {K : Nat} {x : X} (h : Inv S D M acts K x)
    {p : Nat} (hf : Free S x.g p) : x.g.arr p = K := by
  obtain ⟨q, hq, e⟩ := h.min
  have h1 := h.gi.lv p hf.1 q hq
  have h2 := h.lo p hf.1
  have h3 := hf.2.1
  omega

/-- Reading: if no other PE writes the byte in the phase and no action of PE `p` may still be writing it, it holds what it would hold if `p` were
alone, and nothing in flight writes it. -/
theorem read_ok {S : Sys} {D : Nat × Int → Prop} {P : Prog} {M : Nat → Mems} {acts : Nat → Nat → List Act} (hm : Means S.npes D P M acts)
    {K : Nat} {x : X} (h : Inv S D M acts K x) {p : Nat} (hf : Free S x.g p) {b : Nat × Int} (hD : D b) (hc : ∀ q < S.npes, q ≠ p → ∀ a ∈ acts K q, ¬ a.writes q b)
    (ho : ∀ j < x.pos p, ∀ a, (acts K p)[j]? = some a → ¬ QuietBetween (acts K p) j (x.pos p) → a.lateWrite → ¬ a.writes p b) :
    NoWriter x.g b ∧ x.g.mem b.1 b.2 = alone (M K) p (acts K p) (x.pos p) b.1 b.2 := by
  have hK := free_phase h hf
  have hcnt : done K x (acts K) p = x.pos p := by unfold done; rw [if_pos hK]
  by_cases hcn : InCounter S.npes (acts K) b
  · obtain ⟨t, w, ty, ⟨q, hq, v, hv⟩, h1, h2, h3⟩ := hcn
    obtain ⟨b1, b2⟩ := b
    dsimp only at h1 h2 h3 hc ho ⊢
    subst h1
    have W := h.word b1 w ty ⟨q, hq, v, hv⟩
    have hw := ((hm K).words q hq b1 w ty v hv).2
    have hpos := bytes_pos ty
    have hpq : q = p := by
      by_contra hne
      exact hc q hq hne _ hv ⟨rfl, h2, h3⟩
    subst hpq
    -- nothing writes the word
    have hno : ∀ y, w ≤ y → y < w + ty.bytes → NoWriter x.g (b1, y) := by
      rintro y hy1 hy2 c ⟨r, own, hat⟩ hcw
      obtain ⟨hr, _, j, v', hj, hja, hnq, _⟩ := W.by_ c r own hat y hy1 hy2 hcw
      have hrp : r = q := by
        by_contra hne
        exact hc r hr hne _ (List.mem_of_getElem? hja) ⟨rfl, h2, h3⟩
      subst hrp
      rw [hcnt] at hj hnq
      exact ho j hj _ hja hnq trivial ⟨rfl, h2, h3⟩
    refine ⟨hno b2 h2 h3, ?_⟩
    refine wordAt_inj (ty := ty) (a := w) ?_ h2 h3
    have hs := W.sum
    rw [total_zero (hno w (le_refl _) (by omega)), add_zero] at hs
    rw [hs, alone_word (M K) q (acts K q) (fun c hc' b e1 e2 e3 e4 => (hw b e1 e2 e3).1 q hq c hc' (Or.inl e4)) _ (h.len q hq hK),
      Finset.sum_eq_single q, hcnt]
    · intro r hr hne
      have hz : ∀ c ∈ (acts K r).take (done K x (acts K) r), c.addend b1 w ty = 0 := by
        intro c hc'
        cases c with
        | add t' a' ty' v' =>
          refine if_neg ?_
          rintro ⟨rfl, rfl, rfl⟩
          exact hc r (Finset.mem_range.mp hr) hne _ (List.mem_of_mem_take hc') ⟨rfl, h2, h3⟩
        | _ => rfl
      unfold addends
      rw [List.map_congr_left hz]
      simp
    · intro hne
      exact absurd (Finset.mem_range.mpr hq) hne
  obtain ⟨v, hv, hb⟩ := h.byte b hD hcn
  have other : ∀ q < S.npes, Wrote (acts K) (done K x (acts K)) q b → q = p := by
    rintro q hq ⟨j, a, hj, ha, hw⟩
    by_contra hne
    exact hc q hq hne a (List.mem_of_getElem? ha) hw
  have hval : v = alone (M K) p (acts K p) (x.pos p) b.1 b.2 := by
    rcases hv with ⟨q, hq, hw, e⟩ | ⟨hn, e⟩
    · obtain rfl := other q hq hw
      rw [e, hcnt]
    · rw [e]
      exact (alone_same (M K) (acts K) _ p (hn p hf.1) (x.pos p) (by rw [hcnt]) (h.len p hf.1 hK)).symm
  rcases hb with ⟨h1, h2⟩ | ⟨q, j, a, own, src, F⟩
  · exact ⟨h1, h2.trans hval⟩
  · exfalso
    obtain rfl := other q F.hp ⟨j, a, F.hj, F.ha, F.hw⟩
    cases own with
    | none => exact F.onone rfl hf.2.2
    | some pd =>
      have hq := F.oquiet
      have hj := F.hj
      rw [hcnt] at hj hq
      exact ho j hj a F.ha hq (F.osome pd rfl).1 F.hw

/-- `Only` of a blocking call that is over, or of an operation that is complete -/
theorem only_over {g : G} {p : Nat} {own : Option Pend} {src : Option (Nat × Int)} {b : Nat × Int} {v : BitVec 8} (ho : Only g p own src b v)
    (h : own = none → g.busy p = []) (h2 : ∀ pd, own = some pd → ∀ x ∈ g.fly p, x.pend ≠ pd) : NoWriter g b ∧ g.mem b.1 b.2 = v := by
  have := only_done ho (fun a ha => by
    rcases ha with ⟨x, hx, e, _⟩ | ⟨e, hb⟩
    · exact h2 _ e x hx rfl
    · rw [h e] at hb; cases hb)
  exact ⟨this.2, this.1⟩

end Verif.Bsp
