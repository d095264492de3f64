import Verif.Bsp.Lemmas
/-!
# Phases: every step keeps the invariant
-/
namespace Verif.Bsp
open Verif.Sobj Verif.Rma Verif.Vis
open Verif.Order (Pend)
open Verif.Amo (TyIdx)

theorem arr_step {S : Sys} {g g' : G} {e : Ev} (s : Step S g e g') (h : ∀ p, e ≠ .enter p) : g'.arr = g.arr := by
  cases s with
  | enter p s' hf e d => exact absurd rfl (h p)
  | _ => rfl

theorem lv_step {S : Sys} {g g' : G} {e : Ev} (s : Step S g e g') (p : Nat) : g'.lv p = g.lv p ∨ (e = .leave p ∧ g'.lv p = g.lv p + 1 ∧ g.lv p < g.arr p) := by
  cases s with
  | leave q hp h0 ha =>
    by_cases e : p = q
    · subst e
      refine Or.inr ⟨rfl, ?_, h0⟩
      show Function.update g.lv p (g.lv p + 1) p = _
      rw [Function.update_self]
    · refine Or.inl ?_
      show Function.update g.lv q (g.lv q + 1) p = _
      rw [Function.update_of_ne e]
  | _ => exact Or.inl rfl

theorem does_free {S : Sys} {p : Nat} {a : Act} {e : Ev} {g g' : G} (hd : Does S p a e) (s : Step S g e g') : Free S g p := by
  cases a with
  | put tgt nbi xs =>
    obtain ⟨ctx, addr, ep, rfl, _⟩ := hd
    cases s with
    | put p tgt nbi ctx addr src n gpu mode oc tc oty tty xs s' hf hm e hx d => exact hf
  | get tgt nbi xs =>
    obtain ⟨ctx, addr, ep, rfl, _⟩ := hd
    cases s with
    | get p tgt nbi ctx addr src n gpu mode oc tc oty tty xs s' hf hm e hx d => exact hf
  | store a v =>
    cases hd
    cases s with
    | store p a v hf => exact hf
  | add tgt a ty v =>
    obtain ⟨ctx, addr, api, ep, rfl, _⟩ := hd
    cases s with
    | amo p tgt ctx addr r ty api gpu mode s' hf hm ht hk e hr d => exact hf
    | amoRet p tgt ctx addr r ty api gpu mode s' hf hm ht hk e hr d => exact hf
  | quiet =>
    rcases hd with rfl | rfl <;>
    cases s with
    | call p op s' hf l hop e d => exact hf

theorem enter_free {S : Sys} {p : Nat} {g g' : G} (s : Step S g (.enter p) g') :
    Free S g p ∧ g'.arr = Function.update g.arr p (g.arr p + 1) ∧ g'.busy p = [] ∧ g'.lv = g.lv := by
  cases s with
  | enter p s' hf e d =>
    refine ⟨hf, rfl, ?_, rfl⟩
    simp only [after, upd_at, if_true]
    split <;> rfl

theorem does_writes {S : Sys} {p : Nat} {a : Act} {e : Ev} (hd : Does S p a e) (b : Nat × Int) : e.writes b ↔ a.writes p b := by
  cases a with
  | put tgt nbi xs => obtain ⟨ctx, addr, ep, rfl, _⟩ := hd; exact Iff.rfl
  | get tgt nbi xs => obtain ⟨ctx, addr, ep, rfl, _⟩ := hd; exact Iff.rfl
  | store a v => cases hd; exact Iff.rfl
  | add tgt a ty v => obtain ⟨ctx, addr, api, ep, rfl, _⟩ := hd; exact Iff.rfl
  | quiet => rcases hd with rfl | rfl <;> exact Iff.rfl

theorem does_noenter {S : Sys} {p : Nat} {a : Act} {e : Ev} (hd : Does S p a e) (q : Nat) : e ≠ .enter q ∧ e ≠ .leave q := by
  cases a with
  | put tgt nbi xs => obtain ⟨ctx, addr, ep, rfl, _⟩ := hd; exact ⟨by simp, by simp⟩
  | get tgt nbi xs => obtain ⟨ctx, addr, ep, rfl, _⟩ := hd; exact ⟨by simp, by simp⟩
  | store a v => cases hd; exact ⟨by simp, by simp⟩
  | add tgt a ty v => obtain ⟨ctx, addr, api, ep, rfl, _⟩ := hd; exact ⟨by simp, by simp⟩
  | quiet => rcases hd with rfl | rfl <;> exact ⟨by simp, by simp⟩

/-- a byte that the step does not write keeps its status -/
theorem byte_keep {S : Sys} {K : Nat} {g g' : G} {e : Ev} {m : Mems} {acts : Nat → List Act} {c c' : Nat → Nat} {b : Nat × Int}
    (s : Step S g e g') (hb : ByteOk S K g m acts c b) (hw : ¬ e.writes b)
    (hsrc : ∀ v p j a own src, Flying S K g acts c b v p j a own src → ∀ k', src = some k' → ¬ e.writes k')
    (hval : ∀ v, Val S.npes m acts c b v → Val S.npes m acts c' b v) (hle : ∀ p < S.npes, c p ≤ c' p)
    (hq : ∀ v p j a own src, Flying S K g acts c b v p j a own src → (g'.arr p = K ∧ ¬ QuietBetween (acts p) j (c' p)) ∨
      ((own = none → g'.busy p = []) ∧ ∀ pd, own = some pd → ∀ y ∈ g'.fly p, y.pend ≠ pd)) : ByteOk S K g' m acts c' b := by
  obtain ⟨v, hv, h⟩ := hb
  refine ⟨v, hval v hv, ?_⟩
  rcases h with ⟨h1, h2⟩ | ⟨p, j, a, own, src, F⟩
  · obtain ⟨h3, h4⟩ := noWriter_step s h1 hw
    exact Or.inl ⟨h3, h4.trans h2⟩
  · have ho := only_step F.only s hw (hsrc v p j a own src F)
    rcases hq v p j a own src F with ⟨h1, h2⟩ | ⟨h1, h2⟩
    · by_cases hn : own = none ∧ g'.busy p = []
      · exact Or.inl (only_over ho (fun _ => hn.2) (fun pd e => by rw [hn.1] at e; cases e))
      · exact Or.inr ⟨p, j, a, own, src, ⟨F.hp, Nat.lt_of_lt_of_le F.hj (hle p F.hp), F.ha, F.hw, h1, ho, h2,
          fun e1 e2 => hn ⟨e1, e2⟩, F.osome, F.osrc⟩⟩
    · exact Or.inl (only_over ho h1 h2)

theorem get_cov {S : Sys} {g g' : G} (hi : GI S g) {q t : Nat} {nbi : Bool} {ctx : Option (Nat × Nat)} {addr : BitVec 64}
    {xs : List (Int × Int)} {ep : Nat} (h : Step S g (.get q t nbi ctx addr xs ep) g') {x : Int × Int} (hx : x ∈ xs)
    (hu : ∀ y ∈ xs, y.1 = x.1 → y = x) (hn : NoWriter g (q, x.1)) (hs : NoWriter g (t, x.2))
    (hs2 : ¬ (Ev.get q t nbi ctx addr xs ep).writes (t, x.2)) :
    ∃ own, (own = none → g'.busy q ≠ []) ∧
      (∀ pd, own = some pd → nbi = true ∧ pd.ep = g.arr q ∧ (BarCov (S.cf q) ((S.cf q).rma == .am) ctx addr → Order.Covered (S.cf q) pd)) ∧
      Only g' q own (some (t, x.2)) (q, x.1) (g.mem t x.2) := by
  have h' := h
  cases h with
  | get p tgt nbi ctx addr src n gpu mode oc tc oty tty xs s' hf hm e hxs d =>
    refine ⟨pushed (g.pe q) s', ?_, ?_, ⟨?_, ?_, ?_⟩⟩
    · intro hp hb
      simp only [after, upd_at, if_true, hp] at hb
      rw [List.map_eq_nil_iff] at hb
      rw [hb] at hx
      cases hx
    · intro pd hp
      refine ⟨?_, by rw [ep_issue e hp, hi.ep], fun hc => (covered_of e hp (direct_rma (by cases nbi <;> rfl)) hc).1⟩
      rcases pushed_issue e with ⟨h, _⟩ | ⟨_, _, _, _, _, _, _, _, h⟩
      · rw [h] at hp; cases hp
      · cases nbi with
        | true => rfl
        | false => rcases h with h | h <;> cases h
    · intro a r o ha hw
      rcases at_after ha with h | ⟨rfl, ho, h⟩
      · exact absurd hw (hn a ⟨r, o, h⟩)
      · refine ⟨rfl, ho, ?_⟩
        obtain ⟨y, hy, rfl⟩ := List.mem_map.mp h
        simp only [Atom.writes, Prod.mk.injEq] at hw
        obtain rfl := hu y hy hw.2.symm
        exact Or.inr ⟨_, rfl, rfl⟩
    · intro k' hk'
      cases hk'
      exact noWriter_step h' hs hs2
    · right
      refine ⟨.mv t x.2 q x.1, ?_, rfl⟩
      cases hp : pushed (g.pe q) s' with
      | none =>
        refine Or.inr ⟨rfl, ?_⟩
        simp only [after, upd_at, if_true, hp]
        exact List.mem_map.mpr ⟨x, hx, rfl⟩
      | some pd =>
        refine Or.inl ⟨⟨pd, xs.map fun x => .mv t x.2 q x.1⟩, ?_, rfl, List.mem_map.mpr ⟨x, hx, rfl⟩⟩
        simp only [after, upd_at, if_true, hp]
        exact List.mem_append.mpr (Or.inr (List.mem_singleton.mpr rfl))

/-- an event that does not write a word adds nothing to it -/
theorem added_zero {t : Nat} {a : Int} {ty : TyIdx} {e : Ev} (hw : ∀ y, a ≤ y → y < a + ty.bytes → ¬ e.writes (t, y)) :
    added t a ty [e] = 0 := by
  have hpos := bytes_pos ty
  cases e with
  | amo p t' ctx addr a' ty' api ep =>
    simp only [added, add_zero]
    refine if_neg ?_
    rintro ⟨rfl, rfl, rfl⟩
    exact hw a' (le_refl _) (by omega) ⟨rfl, le_refl _, by dsimp only; omega⟩
  | _ => simp [added]

/-- a counter that the step does not write keeps its status -/
theorem word_keep {S : Sys} {K : Nat} {g g' : G} {e : Ev} {m : Mems} {acts : Nat → List Act} {c c' : Nat → Nat} {t : Nat} {a : Int} {ty : TyIdx}
    (s : Step S g e g') (ht : ty ∈ Amo.stdTypes) (W : WordOk S K g m acts c t a ty) (hw : ∀ y, a ≤ y → y < a + ty.bytes → ¬ e.writes (t, y))
    (hsum : ∑ q ∈ Finset.range S.npes, addends t a ty ((acts q).take (c' q)) = ∑ q ∈ Finset.range S.npes, addends t a ty ((acts q).take (c q)))
    (hle : ∀ p < S.npes, c p ≤ c' p)
    (hq : ∀ b r own, At g' b r own → (∀ pd, own = some pd → Order.Covered (S.cf r) pd ∧ pd.ep = K) → r < S.npes → g.arr r = K →
      g'.arr r = K ∧ ∀ j, QuietBetween (acts r) j (c' r) → QuietBetween (acts r) j (c r)) : WordOk S K g' m acts c' t a ty := by
  have hnt : e.touches t a ty → e.IsAdd t a ty := fun ⟨y, h1, h2, h3⟩ => absurd h3 (hw y h1 h2)
  refine ⟨adds_step W.adds s hnt, ?_, ?_⟩
  · rw [sum_step ht W.adds s hnt, added_zero hw, add_zero, hsum, W.sum]
  · intro b r own hat y h1 h2 hb
    rcases at_step s hat with hat' | ⟨_, h⟩
    · obtain ⟨hr, hk, j, v, hj, hja, hnq, hcv⟩ := W.by_ b r own hat' y h1 h2 hb
      obtain ⟨h3, h4⟩ := hq b r own hat hcv hr hk
      exact ⟨hr, h3, j, v, Nat.lt_of_lt_of_le hj (hle r hr), hja, fun h => hnq (h4 j h), hcv⟩
    · exact absurd (h _ hb) (hw y h1 h2)

/-- an addition of the program -/
theorem word_add {S : Sys} {K : Nat} {g g' : G} (hi : GI S g) {e : Ev} {m : Mems} {acts : Nat → List Act} {c c' : Nat → Nat} {t : Nat} {a : Int}
    {ty : TyIdx} {p v : Nat} (s : Step S g e g') (ht : ty ∈ Amo.stdTypes) (W : WordOk S K g m acts c t a ty) (hd : Does S p (.add t a ty v) e)
    (hp : p < S.npes) (hK : g.arr p = K) (ha : (acts p)[c p]? = some (.add t a ty v)) (hc : ∀ q, c' q = if q = p then c p + 1 else c q) :
    WordOk S K g' m acts c' t a ty := by
  obtain ⟨ctx, addr, api, ep, rfl, hv, hret, hcov⟩ := hd
  have hadd : (Ev.amo p t ctx addr a ty api ep).touches t a ty → (Ev.amo p t ctx addr a ty api ep).IsAdd t a ty :=
    fun _ => ⟨p, ctx, addr, api, ep, v, rfl, hv⟩
  have hnq : ∀ r j, QuietBetween (acts r) j (c' r) → QuietBetween (acts r) j (c r) := by
    rintro r j ⟨q, h1, h2, h3⟩
    rw [hc] at h2
    split at h2
    · rename_i e1
      subst e1
      rcases Nat.lt_or_ge q (c r) with h4 | h4
      · exact ⟨q, h1, h4, h3⟩
      · obtain rfl : q = c r := by omega
        rw [ha] at h3
        cases h3
    · exact ⟨q, h1, h2, h3⟩
  refine ⟨adds_step W.adds s hadd, ?_, ?_⟩
  · rw [sum_step ht W.adds s hadd, W.sum, add_assoc]
    congr 1
    rw [← Finset.add_sum_erase _ _ (Finset.mem_range.mpr hp), ← Finset.add_sum_erase (Finset.range S.npes) _ (Finset.mem_range.mpr hp)]
    have e1 : ∑ q ∈ (Finset.range S.npes).erase p, addends t a ty ((acts q).take (c' q)) =
        ∑ q ∈ (Finset.range S.npes).erase p, addends t a ty ((acts q).take (c q)) :=
      Finset.sum_congr rfl fun q hq => by rw [hc, if_neg (Finset.ne_of_mem_erase hq)]
    rw [e1, hc p, if_pos rfl, addends_succ t a ty ha]
    simp only [added, hv, Act.addend, and_self, if_true, Option.getD_some, add_zero]
    rw [add_right_comm]
  · intro b r own hat y h1 h2 hb
    have harr : g'.arr = g.arr := arr_step s (fun q => by simp)
    have old : At g b r own → r < S.npes ∧ g'.arr r = K ∧ ∃ j v, j < c' r ∧ (acts r)[j]? = some (.add t a ty v) ∧
        ¬ QuietBetween (acts r) j (c' r) ∧ ∀ pd, own = some pd → Order.Covered (S.cf r) pd ∧ pd.ep = K := by
      intro hat'
      obtain ⟨hr, hk, j, v, hj, hja, hnq', hcv⟩ := W.by_ b r own hat' y h1 h2 hb
      refine ⟨hr, by rw [harr]; exact hk, j, v, ?_, hja, fun h => hnq' (hnq r j h), hcv⟩
      rw [hc]
      split
      · rename_i e1; subst e1; omega
      · exact hj
    cases s with
    | amo p tgt ctx addr r0 ty api gpu mode s' hf hm ht hk e hr d =>
      rcases at_after hat with h | ⟨rfl, ho, h⟩
      · exact old h
      · refine ⟨hp, hK, c r, v, by rw [hc, if_pos rfl]; omega, ha, ?_, ?_⟩
        · rintro ⟨q, h3, h4, _⟩
          rw [hc, if_pos rfl] at h4
          omega
        · intro pd hpd
          rw [hpd] at ho
          obtain ⟨h3, h4⟩ := covered_of e ho.symm direct_amo hcov
          exact ⟨h3, by rw [h4, hi.ep, hK]⟩
    | amoRet p tgt ctx addr r0 ty api gpu mode s' hf hm ht hk e hr d => rw [hk] at hret; cases hret

/-- what others write is not looked at -/
theorem Phase.nolook {n : Nat} {D : Nat × Int → Prop} {P : Prog} {k : Nat} {m m' : Mems} {acts : Nat → List Act} (h : Phase n D P k m acts m')
    {p q : Nat} (hp : p < n) (hq : q < n) (hne : q ≠ p) {c : Act} (hc : c ∈ acts q) {y : Int} (hw : c.writes q (p, y)) {i : Nat}
    (hi : i ≤ (acts p).length) : ¬ P.looks p k i y := by
  cases c with
  | add t a ty v =>
    obtain ⟨rfl, h1, h2⟩ := hw
    exact ((h.words q hq _ a ty v hc).2 (p, y) rfl h1 h2).2 hp i hi
  | _ => exact (h.race q hq p hp hne _ hc rfl _ hw).2 rfl i hi

/-- what an earlier action may still be writing is not looked at -/
theorem Phase.nolate {n : Nat} {D : Nat × Int → Prop} {P : Prog} {k : Nat} {m m' : Mems} {acts : Nat → List Act} (h : Phase n D P k m acts m')
    {p i j : Nat} (hp : p < n) (hij : i < j) (hj : j ≤ (acts p).length) (hq : ¬ QuietBetween (acts p) i j) {c : Act}
    (hc : (acts p)[i]? = some c) {y : Int} (hl : c.lateWrite) (hw : c.writes p (p, y)) : ¬ P.looks p k j y := by
  cases c with
  | add t a ty v =>
    obtain ⟨rfl, h1, h2⟩ := hw
    exact ((h.words p hp _ a ty v (List.mem_of_getElem? hc)).2 (p, y) rfl h1 h2).2 hp j hj
  | _ => exact ((h.own p hp i j hij hj hq _ hc rfl).1 _ hl hw).2 rfl

/-- the action the program takes is the one it takes if its PE is alone -/
theorem next_ok {S : Sys} {D : Nat × Int → Prop} {P : Prog} {M : Nat → Mems} {acts : Nat → Nat → List Act} (hm : Means S.npes D P M acts)
    {K : Nat} {x : X} (h : Inv S D M acts K x) {p : Nat} (hf : Free S x.g p) :
    P.next p K (x.pos p) (x.g.mem p) = (acts K p)[x.pos p]? := by
  have hK := free_phase h hf
  have hl := h.len p hf.1 hK
  rw [← (hm K).follows p hf.1 (x.pos p) hl]
  refine P.dep p K (x.pos p) _ _ fun a ha => ?_
  have hD := (hm K).looksIn p hf.1 _ hl a ha
  refine (read_ok hm h hf (b := (p, a)) hD ?_ ?_).2
  · intro q hq hne c hc hw
    exact (hm K).nolook hf.1 hq hne hc hw hl ha
  · intro j hj c hc hqb hlate hw
    exact (hm K).nolate hf.1 hj hl hqb hc hlate hw ha

/-- events that are none of the program's actions -/
theorem inv_other {S : Sys} {D : Nat × Int → Prop} {P : Prog} {M : Nat → Mems} {acts : Nat → Nat → List Act} (hm : Means S.npes D P M acts)
    {K : Nat} {x : X} (h : Inv S D M acts K x) {e : Ev} {g' : G} (hb : ∀ p, e ≠ .enter p) (hw : ∀ b, D b → ¬ e.writes b)
    (s : Step S x.g e g') : Inv S D M acts K ⟨g', x.pos⟩ := by
  have harr := arr_step s hb
  have hdone : done K ⟨g', x.pos⟩ (acts K) = done K x (acts K) := by unfold done; dsimp only; rw [harr]
  refine ⟨gi_step h.gi s, ?_, ?_, ?_, ?_, ?_, ?_, ?_⟩
  · intro p hp; dsimp only; rw [harr]; exact h.lo p hp
  · dsimp only; rw [harr]; exact h.min
  · intro p hp
    dsimp only
    rw [harr]
    have := h.one p hp
    rcases lv_step s p with e1 | ⟨_, e1, _⟩ <;> omega
  · intro p hp hne
    dsimp only at hne ⊢
    rw [harr] at hne
    refine h.pos0 p hp ?_
    rcases lv_step s p with e1 | ⟨_, e1, h1⟩ <;> omega
  · intro p hp e1
    dsimp only at e1 ⊢
    rw [harr] at e1
    exact h.len p hp e1
  · intro b hD hcn
    rw [hdone]
    refine byte_keep s (h.byte b hD hcn) (hw b hD) ?_ (fun v hv => hv) (fun _ _ => Nat.le_refl _) ?_
    · intro v p j a own src F k' hk'
      exact hw k' ((hm K).inside p F.hp a (List.mem_of_getElem? F.ha) k' (Or.inr (F.osrc k' hk').1))
    · intro v p j a own src F
      exact Or.inl ⟨by rw [harr]; exact F.hk, F.oquiet⟩
  · intro t a ty hcn
    rw [hdone]
    obtain ⟨q, hq, v, hv⟩ := hcn
    refine word_keep s ((hm K).words q hq t a ty v hv).1 (h.word t a ty ⟨q, hq, v, hv⟩) ?_ rfl (fun _ _ => Nat.le_refl _) ?_
    · intro y h1 h2
      exact hw _ ((hm K).inside q hq _ hv (t, y) (Or.inl ⟨rfl, h1, h2⟩))
    · intro b r own _ _ _ hk
      exact ⟨by rw [harr]; exact hk, fun j h => h⟩

end Verif.Bsp
