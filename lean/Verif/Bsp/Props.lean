import Verif.Bsp.Inv
import Mathlib.Data.List.Induction
/-!
# C104: programs without races that work in phases between barriers do what they do one PE after the other

`Means n D P M acts`: the meaning of the program, in which each PE works alone in each phase. The theorems say that every execution of the
library (any schedule, paths, configurations, operations in flight) follows it. Missing in the theorems ending in `_partial`: calls the
code's barrier does not complete (spaces and their contexts without dynamic windows, `C65_space_fails`).
-/
namespace Verif.Bsp
open Verif.Sobj Verif.Rma Verif.Vis
open Verif.Amo (TyIdx)

/-- **C104 (partial)**: whenever a PE can do something, what its program does next is what it does when the PEs work alone. -/
theorem C104_program_partial {S : Sys} {D : Nat × Int → Prop} {P : Prog} {M : Nat → Mems} {acts : Nat → Nat → List Act}
    (hm : Means S.npes D P M acts) {l : List Ev} {x : X} (r : XRun S D P (start (M 0)) l x) {p : Nat} (hf : Free S x.g p) :
    P.next p (x.g.arr p) (x.pos p) (x.g.mem p) = (acts (x.g.arr p) p)[x.pos p]? := by
  obtain ⟨K, h⟩ := inv_run hm (Nat.lt_of_le_of_lt (Nat.zero_le p) hf.1) r
  rw [free_phase h hf]
  exact next_ok hm h hf

/-- **C104 (partial)**: a PE sees on every byte that no other PE writes in this phase, and that no action of its own may still be writing, what
would be there if it were working alone; nothing in flight writes the byte. -/
theorem C104_sees_partial {S : Sys} {D : Nat × Int → Prop} {P : Prog} {M : Nat → Mems} {acts : Nat → Nat → List Act}
    (hm : Means S.npes D P M acts) {l : List Ev} {x : X} (r : XRun S D P (start (M 0)) l x) {p : Nat} (hf : Free S x.g p) {b : Nat × Int}
    (hD : D b) (hc : ∀ q < S.npes, q ≠ p → ∀ a ∈ acts (x.g.arr p) q, ¬ a.writes q b)
    (ho : ∀ j < x.pos p, ∀ a, (acts (x.g.arr p) p)[j]? = some a → ¬ QuietBetween (acts (x.g.arr p) p) j (x.pos p) → a.lateWrite →
      ¬ a.writes p b) :
    x.g.mem b.1 b.2 = alone (M (x.g.arr p)) p (acts (x.g.arr p) p) (x.pos p) b.1 b.2 := by
  obtain ⟨K, h⟩ := inv_run hm (Nat.lt_of_le_of_lt (Nat.zero_le p) hf.1) r
  have hK := free_phase h hf
  rw [hK] at hc ho ⊢
  exact (read_ok hm h hf hD hc ho).2

/-- **C104 (partial)**: when a PE comes out of a barrier, every byte that no other PE writes in the phase that begins, of whatever PE, has the
value of the meaning. -/
theorem C104_barrier_partial {S : Sys} {D : Nat × Int → Prop} {P : Prog} {M : Nat → Mems} {acts : Nat → Nat → List Act}
    (hm : Means S.npes D P M acts) {l : List Ev} {x : X} (r : XRun S D P (start (M 0)) l x) {p : Nat} (hf : Free S x.g p) (h0 : x.pos p = 0)
    {b : Nat × Int} (hD : D b) (hc : ∀ q < S.npes, q ≠ p → ∀ a ∈ acts (x.g.arr p) q, ¬ a.writes q b) :
    x.g.mem b.1 b.2 = M (x.g.arr p) b.1 b.2 := by
  rw [C104_sees_partial hm r hf hD hc (fun j hj => by omega), h0, alone_zero]

/-- **C104 (partial)**: bytes nobody writes in a phase keep the value of the meaning during all of it. -/
theorem C104_constant_partial {S : Sys} {D : Nat × Int → Prop} {P : Prog} {M : Nat → Mems} {acts : Nat → Nat → List Act}
    (hm : Means S.npes D P M acts) {l : List Ev} {x : X} (r : XRun S D P (start (M 0)) l x) {p : Nat} (hf : Free S x.g p)
    {b : Nat × Int} (hD : D b) (hc : ∀ q < S.npes, ∀ a ∈ acts (x.g.arr p) q, ¬ a.writes q b) : x.g.mem b.1 b.2 = M (x.g.arr p) b.1 b.2 := by
  rw [C104_sees_partial hm r hf hD (fun q hq _ => hc q hq) (fun j _ a ha _ _ => hc p hf.1 a (List.mem_of_getElem? ha))]
  obtain ⟨K, h⟩ := inv_run hm (Nat.lt_of_le_of_lt (Nat.zero_le p) hf.1) r
  have hK := free_phase h hf
  refine alone_same _ (acts (x.g.arr p)) (fun _ => x.pos p) p ?_ _ (Nat.le_refl _) ?_
  · rintro ⟨j, a, _, ha, hw⟩
    exact hc p hf.1 a (List.mem_of_getElem? ha) hw
  · rw [hK]; exact h.len p hf.1 hK

/-- **C104 (partial)**: when all PEs have come to barrier `k` and none has done anything since, all memory is that of the meaning, nothing in
flight writes to it. -/
theorem C104_phase_partial {S : Sys} {D : Nat × Int → Prop} {P : Prog} {M : Nat → Mems} {acts : Nat → Nat → List Act}
    (hm : Means S.npes D P M acts) {l : List Ev} {x : X} (r : XRun S D P (start (M 0)) l x) (hn : 0 < S.npes) {k : Nat}
    (hk : ∀ p < S.npes, x.g.arr p = k ∧ x.pos p = 0) {b : Nat × Int} (hD : D b) : NoWriter x.g b ∧ x.g.mem b.1 b.2 = M k b.1 b.2 := by
  obtain ⟨K, h⟩ := inv_run hm hn r
  obtain rfl : k = K := by
    obtain ⟨p, hp, e⟩ := h.min
    rw [← e, (hk p hp).1]
  have hz : ∀ p < S.npes, done k x (acts k) p = 0 := by
    intro p hp
    unfold done
    rw [if_pos (hk p hp).1, (hk p hp).2]
  by_cases hcn : InCounter S.npes (acts k) b
  · obtain ⟨t, w, ty, hcn, h1, h2, h3⟩ := hcn
    obtain ⟨b1, b2⟩ := b
    dsimp only at h1 h2 h3 ⊢
    subst h1
    have W := h.word b1 w ty hcn
    have hpos := bytes_pos ty
    have hno : ∀ y, w ≤ y → y < w + ty.bytes → NoWriter x.g (b1, y) := by
      rintro y hy1 hy2 c ⟨r, own, hat⟩ hcw
      obtain ⟨hr, _, j, _, hj, _⟩ := W.by_ c r own hat y hy1 hy2 hcw
      rw [hz r hr] at hj
      omega
    refine ⟨hno b2 h2 h3, wordAt_inj (ty := ty) (a := w) ?_ h2 h3⟩
    have hs := W.sum
    rwa [total_zero (hno w (le_refl _) (by omega)), add_zero,
      Finset.sum_eq_zero (fun q hq => by rw [hz q (Finset.mem_range.mp hq)]; simp [addends]), add_zero] at hs
  obtain ⟨v, hv, hb⟩ := h.byte b hD hcn
  have hno : ∀ p < S.npes, ¬ Wrote (acts k) (done k x (acts k)) p b := by
    rintro p hp ⟨j, a, hj, _⟩
    rw [hz p hp] at hj
    omega
  have hval : v = M k b.1 b.2 := by
    rcases hv with ⟨p, hp, hw, _⟩ | ⟨_, e⟩
    · exact absurd hw (hno p hp)
    · exact e
  rcases hb with ⟨h1, h2⟩ | ⟨p, j, a, own, src, F⟩
  · exact ⟨h1, h2.trans hval⟩
  · have := F.hj
    rw [hz p F.hp] at this
    omega

/-- **C104 (partial)**: two executions, of libraries in whatever configurations, end with the same memory and do the same. -/
theorem C104_deterministic_partial {S S' : Sys} (hn : S.npes = S'.npes) {D : Nat × Int → Prop} {P : Prog} {M : Nat → Mems}
    {acts : Nat → Nat → List Act} (hm : Means S.npes D P M acts) {l l' : List Ev} {x x' : X} (r : XRun S D P (start (M 0)) l x)
    (r' : XRun S' D P (start (M 0)) l' x') :
    (∀ k, 0 < S.npes → (∀ p < S.npes, x.g.arr p = k ∧ x.pos p = 0 ∧ x'.g.arr p = k ∧ x'.pos p = 0) →
      ∀ b, D b → x.g.mem b.1 b.2 = x'.g.mem b.1 b.2) ∧
    (∀ p, Free S x.g p → Free S' x'.g p → x.g.arr p = x'.g.arr p → x.pos p = x'.pos p →
      P.next p (x.g.arr p) (x.pos p) (x.g.mem p) = P.next p (x'.g.arr p) (x'.pos p) (x'.g.mem p)) := by
  have hm' := hm
  rw [hn] at hm'
  refine ⟨fun k h0 hk b hD => ?_, fun p hf hf' e1 e2 => ?_⟩
  · rw [(C104_phase_partial hm r h0 (fun p hp => ⟨(hk p hp).1, (hk p hp).2.1⟩) hD).2,
      (C104_phase_partial hm' r' (hn ▸ h0) (fun p hp => (hk p (hn ▸ hp)).2.2) hD).2]
  · rw [C104_program_partial hm r hf, C104_program_partial hm' r' hf', e1, e2]

/-! ## The meaning -/

/-- two memories that agree where an action reads: so do the results, where the memories agreed -/
theorem apply_congr {R : Nat × Int → Prop} (p : Nat) {m m' : Mems} (h : ∀ b, R b → m b.1 b.2 = m' b.1 b.2) {a : Act}
    (hr : ∀ b, a.reads p b → R b) (hadd : a.isAdd = true → ∀ b b', a.writes p b → R b → a.writes p b' → R b') {b : Nat × Int} (hb : R b) :
    a.apply p m b.1 b.2 = a.apply p m' b.1 b.2 := by
  have hx : ∀ xs : List (Int × Int), ∀ y z, pick xs y = some z → z ∈ xs := fun xs y z e => List.mem_of_find?_eq_some e
  cases a with
  | put tgt nbi xs =>
    show (if b.1 = tgt then _ else _) = (if b.1 = tgt then _ else _)
    split
    · cases e : pick xs b.2 with
      | none => exact h b hb
      | some z => exact h (p, z.2) (hr _ ⟨rfl, z, hx _ _ _ e, rfl⟩)
    · exact h b hb
  | get tgt nbi xs =>
    show (if b.1 = p then _ else _) = (if b.1 = p then _ else _)
    split
    · cases e : pick xs b.2 with
      | none => exact h b hb
      | some z => exact h (tgt, z.2) (hr _ ⟨rfl, z, hx _ _ _ e, rfl⟩)
    · exact h b hb
  | store a v =>
    show (if b.1 = p ∧ b.2 = a then _ else _) = (if b.1 = p ∧ b.2 = a then _ else _)
    split
    · rfl
    · exact h b hb
  | add tgt a ty v =>
    by_cases hw : Act.writes p b (.add tgt a ty v)
    · have hall : ∀ y, a ≤ y → y < a + ty.bytes → m tgt y = m' tgt y := fun y h1 h2 => h (tgt, y) (hadd rfl b (tgt, y) hw hb ⟨rfl, h1, h2⟩)
      obtain ⟨b1, b2⟩ := b
      obtain ⟨h1, h2, h3⟩ := hw
      dsimp only at h1 h2 h3 ⊢
      subst h1
      refine wordAt_inj (ty := ty) (a := a) ?_ h2 h3
      rw [apply_word p m (.add b1 a ty v) (fun _ _ _ _ _ => ⟨v, rfl⟩), apply_word p m' (.add b1 a ty v) (fun _ _ _ _ _ => ⟨v, rfl⟩),
        wordAt_congr hall]
    · rw [apply_frame p m _ hw, apply_frame p m' _ hw]
      exact h b hb
  | quiet => exact h b hb

theorem alone_congr {R : Nat × Int → Prop} (p : Nat) {m m' : Mems} (h : ∀ b, R b → m b.1 b.2 = m' b.1 b.2) {l : List Act}
    (hr : ∀ a ∈ l, ∀ b, a.reads p b → R b) (hadd : ∀ a ∈ l, a.isAdd = true → ∀ b b', a.writes p b → R b → a.writes p b' → R b') : ∀ i ≤ l.length, ∀ b, R b → alone m p l i b.1 b.2 = alone m' p l i b.1 b.2 := by
  intro i
  induction i with
  | zero => intro _ b hb; rw [alone_zero, alone_zero]; exact h b hb
  | succ i ih =>
    intro hi b hb
    have e : l[i]? = some l[i] := List.getElem?_eq_getElem (by omega)
    rw [alone_succ m p e, alone_succ m' p e]
    exact apply_congr p (ih (by omega)) (hr _ (List.getElem_mem _)) (hadd _ (List.getElem_mem _)) hb

/-- all PEs do their actions of a phase, one PE after the other -/
def inTurn (acts : Nat → List Act) (order : List Nat) (m : Mems) : Mems :=
  order.foldl (fun m p => alone m p (acts p) (acts p).length) m

/-- **C104**: the meaning of a phase is what comes out if the PEs do it one after the other, in any order. -/
theorem C104_inTurn {n : Nat} {D : Nat × Int → Prop} {P : Prog} {k : Nat} {m m' : Mems} {acts : Nat → List Act} (h : Phase n D P k m acts m')
    {order : List Nat} (hd : order.Nodup) (ho : ∀ p, p ∈ order ↔ p < n) {b : Nat × Int} (hD : D b) :
    inTurn acts order m b.1 b.2 = m' b.1 b.2 := by
  have key : ∀ l1 l2 : List Nat, order = l1 ++ l2 → ∀ b : Nat × Int,
      (∀ p ∈ l1, (∃ a ∈ acts p, a.isAdd = false ∧ a.writes p b) → inTurn acts l1 m b.1 b.2 = alone m p (acts p) (acts p).length b.1 b.2) ∧
      ((∀ p ∈ l1, ∀ a ∈ acts p, ¬ a.writes p b) → inTurn acts l1 m b.1 b.2 = m b.1 b.2) := by
    intro l1
    induction l1 using List.reverseRecOn with
    | nil => intro l2 _ b; exact ⟨fun p hp => (by cases hp), fun _ => rfl⟩
    | append_singleton l q ih =>
      intro l2 e b
      have ih' := ih (q :: l2) (by rw [e]; simp)
      have hq : q < n := (ho q).mp (by rw [e]; simp)
      have hl : ∀ p ∈ l, p < n := fun p hp => (ho p).mp (by rw [e]; simp [hp])
      have hne : ∀ p ∈ l, p ≠ q := by
        rintro p hp rfl
        rw [e] at hd
        have := (List.nodup_append.mp (List.nodup_append.mp hd).1).2.2 p hp p (List.mem_singleton.mpr rfl)
        exact this rfl
      have hst : ∀ m0, inTurn acts (l ++ [q]) m0 = alone (inTurn acts l m0) q (acts q) (acts q).length := by
        intro m0; unfold inTurn; rw [List.foldl_append]; rfl
      -- bytes no PE of `l` writes
      let R : Nat × Int → Prop := fun b => ∀ p ∈ l, ∀ a ∈ acts p, ¬ a.writes p b
      have hR : ∀ a ∈ acts q, ∀ b, a.reads q b → R b := by
        intro a ha b hr p hp c hc hw
        cases hca : c.isAdd with
        | false => exact ((h.race p (hl p hp) q hq (hne p hp) c hc hca b hw).1 a ha).2 hr
        | true =>
          refine h.noadd (hl p hp) hc hca hw hq ha ?_ (Or.inr hr)
          cases a with
          | add t w ty v => exact absurd hr id
          | _ => rfl
      have hA : ∀ a ∈ acts q, a.isAdd = true → ∀ b b', a.writes q b → R b → a.writes q b' → R b' := by
        intro a ha haa b b' hb hRb hb' p hp c hc hw
        cases a with
        | add t w ty v =>
          obtain ⟨v', rfl⟩ := ((h.words q hq t w ty v ha).2 b' hb'.1 hb'.2.1 hb'.2.2).1 p (hl p hp) c hc (Or.inl hw)
          exact hRb p hp _ hc hb
        | _ => cases haa
      have hag : ∀ b, R b → alone (inTurn acts l m) q (acts q) (acts q).length b.1 b.2 = alone m q (acts q) (acts q).length b.1 b.2 :=
        fun b hb => alone_congr q (R := R) (fun b hb => (ih' b).2 hb) hR hA _ (Nat.le_refl _) b hb
      have hsame : ∀ m0 : Mems, (∀ a ∈ acts q, ¬ a.writes q b) → alone m0 q (acts q) (acts q).length b.1 b.2 = m0 b.1 b.2 := fun m0 hno =>
        alone_same m0 acts (fun _ => (acts q).length) q (by rintro ⟨j, a, _, ha, hw⟩; exact hno a (List.mem_of_getElem? ha) hw) _
          (Nat.le_refl _) (Nat.le_refl _)
      rw [hst]
      refine ⟨fun p hp hw => ?_, fun hno => ?_⟩
      · rcases List.mem_append.mp hp with hp | hp
        · obtain ⟨a, ha, hna, haw⟩ := hw
          rw [hsame _ (fun c hc hcw => ((h.race p (hl p hp) q hq (hne p hp) a ha hna b haw).1 c hc).1 hcw)]
          exact (ih' b).1 p hp ⟨a, ha, hna, haw⟩
        · obtain rfl := List.mem_singleton.mp hp
          obtain ⟨a, ha, hna, haw⟩ := hw
          refine hag b (fun c hc d hd' hdw => ?_)
          cases hda : d.isAdd with
          | false => exact ((h.race c (hl c hc) p hq (hne c hc) d hd' hda b hdw).1 a ha).1 haw
          | true => exact h.noadd (hl c hc) hd' hda hdw hq ha hna (Or.inl haw)
      · rw [hsame _ (hno q (List.mem_append.mpr (Or.inr (List.mem_singleton.mpr rfl))))]
        exact (ih' b).2 (fun p hp => hno p (List.mem_append.mpr (Or.inl hp)))
  by_cases hcn : InCounter n acts b
  · obtain ⟨t, w, ty, ⟨p, hp, v, hv⟩, h1, h2, h3⟩ := hcn
    obtain ⟨b1, b2⟩ := b
    dsimp only at h1 h2 h3 ⊢
    subst h1
    refine wordAt_inj (ty := ty) (a := w) ?_ h2 h3
    have hsum : ∀ l : List Nat, (∀ q ∈ l, q < n) → ∀ m0 : Mems, wordAt (inTurn acts l m0 b1) w ty =
        wordAt (m0 b1) w ty + (l.map fun q => addends b1 w ty (acts q)).sum := by
      intro l
      induction l with
      | nil => intro _ m0; simp [inTurn]
      | cons q l ih =>
        intro hl m0
        have e : inTurn acts (q :: l) m0 = inTurn acts l (alone m0 q (acts q) (acts q).length) := rfl
        have hw := (h.words p hp b1 w ty v hv).2
        rw [e, ih (fun r hr => hl r (List.mem_cons_of_mem _ hr)), alone_word m0 q (acts q) (fun c hc b e1 e2 e3 e4 =>
          (hw b e1 e2 e3).1 q (hl q (List.mem_cons_self ..)) c hc (Or.inl e4)) _ (Nat.le_refl _), List.take_length, List.map_cons,
          List.sum_cons, add_assoc]
    rw [hsum order (fun q hq => (ho q).mp hq) m, h.counts p hp b1 w ty v hv]
    congr 1
    rw [← List.sum_toFinset _ hd]
    refine Finset.sum_congr ?_ fun _ _ => rfl
    ext q
    rw [List.mem_toFinset, Finset.mem_range, ho]
  by_cases hw : ∃ p < n, ∃ a ∈ acts p, a.writes p b
  · obtain ⟨p, hp, a, ha, hw⟩ := hw
    have hna : a.isAdd = false := by
      cases haa : a.isAdd with
      | false => rfl
      | true => exact absurd (in_counter hp ha haa hw) hcn
    rw [(key order [] (by simp) b).1 p ((ho p).mpr hp) ⟨a, ha, hna, hw⟩, h.result p hp b ⟨a, ha, hna, hw⟩]
  · have hno : ∀ p < n, ∀ a ∈ acts p, ¬ a.writes p b := fun p hp a ha hc => hw ⟨p, hp, a, ha, hc⟩
    rw [(key order [] (by simp) b).2 (fun p hp => hno p ((ho p).mp hp)), h.rest b hD hno]

/-- **C104**: there is only one meaning: the actions, and the memory the program works on. -/
theorem C104_unique {n : Nat} {D : Nat × Int → Prop} {P : Prog} {M M' : Nat → Mems} {acts acts' : Nat → Nat → List Act}
    (h : Means n D P M acts) (h' : Means n D P M' acts') (h0 : ∀ b, D b → M 0 b.1 b.2 = M' 0 b.1 b.2) (k : Nat) :
    (∀ b, D b → M k b.1 b.2 = M' k b.1 b.2) ∧ ∀ p < n, acts k p = acts' k p := by
  have hacts : ∀ k, (∀ b, D b → M k b.1 b.2 = M' k b.1 b.2) → ∀ p < n, acts k p = acts' k p := by
    intro k hM p hp
    -- the first `i` actions are the same
    have key : ∀ i, i ≤ (acts k p).length → i ≤ (acts' k p).length ∧ (acts k p).take i = (acts' k p).take i := by
      intro i
      induction i with
      | zero => intro _; exact ⟨Nat.zero_le _, by simp⟩
      | succ i ih =>
        intro hi
        obtain ⟨h1, h2⟩ := ih (by omega)
        have e : (acts k p)[i]? = (acts' k p)[i]? := by
          rw [← (h k).follows p hp i (by omega), ← (h' k).follows p hp i h1]
          refine P.dep _ _ _ _ _ fun a ha => ?_
          have hD := (h k).looksIn p hp i (by omega) a ha
          have e1 : alone (M' k) p (acts' k p) i = alone (M' k) p (acts k p) i := by unfold alone; rw [h2]
          rw [e1]
          exact alone_congr p (R := D) hM (fun c hc b hr => (h k).inside p hp c hc b (Or.inr hr))
            (fun c hc _ b b' _ _ hb' => (h k).inside p hp c hc b' (Or.inl hb')) i (by omega) (p, a) hD
        have hi' : i < (acts' k p).length := by
          rw [List.getElem?_eq_getElem (by omega)] at e
          exact (List.getElem?_eq_some_iff.mp e.symm).1
        refine ⟨hi', ?_⟩
        rw [List.take_succ_eq_append_getElem (by omega), List.take_succ_eq_append_getElem hi', h2]
        rw [List.getElem?_eq_getElem (by omega), List.getElem?_eq_getElem hi'] at e
        rw [Option.some.inj e]
    obtain ⟨h1, h2⟩ := key _ (Nat.le_refl _)
    rw [List.take_length] at h2
    rcases Nat.lt_or_ge (acts k p).length (acts' k p).length with h3 | h3
    · exfalso
      have e := (h k).follows p hp (acts k p).length (Nat.le_refl _)
      rw [List.getElem?_eq_none (Nat.le_refl _)] at e
      have e' := (h' k).follows p hp (acts k p).length (by omega)
      rw [List.getElem?_eq_getElem h3] at e'
      rw [P.dep p k _ _ (alone (M' k) p (acts' k p) (acts k p).length p)] at e
      · rw [e] at e'; cases e'
      · intro a ha
        have hD := (h k).looksIn p hp _ (Nat.le_refl _) a ha
        have e1 : alone (M' k) p (acts' k p) (acts k p).length = alone (M' k) p (acts k p) (acts k p).length := by
          unfold alone; rw [← h2, List.take_length]
        rw [e1]
        exact alone_congr p (R := D) hM (fun c hc b hr => (h k).inside p hp c hc b (Or.inr hr))
            (fun c hc _ b b' _ _ hb' => (h k).inside p hp c hc b' (Or.inl hb')) _ (Nat.le_refl _) (p, a) hD
    · rw [h2, List.take_of_length_le h3]
  have hmem : ∀ b, D b → M k b.1 b.2 = M' k b.1 b.2 := by
    induction k with
    | zero => exact h0
    | succ k ih =>
      intro b hD
      have ha := hacts k ih
      by_cases hcn : InCounter n (acts k) b
      · obtain ⟨t, w, ty, ⟨p, hp, v, hv⟩, h1, h2, h3⟩ := hcn
        obtain ⟨b1, b2⟩ := b
        dsimp only at h1 h2 h3 ⊢
        subst h1
        refine wordAt_inj (ty := ty) (a := w) ?_ h2 h3
        rw [(h k).counts p hp b1 w ty v hv, (h' k).counts p hp b1 w ty v (by rw [← ha p hp]; exact hv),
          wordAt_congr (fun y e1 e2 => ih (b1, y) ((h k).inside p hp _ hv (b1, y) (Or.inl ⟨rfl, e1, e2⟩))),
          Finset.sum_congr rfl (fun q hq => by rw [ha q (Finset.mem_range.mp hq)])]
      by_cases hw : ∃ p < n, ∃ a ∈ acts k p, a.writes p b
      · obtain ⟨p, hp, a, hac, hw⟩ := hw
        have hna : a.isAdd = false := by
          cases haa : a.isAdd with
          | false => rfl
          | true => exact absurd (in_counter hp hac haa hw) hcn
        rw [(h k).result p hp b ⟨a, hac, hna, hw⟩, (h' k).result p hp b ⟨a, by rw [← ha p hp]; exact hac, hna, hw⟩, ← ha p hp]
        exact alone_congr p (R := D) ih (fun c hc b hr => (h k).inside p hp c hc b (Or.inr hr))
            (fun c hc _ b b' _ _ hb' => (h k).inside p hp c hc b' (Or.inl hb')) _ (Nat.le_refl _) b hD
      · rw [(h k).rest b hD (fun p hp a ha' hc => hw ⟨p, hp, a, ha', hc⟩),
          (h' k).rest b hD (fun p hp a ha' hc => hw ⟨p, hp, a, by rw [ha p hp]; exact ha', hc⟩)]
        exact ih b hD
  exact ⟨hmem, hacts k hmem⟩

end Verif.Bsp
