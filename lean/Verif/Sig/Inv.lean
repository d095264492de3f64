import Verif.Sig.Model
import Verif.Bsp.Steps
/-!
# Flags: the invariant
-/
namespace Verif.Sig
open Verif.Sobj Verif.Rma Verif.Vis
open Verif.Order (Pend)
open Verif.P2p (CTy)

/-- somebody has done the action that writes the byte -/
def Issued (n : Nat) (acts : Nat → List Act) (pos : Nat → Nat) (b : Nat × Int) : Prop :=
  ∃ p < n, ∃ j a, j < pos p ∧ (acts p)[j]? = some a ∧ a.writes p b

/-- the byte has its final value for good -/
structure Settled (n : Nat) (acts : Nat → List Act) (F : Mems) (x : X) (b : Nat × Int) : Prop where
  past : ∀ p < n, ∀ j a, (acts p)[j]? = some a → a.writes p b → j < x.pos p
  none_ : NoWriter x.g b
  val : x.g.mem b.1 b.2 = F b.1 b.2

/-- the byte will be written by the action number `j` of PE `p` -/
structure Flying (n : Nat) (D : Nat × Int → Prop) (acts : Nat → List Act) (F : Mems) (x : X) (b : Nat × Int) (p j : Nat) (a : Act) (own : Option Pend)
    (src : Option (Nat × Int)) : Prop where
  hp : p < n
  hj : j < x.pos p
  ha : (acts p)[j]? = some a
  hw : a.writes p b
  only : Only x.g p own src b (F b.1 b.2)
  oquiet : ¬ QuietBetween (acts p) j (x.pos p)
  onone : own = none → x.g.busy p ≠ [] ∧ x.pos p = j + 1
  osome : ∀ pd, own = some pd → a.lateWrite
  osrc : ∀ k', src = some k' → D k' ∧ Settled n acts F x k'

/-- the status of a byte -/
def ByteOk (n : Nat) (D : Nat × Int → Prop) (M : Mems) (acts : Nat → List Act) (F : Mems) (x : X) (b : Nat × Int) : Prop :=
  (¬ Issued n acts x.pos b ∧ NoWriter x.g b ∧ x.g.mem b.1 b.2 = M b.1 b.2) ∨ Settled n acts F x b ∨
    ∃ p j a own src, Flying n D acts F x b p j a own src

structure Inv (S : Sys) (D : Nat × Int → Prop) (M : Mems) (acts : Nat → List Act) (F : Mems) (x : X) : Prop where
  gi : GI S x.g
  len : ∀ p < S.npes, x.pos p ≤ (acts p).length
  byte : ∀ b, D b → ByteOk S.npes D M acts F x b
  /-- who has passed a wait: somebody had written to the flag -/
  waited : ∀ p < S.npes, ∀ k < x.pos p, ∀ a t op v, (acts p)[k]? = some (.wait a t op v) → ¬ Passes t op v (word (M p) a t) →
    ∃ q < S.npes, ∃ j < x.pos q, ∃ c y, (acts q)[j]? = some c ∧ a ≤ y ∧ y < a + (t.bits / 8 : Nat) ∧ c.writes q (p, y)

section
variable {S : Sys} {D : Nat × Int → Prop} {P : Prog} {M : Mems} {acts : Nat → List Act} {F : Mems}

theorem word_congr {m m' : IMem} {a : Int} {t : CTy} (h : ∀ y, a ≤ y → y < a + (t.bits / 8 : Nat) → m y = m' y) : word m a t = word m' a t := by
  unfold word
  refine Mem.load_congr fun i _ h2 => ?_
  unfold Vis.view
  exact h _ (by omega) (by omega)

/-- what a PE may rely on is there -/
theorem known_settled (hm : Means S.npes D P M acts F) {x : X} (h : Inv S D M acts F x) {p i : Nat} {b : Nat × Int}
    (hk : Known S.npes D M acts p i b) : p < S.npes → i ≤ x.pos p → (i < x.pos p ∨ x.g.busy p = []) → Settled S.npes acts F x b := by
  -- a byte whose writer has begun, and cannot be on its way
  have key : ∀ {p k : Nat} {a : Act} {b : Nat × Int}, p < S.npes → k < x.pos p → (acts p)[k]? = some a → a.writes p b →
      (∀ own src, ¬ Flying S.npes D acts F x b p k a own src) → Settled S.npes acts F x b := by
    intro p k a b hp hk ha hw hno
    rcases h.byte b (hm.inside p hp a (List.mem_of_getElem? ha) b (Or.inl hw)) with ⟨h1, _⟩ | h1 | ⟨q, j, c, own, src, f⟩
    · exact absurd ⟨p, hp, k, a, hk, ha, hw⟩ h1
    · exact h1
    · obtain ⟨rfl, rfl⟩ := hm.single p hp q f.hp k j a c b ha f.ha hw f.hw
      obtain rfl : a = c := by have := f.ha; rw [ha] at this; cases this; rfl
      exact absurd f (hno own src)
  induction hk with
  | @init p i b hD hn =>
    intro hp hi hb
    rcases h.byte b hD with ⟨_, h2, h3⟩ | h1 | ⟨q, j, c, own, src, f⟩
    · exact ⟨fun q hq j a ha hw => absurd hw (hn q hq a (List.mem_of_getElem? ha)), h2, h3.trans (hm.rest b hD hn).symm⟩
    · exact h1
    · exact absurd f.hw (hn q f.hp c (List.mem_of_getElem? f.ha))
  | @own p i b k a hki ha hw hl =>
    intro hp hi hb
    refine key hp (by omega) ha hw fun own src f => ?_
    cases own with
    | none =>
      obtain ⟨h1, h2⟩ := f.onone rfl
      rcases hb with h3 | h3
      · omega
      · exact h1 h3
    | some pd => exact hl (f.osome pd rfl)
  | @quiet p i b k a ha hw hq =>
    intro hp hi hb
    obtain ⟨q, h1, h2, h3⟩ := hq
    exact key hp (by omega) ha hw fun own src f => f.oquiet ⟨q, h1, by omega, h3⟩
  | @wait p i b k a t op v hki ha h0 hb ih =>
    intro hp hi _
    obtain ⟨q, hq, j, hj, c, y, hc, h1, h2, h3⟩ := h.waited p hp k (by omega) a t op v ha h0
    exact ih q j c y hq hc h1 h2 h3 hq (by omega) (Or.inl hj)

theorem does_writes {p : Nat} {a : Act} {e : Ev} (hd : Does p a e) (b : Nat × Int) : e.writes b ↔ a.writes p b := by
  cases a with
  | put tgt nbi xs => obtain ⟨ctx, addr, ep, rfl⟩ := hd; exact Iff.rfl
  | get tgt nbi xs => obtain ⟨ctx, addr, ep, rfl⟩ := hd; exact Iff.rfl
  | store a v => cases hd; exact Iff.rfl
  | quiet => rcases hd with rfl | rfl <;> exact Iff.rfl
  | wait a t op v => obtain ⟨r, rfl, _⟩ := hd; exact Iff.rfl

theorem does_free {p : Nat} {a : Act} {e : Ev} {g g' : G} (hd : Does p a e) (s : Step S g e g') : Free S g p := by
  cases a with
  | put tgt nbi xs =>
    obtain ⟨ctx, addr, ep, rfl⟩ := hd
    cases s with
    | put p tgt nbi ctx addr src n gpu mode oc tc oty tty xs s' hf hm e hx d => exact hf
  | get tgt nbi xs =>
    obtain ⟨ctx, addr, ep, rfl⟩ := hd
    cases s with
    | get p tgt nbi ctx addr src n gpu mode oc tc oty tty xs s' hf hm e hx d => exact hf
  | store a v =>
    cases hd
    cases s with
    | store p a v hf => exact hf
  | quiet =>
    rcases hd with rfl | rfl <;>
    cases s with
    | call p op s' hf l hop e d => exact hf
  | wait a t op v =>
    obtain ⟨r, rfl, _⟩ := hd
    cases s with
    | poll p addr r n mode hf hm hr => exact hf

/-- the action the program takes is the one of its meaning -/
theorem next_ok (hm : Means S.npes D P M acts F) {x : X} (h : Inv S D M acts F x) {p : Nat} (hf : Free S x.g p) :
    P.next p (x.pos p) (x.g.mem p) = (acts p)[x.pos p]? := by
  have hl := h.len p hf.1
  rw [← hm.follows p hf.1 (x.pos p) hl]
  refine P.dep p (x.pos p) _ _ fun a ha => ?_
  exact (known_settled hm h (hm.looks p hf.1 _ hl a ha).2 hf.1 (Nat.le_refl _) (Or.inr hf.2.2)).val

theorem settled_step {x : X} {g' : G} {pos' : Nat → Nat} {e : Ev} (s : Step S x.g e g') (hle : ∀ p, x.pos p ≤ pos' p) {b : Nat × Int}
    (h : Settled S.npes acts F x b) (hw : ¬ e.writes b) : Settled S.npes acts F ⟨g', pos'⟩ b := by
  obtain ⟨h1, h2⟩ := noWriter_step s h.none_ hw
  exact ⟨fun p hp j a ha hwr => Nat.lt_of_lt_of_le (h.past p hp j a ha hwr) (hle p), h1, h2.trans h.val⟩

theorem waited_mono {x : X} {pos' : Nat → Nat} (hle : ∀ p, x.pos p ≤ pos' p) {p : Nat} {a : Int} {t : CTy}
    (h : ∃ q < S.npes, ∃ j < x.pos q, ∃ c y, (acts q)[j]? = some c ∧ a ≤ y ∧ y < a + (t.bits / 8 : Nat) ∧ c.writes q (p, y)) :
    ∃ q < S.npes, ∃ j < pos' q, ∃ c y, (acts q)[j]? = some c ∧ a ≤ y ∧ y < a + (t.bits / 8 : Nat) ∧ c.writes q (p, y) := by
  obtain ⟨q, hq, j, hj, h⟩ := h
  exact ⟨q, hq, j, Nat.lt_of_lt_of_le hj (hle q), h⟩

theorem only_past {x : X} {b : Nat × Int} {p j : Nat} {a : Act} {own : Option Pend} {src : Option (Nat × Int)} {F : Mems}
    (hm : Means S.npes D P M acts F) (f : Flying S.npes D acts F x b p j a own src) {q i : Nat} {c : Act} (hq : q < S.npes)
    (hc : (acts q)[i]? = some c) (hw : c.writes q b) : i < x.pos q := by
  obtain ⟨rfl, rfl⟩ := hm.single q hq p f.hp i j c a b hc f.ha hw f.hw
  exact f.hj

/-- events that are none of the program's actions -/
theorem inv_other (hm : Means S.npes D P M acts F) {x : X} (h : Inv S D M acts F x) {e : Ev} {g' : G} (hw : ∀ b, D b → ¬ e.writes b)
    (s : Step S x.g e g') : Inv S D M acts F ⟨g', x.pos⟩ := by
  refine ⟨gi_step h.gi s, h.len, ?_, h.waited⟩
  intro b hD
  rcases h.byte b hD with ⟨h1, h2, h3⟩ | h1 | ⟨p, j, a, own, src, f⟩
  · obtain ⟨h4, h5⟩ := noWriter_step s h2 (hw b hD)
    exact Or.inl ⟨h1, h4, h5.trans h3⟩
  · exact Or.inr (Or.inl (settled_step s (fun _ => Nat.le_refl _) h1 (hw b hD)))
  · have ho := only_step f.only s (hw b hD) (fun k' hk' => hw k' (f.osrc k' hk').1)
    by_cases hn : own = none ∧ g'.busy p = []
    · obtain ⟨h1, h2⟩ := Bsp.only_over ho (fun _ => hn.2) (fun pd e => by rw [hn.1] at e; cases e)
      exact Or.inr (Or.inl ⟨fun q hq i c hc hwc => only_past hm f hq hc hwc, h1, h2⟩)
    · exact Or.inr (Or.inr ⟨p, j, a, own, src, f.hp, f.hj, f.ha, f.hw, ho, f.oquiet, fun e1 => ⟨fun e2 => hn ⟨e1, e2⟩, (f.onone e1).2⟩, f.osome,
        fun k' hk' => ⟨(f.osrc k' hk').1, settled_step s (fun _ => Nat.le_refl _) (f.osrc k' hk').2 (hw k' (f.osrc k' hk').1)⟩⟩)

/-- a byte that an action writes: it is on its way, or there -/
theorem byte_act (hm : Means S.npes D P M acts F) {x : X} (h : Inv S D M acts F x) {p : Nat} {a : Act} {e : Ev} {g' : G} (hd : Does p a e)
    (s : Step S x.g e g') (hf : Free S x.g p) (ha : (acts p)[x.pos p]? = some a) {b : Nat × Int} (hw : a.writes p b) :
    ByteOk S.npes D M acts F ⟨g', Function.update x.pos p (x.pos p + 1)⟩ b := by
  have hmem := List.mem_of_getElem? ha
  have hcl := hm.clean p hf.1 a hmem
  have hgv := hm.gives p hf.1 a hmem
  have hev : ∀ k, e.writes k ↔ a.writes p k := does_writes hd
  have hle : ∀ q, x.pos q ≤ Function.update x.pos p (x.pos p + 1) q := by
    intro q
    rw [upd_at]
    split
    · rename_i e1; subst e1; omega
    · exact Nat.le_refl _
  have hpos : Function.update x.pos p (x.pos p + 1) p = x.pos p + 1 := Function.update_self ..
  -- nobody has written it
  have hnw : NoWriter x.g b := by
    rcases h.byte b (hm.inside p hf.1 a hmem b (Or.inl hw)) with ⟨_, h2, _⟩ | h1 | ⟨q, j, c, own, src, f⟩
    · exact h2
    · exact absurd (h1.past p hf.1 _ a ha hw) (Nat.lt_irrefl _)
    · exact absurd (only_past hm f hf.1 ha hw) (Nat.lt_irrefl _)
  -- what it reads has its final value
  have hrd : ∀ k, a.reads p k → D k ∧ Settled S.npes acts F x k := fun k hk =>
    ⟨(hm.reads p hf.1 _ a ha k hk).1, known_settled hm h (hm.reads p hf.1 _ a ha k hk).2 hf.1 (Nat.le_refl _) (Or.inr hf.2.2)⟩
  have hrd' : ∀ k, a.reads p k → ¬ e.writes k := fun k hk hc => hcl.1 k ((hev k).mp hc) hk
  have hnq : ¬ QuietBetween (acts p) (x.pos p) (Function.update x.pos p (x.pos p + 1) p) := by
    rintro ⟨q, h1, h2, _⟩
    rw [hpos] at h2
    omega
  cases a with
  | put tgt nbi xs =>
    obtain ⟨ctx, addr, ep, rfl⟩ := hd
    obtain ⟨hb1, y, hy, hy2⟩ := hw
    obtain ⟨b1, b2⟩ := b
    dsimp only at hb1 hy2
    subst hb1
    subst hy2
    have hr : Act.reads p (p, y.2) (.put b1 nbi xs) := ⟨rfl, y, hy, rfl⟩
    obtain ⟨_, _, _, pd, _, _, ho, _⟩ := put_only h.gi s hy (fun z hz e => hcl.2 z hz y hy e) hnw (fun _ => ⟨(hrd _ hr).2.none_, hrd' _ hr⟩)
    rw [(hrd _ hr).2.val, ← hgv y hy] at ho
    refine Or.inr (Or.inr ⟨p, x.pos p, _, some pd, _, hf.1, by dsimp only; rw [hpos]; omega, ha, ⟨rfl, y, hy, rfl⟩, ho, hnq, (fun e => by cases e),
      (fun _ _ => trivial), ?_⟩)
    intro k' e
    cases nbi with
    | false => cases e
    | true => cases e; exact ⟨(hrd _ hr).1, settled_step s hle (hrd _ hr).2 (hrd' _ hr)⟩
  | get tgt nbi xs =>
    obtain ⟨ctx, addr, ep, rfl⟩ := hd
    obtain ⟨hb1, y, hy, hy2⟩ := hw
    obtain ⟨b1, b2⟩ := b
    dsimp only at hb1 hy2
    subst hb1
    subst hy2
    have hr : Act.reads b1 (tgt, y.2) (.get tgt nbi xs) := ⟨rfl, y, hy, rfl⟩
    obtain ⟨own, hn, hsm, ho⟩ := Bsp.get_cov h.gi s hy (fun z hz e => hcl.2 z hz y hy e) hnw (hrd _ hr).2.none_ (hrd' _ hr)
    rw [(hrd _ hr).2.val, ← hgv y hy] at ho
    refine Or.inr (Or.inr ⟨b1, x.pos b1, _, own, _, hf.1, by dsimp only; rw [hpos]; omega, ha, ⟨rfl, y, hy, rfl⟩, ho, hnq, (fun e => ⟨hn e, hpos⟩),
      (fun pd e => (hsm pd e).1), ?_⟩)
    intro k' e
    cases e
    exact ⟨(hrd _ hr).1, settled_step s hle (hrd _ hr).2 (hrd' _ hr)⟩
  | store a v =>
    cases hd
    cases hw
    refine Or.inr (Or.inl ⟨?_, ?_, ?_⟩)
    · intro q hq j c hc hwc
      obtain ⟨rfl, rfl⟩ := hm.single q hq p hf.1 j _ c _ (p, a) hc ha hwc rfl
      show _ < Function.update x.pos q (x.pos q + 1) q
      rw [hpos]
      omega
    · cases s with
      | store p a v hf' =>
        rintro c ⟨r, own, hc⟩ hcw
        exact hnw c ⟨r, own, hc⟩ hcw
    · cases s with
      | store p a v hf' =>
        have hgv : F p a = v := hgv
        simp [hgv]
  | quiet => exact absurd hw id
  | wait a t op v => exact absurd hw id

/-- an action of the program -/
theorem inv_act (hm : Means S.npes D P M acts F) {x : X} (h : Inv S D M acts F x) {p : Nat} {a : Act} {e : Ev} {g' : G}
    (hn : P.next p (x.pos p) (x.g.mem p) = some a) (hd : Does p a e) (s : Step S x.g e g') :
    Inv S D M acts F ⟨g', Function.update x.pos p (x.pos p + 1)⟩ := by
  have hf := does_free hd s
  rw [next_ok hm h hf] at hn
  have ha := hn
  have hmem := List.mem_of_getElem? ha
  have hlt : x.pos p < (acts p).length := (List.getElem?_eq_some_iff.mp ha).1
  have hle : ∀ q, x.pos q ≤ Function.update x.pos p (x.pos p + 1) q := by
    intro q
    rw [upd_at]
    split
    · rename_i e1; subst e1; omega
    · exact Nat.le_refl _
  have hpos : Function.update x.pos p (x.pos p + 1) p = x.pos p + 1 := Function.update_self ..
  -- a byte whose writer has begun is not written by this action
  have hpast : ∀ b, (∀ q < S.npes, ∀ j c, (acts q)[j]? = some c → c.writes q b → j < x.pos q) → ¬ a.writes p b :=
    fun b hb hw => Nat.lt_irrefl _ (hb p hf.1 _ a ha hw)
  refine ⟨gi_step h.gi s, ?_, ?_, ?_⟩
  · intro q hq
    dsimp only
    rw [upd_at]
    split
    · rename_i e1; subst e1; omega
    · exact h.len q hq
  · intro b hD
    by_cases hw : a.writes p b
    · exact byte_act hm h hd s hf ha hw
    · have hew : ¬ e.writes b := fun hc => hw ((does_writes hd b).mp hc)
      rcases h.byte b hD with ⟨h1, h2, h3⟩ | h1 | ⟨q, j, c, own, src, f⟩
      · obtain ⟨h4, h5⟩ := noWriter_step s h2 hew
        refine Or.inl ⟨?_, h4, h5.trans h3⟩
        rintro ⟨q, hq, j, c, hj, hc, hcw⟩
        refine h1 ⟨q, hq, j, c, ?_, hc, hcw⟩
        dsimp only at hj
        rw [upd_at] at hj
        split at hj
        · rename_i e1
          subst e1
          rcases Nat.lt_or_ge j (x.pos q) with h6 | h6
          · exact h6
          · obtain rfl : j = x.pos q := by omega
            rw [ha] at hc
            cases hc
            exact absurd hcw hw
        · exact hj
      · exact Or.inr (Or.inl (settled_step s hle h1 hew))
      · have hsrc : ∀ k', src = some k' → ¬ e.writes k' := fun k' hk' hc => hpast k' (f.osrc k' hk').2.past ((does_writes hd k').mp hc)
        have ho := only_step f.only s hew hsrc
        have hset : NoWriter g' b ∧ g'.mem b.1 b.2 = F b.1 b.2 → ByteOk S.npes D M acts F ⟨g', Function.update x.pos p (x.pos p + 1)⟩ b :=
          fun h1 => Or.inr (Or.inl ⟨fun q' hq' i' c' hc' hwc' => Nat.lt_of_lt_of_le (only_past hm f hq' hc' hwc') (hle q'), h1.1, h1.2⟩)
        have hsrc' : ∀ k', src = some k' → D k' ∧ Settled S.npes acts F ⟨g', Function.update x.pos p (x.pos p + 1)⟩ k' :=
          fun k' hk' => ⟨(f.osrc k' hk').1, settled_step s hle (f.osrc k' hk').2 (hsrc k' hk')⟩
        by_cases e1 : q = p
        · subst e1
          have hown : own ≠ none := fun e2 => (f.onone e2).1 hf.2.2
          by_cases e2 : a = .quiet
          · subst e2
            have hfl : g'.fly q = [] ∧ g'.busy q = [] := by
              rcases hd with rfl | rfl
              · exact quiet_step h.gi (Or.inl rfl) s
              · exact quiet_step h.gi (Or.inr rfl) s
            exact hset (Bsp.only_over ho (fun _ => hfl.2) (fun pd _ y hy => by rw [hfl.1] at hy; cases hy))
          · refine Or.inr (Or.inr ⟨q, j, c, own, src, f.hp, Nat.lt_of_lt_of_le f.hj (hle q), f.ha, f.hw, ho, ?_, fun e3 => absurd e3 hown,
              f.osome, hsrc'⟩)
            rintro ⟨r, h1, h2, h3⟩
            dsimp only at h2
            rw [hpos] at h2
            rcases Nat.lt_or_ge r (x.pos q) with h4 | h4
            · exact f.oquiet ⟨r, h1, h4, h3⟩
            · obtain rfl : r = x.pos q := by omega
              rw [ha] at h3
              cases h3
              exact e2 rfl
        · have hpq : Function.update x.pos p (x.pos p + 1) q = x.pos q := Function.update_of_ne e1 ..
          by_cases hn2 : own = none ∧ g'.busy q = []
          · exact hset (Bsp.only_over ho (fun _ => hn2.2) (fun pd e => by rw [hn2.1] at e; cases e))
          · refine Or.inr (Or.inr ⟨q, j, c, own, src, f.hp, Nat.lt_of_lt_of_le f.hj (hle q), f.ha, f.hw, ho, ?_,
              fun e3 => ⟨fun e4 => hn2 ⟨e3, e4⟩, ?_⟩, f.osome, hsrc'⟩)
            · dsimp only; rw [hpq]; exact f.oquiet
            · dsimp only; rw [hpq]; exact (f.onone e3).2
  · intro q hq k hk w t op v hkw h0
    dsimp only at hk
    rw [upd_at] at hk
    by_cases e1 : q = p ∧ k = x.pos q
    · obtain ⟨rfl, rfl⟩ := e1
      rw [ha] at hkw
      cases hkw
      obtain ⟨r, rfl, hpass⟩ := hd
      -- the word has changed, so somebody has written to it
      refine waited_mono hle ?_
      by_contra hno
      refine h0 ?_
      have hword : word (M q) w t = word (x.g.mem q) w t := by
        refine word_congr fun y h1 h2 => ?_
        have hD : D (q, y) := hm.inside q hf.1 _ hmem (q, y) (Or.inr ⟨rfl, h1, h2⟩)
        rcases h.byte (q, y) hD with ⟨_, _, h3⟩ | h3 | ⟨q', j, c, own, src, f⟩
        · exact h3.symm
        · by_cases hwr : ∃ q' < S.npes, ∃ (j : Nat) (c : Act), (acts q')[j]? = some c ∧ c.writes q' (q, y)
          · obtain ⟨q', hq', j, c, hc, hcw⟩ := hwr
            exact absurd ⟨q', hq', j, h3.past q' hq' j c hc hcw, c, y, hc, h1, h2, hcw⟩ hno
          · have h4 : x.g.mem q y = F q y := h3.val
            rw [h4]
            refine (hm.rest (q, y) hD fun q' hq' c hc hcw => hwr ?_).symm
            obtain ⟨j, hj⟩ := List.getElem?_of_mem hc
            exact ⟨q', hq', j, c, hj, hcw⟩
        · exact absurd ⟨q', f.hp, j, f.hj, c, y, f.ha, h1, h2, f.hw⟩ hno
      rw [hword]
      cases s with
      | poll p addr r n mode hf hm hr => exact hpass
    · refine waited_mono hle (h.waited q hq k ?_ w t op v hkw h0)
      split at hk
      · rename_i e2
        subst e2
        have : k ≠ x.pos q := fun e3 => e1 ⟨rfl, e3⟩
        omega
      · exact hk

/-- every execution of the program keeps the invariant -/
theorem inv_run (hm : Means S.npes D P M acts F) {l : List Ev} {x : X} (r : XRun S D P (start M) l x) : Inv S D M acts F x := by
  generalize hy : start M = y at r
  induction r with
  | nil =>
    subst hy
    refine ⟨gi_init S _, fun _ _ => Nat.zero_le _, ?_, fun p _ k hk => absurd hk (Nat.not_lt_zero k)⟩
    intro b _
    refine Or.inl ⟨?_, noWriter_init _ _, rfl⟩
    rintro ⟨p, _, j, a, hj, _⟩
    exact absurd hj (Nat.not_lt_zero j)
  | snoc r s ih =>
    have h := ih
    cases s with
    | act p a hn hd s => exact inv_act hm h hn hd s
    | other hw s => exact inv_other hm h hw s

end

end Verif.Sig
