import Verif.Bsp.Props
import Verif.Vis.Ex
/-!
# C104: a ring, and a concrete execution
-/
namespace Verif.Bsp
open Verif.Sobj Verif.Rma Verif.Vis

/-! ## A value goes round

`n` PEs with two bytes each, at the addresses `at_ p 0` and `at_ p 1` of their heaps; in phase `k` each puts the one into the other of the next
PE. -/

/-- what PE `p` does in phase `k`: `shmem_putmem(buf[(k + 1) % 2], buf[k % 2], 1, (p + 1) % n)` -/
def ringAct (n : Nat) (at_ : Nat → Nat → Int) (nbi : Bool) (k p : Nat) : Act :=
  .put ((p + 1) % n) nbi [(at_ ((p + 1) % n) ((k + 1) % 2), at_ p (k % 2))]

/-- the program -/
def ring (n : Nat) (at_ : Nat → Nat → Int) (nbi : Bool) : Prog where
  next p k i _ := if i = 0 then some (ringAct n at_ nbi k p) else none
  looks _ _ _ _ := False
  dep _ _ _ _ _ _ := rfl

/-- its meaning: after phase `k` byte `(k + 1) % 2` is byte `k % 2` of the PE before -/
def ringM (n : Nat) (at_ : Nat → Nat → Int) (m : Mems) : Nat → Mems
  | 0 => m
  | k + 1 => fun q a => if a = at_ q ((k + 1) % 2) then ringM n at_ m k ((q + (n - 1)) % n) (at_ ((q + (n - 1)) % n) (k % 2))
      else ringM n at_ m k q a

/-- the bytes -/
def ringD (n : Nat) (at_ : Nat → Nat → Int) (b : Nat × Int) : Prop := b.1 < n ∧ (b.2 = at_ b.1 0 ∨ b.2 = at_ b.1 1)

theorem ring_prev {n p : Nat} (hp : p < n) : ((p + 1) % n + (n - 1)) % n = p := by
  rcases Nat.lt_or_ge (p + 1) n with h | h
  · rw [Nat.mod_eq_of_lt h, show p + 1 + (n - 1) = p + n by omega, Nat.add_mod_right, Nat.mod_eq_of_lt hp]
  · obtain rfl : n = p + 1 := by omega
    rw [Nat.mod_self]
    simp

theorem ring_inj {n p q : Nat} (hp : p < n) (hq : q < n) (h : (p + 1) % n = (q + 1) % n) : p = q := by
  rw [← ring_prev hp, ← ring_prev hq, h]

/-- the ring has no races -/
theorem ring_means (n : Nat) (at_ : Nat → Nat → Int) (ha : ∀ p < n, at_ p 0 ≠ at_ p 1) (nbi : Bool) (m : Mems) :
    Means n (ringD n at_) (ring n at_ nbi) (ringM n at_ m) (fun k p => [ringAct n at_ nbi k p]) := by
  intro k
  have hne : ∀ p < n, at_ p ((k + 1) % 2) ≠ at_ p (k % 2) := by
    intro p hp
    have := ha p hp
    rcases Nat.mod_two_eq_zero_or_one k with e | e
    · rw [e, show (k + 1) % 2 = 1 by omega]; exact this.symm
    · rw [e, show (k + 1) % 2 = 0 by omega]; exact this
  have hin : ∀ p < n, ∀ j, ringD n at_ (p, at_ p (j % 2)) := by
    intro p hp j
    refine ⟨hp, ?_⟩
    rcases Nat.mod_two_eq_zero_or_one j with e | e
    · left; rw [e]
    · right; rw [e]
  have hpos : ∀ p < n, (p + 1) % n < n := fun p hp => Nat.mod_lt _ (by omega)
  have hw : ∀ p b, (ringAct n at_ nbi k p).writes p b ↔ b = ((p + 1) % n, at_ ((p + 1) % n) ((k + 1) % 2)) := by
    intro p b
    constructor
    · rintro ⟨h1, x, hx, h2⟩
      obtain rfl := List.mem_singleton.mp hx
      exact Prod.ext h1 h2.symm
    · rintro rfl
      exact ⟨rfl, _, List.mem_singleton.mpr rfl, rfl⟩
  have hr : ∀ p b, (ringAct n at_ nbi k p).reads p b ↔ b = (p, at_ p (k % 2)) := by
    intro p b
    constructor
    · rintro ⟨h1, x, hx, h2⟩
      obtain rfl := List.mem_singleton.mp hx
      exact Prod.ext h1 h2.symm
    · rintro rfl
      exact ⟨rfl, _, List.mem_singleton.mpr rfl, rfl⟩
  refine Phase.plain (fun p _ a ha' => by obtain rfl := List.mem_singleton.mp ha'; rfl) ?_ ?_ ?_ ?_ ?_ ?_ ?_ ?_
  · intro p _ i hi
    show (if i = 0 then _ else _) = _
    rcases i with _ | i
    · rfl
    · rw [if_neg (by omega)]; rfl
  · rintro p hp b ⟨a, ha', hb⟩
    obtain rfl := List.mem_singleton.mp ha'
    obtain rfl := (hw p b).mp hb
    show (if _ then _ else _) = _
    rw [if_pos rfl, ring_prev hp]
    show _ = (if (p + 1) % n = (p + 1) % n then _ else _)
    rw [if_pos rfl]
    unfold pick
    simp
  · intro b hD hno
    show (if _ then _ else _) = _
    rw [if_neg]
    intro e
    have hp : (b.1 + (n - 1)) % n < n := Nat.mod_lt _ (by have := hD.1; omega)
    refine hno _ hp _ (List.mem_singleton.mpr rfl) ((hw _ _).mpr ?_)
    have : ((b.1 + (n - 1)) % n + 1) % n = b.1 := by
      have h1 := hD.1
      rw [Nat.mod_add_mod, show b.1 + (n - 1) + 1 = b.1 + n by omega, Nat.add_mod_right, Nat.mod_eq_of_lt h1]
    rw [this]
    exact Prod.ext rfl e
  · intro p hp a ha' b hb
    obtain rfl := List.mem_singleton.mp ha'
    rcases hb with hb | hb
    · obtain rfl := (hw p b).mp hb
      exact hin _ (hpos p hp) _
    · obtain rfl := (hr p b).mp hb
      exact hin _ hp _
  · intro p _ i _ a hl
    exact absurd hl id
  · intro p hp q hq hpq a ha' b hb
    obtain rfl := List.mem_singleton.mp ha'
    obtain rfl := (hw p b).mp hb
    refine ⟨fun c hc => ?_, fun _ _ _ => id⟩
    obtain rfl := List.mem_singleton.mp hc
    refine ⟨fun h => ?_, fun h => ?_⟩
    · have := congrArg Prod.fst ((hw q _).mp h)
      exact hpq (ring_inj hp hq this)
    · have h := (hr q _).mp h
      have h1 : (p + 1) % n = q := congrArg Prod.fst h
      have h2 : at_ ((p + 1) % n) ((k + 1) % 2) = at_ q (k % 2) := congrArg Prod.snd h
      rw [h1] at h2
      exact hne q hq h2
  · intro p _ i j hij hj _ a ha'
    refine ⟨fun b _ _ => ⟨fun c hc => ?_, fun _ => id⟩, fun b _ _ c hc => ?_⟩
    all_goals
      rcases i with _ | i
      · rw [List.getElem?_eq_none (show 1 ≤ j from hij)] at hc
        cases hc
      · rw [List.getElem?_eq_none (by simp)] at ha'
        cases ha'
  · intro p hp a ha'
    obtain rfl := List.mem_singleton.mp ha'
    refine ⟨fun b hb hb' => ?_, fun x hx y hy _ => ?_⟩
    · have h := ((hw p b).mp hb).symm.trans ((hr p b).mp hb')
      have h1 : (p + 1) % n = p := congrArg Prod.fst h
      have h2 : at_ ((p + 1) % n) ((k + 1) % 2) = at_ p (k % 2) := congrArg Prod.snd h
      rw [h1] at h2
      exact hne p hp h2
    · rw [List.mem_singleton.mp hx, List.mem_singleton.mp hy]

theorem ring_value (n : Nat) (at_ : Nat → Nat → Int) (m : Mems) : ∀ k, ∀ p < n,
    ringM n at_ m k p (at_ p (k % 2)) = m ((p + (n - 1) * k) % n) (at_ ((p + (n - 1) * k) % n) 0) := by
  intro k
  induction k with
  | zero => intro p hp; show m p _ = _; rw [Nat.mul_zero, Nat.add_zero, Nat.mod_eq_of_lt hp]
  | succ k ih =>
    intro p hp
    show (if _ then _ else _) = _
    rw [if_pos rfl, ih _ (Nat.mod_lt _ (by omega)), Nat.mod_add_mod, Nat.mul_succ]
    rw [show p + (n - 1) + (n - 1) * k = p + ((n - 1) * k + (n - 1)) by omega]

/-- **C104, ring**: with any number of PEs, any configuration and any schedule, when a PE comes out of its `k`-th barrier its byte `k % 2` holds
what the PE `k` places before it held at the start in its first. (`(n - 1) * k ≡ -k` modulo `n`.) -/
theorem C104_ring_partial {S : Sys} {at_ : Nat → Nat → Int} (ha : ∀ p < S.npes, at_ p 0 ≠ at_ p 1) {nbi : Bool} {m : Mems} {l : List Ev} {x : X}
    (r : XRun S (ringD S.npes at_) (ring S.npes at_ nbi) (start m) l x) {p : Nat} (hf : Free S x.g p) :
    x.g.mem p (at_ p (x.g.arr p % 2)) =
      m ((p + (S.npes - 1) * x.g.arr p) % S.npes) (at_ ((p + (S.npes - 1) * x.g.arr p) % S.npes) 0) := by
  have hm := ring_means S.npes at_ ha nbi m
  rw [← ring_value S.npes at_ m (x.g.arr p) p hf.1]
  have hD : ringD S.npes at_ (p, at_ p (x.g.arr p % 2)) := by
    refine ⟨hf.1, ?_⟩
    rcases Nat.mod_two_eq_zero_or_one (x.g.arr p) with e | e
    · left; show at_ p _ = _; rw [e]
    · right; show at_ p _ = _; rw [e]
  refine C104_constant_partial (M := ringM S.npes at_ m) hm r hf hD ?_
  intro q hq a ha' hw
  obtain rfl := List.mem_singleton.mp ha'
  obtain ⟨h1, y, hy, h2⟩ := hw
  obtain rfl := List.mem_singleton.mp hy
  dsimp only at h1 h2
  rw [← h1] at h2
  have := ha p hf.1
  rcases Nat.mod_two_eq_zero_or_one (x.g.arr p) with e | e
  · rw [e, show (x.g.arr p + 1) % 2 = 1 by omega] at h2; exact this h2.symm
  · rw [e, show (x.g.arr p + 1) % 2 = 0 by omega] at h2; exact this h2

/-! ## A concrete execution

Two PEs as in `Vis/Ex.lean`: PE 0 puts a byte before the first barrier, and that is all. -/

/-- the program -/
def exP (nbi : Bool) : Prog where
  next p k i _ := if p = 0 ∧ k = 0 ∧ i = 0 then some (.put 1 nbi [(0x20018, 0x10020)]) else none
  looks _ _ _ _ := False
  dep _ _ _ _ _ _ := rfl

def exActs (nbi : Bool) (k p : Nat) : List Act := if p = 0 ∧ k = 0 then [.put 1 nbi [(0x20018, 0x10020)]] else []

def exMs (k : Nat) : Mems := fun p a => if p = 1 ∧ a = 0x20018 ∧ k ≠ 0 then 1 else exM p a

def exD (b : Nat × Int) : Prop := b = (1, 0x20018) ∨ b = (0, 0x10020)

theorem exMeans (nbi : Bool) : Means 2 exD (exP nbi) exMs (exActs nbi) := by
  intro k
  have hmem : ∀ p a, a ∈ exActs nbi k p → p = 0 ∧ k = 0 ∧ a = .put 1 nbi [(0x20018, 0x10020)] := by
    intro p a h
    unfold exActs at h
    split at h
    · rename_i e; exact ⟨e.1, e.2, List.mem_singleton.mp h⟩
    · cases h
  have hw : ∀ b, Act.writes 0 b (.put 1 nbi [(0x20018, 0x10020)]) → b = (1, 0x20018) := by
    rintro b ⟨h1, x, hx, h2⟩
    obtain rfl := List.mem_singleton.mp hx
    exact Prod.ext h1 h2.symm
  have hr : ∀ b, Act.reads 0 b (.put 1 nbi [(0x20018, 0x10020)]) → b = (0, 0x10020) := by
    rintro b ⟨h1, x, hx, h2⟩
    obtain rfl := List.mem_singleton.mp hx
    exact Prod.ext h1 h2.symm
  refine Phase.plain (fun p _ a ha' => by obtain ⟨rfl, rfl, rfl⟩ := hmem p a ha'; rfl) ?_ ?_ ?_ ?_ ?_ ?_ ?_ ?_
  · intro p _ i hi
    show (if _ then _ else _) = _
    unfold exActs at hi ⊢
    by_cases e : p = 0 ∧ k = 0
    · rw [if_pos e] at hi ⊢
      rcases i with _ | i
      · rw [if_pos ⟨e.1, e.2, rfl⟩]; rfl
      · rw [if_neg (by omega)]; rfl
    · rw [if_neg e, if_neg (fun h => e ⟨h.1, h.2.1⟩)]; rfl
  · rintro p _ b ⟨a, ha, hb⟩
    obtain ⟨rfl, rfl, rfl⟩ := hmem p a ha
    obtain rfl := hw b hb
    cases nbi <;> rfl
  · intro b hD hno
    unfold exMs
    by_cases e : b.1 = 1 ∧ b.2 = 0x20018
    · by_cases hk : k = 0
      · subst hk
        exact absurd ⟨e.1, _, List.mem_singleton.mpr rfl, e.2.symm⟩ (hno 0 (by decide) _ (List.mem_singleton.mpr rfl))
      · rw [if_pos ⟨e.1, e.2, by omega⟩, if_pos ⟨e.1, e.2, hk⟩]
    · rw [if_neg (fun h => e ⟨h.1, h.2.1⟩), if_neg (fun h => e ⟨h.1, h.2.1⟩)]
  · intro p _ a ha b hb
    obtain ⟨rfl, rfl, rfl⟩ := hmem p a ha
    rcases hb with hb | hb
    · exact Or.inl (hw b hb)
    · exact Or.inr (hr b hb)
  · intro p _ i _ a hl
    exact absurd hl id
  · intro p _ q _ hpq a ha b _
    obtain ⟨rfl, rfl, rfl⟩ := hmem p a ha
    refine ⟨fun c hc => ?_, fun _ _ _ => id⟩
    exact absurd (hmem q c hc).1.symm hpq
  · intro p _ i j hij hj _ a ha
    refine ⟨fun b _ _ => ⟨fun c hc => ?_, fun _ => id⟩, fun b _ _ c hc => ?_⟩
    all_goals
      obtain ⟨rfl, rfl, rfl⟩ := hmem p a (List.mem_of_getElem? ha)
      have hl : (exActs nbi 0 0).length = 1 := rfl
      rw [List.getElem?_eq_none (by omega)] at hc
      cases hc
  · intro p _ a ha
    obtain ⟨rfl, rfl, rfl⟩ := hmem p a ha
    refine ⟨fun b hb hb' => ?_, fun x hx y hy _ => ?_⟩
    · have h := (hw b hb).symm.trans (hr b hb')
      cases h
    · rw [List.mem_singleton.mp hx, List.mem_singleton.mp hy]

/-- the rest of the execution, in which no PE does an action -/
theorem ex_rest {S : Sys} (nbi : Bool) {x0 : X} {l0 : List Ev} : ∀ {l : List Ev} {x : X} {g : G}, XRun S exD (exP nbi) x0 l0 x →
    ¬ (x.g.arr 0 = 0 ∧ x.pos 0 = 0) → Run S x.g l g → (∀ e ∈ l, (∃ p, e = .enter p) ∨ ((∀ p, e ≠ .enter p) ∧ ∀ b, ¬ e.writes b)) →
    ∃ l' pos, XRun S exD (exP nbi) x0 l' ⟨g, pos⟩ ∧ ∀ p, x.pos p = 0 ∨ .enter p ∈ l → pos p = 0 := by
  intro l
  induction l generalizing l0 with
  | nil =>
    intro x g rx _ r _
    cases r
    exact ⟨l0, x.pos, rx, fun p h => h.elim id (fun h => by cases h)⟩
  | cons e t ih =>
    intro x g rx hq r hl
    cases r with
    | cons s r =>
      rename_i g1
      rcases hl e (List.mem_cons_self ..) with ⟨p, rfl⟩ | ⟨h1, h2⟩
      · have hf := enter_free s
        have hn : (exP nbi).next p (x.g.arr p) (x.pos p) (x.g.mem p) = none := by
          show (if _ then _ else _) = _
          rw [if_neg]
          rintro ⟨rfl, h1, h2⟩
          exact hq ⟨h1, h2⟩
        obtain ⟨l', pos, h3, h4⟩ := ih (x := ⟨g1, Function.update x.pos p 0⟩) (rx.snoc (.bar p hn s)) (by
          dsimp only
          rw [hf.2.1]
          rintro ⟨h1, h2⟩
          by_cases e0 : (0 : Nat) = p
          · subst e0; rw [Function.update_self] at h1; omega
          · rw [Function.update_of_ne e0] at h1 h2; exact hq ⟨h1, h2⟩) r (fun e he => hl e (List.mem_cons_of_mem _ he))
        refine ⟨l', pos, h3, fun q h => h4 q ?_⟩
        dsimp only
        by_cases e0 : q = p
        · subst e0; left; rw [Function.update_self]
        · rw [Function.update_of_ne e0]
          rcases h with h | h
          · exact Or.inl h
          · rcases List.mem_cons.mp h with h | h
            · cases h; exact absurd rfl e0
            · exact Or.inr h
      · obtain ⟨l', pos, h3, h4⟩ := ih (x := ⟨g1, x.pos⟩) (rx.snoc (.other h1 (fun b _ => h2 b) s)) (by
          dsimp only
          rw [arr_step s h1]
          exact hq) r (fun e he => hl e (List.mem_cons_of_mem _ he))
        refine ⟨l', pos, h3, fun q h => h4 q ?_⟩
        rcases h with h | h
        · exact Or.inl h
        · rcases List.mem_cons.mp h with h | h
          · exact absurd h.symm (h1 q)
          · exact Or.inr h

/-- an execution of the program in which the put is performed and PE 1 comes out of the barrier; the hypotheses of `C104_barrier_partial` are
met, and it says that the byte is there -/
example (nbi : Bool) : ∃ l x, XRun (exS true) exD (exP nbi) (start (exMs 0)) l x ∧ Free (exS true) x.g 1 ∧ x.g.arr 1 = 1 ∧ x.pos 1 = 0 ∧
    x.g.mem 1 0x20018 = 1 := by
  have hM0 : exMs 0 = exM := by
    funext p a
    unfold exMs
    rw [if_neg (fun h => h.2.2 rfl)]
  obtain ⟨g1, h1, a1, a2, a3, a4, a5, a6, a7⟩ := exPut true nbi
  obtain ⟨m', hper⟩ : ∃ m', (if nbi then Atom.mv 0 0x10020 1 0x20018 else .set 1 0x20018 1).perform (exS true).fp (exS true).junk
      g1.mem = .ok m' := by cases nbi <;> exact ⟨_, rfl⟩
  obtain ⟨g, h2, hlv⟩ := exBarrier a1 hper a2 a3 a5 a6 a7
  have r0 : XRun (exS true) exD (exP nbi) (start exM) ([] ++ [Ev.put 0 1 nbi none 0x10018#64 [(0x20018, 0x10020)] 0])
      ⟨g1, Function.update (fun _ => 0) 0 (0 + 1)⟩ :=
    (XRun.nil _).snoc (.act 0 (.put 1 nbi [(0x20018, 0x10020)]) rfl
      ⟨none, 0x10018#64, 0, rfl, Or.inr ⟨rfl, Or.inr (Or.inl (by decide +kernel))⟩⟩ h1)
  obtain ⟨l', pos, hx, hpos⟩ := ex_rest nbi r0 (fun h => by cases h.2) h2 (by
    intro e he
    simp only [List.mem_cons, List.not_mem_nil, or_false] at he
    rcases he with rfl | rfl | rfl | rfl
    · exact Or.inr ⟨(fun p h => by cases h), fun b h => h⟩
    · exact Or.inl ⟨_, rfl⟩
    · exact Or.inl ⟨_, rfl⟩
    · exact Or.inr ⟨(fun p h => by cases h), fun b h => h⟩)
  have hp1 : pos 1 = 0 := hpos 1 (Or.inl rfl)
  have hrun : XRun (exS true) exD (exP nbi) (start (exMs 0)) l' ⟨g, pos⟩ := by rw [hM0]; exact hx
  have hg : g.arr 1 = 1 ∧ g.busy 1 = [] := by
    cases h2 with
    | cons s1 r =>
    cases r with
    | cons s2 r =>
    cases r with
    | cons s3 r =>
    cases r with
    | cons s4 r =>
    cases r
    have e1 := arr_step s1 (fun p h => by cases h)
    obtain ⟨_, e2, _, _⟩ := enter_free s2
    obtain ⟨_, e3, b3, _⟩ := enter_free s3
    have e4 := arr_step s4 (fun p h => by cases h)
    refine ⟨?_, ?_⟩
    · rw [e4, e3, Function.update_self, e2, Function.update_of_ne (by decide), e1, (a5 1).1]
    · cases s4
      exact b3
  have hfree : Free (exS true) g 1 := ⟨by decide, by rw [hg.1, hlv], hg.2⟩
  refine ⟨l', ⟨g, pos⟩, hrun, hfree, hg.1, hp1, ?_⟩
  have := C104_barrier_partial (exMeans nbi) hrun (p := 1) hfree hp1 (b := (1, 0x20018)) (Or.inl rfl) (by
    intro q _ _ a ha
    dsimp only at ha
    rw [hg.1] at ha
    unfold exActs at ha
    rw [if_neg (by omega)] at ha
    cases ha)
  dsimp only at this ⊢
  rw [this, hg.1]
  rfl

end Verif.Bsp
