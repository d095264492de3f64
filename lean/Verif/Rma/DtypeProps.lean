import Verif.Rma.Dtype
/-!
# C20: the strided datatype cache is transparent
-/
namespace Verif.Rma

/-- what the caller should get: the element type itself for stride 1, otherwise one item of a new datatype -/
def Fresh (sz : Nat → Nat) (k : Key) (cnt : Nat) (ty : Ty) : Prop :=
  if k.stride = 1 then cnt = k.nelems ∧ ty = Ty.basic (sz k.base) else cnt = 1 ∧ newType sz k = some ty

/-- handle `h` belongs exclusively to thread `t` -/
def Owns (s : DSt) (t h : Nat) : Prop :=
  (∃ k, s.pc t = .enter k h) ∨ ∃ k c, s.pc t = .use k c (.derived h)

structure DInv (cacheOn : Bool) (sz : Nat → Nat) (s : DSt) : Prop where
  cached : ∀ e ∈ s.cache, e.key.stride ≠ 1 ∧ ∃ ty, s.live e.h = some ty ∧ newType sz e.key = some ty
  nocache : cacheOn = false → s.cache = []
  inflight : ∀ t k h, s.pc t = .enter k h → k.stride ≠ 1 ∧ ∃ ty, s.live h = some ty ∧ newType sz k = some ty
  finding : ∀ t k, s.pc t = .find k → k.stride ≠ 1
  creating : ∀ t k, s.pc t = .create k → k.stride ≠ 1
  using_ : ∀ t k c dt, s.pc t = .use k c dt → ∃ ty, layoutOf sz s dt = some ty ∧ Fresh sz k c ty
  excl : cacheOn = false → ∀ t u h, Owns s t h → Owns s u h → t = u

theorem fresh_one {sz : Nat → Nat} {k : Key} {ty : Ty} (h1 : k.stride ≠ 1) (h : newType sz k = some ty) :
    Fresh sz k 1 ty := by
  unfold Fresh; rw [if_neg h1]; exact ⟨rfl, h⟩

theorem update_cases {pc : Nat → Pc} {t u : Nat} {p q : Pc} (h : Function.update pc t p u = q) :
    (u = t ∧ p = q) ∨ (u ≠ t ∧ pc u = q) := by
  by_cases e : u = t
  · subst e; rw [Function.update_self] at h; exact Or.inl ⟨rfl, h⟩
  · rw [Function.update_of_ne e] at h; exact Or.inr ⟨e, h⟩

/-- a step that only moves thread `t` to a program counter that owns no new handle keeps exclusiveness -/
theorem owns_mono {s : DSt} {t u h : Nat} {p : Pc} {l : Nat → Option Ty} {c : List Entry}
    (ho : Owns ⟨l, c, Function.update s.pc t p⟩ u h)
    (hp : ∀ h, ((∃ k, p = .enter k h) ∨ ∃ k c, p = .use k c (.derived h)) → Owns s t h) : Owns s u h := by
  rcases ho with ⟨k, ho⟩ | ⟨k, c', ho⟩
  · rcases update_cases ho with ⟨rfl, e⟩ | ⟨_, e⟩
    · exact hp h (Or.inl ⟨k, e⟩)
    · exact Or.inl ⟨k, e⟩
  · rcases update_cases ho with ⟨rfl, e⟩ | ⟨_, e⟩
    · exact hp h (Or.inr ⟨k, c', e⟩)
    · exact Or.inr ⟨k, c', e⟩

theorem dinv_init (cacheOn : Bool) (sz : Nat → Nat) : DInv cacheOn sz DSt.init := by
  refine ⟨?_, fun _ => rfl, ?_, ?_, ?_, ?_, ?_⟩
  · intro e h; cases h
  · intro t k h e; cases e
  · intro t k e; cases e
  · intro t k e; cases e
  · intro t k c dt e; cases e
  · intro _ t u h ho _
    rcases ho with ⟨k, e⟩ | ⟨k, c, e⟩ <;> cases e

theorem live_update_ne {l : Nat → Option Ty} {hd h : Nat} {o : Option Ty} (hne : h ≠ hd) :
    Function.update l hd o h = l h := Function.update_of_ne hne o l

theorem dinv_step {cacheOn : Bool} {sz : Nat → Nat} {s s' : DSt} (hi : DInv cacheOn sz s)
    (hs : DStep cacheOn sz s s') : DInv cacheOn sz s' := by
  obtain ⟨h1, h2, h3, h4, h5, h6, h7⟩ := hi
  -- program counter moves only, memory and cache unchanged
  have pcOnly : ∀ (t : Nat) (p : Pc),
      (∀ k h, p = .enter k h → False) → (∀ k, p = .find k → k.stride ≠ 1) → (∀ k, p = .create k → k.stride ≠ 1) →
      (∀ k c dt, p = .use k c dt → ∃ ty, layoutOf sz s dt = some ty ∧ Fresh sz k c ty) →
      (cacheOn = false → ∀ k c h, p = .use k c (.derived h) → Owns s t h) →
      DInv cacheOn sz { s with pc := Function.update s.pc t p } := by
    intro t p g3 g4 g5 g6 g7
    refine ⟨h1, h2, ?_, ?_, ?_, ?_, ?_⟩
    · intro u k h e
      rcases update_cases e with ⟨_, e⟩ | ⟨_, e⟩
      · exact absurd e (g3 k h)
      · exact h3 u k h e
    · intro u k e
      rcases update_cases e with ⟨_, e⟩ | ⟨_, e⟩
      · exact g4 k e
      · exact h4 u k e
    · intro u k e
      rcases update_cases e with ⟨_, e⟩ | ⟨_, e⟩
      · exact g5 k e
      · exact h5 u k e
    · intro u k c dt e
      rcases update_cases e with ⟨_, e⟩ | ⟨_, e⟩
      · exact g6 k c dt e
      · exact h6 u k c dt e
    · intro hc u v h ho ho'
      have m : ∀ w, Owns { s with pc := Function.update s.pc t p } w h → Owns s w h := by
        intro w hw
        exact owns_mono hw (fun h' hh => by
          rcases hh with ⟨k, e⟩ | ⟨k, c, e⟩
          · exact absurd e (g3 k h')
          · exact g7 hc k c h' e)
      exact h7 hc u v h (m u ho) (m v ho')
  cases hs with
  | contig t k h hk =>
    apply pcOnly
    · intro k h e; cases e
    · intro k e; cases e
    · intro k e; cases e
    · intro k' c dt e
      cases e
      refine ⟨_, rfl, ?_⟩
      unfold Fresh; rw [if_pos hk]; exact ⟨rfl, rfl⟩
    · intro _ k c h e; cases e
  | call t k h hk =>
    apply pcOnly
    · intro k h e; cases e
    · intro k' e; cases e; exact hk
    · intro k e; cases e
    · intro k c dt e; cases e
    · intro _ k c h e; cases e
  | hit t k hd h hf =>
    have hm : cacheOn = true ∧ ∃ e ∈ s.cache, e.key = k ∧ e.h = hd := by
      unfold findCache at hf
      split at hf
      · rename_i hc
        refine ⟨hc, ?_⟩
        rw [Option.map_eq_some_iff] at hf
        obtain ⟨e, he, rfl⟩ := hf
        have h1 := List.mem_of_find?_eq_some he
        have h2 := List.find?_some he
        exact ⟨e, h1, by simpa using h2, rfl⟩
      · cases hf
    obtain ⟨hc, e, he, rfl, rfl⟩ := hm
    obtain ⟨hst, ty, hl, hn⟩ := h1 e he
    apply pcOnly
    · intro k h e; cases e
    · intro k e; cases e
    · intro k e; cases e
    · intro k' c dt e'
      cases e'
      exact ⟨ty, hl, fresh_one hst hn⟩
    · intro hc'; rw [hc] at hc'; cases hc'
  | miss t k h hf =>
    apply pcOnly
    · intro k h e; cases e
    · intro k e; cases e
    · intro k' e; cases e; exact h4 t k h
    · intro k c dt e; cases e
    · intro _ k c h e; cases e
  | fail t k h hf =>
    apply pcOnly
    · intro k h e; cases e
    · intro k e; cases e
    · intro k e; cases e
    · intro k c dt e; cases e
    · intro _ k c h e; cases e
  | make t k hd ty h hn hl =>
    have keep : ∀ h' ty', s.live h' = some ty' → Function.update s.live hd (some ty) h' = some ty' := by
      intro h' ty' e
      have : h' ≠ hd := by rintro rfl; rw [hl] at e; cases e
      rw [live_update_ne this]; exact e
    refine ⟨?_, h2, ?_, ?_, ?_, ?_, ?_⟩
    · intro e he
      obtain ⟨a, ty', b, c⟩ := h1 e he
      exact ⟨a, ty', keep _ _ b, c⟩
    · intro u k' h' e
      rcases update_cases e with ⟨_, e⟩ | ⟨_, e⟩
      · cases e
        exact ⟨h5 t k h, ty, Function.update_self _ _ _, hn⟩
      · obtain ⟨a, ty', b, c⟩ := h3 u k' h' e
        exact ⟨a, ty', keep _ _ b, c⟩
    · intro u k' e
      rcases update_cases e with ⟨_, e⟩ | ⟨_, e⟩
      · cases e
      · exact h4 u k' e
    · intro u k' e
      rcases update_cases e with ⟨_, e⟩ | ⟨_, e⟩
      · cases e
      · exact h5 u k' e
    · intro u k' c dt e
      rcases update_cases e with ⟨_, e⟩ | ⟨_, e⟩
      · cases e
      · obtain ⟨ty', a, b⟩ := h6 u k' c dt e
        refine ⟨ty', ?_, b⟩
        cases dt with
        | base id => exact a
        | derived h' => exact keep _ _ a
    · intro hc
      -- nobody owned `hd` before: it was not live
      have none : ∀ w, ¬ Owns s w hd := by
        rintro w (⟨k', e⟩ | ⟨k', c, e⟩)
        · obtain ⟨_, ty', b, _⟩ := h3 w k' hd e
          rw [hl] at b; cases b
        · obtain ⟨ty', a, _⟩ := h6 w k' c _ e
          have a : s.live hd = some ty' := a
          rw [hl] at a; cases a
      have cases_ : ∀ w h', Owns ⟨Function.update s.live hd (some ty), s.cache,
          Function.update s.pc t (Pc.enter k hd)⟩ w h' → (w = t ∧ h' = hd) ∨ (w ≠ t ∧ Owns s w h') := by
        rintro w h' (⟨k', e⟩ | ⟨k', c, e⟩)
        · rcases update_cases e with ⟨e1, e⟩ | ⟨e1, e⟩
          · cases e; exact Or.inl ⟨e1, rfl⟩
          · exact Or.inr ⟨e1, Or.inl ⟨k', e⟩⟩
        · rcases update_cases e with ⟨e1, e⟩ | ⟨e1, e⟩
          · cases e
          · exact Or.inr ⟨e1, Or.inr ⟨k', c, e⟩⟩
      intro u v h' ho ho'
      rcases cases_ u h' ho with ⟨a, b⟩ | ⟨_, b⟩ <;> rcases cases_ v h' ho' with ⟨a', b'⟩ | ⟨_, b'⟩
      · rw [a, a']
      · rw [b] at b'; exact absurd b' (none v)
      · rw [b'] at b; exact absurd b (none u)
      · exact h7 hc u v h' b b'
  | enter t k hd h =>
    obtain ⟨hst, ty, hl, hn⟩ := h3 t k hd h
    refine ⟨?_, ?_, ?_, ?_, ?_, ?_, ?_⟩
    · intro e he
      cases cacheOn with
      | false => exact h1 e he
      | true =>
        simp only [if_true, List.mem_cons] at he
        rcases he with rfl | he
        · exact ⟨hst, ty, hl, hn⟩
        · exact h1 e he
    · intro hc
      subst hc
      exact h2 rfl
    · intro u k' h' e
      rcases update_cases e with ⟨_, e⟩ | ⟨_, e⟩
      · cases e
      · exact h3 u k' h' e
    · intro u k' e
      rcases update_cases e with ⟨_, e⟩ | ⟨_, e⟩
      · cases e
      · exact h4 u k' e
    · intro u k' e
      rcases update_cases e with ⟨_, e⟩ | ⟨_, e⟩
      · cases e
      · exact h5 u k' e
    · intro u k' c dt e
      rcases update_cases e with ⟨_, e⟩ | ⟨_, e⟩
      · cases e
        exact ⟨ty, hl, fresh_one hst hn⟩
      · exact h6 u k' c dt e
    · intro hc u v h' ho ho'
      have m : ∀ w, Owns ⟨s.live, if cacheOn = true then ⟨k, hd⟩ :: s.cache else s.cache,
          Function.update s.pc t (Pc.use k 1 (DT.derived hd))⟩ w h' → Owns s w h' := by
        intro w hw
        exact owns_mono hw (fun h'' hh => by
          rcases hh with ⟨k', e⟩ | ⟨k', c, e⟩
          · cases e
          · cases e; exact Or.inl ⟨k, h⟩)
      exact h7 hc u v h' (m u ho) (m v ho')
  | done t k cnt dt h =>
    by_cases hcase : ∃ hd, cacheOn = false ∧ dt = .derived hd
    · obtain ⟨hd, hc, rfl⟩ := hcase
      subst hc
      have own : Owns s t hd := Or.inr ⟨k, cnt, h⟩
      have keep : ∀ w h', w ≠ t → Owns s w h' → h' ≠ hd := by
        rintro w h' hw ho rfl
        exact hw (h7 rfl w t h' ho own)
      show DInv false sz ⟨Function.update s.live hd none, s.cache, Function.update s.pc t .idle⟩
      refine ⟨?_, h2, ?_, ?_, ?_, ?_, ?_⟩
      · intro e he
        rw [h2 rfl] at he; cases he
      · intro u k' h' e
        rcases update_cases e with ⟨_, e⟩ | ⟨hu, e⟩
        · cases e
        · obtain ⟨a, ty', b, c⟩ := h3 u k' h' e
          have : h' ≠ hd := keep u h' hu (Or.inl ⟨k', e⟩)
          exact ⟨a, ty', (live_update_ne this).trans b, c⟩
      · intro u k' e
        rcases update_cases e with ⟨_, e⟩ | ⟨_, e⟩
        · cases e
        · exact h4 u k' e
      · intro u k' e
        rcases update_cases e with ⟨_, e⟩ | ⟨_, e⟩
        · cases e
        · exact h5 u k' e
      · intro u k' c dt' e
        rcases update_cases e with ⟨_, e⟩ | ⟨hu, e⟩
        · cases e
        · obtain ⟨ty', a, b⟩ := h6 u k' c dt' e
          refine ⟨ty', ?_, b⟩
          cases dt' with
          | base id => exact a
          | derived h' =>
            have : h' ≠ hd := keep u h' hu (Or.inr ⟨k', c, e⟩)
            show Function.update s.live hd none h' = some ty'
            rw [live_update_ne this]; exact a
      · intro hc u v h' ho ho'
        have m : ∀ w, Owns ⟨Function.update s.live hd none, s.cache, Function.update s.pc t .idle⟩ w h' → Owns s w h' := by
          intro w hw
          exact owns_mono hw (fun h'' hh => by
            rcases hh with ⟨k', e⟩ | ⟨k', c, e⟩ <;> cases e)
        exact h7 hc u v h' (m u ho) (m v ho')
    · have e : freeType cacheOn dt s.live = s.live := by
        cases cacheOn with
        | true => cases dt <;> rfl
        | false =>
          cases dt with
          | base id => rfl
          | derived hd => exact absurd ⟨hd, rfl, rfl⟩ hcase
      rw [e]
      apply pcOnly
      · intro k h e; cases e
      · intro k e; cases e
      · intro k e; cases e
      · intro k c dt e; cases e
      · intro _ k c h e; cases e

theorem dinv_reach {cacheOn : Bool} {sz : Nat → Nat} {s : DSt} (h : DReach cacheOn sz s) : DInv cacheOn sz s := by
  induction h with
  | init => exact dinv_init _ _
  | step _ hs ih => exact dinv_step ih hs

/-- C20. With or without the cache, in every execution of any number of threads over any history of strided calls:
whenever a call has returned (count, datatype) for its arguments and the caller is still using them, the handle denotes a
live datatype whose layout is exactly that of a datatype created afresh for these arguments (and the count goes with it). -/
theorem C20_transparent {cacheOn : Bool} {sz : Nat → Nat} {s : DSt} (hr : DReach cacheOn sz s) {t : Nat} {k : Key}
    {cnt : Nat} {dt : DT} (h : s.pc t = .use k cnt dt) : ∃ ty, layoutOf sz s dt = some ty ∧ Fresh sz k cnt ty :=
  (dinv_reach hr).using_ t k cnt dt h

/-- C20, as used for transfers: what a call obtains is determined by its arguments, whatever happened before. -/
theorem C20_obtained_unique {c c' : Bool} {sz : Nat → Nat} {k : Key} {cnt cnt' : Nat} {ty ty' : Ty}
    (h : Obtained c sz k cnt ty) (h' : Obtained c' sz k cnt' ty') : cnt = cnt' ∧ ty = ty' := by
  obtain ⟨s, t, dt, hr, hp, hl⟩ := h
  obtain ⟨s', t', dt', hr', hp', hl'⟩ := h'
  obtain ⟨y, a, b⟩ := C20_transparent hr hp
  obtain ⟨y', a', b'⟩ := C20_transparent hr' hp'
  rw [hl] at a; cases a
  rw [hl'] at a'; cases a'
  unfold Fresh at b b'
  split at b
  · rename_i h1; rw [if_pos h1] at b'
    exact ⟨b.1.trans b'.1.symm, b.2.trans b'.2.symm⟩
  · rename_i h1; rw [if_neg h1] at b'
    refine ⟨b.1.trans b'.1.symm, ?_⟩
    have := b.2.symm.trans b'.2
    exact Option.some.inj this

/-- No double entry is needed for correctness, and none is harmful: two threads that miss at the same time both create and
enter a datatype; both get the right layout. The state below is reachable. -/
example : ∃ s, DReach true (fun _ => 4) s ∧ s.cache.length = 2 ∧ s.pc 0 = .use ⟨3, 2, 0, 0⟩ 1 (.derived 10) ∧
    s.pc 1 = .use ⟨3, 2, 0, 0⟩ 1 (.derived 11) := by
  refine ⟨_, DReach.step (DReach.step (DReach.step (DReach.step (DReach.step (DReach.step (DReach.step (DReach.step
    DReach.init (DStep.call _ 0 ⟨3, 2, 0, 0⟩ rfl (by decide))) (DStep.call _ 1 ⟨3, 2, 0, 0⟩ rfl (by decide)))
    (DStep.miss _ 0 ⟨3, 2, 0, 0⟩ rfl rfl)) (DStep.miss _ 1 ⟨3, 2, 0, 0⟩ rfl rfl))
    (DStep.make _ 0 ⟨3, 2, 0, 0⟩ 10 (Ty.vector 3 2 (Ty.basic 4)) rfl (by decide) rfl))
    (DStep.make _ 1 ⟨3, 2, 0, 0⟩ 11 (Ty.vector 3 2 (Ty.basic 4)) rfl (by decide) (by decide)))
    (DStep.enter _ 0 ⟨3, 2, 0, 0⟩ 10 (by decide))) (DStep.enter _ 1 ⟨3, 2, 0, 0⟩ 11 (by decide)), by decide, by decide, by decide⟩

/-- a datatype can be obtained for every key whose count is a non-negative `int` -/
theorem obtained_exists (cacheOn : Bool) (sz : Nat → Nat) (k : Key) (hn : k.nelems < 2 ^ 31) :
    ∃ cnt ty, Obtained cacheOn sz k cnt ty := by
  by_cases h1 : k.stride = 1
  · exact ⟨k.nelems, Ty.basic (sz k.base), _, 0, .base k.base,
      DReach.step DReach.init (DStep.contig _ 0 k rfl h1), by simp, rfl⟩
  · have : ∃ ty, newType sz k = some ty := by
      unfold newType
      rw [if_neg (by rw [toI32_small (by unfold IntMax; omega)]; omega)]
      exact ⟨_, rfl⟩
    obtain ⟨ty, hty⟩ := this
    have s1 := DReach.step (cacheOn := cacheOn) (sz := sz) DReach.init (DStep.call _ 0 k rfl h1)
    have s2 := DReach.step s1 (DStep.miss _ 0 k (by simp) (by
      unfold findCache; cases cacheOn <;> rfl))
    have s3 := DReach.step s2 (DStep.make _ 0 k 0 ty (by simp) hty rfl)
    have s4 := DReach.step s3 (DStep.enter _ 0 k 0 (by simp))
    exact ⟨1, ty, _, 0, .derived 0, s4, by simp, by simp [layoutOf]⟩

end Verif.Rma
