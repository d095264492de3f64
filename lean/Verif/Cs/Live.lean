import Verif.Cs.Inv
/-!
# Critical sections: every mutex is released without help from outside
-/
namespace Verif.Cs

/-- invariant with nesting order, and with the progress thread nobody else handles messages -/
structure Inv2 (P : Par) (g : St) : Prop extends Inv P g where
  ord : ∀ t, (g.held t).Pairwise (fun a b => rank b < rank a)
  nocb : P.async = true → ∀ t, .cb ∉ g.held t ∧ .enter .cb ∉ g.code t

theorem cont_nocb {P : Par} {g : St} {a : Act} {c : List Act} (hc : c ∈ cont P g a) (hp : P.async = true) :
    .enter .cb ∉ c := by
  intro hx
  rcases a with l | l | o | ⟨s, f⟩ | ⟨s, v⟩ | ⟨s, i⟩ | s | s | s | s | w | ⟨w, cur⟩ | _ | _
  case walk =>
    rcases cur with _ | s
    · simp only [cont, List.mem_singleton] at hc
      subst hc; simp at hx
    · rcases w with _ | y | y | _
      · simp only [cont, List.mem_singleton] at hc
        subst hc
        split at hx <;> simp at hx
      · simp only [cont] at hc
        split at hc <;> simp only [List.mem_singleton] at hc <;> subst hc <;> simp at hx
      · simp only [cont] at hc
        split at hc <;> simp only [List.mem_singleton] at hc <;> subst hc <;> simp at hx
      · simp only [cont, List.mem_cons, List.not_mem_nil, or_false] at hc
        rcases hc with hc | hc <;> subst hc <;> simp at hx
  case first =>
    simp only [cont, List.mem_singleton] at hc
    subst hc; simp at hx
  case poll =>
    simp only [cont, List.mem_cons, List.not_mem_nil, or_false] at hc
    rcases hc with rfl | rfl | rfl | rfl | rfl | rfl | rfl <;> simp [handler] at hx
  case wait =>
    simp only [cont, List.mem_cons, List.not_mem_nil, or_false] at hc
    rcases hc with rfl | rfl <;> simp [progress, hp] at hx
  all_goals
    simp only [cont, List.mem_singleton] at hc
    subst hc
    simp at hx

theorem body_nocb {P : Par} (hp : P.async = true) (c : Call) : .enter .cb ∉ body P c := by
  intro h
  cases c with
  | op x => cases x <;> simp only [body, query, useSpace] at h <;> (try split at h) <;> simp_all
  | strided x hit =>
    cases x <;> cases hit <;> simp only [body, query, useSpace] at h <;> (try split at h) <;> simp_all
  | aset hit => cases hit <;> simp [body] at h
  | test => simp [body, progress, hp] at h
  | create x => simp only [body] at h; split at h <;> simp_all
  | attach x => simp only [body] at h; split at h <;> split at h <;> simp_all
  | detach x => simp only [body] at h; split at h <;> simp_all
  | _ => simp [body] at h

theorem inv2_init (P : Par) : Inv2 P init := ⟨inv_init P, by simp [init], by simp [init]⟩

theorem inv2_exec {P : Par} {g g' : St} (h : Inv2 P g) {t : Nat} {a : Act} (he : Exec P g t a g') : Inv2 P g' := by
  refine ⟨inv_exec h.toInv he, ?_, ?_⟩
  · obtain ⟨k, c, hk, hrd, hc, rfl⟩ := he
    intro t'
    have hW := h.wf t
    rw [hk] at hW
    cases a with
    | enter l =>
      by_cases e : t' = t
      · subst e
        simp only [eff, Function.update_self]
        exact List.pairwise_cons.2 ⟨hW.1, h.ord t'⟩
      · simpa [eff, e] using h.ord t'
    | exit l =>
      by_cases e : t' = t
      · subst e
        simp only [eff, Function.update_self]
        exact (h.ord t').sublist List.erase_sublist
      · simpa [eff, e] using h.ord t'
    | _ => exact h.ord t'
  · intro hp t'
    obtain ⟨k, c, hk, hrd, hc, rfl⟩ := he
    have hn := h.nocb hp
    refine ⟨?_, ?_⟩
    · cases a with
      | enter l =>
        by_cases e : t' = t
        · subst e
          simp only [eff, Function.update_self, List.mem_cons, not_or]
          refine ⟨?_, (hn t').1⟩
          rintro rfl
          exact (hn t').2 (by rw [hk]; simp)
        · simpa [eff, e] using (hn t').1
      | exit l =>
        by_cases e : t' = t
        · subst e
          simp only [eff, Function.update_self]
          exact fun hm => (hn t').1 (List.mem_of_mem_erase hm)
        · simpa [eff, e] using (hn t').1
      | _ => exact (hn t').1
    · show Act.enter .cb ∉ Function.update g.code t (c ++ k) t'
      by_cases e : t' = t
      · subst e
        rw [Function.update_self]
        intro hm
        rcases List.mem_append.1 hm with hm | hm
        · exact cont_nocb hc hp hm
        · exact (hn t').2 (by rw [hk]; simp [hm])
      · rw [Function.update_of_ne e]; exact (hn t').2

theorem inv2_step {P : Par} {R : St → Nat → Call → Prop} {g g' : St} (h : Inv2 P g) (hs : Step P R g g') : Inv2 P g' := by
  cases hs with
  | call t c h1 h2 h3 =>
    refine ⟨inv_call h.toInv h1 h2, h.ord, fun hp t' => ⟨(h.nocb hp t').1, ?_⟩⟩
    show Act.enter .cb ∉ Function.update g.code t (body P c) t'
    by_cases e : t' = t
    · subst e; rw [Function.update_self]; exact body_nocb hp c
    · rw [Function.update_of_ne e]; exact (h.nocb hp t').2
  | exec t a g' he => exact inv2_exec h he
  | ret t h1 h2 => exact ⟨inv_ret h.toInv h1, h.ord, h.nocb⟩

theorem inv2_reach {P : Par} {R : St → Nat → Call → Prop} {g : St} (h : Reach P R g) : Inv2 P g := by
  induction h with
  | init => exact inv2_init P
  | step g g' _ hs ih => exact inv2_step ih hs

theorem Inner.trans {P : Par} {g g' g'' : St} (h : Inner P g g') (h' : Inner P g' g'') : Inner P g g'' := by
  induction h with
  | refl => exact h'
  | step g g1 g2 t a ha he _ ih => exact .step g g1 _ t a ha he (ih h')

theorem Inner.one {P : Par} {g g' : St} {t : Nat} {a : Act} (ha : a ≠ .wait) (he : Exec P g t a g') : Inner P g g' :=
  .step g g' g' t a ha he (.refl g')

/-- `g'` arises from `g` by releasing sections: `u` has executed part of its code, no mutex was added, threads that
are about to lock have not moved, the list is the same unless `u` changed it -/
structure Moved (P : Par) (g g' : St) (u : Nat) : Prop where
  run : Inner P g g'
  inv : Inv2 P g'
  held : ∀ t l, l ∈ g'.held t → l ∈ g.held t
  wait : ∀ t, t ≠ u → (∃ l k, g.code t = .enter l :: k) → g'.code t = g.code t ∧ g'.held t = g.held t

theorem Moved.refl {P : Par} {g : St} (h : Inv2 P g) (u : Nat) : Moved P g g u :=
  ⟨.refl g, h, fun _ _ h => h, fun _ _ _ => ⟨rfl, rfl⟩⟩

theorem Moved.trans {P : Par} {g g' g'' : St} {u : Nat} (h : Moved P g g' u) (h' : Moved P g' g'' u) : Moved P g g'' u :=
  ⟨h.run.trans h'.run, h'.inv, fun t l hl => h.held t l (h'.held t l hl), fun t ht he => by
    have e := h.wait t ht he
    have e' := h'.wait t ht (by rw [e.1]; exact he)
    exact ⟨e'.1.trans e.1, e'.2.trans e.2⟩⟩

/-- an access without effect on mutexes or list -/
def Quiet : Act → Prop
  | .touch _ => True
  | .init _ _ => True
  | .setctx _ _ => True
  | .flushCtx _ _ => True
  | .drop _ => True
  | .free _ => True
  | .enter _ => False
  | .exit _ => False
  | .append _ => False
  | .remove _ => False
  | .first _ => False
  | .walk _ _ => False
  | .poll => False
  | .wait => False

/-- a thread executes quiet accesses -/
theorem run_quiet {P : Par} {u : Nat} {x k : List Act} : ∀ {g : St}, Inv2 P g → g.code u = x ++ k → (∀ a ∈ x, Quiet a) →
    ∃ g', Inner P g g' ∧ Inv2 P g' ∧ g'.code = Function.update g.code u k ∧ g'.held = g.held ∧ g'.list = g.list := by
  induction x with
  | nil =>
    intro g h hk _
    exact ⟨g, .refl g, h, by rw [← List.nil_append k, ← hk, Function.update_eq_self], rfl, rfl⟩
  | cons a x ih =>
    intro g h hk hx
    have ha := hx a (by simp)
    have he : Exec P g u a { eff g u a with code := Function.update g.code u ([] ++ (x ++ k)) } := by
      refine ⟨x ++ k, [], hk, ?_, ?_, rfl⟩
      · cases a <;> trivial
      · cases a <;> first | (simp [cont]; done) | exact ha.elim
    have hw : a ≠ .wait := by rintro rfl; exact ha
    have h1 := inv2_exec h he
    obtain ⟨g', r, i, c, hh, hl⟩ := ih h1 (by simp) (fun a h => hx a (by simp [h]))
    refine ⟨g', (Inner.one hw he).trans r, i, ?_, ?_, ?_⟩
    · rw [c]; simp
    · rw [hh]; cases a <;> first | rfl | exact ha.elim
    · rw [hl]; cases a <;> first | rfl | exact ha.elim

/-- the holder of an innermost mutex releases it by itself -/
theorem leaf {P : Par} {u : Nat} {l : Lk} (hr : rank l = 2) : ∀ (K : List Act) {g : St}, Inv2 P g → g.code u = K →
    l ∈ g.held u → ∃ g' H' k', Inner P g g' ∧ Inv2 P g' ∧ g.held u = l :: H' ∧ k'.length < K.length ∧
      g'.code = Function.update g.code u k' ∧ g'.held = Function.update g.held u H' ∧ g'.list = g.list := by
  intro K
  induction K with
  | nil =>
    intro g h hk hl
    have := h.wf u
    rw [hk] at this
    have this : g.held u = [] := this
    rw [this] at hl; simp at hl
  | cons a K ih =>
    intro g h hk hl
    have hle : ∀ l', rank l' ≤ 2 := by intro l'; cases l' <;> simp [rank]
    obtain ⟨H', hH⟩ : ∃ H', g.held u = l :: H' := by
      have ho := h.ord u
      cases hd : g.held u with
      | nil => rw [hd] at hl; simp at hl
      | cons l0 H' =>
        rw [hd] at hl ho
        rcases List.mem_cons.1 hl with rfl | hl
        · exact ⟨H', rfl⟩
        · have := (List.pairwise_cons.1 ho).1 l hl
          have := hle l0; omega
    have hW := h.wf u
    rw [hk] at hW
    by_cases hq : Quiet a
    · obtain ⟨g1, r1, i1, c1, h1, l1⟩ := run_quiet (x := [a]) (k := K) h hk (by simpa using hq)
      obtain ⟨g', H'', k', r, i, e1, e2, e3, e4, e5⟩ := ih i1 (by rw [c1]; simp) (by rw [h1]; exact hl)
      refine ⟨g', H'', k', r1.trans r, i, by rw [← e1, h1], by simp; omega, ?_, ?_, by rw [e5, l1]⟩
      · rw [e3, c1]; simp
      · rw [e4, h1]
    · cases a with
      | exit l' =>
        obtain ⟨H'', hH'', -⟩ := hW
        rw [hH] at hH''
        obtain ⟨rfl, rfl⟩ := List.cons.inj hH''
        have he : Exec P g u (.exit l) { eff g u (.exit l) with code := Function.update g.code u ([] ++ K) } :=
          ⟨K, [], hk, trivial, by simp [cont], rfl⟩
        refine ⟨_, H', K, .one (by simp) he, inv2_exec h he, hH, by simp, rfl, ?_, rfl⟩
        simp [eff, hH]
      | enter l' =>
        have := hW.1 l (by rw [hH]; simp)
        have := hle l'; omega
      | append s => obtain ⟨⟨_, e⟩, -⟩ := hW; rw [hH] at e; obtain ⟨rfl, -⟩ := List.cons.inj e; simp [rank] at hr
      | remove s => obtain ⟨⟨_, e⟩, -⟩ := hW; rw [hH] at e; obtain ⟨rfl, -⟩ := List.cons.inj e; simp [rank] at hr
      | first s => obtain ⟨⟨_, e⟩, -⟩ := hW; rw [hH] at e; obtain ⟨rfl, -⟩ := List.cons.inj e; simp [rank] at hr
      | walk w s => obtain ⟨⟨_, e⟩, -⟩ := hW; rw [hH] at e; obtain ⟨rfl, -⟩ := List.cons.inj e; simp [rank] at hr
      | poll =>
        obtain ⟨e | e, -⟩ := hW
        · rw [hH] at e; simp at e
        · rw [hH] at e; obtain ⟨rfl, -⟩ := List.cons.inj e; simp [rank] at hr
      | wait => obtain ⟨e, -⟩ := hW; rw [hH] at e; simp at e
      | _ => exact (hq trivial).elim

/-- a thread that holds an innermost mutex is not about to lock another -/
theorem leaf_not_enter {P : Par} {g : St} (h : Inv2 P g) {u : Nat} {l l' : Lk} {k : List Act} (hr : rank l = 2)
    (hl : l ∈ g.held u) : g.code u ≠ .enter l' :: k := by
  intro hk
  have hW := h.wf u
  rw [hk] at hW
  have := hW.1 l hl
  have : rank l' ≤ 2 := by cases l' <;> simp [rank]
  omega

/-- any innermost mutex can be made free while `u`, about to lock it, stays put -/
theorem free_leaf {P : Par} {g : St} (h : Inv2 P g) (u : Nat) {l : Lk} (hr : rank l = 2) {k : List Act}
    (hk : g.code u = .enter l :: k) :
    ∃ g', Moved P g g' u ∧ (∀ t, l ∉ g'.held t) ∧ g'.code u = g.code u ∧ g'.held u = g.held u ∧ g'.list = g.list := by
  by_cases hf : ∀ t, l ∉ g.held t
  · exact ⟨g, .refl h u, hf, rfl, rfl, rfl⟩
  · push Not at hf
    obtain ⟨v, hv⟩ := hf
    have hne : u ≠ v := by
      rintro rfl
      exact leaf_not_enter h hr hv hk
    obtain ⟨g', H', k', r, i, e1, e2, e3, e4, e5⟩ := leaf hr _ h rfl hv
    have hnd := i.ndh
    refine ⟨g', ⟨r, i, ?_, ?_⟩, ?_, by rw [e3]; simp [hne], by rw [e4]; simp [hne], e5⟩
    · intro t l' hl'
      rw [e4] at hl'
      by_cases e : t = v
      · subst e; rw [Function.update_self] at hl'; rw [e1]; exact List.mem_cons_of_mem _ hl'
      · rwa [Function.update_of_ne e] at hl'
    · rintro t - ⟨l', k'', he⟩
      rw [e3, e4]
      by_cases e : t = v
      · subst e; exact (leaf_not_enter h hr hv he).elim
      · rw [Function.update_of_ne e, Function.update_of_ne e]; exact ⟨rfl, rfl⟩
    · intro t ht
      rw [e4] at ht
      by_cases e : t = v
      · subst e
        rw [Function.update_self] at ht
        have hn := h.ndh t
        rw [e1] at hn
        exact (List.nodup_cons.1 hn).1 ht
      · rw [Function.update_of_ne e] at ht
        exact e (h.excl t v l ht hv)

theorem succ_split {pre post : List Nat} {s : Nat} (h : (pre ++ s :: post).Nodup) :
    succ (pre ++ s :: post) s = post.head? := by
  induction pre with
  | nil => simp [succ]
  | cons y pre ih =>
    have hy : y ≠ s := by
      rintro rfl
      have := (List.nodup_cons.1 h).1
      simp at this
    rw [List.cons_append, succ, if_neg hy]
    exact ih (List.nodup_cons.1 h).2

/-- a walk over the list runs to its end -/
theorem walk_ends {P : Par} {u : Nat} {w : Walk} {k : List Act} : ∀ (post : List Nat) {g : St} {pre : List Nat}, Inv2 P g →
    g.list = pre ++ post → g.code u = .walk w post.head? :: k →
    ∃ g', Moved P g g' u ∧ g'.code u = k ∧ g'.held u = g.held u ∧ g'.list = g.list := by
  intro post
  induction post with
  | nil =>
    intro g pre h _ hk
    have he : Exec P g u (.walk w none) { eff g u (.walk w none) with code := Function.update g.code u ([] ++ k) } :=
      ⟨k, [], hk, trivial, by simp [cont], rfl⟩
    refine ⟨_, ⟨.one (by simp) he, inv2_exec h he, fun _ _ hl => hl, ?_⟩, by simp, rfl, rfl⟩
    intro t ht _
    exact ⟨by simp [ht], rfl⟩
  | cons s post ih =>
    intro g pre h hL hk
    have hk : g.code u = .walk w (some s) :: k := hk
    have hnd := h.ndl
    rw [hL] at hnd
    have hsucc : succ g.list s = post.head? := by rw [hL]; exact succ_split hnd
    -- one continuation `c`, quiet accesses followed by the rest of the walk or by nothing
    have key : ∀ c x, c ∈ cont P g (.walk w (some s)) → (∀ a ∈ x, Quiet a) → ∀ y, c ++ k = x ++ y →
        ∃ g', Moved P g g' u ∧ g'.code u = y ∧ g'.held = g.held ∧ g'.list = g.list := by
      intro c x hc hx y hxy
      have he : Exec P g u (.walk w (some s))
          { eff g u (.walk w (some s)) with code := Function.update g.code u (c ++ k) } := ⟨k, c, hk, trivial, hc, rfl⟩
      have h1 := inv2_exec h he
      obtain ⟨g', r, i, e1, e2, e3⟩ := run_quiet (u := u) (x := x) (k := y) h1 (by simp [hxy]) hx
      refine ⟨g', ⟨(Inner.one (by simp) he).trans r, i, ?_, ?_⟩, ?_, ?_, ?_⟩
      · intro t l hl; rw [e2] at hl; exact hl
      · intro t ht _; rw [e1, e2]; exact ⟨by simp [ht], rfl⟩
      · rw [e1]; simp
      · rw [e2]; rfl
      · rw [e3]; rfl
    have fin : ∀ y, (∃ g', Moved P g g' u ∧ g'.code u = y ∧ g'.held = g.held ∧ g'.list = g.list) →
        y = .walk w post.head? :: k →
        ∃ g', Moved P g g' u ∧ g'.code u = k ∧ g'.held u = g.held u ∧ g'.list = g.list := by
      rintro y ⟨g1, m, e1, e2, e3⟩ rfl
      obtain ⟨g2, m2, f1, f2, f3⟩ := ih (pre := pre ++ [s]) m.inv (by rw [e3, hL]; simp) e1
      exact ⟨g2, m.trans m2, f1, by rw [f2, e2], by rw [f3, e3]⟩
    rcases w with _ | y | y | _
    · refine fin _ (key ([.touch (.fld s .cfg)] ++ (List.range (P.nctx s)).map (.flushCtx s) ++
        (if P.dyn then [] else [.touch (.fld s .dict)]) ++ [.walk .flush (succ g.list s)]) ([.touch (.fld s .cfg)] ++ (List.range (P.nctx s)).map (.flushCtx s) ++
        (if P.dyn then [] else [.touch (.fld s .dict)])) (by simp [cont]) ?_ (.walk .flush (succ g.list s) :: k)
        (by simp)) (by rw [hsucc])
      intro a ha
      simp only [List.mem_append, List.mem_map, List.mem_singleton] at ha
      rcases ha with (rfl | ⟨i, -, rfl⟩) | ha
      · trivial
      · trivial
      · split at ha
        · simp at ha
        · simp only [List.mem_singleton] at ha; subst ha; trivial
    · by_cases e : y = some s
      · obtain ⟨g', m, e1, e2, e3⟩ := key [.touch (.fld s .attr)] [.touch (.fld s .attr)] (by simp [cont, e])
          (by simp [Quiet]) k rfl
        exact ⟨g', m, e1, by rw [e2], e3⟩
      · exact fin _ (key [.touch (.fld s .attr), .walk (.find y) (succ g.list s)] [.touch (.fld s .attr)]
          (by simp [cont, e]) (by simp [Quiet]) _ rfl) (by rw [hsucc]; rfl)
    · by_cases e : y = s
      · obtain ⟨g1, m1, e1, e2, e3⟩ := key [.touch (.fld s .attr), .enter (.pool s), .touch (.fld s .pool), .exit (.pool s)]
          [.touch (.fld s .attr)] (by simp [cont, e]) (by simp [Quiet]) _ rfl
        obtain ⟨g2, m2, f0, f1, f2, f3⟩ := free_leaf m1.inv u (l := .pool s) rfl e1
        rw [e1] at f1
        have x3 : Exec P g2 u (.enter (.pool s)) { eff g2 u (.enter (.pool s)) with
            code := Function.update g2.code u ([] ++ (.touch (.fld s .pool) :: .exit (.pool s) :: k)) } :=
          ⟨_, [], f1, f0, by simp [cont], rfl⟩
        have i3 := inv2_exec m2.inv x3
        obtain ⟨g4, r4, i4, c4, h4, l4⟩ := run_quiet (u := u) (x := [.touch (.fld s .pool)]) (k := .exit (.pool s) :: k)
          i3 (by simp) (by simp [Quiet])
        have c4u : g4.code u = .exit (.pool s) :: k := by rw [c4]; simp
        have x5 : Exec P g4 u (.exit (.pool s)) { eff g4 u (.exit (.pool s)) with
            code := Function.update g4.code u ([] ++ k) } := ⟨_, [], c4u, trivial, by simp [cont], rfl⟩
        have i5 := inv2_exec i4 x5
        have hheld : Function.update g4.held u ((g4.held u).erase (.pool s)) = g2.held := by
          rw [h4]; simp [eff]
        refine ⟨_, (m1.trans m2).trans ⟨((Inner.one (by simp) x3).trans r4).trans (.one (by simp) x5), i5, ?_, ?_⟩,
          by simp, ?_, ?_⟩
        · intro t l hl
          have hl : l ∈ Function.update g4.held u ((g4.held u).erase (.pool s)) t := hl
          rwa [hheld] at hl
        · intro t ht _
          refine ⟨by simp only [c4, Function.update_of_ne ht], ?_⟩
          show Function.update g4.held u ((g4.held u).erase (.pool s)) t = _
          rw [hheld]
        · show Function.update g4.held u ((g4.held u).erase (.pool s)) u = _
          rw [hheld, f2, e2]
        · show g4.list = _
          rw [l4]; show g2.list = _; rw [f3, e3]
      · exact fin _ (key [.touch (.fld s .attr), .walk (.free y) (succ g.list s)] [.touch (.fld s .attr)]
          (by simp [cont, e]) (by simp [Quiet]) _ rfl) (by rw [hsucc]; rfl)
    · obtain ⟨g', m, e1, e2, e3⟩ := key [.touch (.fld s .attr)] [.touch (.fld s .attr)] (by simp [cont])
        (by simp [Quiet]) k rfl
      exact ⟨g', m, e1, by rw [e2], e3⟩

/-- the holder of the list releases it, needing at most that holders of innermost mutexes do -/
theorem free_spaces {P : Par} {u : Nat} : ∀ (n : Nat) {g : St}, Inv2 P g → (g.code u).length ≤ n → .spaces ∈ g.held u →
    ∃ g', Moved P g g' u ∧ .spaces ∉ g'.held u ∧ (g'.code u).length < (g.code u).length := by
  intro n
  induction n with
  | zero =>
    intro g h hn hl
    have hk : g.code u = [] := List.length_eq_zero_iff.1 (by omega)
    have := h.wf u
    rw [hk] at this
    have this : g.held u = [] := this
    rw [this] at hl; simp at hl
  | succ n ih =>
    intro g h hn hl
    -- a move to a state with shorter code and the list still held
    have go : ∀ g1, Moved P g g1 u → .spaces ∈ g1.held u → (g1.code u).length < (g.code u).length →
        ∃ g', Moved P g g' u ∧ .spaces ∉ g'.held u ∧ (g'.code u).length < (g.code u).length := by
      intro g1 m hs hlt
      obtain ⟨g2, m2, n2, l2⟩ := ih m.inv (by omega) hs
      exact ⟨g2, m.trans m2, n2, by omega⟩
    have one : ∀ a k c, g.code u = a :: k → a ≠ .wait → ready g a → c ∈ cont P g a →
        (∀ t l, l ∈ (eff g u a).held t → l ∈ g.held t) → (∀ t, t ≠ u → (eff g u a).held t = g.held t) →
        Moved P g { eff g u a with code := Function.update g.code u (c ++ k) } u := by
      intro a k c hk ha hr hc hh hh'
      have he : Exec P g u a { eff g u a with code := Function.update g.code u (c ++ k) } := ⟨k, c, hk, hr, hc, rfl⟩
      refine ⟨.one ha he, inv2_exec h he, hh, ?_⟩
      intro t ht _
      exact ⟨by simp [ht], hh' t ht⟩
    have hW := h.wf u
    -- an innermost mutex on top?
    by_cases htop : ∃ l ∈ g.held u, rank l = 2
    · obtain ⟨l, hl2, hr⟩ := htop
      obtain ⟨g1, H', k', r, i, e1, e2, e3, e4, e5⟩ := leaf hr _ h rfl hl2
      refine go g1 ⟨r, i, ?_, ?_⟩ ?_ (by rw [e3]; simpa using e2)
      · intro t l' hl'
        rw [e4] at hl'
        by_cases e : t = u
        · subst e; rw [Function.update_self] at hl'; rw [e1]; exact List.mem_cons_of_mem _ hl'
        · rwa [Function.update_of_ne e] at hl'
      · intro t ht _
        rw [e3, e4, Function.update_of_ne ht, Function.update_of_ne ht]
        exact ⟨rfl, rfl⟩
      · rw [e4, Function.update_self]
        rw [e1] at hl
        rcases List.mem_cons.1 hl with rfl | hl
        · simp [rank] at hr
        · exact hl
    obtain ⟨H', hH⟩ : ∃ H', g.held u = .spaces :: H' := by
      have ho := h.ord u
      cases hd : g.held u with
      | nil => rw [hd] at hl; simp at hl
      | cons l0 H' =>
        rw [hd] at hl ho
        rcases List.mem_cons.1 hl with rfl | hl
        · exact ⟨H', rfl⟩
        · have := (List.pairwise_cons.1 ho).1 _ hl
          refine (htop ⟨l0, by rw [hd]; simp, ?_⟩).elim
          cases l0 <;> simp [rank] at this ⊢
    cases hk : g.code u with
    | nil =>
      rw [hk] at hW
      have hW : g.held u = [] := hW
      rw [hW] at hl; simp at hl
    | cons a k =>
      rw [hk] at hW
      rw [← hk]
      have hlen : (g.code u).length = k.length + 1 := by rw [hk]; simp
      by_cases hq : Quiet a
      · obtain ⟨g1, r1, i1, c1, h1, l1⟩ := run_quiet (x := [a]) (k := k) h hk (by simpa using hq)
        refine go g1 ⟨r1, i1, by rw [h1]; exact fun _ _ h => h, ?_⟩ (by rw [h1]; exact hl) (by rw [c1]; simp [hk])
        intro t ht _
        rw [c1, h1, Function.update_of_ne ht]
        exact ⟨rfl, rfl⟩
      cases a with
      | exit l =>
        obtain ⟨H'', hH'', -⟩ := hW
        rw [hH] at hH''
        obtain ⟨rfl, rfl⟩ := List.cons.inj hH''
        refine ⟨_, one _ k [] hk (by simp) trivial (by simp [cont]) ?_ ?_, ?_, by simp [hk]⟩
        · intro t l' hl'
          by_cases e : t = u
          · subst e
            simp only [eff, Function.update_self] at hl'
            exact List.mem_of_mem_erase hl'
          · simpa [eff, e] using hl'
        · intro t ht
          simp [eff, ht]
        · have hn := h.ndh u
          rw [hH] at hn
          simpa [eff, hH] using (List.nodup_cons.1 hn).1
      | enter l =>
        have hr : rank l = 2 := by
          have := hW.1 .spaces (by rw [hH]; simp)
          cases l <;> simp [rank] at this ⊢
        obtain ⟨g1, m1, f0, f1, f2, f3⟩ := free_leaf h u hr hk
        rw [hk] at f1
        have he : Exec P g1 u (.enter l) { eff g1 u (.enter l) with code := Function.update g1.code u ([] ++ k) } :=
          ⟨k, [], f1, f0, by simp [cont], rfl⟩
        have i2 := inv2_exec m1.inv he
        -- enter and leave the inner section
        obtain ⟨g3, H3, k3, r, i, e1, e2, e3, e4, e5⟩ := leaf (u := u) hr k i2 (by simp) (by simp [eff])
        have hH3 : H3 = g.held u := by
          simp only [eff, Function.update_self] at e1
          rw [f2] at e1
          exact (List.cons.inj e1).2.symm
        refine go g3 ⟨(m1.run.trans (.one (by simp) he)).trans r, i, ?_, ?_⟩ ?_ ?_
        · intro t l' hl'
          rw [e4] at hl'
          by_cases e : t = u
          · subst e; rw [Function.update_self, hH3] at hl'; exact hl'
          · rw [Function.update_of_ne e] at hl'
            simp only [eff, Function.update_of_ne e] at hl'
            exact m1.held _ _ hl'
        · intro t ht hx
          rw [e3, e4, Function.update_of_ne ht, Function.update_of_ne ht]
          simp only [eff, Function.update_of_ne ht]
          exact m1.wait t ht hx
        · rw [e4, Function.update_self, hH3]; exact hl
        · rw [e3]; simp; omega
      | append s =>
        exact go _ (one _ k [] hk (by simp) trivial (by simp [cont]) (fun _ _ h => h) (fun _ _ => rfl)) hl (by simp [hk])
      | remove s =>
        exact go _ (one _ k [] hk (by simp) trivial (by simp [cont]) (fun _ _ h => h) (fun _ _ => rfl)) hl (by simp [hk])
      | first w =>
        have m1 := one _ k _ hk (by simp) trivial (by simp [cont]; rfl) (fun _ _ h => h) (fun _ _ => rfl)
        obtain ⟨g2, m2, e1, e2, e3⟩ := walk_ends (u := u) (w := w) (k := k) g.list (pre := []) m1.inv rfl (by simp)
        exact go g2 (m1.trans m2) (by rw [e2]; exact hl) (by rw [e1]; omega)
      | walk w cur =>
        have hG := h.good u
        rw [hk] at hG
        obtain ⟨pre, post, e1, e2⟩ : ∃ pre post, g.list = pre ++ post ∧ cur = post.head? := by
          cases cur with
          | none => exact ⟨g.list, [], by simp, rfl⟩
          | some s =>
            obtain ⟨pre, post, e⟩ := List.append_of_mem hG.2.1.2
            exact ⟨pre, s :: post, e, rfl⟩
        subst e2
        obtain ⟨g2, m2, e1, e2, e3⟩ := walk_ends (u := u) (w := w) (k := k) post (pre := pre) h e1 hk
        exact go g2 m2 (by rw [e2]; exact hl) (by rw [e1]; omega)
      | poll =>
        obtain ⟨e | e, -⟩ := hW
        · rw [hH] at e; simp at e
        · rw [hH] at e; simp at e
      | wait => obtain ⟨e, -⟩ := hW; rw [hH] at e; simp at e
      | _ => exact (hq trivial).elim

/-- as `Moved`; threads that hold nothing and are about to lock have not moved -/
structure Moved0 (P : Par) (g g' : St) : Prop where
  run : Inner P g g'
  inv : Inv2 P g'
  held : ∀ t l, l ∈ g'.held t → l ∈ g.held t
  wait : ∀ t, g.held t = [] → (∃ l k, g.code t = .enter l :: k) → g'.code t = g.code t

theorem Moved0.trans {P : Par} {g g' g'' : St} (h : Moved0 P g g') (h' : Moved0 P g' g'') : Moved0 P g g'' :=
  ⟨h.run.trans h'.run, h'.inv, fun t l hl => h.held t l (h'.held t l hl), fun t ht he => by
    have e := h.wait t ht he
    have hn : g'.held t = [] := by
      refine List.eq_nil_iff_forall_not_mem.2 fun l hl => ?_
      have := h.held t l hl
      rw [ht] at this; simp at this
    rw [h'.wait t hn (by rw [e]; exact he), e]⟩

theorem Moved.zero {P : Par} {g g' : St} {u : Nat} (h : Moved P g g' u) (hu : g.held u ≠ []) : Moved0 P g g' :=
  ⟨h.run, h.inv, h.held, fun t ht he => (h.wait t (by rintro rfl; exact hu ht) he).1⟩

/-- a mutex other than `cb_progress_cs` can be made free while `u`, about to lock it, stays put -/
theorem free_other {P : Par} {g : St} (h : Inv2 P g) (u : Nat) {l : Lk} (hl : l ≠ .cb) {k : List Act}
    (hk : g.code u = .enter l :: k) :
    ∃ g', Moved0 P g g' ∧ (∀ t, l ∉ g'.held t) ∧ g'.code u = g.code u ∧ g'.held u = g.held u := by
  by_cases hr : rank l = 2
  · obtain ⟨g', m, f0, f1, f2, -⟩ := free_leaf h u hr hk
    refine ⟨g', ⟨m.run, m.inv, m.held, fun t ht he => ?_⟩, f0, f1, f2⟩
    by_cases e : t = u
    · rw [e, f1]
    · exact (m.wait t e he).1
  obtain rfl : l = .spaces := by cases l <;> simp_all [rank]
  by_cases hf : ∀ t, .spaces ∉ g.held t
  · exact ⟨g, ⟨.refl g, h, fun _ _ h => h, fun _ _ _ => rfl⟩, hf, rfl, rfl⟩
  · push Not at hf
    obtain ⟨v, hv⟩ := hf
    have hne : u ≠ v := by
      rintro rfl
      have hW := h.wf u
      rw [hk] at hW
      have := hW.1 _ hv
      simp at this
    obtain ⟨g', m, n1, n2⟩ := free_spaces _ h (Nat.le_refl _) hv
    obtain ⟨w1, w2⟩ := m.wait u hne ⟨_, _, hk⟩
    refine ⟨g', m.zero (by intro e; rw [e] at hv; simp at hv), ?_, w1, w2⟩
    intro t ht
    have := h.excl t v _ (m.held _ _ ht) hv
    subst this
    exact n1 ht

/-- the holder of `cb_progress_cs` releases it -/
theorem free_cb {P : Par} {u : Nat} : ∀ (n : Nat) {g : St}, Inv2 P g → (g.code u).length ≤ n → .cb ∈ g.held u →
    ∃ g', Moved0 P g g' ∧ .cb ∉ g'.held u := by
  intro n
  induction n with
  | zero =>
    intro g h hn hl
    have hk : g.code u = [] := List.length_eq_zero_iff.1 (by omega)
    have := h.wf u
    rw [hk] at this
    have this : g.held u = [] := this
    rw [this] at hl; simp at hl
  | succ n ih =>
    intro g h hn hl
    have hu : g.held u ≠ [] := by intro e; rw [e] at hl; simp at hl
    have go : ∀ g1, Moved0 P g g1 → .cb ∈ g1.held u → (g1.code u).length < (g.code u).length →
        ∃ g', Moved0 P g g' ∧ .cb ∉ g'.held u := by
      intro g1 m hs hlt
      obtain ⟨g2, m2, n2⟩ := ih m.inv (by omega) hs
      exact ⟨g2, m.trans m2, n2⟩
    have one : ∀ a k c, g.code u = a :: k → a ≠ .wait → ready g a → c ∈ cont P g a →
        (∀ t l, l ∈ (eff g u a).held t → l ∈ g.held t) →
        Moved0 P g { eff g u a with code := Function.update g.code u (c ++ k) } := by
      intro a k c hk ha hr hc hh
      have he : Exec P g u a { eff g u a with code := Function.update g.code u (c ++ k) } := ⟨k, c, hk, hr, hc, rfl⟩
      refine ⟨.one ha he, inv2_exec h he, hh, ?_⟩
      intro t ht _
      have : t ≠ u := by rintro rfl; exact hu ht
      simp [this]
    have hW := h.wf u
    by_cases htop : ∃ l ∈ g.held u, rank l = 2
    · obtain ⟨l, hl2, hr⟩ := htop
      obtain ⟨g1, H', k', r, i, e1, e2, e3, e4, e5⟩ := leaf hr _ h rfl hl2
      refine go g1 ⟨r, i, ?_, ?_⟩ ?_ (by rw [e3]; simpa using e2)
      · intro t l' hl'
        rw [e4] at hl'
        by_cases e : t = u
        · subst e; rw [Function.update_self] at hl'; rw [e1]; exact List.mem_cons_of_mem _ hl'
        · rwa [Function.update_of_ne e] at hl'
      · intro t ht _
        have : t ≠ u := by rintro rfl; exact hu ht
        rw [e3, Function.update_of_ne this]
      · rw [e4, Function.update_self]
        rw [e1] at hl
        rcases List.mem_cons.1 hl with rfl | hl
        · simp [rank] at hr
        · exact hl
    by_cases hsp : .spaces ∈ g.held u
    · obtain ⟨g1, m, n1, n2⟩ := free_spaces _ h (Nat.le_refl _) hsp
      by_cases hc : .cb ∈ g1.held u
      · exact go g1 (m.zero hu) hc n2
      · exact ⟨g1, m.zero hu, hc⟩
    obtain ⟨H', hH⟩ : ∃ H', g.held u = .cb :: H' := by
      cases hd : g.held u with
      | nil => exact (hu hd).elim
      | cons l0 H' =>
        cases l0 with
        | cb => exact ⟨H', rfl⟩
        | spaces => exact (hsp (by rw [hd]; simp)).elim
        | pool s => exact (htop ⟨.pool s, by rw [hd]; simp, rfl⟩).elim
        | heap => exact (htop ⟨.heap, by rw [hd]; simp, rfl⟩).elim
        | comms => exact (htop ⟨.comms, by rw [hd]; simp, rfl⟩).elim
        | dtypes => exact (htop ⟨.dtypes, by rw [hd]; simp, rfl⟩).elim
    cases hk : g.code u with
    | nil =>
      rw [hk] at hW
      exact (hu hW).elim
    | cons a k =>
      rw [hk] at hW
      have hlen : (g.code u).length = k.length + 1 := by rw [hk]; simp
      by_cases hq : Quiet a
      · obtain ⟨g1, r1, i1, c1, h1, l1⟩ := run_quiet (x := [a]) (k := k) h hk (by simpa using hq)
        refine go g1 ⟨r1, i1, by rw [h1]; exact fun _ _ h => h, ?_⟩ (by rw [h1]; exact hl) (by rw [c1]; simp [hk])
        intro t ht _
        have : t ≠ u := by rintro rfl; exact hu ht
        rw [c1, Function.update_of_ne this]
      cases a with
      | exit l =>
        obtain ⟨H'', hH'', -⟩ := hW
        rw [hH] at hH''
        obtain ⟨rfl, rfl⟩ := List.cons.inj hH''
        refine ⟨_, one _ k [] hk (by simp) trivial (by simp [cont]) ?_, ?_⟩
        · intro t l' hl'
          by_cases e : t = u
          · subst e
            simp only [eff, Function.update_self] at hl'
            exact List.mem_of_mem_erase hl'
          · simpa [eff, e] using hl'
        · have hn := h.ndh u
          rw [hH] at hn
          simpa [eff, hH] using (List.nodup_cons.1 hn).1
      | enter l =>
        have hne : l ≠ .cb := by
          rintro rfl
          have := hW.1 _ hl
          simp at this
        obtain ⟨g1, m1, f0, f1, f2⟩ := free_other h u hne hk
        rw [hk] at f1
        have he : Exec P g1 u (.enter l) { eff g1 u (.enter l) with code := Function.update g1.code u ([] ++ k) } :=
          ⟨k, [], f1, f0, by simp [cont], rfl⟩
        have i2 := inv2_exec m1.inv he
        have hin : l ∈ ({ eff g1 u (.enter l) with code := Function.update g1.code u ([] ++ k) } : St).held u := by
          simp [eff]
        -- enter and leave the inner section
        have inner : ∃ g3, Moved P { eff g1 u (.enter l) with code := Function.update g1.code u ([] ++ k) } g3 u ∧
            l ∉ g3.held u ∧ (g3.code u).length < k.length := by
          by_cases hr : rank l = 2
          · obtain ⟨g3, H3, k3, r, i, e1, e2, e3, e4, e5⟩ := leaf (u := u) hr k i2 (by simp) hin
            refine ⟨g3, ⟨r, i, ?_, ?_⟩, ?_, by rw [e3]; simpa using e2⟩
            · intro t l' hl'
              rw [e4] at hl'
              by_cases e : t = u
              · subst e; rw [Function.update_self] at hl'; rw [e1]; exact List.mem_cons_of_mem _ hl'
              · rwa [Function.update_of_ne e] at hl'
            · intro t ht _
              rw [e3, e4, Function.update_of_ne ht, Function.update_of_ne ht]
              exact ⟨rfl, rfl⟩
            · rw [e4, Function.update_self]
              have hn := i2.ndh u
              rw [e1] at hn
              exact (List.nodup_cons.1 hn).1
          · obtain rfl : l = .spaces := by cases l <;> simp_all [rank]
            obtain ⟨g3, m3, n1, n2⟩ := free_spaces _ i2 (Nat.le_refl _) hin
            exact ⟨g3, m3, n1, by simpa using n2⟩
        obtain ⟨g3, m3, n1, n2⟩ := inner
        have hsub : ∀ t l', l' ∈ g3.held t → l' ∈ g1.held t := by
          intro t l' hl'
          have := m3.held t l' hl'
          by_cases e : t = u
          · subst e
            simp only [eff, Function.update_self] at this
            rcases List.mem_cons.1 this with rfl | this
            · exact (n1 hl').elim
            · exact this
          · simpa [eff, e] using this
        have m : Moved0 P g g3 := by
          refine ⟨(m1.run.trans (.one (by simp) he)).trans m3.run, m3.inv, fun t l' hl' => m1.held _ _ (hsub t l' hl'), ?_⟩
          intro t ht hx
          have e : t ≠ u := by rintro rfl; exact hu ht
          have e1 := m1.wait t ht hx
          have : ({ eff g1 u (.enter l) with code := Function.update g1.code u ([] ++ k) } : St).code t = g.code t := by
            simp only [Function.update_of_ne e]; exact e1
          rw [(m3.wait t e (by rw [this]; exact hx)).1, this]
        by_cases hc : .cb ∈ g3.held u
        · exact go g3 m hc (by omega)
        · exact ⟨g3, m, hc⟩
      | append s => obtain ⟨⟨_, e⟩, -⟩ := hW; rw [hH] at e; simp at e
      | remove s => obtain ⟨⟨_, e⟩, -⟩ := hW; rw [hH] at e; simp at e
      | first s => obtain ⟨⟨_, e⟩, -⟩ := hW; rw [hH] at e; simp at e
      | walk w s => obtain ⟨⟨_, e⟩, -⟩ := hW; rw [hH] at e; simp at e
      | poll => exact go _ (one _ k [] hk (by simp) trivial (by simp [cont]) (fun _ _ h => h)) hl (by simp [hk])
      | wait => obtain ⟨e, -⟩ := hW; exact (hu e).elim
      | _ => exact (hq trivial).elim

/-- a thread about to lock a mutex gets it -/
theorem granted {P : Par} {g : St} (h : Inv2 P g) {t : Nat} {l : Lk} {k : List Act} (hk : g.code t = .enter l :: k) :
    ∃ g', Inner P g g' ∧ g'.code t = k ∧ l ∈ g'.held t := by
  have fin : ∀ g1, Inner P g g1 → (∀ t, l ∉ g1.held t) → g1.code t = g.code t →
      ∃ g', Inner P g g' ∧ g'.code t = k ∧ l ∈ g'.held t := by
    intro g1 r hf hc
    rw [hk] at hc
    have he : Exec P g1 t (.enter l) { eff g1 t (.enter l) with code := Function.update g1.code t ([] ++ k) } :=
      ⟨k, [], hc, hf, by simp [cont], rfl⟩
    exact ⟨_, r.trans (.one (by simp) he), by simp, by simp [eff]⟩
  by_cases hl : l = .cb
  · subst hl
    by_cases hf : ∀ t, .cb ∉ g.held t
    · exact fin g (.refl g) hf rfl
    · push Not at hf
      obtain ⟨v, hv⟩ := hf
      obtain ⟨g', m, n⟩ := free_cb _ h (Nat.le_refl _) hv
      have hW := h.wf t
      rw [hk] at hW
      have h0 : g.held t = [] := by
        refine List.eq_nil_iff_forall_not_mem.2 fun l hl => ?_
        have := hW.1 l hl
        simp [rank] at this
      refine fin g' m.run ?_ (m.wait t h0 ⟨_, _, hk⟩)
      intro t' ht'
      have := h.excl t' v _ (m.held _ _ ht') hv
      subst this
      exact n ht'
  · obtain ⟨g', m, f0, f1, f2⟩ := free_other h t hl hk
    exact fin g' m.run f0 f1

end Verif.Cs
