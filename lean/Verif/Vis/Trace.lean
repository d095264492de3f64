import Verif.Vis.Lemmas
/-!
# Visibility: where an access in flight comes from, and the fate of one written byte
-/
namespace Verif.Vis
open Verif.Sobj Verif.Rma
open Verif.Order (St Pend Cfg Op)

/-- The call is one the code's barrier completes (C30): made by active message, or on the default context and, without dynamic
windows, on the heap or the global data (not on a space). -/
def BarCov (c : Cfg) (am : Bool) (ctx : Option (Nat × Nat)) (addr : BitVec 64) : Prop :=
  am = true ∨ (ctx = none ∧ (c.dyn = true ∨ inRange c.heap addr = true ∨ inRange c.data addr = true))

/-- The event leaves nothing in flight once some PE has left `L` barriers: it was made before the `L`-th barrier of its PE and
is of the kind a barrier completes. -/
def Ev.Settled (S : Sys) (L : Nat) : Ev → Prop
  | .put p _ _ ctx addr _ ep => ep < L ∧ BarCov (S.cf p) ((S.cf p).rma == .am) ctx addr
  | .get p _ _ ctx addr _ ep => ep < L ∧ BarCov (S.cf p) ((S.cf p).rma == .am) ctx addr
  | .amo p _ ctx addr _ _ _ ep => ep < L ∧ BarCov (S.cf p) (!(S.cf p).amoDirect) ctx addr
  | .store _ _ _ => True
  | .poll _ _ _ _ => True
  | .touch _ _ => True
  | .call _ _ => True
  | .enter _ => True
  | .leave _ => True
  | .done _ _ _ => True
  | .tau => True

theorem direct_rma {c : Cfg} {k : Order.Kind} {gpu : Bool} (hk : k.isRma = true) (h : (c.rma == Order.Rma.am) = true) :
    c.isDirect k gpu = false := by
  have h : c.rma = .am := by simpa using h
  simp [Cfg.isDirect, hk, h]

theorem direct_amo {c : Cfg} {api : Amo.Api} {gpu : Bool} (h : (!c.amoDirect) = true) :
    c.isDirect (amoKind api) gpu = false := by
  have h : c.amoDirect = false := by simpa using h
  have hk : (amoKind api).isRma = false := by cases api <;> rfl
  simp [Cfg.isDirect, hk, h]

theorem covered_of {c : Cfg} {s s' : St} {ctx : Option (Nat × Nat)} {addr : BitVec 64} {n tgt : Nat} {k : Order.Kind} {gpu : Bool}
    (e : Order.step c s (.issue ctx addr n tgt k gpu) = .ok s') {pd : Pend} (hp : pushed s s' = some pd) {am : Bool}
    (ham : am = true → c.isDirect k gpu = false) (hc : BarCov c am ctx addr) : Order.Covered c pd ∧ pd.ep = s.ep := by
  rcases pushed_issue e with ⟨h, _⟩ | ⟨pd', h, _, _, h2, h3, h4, h5, _⟩
  · rw [hp] at h; cases h
  · rw [hp] at h
    cases h
    refine ⟨?_, h3⟩
    rcases hc with h | ⟨hctx, h⟩
    · exact Or.inl (h5.mpr (ham h))
    · refine Or.inr ⟨by rw [h2, hctx], ?_⟩
      rcases h with h | h | h
      · exact Or.inl h
      · refine Or.inr (Or.inl (h4 (.heap, c.heap) hctx ?_))
        unfold query
        rw [if_pos (show inRange (c.proc s).heap addr = true from h)]
        rfl
      · cases hh : inRange c.heap addr with
        | true =>
          refine Or.inr (Or.inl (h4 (.heap, c.heap) hctx ?_))
          unfold query
          rw [if_pos (show inRange (c.proc s).heap addr = true from hh)]
          rfl
        | false =>
          refine Or.inr (Or.inr (h4 (.data, c.data) hctx ?_))
          unfold query
          rw [if_neg (by simp [Cfg.proc, hh]), if_pos (show inRange (c.proc s).data addr = true from h)]
          rfl

theorem ep_issue {c : Cfg} {s s' : St} {ctx : Option (Nat × Nat)} {addr : BitVec 64} {n tgt : Nat} {k : Order.Kind} {gpu : Bool}
    (e : Order.step c s (.issue ctx addr n tgt k gpu) = .ok s') {pd : Pend} (hp : pushed s s' = some pd) : pd.ep = s.ep := by
  rcases pushed_issue e with ⟨h, _⟩ | ⟨pd', h, _, _, h2, h3, h4, h5, _⟩
  · rw [hp] at h; cases h
  · rw [hp] at h; cases h; exact h3

/-- every access in flight that writes byte `k` was made by an event of the history: its PE, its epoch, and that a barrier will
complete it if the event is of that kind -/
def Traced (S : Sys) (k : Nat × Int) (l : List Ev) (g : G) : Prop := ∀ a r own, At g a r own → a.writes k → ∃ e ∈ l, e.writes k ∧
  ∃ ep, e.src = some (r, ep) ∧ ∀ L, e.Settled S L → (∃ pd, own = some pd ∧ pd.ep < L ∧ Order.Covered (S.cf r) pd) ∨
    (own = none ∧ g.arr r < L)

theorem traced_step {S : Sys} {k : Nat × Int} {l : List Ev} {g g' : G} {ev : Ev} (hi : GI S g) (ht : Traced S k l g)
    (h : Step S g ev g') : Traced S k (l ++ [ev]) g' := by
  intro a r own ha hk
  have old : At g a r own → (own = none → g'.arr r = g.arr r) → ∃ e ∈ l ++ [ev], e.writes k ∧
      ∃ ep, e.src = some (r, ep) ∧ ∀ L, e.Settled S L → (∃ pd, own = some pd ∧ pd.ep < L ∧ Order.Covered (S.cf r) pd) ∨
        (own = none ∧ g'.arr r < L) := by
    intro h harr
    obtain ⟨e, he, hw, ep, hs, hL⟩ := ht a r own h hk
    refine ⟨e, List.mem_append.mpr (Or.inl he), hw, ep, hs, fun L hl => ?_⟩
    rcases hL L hl with h | ⟨h1, h2⟩
    · exact Or.inl h
    · exact Or.inr ⟨h1, by rw [harr h1]; exact h2⟩
  have hw := at_step h ha
  cases h with
  | put p tgt nbi ctx addr src n gpu mode oc tc oty tty xs s' hf hm e hx d =>
    rcases at_after ha with h | ⟨rfl, ho, h⟩
    · exact old h (fun _ => rfl)
    · refine ⟨_, List.mem_append.mpr (Or.inr (List.mem_singleton.mpr rfl)), ?_, _, rfl, fun L hl => ?_⟩
      · obtain ⟨x, hx, rfl⟩ := List.mem_map.mp h
        cases nbi
        · simp only [Bool.false_eq_true, if_false, Atom.writes] at hk
          subst hk
          exact ⟨rfl, x, hx, rfl⟩
        · simp only [if_true, Atom.writes] at hk
          subst hk
          exact ⟨rfl, x, hx, rfl⟩
      · cases hp : pushed (g.pe r) s' with
        | none => exact Or.inr ⟨by rw [ho, hp], hl.1⟩
        | some pd =>
          obtain ⟨h1, h2⟩ := covered_of e hp (direct_rma (by cases nbi <;> rfl)) hl.2
          exact Or.inl ⟨pd, by rw [ho, hp], by rw [h2, hi.ep]; exact hl.1, h1⟩
  | get p tgt nbi ctx addr src n gpu mode oc tc oty tty xs s' hf hm e hx d =>
    rcases at_after ha with h | ⟨rfl, ho, h⟩
    · exact old h (fun _ => rfl)
    · refine ⟨_, List.mem_append.mpr (Or.inr (List.mem_singleton.mpr rfl)), ?_, _, rfl, fun L hl => ?_⟩
      · obtain ⟨x, hx, rfl⟩ := List.mem_map.mp h
        simp only [Atom.writes] at hk
        subst hk
        exact ⟨rfl, x, hx, rfl⟩
      · cases hp : pushed (g.pe r) s' with
        | none => exact Or.inr ⟨by rw [ho, hp], hl.1⟩
        | some pd =>
          obtain ⟨h1, h2⟩ := covered_of e hp (direct_rma (by cases nbi <;> rfl)) hl.2
          exact Or.inl ⟨pd, by rw [ho, hp], by rw [h2, hi.ep]; exact hl.1, h1⟩
  | amoRet p tgt ctx addr rr ty api gpu mode s' hf hm hty hkr e hr d =>
    rcases at_afterRet ha with h | ⟨rfl, ho, h⟩
    · exact old h (fun _ => rfl)
    · refine ⟨_, List.mem_append.mpr (Or.inr (List.mem_singleton.mpr rfl)), ?_, _, rfl, fun L hl => Or.inr ⟨ho, hl.1⟩⟩
      simp only [List.mem_singleton] at h
      subst h
      exact hk
  | amo p tgt ctx addr rr ty api gpu mode s' hf hm hty hkr e hr d =>
    rcases at_after ha with h | ⟨rfl, ho, h⟩
    · exact old h (fun _ => rfl)
    · refine ⟨_, List.mem_append.mpr (Or.inr (List.mem_singleton.mpr rfl)), ?_, _, rfl, fun L hl => ?_⟩
      · simp only [List.mem_singleton] at h
        subst h
        exact hk
      · cases hp : pushed (g.pe r) s' with
        | none => exact Or.inr ⟨by rw [ho, hp], hl.1⟩
        | some pd =>
          obtain ⟨h1, h2⟩ := covered_of e hp direct_amo hl.2
          exact Or.inl ⟨pd, by rw [ho, hp], by rw [h2, hi.ep]; exact hl.1, h1⟩
  | store p a v hf => exact old ha (fun _ => rfl)
  | poll p addr r n mode hf hm hr => exact old ha (fun _ => rfl)
  | touch p ws hf => exact old ha (fun _ => rfl)
  | call p op s' hf l hop e d =>
    rcases at_after ha with h | ⟨_, _, h⟩
    · exact old h (fun _ => rfl)
    · cases h
  | enter p s' hf e d =>
    have ha' : At (after g p s' []) a r own := ha
    rcases at_after ha' with h | ⟨_, _, h⟩
    · refine old h (fun hn => ?_)
      simp only [upd_at]
      split
      · rename_i er
        subst er
        rcases h with ⟨x, _, ho, _⟩ | ⟨_, hb⟩
        · rw [ho] at hn; cases hn
        · rw [hf.2.2] at hb; cases hb
      · rfl
    · cases h
  | leave p hp h0 ha' => exact old ha (fun _ => rfl)
  | perform q l1 l2 pd t1 t2 b m' hq hl e =>
    rcases hw with h | h
    · exact old h (fun _ => rfl)
    · exact absurd rfl h.1
  | performBusy q t1 t2 b m' hq hl e =>
    rcases hw with h | h
    · exact old h (fun _ => rfl)
    · exact absurd rfl h.1
  | fin q done hq d =>
    rcases hw with h | h
    · exact old h (fun _ => rfl)
    · exact absurd rfl h.1

theorem traced_run {S : Sys} {k : Nat × Int} {l l2 : List Ev} {g g' : G} (hi : GI S g) (ht : Traced S k l g)
    (h : Run S g l2 g') : Traced S k (l ++ l2) g' := by
  induction h generalizing l with
  | nil g => simpa using ht
  | cons s r ih =>
    have := ih (gi_step hi s) (traced_step hi ht s)
    simpa using this

theorem noWriter_init (m : Mems) (k : Nat × Int) : NoWriter (ginit m) k := by
  rintro a ⟨r, own, (⟨x, hx, _⟩ | ⟨_, h⟩)⟩ _
  · cases hx
  · cases h

/-- If nothing in flight writes a byte, and every call made since then that writes it was made before a barrier that some PE
has left meanwhile, nothing in flight writes it. -/
theorem noWriter_settled {S : Sys} {l : List Ev} {g0 g : G} (h0 : GI S g0) {k : Nat × Int} (hn : NoWriter g0 k)
    (h : Run S g0 l g) {p : Nat} (hp : p < S.npes) (hl : ∀ e ∈ l, e.writes k → e.Settled S (g.lv p)) : NoWriter g k := by
  have hi := gi_run h0 h
  have ht : Traced S k l g := by
    have := traced_run (l := []) h0 (fun a r own ha hk => absurd hk (hn a ⟨r, own, ha⟩)) h
    simpa using this
  rintro a ⟨r, own, ha⟩ hk
  have hr : r < S.npes := by
    by_contra hn
    obtain ⟨h1, h2⟩ := hi.pes r (by omega)
    rcases ha with ⟨x, hx, _⟩ | ⟨_, hb⟩
    · rw [h1] at hx; cases hx
    · rw [h2] at hb; cases hb
  have hlv := hi.lv p hp r hr
  obtain ⟨e, he, hw, ep, _, hL⟩ := ht a r own ha hk
  rcases hL _ (hl e he hw) with ⟨pd, ho, h1, h2⟩ | ⟨_, h1⟩
  · rcases ha with ⟨x, hx, ho', _⟩ | ⟨hn, _⟩
    · rw [ho'] at ho
      cases ho
      have := hi.cov r _ (hi.fly r x hx) h2
      omega
    · rw [ho] at hn; cases hn
  · omega

/-! ## One written byte -/

/-- What is in flight that writes byte `k` belongs to operation `own` of PE `q` and gives the byte the value `v` (for an access
that copies: from `src`, which nothing in flight writes and which holds `v`); if there is nothing left, the byte holds `v`. -/
structure Only (g : G) (q : Nat) (own : Option Pend) (src : Option (Nat × Int)) (k : Nat × Int) (v : BitVec 8) : Prop where
  only : ∀ a r o, At g a r o → a.writes k → r = q ∧ o = own ∧
    (a = .set k.1 k.2 v ∨ ∃ k', src = some k' ∧ a = .mv k'.1 k'.2 k.1 k.2)
  src : ∀ k', src = some k' → NoWriter g k' ∧ g.mem k'.1 k'.2 = v
  val : g.mem k.1 k.2 = v ∨ ∃ a, At g a q own ∧ a.writes k

theorem only_step {S : Sys} {g g' : G} {ev : Ev} {q : Nat} {own : Option Pend} {src : Option (Nat × Int)} {k : Nat × Int}
    {v : BitVec 8} (ho : Only g q own src k v) (h : Step S g ev g') (hk : ¬ ev.writes k)
    (hs : ∀ k', src = some k' → ¬ ev.writes k') : Only g' q own src k v := by
  have good : ∀ b, Flies g b → b.writes k → b.perform S.fp S.junk g.mem = .ok g'.mem → g'.mem k.1 k.2 = v := by
    rintro b ⟨r, o, hb⟩ hw e
    rcases (ho.only b r o hb hw).2.2 with rfl | ⟨k', hk', rfl⟩
    · simp only [Atom.perform, Res.ok.injEq] at e
      rw [← e]
      simp
    · simp only [Atom.perform, Res.ok.injEq] at e
      rw [← e, ← (ho.src k' hk').2]
      simp
  refine ⟨?_, ?_, ?_⟩
  · intro a r o ha hw
    rcases at_step h ha with h1 | h1
    · exact ho.only a r o h1 hw
    · exact absurd (h1.2 k hw) hk
  · intro k' hk'
    obtain ⟨h1, h2⟩ := ho.src k' hk'
    obtain ⟨h3, h4⟩ := noWriter_step h h1 (hs k' hk')
    exact ⟨h3, h4.trans h2⟩
  · rcases ho.val with hv | ⟨a, ha, hw⟩
    · rcases mem_cases h hk with h1 | ⟨b, hb, hbw, e⟩
      · exact Or.inl (h1.trans hv)
      · exact Or.inl (good b hb hbw e)
    · rcases at_keep h ha with h1 | h1
      · exact Or.inr ⟨a, h1, hw⟩
      · exact Or.inl (good a ⟨q, own, ha⟩ hw h1)

theorem only_run {S : Sys} {g g' : G} {l : List Ev} {q : Nat} {own : Option Pend} {src : Option (Nat × Int)} {k : Nat × Int}
    {v : BitVec 8} (ho : Only g q own src k v) (h : Run S g l g') (hk : ∀ e ∈ l, ¬ e.writes k)
    (hs : ∀ k', src = some k' → ∀ e ∈ l, ¬ e.writes k') : Only g' q own src k v := by
  induction h with
  | nil g => exact ho
  | cons s r ih =>
    exact ih (only_step ho s (hk _ (List.mem_cons_self ..)) (fun k' h => hs k' h _ (List.mem_cons_self ..)))
      (fun e h => hk e (List.mem_cons_of_mem _ h)) (fun k' h e he => hs k' h e (List.mem_cons_of_mem _ he))

/-- the operation has been completed: the byte holds the value, and nothing in flight writes it -/
theorem only_done {g : G} {q : Nat} {own : Option Pend} {src : Option (Nat × Int)} {k : Nat × Int} {v : BitVec 8}
    (ho : Only g q own src k v) (hd : ∀ a, ¬ At g a q own) : g.mem k.1 k.2 = v ∧ NoWriter g k := by
  constructor
  · rcases ho.val with h | ⟨a, ha, _⟩
    · exact h
    · exact absurd ha (hd a)
  · rintro a ⟨r, o, ha⟩ hw
    obtain ⟨rfl, rfl, _⟩ := ho.only a r o ha hw
    exact hd a ha

/-- quiet and fence complete everything of their PE -/
theorem quiet_step {S : Sys} {g g' : G} (hi : GI S g) {q : Nat} {op : Op} (hop : op = .quiet none ∨ op = .fence none)
    (h : Step S g (.call q op) g') : g'.fly q = [] ∧ g'.busy q = [] := by
  cases h with
  | call p op s' hf l hop' e d =>
    have e' : Order.quiet (S.cf q) (g.pe q) none = .ok s' := by
      rcases hop with rfl | rfl
      · exact e
      · rw [← Order.fence_quiet]; exact e
    have hp := (Order.quiet_none (hi.inv q) e').2.1
    have hpu : pushed (g.pe q) s' = none := by unfold pushed; rw [if_neg (by rw [hp]; simp)]
    simp only [after, upd_at, if_true, hpu]
    refine ⟨?_, trivial⟩
    unfold settle
    rw [hp]
    simp

/-- while a call is being made, a put leaves its bytes in flight (or has none) -/
theorem put_only {S : Sys} {g g' : G} (hi : GI S g) {q t : Nat} {nbi : Bool} {ctx : Option (Nat × Nat)} {addr : BitVec 64}
    {xs : List (Int × Int)} {ep : Nat} (h : Step S g (.put q t nbi ctx addr xs ep) g') {x : Int × Int} (hx : x ∈ xs)
    (hu : ∀ y ∈ xs, y.1 = x.1 → y = x) (hn : NoWriter g (t, x.1))
    (hs : nbi = true → NoWriter g (q, x.2) ∧ ¬ (Ev.put q t nbi ctx addr xs ep).writes (q, x.2)) :
    q < S.npes ∧ ep = g.arr q ∧ ep = g.lv q ∧ ∃ pd, pd ∈ (g'.pe q).pend ∧ pd.ep = ep ∧ Only g' q (some pd) (if nbi then some (q, x.2) else none) (t, x.1) (g.mem q x.2) ∧
      (BarCov (S.cf q) ((S.cf q).rma == .am) ctx addr → Order.Covered (S.cf q) pd) := by
  have hgi' := gi_step hi h
  have h' := h
  cases h with
  | put p tgt nbi ctx addr src n gpu mode oc tc oty tty xs s' hf hm e hxs d =>
    have hn0 : n ≠ 0 := by
      intro h0
      rw [if_pos h0] at hxs
      rw [hxs] at hx
      cases hx
    obtain ⟨pd, hp⟩ : ∃ pd, pushed (g.pe q) s' = some pd := by
      rcases pushed_issue e with ⟨_, h⟩ | ⟨pd, h, _⟩
      · exfalso
        cases nbi <;> simp [Order.Kind.leaves, Order.Kind.amLeaves, hn0] at h
      · exact ⟨pd, h⟩
    refine ⟨hf.1, rfl, hf.2.1, pd, ?_, by rw [ep_issue e hp, hi.ep], ⟨?_, ?_, ?_⟩, ?_⟩
    · unfold pushed at hp
      split at hp
      · simp only [after, upd_at, if_true]
        exact List.mem_of_getLast? hp
      · cases hp
    · intro a r o ha hw
      rcases at_after ha with h | ⟨rfl, ho, h⟩
      · exact absurd hw (hn a ⟨r, o, h⟩)
      · refine ⟨rfl, ho.trans hp, ?_⟩
        obtain ⟨y, hy, rfl⟩ := List.mem_map.mp h
        cases nbi
        · simp only [Bool.false_eq_true, if_false, Atom.writes, Prod.mk.injEq] at hw
          obtain rfl := hu y hy hw.2.symm
          exact Or.inl rfl
        · simp only [if_true, Atom.writes, Prod.mk.injEq] at hw
          obtain rfl := hu y hy hw.2.symm
          exact Or.inr ⟨_, rfl, rfl⟩
    · intro k' hk'
      cases nbi
      · cases hk'
      · cases hk'
        obtain ⟨h1, h2⟩ := hs rfl
        exact noWriter_step h' h1 h2
    · right
      refine ⟨if nbi then .mv q x.2 t x.1 else .set t x.1 (g.mem q x.2), Or.inl ⟨⟨pd, xs.map fun x =>
        if nbi then .mv q x.2 t x.1 else .set t x.1 (g.mem q x.2)⟩, ?_, rfl, List.mem_map.mpr ⟨x, hx, rfl⟩⟩, ?_⟩
      · simp only [after, upd_at, if_true, hp]
        exact List.mem_append.mpr (Or.inr (List.mem_singleton.mpr rfl))
      · cases nbi <;> rfl
    · intro hc
      exact (covered_of e hp (direct_rma (by cases nbi <;> rfl)) hc).1

end Verif.Vis
