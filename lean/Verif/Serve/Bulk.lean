import Verif.Serve.Fair

/-!
# C101: bulk-synchronous programs end

Programs in which every PE makes any calls that need no other PE's call, interspersed with the
same number of barriers, allocations and deallocations, and then finalizes.
-/

namespace Verif.Serve

variable {M : Type}

/-- The collective calls on all PEs (not finalize). -/
def Call.World : Call M → Prop
  | .barrierAll => True
  | .syncAll => True
  | .alloc _ => True
  | .free _ => True
  | .local' _ => False
  | .putAm _ _ => False
  | .getAm _ _ => False
  | .amoPostAm _ _ => False
  | .amoFetchAm _ _ => False
  | .quiet => False
  | .waitUntil _ => False
  | .test _ => False
  | .setLock _ _ => False
  | .clearLock _ _ _ => False
  | .testLock _ => False
  | .teamColl _ _ => False
  | .teamSplit _ => False
  | .teamSplit2d _ => False
  | .teamDestroy _ => False
  | .asetBarrier _ _ _ => False
  | .asetColl _ _ _ _ => False
  | .asetBcastOut _ _ _ _ => False
  | .spaceAttach _ => False
  | .spaceDetach _ => False
  | .finalize => False

theorem flush_alone (out : Nat → Bool) (n : Nat) :
    ∀ x ∈ (flush out (List.range n) : List (Prim M)), x.alone n := by
  intro x hx
  obtain ⟨t, ht, rfl⟩ := List.mem_map.mp hx
  exact List.mem_range.mp (List.mem_filter.mp ht).1

theorem expand_world (S : Cfg) (kn : List (Nat × Nat × Nat)) (out : Nat → Bool) (c : Call M)
    (h : c.World) : ∃ pre k post, expand S kn out c = pre ++ .coll .world k :: post ∧
      (∀ x ∈ pre, x.alone S.n) ∧ ∀ x ∈ post, x.alone S.n := by
  cases c with
  | barrierAll => exact ⟨_, .barrier, [], rfl, flush_alone _ _, nofun⟩
  | syncAll => exact ⟨[], .barrier, [], rfl, nofun, nofun⟩
  | alloc f =>
    refine ⟨.act f :: flush out (List.range S.n), .barrier, [], rfl, ?_, nofun⟩
    intro x hx
    rcases List.mem_cons.mp hx with rfl | hx
    · trivial
    · exact flush_alone _ _ x hx
  | free f =>
    refine ⟨flush out (List.range S.n), .barrier, [.act f], ?_, flush_alone _ _, ?_⟩
    · show barrierAll S out ++ [.act f] = _
      unfold barrierAll
      rw [List.append_assoc]; rfl
    · intro x hx
      rw [List.mem_singleton.mp hx]; trivial
  | local' _ => exact h.elim
  | putAm _ _ => exact h.elim
  | getAm _ _ => exact h.elim
  | amoPostAm _ _ => exact h.elim
  | amoFetchAm _ _ => exact h.elim
  | quiet => exact h.elim
  | waitUntil _ => exact h.elim
  | test _ => exact h.elim
  | setLock _ _ => exact h.elim
  | clearLock _ _ _ => exact h.elim
  | testLock _ => exact h.elim
  | teamColl _ _ => exact h.elim
  | teamSplit _ => exact h.elim
  | teamSplit2d _ => exact h.elim
  | teamDestroy _ => exact h.elim
  | asetBarrier _ _ _ => exact h.elim
  | asetColl _ _ _ _ => exact h.elim
  | asetBcastOut _ _ _ _ => exact h.elim
  | spaceAttach _ => exact h.elim
  | spaceDetach _ => exact h.elim
  | finalize => exact h.elim

/-- The first call after the `r`-th collective one, which is number `pos r`. -/
def after (pos : Nat → Nat) : Nat → Nat
  | 0 => 0
  | r + 1 => pos r + 1

/-- A bulk-synchronous program: each PE makes `N` collective calls on all PEs, the `r`-th of
PE `p` as its call number `pos p r`, then finalizes; its other calls need no other PE's
call.  All may depend on the state. -/
structure Bulk (S : Cfg) (prog : Nat → Nat → M → Call M) (N : Nat) (pos : Nat → Nat → Nat) :
    Prop where
  le : ∀ p, p < S.n → ∀ r, r ≤ N → after (pos p) r ≤ pos p r
  alone : ∀ p, p < S.n → ∀ r, r ≤ N → ∀ k, after (pos p) r ≤ k → k < pos p r →
    ∀ m, (prog p k m).Alone S.n
  world : ∀ p, p < S.n → ∀ r, r < N → ∀ m, (prog p (pos p r) m).World
  fin : ∀ p, p < S.n → ∀ m, prog p (pos p N) m = .finalize

section
variable {S : Cfg} {prog : Nat → Nat → M → Call M} {free : Bool} {m : M}

/-- a PE that stays as it is enters nothing -/
theorem cnt_still {g g' : Job M} (h : Step S prog free g g') (p : Nat) (he : g'.pe p = g.pe p)
    (c : Comm) : g'.cnt c p = g.cnt c p := by
  cases h with
  | start r _ h => rfl
  | act r _ f l h => rfl
  | poll r _ l h => rfl
  | send r _ t f b l h hw' => rfl
  | handle u hu a b x hx hf hs => rfl
  | enter r _ d k l h hi =>
    show (if c = d then upd (g.cnt c) r (g.cnt c r + 1) else g.cnt c) p = _
    by_cases e : c = d
    · rw [if_pos e]
      by_cases e' : p = r
      · exfalso
        subst e'
        replace he : upd g.pe p { g.pe p with inside := true } p = g.pe p := he
        rw [upd_same] at he
        rw [← he] at hi
        cases hi
      · rw [upd_ne _ _ e']
    · rw [if_neg e]
  | leave r _ c k l h hi _ => rfl
  | pass r _ b l h hb => rfl

/-- a PE enters the collective it is about to enter -/
theorem enters (R : Exec S prog free m) (L : S.Mpi) (F : R.Fair) {p i : Nat} (hp : p < S.n)
    {c : Comm} {k : Mpi} {l : List (Prim M)} (hr : ((R.st i).pe p).rem = .coll c k :: l)
    (hi : ((R.st i).pe p).inside = false) :
    ∃ j, i ≤ j ∧ (R.st j).pe p = { (R.st i).pe p with inside := true } ∧
      (R.st j).cnt c p = (R.st i).cnt c p + 1 := by
  obtain ⟨j, hj, e0, e2⟩ := Exec.goes F hp (i := i)
    (fun j _ e => by unfold Ready; rw [e, hr]; exact .inl hi)
  have e1 := e0 j hj (Nat.le_refl _)
  have kc : (R.st j).cnt c p = (R.st i).cnt c p := by
    have step : ∀ k, i ≤ k → k + 1 ≤ j → (R.st (k + 1)).cnt c p = (R.st k).cnt c p := by
      intro k h1 h2
      rcases R.next k with e | e
      · rw [e]
      · exact cnt_still e p (by rw [e0 (k + 1) (by omega) h2, e0 k h1 (by omega)]) c
    obtain ⟨d, rfl⟩ := Nat.exists_eq_add_of_le hj
    clear e0 e1 e2 hj
    induction d with
    | zero => rfl
    | succ d ih =>
      rw [show i + (d + 1) = i + d + 1 from rfl, step (i + d) (by omega) (by omega)]
      exact ih (fun k h1 h2 => step k h1 (by omega))
  refine ⟨j + 1, by omega, ?_⟩
  have hs : Step S prog free (R.st j) (R.st (j + 1)) := by
    rcases R.next j with h | h
    · rw [h, e1] at e2; exact absurd rfl e2
    · exact h
  rw [← e1] at hr hi e2 ⊢
  rw [← kc]
  have I := R.inv L j
  clear kc e0 e1 hj
  generalize R.st j = g at *
  generalize R.st (j + 1) = g' at *
  have no : ∀ (r : Nat) (q : Pe M), (r = p → False) → upd g.pe r q p ≠ g.pe p → False := by
    intro r q h1 h2
    by_cases e : p = r
    · exact h1 e.symm
    · rw [upd_ne _ _ e] at h2; exact h2 rfl
  cases hs with
  | start r _ h => exact (no r _ (fun e => by subst e; rw [hr] at h; cases h) e2).elim
  | act r _ f l h => exact (no r _ (fun e => by subst e; rw [hr] at h; cases h) e2).elim
  | poll r _ l h => exact (no r _ (fun e => by subst e; rw [hr] at h; cases h) e2).elim
  | send r _ t f b l h hw' => exact (no r _ (fun e => by subst e; rw [hr] at h; cases h) e2).elim
  | handle u hu a b x hx hf hs =>
    exfalso
    cases ex : x.reply with
    | false => rw [ex] at e2; exact e2 rfl
    | true =>
      rw [ex] at e2
      obtain ⟨-, l', e'⟩ := I.req u x (hx ▸ List.mem_append_right _ List.mem_cons_self) ex
      exact no x.src _ (fun h => by rw [h, hr] at e'; cases e') e2
  | enter r _ d k' l' h hi' =>
    by_cases e : p = r
    · subst e
      rw [hr] at h
      cases h
      refine ⟨upd_same _ _ _, ?_⟩
      show (if c = c then upd (g.cnt c) p (g.cnt c p + 1) else g.cnt c) p = _
      rw [if_pos rfl, upd_same]
    · exact (no r _ (fun e' => e e'.symm) e2).elim
  | leave r _ c k l h hi' _ =>
    exact (no r _ (fun e => by subst e; rw [hi] at hi'; cases hi') e2).elim
  | pass r _ b l h hb => exact (no r _ (fun e => by subst e; rw [hr] at h; cases h) e2).elim

/-- a PE that is between two calls starts the next one -/
theorem starts (R : Exec S prog free m) (L : S.Mpi) (F : R.Fair) {p i : Nat} (hp : p < S.n)
    (hr : ((R.st i).pe p).rem = []) :
    ∃ j m', i ≤ j ∧ (R.st j).pe p =
        begin' S ((R.st i).pe p) (prog p ((R.st i).pe p).calls m') ∧
      ∀ c, (R.st j).cnt c p = (R.st i).cnt c p := by
  obtain ⟨j, hj, e0, e2⟩ := Exec.goes F hp (i := i)
    (fun j _ e => by unfold Ready; rw [e, hr]; trivial)
  have e1 := e0 j hj (Nat.le_refl _)
  refine ⟨j + 1, (R.st j).mem, by omega, ?_, R.cnt_const hj e0 (fun c k l' e => by rw [hr] at e; cases e)⟩
  have mv := R.moved L j p
  rw [← e1] at hr e2 ⊢
  cases mv with
  | same h => exact absurd h e2
  | start h e => exact e
  | act f' l' h e => rw [hr] at h; cases h
  | poll l' h e => rw [hr] at h; cases h
  | send t' f' r' l' h hw e hf => rw [hr] at h; cases h
  | answer t' f' l' h hw' e => rw [hr] at h; cases h
  | enter c k l' h hi e => rw [hr] at h; cases h
  | leave c k l' h hi e => rw [hr] at h; cases h
  | pass b l' h hb e => rw [hr] at h; cases h

/-- PE `p` is about to make call number `k` and entered `r` collectives on all PEs. -/
def Between (g : Job M) (p k r : Nat) : Prop :=
  (g.pe p).rem = [] ∧ (g.pe p).calls = k ∧ g.cnt .world p = r

theorem between_skip (R : Exec S prog false m) (L : S.Mpi) (F : R.Fair) (hl : Live S prog m)
    {p r : Nat} (hp : p < S.n) (d k i : Nat) (h : Between (R.st i) p k r)
    (ha : ∀ k', k ≤ k' → k' < k + d → ∀ m, (prog p k' m).Alone S.n) :
    ∃ j, Between (R.st j) p (k + d) r := by
  induction d with
  | zero => exact ⟨i, h⟩
  | succ d ih =>
    obtain ⟨j, h1, h2, h3⟩ := ih (fun k' a b => ha k' a (by omega))
    obtain ⟨j1, m', -, e, hc⟩ := starts R L F hp h1
    rw [h2] at e
    obtain ⟨j2, -, e2, hc2⟩ := alone_ends R L F hl p hp _ []
      (expand_alone S _ _ _ (ha (k + d) (by omega) (by omega) m')) j1
      (by rw [e, List.append_nil]; rfl) (by rw [e]; rfl)
    refine ⟨j2, by rw [e2], ?_, by rw [hc2, hc, h3]⟩
    rw [e2, e]
    show ((R.st j).pe p).calls + 1 = _
    rw [h2]; rfl

theorem bulk_rounds (R : Exec S prog false m) (L : S.Mpi) (F : R.Fair) (hl : Live S prog m)
    {N : Nat} {pos : Nat → Nat → Nat} (B : Bulk S prog N pos) (r : Nat) (hr : r ≤ N) :
    ∀ p, p < S.n → ∃ i, Between (R.st i) p (pos p r) r := by
  induction r with
  | zero =>
    intro p hp
    have h0 : Between (R.st 0) p 0 0 := by rw [R.start]; exact ⟨rfl, rfl, rfl⟩
    have := between_skip R L F hl hp (pos p 0) 0 0 h0
      (fun k' h1 h2 => B.alone p hp 0 hr k' h1 (by omega))
    rwa [Nat.zero_add] at this
  | succ r ih =>
    -- everybody enters
    have ent : ∀ p, p < S.n → ∃ i k post, ((R.st i).pe p).rem = .coll .world k :: post ∧
        ((R.st i).pe p).inside = true ∧ ((R.st i).pe p).waiting = false ∧
        ((R.st i).pe p).calls = pos p r + 1 ∧ (R.st i).cnt .world p = r + 1 ∧
        ∀ x ∈ post, x.alone S.n := by
      intro p hp
      obtain ⟨i, h1, h2, h3⟩ := ih (by omega) p hp
      obtain ⟨j, m', -, e, hc⟩ := starts R L F hp h1
      rw [h2] at e
      obtain ⟨pre, k, post, ex, a1, a2⟩ := expand_world S ((R.st i).pe p).known ((R.st i).pe p).out _
        (B.world p hp r (by omega) m')
      obtain ⟨j2, -, e2, hc2⟩ := alone_ends R L F hl p hp pre (.coll .world k :: post) a1 j
        (by rw [e]; exact ex) (by rw [e]; rfl)
      obtain ⟨j3, -, e3, hc3⟩ := enters R L F hp (i := j2) (by rw [e2]) (by rw [e2, e]; rfl)
      refine ⟨j3, k, post, by rw [e3, e2], by rw [e3], by rw [e3, e2, e]; rfl, ?_, ?_, a2⟩
      · rw [e3, e2, e]
        show ((R.st i).pe p).calls + 1 = _
        rw [h2]
      · rw [hc3, hc2, hc, h3]
    intro p hp
    obtain ⟨i, k, post, h1, h2, h3, h4, h5, h6⟩ := ent p hp
    obtain ⟨j, -, e, hc⟩ := C101_collective R L F p i hp .world k post h1 h2 (fun q hq => by
      obtain ⟨i', -, -, -, -, -, -, h, -⟩ := ent q (List.mem_range.mp hq)
      exact ⟨i', by rw [h5, h]; exact Nat.le_refl _⟩)
    obtain ⟨j2, -, e2, hc2⟩ := alone_ends R L F hl p hp post [] h6 j (by rw [e, List.append_nil])
      (by rw [e]; exact h3)
    have hb : Between (R.st j2) p (pos p r + 1) (r + 1) :=
      ⟨by rw [e2], by rw [e2, e]; exact h4, by rw [hc2, hc, h5]⟩
    have hle := B.le p hp (r + 1) hr
    obtain ⟨d, hd⟩ := Nat.exists_eq_add_of_le hle
    rw [hd]
    exact between_skip R L F hl hp d _ j2 hb
      (fun k' h1 h2 => B.alone p hp (r + 1) hr k' h1 (by omega))

/-- through `shmem_finalize` for ever -/
theorem stop_stays (R : Exec S prog free m) (L : S.Mpi) {p i : Nat}
    (h : ((R.st i).pe p).rem = [.stop]) (d : Nat) : ((R.st (i + d)).pe p).rem = [.stop] := by
  induction d with
  | zero => exact h
  | succ d ih =>
    have mv := R.moved L (i + d) p
    rw [show i + (d + 1) = i + d + 1 from rfl]
    cases mv with
    | same h => rw [h]; exact ih
    | start h e => rw [ih] at h; cases h
    | act f' l' h e => rw [ih] at h; cases h
    | poll l' h e => rw [ih] at h; cases h
    | send t' f' r' l' h hw e hf => rw [ih] at h; cases h
    | answer t' f' l' h hw' e => rw [ih] at h; cases h
    | enter c k l' h hi e => rw [ih] at h; cases h
    | leave c k l' h hi e => rw [ih] at h; cases h
    | pass b l' h hb e => rw [ih] at h; cases h

end

/-- Every bulk-synchronous program ends in every fair execution, whatever goes over active
messages in between. -/
theorem C101_bulk {S : Cfg} {prog : Nat → Nat → M → Call M} {m : M} (R : Exec S prog false m)
    (L : S.Mpi) (F : R.Fair) (hl : Live S prog m) (N : Nat) (pos : Nat → Nat → Nat)
    (B : Bulk S prog N pos) : ∃ i, Done S (R.st i) := by
  have ent : ∀ p, p < S.n → ∃ i, ((R.st i).pe p).rem = [.coll .finalize .barrier, .stop] ∧
      ((R.st i).pe p).inside = true ∧ 1 ≤ (R.st i).cnt .finalize p := by
    intro p hp
    obtain ⟨i, h1, h2, -⟩ := bulk_rounds R L F hl B N (Nat.le_refl _) p hp
    obtain ⟨j, m', -, e, -⟩ := starts R L F hp h1
    rw [h2, B.fin p hp m'] at e
    obtain ⟨j2, -, e2, hc⟩ := enters R L F hp (i := j) (c := .finalize) (k := .barrier) (l := [.stop])
      (by rw [e]; rfl) (by rw [e]; rfl)
    exact ⟨j2, by rw [e2, e]; rfl, by rw [e2], by rw [hc]; omega⟩
  have fin : ∀ p, p < S.n → ∃ i, ((R.st i).pe p).rem = [.stop] := by
    intro p hp
    obtain ⟨i, h1, h2, h3⟩ := ent p hp
    obtain ⟨j, -, e, -⟩ := C101_collective R L F p i hp .finalize .barrier [.stop] h1 h2 (fun q hq => by
      obtain ⟨i', -, -, h⟩ := ent q (List.mem_range.mp hq)
      exact ⟨i', Nat.le_trans ((R.inv L i).le p) h⟩)
    exact ⟨j, by rw [e]⟩
  have all : ∀ k, k ≤ S.n → ∃ T, ∀ p, p < k → ((R.st T).pe p).rem = [.stop] := by
    intro k
    induction k with
    | zero => exact fun _ => ⟨0, nofun⟩
    | succ k ih =>
      intro hk
      obtain ⟨T, hT⟩ := ih (by omega)
      obtain ⟨i, hi⟩ := fin k (by omega)
      refine ⟨T + i, fun p hp => ?_⟩
      by_cases e : p = k
      · subst e
        rw [Nat.add_comm]
        exact stop_stays R L hi T
      · exact stop_stays R L (hT p (by omega)) i
  exact all S.n (Nat.le_refl _)

end Verif.Serve
