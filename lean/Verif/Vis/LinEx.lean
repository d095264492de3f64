import Verif.Vis.Spin
import Verif.Vis.Ex
/-!
# AMOs with results: concrete executions

Two PEs on a `long` of PE 1 that holds 0.
-/
namespace Verif.Vis
open Verif.Sobj Verif.Rma
open Verif.Order (St Pend Cfg Op)

/-- the access of an AMO on the word -/
def exU (api : Amo.Api) : Atom := .upd 1 0x20018 .long api false

/-- the state of a PE after its AMO -/
def exPd : St := Order.init.push ⟨.win 1, 1, none, .heap, 0⟩

/-- PE 0 calls an AMO that returns a value -/
def exG1 (api : Amo.Api) : G := afterRet (ginit exM) 0 exPd [exU api]

theorem exStep1 {api : Amo.Api} (h : returns api = true) (ht : Amo.TyIdx.long ∈ api.types) (hk : amoKind api = .fetch false ∨ amoKind api = .cswap) :
    Step (exS true) (ginit exM) (.amo 0 1 none 0x10018#64 0x20018 .long api 0) (exG1 api) := by
  have := Step.amoRet (S := exS true) (g := ginit exM) 0 1 none 0x10018#64 0x20018#64 .long api true .rel exPd
    ⟨Nat.zero_lt_succ _, rfl, rfl⟩ (fun h => by cases h) ht h (by rcases hk with hk | hk <;> rw [hk] <;> rfl)
    (by rcases hk with hk | hk <;> rw [hk] <;> decide +kernel) (done_nil rfl)
  rcases hk with hk | hk <;> rw [hk] at this <;> exact this

/-- memory after an AMO by MPI on the word -/
def exMem (m : Mems) (api : Amo.Api) : Mems :=
  Function.update m 1 (unview (m 1) 0x20018 (Amo.direct (view (m 1) 0x20018) 0 .long api).1)

/-- what the AMO returns -/
def exRes (m : Mems) (api : Amo.Api) : Nat := (Amo.direct (view (m 1) 0x20018) 0 .long api).2

/-- PE 0 has made its AMO -/
def exG2 (api : Amo.Api) : G := { exG1 api with mem := exMem exM api, busy := Function.update (exG1 api).busy 0 ([] ++ []) }

theorem exStep2 (api : Amo.Api) : Step (exS true) (exG1 api) (.done 0 (exU api) (exRes exM api)) (exG2 api) :=
  Step.performBusy (S := exS true) (g := exG1 api) 0 [] [] (exU api) (exMem exM api) (Nat.zero_lt_succ _) rfl rfl

/-- PE 1 calls -/
def exG3 (api api' : Amo.Api) : G := afterRet (exG2 api) 1 exPd [exU api']

theorem exStep3 {api api' : Amo.Api} (h : returns api' = true) (ht : Amo.TyIdx.long ∈ api'.types)
    (hk : amoKind api' = .fetch false ∨ amoKind api' = .cswap) :
    Step (exS true) (exG2 api) (.amo 1 1 none 0x20018#64 0x20018 .long api' 0) (exG3 api api') := by
  have hpe : (exG2 api).pe 1 = Order.init := rfl
  have hpr : procs (exS true) (exG2 api) = procs (exS true) (ginit exM) := by
    funext q
    show (exCf true q).proc (Function.update (fun _ => Order.init) 0 exPd q) = (exCf true q).proc Order.init
    rw [upd_at]
    split
    · rfl
    · rfl
  have := Step.amoRet (S := exS true) (g := exG2 api) 1 1 none 0x20018#64 0x20018#64 .long api' true .rel exPd
    ⟨by decide, rfl, rfl⟩ (fun h => by cases h) ht h
    (by rw [hpe]; rcases hk with hk | hk <;> rw [hk] <;> rfl)
    (by rw [hpe, hpr]; rcases hk with hk | hk <;> rw [hk] <;> decide +kernel) (done_nil rfl)
  rcases hk with hk | hk <;> rw [hk] at this <;> exact this

/-- PE 1 has made its AMO -/
def exG4 (api api' : Amo.Api) : G :=
  { exG3 api api' with mem := exMem (exMem exM api) api', busy := Function.update (exG3 api api').busy 1 ([] ++ []) }

theorem exStep4 (api api' : Amo.Api) :
    Step (exS true) (exG3 api api') (.done 1 (exU api') (exRes (exMem exM api) api')) (exG4 api api') :=
  Step.performBusy (S := exS true) (g := exG3 api api') 1 [] [] (exU api') (exMem (exMem exM api) api') (by decide) rfl rfl

/-- the events -/
def exL (api api' : Amo.Api) : List Ev :=
  [.amo 0 1 none 0x10018#64 0x20018 .long api 0, .done 0 (exU api) (exRes exM api),
   .amo 1 1 none 0x20018#64 0x20018 .long api' 0, .done 1 (exU api') (exRes (exMem exM api) api')]

/-- two PEs, one AMO each -/
theorem exRun {api api' : Amo.Api} (h : returns api = true) (ht : Amo.TyIdx.long ∈ api.types)
    (hk : amoKind api = .fetch false ∨ amoKind api = .cswap) (h' : returns api' = true) (ht' : Amo.TyIdx.long ∈ api'.types)
    (hk' : amoKind api' = .fetch false ∨ amoKind api' = .cswap) :
    Run (exS true) (ginit exM) (exL api api') (exG4 api api') :=
  Run.cons (exStep1 h ht hk) (Run.cons (exStep2 api) (Run.cons (exStep3 h' ht' hk') (Run.cons (exStep4 api api') (Run.nil _))))

theorem exOnly {api api' : Amo.Api} {Q : Amo.Api → Prop} (h : Q api) (h' : Q api') :
    OnlyBy 1 0x20018 .long Q (exL api api') := by
  intro e he ht
  simp only [exL, List.mem_cons, List.not_mem_nil, or_false] at he
  rcases he with rfl | rfl | rfl | rfl
  · exact ⟨_, _, _, _, _, rfl, h⟩
  · obtain ⟨_, _, _, h⟩ := ht; exact absurd h (fun h => h)
  · exact ⟨_, _, _, _, _, rfl, h'⟩
  · obtain ⟨_, _, _, h⟩ := ht; exact absurd h (fun h => h)

/-- hypotheses of `C73_linear`, `C73_at_most_once`, `C74_prefix` and `C74_tickets` met: both PEs draw a ticket, they get 0 and 1 -/
example : acts 1 0x20018 .long (exL .finc .finc) = [(0, .finc, 0), (1, .finc, 1)] ∧
    Seq (wordAt ((ginit exM).mem 1) 0x20018 .long) [(0, .finc, 0), (1, .finc, 1)] (wordAt ((exG4 .finc .finc).mem 1) 0x20018 .long) ∧
    BitVec.ofNat 64 1 = wordAt ((ginit exM).mem 1) 0x20018 .long + BitVec.ofNat _ 1 := by
  have ha : acts 1 0x20018 .long (exL .finc .finc) = [(0, .finc, 0), (1, .finc, 1)] := by
    have h1 : exRes exM .finc = 0 := by decide +kernel
    have h2 : exRes (exMem exM .finc) .finc = 1 := by decide +kernel
    simp only [exL, exU, acts, h1, h2, and_self, if_true]
  have hr : Run (exS true) (ginit exM) (exL .finc .finc) (exG4 .finc .finc) :=
    exRun rfl (by decide) (Or.inl rfl) rfl (by decide) (Or.inl rfl)
  have ho : OnlyBy 1 0x20018 .long (fun api => api.addend = some 1) (exL .finc .finc) := exOnly rfl rfl
  refine ⟨ha, ?_, ?_⟩
  · have := C73_linear hr (fun y _ _ => noWriter_init _ _) (only_amo ho)
    rw [ha] at this
    exact this
  · have := (C74_tickets hr (fun y _ _ => noWriter_init _ _) ho).1 1 (1, .finc, 1) (by rw [ha]; rfl) rfl
    exact this

/-- `C73_once` on the same execution: both calls of both PEs are answered -/
example (q : Nat) : rets q (exL .finc .finc) = calls q (exL .finc .finc) :=
  (C73_once (exRun (api := .finc) (api' := .finc) rfl (by decide) (Or.inl rfl) rfl (by decide) (Or.inl rfl)) q).1
    (by
      show Function.update (exG3 .finc .finc).busy 1 ([] ++ []) q = []
      rw [upd_at]
      split
      · rfl
      · rename_i h1
        show Function.update (exG2 .finc).busy 1 _ q = []
        rw [upd_at, if_neg h1]
        show Function.update (exG1 .finc).busy 0 ([] ++ []) q = []
        rw [upd_at]
        split
        · rfl
        · rename_i h0
          show Function.update (ginit exM).busy 0 _ q = []
          rw [upd_at, if_neg h0]
          rfl)

/-- hypotheses of `C75_winner` and `C75_between` met: both PEs swap 0 for their number plus one; PE 0 wins -/
example : acts 1 0x20018 .long (exL (.cswap 0 1) (.cswap 0 2)) = [(0, .cswap 0 1, 0), (1, .cswap 0 2, 1)] ∧
    ∀ i d, (acts 1 0x20018 .long (exL (.cswap 0 1) (.cswap 0 2)))[i]? = some d →
      (BitVec.ofNat (8 * Amo.TyIdx.long.bytes) d.2.2 = BitVec.ofNat _ 0 ↔ i = 0) := by
  have h1 : exRes exM (.cswap 0 1) = 0 := by decide +kernel
  have h2 : exRes (exMem exM (.cswap 0 1)) (.cswap 0 2) = 1 := by decide +kernel
  refine ⟨by simp only [exL, exU, acts, h1, h2, and_self, if_true], ?_⟩
  exact C75_winner (exRun (api := .cswap 0 1) (api' := .cswap 0 2) rfl (by decide) (Or.inr rfl) rfl (by decide) (Or.inr rfl))
    (fun y _ _ => noWriter_init _ _) (exOnly ⟨1, rfl, by decide⟩ ⟨2, rfl, by decide⟩) (by decide +kernel)

/-! PE 0 takes the lock, releases it, PE 1 takes it. -/

/-- PE 0 calls the release -/
def exS3 : G := after (exG2 (.cswap 0 1)) 0 (exPd.push ⟨.win 1, 1, none, .heap, 0⟩) [exU (.set 0)]

theorem exProcs2 (api : Amo.Api) : procs (exS true) (exG2 api) = procs (exS true) (ginit exM) := by
  funext q
  show (exCf true q).proc (Function.update (fun _ => Order.init) 0 exPd q) = (exCf true q).proc Order.init
  rw [upd_at]
  split
  · rfl
  · rfl

theorem exSpin3 : Step (exS true) (exG2 (.cswap 0 1)) (.amo 0 1 none 0x10018#64 0x20018 .long (.set 0) 0) exS3 := by
  have hpe : (exG2 (.cswap 0 1)).pe 0 = exPd := rfl
  exact Step.amo (S := exS true) (g := exG2 (.cswap 0 1)) 0 1 none 0x10018#64 0x20018#64 .long (.set 0) true .rel
    (exPd.push ⟨.win 1, 1, none, .heap, 0⟩) ⟨by decide, rfl, rfl⟩ (fun h => by cases h) (by decide) rfl
    (by rw [hpe]; rfl) (by rw [hpe, exProcs2]; decide +kernel)
    (done_empty (fun x hx => by
      have hx : x ∈ [(⟨⟨.win 1, 1, none, .heap, 0⟩, []⟩ : Fly)] := hx
      rw [List.mem_singleton] at hx
      rw [hx]))

/-- the release is performed -/
def exS4 : G := { exS3 with
  mem := exMem (exMem exM (.cswap 0 1)) (.set 0)
  fly := Function.update exS3.fly 0 ([⟨⟨.win 1, 1, none, .heap, 0⟩, []⟩] ++ ⟨⟨.win 1, 1, none, .heap, 0⟩, [] ++ []⟩ :: []) }

theorem exSpin4 : Step (exS true) exS3 (.done 0 (exU (.set 0)) (exRes (exMem exM (.cswap 0 1)) (.set 0))) exS4 :=
  Step.perform (S := exS true) (g := exS3) 0 [⟨⟨.win 1, 1, none, .heap, 0⟩, []⟩] [] ⟨.win 1, 1, none, .heap, 0⟩ [] [] (exU (.set 0))
    (exMem (exMem exM (.cswap 0 1)) (.set 0)) (by decide) rfl rfl

/-- PE 1 tries -/
def exS5 : G := afterRet exS4 1 exPd [exU (.cswap 0 2)]

theorem exSpin5 : Step (exS true) exS4 (.amo 1 1 none 0x20018#64 0x20018 .long (.cswap 0 2) 0) exS5 := by
  have hpe : exS4.pe 1 = Order.init := rfl
  have hpr : procs (exS true) exS4 = procs (exS true) (ginit exM) := by
    funext q
    show (exCf true q).proc (Function.update (Function.update (fun _ => Order.init) 0 exPd) 0 _ q) = (exCf true q).proc Order.init
    rw [upd_at]
    split
    · rfl
    · rename_i h
      rw [upd_at, if_neg h]
  exact Step.amoRet (S := exS true) (g := exS4) 1 1 none 0x20018#64 0x20018#64 .long (.cswap 0 2) true .rel exPd
    ⟨by decide, rfl, rfl⟩ (fun h => by cases h) (by decide) rfl (by rw [hpe]; rfl) (by rw [hpe, hpr]; decide +kernel) (done_nil rfl)

/-- PE 1 got it -/
def exS6 : G := { exS5 with
  mem := exMem (exMem (exMem exM (.cswap 0 1)) (.set 0)) (.cswap 0 2)
  busy := Function.update exS5.busy 1 ([] ++ []) }

theorem exSpin6 : Step (exS true) exS5 (.done 1 (exU (.cswap 0 2)) (exRes (exMem (exMem exM (.cswap 0 1)) (.set 0)) (.cswap 0 2))) exS6 :=
  Step.performBusy (S := exS true) (g := exS5) 1 [] [] (exU (.cswap 0 2)) _ (by decide) rfl rfl

/-- the events -/
def exLs : List Ev :=
  [.amo 0 1 none 0x10018#64 0x20018 .long (.cswap 0 1) 0, .done 0 (exU (.cswap 0 1)) 0,
   .amo 0 1 none 0x10018#64 0x20018 .long (.set 0) 0, .done 0 (exU (.set 0)) (exRes (exMem exM (.cswap 0 1)) (.set 0)),
   .amo 1 1 none 0x20018#64 0x20018 .long (.cswap 0 2) 0, .done 1 (exU (.cswap 0 2)) 0]

theorem exSpinRun : Run (exS true) (ginit exM) exLs exS6 := by
  have h1 : exRes exM (.cswap 0 1) = 0 := by decide +kernel
  have h2 : exRes (exMem (exMem exM (.cswap 0 1)) (.set 0)) (.cswap 0 2) = 0 := by decide +kernel
  have s2 := exStep2 (.cswap 0 1)
  have s6 := exSpin6
  rw [h1] at s2
  rw [h2] at s6
  exact Run.cons (exStep1 rfl (by decide) (Or.inr rfl)) (Run.cons s2 (Run.cons exSpin3 (Run.cons exSpin4 (Run.cons exSpin5
    (Run.cons s6 (Run.nil _))))))

theorem exSpinOnly {Q : Amo.Api → Prop} (h1 : Q (.cswap 0 1)) (h2 : Q (.set 0)) (h3 : Q (.cswap 0 2)) :
    OnlyBy 1 0x20018 .long Q exLs := by
  intro e he ht
  simp only [exLs, List.mem_cons, List.not_mem_nil, or_false] at he
  rcases he with rfl | rfl | rfl | rfl | rfl | rfl
  · exact ⟨_, _, _, _, _, rfl, h1⟩
  · obtain ⟨_, _, _, h⟩ := ht; exact absurd h (fun h => h)
  · exact ⟨_, _, _, _, _, rfl, h2⟩
  · obtain ⟨_, _, _, h⟩ := ht; exact absurd h (fun h => h)
  · exact ⟨_, _, _, _, _, rfl, h3⟩
  · obtain ⟨_, _, _, h⟩ := ht; exact absurd h (fun h => h)

/-- hypotheses of `C75_between` met -/
example : ∃ d ∈ [((0 : Nat), Amo.Api.set 0, exRes (exMem exM (.cswap 0 1)) (.set 0))], ∃ x : BitVec (8 * Amo.TyIdx.long.bytes),
    x ≠ BitVec.ofNat _ 0 ∧ (Amo.spec x d.2.1).1 = BitVec.ofNat _ 0 :=
  C75_between (c := 0) exSpinRun (fun y _ _ => noWriter_init _ _) (only_amo (Q := fun _ => True) (exSpinOnly trivial trivial trivial))
    (l1 := []) (l3 := []) (q := 0) (q' := 1) (r := 0) (r' := 0) (v := 1) (v' := 2)
    (by simp only [exLs, exU, acts, and_self, if_true]; rfl) (by decide) rfl rfl

/-- hypotheses of `C76_spinlock` met: PE 1 is in its critical section, so PE 0 is not -/
example (q : Nat) (hq : relCalls q 1 0x20018 .long exLs < got (8 * Amo.TyIdx.long.bytes) q (acts 1 0x20018 .long exLs)) : q = 1 := by
  refine (C76_spinlock exSpinRun (fun y _ _ => noWriter_init _ _) (by decide +kernel)
    (exSpinOnly (Or.inl ⟨rfl, by decide⟩) (Or.inr rfl) (Or.inl ⟨rfl, by decide⟩)) ?_ q 1 hq (by decide +kernel)).1
  intro l1 l2 e p
  have hp : l1 <+: exLs := ⟨l2, e.symm⟩
  have hall : ∀ l ∈ exLs.inits, relCalls p 1 0x20018 .long l ≤ got (8 * Amo.TyIdx.long.bytes) p (acts 1 0x20018 .long l) := by
    by_cases h0 : p = 0
    · subst h0; decide +kernel
    · by_cases h1 : p = 1
      · subst h1; decide +kernel
      · have hr : ∀ l : List Ev, l ∈ exLs.inits → relCalls p 1 0x20018 .long l = 0 := by
          intro l hl
          unfold relCalls
          rw [List.countP_eq_zero]
          intro e he
          have he := (List.mem_inits _ _).mp hl |>.subset he
          simp only [exLs, List.mem_cons, List.not_mem_nil, or_false] at he
          rcases he with rfl | rfl | rfl | rfl | rfl | rfl <;> simp [Ev.isCall, Ne.symm h0, Ne.symm h1]
        intro l hl
        rw [hr l hl]
        exact Nat.zero_le _
  exact hall l1 ((List.mem_inits _ _).mpr hp)

/-- hypotheses of `C73_exactly_once_partial` met: PE 0 adds 5 to the word, both pass a barrier -/
example : ∃ g l, Run (exS true) (ginit exM) l g ∧ 0 < l.countP (Ev.isCall 0 fun i => decide (i.t = 1 ∧ i.a = 0x20018 ∧ i.ty = .long) && true) ∧
    ∀ q, l.countP (Ev.isDone q fun i => decide (i.t = 1 ∧ i.a = 0x20018 ∧ i.ty = .long) && true) =
      l.countP (Ev.isCall q fun i => decide (i.t = 1 ∧ i.a = 0x20018 ∧ i.ty = .long) && true) := by
  have st1 := Step.amo (S := exS true) (g := ginit exM) 0 1 none 0x10018#64 0x20018#64 .long (.add 5) true .rel
    (Order.init.push ⟨.win 1, 1, none, .heap, 0⟩) ⟨Nat.zero_lt_succ _, rfl, rfl⟩ (fun h => by cases h) (by decide) rfl rfl
    (by decide +kernel) (done_nil rfl)
  obtain ⟨m', hper⟩ : ∃ m', (Atom.upd 1 (0x20018#64).toInt .long (.add 5) false).perform (exS true).fp (exS true).junk
      (ginit exM).mem = .ok m' := ⟨_, rfl⟩
  obtain ⟨g, h2, hlv⟩ := exBarrier (g1 := after (ginit exM) 0 (Order.init.push ⟨.win 1, 1, none, .heap, 0⟩)
    [Atom.upd 1 (0x20018#64).toInt .long (.add 5) false]) rfl hper rfl
    (fun p => by
      show (Function.update _ _ _) p = _
      rw [upd_at]
      split
      · rfl
      · rfl) (fun p => ⟨rfl, rfl⟩) rfl rfl
  refine ⟨g, _, Run.cons st1 h2, ?_, fun q => ?_⟩
  · rw [List.countP_pos_iff]
    exact ⟨_, List.mem_cons_self .., rfl⟩
  · refine C73_exactly_once_partial (S := exS true) ⟨exM, [], Run.nil _⟩ (Run.cons st1 h2) (t := 1) (a := 0x20018) (ty := .long)
      (noWriter_init _ _) (p := 1) (by decide) ?_ q (fun _ => true)
    intro e he
    simp only [List.mem_cons, List.not_mem_nil, or_false] at he
    rcases he with rfl | rfl | rfl | rfl | rfl
    · exact fun _ => ⟨by rw [hlv]; exact Nat.zero_lt_one, Or.inr ⟨rfl, Or.inr (Or.inl (by decide +kernel))⟩⟩
    all_goals
      rintro ⟨_, _, _, h⟩
      exact absurd h (fun h => h)

end Verif.Vis
