import Verif.Joint.Live
import Verif.Vis.Ex
/-!
# C99: a concrete execution

Two PEs (the system of `Vis/Ex.lean`). PE 0 puts a byte to the source of PE 1, both pass a barrier, PE 1 broadcasts the byte, returns before PE 0
has called the broadcast, and overwrites its source; then PE 0 calls the broadcast and gets the byte.
-/
namespace Verif.Joint.Ex
open Verif.Sobj Verif.Rma Verif.Vis Verif.Coll Verif.Api Verif.Joint
open Verif.Order (St Pend)

/-- PE `p`'s pointers -/
def src (p : Nat) : Int := if p = 0 then 0x10018 else 0x20018
def dst (p : Nat) : Int := if p = 0 then 0x10030 else 0x20030

/-- `shmem_broadcastmem(SHMEM_TEAM_WORLD, dst, src, 1, 1)` -/
def bc : Op := fun me => broadcastT .mem 1 2 (fun _ => .world) me 1 src dst 1

theorem onWorld : OnTeam 1 2 [] (fun _ => .world) [0, 1] := fun p _ => ⟨Team.worldObj 2 p, rfl, .world⟩

/-- what it does, from C81 -/
theorem spec {p : Nat} (hp : p < 2) (m : Mems) : ∃ m', bc p m = .ok m' ∧ m' p (dst p) = m 1 0x20018 ∧ ∀ y, y ≠ dst p → m' p y = m p y := by
  obtain ⟨m', h1, h2, h3, -⟩ := C81_broadcast_partial (fn := .mem) trivial hp (hs := []) (o := Team.worldObj 2 p) .world
    (hd := fun _ => .world) (cts := 1) onWorld (root := 1) (rp := 1) rfl src dst (len := 1) (by decide) (by decide) m
  have hmem : p ∈ [0, 1] := by
    have : p = 0 ∨ p = 1 := by omega
    simpa using this
  refine ⟨m', h1, ?_, fun y hy => h3 p hmem y ?_⟩
  · have := h2 p hmem 0 (by decide)
    simpa [src] using this
  · have : ((1 * CFn.elem .mem : Nat) : Int) = 1 := rfl
    rw [this]
    omega

theorem changes {p : Nat} (hp : p < 2) : Op.Changes bc p (dst p) := by
  obtain ⟨m', h1, h2, -⟩ := spec hp (fun _ y => if y = 0x20018 then 1 else 0)
  refine ⟨_, m', h1, ?_⟩
  rw [h2]
  have : p = 0 ∨ p = 1 := by omega
  rcases this with rfl | rfl <;> decide

theorem changes_only {p : Nat} (hp : p < 2) {a : Int} (h : Op.Changes bc p a) : a = dst p := by
  obtain ⟨m, m', h1, h2⟩ := h
  by_contra hne
  obtain ⟨m2, h3, -, h4⟩ := spec hp m
  rw [h1] at h3; cases h3
  exact h2 (h4 a hne)

/-! ## The states -/

/-- outstanding put -/
def pd : Pend := ⟨.win 1, 1, none, .heap, 0⟩

def g1 : G := after (ginit exM) 0 (Order.init.push pd) [.set 1 0x20018 1]
def g2 : G := { g1 with mem := setByte exM 1 0x20018 1, fly := Function.update g1.fly 0 [⟨pd, []⟩] }
def g3 : G := { after g2 0 { Order.init with ep := 1 } [] with arr := Function.update g2.arr 0 1 }
def g4 : G := { after g3 1 { Order.init with ep := 1 } [] with arr := Function.update g3.arr 1 1 }
def g5 : G := { g4 with lv := Function.update g4.lv 1 1 }
def g6 : G := { g5 with lv := Function.update g5.lv 0 1 }

/-- the results of the steps of `XStep` -/
def enterX (x : X) (p c : Nat) : X := { x with
  cnt := Function.update x.cnt c (Function.update (x.cnt c) p (x.cnt c p + 1))
  loc := Function.update x.loc p (some (c, x.cnt c p))
  fin := Function.update x.fin p (fun _ => False) }
def readX (x : X) (p : Nat) (i : Nat × Nat) : X := { x with cap := Function.update x.cap i (grab x i p (fun _ => true)) }
def deliverX (x : X) (p : Nat) (a : Int) (v : BitVec 8) : X := { x with
  g := { x.g with mem := setByte x.g.mem p a v }
  fin := Function.update x.fin p (Function.update (x.fin p) a True) }
def leaveX (x : X) (p : Nat) : X := { x with loc := Function.update x.loc p none }

def onG (g : G) : X := { xinit exM with g := g }
def x7 : X := enterX (onG g6) 1 0
def x8 : X := readX x7 1 (0, 0)
def x9 : X := deliverX x8 1 0x20030 1
def x10 : X := leaveX x9 1
def x11 : X := { x10 with g := { x10.g with mem := Function.update x10.g.mem 1 (Function.update (x10.g.mem 1) 0x20018 9) } }
def x12 : X := enterX x11 0 0
def x13 : X := readX x12 0 (0, 0)
def x14 : X := deliverX x13 0 0x10030 1
def x15 : X := leaveX x14 0

def st : Nat → X
  | 0 => xinit exM
  | 1 => onG g1
  | 2 => onG g2
  | 3 => onG g3
  | 4 => onG g4
  | 5 => onG g5
  | 6 => onG g6
  | 7 => x7
  | 8 => x8
  | 9 => x9
  | 10 => x10
  | 11 => x11
  | 12 => x12
  | 13 => x13
  | 14 => x14
  | _ + 15 => x15

def ev : Nat → XEv
  | 0 => .vis (.put 0 1 false none 0x10018#64 [(0x20018, 0x10020)] 0)
  | 1 => .vis (.done 0 (.set 1 0x20018 1) 0)
  | 2 => .vis (.enter 0)
  | 3 => .vis (.enter 1)
  | 4 => .vis (.leave 1)
  | 5 => .vis (.leave 0)
  | 6 => .enter 1 (0, 0)
  | 7 => .read 1
  | 8 => .deliver 1 0x20030 1
  | 9 => .leave 1 (0, 0)
  | 10 => .vis (.store 1 0x20018 9)
  | 11 => .enter 0 (0, 0)
  | 12 => .read 0
  | 13 => .deliver 0 0x10030 1
  | _ + 14 => .leave 0 (0, 0)

/-- every collective call of the program is the broadcast -/
def prog : Nat → Nat → Op := fun _ _ => bc

theorem step0 : Step (exS true) (ginit exM) (.put 0 1 false none 0x10018#64 [(0x20018, 0x10020)] 0) g1 :=
  Step.put 0 1 false none 0x10018#64 0x10020#64 1 true .rel 1 1 (Ty.basic 1) (Ty.basic 1) _
    (Order.init.push pd) ⟨Nat.zero_lt_succ _, rfl, rfl⟩ (fun h => by cases h) rfl
    (by
      rw [if_neg (by decide)]
      exact ⟨0x20018#64, by decide +kernel, by decide +kernel⟩) (done_nil rfl)

theorem step1 : Step (exS true) g1 (.done 0 (.set 1 0x20018 1) 0) g2 :=
  Step.perform (S := exS true) (g := g1) 0 [] [] pd [] [] (.set 1 0x20018 1) _ (Nat.zero_lt_succ _) rfl rfl

theorem step2 : Step (exS true) g2 (.enter 0) g3 :=
  Step.enter (S := exS true) (g := g2) 0 { Order.init with ep := 1 } ⟨Nat.zero_lt_succ _, rfl, rfl⟩ rfl
    (done_empty (fun x hx => by
      rw [show g2.fly 0 = [⟨pd, []⟩] from rfl, List.mem_singleton] at hx
      rw [hx]))

theorem step3 : Step (exS true) g3 (.enter 1) g4 :=
  Step.enter (S := exS true) (g := g3) 1 { Order.init with ep := 1 } ⟨by decide, rfl, rfl⟩ rfl (done_nil rfl)

theorem all2 {P : Nat → Prop} (h0 : P 0) (h1 : P 1) : ∀ q < 2, P q := by
  intro q hq
  have : q = 0 ∨ q = 1 := by omega
  rcases this with rfl | rfl <;> assumption

theorem step4 : Step (exS true) g4 (.leave 1) g5 :=
  Step.leave (S := exS true) (g := g4) 1 (by decide) (by decide +kernel) (all2 (by decide +kernel) (by decide +kernel))

theorem step5 : Step (exS true) g5 (.leave 0) g6 :=
  Step.leave (S := exS true) (g := g5) 0 (by decide) (by decide +kernel) (all2 (by decide +kernel) (by decide +kernel))

theorem step10 : Step (exS true) x10.g (.store 1 0x20018 9) x11.g := Step.store 1 0x20018 9 ⟨by decide, rfl, rfl⟩

theorem exec : XExec (exS true) prog 15 st ev := by
  refine ⟨⟨exM, rfl⟩, fun k hk => ?_⟩
  match k, hk with
  | 0, _ => exact .vis (x := xinit exM) _ _ step0 (fun _ _ => rfl)
  | 1, _ => exact .vis (x := onG g1) _ _ step1 (fun _ _ => rfl)
  | 2, _ => exact .vis (x := onG g2) _ _ step2 (fun _ _ => rfl)
  | 3, _ => exact .vis (x := onG g3) _ _ step3 (fun _ _ => rfl)
  | 4, _ => exact .vis (x := onG g4) _ _ step4 (fun _ _ => rfl)
  | 5, _ => exact .vis (x := onG g5) _ _ step5 (fun _ _ => rfl)
  | 6, _ => exact .enter (x := onG g6) 1 0 ⟨by decide, rfl, rfl⟩ rfl
  | 7, _ => exact .read (x := x7) 1 (0, 0) (fun _ => true) rfl
  | 8, _ =>
    refine .deliver (x := x8) 1 (0, 0) 0x20030 1 rfl (changes (by decide)) (by decide +kernel) (fun m hm => ?_)
    obtain ⟨m', h1, h2, -⟩ := spec (p := 1) (by decide) m
    exact ⟨m', h1, h2.trans (hm 1 0x20018 1 (by decide +kernel))⟩
  | 9, _ =>
    refine .leave (x := x9) 1 (0, 0) rfl (fun b => ?_) (fun a ha => ?_)
    · intro h
      cases h
    · rw [changes_only (by decide) ha]
      exact (show (Function.update x8.fin 1 (Function.update (x8.fin 1) 0x20030 True)) 1 0x20030 by
        rw [Function.update_self, Function.update_self]; trivial)
  | 10, _ => exact .vis (x := x10) _ _ step10 (fun p hp => by cases hp; rfl)
  | 11, _ => exact .enter (x := x11) 0 0 ⟨by decide, rfl, rfl⟩ rfl
  | 12, _ => exact .read (x := x12) 0 (0, 0) (fun _ => true) rfl
  | 13, _ =>
    refine .deliver (x := x13) 0 (0, 0) 0x10030 1 rfl (changes (by decide)) (by decide +kernel) (fun m hm => ?_)
    obtain ⟨m', h1, h2, -⟩ := spec (p := 0) (by decide) m
    exact ⟨m', h1, h2.trans (hm 1 0x20018 1 (by decide +kernel))⟩
  | 14, _ =>
    refine .leave (x := x14) 0 (0, 0) rfl (fun b => ?_) (fun a ha => ?_)
    · intro h
      cases h
    · rw [changes_only (by decide) ha]
      exact (show (Function.update x13.fin 0 (Function.update (x13.fin 0) 0x10030 True)) 0 0x10030 by
        rw [Function.update_self, Function.update_self]; trivial)

/-! ## The hypotheses of the theorems are met -/

theorem span0 : Span 15 ev (0, 0) 0 11 14 := ⟨by decide, by decide, rfl, rfl⟩
theorem span1 : Span 15 ev (0, 0) 1 6 9 := ⟨by decide, by decide, rfl, rfl⟩

/-- nothing is in flight after the barrier -/
theorem quiet {k : Nat} (hk : 6 ≤ k) (hk' : k < 15) (b : Nat × Int) : NoWriter (st k).g b := by
  have hf : ∀ k < 15, 6 ≤ k → ∀ q, (st k).g.fly q = [] ∧ (st k).g.busy q = [] := by
    have h6 : ∀ q, g6.fly q = [] ∧ g6.busy q = [] := by
      intro q
      rcases q with _ | _ | q <;> exact ⟨rfl, rfl⟩
    intro k hk hk'
    have : k = 6 ∨ k = 7 ∨ k = 8 ∨ k = 9 ∨ k = 10 ∨ k = 11 ∨ k = 12 ∨ k = 13 ∨ k = 14 := by omega
    rcases this with rfl | rfl | rfl | rfl | rfl | rfl | rfl | rfl | rfl <;> exact h6
  intro a ha
  obtain ⟨r, o, h⟩ := ha
  obtain ⟨h1, h2⟩ := hf k hk' hk r
  rcases h with ⟨y, hy, -⟩ | ⟨-, hb⟩
  · rw [h1] at hy; cases hy
  · rw [h2] at hb; cases hb

theorem stable {q e : Nat} (he : ev e = .enter q (0, 0)) (h6 : 6 ≤ e) (h15 : e < 15) (b : Int) : Stable 15 st ev (0, 0) q e b := by
  refine ⟨quiet h6 h15 _, fun k w h1 h2 h3 h4 h5 => ?_⟩
  have : k = 7 ∨ k = 8 ∨ k = 9 ∨ k = 10 ∨ k = 11 ∨ k = 12 ∨ k = 13 ∨ k = 14 := by omega
  rcases this with rfl | rfl | rfl | rfl | rfl | rfl | rfl | rfl
  all_goals first
    | (simp only [ev] at h4; cases h4; done)
    | skip
  simp only [ev, XEv.vis.injEq] at h4
  subst h4
  cases h5
  cases h3

/-- PE 0 gets what PE 1's source held when PE 1 called the broadcast, although PE 1 has overwritten it since; and that is what PE 0 had put there -/
example : (st 15).g.mem 0 0x10030 = (st 6).g.mem 1 0x20018 ∧ (st 15).g.mem 1 0x20018 = 9 := by
  refine ⟨?_, by decide +kernel⟩
  obtain ⟨er, her, hev, h⟩ := (C99_broadcast_partial exec span0 (fn := .mem) trivial (me := 0) (by decide) (hs := []) (o := Team.worldObj 2 0)
    .world (hd := fun _ => .world) (cts := 1) onWorld (root := 1) (rp := 1) rfl src dst (len := 1) (by decide) (by decide) (by decide) rfl).1 0
    (by decide)
  have : er = 6 := by
    have hh : er = 0 ∨ er = 1 ∨ er = 2 ∨ er = 3 ∨ er = 4 ∨ er = 5 ∨ er = 6 ∨ er = 7 ∨ er = 8 ∨ er = 9 ∨ er = 10 ∨ er = 11 ∨ er = 12 ∨ er = 13 := by omega
    rcases hh with rfl | rfl | rfl | rfl | rfl | rfl | rfl | rfl | rfl | rfl | rfl | rfl | rfl | rfl <;> first | rfl | (simp only [ev] at hev; cases hev)
  subst this
  exact h (stable rfl (by decide) (by decide) _) (stable rfl (by decide) (by decide) _) (fun k h1 h2 => by omega)

/-- the hypotheses of `C99_put_broadcast_partial` -/
example : (st 15).g.mem 0 0x10030 = (st 0).g.mem 0 0x10020 := by
  refine C99_put_broadcast_partial exec span0 (fn := .mem) trivial (me := 0) (by decide) (hs := []) (o := Team.worldObj 2 0)
    .world (hd := fun _ => .world) (cts := 1) onWorld (root := 1) (rp := 1) rfl src dst (len := 1) (by decide) (by decide) (by decide) rfl
    (k0 := 0) (er := 6) (y := 0) (by decide) (by decide) rfl (by decide) rfl (by decide) (by decide +kernel) (z := (0x20018, 0x10020))
    (List.mem_singleton.mpr rfl) rfl (fun w hw _ => List.mem_singleton.mp hw) (noWriter_init _ _) ?_ (fun h => by cases h)
    (Or.inr ⟨rfl, Or.inr (Or.inl (by decide +kernel))⟩) (stable rfl (by decide) (by decide) _) (fun k h1 h2 => by omega)
  intro k h1 h2 h3
  have : k = 1 ∨ k = 2 ∨ k = 3 ∨ k = 4 ∨ k = 5 ∨ k = 6 ∨ k = 7 ∨ k = 8 ∨ k = 9 ∨ k = 10 ∨ k = 11 ∨ k = 12 ∨ k = 13 ∨ k = 14 := by omega
  rintro ⟨w, hw, hww⟩
  rcases this with rfl | rfl | rfl | rfl | rfl | rfl | rfl | rfl | rfl | rfl | rfl | rfl | rfl | rfl
  all_goals simp only [ev, XEv.ev, List.mem_singleton, List.not_mem_nil] at hw
  all_goals subst hw
  all_goals first
    | exact hww
    | (cases hww; done)
    | skip
  rcases h3 with h3 | ⟨h3, -⟩
  · omega
  · cases h3

/-- the hypotheses of `C99_broadcast_completes_partial`: PE 1 has returned, PE 0 has not yet called -/
example : ∃ N' st' ev', XExec (exS true) prog N' st' ev' ∧ ∃ t, 11 ≤ t ∧ t < N' ∧ ev' t = .leave 0 (0, 0) := by
  obtain ⟨N', st', ev', h1, -, -, -, -, h2⟩ := C99_broadcast_completes_partial (exec.take (by decide : 11 ≤ 15)) (i := (0, 0)) (fn := .mem) trivial
    (me := 0) (by decide) (hs := []) (o := Team.worldObj 2 0) .world (hd := fun _ => .world) (cts := 1) onWorld (root := 1) (rp := 1) rfl src dst
    (len := 1) (by decide) (by decide) rfl (by
      intro p hp
      have : p = 0 ∨ p = 1 := by
        have hp' : p ∈ [0, 1] := hp
        simpa using hp'
      rcases this with rfl | rfl
      · exact .inl ⟨⟨by decide, rfl, rfl⟩, rfl, rfl⟩
      · exact .inr (.inr ⟨(by intro h; cases h), by decide +kernel⟩))
  exact ⟨N', st', ev', h1, h2 0 (by decide) (.inl ⟨⟨by decide, rfl, rfl⟩, rfl, rfl⟩)⟩

end Verif.Joint.Ex
