import Verif.Team.Life
/-!
# C92: what a team handle means, from the split to the destruction

The program's book says which handles it holds, and for which team and config each stands. It only follows the calls:
a split enters the new handle, a destroy strikes it out. The memory of the library always agrees with the book.
-/
namespace Verif.Team.Life

/-- handles and what the program may expect of them: the team and its config -/
abbrev Book := Nat → Option (Obj × Int)

/-- the config of a new team: the one given, if there is one and the mask is not 0; otherwise the default -/
def given (cfg : Option Int) (mask : Int) : Int := if mask = 0 then 0 else cfg.getD 0

/-- the book of PE `me` of `n` after the initialisation: the two predefined teams, both with all PEs (see C55) -/
def book0 (n me : Nat) : Book := fun h =>
  if h = hWorld ∨ h = hShared then some (worldObj n me, 0) else none

/-- a new team, if this PE is in it -/
def enter (b : Book) (a : Nat) (o : Option Obj) (c : Int) : Book := match o with
  | none => b
  | some o => put b a (some (o, c))

/-- the book after a call. Which team a split makes: C39, C40, C80. -/
def Call.book (b : Book) : Call → Book
  | .strided p st sd sz c m a => match b p with
    | none => b
    | some (o, _) => match splitStrided o.comm st sd sz o.my_pe.toNat with
      | .ok r => enter b a r.team (given c m)
      | .abort => b
      | .ub => b
      | .hang => b
  | .grid p x xc xm yc ym a a' => match b p with
    | none => b
    | some (o, _) => match split2d o.comm x o.my_pe.toNat with
      | .ok r => enter (enter b a r.1 (given xc xm)) a' r.2 (given yc ym)
      | .abort => b
      | .ub => b
      | .hang => b
  | .destroy h => if h = hWorld ∨ h = hShared then b else put b h none

/-- the book after a sequence of calls -/
def books (b : Book) : List Call → Book
  | [] => b
  | c :: cs => books (c.book b) cs

/-- the address is not one of the three constants -/
def Plain (a : Nat) : Prop := a ≠ hInvalid ∧ a ≠ hWorld ∧ a ≠ hShared

/-- `malloc` returns memory that is not in use: not that of a team that is still there; `wa`, `sa` are the addresses
of the predefined teams' objects -/
def Fresh (wa sa : Nat) (b : Book) (a : Nat) : Prop := Plain a ∧ b a = none ∧ a ≠ wa ∧ a ≠ sa

/-- the program passes only the invalid handle or handles it holds, and arguments for which the split is defined (C39,
C40) -/
def Legal (wa sa : Nat) (b : Book) : Call → Prop
  | .strided p st sd sz _ _ a => (p = hInvalid ∨ ∃ o c, b p = some (o, c) ∧
      ∃ r, splitStrided o.comm st sd sz o.my_pe.toNat = .ok r) ∧ Fresh wa sa b a
  | .grid p x _ _ _ _ a a' => (p = hInvalid ∨ ∃ o c, b p = some (o, c) ∧
      ∃ r, split2d o.comm x o.my_pe.toNat = .ok r) ∧ Fresh wa sa b a ∧ Fresh wa sa b a' ∧ a ≠ a'
  | .destroy h => h = hInvalid ∨ ∃ t, b h = some t

/-- every call of the sequence is legal when it is made -/
def Legals (wa sa : Nat) (b : Book) : List Call → Prop
  | [] => True
  | c :: cs => Legal wa sa b c ∧ Legals wa sa (c.book b) cs

/-! ## The invariant -/

/-- the memory holds exactly the teams of `B` (by address), each with a communicator and a group of its own -/
structure Core (s : St) (B : Book) : Prop where
  live : ∀ a o c, B a = some (o, c) → ∃ k, s.objs a = some ⟨k, k, o.my_pe, o.n_pes, c⟩ ∧
    s.comms k = some o.comm ∧ s.groups k = some o.comm ∧ k < s.next
  dead : ∀ a, B a = none → s.objs a = none
  inj : ∀ a b t u, s.objs a = some t → s.objs b = some u → t.comm = u.comm → a = b
  ownC : ∀ k m, s.comms k = some m → ∃ a t, s.objs a = some t ∧ t.comm = k
  ownG : ∀ k m, s.groups k = some m → ∃ a t, s.objs a = some t ∧ t.comm = k

theorem put_self {α : Type} (f : Nat → α) (a : Nat) (v : α) : put f a v a = v := if_pos rfl
theorem put_ne {α : Type} (f : Nat → α) {a x : Nat} (v : α) (h : x ≠ a) : put f a v x = f x := if_neg h

theorem core_obj {s : St} {B : Book} (C : Core s B) {a : Nat} {t : TObj} (h : s.objs a = some t) :
    ∃ o c, B a = some (o, c) ∧ t = ⟨t.comm, t.comm, o.my_pe, o.n_pes, c⟩ ∧ s.comms t.comm = some o.comm ∧
      s.groups t.comm = some o.comm ∧ t.comm < s.next := by
  cases hb : B a with
  | none => rw [C.dead a hb] at h; cases h
  | some x =>
    obtain ⟨o, c⟩ := x
    obtain ⟨k, h1, h2, h3, h4⟩ := C.live a o c hb
    rw [h1] at h
    cases h
    exact ⟨o, c, rfl, rfl, h2, h3, h4⟩

theorem setCfg_install (s : St) (a : Nat) (o : Obj) (cfg : Option Int) (mask : Int) :
    setCfg (install s a o) a cfg mask =
      { s with
        objs := put s.objs a (some ⟨s.next, s.next, o.my_pe, o.n_pes, given cfg mask⟩)
        comms := put s.comms s.next (some o.comm)
        groups := put s.groups s.next (some o.comm)
        next := s.next + 1 } := by
  have h1 : (install s a o).objs a = some ⟨s.next, s.next, o.my_pe, o.n_pes, 0⟩ := put_self _ _ _
  cases cfg with
  | none =>
    have : given none mask = 0 := by unfold given; split <;> rfl
    rw [this]
    unfold setCfg
    rw [h1]
    rfl
  | some c =>
    unfold setCfg
    rw [h1]
    dsimp only
    by_cases hm : mask = 0
    · rw [if_pos hm]
      have : given (some c) mask = 0 := if_pos hm
      rw [this]; rfl
    · rw [if_neg hm]
      have : given (some c) mask = c := if_neg hm
      rw [this]
      have h2 : put (install s a o).objs a (some ⟨s.next, s.next, o.my_pe, o.n_pes, c⟩) =
          put s.objs a (some ⟨s.next, s.next, o.my_pe, o.n_pes, c⟩) := by
        funext x
        by_cases hx : x = a
        · subst hx; rw [put_self, put_self]
        · rw [put_ne _ _ hx, put_ne _ _ hx]
          exact put_ne _ _ hx
      rw [h2]; rfl

theorem core_install {s : St} {B : Book} (C : Core s B) {a : Nat} (ha : B a = none) (o : Obj) (c : Int) {w z : Nat} :
    Core { s with
        objs := put s.objs a (some ⟨s.next, s.next, o.my_pe, o.n_pes, c⟩)
        comms := put s.comms s.next (some o.comm)
        groups := put s.groups s.next (some o.comm)
        next := s.next + 1, world := w, shared := z } (put B a (some (o, c))) := by
  have hlt : ∀ x t, s.objs x = some t → t.comm < s.next := fun x t h => (core_obj C h).choose_spec.choose_spec.2.2.2.2
  refine ⟨?_, ?_, ?_, ?_, ?_⟩
  · intro x o' c' hx
    by_cases e : x = a
    · subst e
      rw [put_self] at hx
      cases hx
      exact ⟨s.next, put_self _ _ _, put_self _ _ _, put_self _ _ _, Nat.lt_succ_self _⟩
    · rw [put_ne _ _ e] at hx
      obtain ⟨k, h1, h2, h3, h4⟩ := C.live x o' c' hx
      have hk : k ≠ s.next := by omega
      exact ⟨k, (put_ne _ _ e).trans h1, (put_ne _ _ hk).trans h2, (put_ne _ _ hk).trans h3, Nat.lt_succ_of_lt h4⟩
  · intro x hx
    by_cases e : x = a
    · subst e; rw [put_self] at hx; cases hx
    · rw [put_ne _ _ e] at hx
      exact (put_ne _ _ e).trans (C.dead x hx)
  · intro x y t u hx hy htu
    by_cases ex : x = a
    · subst ex
      by_cases ey : y = x
      · exact ey.symm
      · have hx' := (put_self s.objs x _).symm.trans hx
        have hy' := (put_ne _ _ ey).symm.trans hy
        cases hx'
        have := hlt y u hy'
        dsimp only at htu
        omega
    · have hx' := (put_ne _ _ ex).symm.trans hx
      by_cases ey : y = a
      · subst ey
        have hy' := (put_self s.objs y _).symm.trans hy
        cases hy'
        have := hlt x t hx'
        dsimp only at htu
        omega
      · exact C.inj x y t u hx' ((put_ne _ _ ey).symm.trans hy) htu
  · intro k m hk
    by_cases e : k = s.next
    · exact ⟨a, _, put_self _ _ _, e.symm⟩
    · obtain ⟨x, t, h1, h2⟩ := C.ownC k m ((put_ne _ _ e).symm.trans hk)
      have ex : x ≠ a := by
        rintro rfl; rw [C.dead x ha] at h1; cases h1
      exact ⟨x, t, (put_ne _ _ ex).trans h1, h2⟩
  · intro k m hk
    by_cases e : k = s.next
    · exact ⟨a, _, put_self _ _ _, e.symm⟩
    · obtain ⟨x, t, h1, h2⟩ := C.ownG k m ((put_ne _ _ e).symm.trans hk)
      have ex : x ≠ a := by
        rintro rfl; rw [C.dead x ha] at h1; cases h1
      exact ⟨x, t, (put_ne _ _ ex).trans h1, h2⟩

theorem core_destroy {s : St} {B : Book} (C : Core s B) {a : Nat} {x : Obj × Int} (ha : B a = some x) :
    ∃ s', destroyAt s a = .ok s' ∧ Core s' (put B a none) ∧ s'.world = s.world ∧ s'.shared = s.shared := by
  obtain ⟨o, c⟩ := x
  obtain ⟨k, h1, h2, h3, h4⟩ := C.live a o c ha
  refine ⟨{ s with objs := put s.objs a none, groups := put s.groups k none, comms := put s.comms k none }, ?_, ?_,
    rfl, rfl⟩
  · unfold destroyAt
    rw [h1]
    dsimp only
    rw [h3, h2]
  · refine ⟨?_, ?_, ?_, ?_, ?_⟩
    · intro y o' c' hy
      by_cases e : y = a
      · subst e; rw [put_self] at hy; cases hy
      · rw [put_ne _ _ e] at hy
        obtain ⟨j, g1, g2, g3, g4⟩ := C.live y o' c' hy
        have hj : j ≠ k := by
          rintro rfl
          exact e (C.inj y a _ _ g1 h1 rfl)
        exact ⟨j, (put_ne _ _ e).trans g1, (put_ne _ _ hj).trans g2, (put_ne _ _ hj).trans g3, g4⟩
    · intro y hy
      by_cases e : y = a
      · subst e; exact put_self _ _ _
      · rw [put_ne _ _ e] at hy
        exact (put_ne _ _ e).trans (C.dead y hy)
    · intro y z t u hy hz htu
      have ey : y ≠ a := by rintro rfl; have := (put_self s.objs y none).symm.trans hy; cases this
      have ez : z ≠ a := by rintro rfl; have := (put_self s.objs z none).symm.trans hz; cases this
      exact C.inj y z t u ((put_ne _ _ ey).symm.trans hy) ((put_ne _ _ ez).symm.trans hz) htu
    · intro j m hj
      have ej : j ≠ k := by rintro rfl; have := (put_self s.comms j none).symm.trans hj; cases this
      obtain ⟨y, t, g1, g2⟩ := C.ownC j m ((put_ne _ _ ej).symm.trans hj)
      have ey : y ≠ a := by
        rintro rfl
        rw [h1] at g1; cases g1; exact ej g2.symm
      exact ⟨y, t, (put_ne _ _ ey).trans g1, g2⟩
    · intro j m hj
      have ej : j ≠ k := by rintro rfl; have := (put_self s.groups j none).symm.trans hj; cases this
      obtain ⟨y, t, g1, g2⟩ := C.ownG j m ((put_ne _ _ ej).symm.trans hj)
      have ey : y ≠ a := by
        rintro rfl
        rw [h1] at g1; cases g1; exact ej g2.symm
      exact ⟨y, t, (put_ne _ _ ey).trans g1, g2⟩

/-- the book by address -/
def adr (wa sa : Nat) (b : Book) : Book := fun a =>
  if a = wa then b hWorld else if a = sa then b hShared
  else if a = hWorld ∨ a = hShared then none else b a

/-- memory and book agree -/
structure Inv (wa sa : Nat) (s : St) (b : Book) : Prop where
  core : Core s (adr wa sa b)
  world : s.world = wa
  shared : s.shared = sa
  ne : wa ≠ sa
  pw : Plain wa
  ps : Plain sa
  bw : ∃ t, b hWorld = some t
  bs : ∃ t, b hShared = some t
  b0 : b hInvalid = none
  nw : b wa = none
  ns : b sa = none

theorem adr_fresh {wa sa : Nat} {b : Book} {a : Nat} (h : Fresh wa sa b a) : adr wa sa b a = none := by
  unfold adr
  rw [if_neg h.2.2.1, if_neg h.2.2.2, if_neg (by rintro (e | e); exacts [h.1.2.1 e, h.1.2.2 e])]
  exact h.2.1

theorem adr_plain {wa sa : Nat} {b : Book} {a : Nat} (h : Plain a) (h1 : a ≠ wa) (h2 : a ≠ sa) :
    adr wa sa b a = b a := by
  unfold adr
  rw [if_neg h1, if_neg h2, if_neg (by rintro (e | e); exacts [h.2.1 e, h.2.2 e])]

theorem adr_put {wa sa : Nat} {b : Book} {a : Nat} (h : Plain a) (h1 : a ≠ wa) (h2 : a ≠ sa) (v : Option (Obj × Int)) :
    adr wa sa (put b a v) = put (adr wa sa b) a v := by
  funext x
  by_cases e : x = a
  · subst e
    rw [adr_plain h h1 h2, put_self, put_self]
  · rw [put_ne _ _ e]
    unfold adr
    rw [put_ne _ _ (Ne.symm h.2.1), put_ne _ _ (Ne.symm h.2.2), put_ne _ _ e]

theorem inv_splitTo {wa sa : Nat} {s : St} {b : Book} (I : Inv wa sa s b) {a : Nat} (ha : Fresh wa sa b a)
    (o : Option Obj) (cfg : Option Int) (mask : Int) :
    Inv wa sa (splitTo s a o cfg mask).2 (enter b a o (given cfg mask)) ∧
      (splitTo s a o cfg mask).1 = (if o.isSome then a else hInvalid) := by
  cases o with
  | none => exact ⟨I, rfl⟩
  | some o =>
    refine ⟨?_, rfl⟩
    show Inv wa sa (setCfg (install s a o) a cfg mask) (put b a (some (o, given cfg mask)))
    rw [setCfg_install]
    refine ⟨?_, I.world, I.shared, I.ne, I.pw, I.ps, ?_, ?_, ?_, ?_, ?_⟩
    · rw [adr_put ha.1 ha.2.2.1 ha.2.2.2]
      exact core_install I.core (adr_fresh ha) o _
    · rw [put_ne _ _ (Ne.symm ha.1.2.1)]; exact I.bw
    · rw [put_ne _ _ (Ne.symm ha.1.2.2)]; exact I.bs
    · rw [put_ne _ _ (Ne.symm ha.1.1)]; exact I.b0
    · rw [put_ne _ _ (Ne.symm ha.2.2.1)]; exact I.nw
    · rw [put_ne _ _ (Ne.symm ha.2.2.2)]; exact I.ns

/-- a handle in the book: its object, communicator and group -/
theorem inv_deref {wa sa : Nat} {s : St} {b : Book} (I : Inv wa sa s b) {h : Nat} {o : Obj} {c : Int}
    (hb : b h = some (o, c)) :
    ∃ k, deref s h = .ok (some ⟨k, k, o.my_pe, o.n_pes, c⟩) ∧ s.comms k = some o.comm ∧ s.groups k = some o.comm := by
  have h0 : h ≠ hInvalid := by rintro rfl; rw [I.b0] at hb; cases hb
  have hw : h ≠ wa := by rintro rfl; rw [I.nw] at hb; cases hb
  have hs : h ≠ sa := by rintro rfl; rw [I.ns] at hb; cases hb
  by_cases e1 : h = hWorld
  · subst e1
    have : adr wa sa b wa = some (o, c) := (if_pos rfl).trans hb
    obtain ⟨k, g1, g2, g3, _⟩ := I.core.live wa o c this
    refine ⟨k, ?_, g2, g3⟩
    unfold deref ptr
    rw [if_neg h0, if_pos rfl, I.world, g1]
  · by_cases e2 : h = hShared
    · subst e2
      have : adr wa sa b sa = some (o, c) := (if_neg (Ne.symm I.ne)).trans ((if_pos rfl).trans hb)
      obtain ⟨k, g1, g2, g3, _⟩ := I.core.live sa o c this
      refine ⟨k, ?_, g2, g3⟩
      unfold deref ptr
      rw [if_neg h0, if_neg e1, if_pos rfl, I.shared, g1]
    · have : adr wa sa b h = some (o, c) := (adr_plain ⟨h0, e1, e2⟩ hw hs).trans hb
      obtain ⟨k, g1, g2, g3, _⟩ := I.core.live h o c this
      refine ⟨k, ?_, g2, g3⟩
      unfold deref ptr
      rw [if_neg h0, if_neg e1, if_neg e2, g1]

theorem inv_answers {wa sa : Nat} {s : St} {b : Book} (I : Inv wa sa s b) {h : Nat} {o : Obj} {c : Int}
    (hb : b h = some (o, c)) : myPeM s h = .ok o.my_pe ∧ nPesM s h = .ok o.n_pes ∧ getConfigM s h = .ok (some c) ∧
      groupOf s h = .ok (some (o.comm, o.comm)) := by
  obtain ⟨k, g1, g2, g3⟩ := inv_deref I hb
  refine ⟨?_, ?_, ?_, ?_⟩
  · unfold myPeM; rw [g1]; rfl
  · unfold nPesM; rw [g1]; rfl
  · unfold getConfigM; rw [g1]; rfl
  · unfold groupOf
    rw [g1, Res.bind_ok]
    dsimp only
    rw [g2, g3]

theorem fresh_enter {wa sa : Nat} {b : Book} {a a' : Nat} (h : Fresh wa sa b a') (hne : a ≠ a') (o : Option Obj)
    (c : Int) : Fresh wa sa (enter b a o c) a' := by
  cases o with
  | none => exact h
  | some o => exact ⟨h.1, (put_ne _ _ (Ne.symm hne)).trans h.2.1, h.2.2⟩

theorem inv_strided {wa sa : Nat} {s : St} {b : Book} (I : Inv wa sa s b) {p : Nat} {o : Obj} {c0 : Int}
    {st sd sz : Int} {r : SplitRes} {c : Option Int} {m : Int} {a : Nat} (hb : b p = some (o, c0))
    (hr : splitStrided o.comm st sd sz o.my_pe.toNat = .ok r) :
    splitStridedM s p st sd sz c m a = .ok (r.rc, splitTo s a r.team c m) := by
  obtain ⟨k, h1, h2, _⟩ := inv_deref I hb
  unfold splitStridedM
  rw [h1, Res.bind_ok]
  dsimp only
  rw [h2]
  dsimp only
  rw [hr]
  rfl

theorem inv_grid {wa sa : Nat} {s : St} {b : Book} (I : Inv wa sa s b) {p : Nat} {o : Obj} {c0 : Int}
    {x : Int} {r : Option Obj × Option Obj} {xc yc : Option Int} {xm ym : Int} {a a' : Nat} (hb : b p = some (o, c0))
    (hr : split2d o.comm x o.my_pe.toNat = .ok r) :
    split2dM s p x xc xm yc ym a a' = .ok (0, (splitTo s a r.1 xc xm).1,
      splitTo (splitTo s a r.1 xc xm).2 a' r.2 yc ym) := by
  obtain ⟨k, h1, h2, _⟩ := inv_deref I hb
  unfold split2dM
  rw [h1, Res.bind_ok]
  dsimp only
  rw [h2]
  dsimp only
  rw [hr]
  rfl

theorem deref_invalid (s : St) : deref s hInvalid = .ok none := if_pos rfl

theorem inv_step {wa sa : Nat} {s : St} {b : Book} (I : Inv wa sa s b) {c : Call} (L : Legal wa sa b c) :
    ∃ s', c.run s = .ok s' ∧ Inv wa sa s' (c.book b) := by
  cases c with
  | strided p st sd sz cfg m a =>
    obtain ⟨h | ⟨o, c0, hb, r, hr⟩, hf⟩ := L
    · subst h
      refine ⟨s, ?_, ?_⟩
      · unfold Call.run
        dsimp only
        unfold splitStridedM
        rw [deref_invalid]; rfl
      · unfold Call.book; dsimp only; rw [I.b0]; exact I
    · refine ⟨(splitTo s a r.team cfg m).2, ?_, ?_⟩
      · unfold Call.run
        dsimp only
        rw [inv_strided I hb hr]; rfl
      · unfold Call.book
        dsimp only
        rw [hb]
        dsimp only
        rw [hr]
        exact (inv_splitTo I hf r.team cfg m).1
  | grid p x xc xm yc ym a a' =>
    obtain ⟨h | ⟨o, c0, hb, r, hr⟩, hf, hf', hne⟩ := L
    · subst h
      refine ⟨s, ?_, ?_⟩
      · unfold Call.run
        dsimp only
        unfold split2dM
        rw [deref_invalid]; rfl
      · unfold Call.book; dsimp only; rw [I.b0]; exact I
    · refine ⟨(splitTo (splitTo s a r.1 xc xm).2 a' r.2 yc ym).2, ?_, ?_⟩
      · unfold Call.run
        dsimp only
        rw [inv_grid I hb hr]; rfl
      · unfold Call.book
        dsimp only
        rw [hb]
        dsimp only
        rw [hr]
        exact (inv_splitTo (inv_splitTo I hf r.1 xc xm).1 (fresh_enter hf' hne r.1 _) r.2 yc ym).1
  | destroy h =>
    by_cases hc : h = hWorld ∨ h = hShared
    · refine ⟨s, ?_, ?_⟩
      · exact if_pos (.inr hc)
      · unfold Call.book; dsimp only; rw [if_pos hc]; exact I
    · obtain e | ⟨t, ht⟩ := L
      · subst e
        refine ⟨s, (if_pos (Or.inl rfl) : destroyM s hInvalid = .ok s), ?_⟩
        unfold Call.book
        dsimp only
        rw [if_neg hc]
        have : put b hInvalid none = b := by
          funext x
          by_cases ex : x = hInvalid
          · subst ex; rw [put_self, I.b0]
          · exact put_ne _ _ ex
        rw [this]; exact I
      · have h0 : h ≠ hInvalid := by rintro rfl; rw [I.b0] at ht; cases ht
        have hw : h ≠ wa := by rintro rfl; rw [I.nw] at ht; cases ht
        have hs : h ≠ sa := by rintro rfl; rw [I.ns] at ht; cases ht
        have hp : Plain h := ⟨h0, fun e => hc (.inl e), fun e => hc (.inr e)⟩
        obtain ⟨s', h1, h2, h3, h4⟩ := core_destroy I.core ((adr_plain hp hw hs).trans ht)
        refine ⟨s', ?_, ?_⟩
        · refine (if_neg ?_).trans h1
          rintro (e | e); exacts [h0 e, hc e]
        · unfold Call.book
          dsimp only
          rw [if_neg hc]
          refine ⟨?_, h3.trans I.world, h4.trans I.shared, I.ne, I.pw, I.ps, ?_, ?_, ?_, ?_, ?_⟩
          · rw [adr_put hp hw hs]; exact h2
          · rw [put_ne _ _ (Ne.symm hp.2.1)]; exact I.bw
          · rw [put_ne _ _ (Ne.symm hp.2.2)]; exact I.bs
          · rw [put_ne _ _ (Ne.symm h0)]; exact I.b0
          · rw [put_ne _ _ (Ne.symm hw)]; exact I.nw
          · rw [put_ne _ _ (Ne.symm hs)]; exact I.ns

theorem inv_runs {wa sa : Nat} {cs : List Call} : ∀ {s : St} {b : Book}, Inv wa sa s b → Legals wa sa b cs →
    ∃ s', runs s cs = .ok s' ∧ Inv wa sa s' (books b cs) := by
  induction cs with
  | nil => intro s b I _; exact ⟨s, rfl, I⟩
  | cons c cs ih =>
    intro s b I L
    obtain ⟨s1, h1, I1⟩ := inv_step I L.1
    obtain ⟨s2, h2, I2⟩ := ih I1 L.2
    refine ⟨s2, ?_, I2⟩
    unfold runs
    rw [h1, Res.bind_ok]; exact h2

theorem core_empty : Core empty (fun _ => none) :=
  ⟨fun _ _ _ h => (by cases h), fun _ _ => rfl, fun _ _ _ _ h => (by cases h), fun _ _ h => (by cases h),
   fun _ _ h => (by cases h)⟩

theorem inv_init (cts : Nat) {n me wa sa : Nat} (hme : me < n) (hw : Plain wa) (hs : Plain sa) (hne : wa ≠ sa) :
    Inv wa sa (initTeams cts n me wa sa) (book0 n me) := by
  have hb : ∀ a, Plain a → book0 n me a = none := fun a h => if_neg (by rintro (e | e); exacts [h.2.1 e, h.2.2 e])
  have hbw : book0 n me hWorld = some (worldObj n me, 0) := if_pos (.inl rfl)
  have hbs : book0 n me hShared = some (worldObj n me, 0) := if_pos (.inr rfl)
  unfold initTeams
  rw [shared_eq cts hme]
  refine ⟨?_, rfl, rfl, hne, hw, hs, ⟨_, hbw⟩, ⟨_, hbs⟩, ?_, hb _ hw, hb _ hs⟩
  · have h1 : Core { install empty wa (worldObj n me) with world := wa } (put (fun _ => none) wa (some (worldObj n me, 0))) :=
      core_install core_empty rfl (worldObj n me) 0
    have h2 := core_install h1 (a := sa) (put_ne _ _ (Ne.symm hne)) (worldObj n me) 0 (w := wa) (z := sa)
    have e : adr wa sa (book0 n me) =
        put (put (fun _ => none) wa (some (worldObj n me, 0))) sa (some (worldObj n me, 0)) := by
      funext x
      by_cases e1 : x = sa
      · subst e1
        rw [put_self]
        exact (if_neg (Ne.symm hne)).trans ((if_pos rfl).trans hbs)
      · rw [put_ne _ _ e1]
        by_cases e2 : x = wa
        · subst e2
          rw [put_self]
          exact (if_pos rfl).trans hbw
        · rw [put_ne _ _ e2]
          unfold adr
          rw [if_neg e2, if_neg e1]
          split
          · rfl
          · rename_i hx
            exact if_neg hx
    rw [e]; exact h2
  · exact if_neg (by decide)

/-! ## C92 -/

/-- C92. After any legal sequence of splits and destructions nothing undefined has happened, and every handle that the
program holds answers with its own team, wherever and however often other teams were created or destroyed meanwhile —
its parent among them, or a team that had the same address before: the caller's number, the size, the members (of the
group and of the communicator) and the config. The invalid handle answers -1. -/
theorem C92_handles (cts : Nat) {n me wa sa : Nat} (hme : me < n) (hw : Plain wa) (hs : Plain sa) (hne : wa ≠ sa)
    {cs : List Call} (L : Legals wa sa (book0 n me) cs) :
    ∃ s, runs (initTeams cts n me wa sa) cs = .ok s ∧
      (∀ h o c, books (book0 n me) cs h = some (o, c) →
        myPeM s h = .ok o.my_pe ∧ nPesM s h = .ok o.n_pes ∧ getConfigM s h = .ok (some c) ∧
        groupOf s h = .ok (some (o.comm, o.comm))) ∧
      myPeM s hInvalid = .ok (-1) ∧ nPesM s hInvalid = .ok (-1) ∧ getConfigM s hInvalid = .ok none := by
  obtain ⟨s, h1, I⟩ := inv_runs (inv_init cts hme hw hs hne) L
  refine ⟨s, h1, ?_, ?_, ?_, ?_⟩
  · intro h o c hb
    exact inv_answers I hb
  · unfold myPeM; rw [deref_invalid]; rfl
  · unfold nPesM; rw [deref_invalid]; rfl
  · unfold getConfigM; rw [deref_invalid]; rfl

/-- C92. What a split returns: success and, if the triplet selects the caller, a handle that stands for the selected
members of the parent in order, with the config given; all handles held before are unchanged. If it does not select
the caller, the invalid handle. -/
theorem C92_split (cts : Nat) {n me wa sa : Nat} (hme : me < n) (hw : Plain wa) (hs : Plain sa) (hne : wa ≠ sa)
    {cs : List Call} (L : Legals wa sa (book0 n me) cs) {p : Nat} {o : Obj} {c0 : Int}
    (hp : books (book0 n me) cs p = some (o, c0)) (hlen : o.comm.length ≤ IntMax)
    {r : Nat} (hr : o.my_pe = r) (hrl : r < o.comm.length) {st sd sz : Int}
    (hv : ValidTriplet o.comm.length st sd sz) (cfg : Option Int) (mask : Int) {a : Nat}
    (ha : Fresh wa sa (books (book0 n me) cs) a) :
    ∃ s s' h, runs (initTeams cts n me wa sa) cs = .ok s ∧ splitStridedM s p st sd sz cfg mask a = .ok (0, h, s') ∧
      (∀ i : Nat, (i : Int) < sz → (r : Int) = st + i * sd → h = a ∧ myPeM s' h = .ok i ∧ nPesM s' h = .ok sz ∧
        getConfigM s' h = .ok (some (if mask = 0 then 0 else cfg.getD 0)) ∧
        groupOf s' h = .ok (some ((List.range sz.toNat).map (fun (j : Nat) => o.comm.getD (st + j * sd).toNat 0),
          (List.range sz.toNat).map (fun (j : Nat) => o.comm.getD (st + j * sd).toNat 0)))) ∧
      ((∀ i : Nat, (i : Int) < sz → (r : Int) ≠ st + i * sd) → h = hInvalid) ∧
      (∀ h' x, books (book0 n me) cs h' = some x → myPeM s' h' = myPeM s h' ∧ nPesM s' h' = nPesM s h' ∧
        getConfigM s' h' = getConfigM s h' ∧ groupOf s' h' = groupOf s h') := by
  obtain ⟨s, h1, I⟩ := inv_runs (inv_init cts hme hw hs hne) L
  have hx := C39_exact hlen hv hrl
  have key : ∀ res : SplitRes, res.rc = 0 → splitStrided o.comm st sd sz r = .ok res →
      splitStridedM s p st sd sz cfg mask a = .ok (0, splitTo s a res.team cfg mask) := by
    intro res h0 hres
    have h2 : splitStrided o.comm st sd sz o.my_pe.toNat = .ok res := by rw [hr, Int.toNat_natCast]; exact hres
    rw [inv_strided I hp h2, h0]
  by_cases hex : ∃ i : Nat, (i : Int) < sz ∧ (r : Int) = st + i * sd
  · obtain ⟨i, hi, hri⟩ := hex
    have hres := hx.1 i hi hri
    refine ⟨s, _, _, h1, key _ rfl hres, ?_, ?_, ?_⟩
    · intro i' hi' hri'
      have hres' := hx.1 i' hi' hri'
      rw [hres] at hres'
      obtain ⟨J, _⟩ := inv_splitTo I ha (some
        { comm := (List.range sz.toNat).map (fun (j : Nat) => o.comm.getD (st + j * sd).toNat 0)
          my_pe := i, n_pes := sz }) cfg mask
      have hq := inv_answers J (h := a) (o := { comm := (List.range sz.toNat).map (fun (j : Nat) => o.comm.getD (st + j * sd).toNat 0), my_pe := i, n_pes := sz }) (c := given cfg mask) (put_self _ _ _)
      simp only [Res.ok.injEq, SplitRes.mk.injEq, Option.some.injEq, Obj.mk.injEq, true_and, and_true] at hres'
      rw [← hres']
      exact ⟨rfl, hq.1, hq.2.1, hq.2.2.1, hq.2.2.2⟩
    · intro hno; exact absurd hri (hno i hi)
    · intro h' x hb
      obtain ⟨o', c'⟩ := x
      obtain ⟨J, _⟩ := inv_splitTo I ha (some
        { comm := (List.range sz.toNat).map (fun (j : Nat) => o.comm.getD (st + j * sd).toNat 0)
          my_pe := i, n_pes := sz }) cfg mask
      have hne' : h' ≠ a := by rintro rfl; rw [ha.2.1] at hb; cases hb
      have q1 := inv_answers I hb
      have q2 := inv_answers J (h := h') (o := o') (c := c') ((put_ne _ _ hne').trans hb)
      exact ⟨q2.1.trans q1.1.symm, q2.2.1.trans q1.2.1.symm, q2.2.2.1.trans q1.2.2.1.symm,
        q2.2.2.2.trans q1.2.2.2.symm⟩
  · have hres := hx.2 (fun i hi e => hex ⟨i, hi, e⟩)
    exact ⟨s, _, _, h1, key _ rfl hres, fun i hi e => absurd ⟨i, hi, e⟩ hex, fun _ => rfl,
      fun h' x hb => ⟨rfl, rfl, rfl, rfl⟩⟩

/-- C92. The destruction of a team changes no other handle's answers; that of a predefined team or of the invalid handle
changes nothing at all. -/
theorem C92_destroy (cts : Nat) {n me wa sa : Nat} (hme : me < n) (hw : Plain wa) (hs : Plain sa) (hne : wa ≠ sa)
    {cs : List Call} (L : Legals wa sa (book0 n me) cs) {h : Nat} {t : Obj × Int}
    (hh : books (book0 n me) cs h = some t) :
    ∃ s s', runs (initTeams cts n me wa sa) cs = .ok s ∧ destroyM s h = .ok s' ∧
      (h = hWorld ∨ h = hShared → s' = s) ∧ destroyM s hInvalid = .ok s ∧
      (∀ h' x, h' ≠ h → books (book0 n me) cs h' = some x → myPeM s' h' = myPeM s h' ∧ nPesM s' h' = nPesM s h' ∧
        getConfigM s' h' = getConfigM s h' ∧ groupOf s' h' = groupOf s h') := by
  obtain ⟨s, h1, I⟩ := inv_runs (inv_init cts hme hw hs hne) L
  obtain ⟨s', h2, J⟩ := inv_step I (c := .destroy h) (.inr ⟨t, hh⟩)
  refine ⟨s, s', h1, h2, ?_, if_pos (.inl rfl), ?_⟩
  · intro hc
    have : destroyM s h = .ok s := if_pos (.inr hc)
    have h2' : destroyM s h = .ok s' := h2
    rw [this] at h2'
    cases h2'; rfl
  · intro h' x hne' hb
    obtain ⟨o', c'⟩ := x
    have hb' : (Call.destroy h).book (books (book0 n me) cs) h' = some (o', c') := by
      unfold Call.book
      dsimp only
      split
      · exact hb
      · exact (put_ne _ _ hne').trans hb
    have q1 := inv_answers I hb
    have q2 := inv_answers J hb'
    exact ⟨q2.1.trans q1.1.symm, q2.2.1.trans q1.2.1.symm, q2.2.2.1.trans q1.2.2.1.symm,
      q2.2.2.2.trans q1.2.2.2.symm⟩

/-- C92. Finalisation succeeds after any legal sequence, and what is then left is exactly what belongs to teams that
the program did not destroy: their objects, one communicator and one group each. -/
theorem C92_released (cts : Nat) {n me wa sa : Nat} (hme : me < n) (hw : Plain wa) (hs : Plain sa) (hne : wa ≠ sa)
    {cs : List Call} (L : Legals wa sa (book0 n me) cs) :
    ∃ s s', runs (initTeams cts n me wa sa) cs = .ok s ∧ finalTeams s = .ok s' ∧
      (∀ a, (∃ t, s'.objs a = some t) ↔ Plain a ∧ ∃ x, books (book0 n me) cs a = some x) ∧
      (∀ k, ((∃ m, s'.comms k = some m) ↔ ∃ a t, s'.objs a = some t ∧ t.comm = k) ∧
            ((∃ m, s'.groups k = some m) ↔ ∃ a t, s'.objs a = some t ∧ t.comm = k)) ∧
      ((∀ a, Plain a → books (book0 n me) cs a = none) →
        s'.objs = (fun _ => none) ∧ s'.comms = (fun _ => none) ∧ s'.groups = (fun _ => none)) := by
  obtain ⟨s, h1, I⟩ := inv_runs (inv_init cts hme hw hs hne) L
  obtain ⟨tw, htw⟩ := I.bw
  obtain ⟨ts, hts⟩ := I.bs
  have hs1 : adr wa sa (books (book0 n me) cs) sa = some ts := (if_neg (Ne.symm hne)).trans ((if_pos rfl).trans hts)
  obtain ⟨s1, d1, C1, w1, z1⟩ := core_destroy I.core hs1
  have C1' : Core { s1 with shared := 0 } (put (adr wa sa (books (book0 n me) cs)) sa none) :=
    ⟨C1.live, C1.dead, C1.inj, C1.ownC, C1.ownG⟩
  have hw1 : put (adr wa sa (books (book0 n me) cs)) sa none wa = some tw := (put_ne _ _ hne).trans ((if_pos rfl).trans htw)
  obtain ⟨s2, d2, C2, _, _⟩ := core_destroy C1' hw1
  have C : Core { s2 with world := 0 } (put (put (adr wa sa (books (book0 n me) cs)) sa none) wa none) :=
    ⟨C2.live, C2.dead, C2.inj, C2.ownC, C2.ownG⟩
  have hob : ∀ a, (∃ t, ({ s2 with world := 0 } : St).objs a = some t) ↔
      Plain a ∧ ∃ x, books (book0 n me) cs a = some x := by
    intro a
    constructor
    · rintro ⟨t, ht⟩
      obtain ⟨o, c, hb, _⟩ := core_obj C ht
      have e1 : a ≠ wa := by rintro rfl; rw [put_self] at hb; cases hb
      rw [put_ne _ _ e1] at hb
      have e2 : a ≠ sa := by rintro rfl; rw [put_self] at hb; cases hb
      rw [put_ne _ _ e2] at hb
      unfold adr at hb
      rw [if_neg e1, if_neg e2] at hb
      split at hb
      · cases hb
      · rename_i hc
        refine ⟨⟨?_, fun e => hc (.inl e), fun e => hc (.inr e)⟩, _, hb⟩
        rintro rfl; rw [I.b0] at hb; cases hb
    · rintro ⟨hp, ⟨o, c⟩, hb⟩
      have e1 : a ≠ wa := by rintro rfl; rw [I.nw] at hb; cases hb
      have e2 : a ≠ sa := by rintro rfl; rw [I.ns] at hb; cases hb
      have : put (put (adr wa sa (books (book0 n me) cs)) sa none) wa none a = some (o, c) :=
        (put_ne _ _ e1).trans ((put_ne _ _ e2).trans ((adr_plain hp e1 e2).trans hb))
      obtain ⟨k, g, _⟩ := C.live a o c this
      exact ⟨_, g⟩
  have hcg : ∀ k, ((∃ m, ({ s2 with world := 0 } : St).comms k = some m) ↔
        ∃ a t, ({ s2 with world := 0 } : St).objs a = some t ∧ t.comm = k) ∧
      ((∃ m, ({ s2 with world := 0 } : St).groups k = some m) ↔
        ∃ a t, ({ s2 with world := 0 } : St).objs a = some t ∧ t.comm = k) := by
    intro k
    refine ⟨⟨fun ⟨m, hm⟩ => C.ownC k m hm, ?_⟩, ⟨fun ⟨m, hm⟩ => C.ownG k m hm, ?_⟩⟩
    · rintro ⟨a, t, ht, rfl⟩
      obtain ⟨o, c, _, _, g, _⟩ := core_obj C ht
      exact ⟨_, g⟩
    · rintro ⟨a, t, ht, rfl⟩
      obtain ⟨o, c, _, _, _, g, _⟩ := core_obj C ht
      exact ⟨_, g⟩
  refine ⟨s, { s2 with world := 0 }, h1, ?_, hob, hcg, ?_⟩
  · unfold finalTeams
    rw [I.shared, d1, Res.bind_ok]
    have : s1.world = wa := w1.trans I.world
    have d2' : destroyAt { s1 with shared := 0 } s1.world = .ok s2 := by rw [show destroyAt { s1 with shared := 0 } s1.world = destroyAt { s1 with shared := 0 } wa from congrArg _ this]; exact d2
    rw [d2']; rfl
  · intro hall
    have h0 : ∀ a, ({ s2 with world := 0 } : St).objs a = none := by
      intro a
      cases e : ({ s2 with world := 0 } : St).objs a with
      | none => rfl
      | some t =>
        obtain ⟨hp, x, hx⟩ := (hob a).1 ⟨t, e⟩
        rw [hall a hp] at hx; cases hx
    refine ⟨funext h0, funext fun k => ?_, funext fun k => ?_⟩
    · cases e : ({ s2 with world := 0 } : St).comms k with
      | none => rfl
      | some m =>
        obtain ⟨a, t, ht, _⟩ := (hcg k).1.1 ⟨m, e⟩
        rw [h0 a] at ht; cases ht
    · cases e : ({ s2 with world := 0 } : St).groups k with
      | none => rfl
      | some m =>
        obtain ⟨a, t, ht, _⟩ := (hcg k).2.1 ⟨m, e⟩
        rw [h0 a] at ht; cases ht

/-- **C92**: a split of the invalid handle, at any time, fails (`SHMEM_OTHER_ERR`): the new handles are the invalid handle and nothing
changes -/
theorem C92_invalid (s : St) (st sd sz : Int) (cfg : Option Int) (mask x : Int) (xc yc : Option Int) (xm ym : Int) (a b : Nat) :
    splitStridedM s hInvalid st sd sz cfg mask a = .ok (-2, hInvalid, s) ∧
    split2dM s hInvalid x xc xm yc ym a b = .ok (-2, hInvalid, hInvalid, s) := by
  constructor
  · unfold splitStridedM; rw [deref_invalid]; rfl
  · unfold split2dM; rw [deref_invalid]; rfl

/-- C92, where it ends: the library does not recognise a handle after its destruction; using it again, or destroying it
again, is undefined behaviour. -/
theorem C92_dangling {s s' : St} {h : Nat} (hp : Plain h) (hd : destroyM s h = .ok s') :
    destroyM s' h = .ub ∧ getConfigM s' h = .ub ∧ myPeM s' h = .ub := by
  have hn : ¬ (h = hInvalid ∨ h = hWorld ∨ h = hShared) := by
    rintro (e | e | e); exacts [hp.1 e, hp.2.1 e, hp.2.2 e]
  unfold destroyM at hd ⊢
  rw [if_neg hn] at hd ⊢
  have h0 : s'.objs h = none := by
    unfold destroyAt at hd
    split at hd
    · cases hd
    · split at hd
      · cases hd; exact put_self _ _ _
      · cases hd
      · cases hd
      · cases hd
  have h1 : deref s' h = .ub := by
    unfold deref ptr
    rw [if_neg hp.1, if_neg hp.2.1, if_neg hp.2.2, h0]
  refine ⟨?_, ?_, ?_⟩
  · unfold destroyAt; rw [h0]
  · unfold getConfigM; rw [h1]; rfl
  · unfold myPeM; rw [h1]; rfl

/-- the hypotheses can be met: PE 2 of 6 makes the team of the even PEs at address 0x1000, splits it in rows of two,
destroys the parent, makes a new team at the same address, and still has the row's config -/
def exampleCalls : List Call :=
  [.strided hWorld 0 2 3 (some 4) SHMEM_TEAM_NUM_CONTEXTS 0x1000,
   .grid 0x1000 2 (some 7) 1 none 0 0x2000 0x3000,
   .destroy 0x1000,
   .strided hShared 2 1 2 none 1 0x1000]
where
  /-- shmem.h.in.tpl L95 -/
  SHMEM_TEAM_NUM_CONTEXTS : Int := 0x091001

example : Legals 0x100 0x200 (book0 6 2) exampleCalls := by
  refine ⟨⟨.inr ⟨_, _, rfl, ?_⟩, ?_⟩, ⟨.inr ⟨_, _, rfl, ?_⟩, ?_, ?_, by decide⟩, .inr ⟨_, rfl⟩, ⟨.inr ⟨_, _, rfl, ?_⟩, ?_⟩, trivial⟩
  · exact ⟨⟨0, some ⟨[0, 2, 4], 1, 3⟩⟩, by decide +kernel⟩
  · exact ⟨⟨by decide, by decide, by decide⟩, rfl, by decide, by decide⟩
  · exact ⟨(some ⟨[0, 2], 1, 2⟩, some ⟨[2], 0, 1⟩), by decide +kernel⟩
  · exact ⟨⟨by decide, by decide, by decide⟩, rfl, by decide, by decide⟩
  · exact ⟨⟨by decide, by decide, by decide⟩, rfl, by decide, by decide⟩
  · exact ⟨⟨0, some ⟨[2, 3], 0, 2⟩⟩, by decide +kernel⟩
  · exact ⟨⟨by decide, by decide, by decide⟩, rfl, by decide, by decide⟩

/-- the other hypotheses: the addresses, a triplet that selects PE 2 of 6, a fresh address, a handle that is held and one
that can be destroyed -/
example : Plain 0x100 ∧ Plain 0x200 ∧ ValidTriplet (worldObj 6 2).comm.length 0 2 3 ∧ (worldObj 6 2).my_pe = (2 : Nat) ∧
    Fresh 0x100 0x200 (book0 6 2) 0x1000 ∧ book0 6 2 hWorld = some (worldObj 6 2, 0) := by
  refine ⟨⟨by decide, by decide, by decide⟩, ⟨by decide, by decide, by decide⟩, ?_, rfl, ?_, rfl⟩
  · unfold ValidTriplet; decide
  · exact ⟨⟨by decide, by decide, by decide⟩, rfl, by decide, by decide⟩

/-- the row at 0x2000 in that run, after its parent is gone and the parent's address is in use again: two members, the
caller second, the config of the split; and the triplet's team at 0x1000 has the default config -/
example : books (book0 6 2) exampleCalls 0x2000 = some (⟨[0, 2], 1, 2⟩, 7) ∧
    books (book0 6 2) exampleCalls 0x1000 = some (⟨[2, 3], 0, 2⟩, 0) := by
  constructor <;> decide +kernel

/-- a destruction that succeeds -/
example : ∃ s', destroyM (install empty 0x1000 (worldObj 2 1)) 0x1000 = .ok s' := ⟨_, rfl⟩

end Verif.Team.Life
