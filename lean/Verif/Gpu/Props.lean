import Verif.Gpu.Model
/-!
# C103: device memory is only touched in ways that the MPI library supports
-/
namespace Verif.Gpu
open Verif.Env (MemKind RmaOp)

/-! ## Specification -/

/-- A device buffer may be touched by a communication function only if MPI provides it for device buffers (README.md L126-131,
OSHMPI_MPI_GPU_FEATURES; the bits of oshmpi_impl.h L244-249), and never by the CPU. Other memory may be touched by everything. -/
def Supported (features : Nat) (a : Acc) : Prop :=
  ∀ v, a.mem = .device v → match a.by_ with
    | .cpu => False
    | .pt2pt => features.testBit 0 = true
    | .put => features.testBit 1 = true
    | .get => features.testBit 2 = true
    | .acc => features.testBit 3 = true

/-- the drivers tell the truth about their own memory and do not know other memory (cudaPointerGetAttributes: `cudaErrorInvalidValue` before
CUDA 11, "unregistered" since) -/
structure Driver.Good (d : Driver) : Prop where
  cdev : d.cuda (.device .cuda) = .success .device
  cman : d.cuda (.managed .cuda) = .success .managed
  cpin : d.cuda (.pinned .cuda) = .success .host
  cother : ∀ w, w ≠ .device .cuda → w ≠ .managed .cuda → w ≠ .pinned .cuda → d.cuda w = .success .unregistered ∨ d.cuda w = .invalidValue
  zdev : d.ze (.device .ze) = .success .device
  zman : d.ze (.managed .ze) = .success .shared
  zpin : d.ze (.pinned .ze) = .success .host
  zother : ∀ w, w ≠ .device .ze → w ≠ .managed .ze → w ≠ .pinned .ze → d.ze w = .success .unknown

/-- the program only has memory of a device the library was built for, and the library was not built for both -/
def Cfg.Knows (c : Cfg) (w : Where) : Prop := ∀ v, w = .device v → match v with
  | .cuda => c.cuda = true
  | .ze => c.ze = true ∧ c.cuda = false

/-- the default build and no forced path -/
def Cfg.Auto (c : Cfg) : Prop := c.build.rma = .auto ∧ c.v.rmaDbg = .auto

/-- the memory kind recorded is that of the memory -/
def Kind (k : MemKind) (w : Where) : Prop := match k with
  | .host => w = .host
  | .cuda => w = .device .cuda
  | .ze => w = .device .ze

/-! ## The pointer query -/

/-- Whatever the memory: the query never aborts, and says "device" exactly for device memory. -/
theorem C103_query {c : Cfg} {d : Driver} (hd : d.Good) (w : Where) (hk : c.Knows w) :
    ∃ t, query c d w = .ok t ∧ (t = .dev ↔ ∃ v, w = .device v) := by
  have zo : ∀ w, w ≠ .device .ze → w ≠ .managed .ze → w ≠ .pinned .ze → queryZe (d.ze w) = .ok .unregistered := by
    intro w h1 h2 h3; rw [hd.zother w h1 h2 h3]; rfl
  have co : ∀ w, w ≠ .device .cuda → w ≠ .managed .cuda → w ≠ .pinned .cuda → queryCuda (d.cuda w) = .ok .unregistered := by
    intro w h1 h2 h3
    rcases hd.cother w h1 h2 h3 with h | h <;> rw [h] <;> rfl
  unfold query
  cases hc : c.cuda
  · cases hz : c.ze
    · refine ⟨.unregistered, rfl, ?_⟩
      constructor
      · intro h; cases h
      · rintro ⟨v, rfl⟩
        have := hk v rfl
        cases v
        · exact absurd (this : c.cuda = true) (by simp [hc])
        · exact absurd (this : c.ze = true ∧ _).1 (by simp [hz])
    · simp only [Bool.false_eq_true, if_false, if_true]
      cases w with
      | host => exact ⟨_, zo _ (by simp) (by simp) (by simp), by simp⟩
      | pinned v => cases v with
        | cuda => exact ⟨_, zo _ (by simp) (by simp) (by simp), by simp⟩
        | ze => exact ⟨.registered, by rw [hd.zpin]; rfl, by simp⟩
      | managed v => cases v with
        | cuda => exact ⟨_, zo _ (by simp) (by simp) (by simp), by simp⟩
        | ze => exact ⟨.managed, by rw [hd.zman]; rfl, by simp⟩
      | device v => cases v with
        | cuda => exact absurd (hk .cuda rfl : c.cuda = true) (by simp [hc])
        | ze => exact ⟨.dev, by rw [hd.zdev]; rfl, by simp⟩
  · simp only [if_true]
    cases w with
    | host => exact ⟨_, co _ (by simp) (by simp) (by simp), by simp⟩
    | pinned v => cases v with
      | ze => exact ⟨_, co _ (by simp) (by simp) (by simp), by simp⟩
      | cuda => exact ⟨.registered, by rw [hd.cpin]; rfl, by simp⟩
    | managed v => cases v with
      | ze => exact ⟨_, co _ (by simp) (by simp) (by simp), by simp⟩
      | cuda => exact ⟨.managed, by rw [hd.cman]; rfl, by simp⟩
    | device v => cases v with
      | ze => exact absurd (hk .ze rfl : c.ze = true ∧ c.cuda = false).2 (by simp [hc])
      | cuda => exact ⟨.dev, by rw [hd.cdev]; rfl, by simp⟩

/-! ## One put or get -/

/-- the accesses of a transfer that goes a given way (specification: `direct` by the RMA function, else by messages) -/
def ways (op : RmaOp) (o t : Where) : List (List Acc) :=
  [match op with
    | .put => [⟨.put, o⟩, ⟨.put, t⟩]
    | .get => [⟨.get, o⟩, ⟨.get, t⟩],
   [⟨.pt2pt, o⟩, ⟨.pt2pt, t⟩]]

/-- the call of an operation -/
def callOf (op : RmaOp) (o : Where) (n : Nat) : Call := match op with
  | .put => .put o n
  | .get => .get o n

theorem host_supported (f : Nat) (b : By) (w : Where) (h : ∀ v, w ≠ .device v) : Supported f ⟨b, w⟩ :=
  fun v e => absurd e (h v)

/-- the feature of an operation, oshmpi_impl.h L246-247 -/
def bitOf : RmaOp → Nat
  | .put => 1
  | .get => 2

/-- device memory? -/
def Where.isDev : Where → Bool
  | .host => false
  | .pinned _ => false
  | .device _ => true
  | .managed _ => false

theorem isDev_false {w : Where} : w.isDev = false ↔ ∀ v, w ≠ .device v := by
  cases w <;> simp [Where.isDev]

theorem isDev_true {w : Where} : w.isDev = true ↔ ∃ v, w = .device v := by
  cases w <;> simp [Where.isDev]

theorem checkGpu (f : Nat) (b : Bool) (k : MemKind) (op : RmaOp) (h : k ≠ .host ∨ b = true) :
    Env.checkGpuDirectRma f b k op = if f.testBit (bitOf op) then .ok true else if f.testBit 0 then .ok false else .abort := by
  have hu : (k == .cuda || k == .ze || b) = true := by
    rcases h with h | h
    · cases k
      · exact absurd rfl h
      · rfl
      · rfl
    · rw [h, Bool.or_true]
  unfold Env.checkGpuDirectRma
  simp only [hu]
  cases op
  · cases h1 : f.testBit 1 <;> cases h0 : f.testBit 0 <;> simp [bitOf, h1]
  · cases h1 : f.testBit 2 <;> cases h0 : f.testBit 0 <;> simp [bitOf, h1]

theorem check_eq {c : Cfg} {d : Driver} (hd : d.Good) {o t : Where} {k : MemKind} (hk : c.Knows o) (ht : Kind k t) (op : RmaOp) :
    check c d o k op =
      if o.isDev = false ∧ t.isDev = false then .ok true
      else if c.v.gpu.testBit (bitOf op) then .ok true
      else if c.v.gpu.testBit 0 then .ok false else .abort := by
  obtain ⟨ty, hq, hdev⟩ := C103_query hd o hk
  unfold check
  cases k with
  | cuda =>
    have ht : t = .device .cuda := ht
    subst ht
    rw [if_neg (show ¬(o.isDev = false ∧ (Where.device .cuda).isDev = false) by rintro ⟨_, h⟩; cases h), if_pos (.inl rfl), Res.bind_ok]
    exact checkGpu _ _ _ _ (.inr rfl)
  | ze =>
    have ht : t = .device .ze := ht
    subst ht
    rw [if_neg (show ¬(o.isDev = false ∧ (Where.device .ze).isDev = false) by rintro ⟨_, h⟩; cases h), if_pos (.inr rfl), Res.bind_ok]
    exact checkGpu _ _ _ _ (.inr rfl)
  | host =>
    have ht : t = .host := ht
    subst ht
    rw [if_neg (show ¬(MemKind.host = .cuda ∨ MemKind.host = .ze) by simp), hq]
    simp only [Res.bind_ok]
    by_cases hdv : ∃ v, o = .device v
    · have e : ty = .dev := hdev.2 hdv
      subst e
      obtain ⟨v, rfl⟩ := hdv
      rw [if_neg (show ¬((Where.device v).isDev = false ∧ Where.host.isDev = false) by rintro ⟨h, _⟩; cases h)]
      exact checkGpu _ _ _ _ (.inr rfl)
    · have e : (ty == PtrTy.dev) = false := by
        cases ty with
        | dev => exact absurd (hdev.1 rfl) hdv
        | unregistered => rfl
        | registered => rfl
        | managed => rfl
      rw [if_pos (show o.isDev = false ∧ Where.host.isDev = false from ⟨isDev_false.2 fun v h => hdv ⟨v, h⟩, rfl⟩), e]
      rfl

/-- Puts and gets of `n` elements in the default build, for all features, all kinds of origin and target memory: the call aborts exactly when
MPI supports no way to make the transfer; otherwise it goes one of the ways, and MPI supports every access of it. A transfer between host
buffers is always made by MPI's put or get. -/
theorem C103_rma_partial {c : Cfg} {d : Driver} (hd : d.Good) (ha : c.Auto) {o t : Where} {k : MemKind} (hk : c.Knows o) (ht : Kind k t)
    (op : RmaOp) {n : Nat} (hn : n ≠ 0) :
    (accesses c d k t (callOf op o n) = .abort ↔ ∀ l ∈ ways op o t, ¬ ∀ a ∈ l, Supported c.v.gpu a) ∧
    (accesses c d k t (callOf op o n) ≠ .abort → ∃ l ∈ ways op o t, accesses c d k t (callOf op o n) = .ok l ∧ ∀ a ∈ l, Supported c.v.gpu a) ∧
    ((∀ v, o ≠ .device v) → (∀ v, t ≠ .device v) → accesses c d k t (callOf op o n) = .ok ((ways op o t).headD [])) := by
  have hc := check_eq hd hk ht op
  have hdir : direct c d o k op = check c d o k op := by
    unfold direct; rw [ha.1, ha.2]; rfl
  have key : accesses c d k t (callOf op o n) = (check c d o k op).bind fun b =>
      .ok (if b then (ways op o t).headD [] else [⟨.pt2pt, o⟩, ⟨.pt2pt, t⟩]) := by
    cases op
    · unfold accesses callOf; simp only [if_neg hn]; rw [hdir]; rfl
    · unfold accesses callOf; simp only [if_neg hn]; rw [hdir]; rfl
  rw [key, hc]
  by_cases h0 : (∀ v, o ≠ .device v) ∧ (∀ v, t ≠ .device v)
  · rw [if_pos (show o.isDev = false ∧ t.isDev = false from ⟨isDev_false.2 h0.1, isDev_false.2 h0.2⟩)]
    have hs : ∀ a ∈ (ways op o t).headD [], Supported c.v.gpu a := by
      intro a ha'
      cases op <;>
      · simp only [ways, List.headD_cons, List.mem_cons, List.not_mem_nil, or_false] at ha'
        rcases ha' with rfl | rfl
        · exact host_supported _ _ _ h0.1
        · exact host_supported _ _ _ h0.2
    have hm : (ways op o t).headD [] ∈ ways op o t := by cases op <;> simp [ways]
    refine ⟨⟨(fun h => by cases h), fun h => absurd hs (h _ hm)⟩, fun _ => ⟨_, hm, rfl, hs⟩, fun _ _ => rfl⟩
  · rw [if_neg (show ¬(o.isDev = false ∧ t.isDev = false) from fun h => h0 ⟨isDev_false.1 h.1, isDev_false.1 h.2⟩)]
    have hex : (∃ v, o = .device v) ∨ ∃ v, t = .device v := by
      by_contra hx
      rw [not_or] at hx
      exact h0 ⟨fun v h => hx.1 ⟨v, h⟩, fun v h => hx.2 ⟨v, h⟩⟩
    have no : ¬((∀ v, o ≠ .device v) ∧ ∀ v, t ≠ .device v) := h0
    -- the accesses of one way are supported iff the feature is there
    have sup : ∀ (b : By) (p : Prop), (∀ w v, w = Where.device v → (Supported c.v.gpu ⟨b, w⟩ ↔ p)) →
        ((∀ a ∈ [Acc.mk b o, ⟨b, t⟩], Supported c.v.gpu a) ↔ p) := by
      intro b p hb
      constructor
      · intro h
        rcases hex with ⟨v, e⟩ | ⟨v, e⟩
        · exact (hb o v e).1 (h _ (by simp))
        · exact (hb t v e).1 (h _ (by simp))
      · intro hp a hm
        simp only [List.mem_cons, List.not_mem_nil, or_false] at hm
        rcases hm with rfl | rfl <;> intro v e <;> exact (hb _ v e).2 hp v e
    have single : ∀ (b : By) (i : Nat), (∀ w, Supported c.v.gpu ⟨b, w⟩ ↔ ∀ v : Vendor, w = .device v → c.v.gpu.testBit i = true) →
        ((∀ a ∈ [Acc.mk b o, ⟨b, t⟩], Supported c.v.gpu a) ↔ c.v.gpu.testBit i = true) := by
      intro b i hb
      exact sup b _ (fun w v e => (hb w).trans ⟨fun h => h v e, fun h _ _ => h⟩)
    have s0 := single .pt2pt 0 (fun w => Iff.rfl)
    have hw : (∀ a ∈ (ways op o t).headD [], Supported c.v.gpu a) ↔ c.v.gpu.testBit (bitOf op) = true := by
      cases op
      · exact single .put 1 (fun w => Iff.rfl)
      · exact single .get 2 (fun w => Iff.rfl)
    have hall : ∀ P : List Acc → Prop, (∀ l ∈ ways op o t, P l) ↔ P ((ways op o t).headD []) ∧ P [⟨.pt2pt, o⟩, ⟨.pt2pt, t⟩] := by
      intro P; cases op <;> simp [ways]
    have hm : (ways op o t).headD [] ∈ ways op o t := by cases op <;> simp [ways]
    have hm2 : [Acc.mk .pt2pt o, ⟨.pt2pt, t⟩] ∈ ways op o t := by cases op <;> simp [ways]
    rw [hall, hw, s0]
    generalize c.v.gpu.testBit (bitOf op) = b1 at hw ⊢
    generalize c.v.gpu.testBit 0 = b0 at s0 ⊢
    refine ⟨?_, ?_, fun h1 h2 => absurd ⟨h1, h2⟩ h0⟩
    · cases b1 <;> cases b0 <;> simp
    · intro _
      cases b1
      · cases b0
        · rename_i hne; exact absurd rfl hne
        · exact ⟨_, hm2, rfl, s0.2 rfl⟩
      · exact ⟨_, hm, rfl, hw.2 rfl⟩

/-- what else may touch memory: a call that is not a put or get is fine on host memory in every build -/
theorem C103_host (c : Cfg) {d : Driver} (hd : d.Good) (k : Call) (hl : ∀ o n, k = .put o n ∨ k = .get o n → o = .host)
    (hb : ∀ s t n, k = .bcastRoot s t n → s = .host ∧ t = .host) :
    ∃ l, accesses c d .host .host k = .ok l ∧ ∀ a ∈ l, Supported c.v.gpu a := by
  have hs : ∀ b, Supported c.v.gpu ⟨b, .host⟩ := fun b => host_supported _ _ _ (fun v h => by cases h)
  have hdir : ∀ op, ∃ b, direct c d .host .host op = .ok b := by
    intro op
    unfold direct
    cases c.build.rma with
    | am => exact ⟨_, rfl⟩
    | direct => exact ⟨_, rfl⟩
    | auto =>
      dsimp only
      by_cases h1 : c.v.rmaDbg = .direct
      · exact ⟨_, if_pos h1⟩
      · rw [if_neg h1]
        by_cases h2 : c.v.rmaDbg = .auto
        · rw [if_pos h2, check_eq hd (fun v h => by cases h) (show Kind .host .host from rfl)]
          exact ⟨true, if_pos ⟨rfl, rfl⟩⟩
        · exact ⟨_, if_neg h2⟩
  have two : ∀ (a : Acc) (b1 b2 : By), a ∈ [Acc.mk b1 .host, ⟨b2, .host⟩] → Supported c.v.gpu a := by
    intro a b1 b2 h
    simp only [List.mem_cons, List.not_mem_nil, or_false] at h
    rcases h with rfl | rfl <;> exact hs _
  have one : ∀ (a : Acc) (b : By), a ∈ [Acc.mk b .host] → Supported c.v.gpu a := by
    intro a b h
    simp only [List.mem_cons, List.not_mem_nil, or_false] at h
    subst h; exact hs _
  cases k with
  | put o n =>
    have := hl o n (.inl rfl); subst this
    unfold accesses; dsimp only
    by_cases hn : n = 0
    · rw [if_pos hn]; exact ⟨_, rfl, fun a h => by cases h⟩
    · rw [if_neg hn]
      obtain ⟨b, e⟩ := hdir .put
      rw [e]
      refine ⟨_, rfl, ?_⟩
      intro a h
      cases b
      · exact two a _ _ h
      · exact two a _ _ h
  | get o n =>
    have := hl o n (.inr rfl); subst this
    unfold accesses; dsimp only
    by_cases hn : n = 0
    · rw [if_pos hn]; exact ⟨_, rfl, fun a h => by cases h⟩
    · rw [if_neg hn]
      obtain ⟨b, e⟩ := hdir .get
      rw [e]
      refine ⟨_, rfl, ?_⟩
      intro a h
      cases b
      · exact two a _ _ h
      · exact two a _ _ h
  | amo =>
    refine ⟨_, rfl, fun a h => ?_⟩
    split at h <;> exact one a _ h
  | test => exact ⟨_, rfl, fun a h => one a _ h⟩
  | setLock => exact ⟨_, rfl, fun a h => two a _ _ h⟩
  | clearLock p =>
    refine ⟨_, rfl, fun a h => ?_⟩
    cases p
    · exact one a _ h
    · exact two a _ _ h
  | testLock => exact ⟨_, rfl, fun a h => one a _ h⟩
  | calloc n =>
    refine ⟨_, rfl, fun a h => ?_⟩
    split at h
    · cases h
    · exact one a _ h
  | bcastRoot s t n =>
    obtain ⟨rfl, rfl⟩ := hb s t n rfl
    refine ⟨_, rfl, fun a h => ?_⟩
    split at h
    · cases h
    · exact two a _ _ h

/-- Atomics on device memory: exactly when they are direct and MPI supports accumulates on device memory are they supported. -/
theorem C103_amo (c : Cfg) (d : Driver) (k : MemKind) (v : Vendor) :
    (∃ l, accesses c d k (.device v) .amo = .ok l ∧ ∀ a ∈ l, Supported c.v.gpu a) ↔ directAmo c = true ∧ c.v.gpu.testBit 3 = true := by
  unfold accesses
  cases directAmo c
  · constructor
    · rintro ⟨l, e, h⟩
      cases e
      exact absurd (h ⟨.cpu, .device v⟩ (by simp) v rfl) (fun h => h)
    · rintro ⟨h, _⟩; cases h
  · constructor
    · rintro ⟨l, e, h⟩
      cases e
      exact ⟨rfl, h ⟨.acc, .device v⟩ (by simp) v rfl⟩
    · rintro ⟨_, h⟩
      refine ⟨_, rfl, fun a ha => ?_⟩
      simp only [if_true, List.mem_cons, List.not_mem_nil, or_false] at ha
      subst ha
      exact fun _ _ => h

/-! ## Spaces -/

/-- Creating a space, for every value of the memory-kind field: CUDA and Level Zero memory if the library was built for it, else the job
aborts; every other value is host memory. The kind recorded is always that of the memory. -/
theorem C103_create (c : Cfg) (raw : Int) :
    (spaceAlloc c raw = .abort ↔ (raw = 1 ∧ c.cuda = false) ∨ (raw = 2 ∧ c.ze = false)) ∧
    ∀ r, spaceAlloc c raw = .ok r → Kind r.1 r.2 ∧ (raw = 1 → r.2 = .device .cuda) ∧ (raw = 2 → r.2 = .device .ze) ∧
      (raw ≠ 1 → raw ≠ 2 → r = (.host, .host)) ∧ spaceFree c r.1 r.2 = .ok () := by
  unfold spaceAlloc
  by_cases h1 : raw = 1
  · subst h1
    rw [if_pos rfl]
    cases hc : c.cuda
    · refine ⟨by simp, fun r h => by cases h⟩
    · refine ⟨by simp, fun r h => ?_⟩
      cases h
      exact ⟨rfl, fun _ => rfl, fun h => by omega, fun h => absurd rfl h, by unfold spaceFree; rw [hc]; rfl⟩
  · rw [if_neg h1]
    by_cases h2 : raw = 2
    · subst h2
      rw [if_pos rfl]
      cases hc : c.ze
      · refine ⟨by simp, fun r h => by cases h⟩
      · refine ⟨by simp, fun r h => ?_⟩
        cases h
        exact ⟨rfl, fun h => absurd h h1, fun _ => rfl, fun _ h => absurd rfl h, by unfold spaceFree; rw [hc]; rfl⟩
    · rw [if_neg h2]
      refine ⟨by simp [h1, h2], fun r h => ?_⟩
      cases h
      exact ⟨rfl, fun h => absurd h h1, fun h => absurd h h2, fun _ _ => rfl, rfl⟩

/-- the spaces a program has: created and not yet destroyed (specification) -/
def names : List Nat → List Op → List Nat
  | l, [] => l
  | l, .create n _ :: t => names (l ++ [n]) t
  | l, .destroy n :: t => names (l.filter (· ≠ n)) t
  | l, .call _ _ :: t => names l t

/-- the program uses the API correctly: names are fresh, only existing spaces are used -/
def Correct : List Nat → List Op → Prop
  | _, [] => True
  | l, .create n _ :: t => n ∉ l ∧ Correct (l ++ [n]) t
  | l, .destroy n :: t => n ∈ l ∧ Correct (l.filter (· ≠ n)) t
  | l, .call o _ :: t => (∀ n, o = some n → n ∈ l) ∧ Correct l t

/-- what every history keeps: names are distinct, kinds are those of the memory and of the build, what is allocated is that of the spaces -/
structure Inv (c : Cfg) (s : St) : Prop where
  nodup : (s.spaces.map (·.name)).Nodup
  kind : ∀ x ∈ s.spaces, Kind x.kind x.mem
  built : ∀ x ∈ s.spaces, c.cuda = true ∨ x.kind ≠ .cuda
  builtz : ∀ x ∈ s.spaces, c.ze = true ∨ x.kind ≠ .ze
  live : s.live = s.spaces.map (fun x => (x.name, x.mem))

theorem inv_init (c : Cfg) : Inv c init := ⟨List.nodup_nil, (fun x h => by cases h), (fun x h => by cases h), (fun x h => by cases h), rfl⟩

theorem find_some {l : List Sp} {n : Nat} {x : Sp} (h : l.find? (fun y => y.name == n) = some x) : x ∈ l ∧ x.name = n :=
  ⟨List.mem_of_find?_eq_some h, by have := List.find?_some h; simpa using this⟩

theorem find_none {l : List Sp} {n : Nat} (h : n ∈ l.map (·.name)) : ∃ x, l.find? (fun y => y.name == n) = some x := by
  obtain ⟨x, hx, rfl⟩ := List.mem_map.1 h
  cases hf : l.find? (fun y => y.name == x.name) with
  | some y => exact ⟨y, rfl⟩
  | none => exact absurd (List.find?_eq_none.1 hf x hx) (by simp)

theorem free_ok {c : Cfg} {s : St} (hi : Inv c s) {x : Sp} (hx : x ∈ s.spaces) : spaceFree c x.kind x.mem = .ok () := by
  have hk := hi.kind x hx
  have hb := hi.built x hx
  have hz := hi.builtz x hx
  unfold spaceFree
  cases h : x.kind with
  | host => rw [h] at hk; exact if_pos hk
  | cuda =>
    rw [h] at hk hb
    have : c.cuda = true := hb.resolve_right (fun hn => hn rfl)
    simp only [this, if_true]; exact if_pos hk
  | ze =>
    rw [h] at hk hz
    have : c.ze = true := hz.resolve_right (fun hn => hn rfl)
    simp only [this, if_true]; exact if_pos hk

theorem nodup_inj {l : List Sp} (hn : (l.map (·.name)).Nodup) {x y : Sp} (hx : x ∈ l) (hy : y ∈ l) (h : x.name = y.name) : x = y := by
  induction l with
  | nil => cases hx
  | cons a t ih =>
    rw [List.map_cons, List.nodup_cons] at hn
    rcases List.mem_cons.1 hx with ex | hx'
    · rcases List.mem_cons.1 hy with ey | hy'
      · rw [ex, ey]
      · exact absurd (List.mem_map.2 ⟨y, hy', by rw [← h, ex]⟩) hn.1
    · rcases List.mem_cons.1 hy with ey | hy'
      · exact absurd (List.mem_map.2 ⟨x, hx', by rw [h, ey]⟩) hn.1
      · exact ih hn.2 hx' hy'

theorem filter_live (l : List Sp) {x : Sp} (hx : x ∈ l) (hn : (l.map (·.name)).Nodup) :
    (l.map (fun y => (y.name, y.mem))).filter (fun y => y != (x.name, x.mem)) = (l.filter (fun y => y.name != x.name)).map (fun y => (y.name, y.mem)) := by
  rw [List.filter_map]
  congr 1
  apply List.filter_congr
  intro y hy
  by_cases h : y.name = x.name
  · have : y = x := nodup_inj hn hy hx h
    subst this; simp
  · have : (y.name, y.mem) ≠ (x.name, x.mem) := fun e => h (Prod.ext_iff.1 e).1
    show ((y.name, y.mem) != (x.name, x.mem)) = (y.name != x.name)
    rw [bne_iff_ne.2 this, bne_iff_ne.2 h]

theorem inv_step {c : Cfg} {d : Driver} {s s' : St} (hi : Inv c s) {o : Op} (h : step c d s o = .ok s') : Inv c s' := by
  cases o with
  | create n raw =>
    unfold step at h
    dsimp only at h
    split at h
    · cases h
    · rename_i hf
      have hf : ∀ x ∈ s.spaces, x.name ≠ n := by
        intro x hx e
        exact hf (List.any_eq_true.2 ⟨x, hx, by simpa using e⟩)
      cases hr : spaceAlloc c raw with
      | abort => rw [hr] at h; cases h
      | ub => rw [hr] at h; cases h
      | hang => rw [hr] at h; cases h
      | ok r =>
        rw [hr] at h; cases h
        have hk := (C103_create c raw).2 r hr
        have hfree := hk.2.2.2.2
        refine ⟨?_, ?_, ?_, ?_, ?_⟩
        · simp only [List.map_append, List.map_cons, List.map_nil]
          refine List.nodup_append.2 ⟨hi.nodup, by simp, ?_⟩
          intro a ha b hb e
          simp only [List.mem_cons, List.not_mem_nil, or_false] at hb
          obtain ⟨x, hx, rfl⟩ := List.mem_map.1 ha
          exact hf x hx (e.trans hb)
        · intro x hx
          rcases List.mem_append.1 hx with hx | hx
          · exact hi.kind x hx
          · simp only [List.mem_cons, List.not_mem_nil, or_false] at hx
            subst hx; exact hk.1
        · intro x hx
          rcases List.mem_append.1 hx with hx | hx
          · exact hi.built x hx
          · simp only [List.mem_cons, List.not_mem_nil, or_false] at hx
            subst hx
            by_cases hz : r.1 = .cuda
            · left
              rw [hz] at hfree
              by_contra hc
              rw [Bool.not_eq_true] at hc
              unfold spaceFree at hfree
              simp only [hc] at hfree
              cases hfree
            · exact .inr hz
        · intro x hx
          rcases List.mem_append.1 hx with hx | hx
          · exact hi.builtz x hx
          · simp only [List.mem_cons, List.not_mem_nil, or_false] at hx
            subst hx
            by_cases hz : r.1 = .ze
            · left
              rw [hz] at hfree
              by_contra hc
              rw [Bool.not_eq_true] at hc
              unfold spaceFree at hfree
              simp only [hc] at hfree
              cases hfree
            · exact .inr hz
        · simp only [List.map_append, List.map_cons, List.map_nil, hi.live]
  | destroy n =>
    unfold step at h
    dsimp only at h
    cases hf : s.spaces.find? (fun x => x.name == n) with
    | none => rw [hf] at h; cases h
    | some x =>
      rw [hf] at h
      dsimp only at h
      obtain ⟨hx, rfl⟩ := find_some hf
      rw [free_ok hi hx] at h
      cases h
      refine ⟨?_, ?_, ?_, ?_, ?_⟩
      · exact (List.Sublist.map _ List.filter_sublist).nodup hi.nodup
      · intro y hy; exact hi.kind y (List.mem_filter.1 hy).1
      · intro y hy; exact hi.built y (List.mem_filter.1 hy).1
      · intro y hy; exact hi.builtz y (List.mem_filter.1 hy).1
      · dsimp only; rw [hi.live]; exact filter_live _ hx hi.nodup
  | call ob k =>
    cases ob with
    | none =>
      unfold step at h
      dsimp only at h
      cases ha : accesses c d .host .host k with
      | abort => rw [ha] at h; cases h
      | ub => rw [ha] at h; cases h
      | hang => rw [ha] at h; cases h
      | ok l => rw [ha] at h; cases h; exact ⟨hi.nodup, hi.kind, hi.built, hi.builtz, hi.live⟩
    | some n =>
      unfold step at h
      dsimp only at h
      cases hf : s.spaces.find? (fun x => x.name == n) with
      | none => rw [hf] at h; cases h
      | some x =>
        rw [hf] at h
        dsimp only at h
        cases ha : accesses c d x.kind x.mem k with
        | abort => rw [ha] at h; cases h
        | ub => rw [ha] at h; cases h
        | hang => rw [ha] at h; cases h
        | ok l => rw [ha] at h; cases h; exact ⟨hi.nodup, hi.kind, hi.built, hi.builtz, hi.live⟩

theorem names_step {c : Cfg} {d : Driver} {s s' : St} {o : Op} (h : step c d s o = .ok s') :
    s'.spaces.map (·.name) = names (s.spaces.map (·.name)) [o] := by
  cases o with
  | create n raw =>
    unfold step at h
    dsimp only at h
    split at h
    · cases h
    · cases hr : spaceAlloc c raw with
      | abort => rw [hr] at h; cases h
      | ub => rw [hr] at h; cases h
      | hang => rw [hr] at h; cases h
      | ok r => rw [hr] at h; cases h; simp [names]
  | destroy n =>
    unfold step at h
    dsimp only at h
    cases hf : s.spaces.find? (fun x => x.name == n) with
    | none => rw [hf] at h; cases h
    | some x =>
      rw [hf] at h
      dsimp only at h
      cases hr : spaceFree c x.kind x.mem with
      | abort => rw [hr] at h; cases h
      | ub => rw [hr] at h; cases h
      | hang => rw [hr] at h; cases h
      | ok r =>
        rw [hr] at h; cases h
        simp only [names, List.filter_map]
        congr 1
        apply List.filter_congr
        intro y _
        by_cases hy : y.name = n <;> simp [hy]
  | call ob k =>
    cases ob with
    | none =>
      unfold step at h
      dsimp only at h
      cases ha : accesses c d .host .host k with
      | abort => rw [ha] at h; cases h
      | ub => rw [ha] at h; cases h
      | hang => rw [ha] at h; cases h
      | ok l => rw [ha] at h; cases h; rfl
    | some n =>
      unfold step at h
      dsimp only at h
      cases hf : s.spaces.find? (fun x => x.name == n) with
      | none => rw [hf] at h; cases h
      | some x =>
        rw [hf] at h
        dsimp only at h
        cases ha : accesses c d x.kind x.mem k with
        | abort => rw [ha] at h; cases h
        | ub => rw [ha] at h; cases h
        | hang => rw [ha] at h; cases h
        | ok l => rw [ha] at h; cases h; rfl

theorem names_cons (l : List Nat) (o : Op) (t : List Op) : names l (o :: t) = names (names l [o]) t := by
  cases o <;> rfl

theorem correct_cons {l : List Nat} {o : Op} {t : List Op} (h : Correct l (o :: t)) : Correct l [o] ∧ Correct (names l [o]) t := by
  cases o with
  | create n raw => exact ⟨⟨h.1, trivial⟩, h.2⟩
  | destroy n => exact ⟨⟨h.1, trivial⟩, h.2⟩
  | call ob k => exact ⟨⟨h.1, trivial⟩, h.2⟩

theorem accesses_cases (c : Cfg) (d : Driver) (k : MemKind) (t : Where) (q : Call) :
    accesses c d k t q = .abort ∨ ∃ l, accesses c d k t q = .ok l := by
  have hq : ∀ w, query c d w = .abort ∨ ∃ x, query c d w = .ok x := by
    intro w
    unfold query
    cases c.cuda
    · cases c.ze
      · exact .inr ⟨_, rfl⟩
      · simp only [Bool.false_eq_true, if_false, if_true]
        unfold queryZe
        cases d.ze w with
        | error => exact .inl rfl
        | success x => cases x <;> first | exact .inl rfl | exact .inr ⟨_, rfl⟩
    · simp only [if_true]
      unfold queryCuda
      cases d.cuda w with
      | error => exact .inl rfl
      | invalidValue => exact .inr ⟨_, rfl⟩
      | success x => cases x <;> exact .inr ⟨_, rfl⟩
  have hcg : ∀ f b op, Env.checkGpuDirectRma f b k op = .abort ∨ ∃ x, Env.checkGpuDirectRma f b k op = .ok x := by
    intro f b op
    unfold Env.checkGpuDirectRma
    dsimp only
    by_cases h1 : (!(k == MemKind.cuda || k == MemKind.ze || b)) = true
    · exact .inr ⟨_, if_pos h1⟩
    · rw [if_neg h1]
      cases op
      · by_cases h2 : (!f.testBit 1 && !f.testBit 0) = true
        · exact .inl (if_pos h2)
        · exact .inr ⟨_, if_neg h2⟩
      · by_cases h2 : (!f.testBit 2 && !f.testBit 0) = true
        · exact .inl (if_pos h2)
        · exact .inr ⟨_, if_neg h2⟩
  have hd : ∀ o op, direct c d o k op = .abort ∨ ∃ x, direct c d o k op = .ok x := by
    intro o op
    unfold direct
    cases c.build.rma with
    | am => exact .inr ⟨_, rfl⟩
    | direct => exact .inr ⟨_, rfl⟩
    | auto =>
      dsimp only
      by_cases h1 : c.v.rmaDbg = .direct
      · exact .inr ⟨_, if_pos h1⟩
      · rw [if_neg h1]
        by_cases h2 : c.v.rmaDbg = .auto
        · rw [if_pos h2]
          unfold check
          by_cases h3 : k = .cuda ∨ k = .ze
          · rw [if_pos h3]; exact hcg _ _ _
          · rw [if_neg h3]
            rcases hq o with e | ⟨x, e⟩
            · rw [e]; exact .inl rfl
            · rw [e]; exact hcg _ _ _
        · exact .inr ⟨_, if_neg h2⟩
  cases q with
  | put o n =>
    unfold accesses; dsimp only
    by_cases hn : n = 0
    · exact .inr ⟨_, if_pos hn⟩
    · rw [if_neg hn]
      rcases hd o .put with e | ⟨x, e⟩
      · rw [e]; exact .inl rfl
      · rw [e]; exact .inr ⟨_, rfl⟩
  | get o n =>
    unfold accesses; dsimp only
    by_cases hn : n = 0
    · exact .inr ⟨_, if_pos hn⟩
    · rw [if_neg hn]
      rcases hd o .get with e | ⟨x, e⟩
      · rw [e]; exact .inl rfl
      · rw [e]; exact .inr ⟨_, rfl⟩
  | amo => exact .inr ⟨_, rfl⟩
  | test => exact .inr ⟨_, rfl⟩
  | setLock => exact .inr ⟨_, rfl⟩
  | clearLock p => exact .inr ⟨_, rfl⟩
  | testLock => exact .inr ⟨_, rfl⟩
  | calloc n => exact .inr ⟨_, rfl⟩
  | bcastRoot a b n => exact .inr ⟨_, rfl⟩

/-- one operation of a correct program is carried out or aborts -/
theorem step_cases {c : Cfg} {d : Driver} {s : St} (hi : Inv c s) {o : Op} (h : Correct (s.spaces.map (·.name)) [o]) :
    step c d s o = .abort ∨ ∃ s', step c d s o = .ok s' := by
  cases o with
  | create n raw =>
    unfold step
    dsimp only
    rw [if_neg]
    · cases hr : spaceAlloc c raw with
      | abort => exact .inl rfl
      | ok r => exact .inr ⟨_, rfl⟩
      | ub => unfold spaceAlloc at hr; repeat' split at hr
              all_goals cases hr
      | hang => unfold spaceAlloc at hr; repeat' split at hr
                all_goals cases hr
    · intro hany
      obtain ⟨x, hx, e⟩ := List.any_eq_true.1 hany
      exact h.1 (List.mem_map.2 ⟨x, hx, by simpa using e⟩)
  | destroy n =>
    obtain ⟨x, hf⟩ := find_none h.1
    unfold step
    dsimp only
    rw [hf]
    dsimp only
    rw [free_ok hi (find_some hf).1]
    exact .inr ⟨_, rfl⟩
  | call ob k =>
    cases ob with
    | none =>
      unfold step
      dsimp only
      rcases accesses_cases c d .host .host k with e | ⟨l, e⟩
      · rw [e]; exact .inl rfl
      · rw [e]; exact .inr ⟨_, rfl⟩
    | some n =>
      obtain ⟨x, hf⟩ := find_none (h.1 n rfl)
      unfold step
      dsimp only
      rw [hf]
      dsimp only
      rcases accesses_cases c d x.kind x.mem k with e | ⟨l, e⟩
      · rw [e]; exact .inl rfl
      · rw [e]; exact .inr ⟨_, rfl⟩

theorem run_inv {c : Cfg} {d : Driver} : ∀ (ops : List Op) {s : St}, Inv c s → Correct (s.spaces.map (·.name)) ops →
    run c d s ops = .abort ∨ ∃ s', run c d s ops = .ok s' ∧ Inv c s' ∧ s'.spaces.map (·.name) = names (s.spaces.map (·.name)) ops
  | [], s, hi, _ => .inr ⟨s, rfl, hi, rfl⟩
  | o :: t, s, hi, hc => by
    obtain ⟨h1, h2⟩ := correct_cons hc
    unfold run
    rcases step_cases (d := d) hi h1 with e | ⟨s1, e⟩
    · rw [e]; exact .inl rfl
    · rw [e]
      have hn := names_step e
      rw [← hn] at h2
      rcases run_inv t (inv_step hi e) h2 with e2 | ⟨s', e2, hi', hn'⟩
      · exact .inl e2
      · refine .inr ⟨s', e2, hi', ?_⟩
        rw [names_cons, ← hn]; exact hn'

/-- Spaces of all kinds over their whole life, for every program that uses the API correctly: every destroy gives the memory back to the
allocator it came from (anything else is undefined behaviour, and the run is not `ub`); what is allocated at the end is exactly the memory
of the spaces created and not destroyed. -/
theorem C103_lifecycle (c : Cfg) (d : Driver) (ops : List Op) (h : Correct [] ops) :
    run c d init ops = .abort ∨ ∃ s, run c d init ops = .ok s ∧ s.live.map (·.1) = names [] ops ∧ s.spaces.map (·.name) = names [] ops ∧
      ∀ x ∈ s.spaces, Kind x.kind x.mem ∧ (x.name, x.mem) ∈ s.live := by
  rcases run_inv (d := d) ops (inv_init c) h with e | ⟨s, e, hi, hn⟩
  · exact .inl e
  · refine .inr ⟨s, e, ?_, hn, fun x hx => ⟨hi.kind x hx, ?_⟩⟩
    · rw [hi.live, List.map_map]; exact hn
    · rw [hi.live]; exact List.mem_map.2 ⟨x, hx, rfl⟩

/-- the operations for which the library respects what MPI supports: puts and gets from memory of the device it was built for, and anything on
host objects with host buffers -/
def Respects (c : Cfg) : Op → Prop
  | .create _ _ => True
  | .destroy _ => True
  | .call _ (.put o _) => c.Knows o
  | .call _ (.get o _) => c.Knows o
  | .call (some _) _ => False
  | .call none (.bcastRoot s t _) => s = .host ∧ t = .host
  | .call none _ => True

theorem rma_supported {c : Cfg} {d : Driver} (hd : d.Good) (ha : c.Auto) {o t : Where} {k : MemKind} (hk : c.Knows o) (ht : Kind k t)
    (op : RmaOp) (n : Nat) {l : List Acc} (e : accesses c d k t (callOf op o n) = .ok l) : ∀ a ∈ l, Supported c.v.gpu a := by
  by_cases hn : n = 0
  · subst hn
    cases op
    · cases e; intro a h; cases h
    · cases e; intro a h; cases h
  · obtain ⟨l', _, e', hs⟩ := (C103_rma_partial hd ha hk ht op hn).2.1 (by rw [e]; intro h; cases h)
    rw [e] at e'; cases e'; exact hs

/-- Whole programs in the default build, with spaces of any kinds: as long as spaces are only used in puts and gets, no access in the whole
execution is one that MPI does not support or one of the CPU to device memory. Missing: AMOs, waiting, locks, calloc and broadcast on
spaces in device memory (`C103_*_fails`), forced paths, two kinds of devices. -/
theorem C103_run_partial {c : Cfg} {d : Driver} (hd : d.Good) (ha : c.Auto) (ops : List Op) (hr : ∀ o ∈ ops, Respects c o) {s : St}
    (e : run c d init ops = .ok s) : ∀ a ∈ s.log, Supported c.v.gpu a := by
  suffices H : ∀ (ops : List Op) (s0 s : St), Inv c s0 → (∀ a ∈ s0.log, Supported c.v.gpu a) → (∀ o ∈ ops, Respects c o) →
      run c d s0 ops = .ok s → ∀ a ∈ s.log, Supported c.v.gpu a from
    H ops init s (inv_init c) (fun a h => by cases h) hr e
  intro ops
  induction ops with
  | nil => intro s0 s _ hl _ e; cases e; exact hl
  | cons o t ih =>
    intro s0 s hi hl hr e
    unfold run at e
    cases h1 : step c d s0 o with
    | abort => rw [h1] at e; cases e
    | ub => rw [h1] at e; cases e
    | hang => rw [h1] at e; cases e
    | ok s1 =>
      rw [h1] at e
      refine ih s1 s (inv_step hi h1) ?_ (fun o ho => hr o (List.mem_cons_of_mem _ ho)) e
      have hro := hr o (by simp)
      -- the accesses of one call
      have add : ∀ (k : MemKind) (w : Where) (q : Call), (∀ l, accesses c d k w q = .ok l → ∀ a ∈ l, Supported c.v.gpu a) →
          ((accesses c d k w q).bind fun l => Res.ok { s0 with log := s0.log ++ l }) = .ok s1 → ∀ a ∈ s1.log, Supported c.v.gpu a := by
        intro k w q hq hs
        cases hx : accesses c d k w q with
        | abort => rw [hx] at hs; cases hs
        | ub => rw [hx] at hs; cases hs
        | hang => rw [hx] at hs; cases hs
        | ok l =>
          rw [hx] at hs; cases hs
          intro a ha'
          rcases List.mem_append.1 ha' with h | h
          · exact hl a h
          · exact hq l hx a h
      have hostc : ∀ q, (∀ o n, q = .put o n ∨ q = .get o n → o = .host) → (∀ s t n, q = .bcastRoot s t n → s = .host ∧ t = .host) →
          ∀ l, accesses c d .host .host q = .ok l → ∀ a ∈ l, Supported c.v.gpu a := by
        intro q q1 q2 l el
        obtain ⟨l', e', hs⟩ := C103_host c hd q q1 q2
        rw [el] at e'; cases e'; exact hs
      cases o with
      | create n raw =>
        unfold step at h1
        dsimp only at h1
        split at h1
        · cases h1
        · cases hx : spaceAlloc c raw with
          | abort => rw [hx] at h1; cases h1
          | ub => rw [hx] at h1; cases h1
          | hang => rw [hx] at h1; cases h1
          | ok r => rw [hx] at h1; cases h1; exact hl
      | destroy n =>
        unfold step at h1
        dsimp only at h1
        cases hf : s0.spaces.find? (fun x => x.name == n) with
        | none => rw [hf] at h1; cases h1
        | some x =>
          rw [hf] at h1
          dsimp only at h1
          rw [free_ok hi (find_some hf).1] at h1
          cases h1; exact hl
      | call ob q =>
        cases ob with
        | none =>
          have h1 : ((accesses c d .host .host q).bind fun l => Res.ok { s0 with log := s0.log ++ l }) = .ok s1 := h1
          refine add .host .host q ?_ h1
          cases q with
          | put o n => exact fun l el => rma_supported hd ha hro (show Kind .host .host from rfl) .put n el
          | get o n => exact fun l el => rma_supported hd ha hro (show Kind .host .host from rfl) .get n el
          | bcastRoot a b n => exact hostc _ (fun o n h => by rcases h with h | h <;> cases h) (fun s t n h => by cases h; exact hro)
          | amo => exact hostc _ (fun o n h => by rcases h with h | h <;> cases h) (fun s t n h => by cases h)
          | test => exact hostc _ (fun o n h => by rcases h with h | h <;> cases h) (fun s t n h => by cases h)
          | setLock => exact hostc _ (fun o n h => by rcases h with h | h <;> cases h) (fun s t n h => by cases h)
          | clearLock p => exact hostc _ (fun o n h => by rcases h with h | h <;> cases h) (fun s t n h => by cases h)
          | testLock => exact hostc _ (fun o n h => by rcases h with h | h <;> cases h) (fun s t n h => by cases h)
          | calloc n => exact hostc _ (fun o n h => by rcases h with h | h <;> cases h) (fun s t n h => by cases h)
        | some n =>
          unfold step at h1
          dsimp only at h1
          cases hf : s0.spaces.find? (fun x => x.name == n) with
          | none => rw [hf] at h1; cases h1
          | some x =>
            rw [hf] at h1
            dsimp only at h1
            refine add x.kind x.mem q ?_ h1
            have hk := hi.kind x (find_some hf).1
            cases q with
            | put o n => exact fun l el => rma_supported hd ha hro hk .put n el
            | get o n => exact fun l el => rma_supported hd ha hro hk .get n el
            | bcastRoot a b n => exact (hro : False).elim
            | amo => exact (hro : False).elim
            | test => exact (hro : False).elim
            | setLock => exact (hro : False).elim
            | clearLock p => exact (hro : False).elim
            | testLock => exact (hro : False).elim
            | calloc n => exact (hro : False).elim

/-- Hints: "mr" if the message rate is to be preferred, whatever else is asked for; "lat" if only latency; nothing else has an effect. -/
theorem C103_hints (h : BitVec 64) :
    (perfPreference h = some "mr" ↔ h.getLsbD 1 = true) ∧
    (perfPreference h = some "lat" ↔ h.getLsbD 1 = false ∧ h.getLsbD 0 = true) ∧
    (perfPreference h = none ↔ h.getLsbD 1 = false ∧ h.getLsbD 0 = false) := by
  have e2 : (h &&& 2#64 ≠ 0#64) ↔ h.getLsbD 1 = true := by
    constructor
    · intro hn
      by_contra hb
      apply hn
      apply BitVec.eq_of_getLsbD_eq
      intro i hi
      have : (2#64 : BitVec 64) = BitVec.twoPow 64 1 := by decide
      rw [this, BitVec.getLsbD_and, BitVec.getLsbD_twoPow]
      by_cases h1 : 1 = i
      · subst h1; rw [(Bool.not_eq_true _).mp hb, Bool.false_and]; rfl
      · simp [h1]
    · intro hb hz
      have := congrArg (fun x => x.getLsbD 1) hz
      rw [BitVec.getLsbD_and, hb] at this
      exact absurd this (by decide)
  have e1 : (h &&& 1#64 ≠ 0#64) ↔ h.getLsbD 0 = true := by
    constructor
    · intro hn
      by_contra hb
      apply hn
      apply BitVec.eq_of_getLsbD_eq
      intro i hi
      have : (1#64 : BitVec 64) = BitVec.twoPow 64 0 := by decide
      rw [this, BitVec.getLsbD_and, BitVec.getLsbD_twoPow]
      by_cases h1 : 0 = i
      · subst h1; rw [(Bool.not_eq_true _).mp hb, Bool.false_and]; rfl
      · simp [h1]
    · intro hb hz
      have := congrArg (fun x => x.getLsbD 0) hz
      rw [BitVec.getLsbD_and, hb] at this
      exact absurd this (by decide)
  unfold perfPreference
  by_cases h2 : h &&& 2#64 ≠ 0#64
  · have b2 := e2.1 h2
    rw [if_pos h2, b2]; simp
  · have b2 : h.getLsbD 1 = false := by rw [← Bool.not_eq_true]; exact fun hh => h2 (e2.2 hh)
    rw [if_neg h2, b2]
    by_cases h1 : h &&& 1#64 ≠ 0#64
    · rw [if_pos h1, e1.1 h1]; simp
    · have b1 : h.getLsbD 0 = false := by rw [← Bool.not_eq_true]; exact fun hh => h1 (e1.2 hh)
      rw [if_neg h1, b1]; simp

end Verif.Gpu
