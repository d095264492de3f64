import Verif.Base.CInt
/-!
# C112: start-up with Level Zero devices

`/repo/src/internal/util/gpu/ze.c` L10-79 (`OSHMPIU_gpu_init`, `OSHMPIU_gpu_finalize`) and the allocation of a space in device memory,
`space_impl.c` L113-132. Called by `OSHMPI_space_initialize` and `OSHMPI_space_finalize` (space_impl.c L152-162); without Level Zero both
functions do nothing (`util/gpu/fallback.c` L9-17).

Trusted: the Level Zero loader, as described at each parameter of `Env`.
-/
namespace Verif.Gpu.Ze

/-- a device: its handle, and whether `zeDeviceGetProperties` says `ZE_DEVICE_TYPE_GPU` (ze.c L51-54) -/
structure Dev where
  handle : Nat
  gpu : Bool
deriving DecidableEq, Repr

/-- a driver: its handle (not NULL) and its devices (`zeDeviceGet`, ze.c L40-47) -/
structure Drv where
  handle : Nat
  devs : List Dev
deriving DecidableEq, Repr

/-- the calls to the loader, in the order of ze.c L25-70; `i`: the number of the driver, `d`: that of the device -/
inductive Call where
  | init | count | list | devCount (i : Nat) | devList (i : Nat) | props (i d : Nat) | context
deriving DecidableEq, Repr

/-- What the loader and the C library answer (parameters): which calls return `ZE_RESULT_SUCCESS`; the drivers (the same ones at both calls of
`zeDriverGet`, and likewise their devices: trusted); whether the allocation number `a` (0: the drivers, `i + 1`: the devices of driver `i`) of `n`
bytes gives NULL; whether the loader checks for NULL handles (else they are undefined behaviour). `checks`: OSHMPI was built without
`OSHMPI_DISABLE_ERROR_CHECKING` (oshmpi_util.h L71-80). -/
structure Env where
  checks : Bool
  validates : Bool
  good : Call → Bool
  drivers : List Drv
  null : Nat → Nat → Bool

/-- the global variables (ze.c L13-16) and the arrays that have been allocated and not freed; `last`: the one `global_ze_device_handles` points to;
`context`: the driver the context was created for -/
structure St where
  driver : Option Drv
  devs : List Dev
  last : Option Nat
  context : Option Drv
  arrays : List Nat
deriving DecidableEq, Repr

/-- before the first call -/
def fresh : St := ⟨none, [], none, none, []⟩

/-- `ZE_ERR_CHECK`, `OSHMPI_ASSERT` (ze.c L10-11, oshmpi_util.h L71-80). Without error checking what follows a failed call is not modelled
(`ub`: simplification). -/
def check (e : Env) (b : Bool) : Res Unit := if b then .ok () else if e.checks then .abort else .ub

/-- `OSHMPIU_malloc` and the assertion after it (ze.c L33-34, L43-45): whether it is not NULL. Without error checking NULL is used as an array,
which is only possible if it has no elements. -/
def alloc (e : Env) (a n : Nat) : Res Bool :=
  if e.null a n then (if e.checks then .abort else if n = 0 then .ok false else .ub) else .ok true

/-- the search for a GPU among the devices of driver `i`, ze.c L49-58 -/
def hasGpu (e : Env) (i : Nat) : Nat → List Dev → Res Bool
  | _, [] => .ok false
  | d, x :: xs => (check e (e.good (.props i d))).bind fun _ => if x.gpu then .ok true else hasGpu e i (d + 1) xs

/-- the search for a driver, ze.c L39-63. `global_ze_device_count` is the length of `devs`. -/
def scan (e : Env) : Nat → List Drv → St → Res St
  | _, [], s => .ok s
  | i, v :: vs, s =>
    (check e (e.good (.devCount i))).bind fun _ =>
    (alloc e (i + 1) (8 * v.devs.length)).bind fun p =>
    (check e (e.good (.devList i))).bind fun _ =>
    (hasGpu e i 0 v.devs).bind fun g =>
      let s' : St := { s with devs := v.devs, last := if p then some (i + 1) else none, arrays := if p then (i + 1) :: s.arrays else s.arrays,
                              driver := if g then some v else s.driver }
      if s'.driver.isSome then .ok s' else scan e (i + 1) vs s'

/-- `zeContextCreate` for the driver found, ze.c L65-71: a NULL driver is an error if the loader checks, else undefined behaviour -/
def mkContext (e : Env) (s : St) : Res St :=
  match s.driver with
  | none => if e.validates then (check e false).bind fun _ => .ub else .ub
  | some v => (check e (e.good .context)).bind fun _ => .ok { s with context := some v }

/-- `OSHMPIU_gpu_init`, ze.c L18-74 -/
def init (e : Env) (s : St) : Res St :=
  (check e (e.good .init)).bind fun _ =>
  (check e (e.good .count)).bind fun _ =>
  if e.drivers = [] then .abort
  else (alloc e 0 (8 * e.drivers.length)).bind fun _ =>
    (check e (e.good .list)).bind fun _ =>
    (scan e 0 e.drivers { s with arrays := 0 :: s.arrays }).bind fun s1 =>
    (mkContext e s1).bind fun s2 => .ok { s2 with arrays := s2.arrays.erase 0 }

/-- `OSHMPIU_gpu_finalize`, ze.c L76-79: frees the array of devices -/
def finalize (s : St) : St :=
  match s.last with
  | none => s
  | some a => { s with arrays := s.arrays.erase a }

/-- `space_ze_malloc`, space_impl.c L113-132: memory on the device with handle `h`, which the program names in the configuration of the space. A
device can be used with the context iff it is one of the driver the context was created for (trusted); else the call fails. -/
def spaceMalloc (e : Env) (s : St) (h : Nat) : Res Unit :=
  match s.context with
  | none => .ub
  | some v => check e (v.devs.any fun d => d.handle == h)

/-! ## Proofs -/

/-- the driver has a GPU -/
def Drv.hasGpu (v : Drv) : Bool := v.devs.any (·.gpu)

/-- all calls succeed, and memory is there for arrays that have elements -/
structure Env.Works (e : Env) : Prop where
  good : ∀ c, e.good c = true
  mem : ∀ a n, 0 < n → e.null a n = false

theorem hasGpu_ok {e : Env} {i : Nat} : ∀ (xs : List Dev) (d : Nat) {b : Bool}, hasGpu e i d xs = .ok b → b = xs.any (·.gpu)
  | [], d, b, h => by cases h; rfl
  | x :: xs, d, b, h => by
    unfold hasGpu check at h
    rw [List.any_cons]
    cases hg : e.good (.props i d) with
    | false => cases hc : e.checks <;> simp [hg, hc] at h
    | true =>
      simp only [hg, if_true, Res.bind_ok] at h
      cases hx : x.gpu with
      | true => simp only [hx, if_true] at h; cases h; rfl
      | false =>
        simp only [hx, Bool.false_eq_true, if_false] at h
        rw [Bool.false_or]
        exact hasGpu_ok xs (d + 1) h

theorem hasGpu_works {e : Env} (hw : e.Works) {i : Nat} : ∀ (xs : List Dev) (d : Nat), hasGpu e i d xs = .ok (xs.any (·.gpu))
  | [], d => rfl
  | x :: xs, d => by
    unfold hasGpu check
    rw [List.any_cons]
    simp only [hw.good, if_true, Res.bind_ok]
    cases hx : x.gpu with
    | true => rfl
    | false => simp only [Bool.false_eq_true, if_false, Bool.false_or]; exact hasGpu_works hw xs (d + 1)

theorem check_ok {e : Env} {b : Bool} {r : Unit} (h : check e b = .ok r) : b = true := by
  unfold check at h
  cases b with
  | true => rfl
  | false => cases hc : e.checks <;> simp [hc] at h

theorem bind_eq {α β : Type} {r : Res α} {f : α → Res β} {y : β} (h : r.bind f = .ok y) : ∃ a, r = .ok a ∧ f a = .ok y := by
  cases r with
  | ok a => exact ⟨a, rfl, h⟩
  | abort => cases h
  | ub => cases h
  | hang => cases h

/-- what a search that begins without a driver finds -/
theorem scan_ok {e : Env} : ∀ (vs : List Drv) (i : Nat) (s : St) {t : St}, s.driver = none → scan e i vs s = .ok t →
    t.driver = vs.find? Drv.hasGpu ∧ (∀ v, t.driver = some v → t.devs = v.devs) ∧ t.context = s.context
  | [], i, s, t, hs, h => by
    cases h
    refine ⟨by rw [hs]; rfl, fun v hv => ?_, rfl⟩
    rw [hs] at hv; cases hv
  | v :: vs, i, s, t, hs, h => by
    unfold scan at h
    obtain ⟨_, _, h⟩ := bind_eq h
    obtain ⟨p, _, h⟩ := bind_eq h
    obtain ⟨_, _, h⟩ := bind_eq h
    obtain ⟨g, hg, h⟩ := bind_eq h
    have hg := hasGpu_ok _ _ hg
    dsimp only at h
    have hd : v.hasGpu = g := hg.symm
    cases g with
    | true =>
      simp only [if_true, Option.isSome_some] at h
      cases h
      refine ⟨by rw [List.find?_cons_of_pos (by rw [hd])], fun w hw => ?_, rfl⟩
      cases hw; rfl
    | false =>
      simp only [Bool.false_eq_true, if_false, hs, Option.isSome_none] at h
      rw [List.find?_cons_of_neg (by rw [hd]; exact Bool.false_ne_true)]
      obtain ⟨h1, h2, h3⟩ := scan_ok vs (i + 1) _ rfl h
      exact ⟨h1, h2, h3⟩

theorem scan_works {e : Env} (hw : e.Works) (hz : e.checks = true → ∀ a, e.null a 0 = false) : ∀ (vs : List Drv) (i : Nat) (s : St),
    s.driver = none → ∃ t, scan e i vs s = .ok t
  | [], i, s, _ => ⟨s, rfl⟩
  | v :: vs, i, s, hs => by
    have ha : ∃ p, alloc e (i + 1) (8 * v.devs.length) = .ok p := by
      unfold alloc
      cases hn : e.null (i + 1) (8 * v.devs.length) with
      | false => exact ⟨true, rfl⟩
      | true =>
        have h0 : 8 * v.devs.length = 0 := by
          cases Nat.eq_zero_or_pos (8 * v.devs.length) with
          | inl h0 => exact h0
          | inr h0 => rw [hw.mem _ _ h0] at hn; cases hn
        cases hc : e.checks with
        | true => rw [h0, hz hc] at hn; cases hn
        | false => rw [h0]; exact ⟨false, rfl⟩
    obtain ⟨p, hp⟩ := ha
    unfold scan check
    simp only [hw.good, if_true, Res.bind_ok, hp, hasGpu_works hw]
    cases v.devs.any (·.gpu) with
    | true => simp
    | false =>
      simp only [Bool.false_eq_true, if_false, hs, Option.isSome_none]
      exact scan_works hw hz vs (i + 1) _ rfl

/-- the arrays after the search: one for each driver up to the one found -/
theorem scan_arrays {e : Env} (hnn : ∀ a n, e.null a n = false) : ∀ (vs : List Drv) (i : Nat) (s : St) {t : St}, s.driver = none →
    scan e i vs s = .ok t → t.driver ≠ none →
    t.last = some (i + 1 + vs.findIdx Drv.hasGpu) ∧ t.arrays = ((List.range (vs.findIdx Drv.hasGpu + 1)).map (i + 1 + ·)).reverse ++ s.arrays
  | [], i, s, t, hs, h, hd => by cases h; exact absurd hs hd
  | v :: vs, i, s, t, hs, h, hd => by
    unfold scan at h
    obtain ⟨_, _, h⟩ := bind_eq h
    obtain ⟨p, hp, h⟩ := bind_eq h
    obtain ⟨_, _, h⟩ := bind_eq h
    obtain ⟨g, hg, h⟩ := bind_eq h
    have hg := hasGpu_ok _ _ hg
    unfold alloc at hp
    rw [hnn] at hp
    cases hp
    dsimp only at h
    have hvg : v.hasGpu = g := hg.symm
    rw [List.findIdx_cons, hvg]
    cases g with
    | true =>
      simp only [if_true, Option.isSome_some] at h
      cases h
      exact ⟨rfl, rfl⟩
    | false =>
      simp only [Bool.false_eq_true, if_false, hs, Option.isSome_none, if_true] at h
      obtain ⟨h1, h2⟩ := scan_arrays hnn vs (i + 1) _ rfl h hd
      refine ⟨?_, ?_⟩
      · rw [h1]; simp only [cond_false]; congr 1; omega
      · rw [h2]
        simp only [cond_false]
        rw [List.range_succ_eq_map (n := vs.findIdx Drv.hasGpu + 1), List.map_cons, List.reverse_cons, List.append_assoc, List.map_map]
        have : (fun x => i + 1 + 1 + x) = (fun x => i + 1 + x) ∘ Nat.succ := by funext x; simp only [Function.comp]; omega
        rw [← this]
        rfl

theorem init_parts {e : Env} {s t : St} (h : init e s = .ok t) :
    e.drivers ≠ [] ∧ ∃ s1 v, scan e 0 e.drivers { s with arrays := 0 :: s.arrays } = .ok s1 ∧ s1.driver = some v ∧
      t = { s1 with context := some v, arrays := s1.arrays.erase 0 } := by
  unfold init at h
  obtain ⟨_, _, h⟩ := bind_eq h
  obtain ⟨_, _, h⟩ := bind_eq h
  split at h
  · cases h
  · rename_i hne
    obtain ⟨_, _, h⟩ := bind_eq h
    obtain ⟨_, _, h⟩ := bind_eq h
    obtain ⟨s1, h1, h⟩ := bind_eq h
    obtain ⟨s2, h2, h⟩ := bind_eq h
    refine ⟨hne, s1, ?_⟩
    unfold mkContext at h2
    cases hd : s1.driver with
    | none =>
      rw [hd] at h2
      dsimp only at h2
      split at h2
      · obtain ⟨_, _, h2⟩ := bind_eq h2
        cases h2
      · cases h2
    | some v =>
      rw [hd] at h2
      obtain ⟨_, _, h2⟩ := bind_eq h2
      cases h2
      cases h
      exact ⟨v, h1, rfl, rfl⟩

/-! ## Theorems -/

/-- **The device found.** Whatever the loader answers: if start-up succeeds, the context belongs to the first driver that has a GPU, and the devices
    recorded are all devices of that driver; so a space on any of its devices can be allocated. -/
theorem C112_found {e : Env} {t : St} (h : init e fresh = .ok t) :
    ∃ v, e.drivers.find? Drv.hasGpu = some v ∧ t.driver = some v ∧ t.context = some v ∧ t.devs = v.devs ∧
      ∀ d ∈ v.devs, spaceMalloc e t d.handle = .ok () := by
  obtain ⟨_, s1, v, h1, h2, rfl⟩ := init_parts h
  obtain ⟨a1, a2, _⟩ := scan_ok _ _ _ (by rfl) h1
  refine ⟨v, by rw [← a1, h2], h2, rfl, a2 v h2, fun d hd => ?_⟩
  unfold spaceMalloc check
  dsimp only
  rw [if_pos (List.any_eq_true.2 ⟨d, hd, by simp⟩)]

/-- **Start-up succeeds** if the calls succeed, some driver has a GPU and `malloc(0)` does not give NULL (or error checking is off). -/
theorem C112_starts_partial {e : Env} (hw : e.Works) (hz : e.checks = true → ∀ a, e.null a 0 = false) (hg : ∃ v ∈ e.drivers, v.hasGpu = true) :
    ∃ t, init e fresh = .ok t := by
  obtain ⟨v, hv, hvg⟩ := hg
  have hne : e.drivers ≠ [] := fun h => by rw [h] at hv; cases hv
  obtain ⟨s1, h1⟩ := scan_works hw hz e.drivers 0 { fresh with arrays := 0 :: fresh.arrays } rfl
  obtain ⟨a1, _⟩ := scan_ok _ _ _ (by rfl) h1
  obtain ⟨w, hw'⟩ : ∃ w, s1.driver = some w := by
    rw [a1]
    cases hf : e.drivers.find? Drv.hasGpu with
    | some w => exact ⟨w, rfl⟩
    | none => exact absurd hvg (List.find?_eq_none.1 hf v hv)
  have hal : alloc e 0 (8 * e.drivers.length) = .ok true := by
    unfold alloc
    rw [hw.mem _ _ (by have := List.length_pos_iff.2 hne; omega)]
    rfl
  unfold init check
  simp only [hw.good, if_true, Res.bind_ok, if_neg hne, hal, h1]
  unfold mkContext check
  simp only [hw', hw.good, if_true, Res.bind_ok]
  exact ⟨_, rfl⟩

/-- **No device.** Without a driver start-up aborts, and without a GPU it never succeeds. -/
theorem C112_none (e : Env) (s : St) : (e.drivers = [] → e.checks = true → init e s = .abort) ∧
    ((∀ v ∈ e.drivers, v.hasGpu = false) → s.driver = none → ∀ t, init e s ≠ .ok t) := by
  constructor
  · intro hn hc
    unfold init check
    cases e.good .init <;> cases e.good .count <;> simp [hn, hc]
  · intro hn hs t h
    obtain ⟨_, s1, v, h1, h2, _⟩ := init_parts h
    obtain ⟨a1, _⟩ := scan_ok _ _ { s with arrays := 0 :: s.arrays } hs h1
    rw [h2] at a1
    have := List.find?_some a1.symm
    rw [hn v (List.mem_of_find?_eq_some a1.symm)] at this
    cases this

/-- **What is freed.** If no allocation gives NULL, after start-up and finalization exactly the arrays of the drivers before the one found remain. -/
theorem C112_arrays {e : Env} (hnn : ∀ a n, e.null a n = false) {t : St} (h : init e fresh = .ok t) :
    (finalize t).arrays = ((List.range (e.drivers.findIdx Drv.hasGpu)).map (· + 1)).reverse := by
  obtain ⟨_, s1, v, h1, h2, rfl⟩ := init_parts h
  obtain ⟨a1, a2⟩ := scan_arrays hnn _ _ _ (by rfl) h1 (by rw [h2]; exact fun h => by cases h)
  have hf : (fun x => 0 + 1 + x) = (fun x : Nat => x + 1) := by funext x; omega
  have h0 : (0 : Nat) ∉ ((List.range (e.drivers.findIdx Drv.hasGpu + 1)).map (0 + 1 + ·)).reverse := by
    intro hm
    obtain ⟨x, _, hx⟩ := List.mem_map.1 (List.mem_reverse.1 hm)
    omega
  unfold finalize
  dsimp only
  rw [a1]
  dsimp only
  rw [a2, List.erase_append_right _ h0]
  show ((_ ++ ((0 :: []) : List Nat).erase 0).erase _) = _
  rw [List.erase_cons_head, List.append_nil, List.range_succ, List.map_append, List.reverse_append]
  show ((0 + 1 + e.drivers.findIdx Drv.hasGpu) :: _).erase _ = _
  rw [List.erase_cons_head, hf]
  rfl

/-! ## Where the code violates the claim, and examples -/

/-- a host driver without GPU, one GPU driver, and a second one -/
def exDrivers : List Drv := [⟨1, [⟨10, false⟩]⟩, ⟨2, [⟨20, false⟩, ⟨21, true⟩]⟩, ⟨3, [⟨30, true⟩]⟩]

def exEnv (ds : List Drv) (z : Bool) : Env := ⟨true, true, fun _ => true, ds, fun _ n => z && n == 0⟩

theorem exEnv_works (ds : List Drv) (z : Bool) : (exEnv ds z).Works :=
  ⟨fun _ => rfl, fun a n hn => by
    show (z && n == 0) = false
    have : (n == 0) = false := by simpa using Nat.ne_of_gt hn
    rw [this, Bool.and_false]⟩

/-- **Violated**: a space on a GPU of a second driver is refused, although the program can name it; a driver without devices in front of the one with
    the GPU makes start-up abort where `malloc(0)` is NULL; the device arrays of drivers without a GPU are never freed; with drivers but no GPU the
    library passes a NULL driver on, which is undefined if the loader does not check. -/
theorem C112_fails :
    (∃ e t v d, e.Works ∧ init e fresh = .ok t ∧ v ∈ e.drivers ∧ d ∈ v.devs ∧ d.gpu = true ∧ spaceMalloc e t d.handle = .abort) ∧
    (∃ e, e.Works ∧ (∃ v ∈ e.drivers, v.hasGpu = true) ∧ init e fresh = .abort) ∧
    (∃ e t, e.Works ∧ init e fresh = .ok t ∧ (finalize t).arrays ≠ []) ∧
    ∃ e, e.Works ∧ e.checks = true ∧ init e fresh = .ub := by
  refine ⟨⟨exEnv exDrivers false, _, ⟨3, [⟨30, true⟩]⟩, ⟨30, true⟩, exEnv_works _ _, rfl, ?_, ?_, rfl, rfl⟩,
    ⟨exEnv [⟨1, []⟩, ⟨2, [⟨20, true⟩]⟩] true, exEnv_works _ _, ⟨⟨2, [⟨20, true⟩]⟩, ?_, rfl⟩, rfl⟩,
    ⟨exEnv exDrivers false, _, exEnv_works _ _, rfl, ?_⟩,
    ⟨⟨true, false, fun _ => true, [⟨1, [⟨10, false⟩]⟩], fun _ _ => false⟩, ⟨fun _ => rfl, fun _ _ _ => rfl⟩, rfl, rfl⟩⟩
  · exact List.mem_cons_of_mem _ (List.mem_cons_of_mem _ (List.mem_cons_self ..))
  · exact List.mem_cons_self ..
  · exact List.mem_cons_of_mem _ (List.mem_cons_self ..)
  · decide

/-- the hypotheses of `C112_found`, `C112_starts_partial` and `C112_arrays` are met by a system with three drivers; one array remains -/
example : ∃ t, init (exEnv exDrivers false) fresh = .ok t ∧ t.context = some ⟨2, [⟨20, false⟩, ⟨21, true⟩]⟩ ∧ (finalize t).arrays = [1] ∧
    (exEnv exDrivers false).Works ∧ (∀ a n, (exEnv exDrivers false).null a n = false) ∧ ∃ v ∈ (exEnv exDrivers false).drivers, v.hasGpu = true :=
  ⟨_, rfl, rfl, by decide, exEnv_works _ _, fun _ _ => rfl, ⟨2, [⟨20, false⟩, ⟨21, true⟩]⟩, List.mem_cons_of_mem _ (List.mem_cons_self ..), rfl⟩

/-- those of `C112_none`: no driver, and a driver without a GPU -/
example : (exEnv [] false).drivers = [] ∧ (exEnv [] false).checks = true ∧ fresh.driver = none ∧
    ∀ v ∈ (exEnv [⟨1, [⟨10, false⟩]⟩] false).drivers, v.hasGpu = false :=
  ⟨rfl, rfl, rfl, fun v hv => by rw [List.mem_singleton.1 hv]; rfl⟩

end Verif.Gpu.Ze
