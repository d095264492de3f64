import Verif.Env.Init
import Verif.Env.SizeProps
import Verif.Env.Props
/-!
# C100: what the environment variables do
-/
namespace Verif.Env
open Verif.Setup (AsyncOpt asyncThread)

/-- all variables that `initialize_env` reads -/
def names : List String :=
  ["SHMEM_SYMMETRIC_SIZE", "SHMEM_DEBUG", "SHMEM_VERSION", "SHMEM_INFO", "OSHMPI_VERBOSE", "OSHMPI_AMO_OPS", "OSHMPI_MPI_GPU_FEATURES",
    "OSHMPI_AMO_DBG_MODE", "OSHMPI_RMA_DBG_MODE", "OSHMPI_ENABLE_ASYNC_THREAD", "OSHMPI_ENABLE_MPI_T"]

/-- Two processes whose environments agree on the variables of the library start with the same settings. -/
theorem C100_same (b : Build) (g g' : String → Option (List Char)) (h : ∀ x ∈ names, g x = g' x) : initEnv b g = initEnv b g' := by
  have e : ∀ x ∈ names, val g x = val g' x := fun x hx => by unfold val; rw [h x hx]
  unfold initEnv
  rw [e "SHMEM_SYMMETRIC_SIZE" (by decide), e "SHMEM_DEBUG" (by decide), e "SHMEM_VERSION" (by decide), e "SHMEM_INFO" (by decide),
    e "OSHMPI_VERBOSE" (by decide), e "OSHMPI_AMO_OPS" (by decide), e "OSHMPI_MPI_GPU_FEATURES" (by decide),
    e "OSHMPI_AMO_DBG_MODE" (by decide), e "OSHMPI_RMA_DBG_MODE" (by decide), e "OSHMPI_ENABLE_ASYNC_THREAD" (by decide),
    e "OSHMPI_ENABLE_MPI_T" (by decide)]

/-- A variable with an empty value is as if not set. -/
theorem C100_empty (b : Build) (g : String → Option (List Char)) :
    initEnv b g = initEnv b (fun x => if g x = some [] then none else g x) := by
  have e : val g = val (fun x => if g x = some [] then none else g x) := by
    funext x
    simp only [val]
    cases hx : g x with
    | none => rw [if_neg (by simp)]
    | some s =>
      cases s with
      | nil => rw [if_pos rfl]
      | cons c s => rw [if_neg (by simp)]
  unfold initEnv
  rw [e]

/-- The settings without any variable: 128 MiB, nothing printed, all AMO operations, all GPU features, no forced path, MPI_T on; the
progress thread as the build says or, if it leaves it open, exactly if AMOs or RMA may need active messages. -/
theorem C100_default (b : Build) : initEnv b (fun _ => none) = .ok
    ⟨128 * 1024 * 1024, false, false, false, false, 2 ^ 14 - 1, 2 ^ 4 - 1, .auto, .auto,
      match b.async with
      | .yes => true
      | .no => false
      | .auto => !(decide (b.amo = .direct) && decide (b.rma = .direct)), true⟩ := by
  obtain ⟨nd, amo, rma, async⟩ := b
  cases nd <;> cases amo <;> cases rma <;> cases async <;> decide +kernel

theorem blank_text (ds : List (Fin 10)) (w : List Char) (hd : ds ≠ []) : (text ds ++ w).dropWhile isBlank = text ds ++ w := by
  cases ds with
  | nil => exact absurd rfl hd
  | cons d ds =>
    have h1 : ∀ d : Fin 10, isBlank (Char.ofNat (48 + d.val)) = false := by decide
    show (Char.ofNat (48 + d.val) :: (text ds ++ w)).dropWhile isBlank = _
    rw [List.dropWhile_cons_of_neg (by rw [h1]; decide)]
    rfl

theorem sign_text (ds : List (Fin 10)) (w : List Char) (hd : ds ≠ []) : scanSign (text ds ++ w) = (false, text ds ++ w) := by
  cases ds with
  | nil => exact absurd rfl hd
  | cons d ds =>
    have h1 : ∀ d : Fin 10, Char.ofNat (48 + d.val) ≠ '-' ∧ Char.ofNat (48 + d.val) ≠ '+' := by decide
    show scanSign (Char.ofNat (48 + d.val) :: (text ds ++ w)) = _
    unfold scanSign
    dsimp only
    rw [if_neg (h1 d).1, if_neg (h1 d).2]
    rfl

/-- a decimal number followed by anything that is not a digit -/
theorem atoi_text (ds : List (Fin 10)) (w : List Char) (hd : ds ≠ []) (hw : ∀ c cs, w = c :: cs → digitVal c = none) (hv : value ds < 2 ^ 31) :
    atoi (text ds ++ w) = .ok (value ds) := by
  unfold atoi
  rw [blank_text ds w hd, sign_text ds w hd]
  dsimp only
  rw [scanDigits_text ds w hw]
  dsimp only
  have hi : (if false = true then -((ds.foldl (fun a d => 10 * a + d.val) 0 : Nat) : Int) else ((ds.foldl (fun a d => 10 * a + d.val) 0 : Nat) : Int))
      = (value ds : Int) := rfl
  rw [hi, if_pos]
  have h0 : (0 : Int) ≤ (value ds : Int) := Int.natCast_nonneg _
  have h1 : (value ds : Int) < 2 ^ 31 := by exact_mod_cast hv
  exact ⟨by omega, h1⟩

/-- a word: `atoi` finds no number -/
theorem atoi_word (c : Char) (s : List Char) (hb : isBlank c = false) (hm : c ≠ '-') (hp : c ≠ '+') (hn : digitVal c = none) :
    atoi (c :: s) = .ok 0 := by
  unfold atoi
  rw [List.dropWhile_cons_of_neg (by rw [hb]; decide)]
  have h1 : scanSign (c :: s) = (false, c :: s) := by
    unfold scanSign
    dsimp only
    rw [if_neg hm, if_neg hp]
  rw [h1]
  dsimp only
  have h2 : scanDigits 0 0 (c :: s) = (0, 0, c :: s) := by
    unfold scanDigits
    rw [hn]
  rw [h2]
  dsimp only
  rw [if_pos (by decide)]
  rfl

/-- the settings, if they are determined, come from the variables one by one -/
theorem initEnv_fields {b : Build} {g : String → Option (List Char)} {v : Vals} (h : initEnv b g = .ok v) :
    heapVar (val g "SHMEM_SYMMETRIC_SIZE") = .ok v.heap ∧ flagVar (val g "SHMEM_DEBUG") = .ok v.debug ∧
    flagVar (val g "SHMEM_VERSION") = .ok v.version ∧ flagVar (val g "SHMEM_INFO") = .ok v.info ∧
    flagVar (val g "OSHMPI_VERBOSE") = .ok v.verbose ∧ v.amoOps = envAmoOps (val g "OSHMPI_AMO_OPS") ∧
    v.gpu = envGpu (val g "OSHMPI_MPI_GPU_FEATURES") ∧ v.amoDbg = dbgVar b (val g "OSHMPI_AMO_DBG_MODE") ∧
    v.rmaDbg = dbgVar b (val g "OSHMPI_RMA_DBG_MODE") ∧
    asyncVar b (dbgVar b (val g "OSHMPI_AMO_DBG_MODE")) (val g "OSHMPI_ENABLE_ASYNC_THREAD") = .ok v.async ∧
    mpitVar (val g "OSHMPI_ENABLE_MPI_T") = .ok v.mpit := by
  have key : ∀ {α β : Type} {x : Res α} {f : α → Res β} {y : β}, x.bind f = .ok y → ∃ a, x = .ok a ∧ f a = .ok y := by
    intro α β x f y e
    cases x with
    | ok a => exact ⟨a, rfl, e⟩
    | abort => cases e
    | ub => cases e
    | hang => cases e
  unfold initEnv at h
  obtain ⟨a1, e1, h⟩ := key h
  obtain ⟨a2, e2, h⟩ := key h
  obtain ⟨a3, e3, h⟩ := key h
  obtain ⟨a4, e4, h⟩ := key h
  obtain ⟨a5, e5, h⟩ := key h
  obtain ⟨a6, e6, h⟩ := key h
  obtain ⟨a7, e7, h⟩ := key h
  cases h
  exact ⟨e1, e2, e3, e4, e5, rfl, rfl, rfl, rfl, e6, e7⟩

/-- the switches: variable and setting -/
def switches (v : Vals) : List (String × Bool) :=
  [("SHMEM_DEBUG", v.debug), ("SHMEM_VERSION", v.version), ("SHMEM_INFO", v.info), ("OSHMPI_VERBOSE", v.verbose)]

theorem flag_of {b : Build} {g : String → Option (List Char)} {v : Vals} (h : initEnv b g = .ok v) {x : String × Bool}
    (hx : x ∈ switches v) : flagVar (val g x.1) = .ok x.2 := by
  obtain ⟨_, h1, h2, h3, h4, _⟩ := initEnv_fields h
  simp only [switches, List.mem_cons, List.not_mem_nil, or_false] at hx
  rcases hx with rfl | rfl | rfl | rfl
  · exact h1
  · exact h2
  · exact h3
  · exact h4

theorem val_cons {g : String → Option (List Char)} {x : String} {s : List Char} (h : g x = some s) (hs : s ≠ []) : val g x = some s := by
  cases s with
  | nil => exact absurd rfl hs
  | cons c s => unfold val; rw [h]

theorem text_ne (ds : List (Fin 10)) (w : List Char) (hd : ds ≠ []) : text ds ++ w ≠ [] := by
  cases ds with
  | nil => exact absurd rfl hd
  | cons d ds => exact List.cons_ne_nil _ _

/-- A switch set to a number is on exactly if the number is not 0. -/
theorem C100_switch {b : Build} {g : String → Option (List Char)} {v : Vals} (h : initEnv b g = .ok v) {x : String × Bool}
    (hx : x ∈ switches v) (ds : List (Fin 10)) (hd : ds ≠ []) (hv : value ds < 2 ^ 31) (hg : g x.1 = some (text ds)) :
    x.2 = true ↔ value ds ≠ 0 := by
  have h1 := flag_of h hx
  rw [val_cons hg (by simpa using text_ne ds [] hd)] at h1
  simp only [flagVar] at h1
  have h2 := atoi_text ds [] hd (fun _ _ e => by cases e) hv
  rw [List.append_nil] at h2
  rw [h2, Res.bind_ok] at h1
  have h3 := Res.ok.inj h1
  rw [← h3, decide_eq_true_iff]
  omega

/-- Not set, or set to nothing: off. -/
theorem C100_switch_default {b : Build} {g : String → Option (List Char)} {v : Vals} (h : initEnv b g = .ok v) {x : String × Bool}
    (hx : x ∈ switches v) (hg : g x.1 = none ∨ g x.1 = some []) : x.2 = false := by
  have h1 := flag_of h hx
  have h2 : val g x.1 = none := by unfold val; rcases hg with e | e <;> rw [e]
  rw [h2] at h1
  exact (Res.ok.inj h1).symm

/-- The OpenSHMEM standard (1.4, section 7) switches these on with any value. Words, such as "yes" or "true", leave them off. -/
theorem C100_word_fails {b : Build} {g : String → Option (List Char)} {v : Vals} (h : initEnv b g = .ok v) {x : String × Bool}
    (hx : x ∈ switches v) (c : Char) (s : List Char) (hc : c.isAlpha = true) (hg : g x.1 = some (c :: s)) : x.2 = false := by
  have h1 := flag_of h hx
  rw [val_cons hg (by simp)] at h1
  simp only [flagVar] at h1
  have hc' : (65 ≤ c.toNat ∧ c.toNat ≤ 90) ∨ (97 ≤ c.toNat ∧ c.toNat ≤ 122) := by
    simp only [Char.isAlpha, Char.isUpper, Char.isLower, Bool.or_eq_true, Bool.and_eq_true, decide_eq_true_eq] at hc
    rcases hc with ⟨h1, h2⟩ | ⟨h1, h2⟩
    · exact Or.inl ⟨h1, h2⟩
    · exact Or.inr ⟨h1, h2⟩
  have hne : ∀ d : Char, (d.toNat < 65 ∨ (90 < d.toNat ∧ d.toNat < 97) ∨ 122 < d.toNat) → c ≠ d := by
    rintro d hd rfl; omega
  have h2 := atoi_word c s (by
      unfold isBlank
      simp only [Bool.or_eq_false_iff, decide_eq_false_iff_not]
      exact ⟨⟨⟨⟨⟨hne ' ' (by decide), hne '\t' (by decide)⟩, hne '\n' (by decide)⟩, hne '\x0b' (by decide)⟩, hne '\x0c' (by decide)⟩,
        hne '\r' (by decide)⟩)
    (hne _ (by decide)) (hne _ (by decide)) (by
      unfold digitVal
      rw [if_neg]
      rintro ⟨h3, h4⟩
      have h5 : c.toNat ≤ 57 := h4
      omega)
  rw [h2, Res.bind_ok] at h1
  exact (Res.ok.inj h1).symm

/-- Every setting depends on its own variable only; `OSHMPI_AMO_DBG_MODE` also decides about the progress thread. -/
theorem C100_independent {b : Build} {g g' : String → Option (List Char)} {v v' : Vals} (h : initEnv b g = .ok v) (h' : initEnv b g' = .ok v') :
    (g "SHMEM_SYMMETRIC_SIZE" = g' "SHMEM_SYMMETRIC_SIZE" → v.heap = v'.heap) ∧
    (g "SHMEM_DEBUG" = g' "SHMEM_DEBUG" → v.debug = v'.debug) ∧
    (g "SHMEM_VERSION" = g' "SHMEM_VERSION" → v.version = v'.version) ∧
    (g "SHMEM_INFO" = g' "SHMEM_INFO" → v.info = v'.info) ∧
    (g "OSHMPI_VERBOSE" = g' "OSHMPI_VERBOSE" → v.verbose = v'.verbose) ∧
    (g "OSHMPI_AMO_OPS" = g' "OSHMPI_AMO_OPS" → v.amoOps = v'.amoOps) ∧
    (g "OSHMPI_MPI_GPU_FEATURES" = g' "OSHMPI_MPI_GPU_FEATURES" → v.gpu = v'.gpu) ∧
    (g "OSHMPI_AMO_DBG_MODE" = g' "OSHMPI_AMO_DBG_MODE" → v.amoDbg = v'.amoDbg) ∧
    (g "OSHMPI_RMA_DBG_MODE" = g' "OSHMPI_RMA_DBG_MODE" → v.rmaDbg = v'.rmaDbg) ∧
    (g "OSHMPI_ENABLE_ASYNC_THREAD" = g' "OSHMPI_ENABLE_ASYNC_THREAD" → g "OSHMPI_AMO_DBG_MODE" = g' "OSHMPI_AMO_DBG_MODE" → v.async = v'.async) ∧
    (g "OSHMPI_ENABLE_MPI_T" = g' "OSHMPI_ENABLE_MPI_T" → v.mpit = v'.mpit) := by
  obtain ⟨a1, a2, a3, a4, a5, a6, a7, a8, a9, a10, a11⟩ := initEnv_fields h
  obtain ⟨b1, b2, b3, b4, b5, b6, b7, b8, b9, b10, b11⟩ := initEnv_fields h'
  have e : ∀ x, g x = g' x → val g x = val g' x := fun x hx => by unfold val; rw [hx]
  refine ⟨fun q => ?_, fun q => ?_, fun q => ?_, fun q => ?_, fun q => ?_, fun q => ?_, fun q => ?_, fun q => ?_, fun q => ?_, fun q r => ?_,
    fun q => ?_⟩
  · rw [e _ q, b1] at a1; exact (Res.ok.inj a1).symm
  · rw [e _ q, b2] at a2; exact (Res.ok.inj a2).symm
  · rw [e _ q, b3] at a3; exact (Res.ok.inj a3).symm
  · rw [e _ q, b4] at a4; exact (Res.ok.inj a4).symm
  · rw [e _ q, b5] at a5; exact (Res.ok.inj a5).symm
  · rw [a6, b6, e _ q]
  · rw [a7, b7, e _ q]
  · rw [a8, b8, e _ q]
  · rw [a9, b9, e _ q]
  · rw [e _ q, e _ r, b10] at a10; exact (Res.ok.inj a10).symm
  · rw [e _ q, b11] at a11; exact (Res.ok.inj a11).symm

/-- The heap has the size asked for, when the number is a decimal integer with at most 24 significant bits, with or without unit. -/
theorem C100_size_partial {b : Build} {g : String → Option (List Char)} {v : Vals} (h : initEnv b g = .ok v) (ds : List (Fin 10))
    (hd : ds ≠ []) (u : List Char) (f : Nat) (hu : IsUnit u f) (m j : Nat) (hv : value ds = m * 2 ^ j) (hm : m < 2 ^ 24) (hj : j ≤ 104)
    (hb : value ds * f < 2 ^ 63) (hg : g "SHMEM_SYMMETRIC_SIZE" = some (text ds ++ u)) : v.heap = value ds * f := by
  have h1 := (initEnv_fields h).1
  rw [val_cons hg (text_ne ds u hd)] at h1
  simp only [heapVar] at h1
  rw [C46_integer_partial ds hd u f hu m j hv hm hj (by omega), Res.bind_ok, if_pos hb] at h1
  exact (Res.ok.inj h1).symm

/-- Sizes from 2^63 are reported as invalid. -/
theorem C100_size_too_large (b : Build) (g : String → Option (List Char)) (ds : List (Fin 10))
    (hd : ds ≠ []) (u : List Char) (f : Nat) (hu : IsUnit u f) (m j : Nat) (hv : value ds = m * 2 ^ j) (hm : m < 2 ^ 24) (hj : j ≤ 104)
    (hb : 2 ^ 63 ≤ value ds * f) (hb' : value ds * f < 2 ^ 64) (hg : g "SHMEM_SYMMETRIC_SIZE" = some (text ds ++ u)) :
    initEnv b g = .abort := by
  unfold initEnv
  rw [val_cons hg (text_ne ds u hd)]
  simp only [heapVar]
  rw [C46_integer_partial ds hd u f hu m j hv hm hj hb', Res.bind_ok, if_neg (by omega)]
  rfl

/-- Texts that are no size are not reported as invalid: a word counts as 0, a negative number is converted to an unsigned type, which is
undefined. -/
theorem C100_size_fails : (∀ b : Build, (initEnv b fun x => if x = "SHMEM_SYMMETRIC_SIZE" then some "big".toList else none).bind (fun v => .ok v.heap) = .ok 0) ∧
    ∀ b : Build, initEnv b (fun x => if x = "SHMEM_SYMMETRIC_SIZE" then some "-1".toList else none) = .ub := by
  constructor
  · rintro ⟨nd, amo, rma, async⟩
    cases nd <;> cases amo <;> cases rma <;> cases async <;> decide +kernel
  · rintro ⟨nd, amo, rma, async⟩
    cases nd <;> cases amo <;> cases rma <;> cases async <;> decide +kernel

/-- The README says that OSHMPI_AMO_OPS=all is the default and means all operations (README.md L113-121). The code knows no "all": the
variable then names no operation, as with "none", and MPI is told that there are no accumulates (setup_impl.c L87-90). -/
theorem C100_all_fails : envAmoOps (some "all".toList) = 0 ∧ envAmoOps (some "all".toList) = envAmoOps (some "none".toList) ∧
    envAmoOps none = 2 ^ 14 - 1 ∧ (setMpiInfoArgs (envAmoOps (some "all".toList))).which = [] := by
  decide +kernel

/-- For the GPU features "all" is known. -/
theorem C100_gpu_all : envGpu (some "all".toList) = 2 ^ 4 - 1 ∧ envGpu none = 2 ^ 4 - 1 := by decide +kernel

/-- The progress thread, set to a number where the build leaves the choice: it runs exactly if the number is not 0. -/
theorem C100_async {b : Build} {g : String → Option (List Char)} {v : Vals} (h : initEnv b g = .ok v) (hb : b.async = .auto)
    (ds : List (Fin 10)) (hd : ds ≠ []) (hv : value ds < 2 ^ 31) (hg : g "OSHMPI_ENABLE_ASYNC_THREAD" = some (text ds)) :
    v.async = true ↔ value ds ≠ 0 := by
  obtain ⟨_, _, _, _, _, _, _, _, _, h1, _⟩ := initEnv_fields h
  rw [val_cons hg (by simpa using text_ne ds [] hd)] at h1
  unfold asyncVar at h1
  have h2 := atoi_text ds [] hd (fun _ _ e => by cases e) hv
  rw [List.append_nil] at h2
  rw [if_pos hb] at h1
  dsimp only at h1
  rw [h2, Res.bind_ok] at h1
  have h3 := Res.ok.inj h1
  rw [← h3]
  show ((value ds : Int) != 0) = true ↔ _
  simp

/-- A build that decides ignores the variable. -/
theorem C100_async_build {b : Build} {g : String → Option (List Char)} {v : Vals} (h : initEnv b g = .ok v) :
    (b.async = .yes → v.async = true) ∧ (b.async = .no → v.async = false) := by
  obtain ⟨_, _, _, _, _, _, _, _, _, h1, _⟩ := initEnv_fields h
  unfold asyncVar at h1
  constructor
  · intro e
    rw [e, if_neg (by decide)] at h1
    exact (Res.ok.inj h1).symm
  · intro e
    rw [e, if_neg (by decide)] at h1
    exact (Res.ok.inj h1).symm

/-- The README gives 0 as the default of OSHMPI_ENABLE_ASYNC_THREAD (README.md L134). In a build with default options the thread is on; it
needs MPI_THREAD_MULTIPLE, so a program that asks for no threads at all is aborted at start-up if MPI does not provide that level. -/
theorem C100_async_fails (nd : Bool) : ∃ v, initEnv ⟨nd, .auto, .auto, .auto⟩ (fun _ => none) = .ok v ∧ v.async = true ∧
    ∀ ans : Nat → Nat, (∀ l, ans l < 3) → ∀ requested ≤ 3, threadLevel ⟨3, v.async, none, ans⟩ requested = .abort := by
  refine ⟨_, C100_default _, rfl, ?_⟩
  intro ans ha r hr
  have h3 := ha 3
  show threadLevel ⟨3, true, none, ans⟩ r = .abort
  unfold threadLevel
  rw [if_neg (by omega)]
  simp only [if_true, Nat.reduceEqDiff, false_and, if_false]
  rw [if_pos h3, if_pos ⟨trivial, h3⟩]

/-- The debug modes, for each of the two variables: a build without debugging does not look at them; otherwise a value that starts with
"am" or with "direct" selects that mode, and any other value, or none, is `auto`. -/
theorem C100_dbg {b : Build} {g : String → Option (List Char)} {v : Vals} (h : initEnv b g = .ok v) (x : String × Dbg)
    (hx : x = ("OSHMPI_AMO_DBG_MODE", v.amoDbg) ∨ x = ("OSHMPI_RMA_DBG_MODE", v.rmaDbg)) :
    (b.ndebug = true → x.2 = .auto) ∧
    (b.ndebug = false → ((∃ t, g x.1 = some ("am".toList ++ t)) → x.2 = .am) ∧ ((∃ t, g x.1 = some ("direct".toList ++ t)) → x.2 = .direct) ∧
      ((∀ t, g x.1 ≠ some ("am".toList ++ t)) → (∀ t, g x.1 ≠ some ("direct".toList ++ t)) → x.2 = .auto)) := by
  have hf := initEnv_fields h
  have e : x.2 = dbgVar b (val g x.1) := by
    rcases hx with rfl | rfl
    · exact hf.2.2.2.2.2.2.2.1
    · exact hf.2.2.2.2.2.2.2.2.1
  rw [e]
  unfold dbgVar
  refine ⟨fun hb => by rw [if_pos hb], fun hb => ?_⟩
  rw [if_neg (by rw [hb]; decide)]
  have pre : ∀ s w : List Char, startsWith s w = true ↔ ∃ t, s = w ++ t := fun s w => by
    unfold startsWith
    rw [List.isPrefixOf_iff_prefix]
    exact ⟨fun ⟨t, ht⟩ => ⟨t, ht.symm⟩, fun ⟨t, ht⟩ => ⟨t, ht.symm⟩⟩
  have am : ∀ s, startsWith s "am".toList = true ↔ ∃ t, s = "am".toList ++ t := fun s => pre s _
  have di : ∀ s, startsWith s "direct".toList = true ↔ ∃ t, s = "direct".toList ++ t := fun s => pre s _
  refine ⟨?_, ?_, ?_⟩
  · rintro ⟨t, ht⟩
    rw [val_cons ht (by simp)]
    exact if_pos ((am _).2 ⟨t, rfl⟩)
  · rintro ⟨t, ht⟩
    rw [val_cons ht (by simp)]
    refine (if_neg fun hc => ?_).trans (if_pos ((di _).2 ⟨t, rfl⟩))
    obtain ⟨u, hu⟩ := (am _).1 hc
    exact absurd (List.cons.inj hu).1 (by decide)
  · intro h1 h2
    cases hv : val g x.1 with
    | none => rfl
    | some s =>
      have hs : g x.1 = some s := by
        unfold val at hv
        split at hv
        · rename_i e
          rw [e, hv]
        · cases hv
        · cases hv
      refine (if_neg fun hc => ?_).trans (if_neg fun hc => ?_)
      · obtain ⟨t, rfl⟩ := (am _).1 hc
        exact h1 t hs
      · obtain ⟨t, rfl⟩ := (di _).1 hc
        exact h2 t hs

/-- What is printed at start-up comes from PE 0 alone, and nothing without a switch. -/
theorem C100_prints (v : Vals) (me : Nat) : (me ≠ 0 → prints v me = (false, false, false)) ∧
    (v.version = false → v.info = false → v.verbose = false → prints v me = (false, false, false)) ∧
    (v.verbose = true → me = 0 → (prints v me).2 = (true, true)) := by
  unfold prints
  refine ⟨?_, ?_, ?_⟩
  · intro h; simp [h]
  · intro h1 h2 h3; simp [h1, h2, h3]
  · intro h1 h2; simp [h1, h2]

namespace InitEx

/-- an environment -/
def g : String → Option (List Char) := fun x =>
  if x = "SHMEM_SYMMETRIC_SIZE" then some "512M".toList
  else if x = "SHMEM_DEBUG" then some "1".toList
  else if x = "SHMEM_INFO" then some "yes".toList
  else if x = "OSHMPI_ENABLE_ASYNC_THREAD" then some "0".toList
  else if x = "OSHMPI_AMO_OPS" then some "fetch,fadd".toList
  else none

/-- its settings in a build with default options -/
def v : Vals := ⟨512 * 1024 * 1024, true, false, false, false, 2 ^ 3 + 2 ^ 5, 15, .auto, .auto, false, true⟩

theorem ok : initEnv ⟨false, .auto, .auto, .auto⟩ g = .ok v := by decide +kernel

/-- the hypotheses of `C100_switch`, `C100_word_fails`, `C100_switch_default`, `C100_size_partial`, `C100_async` -/
example : (true = true ↔ value [1] ≠ 0) := C100_switch ok (x := ("SHMEM_DEBUG", true)) (by decide) [1] (by decide) (by decide) rfl
example : false = false := C100_word_fails ok (x := ("SHMEM_INFO", false)) (by decide) 'y' "es".toList (by decide) rfl
example : false = false := C100_switch_default ok (x := ("SHMEM_VERSION", false)) (by decide) (Or.inl rfl)
example : v.heap = 512 * 1024 ^ 2 := C100_size_partial ok [5, 1, 2] (by decide) ['M'] (1024 ^ 2) (Or.inr ⟨'M', [], rfl, by decide, by decide⟩) 1 9
  (by decide) (by decide) (by decide) (by decide) rfl
example : v.async = true ↔ value [0] ≠ 0 := C100_async ok rfl [0] (by decide) (by decide) rfl
/-- the hypotheses of `C100_dbg`: a mode, with and without debugging -/
example : ∀ nd, initEnv ⟨nd, .auto, .auto, .auto⟩ (Function.update g "OSHMPI_RMA_DBG_MODE" (some "amx".toList)) =
    .ok { v with rmaDbg := if nd then .auto else .am } := by decide +kernel
/-- two environments that differ in one variable -/
example : initEnv ⟨false, .auto, .auto, .auto⟩ (Function.update g "HOME" (some "x".toList)) = .ok v :=
  (C100_same _ _ _ (by decide)).trans ok
/-- "9T" and a factor that is too large: "8388608T" = 2^63 -/
example (b : Build) : initEnv b (fun x => if x = "SHMEM_SYMMETRIC_SIZE" then some "8388608T".toList else none) = .abort :=
  C100_size_too_large b _ [8, 3, 8, 8, 6, 0, 8] (by decide) ['T'] (1024 ^ 4) (Or.inr ⟨'T', [], rfl, by decide, by decide⟩) 1 23
    (by decide) (by decide) (by decide) (by decide) (by decide) (by decide)

end InitEx

end Verif.Env
