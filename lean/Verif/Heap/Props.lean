import Verif.Heap.Hist
import Verif.Sobj.Model
import Verif.Base.Props
/-!
# The symmetric heap as set up by the library (C47, C61)
-/
namespace Verif.Heap
open Verif.Sobj (Attr inRange)

/-- `size` in `attach_symm_heap`/`initialize_symm_heap`, setup_impl.c L171, L252; page size `2^k`, `S` from the environment -/
def heapSize (k S : Nat) : Nat := calignN S (2 ^ k)
/-- `true_size`, setup_impl.c L172-174, L253-255 (`OSHMPI_DLMALLOC_MIN_MSPACE_SIZE` 1024, oshmpi_impl.h) -/
def trueSize (k S : Nat) : Nat := calignN (heapSize k S + 1024) (2 ^ k)
/-- the heap's attributes, setup_impl.c L184, L269: the size without the allocator's share -/
def heapAttr (base k S : Nat) : Attr := ⟨0#32, BitVec.ofNat 64 base, (heapSize k S : Int), none⟩
/-- `OSHMPI_sobj_check_range` (oshmpi_impl.h L629-634) for an address in the heap: what RMA, AMO, `shmem_ptr` and `shmem_free` ask -/
def accepted (base k S addr : Nat) : Bool := inRange (heapAttr base k S) (BitVec.ofNat 64 addr)

/-- addresses of a user process, sizes in range -/
structure Ok (base k S : Nat) : Prop where
  page : 12 ≤ k
  page' : k < 62
  some : 0 < S
  base16 : 16 ∣ base
  space : base + S + 3 * 2 ^ k < 2 ^ 63

theorem page_ge {k : Nat} (h : 12 ≤ k) : 4096 ≤ 2 ^ k := by
  have : 2 ^ 12 ≤ 2 ^ k := Nat.pow_le_pow_right (by omega) h
  omega

theorem page_16 {k : Nat} (h : 12 ≤ k) : 16 ∣ 2 ^ k := by
  have : 2 ^ 4 ∣ 2 ^ k := Nat.pow_dvd_pow 2 (by omega)
  simpa using this

theorem sizes {base k S : Nat} (o : Ok base k S) : S ≤ heapSize k S ∧ heapSize k S < S + 2 ^ k ∧ 2 ^ k ∣ heapSize k S ∧ 2 ^ k ≤ heapSize k S ∧
    trueSize k S = heapSize k S + 2 ^ k := by
  have hp := page_ge o.page
  have hs := o.space
  obtain ⟨a, b, c⟩ := C11_align_least (v := S) (k := k) (by have := o.page'; omega) (by omega)
  have hlt : heapSize k S < S + 2 ^ k := by
    have h1 := Nat.div_add_mod (S + 2 ^ k - 1) (2 ^ k)
    have h2 := c (2 ^ k * ((S + 2 ^ k - 1) / 2 ^ k)) (Nat.dvd_mul_right _ _) (by
      have := Nat.mod_lt (S + 2 ^ k - 1) (show 2 ^ k > 0 by omega)
      omega)
    unfold heapSize
    have := o.some
    omega
  refine ⟨b, hlt, a, ?_, ?_⟩
  · obtain ⟨m, hm⟩ := a
    have : m ≠ 0 := by
      rintro rfl
      have := o.some
      omega
    unfold heapSize
    rw [hm]
    exact Nat.le_mul_of_pos_right _ (by omega)
  · obtain ⟨m, hm⟩ := a
    change heapSize k S = _ at hm
    unfold trueSize
    obtain ⟨d, e, f⟩ := C11_align_least (v := heapSize k S + 1024) (k := k) (by have := o.page'; omega) (by omega)
    apply Nat.le_antisymm
    · exact f _ (Nat.dvd_add ⟨m, hm⟩ (Nat.dvd_refl _)) (by omega)
    · obtain ⟨n, hn⟩ := d
      rw [hn] at e ⊢
      rw [hm] at e ⊢
      have : m < n := by
        by_contra hc
        have : 2 ^ k * n ≤ 2 ^ k * m := Nat.mul_le_mul_left _ (by omega)
        omega
      have := Nat.mul_le_mul_left (2 ^ k) (show m + 1 ≤ n by omega)
      rw [Nat.mul_add] at this
      omega

theorem accepted_iff {base k S addr : Nat} (o : Ok base k S) (ha : addr < 2 ^ 63) :
    accepted base k S addr = true ↔ base ≤ addr ∧ addr < base + heapSize k S := by
  have hs := sizes o
  have hb := o.space
  unfold accepted inRange heapAttr
  have h1 : (BitVec.ofNat 64 base).toInt = base := by
    rw [BitVec.toInt_ofNat', Int.bmod_eq_of_le] <;> omega
  have h2 : (BitVec.ofNat 64 addr).toInt = addr := by
    rw [BitVec.toInt_ofNat', Int.bmod_eq_of_le] <;> omega
  simp only [h1, h2, Bool.and_eq_true, decide_eq_true_eq]
  omega

/-- the heap after start-up -/
def fresh (k S : Nat) : Option Heap := create (trueSize k S)

theorem fresh_eq {base k S : Nat} (o : Ok base k S) : fresh k S = some ⟨[], some (heapSize k S + 2 ^ k - 1024)⟩ := by
  have hs := sizes o
  have hp := page_ge o.page
  unfold fresh create
  rw [hs.2.2.2.2, if_pos (by simp only [hdr, foot]; omega)]
  rw [show heapSize k S + 2 ^ k - hdr - foot = heapSize k S + 2 ^ k - 1024 by simp only [hdr, foot]; omega]

/-- **C47.** Start-up succeeds, and a first `shmem_malloc(S)` is served from the heap, at `base + 960`. -/
theorem C47_served {base k S : Nat} (o : Ok base k S) : ∃ h h', fresh k S = some h ∧ malloc h S .top = some (h', some 0) := by
  refine ⟨_, ⟨[⟨need S, .user S⟩], some (heapSize k S + 2 ^ k - 1024 - need S)⟩, fresh_eq o, ?_⟩
  have hs := sizes o
  have hp := page_ge o.page
  have hb := o.space
  have hn : need S ≤ S + 32 := by unfold need; split <;> omega
  unfold malloc
  rw [if_pos (by unfold maxRequest; omega)]
  simp only
  rw [if_pos (by omega)]
  simp [total]

/-- **C47 (partial).** After any history, every byte of a block that ends within `size` bytes of the heap's base is accepted for
remote access. Missing: blocks in the last part of the memory handed to the allocator, see `C47_fails`. -/
theorem C47_accepted_partial {base k S : Nat} {s : Sys} (o : Ok base k S) (r : Reach (base + 960) (trueSize k S) s) {x : Nat × Nat}
    (hx : x ∈ s.live) (hend : 960 + x.1 + x.2 ≤ heapSize k S) {i : Nat} (hi : i < x.2) : accepted base k S (base + 960 + x.1 + i) = true := by
  have hs := sizes o
  have hp := page_16 o.page
  obtain ⟨_, h2⟩ := C60_blocks o.base16 (show 16 ∣ trueSize k S by
    rw [hs.2.2.2.2]; exact Nat.dvd_add (hp.trans hs.2.2.1) hp) r
  have := h2 x hx
  have hb := o.space
  rw [accepted_iff o (by omega)]
  omega

/-- **C47 (partial).** All but 960 bytes of the heap can be used in one block. -/
theorem C47_usable_partial {base k S n : Nat} (o : Ok base k S) (hn : 960 + n ≤ heapSize k S) :
    ∃ h h', fresh k S = some h ∧ malloc h n .top = some (h', some 0) ∧ ∀ i < n, accepted base k S (base + 960 + 0 + i) = true := by
  have hs := sizes o
  have hp := page_ge o.page
  have hb := o.space
  refine ⟨_, ⟨[⟨need n, .user n⟩], some (heapSize k S + 2 ^ k - 1024 - need n)⟩, fresh_eq o, ?_, ?_⟩
  · have hn : need n ≤ n + 32 := by unfold need; split <;> omega
    unfold malloc
    rw [if_pos (by unfold maxRequest; omega)]
    simp only
    rw [if_pos (by omega)]
    simp [total]
  · intro i hi
    rw [accepted_iff o (by omega)]
    omega

/-- **C47 fails.** For every heap size that is a multiple of the page size, `shmem_malloc(S)` succeeds, but the last byte of
the block is not accepted for remote access. -/
theorem C47_fails {base k c : Nat} (o : Ok base k (c * 2 ^ k)) :
    ∃ h h', fresh k (c * 2 ^ k) = some h ∧ malloc h (c * 2 ^ k) .top = some (h', some 0) ∧
      accepted base k (c * 2 ^ k) (base + 960 + 0 + (c * 2 ^ k - 1)) = false := by
  obtain ⟨h, h', h1, h2⟩ := C47_served o
  have hp := page_ge o.page
  have hb := o.space
  have hs := sizes o
  have hsz : heapSize k (c * 2 ^ k) = c * 2 ^ k := C11_align_multiple (by have := o.page'; omega) (by omega)
  refine ⟨h, h', h1, h2, ?_⟩
  have : ¬accepted base k (c * 2 ^ k) (base + 960 + 0 + (c * 2 ^ k - 1)) = true := by
    rw [accepted_iff o (by omega), hsz]
    omega
  simpa using this

example : Ok 0x7f0000000000 12 (32 * 2 ^ 12) := ⟨by omega, by omega, by omega, by omega, by decide⟩

/-- result of an allocation -/
inductive Ptr where
  | null
  | heap (off : Nat)
  /-- memory mapped by the allocator, outside the heap -/
  | system
deriving DecidableEq, Repr

/-- `mspace_malloc` (L5485-5596) on a heap without free chunks, with `sys_alloc` (L4051-4248) for what does not fit: it maps
memory (`mmap_alloc` L4062-4066 or `CALL_MMAP`) unless the system refuses (`os = false`); requests from `MAX_REQUEST` fail
(L4068-4070). `footprint_limit` is 0 (never set). -/
def mallocExact (h : Heap) (req : Nat) (os : Bool) : Ptr :=
  if req < maxRequest then match h.top with
    | some t => if need req < t then .heap (total h.chunks) else if os then .system else .null
    | none => if os then .system else .null
  else .null

/-- **C47 fails.** When the heap is exhausted, `shmem_malloc` does not return NULL as long as the system has memory: it returns
a pointer that is not in the symmetric heap; and PEs may differ. -/
theorem C47_exhaustion_fails {base k S req : Nat} (o : Ok base k S) (hr : req < maxRequest) (hbig : trueSize k S ≤ req) :
    ∃ h, fresh k S = some h ∧ mallocExact h req true = .system ∧ mallocExact h req false = .null := by
  refine ⟨_, fresh_eq o, ?_⟩
  have hs := sizes o
  have hn := need_fits req
  have hp := page_ge o.page
  unfold mallocExact
  rw [if_pos hr, if_pos hr]
  simp only
  rw [if_neg (by omega)]
  simp
  omega

/-- and what fits is in the heap, and is what the model of `mspace_malloc` allows -/
theorem C47_exact_sound {h : Heap} {req off : Nat} {os : Bool} (e : mallocExact h req os = .heap off) :
    ∃ h', malloc h req .top = some (h', some off) := by
  unfold mallocExact at e
  unfold malloc
  split at e
  · rename_i hr
    rw [if_pos hr]
    split at e
    · rename_i t ht
      rw [ht]
      simp only
      split at e
      · rename_i hn
        rw [if_pos hn]
        injection e with e
        exact ⟨_, by rw [e]⟩
      · split at e <;> cases e
    · split at e <;> cases e
  · cases e

/-- `OSHMPI_free`, mem_impl.c L27-49, without spaces: a pointer outside `[base, base + size)` is ignored -/
def apiFree (base k S : Nat) (s : Sys) (p : Nat) : Option Sys :=
  if accepted base k S (base + 960 + p) then (step (base + 960) s .top false (.free p)).map Prod.fst else some s

/-- **C47, consequence.** `shmem_free` of a block that starts beyond `size` does nothing: the memory is lost. -/
theorem C47_leak : ∃ s, Reach (0x10000 + 960) (trueSize 12 4096) s ∧ (3216, 100) ∈ s.live ∧
    apiFree 0x10000 12 4096 s 3216 = some s := by
  refine ⟨⟨⟨[⟨3216, .user 3200⟩, ⟨112, .user 100⟩], some 3840⟩, [(3216, 100), (0, 3200)]⟩, ?_, by decide, by decide +kernel⟩
  refine Reach.step (s := ⟨⟨[⟨3216, .user 3200⟩], some 3952⟩, [(0, 3200)]⟩) (c := .malloc 100) (ch := .top) (moved := false) (o := some 3216)
    (Reach.step (c := .malloc 3200) (ch := .top) (moved := false) (o := some 0) (Reach.init (h := ⟨[], some 7168⟩) ?_) ?_) ?_ <;> decide +kernel

/-- **C47 (partial).** Every other block is freed. -/
theorem C47_free_partial {base k S : Nat} {s : Sys} (o : Ok base k S) (r : Reach (base + 960) (trueSize k S) s) {x : Nat × Nat}
    (hx : x ∈ s.live) (hend : 960 + x.1 < heapSize k S) : ∃ s', apiFree base k S s x.1 = some s' ∧ s'.live.Perm (s.live.erase x) := by
  have hs := sizes o
  have hp := page_16 o.page
  have hb := o.space
  obtain ⟨s', h1, h2⟩ := C60_free_ok o.base16 (show 16 ∣ trueSize k S by
    rw [hs.2.2.2.2]; exact Nat.dvd_add (hp.trans hs.2.2.1) hp) r hx
  refine ⟨s', ?_, h2⟩
  unfold apiFree
  rw [if_pos ((accepted_iff o (by omega)).2 ⟨by omega, by omega⟩), h1]
  rfl

/-! ## C61: the same addresses on all PEs -/

/-- a sequence of calls on one PE. `pol`: what the allocator chooses, as a function of the calls and results so far (its bins,
trees and `dv` are set by them, and hold no addresses that matter for a choice). Result: the offsets returned. -/
def run (a0 : Nat) (pol : List (Call × Option Nat) → Choice × Bool) (s : Sys) (past : List (Call × Option Nat)) :
    List Call → Option (Sys × List (Option Nat))
  | [] => some (s, [])
  | c :: cs => match step a0 s (pol past).1 (pol past).2 c with
    | some (s', o) => (run a0 pol s' ((c, o) :: past) cs).map (fun x => (x.1, o :: x.2))
    | none => none

/-- the alignments asked for -/
def aligns : List Call → List Nat
  | [] => []
  | .align k _ :: cs => k :: aligns cs
  | .malloc _ :: cs => aligns cs
  | .calloc _ _ :: cs => aligns cs
  | .realloc _ _ :: cs => aligns cs
  | .free _ :: cs => aligns cs

theorem lead_congr {al a b : Nat} (h : a % al = b % al) (ha : 0 < al) : lead al a = lead al b := by
  have key : ∀ x, x % al ≠ 0 → (x + al - 1) / al * al - x = al - x % al := by
    intro x hx
    have h1 := Nat.div_add_mod x al
    have hlt := Nat.mod_lt x ha
    have : (x + al - 1) / al = x / al + 1 := by
      rw [show x + al - 1 = (x % al - 1) + (x / al + 1) * al by rw [Nat.add_mul, Nat.mul_comm (x / al) al]; omega]
      rw [Nat.add_mul_div_right _ _ ha, Nat.div_eq_of_lt (by omega)]
      omega
    rw [this, Nat.add_mul, Nat.mul_comm (x / al) al]
    omega
  unfold lead
  by_cases h0 : a % al = 0
  · rw [if_pos h0, if_pos (h ▸ h0)]
  · have h0' : ¬b % al = 0 := h ▸ h0
    rw [if_neg h0, if_neg h0']
    simp only [key a h0, key b h0', h]

theorem memalign_congr {a b al : Nat} (h : a % al = b % al) (ha : 0 < al) (hp : Heap) (req : Nat) (ch : Choice) :
    memalign a hp al req ch = memalign b hp al req ch := by
  have : ∀ p, lead al (a + p) = lead al (b + p) := fun p => lead_congr (by rw [Nat.add_mod, h, ← Nat.add_mod]) ha
  unfold memalign
  simp only [this]

/-- **C61.** The same calls give the same offsets on two PEs, if their heaps start at addresses that are equal modulo every
alignment asked for (in particular if they start at the same address). -/
theorem C61_offsets_partial {b1 b2 : Nat} (pol : List (Call × Option Nat) → Choice × Bool) : ∀ (cs : List Call) (s : Sys)
    (past : List (Call × Option Nat)), (∀ k ∈ aligns cs, b1 % 2 ^ k = b2 % 2 ^ k) →
    run (b1 + 960) pol s past cs = run (b2 + 960) pol s past cs := by
  intro cs
  induction cs with
  | nil => intro s past _; rfl
  | cons c cs ih =>
    intro s past hk
    have hstep : step (b1 + 960) s (pol past).1 (pol past).2 c = step (b2 + 960) s (pol past).1 (pol past).2 c := by
      cases c with
      | align k req =>
        simp only [step]
        have := hk k (by simp [aligns])
        rw [memalign_congr (a := b1 + 960) (b := b2 + 960) (by rw [Nat.add_mod, this, ← Nat.add_mod]) (Nat.two_pow_pos k)]
      | malloc req => rfl
      | calloc n sz => rfl
      | realloc p req => rfl
      | free p => rfl
    have hk' : ∀ k ∈ aligns cs, b1 % 2 ^ k = b2 % 2 ^ k := by
      intro k hm
      apply hk
      cases c <;> simp [aligns, hm]
    simp only [run, hstep]
    split
    · rename_i s' o _
      rw [ih s' _ hk']
    · rfl

/-- **C61 fails** for alignments larger than a page when the heaps could not be placed at the same address: `shmem_align` then
gives different offsets, so the address on one PE does not name the object on another. -/
theorem C61_fails : ∃ (b1 b2 : Nat) (h : Heap) (s1 s2 : Sys) (o1 o2 : Nat), 4096 ∣ b1 ∧ 4096 ∣ b2 ∧ fresh 12 65536 = some h ∧
    run (b1 + 960) (fun _ => (.top, false)) ⟨h, []⟩ [] [.align 13 100] = some (s1, [some o1]) ∧
    run (b2 + 960) (fun _ => (.top, false)) ⟨h, []⟩ [] [.align 13 100] = some (s2, [some o2]) ∧ o1 ≠ o2 := by
  refine ⟨0x10000, 0x11000, ⟨[], some 68608⟩, ⟨⟨[⟨7232, .free⟩, ⟨112, .user 100⟩], some 61264⟩, [(7232, 100)]⟩,
    ⟨⟨[⟨3136, .free⟩, ⟨112, .user 100⟩], some 65360⟩, [(3136, 100)]⟩, 7232, 3136, by decide, by decide, by decide +kernel, ?_, ?_, by decide⟩
  all_goals decide +kernel

/-- a non-trivial history for the theorems above: two blocks, the first freed and reused in part, an aligned one, a shrink -/
example : ∃ s o, run (0x10000 + 960) (fun past => if past.length = 3 then (.chunk 0, false) else (.top, false)) ⟨⟨[], some 68608⟩, []⟩ []
    [.malloc 1000, .malloc 10, .free 0, .malloc 100, .align 6 200, .realloc 1008 5] = some (s, o) ∧
    s.live = [(1008, 5), (1088, 200), (0, 100)] := by
  refine ⟨_, _, rfl, by decide +kernel⟩

end Verif.Heap
