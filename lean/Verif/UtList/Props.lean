import Verif.UtList.Model
import Mathlib.Data.List.Basic
/-!
# Property C54: the intrusive lists behave like lists
-/
namespace Verif.UtList

/-- following `next` from `h` gives exactly the nodes `l` and then NULL -/
def Chain (m : Mem) : Nat → List Nat → Prop
  | h, [] => h = 0
  | h, a :: t => h = a ∧ a ≠ 0 ∧ Chain m (m a) t

/-- memory represents the list `l` (each node once) -/
def Rep (m : Mem) (h : Nat) (l : List Nat) : Prop := Chain m h l ∧ l.Nodup

theorem chain_congr {m m' : Mem} {h : Nat} {l : List Nat} (hc : Chain m h l) (he : ∀ x ∈ l, m' x = m x) :
    Chain m' h l := by
  induction l generalizing h with
  | nil => exact hc
  | cons a t ih =>
    obtain ⟨rfl, h0, ht⟩ := hc
    refine ⟨rfl, h0, ?_⟩
    rw [he h (by simp)]
    exact ih ht (fun x hx => he x (by simp [hx]))

theorem chain_ne {m : Mem} {h : Nat} {l : List Nat} (hc : Chain m h l) : 0 ∉ l := by
  induction l generalizing h with
  | nil => simp
  | cons a t ih =>
    obtain ⟨rfl, h0, ht⟩ := hc
    simp only [List.mem_cons, not_or]
    exact ⟨fun e => h0 e.symm, ih ht⟩

theorem prepend_spec {m : Mem} {h : Nat} {l : List Nat} (hr : Rep m h l) {a : Nat} (ha : a ≠ 0) (hn : a ∉ l) :
    Rep (prepend m h a).1 (prepend m h a).2 (a :: l) := by
  refine ⟨⟨rfl, ha, ?_⟩, List.nodup_cons.2 ⟨hn, hr.2⟩⟩
  simp only [prepend, Function.update_self]
  exact chain_congr hr.1 (fun x hx => Function.update_of_ne (by rintro rfl; exact hn hx) _ _)

theorem walkEnd_spec {m : Mem} {h : Nat} {l : List Nat} {a : Nat} (hc : Chain m h (a :: l)) {f : Nat}
    (hf : l.length < f) : walkEnd m f h = .ok ((a :: l).getLast (by simp)) := by
  induction l generalizing h a f with
  | nil =>
    obtain ⟨rfl, h0, ht⟩ := hc
    cases f with
    | zero => simp at hf
    | succ f =>
      have ht : m h = 0 := ht
      unfold walkEnd
      rw [if_pos ht]
      simp
  | cons b t ih =>
    obtain ⟨rfl, h0, ht⟩ := hc
    cases f with
    | zero => simp at hf
    | succ f =>
      simp only [walkEnd]
      have hb : m h ≠ 0 := by rw [ht.1]; exact ht.2.1
      rw [if_neg hb, ih ht (by simpa using hf)]
      simp

theorem chain_setLast {m : Mem} {h a : Nat} {l : List Nat} (hc : Chain m h (a :: l)) (hnd : (a :: l).Nodup) {b : Nat}
    (hb : b ≠ 0) (hbl : b ∉ a :: l) (hb0 : m b = 0) :
    Chain (Function.update m ((a :: l).getLast (by simp)) b) h (a :: l ++ [b]) := by
  induction l generalizing h a with
  | nil =>
    obtain ⟨rfl, h0, ht⟩ := hc
    refine ⟨rfl, h0, ?_⟩
    simp only [List.getLast_singleton, Function.update_self, List.nil_append]
    refine ⟨rfl, hb, ?_⟩
    rw [Function.update_of_ne (by rintro rfl; simp at hbl)]
    exact hb0
  | cons c t ih =>
    obtain ⟨rfl, h0, ht⟩ := hc
    refine ⟨rfl, h0, ?_⟩
    have hnd' := List.nodup_cons.1 hnd
    have hlast : (h :: c :: t).getLast (by simp) = (c :: t).getLast (by simp) := by simp
    rw [hlast, Function.update_of_ne]
    · exact ih ht hnd'.2 (fun hh => hbl (List.mem_cons_of_mem _ hh))
    · intro e
      apply hnd'.1
      rw [e]; exact List.getLast_mem _

/-- C54. `LL_APPEND` of a node that is not in the list puts it at the end. -/
theorem C54_append {m : Mem} {h : Nat} {l : List Nat} (hr : Rep m h l) {a : Nat} (ha : a ≠ 0) (hn : a ∉ l)
    {f : Nat} (hf : l.length ≤ f) : ∃ m' h', append f m h a = .ok (m', h') ∧ Rep m' h' (l ++ [a]) := by
  cases l with
  | nil =>
    have h0 : h = 0 := hr.1
    refine ⟨Function.update m a 0, a, ?_, ⟨rfl, ha, ?_⟩, by simp⟩
    · unfold append; simp only; rw [if_neg (by simpa using h0)]
    · exact Function.update_self ..
  | cons b t =>
    obtain ⟨hc, hnd⟩ := hr
    have hc1 : Chain (Function.update m a 0) h (b :: t) :=
      chain_congr hc (fun x hx => Function.update_of_ne (by rintro rfl; exact hn hx) _ _)
    have hh : h ≠ 0 := by rw [hc.1]; exact hc.2.1
    refine ⟨Function.update (Function.update m a 0) ((b :: t).getLast (by simp)) a, h, ?_, ?_, ?_⟩
    · unfold append
      simp only
      rw [if_pos hh, walkEnd_spec hc1 (by simp at hf; omega)]
      rfl
    · exact chain_setLast hc1 hnd ha hn (Function.update_self ..)
    · rw [List.nodup_append]
      refine ⟨hnd, by simp, ?_⟩
      intro x hx y hy
      simp at hy; subst hy
      rintro rfl; exact hn hx

/-- C54. `LL_PREPEND` of a node that is not in the list puts it in front. -/
theorem C54_prepend {m : Mem} {h : Nat} {l : List Nat} (hr : Rep m h l) {a : Nat} (ha : a ≠ 0) (hn : a ∉ l) :
    Rep (prepend m h a).1 (prepend m h a).2 (a :: l) := prepend_spec hr ha hn

/-- deleting behind the first node -/
theorem delete_tail {m : Mem} {h a del : Nat} {l : List Nat} (hc : Chain m h (a :: l)) (hnd : (a :: l).Nodup)
    (hda : a ≠ del) {f : Nat} (hf : l.length < f) :
    ∃ t, walkTo m del f h = .ok t ∧ (m t = 0 → del ∉ a :: l) ∧
      (m t ≠ 0 → del ∈ l ∧ t ∈ a :: l ∧ t ≠ del ∧ Chain (Function.update m t (m del)) h ((a :: l).erase del)) := by
  induction l generalizing h a f with
  | nil =>
    obtain ⟨rfl, h0, ht⟩ := hc
    have ht : m h = 0 := ht
    cases f with
    | zero => simp at hf
    | succ f =>
      refine ⟨h, by simp only [walkTo]; rw [if_pos (Or.inl ht)], ?_, ?_⟩
      · intro _; simpa using fun e : del = h => hda e.symm
      · intro hh; exact absurd ht hh
  | cons b t ih =>
    obtain ⟨rfl, h0, ht⟩ := hc
    have hmh : m h = b := ht.1
    have hb0 : b ≠ 0 := ht.2.1
    have hnd' := List.nodup_cons.1 hnd
    cases f with
    | zero => simp at hf
    | succ f =>
      by_cases hbd : b = del
      · subst hbd
        refine ⟨h, by simp only [walkTo]; rw [if_pos (Or.inr hmh)], ?_, ?_⟩
        · intro hh; rw [hmh] at hh; exact absurd hh hb0
        · intro _
          refine ⟨by simp, by simp, hda, ?_⟩
          rw [List.erase_cons_tail (by simpa using hda), List.erase_cons_head]
          refine ⟨rfl, h0, ?_⟩
          rw [Function.update_self]
          have := ht.2.2
          refine chain_congr this (fun x hx => Function.update_of_ne ?_ _ _)
          rintro rfl
          exact hnd'.1 (List.mem_cons_of_mem _ hx)
      · obtain ⟨u, e1, e2, e3⟩ := ih (hmh ▸ ht) hnd'.2 hbd (f := f) (by simpa using hf)
        refine ⟨u, ?_, ?_, ?_⟩
        · simp only [walkTo]
          rw [if_neg (by rw [hmh]; simp [hb0, hbd])]
          rw [hmh]; exact e1
        · intro hu hm
          rw [List.mem_cons] at hm
          rcases hm with rfl | hm
          · exact hda rfl
          · exact e2 hu hm
        · intro hu
          obtain ⟨a1, a2, a3, a4⟩ := e3 hu
          refine ⟨List.mem_cons_of_mem _ a1, List.mem_cons_of_mem _ a2, a3, ?_⟩
          rw [List.erase_cons_tail (by simpa using hda)]
          refine ⟨rfl, h0, ?_⟩
          rw [Function.update_of_ne]
          · rw [hmh]; exact a4
          · rintro rfl; exact hnd'.1 a2

/-- C54. `LL_DELETE` on a non-empty list removes exactly the given node (nothing if it is not there), keeping all
others in order; only `next` fields of nodes that stay are written. -/
theorem C54_delete {m : Mem} {h : Nat} {l : List Nat} (hr : Rep m h l) (hl : l ≠ []) {a : Nat}
    {f : Nat} (hf : l.length ≤ f) :
    ∃ m' h', delete f m h a = .ok (m', h') ∧ Rep m' h' (l.erase a) ∧ ∀ x, x ∉ l.erase a → m' x = m x := by
  cases l with
  | nil => exact absurd rfl hl
  | cons b t =>
    obtain ⟨hc, hnd⟩ := hr
    have hb := hc.1
    have hh : h ≠ 0 := by rw [hc.1]; exact hc.2.1
    by_cases hba : h = a
    · subst hba
      subst hb
      refine ⟨m, m h, ?_, ?_, fun _ _ => rfl⟩
      · unfold delete; rw [if_pos rfl, if_neg hh]
      · rw [List.erase_cons_head]
        exact ⟨hc.2.2, (List.nodup_cons.1 hnd).2⟩
    · obtain ⟨u, e1, e2, e3⟩ := delete_tail hc hnd (del := a) (by rw [← hb]; exact hba) (f := f) (by simp at hf; omega)
      by_cases hu : m u = 0
      · refine ⟨m, h, ?_, ?_, fun _ _ => rfl⟩
        · unfold delete
          rw [if_neg hba, if_neg hh, e1, Res.bind_ok, if_neg (by simpa using hu)]
        · rw [List.erase_of_not_mem (e2 hu)]
          exact ⟨hc, hnd⟩
      · obtain ⟨a1, a2, a3, a4⟩ := e3 hu
        refine ⟨Function.update m u (m a), h, ?_, ⟨a4, hnd.erase _⟩, ?_⟩
        · unfold delete
          rw [if_neg hba, if_neg hh, e1, Res.bind_ok, if_pos hu]
        · intro x hx
          apply Function.update_of_ne
          rintro rfl
          exact hx ((List.mem_erase_of_ne a3).2 a2)

/-- C54. Deleting from an empty list follows a NULL pointer. -/
theorem C54_delete_empty (m : Mem) (f a : Nat) : delete f m 0 a = .ub := by
  unfold delete
  split <;> simp

/-- C54. `LL_FOREACH` visits the nodes of the list, each once, in order. -/
theorem C54_foreach {m : Mem} {h : Nat} {l : List Nat} (hr : Rep m h l) {f : Nat} (hf : l.length ≤ f) :
    foreach m f h = .ok l := by
  have hc := hr.1
  clear hr
  induction l generalizing h f with
  | nil =>
    have h0 : h = 0 := hc
    cases f <;> simp [foreach, h0]
  | cons a t ih =>
    obtain ⟨rfl, h0, ht⟩ := hc
    cases f with
    | zero => simp at hf
    | succ f => simp only [foreach]; rw [if_neg h0, ih (by simpa using hf) ht, Res.bind_ok]

/-- C54. A search stops at the first node that satisfies the test, NULL exactly if there is none. -/
theorem C54_search {m : Mem} {h : Nat} {l : List Nat} (hr : Rep m h l) (p : Nat → Bool) {f : Nat} (hf : l.length ≤ f) :
    search m p f h = .ok ((l.find? p).getD 0) := by
  have hc := hr.1
  clear hr
  induction l generalizing h f with
  | nil =>
    have h0 : h = 0 := hc
    cases f <;> simp [search, h0]
  | cons a t ih =>
    obtain ⟨rfl, h0, ht⟩ := hc
    cases f with
    | zero => simp at hf
    | succ f =>
      simp only [search]
      rw [if_neg h0]
      cases hp : p h with
      | true => simp [hp]
      | false => simp only [Bool.false_eq_true, if_false, hp, List.find?_cons]; exact ih (by simpa using hf) ht

/-- C54. The finalize loops visit every cached object exactly once, in order, end with an empty list, and never read
a freed node, whatever `free` writes into it. -/
theorem C54_delete_all (g : Mem) {m : Mem} {h : Nat} {l : List Nat} (hr : Rep m h l) {d f : Nat} (hd : l.length ≤ d)
    (hf : l.length ≤ f) : ∃ m', deleteAll g d f m h h = .ok (m', 0, l) := by
  induction l generalizing m h f with
  | nil =>
    have h0 : h = 0 := hr.1
    subst h0
    refine ⟨m, ?_⟩
    cases f <;> simp [deleteAll]
  | cons a t ih =>
    obtain ⟨⟨rfl, h0, ht⟩, hnd⟩ := hr
    have hnd' := List.nodup_cons.1 hnd
    cases f with
    | zero => simp at hf
    | succ f =>
      have hdel : delete d m h h = .ok (m, m h) := by unfold delete; rw [if_pos rfl, if_neg h0]
      have hr' : Rep (Function.update m h (g h)) (m h) t :=
        ⟨chain_congr ht (fun x hx => Function.update_of_ne (by rintro rfl; exact hnd'.1 hx) _ _), hnd'.2⟩
      obtain ⟨m', e⟩ := ih hr' (by simp at hd; omega) (f := f) (by simpa using hf)
      refine ⟨m', ?_⟩
      simp only [deleteAll]
      rw [if_neg h0, hdel]
      simp only [Res.bind_ok]
      rw [e]
      rfl

/-- abstract effect of a history: the spaces created and not destroyed, in creation order -/
def effect : List Nat → List Op → List Nat
  | l, [] => l
  | l, .create a :: t => effect (l ++ [a]) t
  | l, .destroy a _ :: t => effect (l.erase a) t

/-- a history a program can have: new nodes are not in use, only existing spaces are destroyed -/
def Valid : List Nat → List Op → Prop
  | _, [] => True
  | l, .create a :: t => a ≠ 0 ∧ a ∉ l ∧ Valid (l ++ [a]) t
  | l, .destroy a _ :: t => a ∈ l ∧ Valid (l.erase a) t

/-- C54. After every history of creations and destructions, walking the space list visits exactly the spaces created
and not destroyed, in creation order, each once. -/
theorem C54_space_list {ops : List Op} (hv : Valid [] ops) {m : Mem} {fuel : Nat} (hf : ops.length ≤ fuel) :
    ∃ m' h', run fuel m 0 ops = .ok (m', h') ∧ Rep m' h' (effect [] ops) ∧
      foreach m' fuel h' = .ok (effect [] ops) := by
  have gen : ∀ (ops : List Op) (l : List Nat) (m : Mem) (h : Nat), Valid l ops → Rep m h l →
      l.length + ops.length ≤ fuel →
      ∃ m' h', run fuel m h ops = .ok (m', h') ∧ Rep m' h' (effect l ops) ∧ (effect l ops).length ≤ fuel := by
    intro ops
    induction ops with
    | nil => intro l m h _ hr hl; exact ⟨m, h, rfl, hr, by simpa [effect] using hl⟩
    | cons o t ih =>
      intro l m h hv hr hl
      simp only [List.length_cons] at hl
      cases o with
      | create a =>
        obtain ⟨h0, hn, hv'⟩ := hv
        obtain ⟨m1, h1, e1, r1⟩ := C54_append hr h0 hn (f := fuel) (by omega)
        obtain ⟨m2, h2, e2, r2, r3⟩ := ih _ m1 h1 hv' r1 (by simp; omega)
        exact ⟨m2, h2, by simp only [run]; rw [e1, Res.bind_ok]; exact e2, r2, r3⟩
      | destroy a g =>
        obtain ⟨hm, hv'⟩ := hv
        obtain ⟨m1, h1, e1, r1, _⟩ := C54_delete hr (by rintro rfl; simp at hm) (a := a) (f := fuel) (by omega)
        have r1' : Rep (Function.update m1 a g) h1 (l.erase a) :=
          ⟨chain_congr r1.1 (fun x hx => Function.update_of_ne
            (by rintro rfl; exact (hr.2.not_mem_erase) hx) _ _), r1.2⟩
        obtain ⟨m2, h2, e2, r2, r3⟩ := ih _ _ h1 hv' r1' (by have := List.length_erase_le (l := l) (a := a); omega)
        exact ⟨m2, h2, by simp only [run]; rw [e1, Res.bind_ok]; exact e2, r2, r3⟩
  obtain ⟨m', h', e, r, hl⟩ := gen ops [] m 0 hv ⟨rfl, by simp⟩ (by simpa using hf)
  exact ⟨m', h', e, r, C54_foreach r hl⟩

/-! ## Non-vacuity -/

/-- a valid history with a reused address: nodes 8, 16, 24 created, 16 destroyed, 16 created again -/
example : Valid [] [.create 8, .create 16, .create 24, .destroy 16 99, .create 16] ∧
    effect [] [.create 8, .create 16, .create 24, .destroy 16 99, .create 16] = [8, 24, 16] := by
  refine ⟨?_, by decide⟩
  simp [Valid]

example : Rep (fun x => if x = 8 then 16 else if x = 16 then 24 else 0) 8 [8, 16, 24] := by
  refine ⟨?_, by decide⟩
  simp [Chain]

end Verif.UtList
