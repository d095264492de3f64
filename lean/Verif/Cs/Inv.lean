import Verif.Cs.Model
import Mathlib.Data.List.Nodup
/-!
# Critical sections: the invariant
-/
namespace Verif.Cs

/-- position in the order in which the mutexes nest; auxiliary to the proof -/
def rank : Lk → Nat
  | .cb => 0 | .spaces => 1 | .pool _ => 2 | .heap => 2 | .comms => 2 | .dtypes => 2

/-- the mutex that protects a structure; auxiliary to the proof -/
def guard : Obj → Option Lk
  | .list => some .spaces
  | .heap => some .heap
  | .cb => some .cb
  | .comms => some .comms
  | .dtypes => some .dtypes
  | .fld s .pool => some (.pool s)
  | .fld _ .attr => none
  | .fld _ .cfg => none
  | .fld _ .ctx => none
  | .fld _ .dict => none

/-- remaining accesses respect nesting and protection when the mutexes `H` are held (`a`: progress thread) -/
def Wf (a : Bool) : List Lk → List Act → Prop
  | H, [] => H = []
  | H, .enter l :: k => (∀ h ∈ H, rank h < rank l) ∧ Wf a (l :: H) k
  | H, .exit l :: k => ∃ H', H = l :: H' ∧ Wf a H' k
  | H, .touch o :: k => ((a = true ∧ o = .cb) ∨ ∀ l, guard o = some l → l ∈ H) ∧ Wf a H k
  | H, .init _ _ :: k => Wf a H k
  | H, .setctx _ _ :: k => Wf a H k
  | H, .flushCtx _ _ :: k => Wf a H k
  | H, .append _ :: k => (∃ H', H = .spaces :: H') ∧ (∃ k', k = .exit .spaces :: k') ∧ Wf a H k
  | H, .remove _ :: k => (∃ H', H = .spaces :: H') ∧ (∃ k', k = .exit .spaces :: k') ∧ Wf a H k
  | H, .drop _ :: k => Wf a H k
  | H, .free _ :: k => Wf a H k
  | H, .first _ :: k => (∃ H', H = .spaces :: H') ∧ (∀ h ∈ H, rank h < 2) ∧ Wf a H k
  | H, .walk _ _ :: k => (∃ H', H = .spaces :: H') ∧ (∀ h ∈ H, rank h < 2) ∧ Wf a H k
  | H, .poll :: k => ((a = true ∧ H = []) ∨ H = [.cb]) ∧ Wf a H k
  | H, .wait :: k => H = [] ∧ Wf a H k

/-- extra condition on an access in call `c`, followed by `k`; auxiliary to the proof -/
def Spec (L : List Nat) (c : Option Call) (b : Bool) (k : List Act) : Act → Prop
  | .append s => c = some (.create s) ∧ .append s ∉ k
  | .init s f => f = .pool → c = some (.create s) ∧ .append s ∈ k
  | .remove s => c = some (.destroy s)
  | .drop s => c = some (.destroy s) ∧ .remove s ∉ k
  | .free s => c = some (.destroy s) ∧ ∀ x ∈ k, target x ≠ some s
  | .walk _ (some s) => b = true ∧ s ∈ L
  | .walk _ none => True
  | .enter _ => True
  | .exit _ => True
  | .touch _ => True
  | .setctx _ _ => True
  | .flushCtx _ _ => True
  | .first _ => True
  | .poll => True
  | .wait => True

/-- every space object mentioned is the user's or, while the list is held (`b`), in the list -/
def Good (L : List Nat) (c : Option Call) : Bool → List Act → Prop
  | _, [] => True
  | b, x :: k => (∀ s, target x = some s → (b = true ∧ s ∈ L) ∨ names c s) ∧ Spec L c b k x ∧
      Good L c (b && decide (x ≠ .exit .spaces)) k

/-- accesses that continuations consist of -/
def Plain : Act → Prop
  | .append _ => False
  | .init _ _ => False
  | .remove _ => False
  | .drop _ => False
  | .free _ => False
  | .walk _ _ => True
  | .enter _ => True
  | .exit _ => True
  | .touch _ => True
  | .setctx _ _ => True
  | .flushCtx _ _ => True
  | .first _ => True
  | .poll => True
  | .wait => True

theorem succ_mem {L : List Nat} {s x : Nat} (h : succ L s = some x) : x ∈ L := by
  induction L with
  | nil => simp [succ] at h
  | cons y r ih =>
    by_cases e : y = s
    · rw [succ, if_pos e] at h
      exact List.mem_cons_of_mem _ (List.mem_of_mem_head? h)
    · rw [succ, if_neg e] at h
      exact List.mem_cons_of_mem _ (ih h)

theorem cont_plain {P : Par} {g : St} {a : Act} {c : List Act} (hc : c ∈ cont P g a)
    (hw : ∀ w s, a = .walk w (some s) → s ∈ g.list) :
    ∀ x ∈ c, Plain x ∧ (∀ s, target x = some s → s ∈ g.list) ∧
      (x = .exit .spaces → a = .poll) := by
  rcases a with l | l | o | ⟨s, f⟩ | ⟨s, v⟩ | ⟨s, i⟩ | s | s | s | s | w | ⟨w, cur⟩ | _ | _
  case walk =>
    rcases cur with _ | s
    · simp only [cont, List.mem_singleton] at hc
      subst hc; simp
    · have hs := hw w s rfl
      rcases w with _ | y | y | _
      · simp only [cont, List.mem_singleton] at hc
        subst hc
        intro x hx
        simp only [List.mem_append, List.mem_map, List.mem_cons, List.not_mem_nil, or_false] at hx
        rcases hx with ((h | ⟨i, -, h⟩) | h) | h
        · subst h; simp [Plain, target, hs]
        · subst h; simp [Plain, target, hs]
        · split at h
          · simp at h
          · simp only [List.mem_singleton] at h
            subst h; simp [Plain, target, hs]
        · subst h
          refine ⟨trivial, ?_, by simp⟩
          intro z hz; exact succ_mem hz
      · simp only [cont] at hc
        split at hc <;> simp only [List.mem_singleton] at hc <;> subst hc
        · simp [Plain, target, hs]
        · simp only [List.mem_cons, List.not_mem_nil, or_false, forall_eq_or_imp, forall_eq]
          refine ⟨by simp [Plain, target, hs], trivial, ?_, by simp⟩
          intro z hz; exact succ_mem hz
      · simp only [cont] at hc
        split at hc <;> simp only [List.mem_singleton] at hc <;> subst hc
        · simp [Plain, target, hs]
        · simp only [List.mem_cons, List.not_mem_nil, or_false, forall_eq_or_imp, forall_eq]
          refine ⟨by simp [Plain, target, hs], trivial, ?_, by simp⟩
          intro z hz; exact succ_mem hz
      · simp only [cont, List.mem_cons, List.not_mem_nil, or_false] at hc
        rcases hc with hc | hc <;> subst hc
        · simp [Plain, target, hs]
        · simp only [List.mem_cons, List.not_mem_nil, or_false, forall_eq_or_imp, forall_eq]
          refine ⟨by simp [Plain, target, hs], trivial, ?_, by simp⟩
          intro z hz; exact succ_mem hz
  case first =>
    simp only [cont, List.mem_singleton] at hc
    subst hc
    simp only [List.mem_singleton, forall_eq]
    exact ⟨trivial, fun s hs => List.mem_of_mem_head? hs, by simp⟩
  case poll =>
    simp only [cont, List.mem_cons, List.not_mem_nil, or_false] at hc
    rcases hc with rfl | rfl | rfl | rfl | rfl | rfl | rfl <;> simp [handler, Plain, target]
  case wait =>
    simp only [cont, List.mem_cons, List.not_mem_nil, or_false] at hc
    rcases hc with rfl | rfl
    · simp
    · intro x hx
      simp only [progress, List.mem_append, List.mem_singleton] at hx
      rcases hx with hx | rfl
      · split at hx
        · simp at hx
        · simp only [List.mem_cons, List.not_mem_nil, or_false] at hx
          rcases hx with rfl | rfl | rfl | rfl <;> simp [Plain, target]
      · simp [Plain, target]
  all_goals
    simp only [cont, List.mem_singleton] at hc
    subst hc
    simp

theorem wf_flush (a : Bool) (H : List Lk) (s : Nat) (l : List Nat) (k : List Act) :
    Wf a H (l.map (.flushCtx s) ++ k) ↔ Wf a H k := by
  induction l with
  | nil => rfl
  | cons i l ih => simpa [Wf] using ih

theorem cont_wf {P : Par} {g : St} {a : Act} {c k : List Act} {H : List Lk} {p : Bool}
    (hc : c ∈ cont P g a) (h : Wf p H (a :: k)) :
    Wf p (match a with
      | .enter l => l :: H
      | .exit _ => H.tail
      | _ => H) (c ++ k) := by
  rcases a with l | l | o | ⟨s, f⟩ | ⟨s, v⟩ | ⟨s, i⟩ | s | s | s | s | w | ⟨w, cur⟩ | _ | _
  case enter =>
    simp only [cont, List.mem_singleton] at hc
    subst hc
    exact h.2
  case exit =>
    simp only [cont, List.mem_singleton] at hc
    subst hc
    obtain ⟨H', rfl, h⟩ := h
    exact h
  case touch =>
    simp only [cont, List.mem_singleton] at hc
    subst hc
    exact h.2
  case append =>
    simp only [cont, List.mem_singleton] at hc
    subst hc
    exact h.2.2
  case remove =>
    simp only [cont, List.mem_singleton] at hc
    subst hc
    exact h.2.2
  case first =>
    simp only [cont, List.mem_singleton] at hc
    subst hc
    exact h
  case poll =>
    simp only [cont, List.mem_cons, List.not_mem_nil, or_false] at hc
    obtain ⟨h1, h2⟩ := h
    have hr : ∀ h ∈ H, rank h < 1 := by
      rcases h1 with ⟨-, rfl⟩ | rfl <;> simp [rank]
    have hcb : ((p = true ∧ Obj.cb = .cb) ∨ ∀ l, guard .cb = some l → l ∈ H) := by
      rcases h1 with ⟨h, -⟩ | rfl
      · exact .inl ⟨h, rfl⟩
      · right; simp [guard]
    have hr2 : ∀ h ∈ H, rank h < 2 := fun h hh => by have := hr h hh; omega
    have hsp : ∀ q, Wf p H q → Wf p H (.enter .spaces :: .first .handle :: .exit .spaces :: q) := by
      intro q hq
      refine ⟨hr, ⟨H, rfl⟩, ?_, ⟨H, rfl, hq⟩⟩
      intro l hl
      rcases List.mem_cons.1 hl with rfl | hl
      · simp [rank]
      · exact hr2 l hl
    have hdt : ∀ q, Wf p H q → Wf p H (.enter .dtypes :: .touch .dtypes :: .exit .dtypes :: q) := by
      intro q hq
      exact ⟨hr2, .inr (by simp [guard]), ⟨H, rfl, hq⟩⟩
    have h3 : Wf p H (.touch .cb :: k) := ⟨hcb, h2⟩
    rcases hc with rfl | rfl | rfl | rfl | rfl | rfl | rfl
    · exact h2
    · exact h3
    · exact hsp _ h3
    · exact hdt _ h3
    · exact hsp _ (hdt _ h3)
    · exact hdt _ (hdt _ h3)
    · exact hsp _ (hdt _ (hdt _ h3))
  case wait =>
    simp only [cont, List.mem_cons, List.not_mem_nil, or_false] at hc
    obtain ⟨rfl, h2⟩ := h
    rcases hc with rfl | rfl
    · exact h2
    · simp only [progress]
      by_cases ha : P.async = true
      · rw [if_pos ha]; exact ⟨rfl, h2⟩
      · rw [if_neg ha]
        refine ⟨by simp, .inr (by simp [guard]), .inr rfl, ⟨[], rfl, rfl, h2⟩⟩
  case walk =>
    obtain ⟨h1, h2, h3⟩ := h
    rcases cur with _ | s
    · simp only [cont, List.mem_singleton] at hc
      subst hc; exact h3
    · have ht : ∀ f, f ≠ Fld.pool → ((p = true ∧ Obj.fld s f = .cb) ∨ ∀ l, guard (.fld s f) = some l → l ∈ H) := by
        intro f hf; right; cases f <;> simp_all [guard]
      rcases w with _ | y | y | _
      · simp only [cont, List.mem_singleton] at hc
        subst hc
        simp only [List.append_assoc, List.singleton_append]
        refine ⟨ht _ (by simp), ?_⟩
        refine (wf_flush p H s (List.range (P.nctx s)) _).2 ?_
        split
        · exact ⟨h1, h2, h3⟩
        · exact ⟨ht _ (by simp), h1, h2, h3⟩
      · simp only [cont] at hc
        split at hc <;> simp only [List.mem_singleton] at hc <;> subst hc
        · exact ⟨ht _ (by simp), h3⟩
        · exact ⟨ht _ (by simp), h1, h2, h3⟩
      · simp only [cont] at hc
        split at hc <;> simp only [List.mem_singleton] at hc <;> subst hc
        · exact ⟨ht _ (by simp), by simpa [rank] using h2, .inr (by simp [guard]), ⟨H, rfl, h3⟩⟩
        · exact ⟨ht _ (by simp), h1, h2, h3⟩
      · simp only [cont, List.mem_cons, List.not_mem_nil, or_false] at hc
        rcases hc with hc | hc <;> subst hc
        · exact ⟨ht _ (by simp), h3⟩
        · exact ⟨ht _ (by simp), h1, h2, h3⟩
  all_goals
    simp only [cont, List.mem_singleton] at hc
    subst hc
    exact h

/-- bodies respect nesting and protection -/
theorem body_wf (P : Par) (c : Call) (p : Bool) (hp : p = true → c = .serve) (hq : c = .serve → p = true) :
    Wf p [] (body P c) := by
  cases c with
  | malloc => simp [body, Wf, guard]
  | free => simp [body, Wf, guard]
  | freeIn s => simp [body, Wf, rank]
  | op s =>
    cases s with
    | none => simp [body, Wf, query, useSpace, rank]
    | some s => cases h : P.dyn <;> simp [body, Wf, query, useSpace, rank, guard, h]
  | strided s hit =>
    cases s with
    | none => cases hit <;> simp [body, Wf, query, useSpace, rank, guard]
    | some s => cases h : P.dyn <;> cases hit <;> simp [body, Wf, query, useSpace, rank, guard, h]
  | quiet => simp [body, Wf, rank]
  | barrier => simp [body, Wf]
  | aset hit => cases hit <;> simp [body, Wf, guard]
  | test => cases h : P.async <;> simp [body, progress, h, Wf, guard]
  | create s => cases h : P.dyn <;> simp [body, h, Wf]
  | destroy s => simp [body, Wf, guard]
  | attach s => cases h : P.dyn <;> by_cases h0 : P.nctx s = 0 <;> simp [body, h, h0, Wf, guard]
  | detach s => cases h : P.dyn <;> simp [body, h, Wf, guard]
  | smalloc s => simp [body, Wf, guard]
  | serve => simp [body, Wf, hq rfl]

theorem good_mono {L : List Nat} {c : Option Call} {b : Bool} {k : List Act} (h : Good L c false k) : Good L c b k := by
  induction k generalizing b with
  | nil => trivial
  | cons x k ih =>
    obtain ⟨h1, h2, h3⟩ := h
    refine ⟨fun s hs => .inr ((h1 s hs).resolve_left (by simp)), ?_, ih h3⟩
    cases x with
    | walk w cur => cases cur with
      | none => trivial
      | some s => simp [Spec] at h2
    | _ => exact h2

/-- without the list held, the list does not matter -/
theorem good_list {L L' : List Nat} {c : Option Call} {k : List Act} (h : Good L c false k) : Good L' c false k := by
  induction k with
  | nil => trivial
  | cons x k ih =>
    obtain ⟨h1, h2, h3⟩ := h
    refine ⟨fun s hs => .inr ((h1 s hs).resolve_left (by simp)), ?_, ih h3⟩
    cases x with
    | walk w cur => cases cur with
      | none => trivial
      | some s => simp [Spec] at h2
    | _ => exact h2

theorem good_app {L : List Nat} {c : Option Call} {b : Bool} {x k : List Act}
    (hx : ∀ a ∈ x, Plain a ∧ (∀ s, target a = some s → b = true ∧ s ∈ L))
    (he : b = true → .exit .spaces ∉ x) (hk : Good L c b k) : Good L c b (x ++ k) := by
  induction x with
  | nil => exact hk
  | cons a x ih =>
    have ha := hx a (by simp)
    refine ⟨fun s hs => .inl (ha.2 s hs), ?_, ?_⟩
    · cases a with
      | walk w cur => cases cur with
        | none => trivial
        | some s => exact ha.2 s rfl
      | append => exact ha.1.elim
      | init => exact ha.1.elim
      | remove => exact ha.1.elim
      | drop => exact ha.1.elim
      | free => exact ha.1.elim
      | _ => trivial
    · have : (b && decide (a ≠ .exit .spaces)) = b := by
        cases b with
        | false => rfl
        | true =>
          have := he rfl
          simp only [List.mem_cons, not_or] at this
          simp [Ne.symm this.1]
      rw [this]
      exact ih (fun a h => hx a (by simp [h])) (fun h h' => he h (by simp [h']))

theorem body_good (P : Par) (c : Call) (L : List Nat) : Good L (some c) false (body P c) := by
  cases c with
  | malloc => simp [body, Good, Spec, target]
  | free => simp [body, Good, Spec, target]
  | freeIn s => simp [body, Good, Spec, target]
  | op s =>
    cases s with
    | none => simp [body, Good, query, useSpace, Spec, target]
    | some s => cases h : P.dyn <;> simp [body, Good, query, useSpace, Spec, target, h, names]
  | strided s hit =>
    cases s with
    | none => cases hit <;> simp [body, Good, query, useSpace, Spec, target]
    | some s => cases h : P.dyn <;> cases hit <;> simp [body, Good, query, useSpace, Spec, target, h, names]
  | quiet => simp [body, Good, Spec, target]
  | barrier => simp [body, Good, Spec, target]
  | aset hit => cases hit <;> simp [body, Good, Spec, target]
  | test => cases h : P.async <;> simp [body, progress, h, Good, Spec, target]
  | create s => cases h : P.dyn <;> simp [body, h, Good, Spec, target, names]
  | destroy s => simp [body, Good, Spec, target, names]
  | attach s => cases h : P.dyn <;> by_cases h0 : P.nctx s = 0 <;> simp [body, h, h0, Good, Spec, target, names]
  | detach s => cases h : P.dyn <;> simp [body, h, Good, Spec, target, names]
  | smalloc s => simp [body, Good, Spec, target, names]
  | serve => simp [body, Good, Spec, target]

/-- invariant of all histories -/
structure Inv (P : Par) (g : St) : Prop where
  wf : ∀ t, Wf (P.async && decide (t = 0)) (g.held t) (g.code t)
  excl : ∀ t t' l, l ∈ g.held t → l ∈ g.held t' → t = t'
  ndh : ∀ t, (g.held t).Nodup
  good : ∀ t, Good g.list (g.cur t) (decide (.spaces ∈ g.held t)) (g.code t)
  idle : ∀ t, g.cur t = none → g.code t = []
  ndl : g.list.Nodup
  lst : ∀ s ∈ g.list, s < g.next ∧ g.freed s = false
  nam : ∀ t s, names (g.cur t) s → s < g.next
  kn : ∀ s, g.known s = true → s < g.next ∧ g.freed s = false ∧
    ∀ t, g.cur t ≠ some (.create s) ∧ g.cur t ≠ some (.destroy s)
  dead : ∀ t s, names (g.cur t) s → g.freed s = true → g.cur t = some (.destroy s) ∧ ∀ x ∈ g.code t, target x ≠ some s
  uniq : ∀ t t' s, (g.cur t = some (.create s) ∨ g.cur t = some (.destroy s)) → names (g.cur t') s → t' = t
  unpub : ∀ t s, g.cur t = some (.create s) → .append s ∈ g.code t → s ∉ g.list
  rem : ∀ t s, g.cur t = some (.destroy s) → .remove s ∈ g.code t ∨ s ∉ g.list
  fr : ∀ s, g.freed s = true → s < g.next

theorem inv_init (P : Par) : Inv P init := by
  constructor <;> simp [init, Wf, Good, names]

theorem names_create (s : Nat) : names (some (.create s)) s := rfl
theorem names_destroy (s : Nat) : names (some (.destroy s)) s := rfl

theorem append_body {P : Par} {c : Call} {s : Nat} (h : .append s ∈ body P c) : c = .create s := by
  cases c with
  | op x => cases x <;> simp only [body, query, useSpace] at h <;> (try split at h) <;> simp_all
  | strided x hit =>
    cases x <;> cases hit <;> simp only [body, query, useSpace] at h <;> (try split at h) <;> simp_all
  | aset hit => cases hit <;> simp [body] at h
  | test => simp only [body, progress] at h; split at h <;> simp at h
  | create x => simp only [body] at h; split at h <;> simp_all
  | attach x => simp only [body] at h; split at h <;> split at h <;> simp_all
  | detach x => simp only [body] at h; split at h <;> simp_all
  | _ => simp [body] at h

theorem inv_call {P : Par} {g : St} (h : Inv P g) {t : Nat} {c : Call} (hi : g.cur t = none) (hl : Legal P g t c) :
    Inv P (start P g t c) := by
  obtain ⟨l1, l2, l3, l4⟩ := hl
  have hnil := h.idle t hi
  have hH : g.held t = [] := by have := h.wf t; rw [hnil] at this; exact this
  have hnx : g.next ≤ (start P g t c).next := by cases c <;> simp [start]
  have hcn : ∀ s, c = .create s → s < (start P g t c).next := by
    rintro s rfl
    have := l3 s rfl
    simp [start, this]
  have hnam : ∀ s, names (some c) s → s < (start P g t c).next := by
    intro s hs
    rcases l2 s hs with e | e
    · exact hcn s e
    · have := (h.kn s e).1; omega
  have hfresh : ∀ s, c = .create s → g.freed s = false ∧ s ∉ g.list ∧ ∀ t', ¬ names (g.cur t') s := by
    intro s e
    have := l3 s e
    subst this
    refine ⟨?_, fun hm => ?_, fun t' hm => ?_⟩
    · by_contra hf
      have := h.fr _ (by simpa using hf); omega
    · have := (h.lst _ hm).1; omega
    · have := h.nam _ _ hm; omega
  constructor
  · intro t'
    by_cases e : t' = t
    · subst e
      have : (start P g t' c).code t' = body P c := by simp [start]
      rw [this]
      have : (start P g t' c).held t' = [] := hH
      rw [this]
      refine body_wf P c _ ?_ ?_
      · intro hp; exact l1.1 (by simpa using hp)
      · intro hp; simpa using l1.2 hp
    · have : (start P g t c).code t' = g.code t' := by simp [start, e]
      rw [this]; exact h.wf t'
  · exact h.excl
  · exact h.ndh
  · intro t'
    by_cases e : t' = t
    · subst e
      have e1 : (start P g t' c).code t' = body P c := by simp [start]
      have e2 : (start P g t' c).held t' = [] := hH
      have e3 : (start P g t' c).cur t' = some c := by simp [start]
      rw [e1, e2, e3]
      exact body_good P c _
    · have e1 : (start P g t c).code t' = g.code t' := by simp [start, e]
      have e3 : (start P g t c).cur t' = g.cur t' := by simp [start, e]
      rw [e1, e3]; exact h.good t'
  · intro t' ht
    by_cases e : t' = t
    · subst e; simp [start] at ht
    · have e1 : (start P g t c).code t' = g.code t' := by simp [start, e]
      have e3 : (start P g t c).cur t' = g.cur t' := by simp [start, e]
      rw [e1]; rw [e3] at ht; exact h.idle t' ht
  · exact h.ndl
  · intro s hs
    have := h.lst s hs
    exact ⟨by omega, this.2⟩
  · intro t' s hs
    by_cases e : t' = t
    · subst e
      have e3 : (start P g t' c).cur t' = some c := by simp [start]
      rw [e3] at hs; exact hnam s hs
    · have e3 : (start P g t c).cur t' = g.cur t' := by simp [start, e]
      rw [e3] at hs
      have := h.nam t' s hs; omega
  · intro s hs
    have hs' : g.known s = true ∧ c ≠ .destroy s := by simpa [start] using hs
    obtain ⟨k1, k2, k3⟩ := h.kn s hs'.1
    refine ⟨by omega, k2, fun t' => ?_⟩
    by_cases e : t' = t
    · subst e
      have e3 : (start P g t' c).cur t' = some c := by simp [start]
      rw [e3]
      refine ⟨fun e => ?_, fun e => hs'.2 (by simpa using e)⟩
      have := l3 s (by simpa using e); omega
    · have e3 : (start P g t c).cur t' = g.cur t' := by simp [start, e]
      rw [e3]; exact k3 t'
  · intro t' s hs hf
    have hff : g.freed s = true := hf
    by_cases e : t' = t
    · subst e
      have e3 : (start P g t' c).cur t' = some c := by simp [start]
      rw [e3] at hs
      rcases l2 s hs with e | e
      · have := (hfresh s e).1; rw [this] at hff; simp at hff
      · have := (h.kn s e).2.1; rw [this] at hff; simp at hff
    · have e1 : (start P g t c).code t' = g.code t' := by simp [start, e]
      have e3 : (start P g t c).cur t' = g.cur t' := by simp [start, e]
      rw [e3] at hs ⊢; rw [e1]; exact h.dead t' s hs hf
  · intro t1 t2 s h1 h2
    by_cases e1 : t1 = t <;> by_cases e2 : t2 = t
    · rw [e1, e2]
    · subst e1
      have e3 : (start P g t1 c).cur t1 = some c := by simp [start]
      have e4 : (start P g t1 c).cur t2 = g.cur t2 := by simp [start, e2]
      rw [e3] at h1; rw [e4] at h2
      rcases h1 with h1 | h1
      · exact ((hfresh s (by simpa using h1)).2.2 t2 h2).elim
      · exact (l4 s (by simpa using h1) t2 h2).elim
    · subst e2
      have e3 : (start P g t2 c).cur t2 = some c := by simp [start]
      have e4 : (start P g t2 c).cur t1 = g.cur t1 := by simp [start, e1]
      rw [e3] at h2; rw [e4] at h1
      exfalso
      rcases l2 s h2 with e | e
      · have hf := (hfresh s e).2.2 t1
        rcases h1 with h1 | h1 <;> rw [h1] at hf <;> exact hf rfl
      · have := (h.kn s e).2.2 t1
        rcases h1 with h1 | h1
        · exact this.1 h1
        · exact this.2 h1
    · have e3 : (start P g t c).cur t1 = g.cur t1 := by simp [start, e1]
      have e4 : (start P g t c).cur t2 = g.cur t2 := by simp [start, e2]
      rw [e3] at h1; rw [e4] at h2
      exact h.uniq t1 t2 s h1 h2
  · intro t' s hs ha
    by_cases e : t' = t
    · subst e
      have e3 : (start P g t' c).cur t' = some c := by simp [start]
      rw [e3] at hs
      exact (hfresh s (by simpa using hs)).2.1
    · have e1 : (start P g t c).code t' = g.code t' := by simp [start, e]
      have e3 : (start P g t c).cur t' = g.cur t' := by simp [start, e]
      rw [e3] at hs; rw [e1] at ha; exact h.unpub t' s hs ha
  · intro t' s hs
    by_cases e : t' = t
    · subst e
      have e1 : (start P g t' c).code t' = body P c := by simp [start]
      have e3 : (start P g t' c).cur t' = some c := by simp [start]
      rw [e3] at hs
      left; rw [e1]
      have : c = .destroy s := by simpa using hs
      subst this; simp [body]
    · have e1 : (start P g t c).code t' = g.code t' := by simp [start, e]
      have e3 : (start P g t c).cur t' = g.cur t' := by simp [start, e]
      rw [e3] at hs; rw [e1]; exact h.rem t' s hs
  · intro s hs
    have := h.fr s hs
    omega

theorem inv_ret {P : Par} {g : St} (h : Inv P g) {t : Nat} (hk : g.code t = []) : Inv P (finish g t) := by
  have hcur : ∀ t' x, (finish g t).cur t' = some x → g.cur t' = some x ∧ t' ≠ t := by
    intro t' x hx
    by_cases e : t' = t
    · subst e; simp [finish] at hx
    · exact ⟨by simpa [finish, e] using hx, e⟩
  have hnm : ∀ t' s, names ((finish g t).cur t') s → names (g.cur t') s ∧ t' ≠ t := by
    intro t' s hx
    by_cases e : t' = t
    · subst e; simp [finish, names] at hx
    · exact ⟨by simpa [finish, e] using hx, e⟩
  constructor
  · exact h.wf
  · exact h.excl
  · exact h.ndh
  · intro t'
    by_cases e : t' = t
    · subst e
      have : (finish g t').code t' = [] := hk
      rw [this]; trivial
    · have : (finish g t).cur t' = g.cur t' := by simp [finish, e]
      rw [this]; exact h.good t'
  · intro t' ht
    by_cases e : t' = t
    · subst e; exact hk
    · have : (finish g t).cur t' = g.cur t' := by simp [finish, e]
      rw [this] at ht; exact h.idle t' ht
  · exact h.ndl
  · exact h.lst
  · intro t' s hs; exact h.nam t' s (hnm t' s hs).1
  · intro s hs
    have hs' : g.known s = true ∨ g.cur t = some (.create s) := by simpa [finish] using hs
    rcases hs' with hs' | hs'
    · obtain ⟨k1, k2, k3⟩ := h.kn s hs'
      exact ⟨k1, k2, fun t' => ⟨fun e => (k3 t').1 (hcur _ _ e).1, fun e => (k3 t').2 (hcur _ _ e).1⟩⟩
    · have hn : names (g.cur t) s := by rw [hs']; rfl
      refine ⟨h.nam t s hn, ?_, fun t' => ⟨fun e => ?_, fun e => ?_⟩⟩
      · show g.freed s = false
        by_contra hf
        have := (h.dead t s hn (by simpa using hf)).1
        rw [hs'] at this; simp at this
      · obtain ⟨e1, e2⟩ := hcur _ _ e
        exact e2 (h.uniq t t' s (.inl hs') (by rw [e1]; rfl))
      · obtain ⟨e1, e2⟩ := hcur _ _ e
        exact e2 (h.uniq t t' s (.inl hs') (by rw [e1]; rfl))
  · intro t' s hs hf
    obtain ⟨n1, n2⟩ := hnm t' s hs
    have : (finish g t).cur t' = g.cur t' := by simp [finish, n2]
    rw [this]; exact h.dead t' s n1 hf
  · intro t1 t2 s h1 h2
    refine h.uniq t1 t2 s ?_ (hnm _ _ h2).1
    rcases h1 with h1 | h1
    · exact .inl (hcur _ _ h1).1
    · exact .inr (hcur _ _ h1).1
  · intro t' s hs ha; exact h.unpub t' s (hcur _ _ hs).1 ha
  · intro t' s hs; exact h.rem t' s (hcur _ _ hs).1
  · exact h.fr

/-- only walks and their start continue with accesses to space objects -/
theorem cont_target {P : Par} {g : St} {a : Act} {c : List Act} (hc : c ∈ cont P g a) {x : Act} (hx : x ∈ c) {s : Nat}
    (hs : target x = some s) : (∃ w, a = .first w) ∨ ∃ w cur, a = .walk w cur := by
  rcases a with l | l | o | ⟨s, f⟩ | ⟨s, v⟩ | ⟨s, i⟩ | s | s | s | s | w | ⟨w, cur⟩ | _ | _
  case walk => exact .inr ⟨w, cur, rfl⟩
  case first => exact .inl ⟨w, rfl⟩
  case poll =>
    simp only [cont, List.mem_cons, List.not_mem_nil, or_false] at hc
    rcases hc with rfl | rfl | rfl | rfl | rfl | rfl | rfl <;> simp [handler] at hx <;> (try casesm* _ ∨ _) <;>
      subst_vars <;> simp [target] at hs
  case wait =>
    simp only [cont, List.mem_cons, List.not_mem_nil, or_false] at hc
    rcases hc with rfl | rfl
    · simp at hx
    · simp only [progress, List.mem_append, List.mem_singleton] at hx
      rcases hx with hx | rfl
      · split at hx
        · simp at hx
        · simp only [List.mem_cons, List.not_mem_nil, or_false] at hx
          rcases hx with rfl | rfl | rfl | rfl <;> simp [target] at hs
      · simp [target] at hs
  all_goals
    simp only [cont, List.mem_singleton] at hc
    subst hc
    simp at hx

theorem wf_walk {p : Bool} {H : List Lk} {a : Act} {k : List Act} (h : Wf p H (a :: k))
    (ha : (∃ w, a = .first w) ∨ ∃ w cur, a = .walk w cur) : Lk.spaces ∈ H := by
  rcases ha with ⟨w, rfl⟩ | ⟨w, cur, rfl⟩
  · obtain ⟨⟨H', rfl⟩, -⟩ := h; simp
  · obtain ⟨⟨H', rfl⟩, -⟩ := h; simp

/-- accesses that change neither mutexes, nor the list, nor free an object -/
theorem inv_neutral {P : Par} {g g' : St} (h : Inv P g) {t : Nat} {a : Act} {k c : List Act} (hk : g.code t = a :: k)
    (hc : c ∈ cont P g a) (e1 : g'.held = g.held) (e2 : g'.list = g.list) (e3 : g'.next = g.next)
    (e4 : g'.freed = g.freed) (e5 : g'.cur = g.cur) (e6 : g'.known = g.known)
    (e7 : g'.code = Function.update g.code t (c ++ k)) (hne : a ≠ .exit .spaces)
    (hwf : Wf (P.async && decide (t = 0)) (g.held t) (c ++ k)) (hr : ∀ s, a ≠ .remove s) : Inv P g' := by
  have hW := h.wf t
  have hG := h.good t
  rw [hk] at hW hG
  obtain ⟨hG1, hG2, hG3⟩ := hG
  have hw : ∀ w s, a = .walk w (some s) → s ∈ g.list := by
    rintro w s rfl; exact hG2.2
  have hp := cont_plain hc hw
  have hoth : ∀ t', t' ≠ t → g'.code t' = g.code t' := by
    intro t' e; rw [e7]; simp [e]
  have hme : g'.code t = c ++ k := by rw [e7]; simp
  have hap : ∀ s, .append s ∈ c ++ k → .append s ∈ k := by
    intro s hs
    rcases List.mem_append.1 hs with hs | hs
    · exact ((hp _ hs).1).elim
    · exact hs
  have hb : (decide (.spaces ∈ g.held t) && decide (a ≠ .exit .spaces)) = decide (.spaces ∈ g.held t) := by
    simp [hne]
  constructor
  · intro t'
    rw [e1]
    by_cases e : t' = t
    · subst e; rw [hme]; exact hwf
    · rw [hoth t' e]; exact h.wf t'
  · rw [e1]; exact h.excl
  · rw [e1]; exact h.ndh
  · intro t'
    rw [e1, e2, e5]
    by_cases e : t' = t
    · subst e
      rw [hme]
      rw [hb] at hG3
      refine good_app (fun x hx => ⟨(hp x hx).1, fun s hs => ⟨?_, (hp x hx).2.1 s hs⟩⟩) ?_ hG3
      · simpa using wf_walk hW (cont_target hc hx hs)
      · intro hsp hx
        have := (hp _ hx).2.2 rfl
        subst this
        obtain ⟨h1, -⟩ := hW
        have hsp : Lk.spaces ∈ g.held t' := by simpa using hsp
        rcases h1 with ⟨-, h1⟩ | h1 <;> rw [h1] at hsp <;> simp at hsp
    · rw [hoth t' e]; exact h.good t'
  · intro t' ht
    rw [e5] at ht
    by_cases e : t' = t
    · subst e
      have := h.idle t' ht
      rw [hk] at this; simp at this
    · rw [hoth t' e]; exact h.idle t' ht
  · rw [e2]; exact h.ndl
  · rw [e2, e3, e4]; exact h.lst
  · rw [e3, e5]; exact h.nam
  · rw [e6, e3, e4, e5]; exact h.kn
  · intro t' s hs hf
    rw [e5] at hs ⊢; rw [e4] at hf
    obtain ⟨d1, d2⟩ := h.dead t' s hs hf
    refine ⟨d1, ?_⟩
    by_cases e : t' = t
    · subst e
      rw [hme]
      intro x hx hx'
      rcases List.mem_append.1 hx with hx | hx
      · have := (h.lst s ((hp x hx).2.1 s hx')).2
        rw [this] at hf; simp at hf
      · exact d2 x (by rw [hk]; simp [hx]) hx'
    · rw [hoth t' e]; exact d2
  · rw [e5]; exact h.uniq
  · intro t' s hs ha
    rw [e5] at hs; rw [e2]
    by_cases e : t' = t
    · subst e
      rw [hme] at ha
      exact h.unpub t' s hs (by rw [hk]; exact List.mem_cons_of_mem _ (hap s ha))
    · rw [hoth t' e] at ha; exact h.unpub t' s hs ha
  · intro t' s hs
    rw [e5] at hs; rw [e2]
    refine (h.rem t' s hs).imp ?_ id
    intro hm
    by_cases e : t' = t
    · subst e
      rw [hme]; rw [hk] at hm
      rcases List.mem_cons.1 hm with hm | hm
      · exact (hr s hm.symm).elim
      · simp [hm]
    · rw [hoth t' e]; exact hm
  · rw [e3, e4]; exact h.fr

/-- the parts of the invariant that survive when a thread drops its first access -/
theorem inv_tail {P : Par} {g g' : St} (h : Inv P g) {t : Nat} {a : Act} {k : List Act} (hk : g.code t = a :: k)
    (e3 : g'.next = g.next) (e5 : g'.cur = g.cur) (e6 : g'.known = g.known) (e7 : g'.code = Function.update g.code t k)
    (wf : ∀ t', Wf (P.async && decide (t' = 0)) (g'.held t') (g'.code t'))
    (excl : ∀ t t' l, l ∈ g'.held t → l ∈ g'.held t' → t = t')
    (ndh : ∀ t, (g'.held t).Nodup)
    (good : ∀ t, Good g'.list (g'.cur t) (decide (.spaces ∈ g'.held t)) (g'.code t))
    (ndl : g'.list.Nodup)
    (lst : ∀ s ∈ g'.list, s < g'.next ∧ g'.freed s = false)
    (fre : ∀ s, g'.freed s = true → g.freed s = true ∨ a = .free s)
    (unpub : ∀ s, s ∈ g'.list → s ∈ g.list ∨ a = .append s)
    (rem : ∀ s, a = .remove s → s ∉ g'.list) : Inv P g' := by
  have hG := h.good t
  rw [hk] at hG
  obtain ⟨hG1, hG2, hG3⟩ := hG
  have hoth : ∀ t', t' ≠ t → g'.code t' = g.code t' := by
    intro t' e; rw [e7]; simp [e]
  have hme : g'.code t = k := by rw [e7]; simp
  have hsub : ∀ t' x, x ∈ g'.code t' → x ∈ g.code t' := by
    intro t' x hx
    by_cases e : t' = t
    · subst e; rw [hme] at hx; rw [hk]; exact List.mem_cons_of_mem _ hx
    · rwa [hoth t' e] at hx
  have hfree : ∀ s, a = .free s → g.cur t = some (.destroy s) ∧ ∀ x ∈ k, target x ≠ some s := by
    rintro s rfl; exact hG2
  refine ⟨wf, excl, ndh, good, ?_, ndl, lst, ?_, ?_, ?_, ?_, ?_, ?_, ?_⟩
  · intro t' ht
    rw [e5] at ht
    by_cases e : t' = t
    · subst e
      have := h.idle t' ht
      rw [hk] at this; simp at this
    · rw [hoth t' e]; exact h.idle t' ht
  · rw [e3, e5]; exact h.nam
  · rw [e6, e3, e5]
    intro s hs
    obtain ⟨k1, k2, k3⟩ := h.kn s hs
    refine ⟨k1, ?_, k3⟩
    by_contra hf
    rcases fre s (by simpa using hf) with hf | hf
    · rw [k2] at hf; simp at hf
    · exact (k3 t).2 (hfree s hf).1
  · intro t' s hs hf
    rw [e5] at hs ⊢
    rcases fre s hf with hf | hf
    · obtain ⟨d1, d2⟩ := h.dead t' s hs hf
      exact ⟨d1, fun x hx => d2 x (hsub t' x hx)⟩
    · obtain ⟨f1, f2⟩ := hfree s hf
      have := h.uniq t t' s (.inr f1) hs
      subst this
      rw [hme]; exact ⟨f1, f2⟩
  · rw [e5]; exact h.uniq
  · intro t' s hs ha hm
    rw [e5] at hs
    rcases unpub s hm with hm | hm
    · exact h.unpub t' s hs (hsub _ _ ha) hm
    · subst hm
      have := h.uniq t t' s (.inl hG2.1) (by rw [hs]; rfl)
      subst this
      rw [hme] at ha
      exact hG2.2 ha
  · intro t' s hs
    rw [e5] at hs
    by_cases hr : a = .remove s
    · exact .inr (rem s hr)
    rcases h.rem t' s hs with hm | hm
    · left
      by_cases e : t' = t
      · subst e
        rw [hme]; rw [hk] at hm
        rcases List.mem_cons.1 hm with hm | hm
        · exact (hr hm.symm).elim
        · exact hm
      · rw [hoth t' e]; exact hm
    · right
      intro hm'
      rcases unpub s hm' with hm' | hm'
      · exact hm hm'
      · subst hm'
        have hcr : g.cur t = some (.create s) := hG2.1
        have := h.uniq t t' s (.inl hcr) (by rw [hs]; rfl)
        subst this
        rw [hcr] at hs; simp at hs
  · intro s hs
    rw [e3]
    rcases fre s hs with hf | hf
    · exact h.fr s hf
    · exact h.nam t s (by rw [(hfree s hf).1]; rfl)

theorem inv_exec {P : Par} {g g' : St} (h : Inv P g) {t : Nat} {a : Act} (he : Exec P g t a g') : Inv P g' := by
  obtain ⟨k, c, hk, hrd, hc, rfl⟩ := he
  have hW := h.wf t
  have hG := h.good t
  rw [hk] at hW hG
  have hwf := cont_wf hc hW
  have hoth : ∀ (c : List Act) t', t' ≠ t → Function.update g.code t c t' = g.code t' := by
    intro c t' e; simp [e]
  rcases a with l | l | o | ⟨s, f⟩ | ⟨s, v⟩ | ⟨s, i⟩ | s | s | s | s | w | ⟨w, cur⟩ | _ | _
  case enter =>
    simp only [cont, List.mem_singleton] at hc
    subst hc
    have hrd : ∀ t, l ∉ g.held t := hrd
    refine inv_tail h hk rfl rfl rfl rfl ?_ ?_ ?_ ?_ h.ndl h.lst (fun s hs => .inl hs) (fun s hs => .inl hs) (by simp)
    · intro t'
      by_cases e : t' = t
      · subst e; simpa [eff] using hwf
      · simpa [eff, e] using h.wf t'
    · intro t1 t2 l' h1 h2
      by_cases d1 : t1 = t <;> by_cases d2 : t2 = t
      · rw [d1, d2]
      · subst d1
        simp only [eff, Function.update_self, Function.update_of_ne d2] at h1 h2
        rcases List.mem_cons.1 h1 with rfl | h1
        · exact (hrd _ h2).elim
        · exact h.excl _ _ _ h1 h2
      · subst d2
        simp only [eff, Function.update_self, Function.update_of_ne d1] at h1 h2
        rcases List.mem_cons.1 h2 with rfl | h2
        · exact (hrd _ h1).elim
        · exact h.excl _ _ _ h1 h2
      · simp only [eff, Function.update_of_ne d1, Function.update_of_ne d2] at h1 h2
        exact h.excl _ _ _ h1 h2
    · intro t'
      by_cases e : t' = t
      · subst e
        simp only [eff, Function.update_self]
        exact List.nodup_cons.2 ⟨hrd t', h.ndh t'⟩
      · simpa [eff, e] using h.ndh t'
    · intro t'
      by_cases e : t' = t
      · subst e
        simp only [eff, Function.update_self, List.nil_append]
        obtain ⟨-, -, hG3⟩ := hG
        by_cases hl : l = .spaces
        · subst hl
          have : decide (Lk.spaces ∈ g.held t') = false := by simpa using hrd t'
          rw [this] at hG3
          exact good_mono hG3
        · have : decide (Lk.spaces ∈ l :: g.held t') = decide (Lk.spaces ∈ g.held t') := by
            simp [Ne.symm hl]
          rw [this]
          simpa using hG3
      · simpa [eff, e] using h.good t'
  case exit =>
    simp only [cont, List.mem_singleton] at hc
    subst hc
    obtain ⟨H', hH, hW'⟩ := hW
    have her : (g.held t).erase l = H' := by rw [hH]; simp
    have hnd := h.ndh t
    rw [hH] at hnd
    have hnl := (List.nodup_cons.1 hnd).1
    refine inv_tail h hk rfl rfl rfl rfl ?_ ?_ ?_ ?_ h.ndl h.lst (fun s hs => .inl hs) (fun s hs => .inl hs) (by simp)
    · intro t'
      by_cases e : t' = t
      · subst e; simpa [eff, her] using hW'
      · simpa [eff, e] using h.wf t'
    · have hsub : ∀ t' l', l' ∈ Function.update g.held t ((g.held t).erase l) t' → l' ∈ g.held t' := by
        intro t' l' hl'
        by_cases e : t' = t
        · subst e; rw [Function.update_self] at hl'; exact List.mem_of_mem_erase hl'
        · rwa [Function.update_of_ne e] at hl'
      intro t1 t2 l' h1 h2
      exact h.excl _ _ _ (hsub _ _ h1) (hsub _ _ h2)
    · intro t'
      by_cases e : t' = t
      · subst e
        simp only [eff, Function.update_self, her]
        exact (List.nodup_cons.1 hnd).2
      · simpa [eff, e] using h.ndh t'
    · intro t'
      by_cases e : t' = t
      · subst e
        simp only [eff, Function.update_self, List.nil_append, her]
        obtain ⟨-, -, hG3⟩ := hG
        rw [hH] at hG3
        by_cases hl : l = .spaces
        · subst hl
          have : decide (Lk.spaces ∈ H') = false := by simpa using hnl
          rw [this]
          simpa using hG3
        · have e1 : decide (Lk.spaces ∈ l :: H') = decide (Lk.spaces ∈ H') := by
            simp [Ne.symm hl]
          rw [e1] at hG3
          simpa [hl] using hG3
      · simpa [eff, e] using h.good t'
  case append =>
    simp only [cont, List.mem_singleton] at hc
    subst hc
    obtain ⟨⟨H', hH⟩, ⟨k', rfl⟩, hwf⟩ := hW
    obtain ⟨hG1, hG2, hG3⟩ := hG
    have hnot : s ∉ g.list := h.unpub t s hG2.1 (by rw [hk]; simp)
    refine inv_tail h hk rfl rfl rfl rfl ?_ h.excl h.ndh ?_ ?_ ?_ (fun s hs => .inl hs) ?_ (by simp)
    · intro t'
      by_cases e : t' = t
      · subst e; simpa [eff] using hwf
      · simpa [eff, e] using h.wf t'
    · intro t'
      by_cases e : t' = t
      · subst e
        simp only [eff, Function.update_self, List.nil_append]
        obtain ⟨-, -, hG4⟩ := hG3
        exact ⟨by simp [target], trivial, by simpa using good_list (by simpa using hG4)⟩
      · have hns : decide (Lk.spaces ∈ g.held t') = false := by
          by_contra hx
          exact e (h.excl t' t .spaces (by simpa using hx) (by rw [hH]; simp))
        have := h.good t'
        rw [hns] at this
        show Good (g.list ++ [s]) (g.cur t') (decide (Lk.spaces ∈ g.held t')) (Function.update g.code t _ t')
        rw [Function.update_of_ne e, hns]
        exact good_list this
    · simp only [eff]
      exact List.nodup_append.2 ⟨h.ndl, by simp, by rintro a ha b hb rfl; simp at hb; exact hnot (hb ▸ ha)⟩
    · intro x hx
      simp only [eff, List.mem_append, List.mem_singleton] at hx
      rcases hx with hx | rfl
      · exact h.lst x hx
      · have hn : names (g.cur t) x := by rw [hG2.1]; rfl
        refine ⟨h.nam t x hn, ?_⟩
        show g.freed x = false
        by_contra hf
        have := (h.dead t x hn (by simpa using hf)).1
        rw [hG2.1] at this; simp at this
    · intro x hx
      simp only [eff, List.mem_append, List.mem_singleton] at hx
      rcases hx with hx | rfl
      · exact .inl hx
      · exact .inr rfl
  case remove =>
    simp only [cont, List.mem_singleton] at hc
    subst hc
    obtain ⟨⟨H', hH⟩, ⟨k', rfl⟩, hwf⟩ := hW
    obtain ⟨hG1, hG2, hG3⟩ := hG
    refine inv_tail h hk rfl rfl rfl rfl ?_ h.excl h.ndh ?_ ?_ ?_ (fun s hs => .inl hs) ?_ ?_
    · intro t'
      by_cases e : t' = t
      · subst e; simpa [eff] using hwf
      · simpa [eff, e] using h.wf t'
    · intro t'
      by_cases e : t' = t
      · subst e
        simp only [eff, Function.update_self, List.nil_append]
        obtain ⟨-, -, hG4⟩ := hG3
        exact ⟨by simp [target], trivial, by simpa using good_list (by simpa using hG4)⟩
      · have hns : decide (Lk.spaces ∈ g.held t') = false := by
          by_contra hx
          exact e (h.excl t' t .spaces (by simpa using hx) (by rw [hH]; simp))
        have := h.good t'
        rw [hns] at this
        show Good (g.list.erase s) (g.cur t') (decide (Lk.spaces ∈ g.held t')) (Function.update g.code t _ t')
        rw [Function.update_of_ne e, hns]
        exact good_list this
    · exact h.ndl.erase _
    · intro x hx
      exact h.lst x (List.mem_of_mem_erase hx)
    · intro x hx
      exact .inl (List.mem_of_mem_erase hx)
    · intro x hx
      have hx : s = x := by simpa using hx
      subst hx
      exact h.ndl.not_mem_erase
  case free =>
    simp only [cont, List.mem_singleton] at hc
    subst hc
    obtain ⟨hG1, hG2, hG3⟩ := hG
    have hnl : s ∉ g.list := by
      rcases h.rem t s hG2.1 with hm | hm
      · rw [hk] at hm
        rcases List.mem_cons.1 hm with hm | hm
        · simp at hm
        · exact (hG2.2 _ hm rfl).elim
      · exact hm
    refine inv_tail h hk rfl rfl rfl rfl ?_ h.excl h.ndh ?_ h.ndl ?_ ?_ (fun s hs => .inl hs) (by simp)
    · intro t'
      by_cases e : t' = t
      · subst e; simpa [eff] using hwf
      · simpa [eff, e] using h.wf t'
    · intro t'
      by_cases e : t' = t
      · subst e
        show Good g.list (g.cur t') (decide (Lk.spaces ∈ g.held t')) (Function.update g.code t' ([] ++ k) t')
        rw [Function.update_self]
        simpa using hG3
      · show Good g.list (g.cur t') (decide (Lk.spaces ∈ g.held t')) (Function.update g.code t ([] ++ k) t')
        rw [Function.update_of_ne e]
        exact h.good t'
    · intro x hx
      have := h.lst x hx
      have hne : x ≠ s := by rintro rfl; exact hnl hx
      refine ⟨this.1, ?_⟩
      simpa [eff, hne] using this.2
    · intro x hx
      by_cases e : x = s
      · exact .inr (by rw [e])
      · left; simpa [eff, e] using hx
  all_goals
    exact inv_neutral h hk hc rfl rfl rfl rfl rfl rfl rfl (by simp) hwf (by simp)

theorem inv_step {P : Par} {R : St → Nat → Call → Prop} {g g' : St} (h : Inv P g) (hs : Step P R g g') : Inv P g' := by
  cases hs with
  | call t c h1 h2 h3 => exact inv_call h h1 h2
  | exec t a g' he => exact inv_exec h he
  | ret t h1 h2 => exact inv_ret h h1

theorem inv_reach {P : Par} {R : St → Nat → Call → Prop} {g : St} (h : Reach P R g) : Inv P g := by
  induction h with
  | init => exact inv_init P
  | step g g' _ hs ih => exact inv_step ih hs

end Verif.Cs
