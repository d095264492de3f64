import Verif.Env.Model
import Mathlib.Data.List.Basic
import Mathlib.Data.List.Infix
import Mathlib.Data.Nat.Bitwise
/-!
# Lemmas about comma separated lists
-/
namespace Verif.Env

/-- `t` is an entry of the comma separated list `s`: a non-empty piece without comma, bounded by commas or the ends -/
def IsToken (s t : List Char) : Prop :=
  t ≠ [] ∧ ',' ∉ t ∧ ∃ pre post, s = pre ++ t ++ post ∧ (pre = [] ∨ ∃ p, pre = p ++ [',']) ∧
    (post = [] ∨ ∃ p, post = ',' :: p)

theorem comma_split {a b c d : List Char} (ha : ',' ∉ a) (hc : ',' ∉ c) (h : a ++ ',' :: b = c ++ ',' :: d) :
    a = c ∧ b = d := by
  rw [List.append_eq_append_iff] at h
  rcases h with ⟨x, h1, h2⟩ | ⟨x, h1, h2⟩
  · cases x with
    | nil => simp at h1 h2; exact ⟨h1.symm, h2⟩
    | cons y ys =>
      simp only [List.cons_append, List.cons.injEq] at h2
      exfalso; apply hc; rw [h1, ← h2.1]; simp
  · cases x with
    | nil => simp at h1 h2; exact ⟨h1, h2.symm⟩
    | cons y ys =>
      simp only [List.cons_append, List.cons.injEq] at h2
      exfalso; apply ha; rw [h1, ← h2.1]; simp

theorem isToken_free {s t : List Char} (hs : ',' ∉ s) : IsToken s t ↔ s ≠ [] ∧ t = s := by
  constructor
  · rintro ⟨h1, h2, pre, post, e, hp, hq⟩
    have hpre : pre = [] := by
      rcases hp with h | ⟨p, rfl⟩
      · exact h
      · exfalso; apply hs; rw [e]; simp
    have hpost : post = [] := by
      rcases hq with h | ⟨p, rfl⟩
      · exact h
      · exfalso; apply hs; rw [e]; simp
    subst hpre; subst hpost
    simp at e
    subst e
    exact ⟨h1, rfl⟩
  · rintro ⟨h1, rfl⟩
    exact ⟨h1, hs, [], [], by simp, Or.inl rfl, Or.inl rfl⟩

theorem isToken_comma {a s t : List Char} (ha : ',' ∉ a) :
    IsToken (a ++ ',' :: s) t ↔ (a ≠ [] ∧ t = a) ∨ IsToken s t := by
  constructor
  · rintro ⟨h1, h2, pre, post, e, hp, hq⟩
    rcases hp with rfl | ⟨p, rfl⟩
    · rcases hq with rfl | ⟨q, rfl⟩
      · exfalso; apply h2; simp at e; rw [← e]; simp
      · simp only [List.nil_append] at e
        have := comma_split ha h2 e
        left; exact ⟨by rw [this.1]; exact h1, this.1.symm⟩
    · right
      have e' : a ++ ',' :: s = p ++ ',' :: (t ++ post) := by rw [e]; simp
      rw [List.append_eq_append_iff] at e'
      rcases e' with ⟨x, g1, g2⟩ | ⟨x, g1, g2⟩
      · cases x with
        | nil =>
          simp at g2
          exact ⟨h1, h2, [], post, by simp [g2], Or.inl rfl, hq⟩
        | cons y ys =>
          simp only [List.cons_append, List.cons.injEq] at g2
          refine ⟨h1, h2, ys ++ [','], post, by rw [g2.2]; simp, Or.inr ⟨ys, rfl⟩, hq⟩
      · cases x with
        | nil =>
          simp at g2
          exact ⟨h1, h2, [], post, by simp [g2], Or.inl rfl, hq⟩
        | cons y ys =>
          simp only [List.cons_append, List.cons.injEq] at g2
          exfalso; apply ha; rw [g1, ← g2.1]; simp
  · rintro (⟨h1, rfl⟩ | ⟨h1, h2, pre, post, e, hp, hq⟩)
    · exact ⟨h1, ha, [], ',' :: s, by simp, Or.inl rfl, Or.inr ⟨s, rfl⟩⟩
    · refine ⟨h1, h2, a ++ ',' :: pre, post, by rw [e]; simp, Or.inr ?_, hq⟩
      rcases hp with rfl | ⟨p, rfl⟩
      · exact ⟨a, rfl⟩
      · exact ⟨a ++ ',' :: p, by simp⟩

theorem mem_tokGo (s : List Char) : ∀ acc, ',' ∉ acc → ∀ t, t ∈ tokGo acc s ↔ IsToken (acc ++ s) t := by
  induction s with
  | nil =>
    intro acc ha t
    rw [List.append_nil, isToken_free ha]
    unfold tokGo
    split
    · rename_i h; simp [h]
    · rename_i h; simp [h]
  | cons c cs ih =>
    intro acc ha t
    unfold tokGo
    by_cases hc : c = ','
    · subst hc
      rw [if_pos rfl, isToken_comma ha]
      split
      · rename_i h
        rw [ih [] (by simp)]
        simp [h]
      · rename_i h
        rw [List.mem_cons, ih [] (by simp)]
        simp [h]
    · rw [if_neg hc, ih (acc ++ [c]) (by simp [ha]; exact fun h => hc h.symm)]
      rw [List.append_assoc]; rfl

theorem mem_tokens (s t : List Char) : t ∈ tokens s ↔ IsToken s t := mem_tokGo s [] (by simp) t

/-- no name is a prefix of another, none is empty or contains a comma -/
def GoodTbl (tbl : List (List Char × Nat)) : Prop :=
  tbl.Pairwise (fun a b => ¬ a.1 <+: b.1 ∧ ¬ b.1 <+: a.1) ∧ ∀ e ∈ tbl, e.1 ≠ [] ∧ ',' ∉ e.1

theorem firstMatch_mem {tbl : List (List Char × Nat)} {tok : List Char} {b : Nat} (h : firstMatch tbl tok = some b) :
    ∃ e ∈ tbl, e.2 = b ∧ e.1 <+: tok := by
  induction tbl with
  | nil => cases h
  | cons e tbl ih =>
    obtain ⟨name, bit⟩ := e
    unfold firstMatch at h
    split at h
    · rename_i hs
      cases h
      exact ⟨(name, b), by simp, rfl, by simpa [startsWith] using hs⟩
    · obtain ⟨e, he, h1, h2⟩ := ih h
      exact ⟨e, List.mem_cons_of_mem _ he, h1, h2⟩

theorem firstMatch_of_prefix {tbl : List (List Char × Nat)} (hg : GoodTbl tbl) {e : List Char × Nat} (he : e ∈ tbl)
    {tok : List Char} (h : e.1 <+: tok) : firstMatch tbl tok = some e.2 := by
  induction tbl with
  | nil => cases he
  | cons x tbl ih =>
    obtain ⟨name, bit⟩ := x
    obtain ⟨hp, ha⟩ := hg
    rw [List.pairwise_cons] at hp
    unfold firstMatch
    rcases List.mem_cons.1 he with rfl | hm
    · rw [if_pos (by simpa [startsWith] using h)]
    · rw [if_neg, ih ⟨hp.2, fun e he => ha e (List.mem_cons_of_mem _ he)⟩ hm]
      intro hs
      have hs : name <+: tok := by simpa [startsWith] using hs
      rcases List.prefix_or_prefix_of_prefix hs h with g | g
      · exact (hp.1 e hm).1 g
      · exact (hp.1 e hm).2 g

theorem testBit_orBits (tbl : List (List Char × Nat)) (ts : List (List Char)) (i : Nat) :
    ∀ ops, (orBits tbl ts ops).testBit i = true ↔ ops.testBit i = true ∨ ∃ t ∈ ts, firstMatch tbl t = some i := by
  induction ts with
  | nil => intro ops; simp [orBits]
  | cons t ts ih =>
    intro ops
    unfold orBits
    rw [ih]
    cases hm : firstMatch tbl t with
    | none => simp [hm]
    | some b =>
      simp only [Nat.testBit_or, Nat.testBit_two_pow, Bool.or_eq_true, decide_eq_true_eq, List.mem_cons,
        exists_eq_or_imp, hm, Option.some.injEq]
      tauto

theorem orBits_zero_iff (tbl : List (List Char × Nat)) (ts : List (List Char)) :
    orBits tbl ts 0 = 0 ↔ ∀ t ∈ ts, firstMatch tbl t = none := by
  constructor
  · intro h t ht
    cases hm : firstMatch tbl t with
    | none => rfl
    | some b =>
      have := (testBit_orBits tbl ts b 0).2 (Or.inr ⟨t, ht, hm⟩)
      rw [h] at this; simp at this
  · intro h
    apply Nat.eq_of_testBit_eq
    intro i
    rw [Nat.zero_testBit]
    by_contra hc
    rw [Bool.not_eq_false] at hc
    rcases (testBit_orBits tbl ts i 0).1 hc with h' | ⟨t, ht, e⟩
    · simp at h'
    · rw [h t ht] at e; cases e

/-- printing is the comma separated list of the names of the set bits -/
def joinGo : List (List Char) → List Char → List Char
  | [], buf => buf
  | n :: ns, buf => joinGo ns (buf ++ (if buf.length > 0 then [','] else []) ++ n)

theorem printGo_eq (val : Nat) (tbl : List (List Char × Nat)) :
    ∀ buf, printGo val tbl buf = joinGo ((tbl.filter (fun e => val.testBit e.2)).map (·.1)) buf := by
  induction tbl with
  | nil => intro buf; rfl
  | cons e tbl ih =>
    intro buf
    obtain ⟨name, bit⟩ := e
    unfold printGo
    rw [ih]
    by_cases h : val.testBit bit = true
    · simp [h, joinGo]
    · simp [h]

theorem isToken_joinGo (ns : List (List Char)) (hg : ∀ n ∈ ns, n ≠ [] ∧ ',' ∉ n) :
    ∀ buf, ∀ t, IsToken (joinGo ns buf) t ↔ IsToken buf t ∨ t ∈ ns := by
  induction ns with
  | nil => intro buf t; simp [joinGo]
  | cons n ns ih =>
    intro buf t
    have hn := hg n (by simp)
    unfold joinGo
    rw [ih (fun m hm => hg m (List.mem_cons_of_mem _ hm))]
    have key : IsToken (buf ++ (if buf.length > 0 then [','] else []) ++ n) t ↔ IsToken buf t ∨ t = n := by
      by_cases hb : buf.length > 0
      · rw [if_pos hb, List.append_assoc]
        -- the last comma separates `buf` and `n`
        have aux : ∀ b : List Char, b.length > 0 ∨ True → (IsToken (b ++ ([','] ++ n)) t ↔ IsToken b t ∨ t = n) := by
          intro b _
          have : ∀ (k : Nat) (b : List Char), b.length ≤ k → (IsToken (b ++ ([','] ++ n)) t ↔ IsToken b t ∨ t = n) := by
            intro k
            induction k with
            | zero =>
              intro b hb
              have : b = [] := by cases b with
                | nil => rfl
                | cons x xs => simp at hb
              subst this
              have h1 := isToken_comma (a := []) (s := n) (t := t) (by simp)
              simp only [List.nil_append] at h1
              simp only [List.nil_append, List.singleton_append, h1, isToken_free hn.2]
              have h2 : ¬ IsToken [] t := by
                rw [isToken_free (by simp)]; simp
              simp [h2, hn.1]
            | succ k ih =>
              intro b hb
              by_cases hc : ',' ∈ b
              · obtain ⟨x, y, rfl, hx⟩ := List.eq_append_cons_of_mem hc
                have hy : y.length ≤ k := by simp at hb; omega
                rw [List.append_assoc, List.cons_append, isToken_comma hx, isToken_comma hx, ih y hy]
                tauto
              · rw [List.singleton_append, isToken_comma hc, isToken_free hn.2, isToken_free hc]
                have : n ≠ [] := hn.1
                tauto
          exact this b.length b (Nat.le_refl _)
        exact aux buf (Or.inr trivial)
      · rw [if_neg hb]
        have : buf = [] := by cases buf with
          | nil => rfl
          | cons x xs => simp at hb
        subst this
        have h2 : ¬ IsToken [] t := by
          rw [isToken_free (by simp)]; simp
        simp only [List.nil_append, isToken_free hn.2]
        have : n ≠ [] := hn.1
        simp [h2, this]
    rw [key, List.mem_cons]
    tauto

/-- print then split: exactly the names of the set bits -/
theorem mem_tokens_print {tbl : List (List Char × Nat)} (hg : GoodTbl tbl) (val : Nat) (t : List Char) :
    t ∈ tokens (printGo val tbl []) ↔ ∃ e ∈ tbl, val.testBit e.2 = true ∧ t = e.1 := by
  rw [mem_tokens, printGo_eq, isToken_joinGo]
  · have h0 : ¬ IsToken [] t := by
      rw [isToken_free (by simp)]; simp
    simp only [h0, false_or, List.mem_map, List.mem_filter]
    constructor
    · rintro ⟨e, ⟨h1, h3⟩, he⟩; exact ⟨e, h1, h3, he.symm⟩
    · rintro ⟨e, h1, h3, he⟩; exact ⟨e, ⟨h1, h3⟩, he.symm⟩
  · intro n hn
    rw [List.mem_map] at hn
    obtain ⟨e, he, rfl⟩ := hn
    exact hg.2 e (List.mem_of_mem_filter he)

/-- the text starts with the first name printed -/
theorem joinGo_prefix (ns : List (List Char)) : ∀ buf, buf <+: joinGo ns buf := by
  induction ns with
  | nil => intro buf; exact List.prefix_refl _
  | cons n ns ih =>
    intro buf
    unfold joinGo
    exact List.IsPrefix.trans ⟨_, by rw [List.append_assoc]⟩ (ih _)

theorem orBits_print {tbl : List (List Char × Nat)} (hg : GoodTbl tbl) (val i : Nat) :
    (orBits tbl (tokens (printGo val tbl [])) 0).testBit i = true ↔ ∃ e ∈ tbl, val.testBit e.2 = true ∧ e.2 = i := by
  rw [testBit_orBits]
  simp only [Nat.zero_testBit, Bool.false_eq_true, false_or]
  constructor
  · rintro ⟨t, ht, hm⟩
    rw [mem_tokens_print hg] at ht
    obtain ⟨e, he, hv, rfl⟩ := ht
    have := firstMatch_of_prefix hg he (List.prefix_refl e.1)
    rw [this] at hm
    cases hm
    exact ⟨e, he, hv, rfl⟩
  · rintro ⟨e, he, hv, rfl⟩
    exact ⟨e.1, (mem_tokens_print hg val e.1).2 ⟨e, he, hv, rfl⟩, firstMatch_of_prefix hg he (List.prefix_refl e.1)⟩

/-- the printed text is empty or starts with a name of the table -/
theorem printGo_head (tbl : List (List Char × Nat)) (val : Nat) :
    printGo val tbl [] = [] ∨ ∃ e ∈ tbl, e.1 <+: printGo val tbl [] := by
  rw [printGo_eq]
  cases hl : (tbl.filter (fun e => val.testBit e.2)).map (·.1) with
  | nil => left; rfl
  | cons n ns =>
    right
    have : n ∈ (tbl.filter (fun e => val.testBit e.2)).map (·.1) := by rw [hl]; simp
    rw [List.mem_map] at this
    obtain ⟨e, he, rfl⟩ := this
    refine ⟨e, List.mem_of_mem_filter he, ?_⟩
    unfold joinGo
    simpa using joinGo_prefix ns e.1

end Verif.Env
