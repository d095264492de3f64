import Verif.Lnk.Free
/-!
# Taking chunks, with links
-/
namespace Verif.Lnk
open Heap (Chunk Use Heap total total_append NotBoth need minChunk maxRequest need_ge need_dvd)
open Dl (Tree Bins BInv fmap Pos isSmall carveF bit2idx leastBit leftBits idx2bit splitDv splitBin treeIndex keyBits sub64 InTree Cand)
open Tag (Mem CS ld st ld_congr st_of_ne chunksize cinuse pinuse inuseBits prevFoot head setFree setSizePinuse setInusePinuse takeMem pick pickRest Pick
  InBins Scratch At Siz Lay OK setFree_ne setSizePinuse_ne setInusePinuse_ne)

section
variable {base : Nat} {F : Nat → Option Nat} {D D' : Nat → Prop} {L : State} {t : CS} {h : Heap} {G : Mem}

theorem view_takeMem (m : Mem) (p s nb : Nat) : view base (takeMem m (first base + p) s nb) = takeMem (view base m) p s nb := by
  unfold takeMem
  split
  · exact view_setInusePinuse _ _ _
  · rw [Nat.add_assoc, view_setFree, view_setSizePinuse]

theorem takeMem_ne {m : Mem} {p s nb x : Nat} (hle : nb ≤ s) (h : x < p + 8 ∨ p + s + 16 ≤ x) : takeMem m p s nb x = m x := by
  unfold takeMem
  split
  · exact setInusePinuse_ne (by omega) (by omega)
  · rename_i hm
    unfold minChunk at hm
    rw [setFree_ne (by omega) (by omega), setSizePinuse_ne (by omega)]

/-- with the memory that is there instead of the one of `t` -/
theorem Sim.exact (k : Sim base G D L t) : Sim base G (fun _ => False) L { t with mem := view base L.mem } :=
  ⟨k.smallmap, k.treemap, k.dv, k.dvsize, k.top, k.topsize, k.low, k.links, fun _ _ => rfl⟩

/-- `unlink_first_small_chunk` -/
theorem unlinkFirst_sim {p i : Nat} {tl : List Nat} (v : BInv F t.bins) (hs : Sep base F) (k : Sim base G D L t) (hp : t.bins.small i = p :: tl)
    (hd2 : ∀ q s', F q = some s' → t.bins.dv ≠ some q → ∀ x, q + 16 ≤ x → x < q + s' → D x) :
    fd L.mem (sbin base i) = first base + p ∧
    ∃ L', unlinkFirst base L (first base + p) i = some L' ∧ Sim base G D L' { t with bins := t.bins.unlinkSmall p (8 * i) } := by
  have hm : p ∈ t.bins.small i := by rw [hp]; simp
  obtain ⟨h1, h2, h3, h4⟩ := BInv.of_small v hm
  obtain ⟨m', e1, e2, e3, e4⟩ := unlinkSmall_links v hs k.links k.smallmap hm
  refine ⟨?_, _, e4 (by rw [hp]; rfl), rfl, k.treemap, k.dv, k.dvsize, k.top, k.topsize, fun y hy => (e3 y (.inl hy) (fun q _ _ _ => .inl (by unfold first; omega))).trans (k.low y hy), e2, ?_⟩
  · have := k.links.small i h2 (by rw [hp]; simp)
    rw [hp] at this
    exact this.1
  · intro x hx
    rw [← k.mem x hx]
    refine e3 (first base + x) (.inr (by omega)) (fun q s' h1 h2 => ?_)
    by_contra hc
    exact hx (hd2 q s' h1 h2 x (by omega) (by omega))

/-- `unlink_large_chunk` -/
theorem unlinkLarge_sim {p s : Nat} (v : BInv F t.bins) (hs : Sep base F) (k : Sim base G D L t) (hp : InTree F t.bins p s)
    (hd2 : ∀ q s', F q = some s' → t.bins.dv ≠ some q → ∀ x, q + 16 ≤ x → x < q + s' → D x) :
    ∃ L', unlinkLarge base L (first base + p) = some L' ∧ Sim base G D L' { t with bins := t.bins.unlinkLarge p s } := by
  obtain ⟨h1, h2, h3⟩ := hp
  obtain ⟨m', e1, e2, e3⟩ := unlinkLarge_links v hs k.links k.treemap (p := p) (s := s) ((v.tree_mem _ _ _).2 ⟨h1, h2, rfl, h3⟩)
  refine ⟨_, e1, k.smallmap, rfl, k.dv, k.dvsize, k.top, k.topsize, fun y hy => (e3 y (.inl hy) (fun q _ _ _ => .inl (by unfold first; omega))).trans (k.low y hy), e2, ?_⟩
  intro x hx
  rw [← k.mem x hx]
  refine e3 (first base + x) (.inr (by omega)) (fun q s' h1 h2 => ?_)
  by_contra hc
  exact hx (hd2 q s' h1 h2 x (by omega) (by omega))

/-- `replace_dv` -/
theorem replaceDv_sim {p s : Nat} (v : BInv F t.bins) (hs : Sep base F) (k : Sim base G D L t) (hsm : t.bins.dvsize < 256) (hd1 : ∀ x, D x → D' x)
    (hd2 : ∀ q s', F q = some s' → ∀ x, q + 16 ≤ x → x < q + s' → D' x) :
    ∃ L', replaceDv base L (first base + p) s = some L' ∧ Sim base G D' L' { t with bins := t.bins.replaceDv p s } := by
  unfold replaceDv Bins.replaceDv
  rw [k.dvsize, k.dv]
  cases hd : t.bins.dv with
  | none =>
    have : ¬(t.bins.dvsize ≠ 0) := by rw [v.nodv hd]; simp
    simp only [this, if_false, Option.map_some]
    exact ⟨_, rfl, k.smallmap, k.treemap, rfl, rfl, k.top, k.topsize, k.low, ⟨k.links.small, k.links.slot, k.links.tree⟩, k.mem.mono hd1⟩
  | some d =>
    have hF := v.dv d hd
    obtain ⟨z1, z2⟩ := v.size d _ hF
    have : t.bins.dvsize ≠ 0 := by omega
    simp only [this, ne_eq, not_false_eq_true, if_true]
    obtain ⟨m', e1, e2, e3⟩ := insertSmall_links (c := L) (p := d) (s := t.bins.dvsize) v hs k.links k.smallmap (by simp [isSmall]; omega) z1 z2 (hs.lt d _ hF)
      (fun q s' h1 h2 => by
        have := hs.sep d _ q s' hF h1
        have : d ≠ q := fun e => h2 (e ▸ hd)
        omega)
    show ∃ L', Option.map _ (insertSmall base L (first base + d) t.bins.dvsize) = some L' ∧ _
    rw [e1]
    refine ⟨_, rfl, rfl, k.treemap, rfl, rfl, k.top, k.topsize, fun y hy => (e3 y (.inl hy) (fun q _ _ _ => .inl (by unfold first; omega)) (.inl (by unfold first; omega))).trans (k.low y hy), ⟨e2.small, e2.slot, e2.tree⟩, ?_⟩
    intro x hx
    rw [← k.mem x (fun hd => hx (hd1 x hd))]
    refine e3 (first base + x) (.inr (by omega)) (fun q s' h1 h2 => ?_) ?_
    · by_contra hc
      exact hx (hd2 q s' h1 x (by omega) (by omega))
    · by_contra hc
      exact hx (hd2 d _ hF x (by omega) (by omega))

/-- what `malloc` has to do: `m0` is a memory that differs from the one of `t` in free bytes only -/
def MallocLnk (base : Nat) (G : Mem) (t : CS) (req : Nat) (r : Option (State × Option Nat)) : Prop :=
  ∃ m0 L', (∀ x, ¬Scratch t x → m0 x = t.mem x) ∧ r = some (L', (Tag.malloc { t with mem := m0 } req).2.map (first base + ·)) ∧
    Sim base G (Scratch (Tag.malloc { t with mem := m0 } req).1) L' (Tag.malloc { t with mem := m0 } req).1

/-- bytes of binned chunks are free bytes -/
theorem bins_scratch (v : BInv F t.bins) {q z : Nat} (h : F q = some z) {x : Nat} (h1 : q + 16 ≤ x) (h2 : x < q + z) : Scratch t x :=
  .inl ⟨q, z, bins_of_fmap v h, h1, h2⟩

theorem pick_chunk (ok : OK t h) {req p s : Nat} {b' : Bins} (e : pick t.bins t.topsize req = (.chunk p s, b')) :
    fmap 0 h.chunks p = some s ∧ need req ≤ s ∧ BInv (carveF (fmap 0 h.chunks) p s (need req)) b' := by
  have i := ok.inv
  have hF := Tag.pick_size i.bins i.lt (t := t.topsize) (req := req) (p := p) (s := s) (by rw [e])
  have sp := Dl.place_spec i.bins Dl.fmap_apart i.lt (some t.topsize) req
  rw [Tag.pick_place, e] at sp
  rcases sp with ⟨p', s', e, hF', h1, -, h3, -⟩ | ⟨⟨e, -⟩ | ⟨e, -⟩, -⟩
  · simp only [Tag.Pick.choice] at e h3
    injection e with e
    subst e
    rw [hF] at hF'
    injection hF' with e
    subst e
    exact ⟨hF, h1, h3⟩
  · cases e
  · cases e

/-- after the chunk was taken out of its bin -/
theorem taken (ok : OK t h) (hlt : first base + h.cap < 2 ^ 64) {L1 : State} {req p s : Nat} {b1 b' : Bins} (e : pick t.bins t.topsize req = (.chunk p s, b'))
    (v1 : BInv (Function.update (fmap 0 h.chunks) p none) b1) (k1 : Sim base G (Scratch t) L1 { t with bins := b1 }) {r : Option (State × Option Nat)}
    (hr : (b' = b1 ∧ r = some ({ L1 with mem := takeMem L1.mem (first base + p) s (need req) }, some (first base + p))) ∨
      (minChunk ≤ s - need req ∧ b' = b1.insert (p + need req) (s - need req) ∧
        r = (insertChunk base { L1 with mem := takeMem L1.mem (first base + p) s (need req) } (first base + (p + need req)) (s - need req)).map fun c => (c, some (first base + p))) ∨
      (minChunk ≤ s - need req ∧ b1.dvsize < 256 ∧ b' = b1.replaceDv (p + need req) (s - need req) ∧
        r = (replaceDv base { L1 with mem := takeMem L1.mem (first base + p) s (need req) } (first base + (p + need req)) (s - need req)).map fun c => (c, some (first base + p)))) :
    MallocLnk base G t req r := by
  obtain ⟨hF, hle, v'⟩ := pick_chunk ok e
  have hagr : ∀ x, ¬Scratch t x → view base L1.mem x = t.mem x := k1.mem
  have ok0 := Tag.scratch_ok ok hagr
  obtain ⟨h', -, ok', -⟩ := Tag.malloc_full ok0 req
  have hmal : Tag.malloc { t with mem := view base L1.mem } req = ({ t with mem := takeMem (view base L1.mem) p s (need req), bins := b' }, some p) := by
    unfold Tag.malloc
    simp only [e]
  refine ⟨view base L1.mem, ?_⟩
  rw [hmal] at ok' ⊢
  simp only at ok' ⊢
  have hsiz := Tag.WF.siz ok.inv.wf
  have hsz := ok.inv.bins.size p s hF
  have h16 := need_dvd req
  have hcap : total h.chunks ≤ h.cap := by rw [ok.cap]; omega
  have hs := sep_of (base := base) hsiz (by omega)
  have hs1 : Sep base (Function.update (fmap 0 h.chunks) p none) :=
    ⟨fun q z q' z' h1 h2 => hs.sep q z q' z' (update_none h1).2 (update_none h2).2, fun q z h1 => hs.lt q z (update_none h1).2⟩
  have hdis : ∀ q z, Function.update (fmap 0 h.chunks) p none q = some z → p + s ≤ q ∨ q + z ≤ p := by
    intro q z h1
    obtain ⟨h2, h3⟩ := update_none h1
    have := hs.sep p s q z hF h3
    omega
  have k2 : Sim base G (fun _ => False) { L1 with mem := takeMem L1.mem (first base + p) s (need req) }
      { t with mem := takeMem (view base L1.mem) p s (need req), bins := b1 } := by
    refine Sim.setMem (t := { t with mem := view base L1.mem, bins := b1 }) v1 k1.exact ?_ ?_ ?_
    · intro y hy
      exact takeMem_ne hle (by omega)
    · intro q z h1 _ y h2 h3
      have := hdis q z h1
      exact takeMem_ne hle (by omega)
    · intro x _
      exact congrFun (view_takeMem L1.mem p s (need req)) x
  rcases hr with ⟨rfl, rfl⟩ | ⟨hm, rfl, rfl⟩ | ⟨hm, hsm, rfl, rfl⟩
  · exact ⟨_, hagr, rfl, k2.mono (fun x h => h.elim)⟩
  all_goals
    have hm' : ¬(s - need req < minChunk) := by omega
    have hm2 : 32 ≤ s - need req := by unfold minChunk at hm; omega
    unfold carveF at v'
    rw [if_neg hm'] at v'
    have hnew : Function.update (Function.update (fmap 0 h.chunks) p none) (p + need req) (some (s - need req)) (p + need req) = some (s - need req) := by simp
    have hold : ∀ q z, Function.update (fmap 0 h.chunks) p none q = some z →
        Function.update (Function.update (fmap 0 h.chunks) p none) (p + need req) (some (s - need req)) q = some z := by
      intro q z h1
      have := hdis q z h1
      have := need_ge req
      have := (v1.size q z h1).2
      rw [Function.update_of_ne (by omega)]
      exact h1
  · have hl' : ∀ {q z}, fmap 0 h'.chunks q = some z → chunksize (takeMem (view base L1.mem) p s (need req)) q = z := fun h1 =>
      lay_size (Tag.WF.siz ok'.inv.wf) ok'.rep.lay h1
    obtain ⟨L', g1, g2⟩ := insertChunk_sim (D' := Scratch { t with mem := takeMem (view base L1.mem) p s (need req), bins := b1.insert (p + need req) (s - need req) })
      (p := p + need req) (s := s - need req) v1 hs1 k2 (fun q z h1 h2 => by
        rw [← chunksize_view, view_takeMem]
        exact hl' (Tag.fmap_of_bins ok'.inv.bins (bins_of_fmap v' (hold q z h1))))
      (by omega) hm2 (by have := hs.lt p s hF; omega) (fun q z h1 h2 => by have := hdis q z h1; omega) (fun x h => h.elim)
      (fun q z h1 _ x h2 h3 => bins_scratch v' (hold q z h1) h2 h3) (fun x h2 h3 => bins_scratch v' hnew h2 h3)
    rw [g1]
    exact ⟨L', hagr, rfl, g2⟩
  · obtain ⟨L', g1, g2⟩ := replaceDv_sim (D' := Scratch { t with mem := takeMem (view base L1.mem) p s (need req), bins := b1.replaceDv (p + need req) (s - need req) })
      (p := p + need req) (s := s - need req) v1 hs1 k2 hsm (fun x h => h.elim) (fun q z h1 x h2 h3 => bins_scratch v' (hold q z h1) h2 h3)
    rw [g1]
    exact ⟨L', hagr, rfl, g2⟩

/-- the two words written when `dv` is split are apart -/
theorem setFree_swap (m : Mem) {p nb rs : Nat} (h : 32 ≤ nb) : setSizePinuse (setFree m (p + nb) rs) p nb = setFree (setSizePinuse m p nb) (p + nb) rs := by
  funext x
  by_cases hx : x < p + 8 ∨ p + 16 ≤ x
  · rw [setSizePinuse_ne hx]
    unfold setFree Tag.setFoot setSizePinuse
    by_cases h1 : p + nb + rs ≤ x ∧ x < p + nb + rs + 8
    · simp only [st, h1, and_self, if_true]
    · by_cases h2 : p + nb + 8 ≤ x ∧ x < p + nb + 8 + 8
      · simp only [st, h2, and_self, if_true]
      · have h3 : ¬(p + 8 ≤ x ∧ x < p + 8 + 8) := by omega
        simp only [st, h1, h2, h3, if_false]
  · rw [setFree_ne (by omega) (by omega)]
    have h3 : p + 8 ≤ x ∧ x < p + 8 + 8 := by omega
    simp only [setSizePinuse, st, h3, and_self, if_true]

/-- end of `mspace_malloc` -/
theorem rest_lnk (ok : OK t h) (sim : Sim base G (Scratch t) L t) {req : Nat}
    (e : pick t.bins t.topsize req = pickRest t.bins t.topsize (need req)) : MallocLnk base G t req (some (mallocRest L (need req))) := by
  have hsiz := Tag.WF.siz ok.inv.wf
  have h32 := need_ge req
  have v := ok.inv.bins
  have k0 := sim.exact
  have hagr : ∀ x, ¬Scratch t x → view base L.mem x = t.mem x := sim.mem
  have htop := ok.rep.top
  refine ⟨view base L.mem, ?_⟩
  by_cases hdv : need req ≤ t.bins.dvsize
  · cases hd : t.bins.dv with
    | none => rw [v.nodv hd] at hdv; omega
    | some d =>
      have hF := v.dv d hd
      have hdis : ∀ q z, fmap 0 h.chunks q = some z → t.bins.dv ≠ some q → d + t.bins.dvsize ≤ q ∨ q + z ≤ d := by
        intro q z h1 h2
        have := Tag.at_apart hsiz ((fmap_iff (siz_pos hsiz)).1 hF) ((fmap_iff (siz_pos hsiz)).1 h1)
        have : d ≠ q := fun e => h2 (e ▸ hd)
        omega
      have k1 : Sim base G (fun _ => False) { L with mem := takeMem L.mem (first base + d) t.bins.dvsize (need req) }
          { t with mem := takeMem (view base L.mem) d t.bins.dvsize (need req) } := by
        refine Sim.setMem (t := { t with mem := view base L.mem }) v k0 ?_ ?_ ?_
        · intro y hy
          exact takeMem_ne hdv (by omega)
        · intro q z h1 h2 y h3 h4
          have := hdis q z h1 h2
          exact takeMem_ne hdv (by omega)
        · intro x _
          exact congrFun (view_takeMem L.mem d t.bins.dvsize (need req)) x
      have ed : L.dv = first base + d := by rw [sim.dv, hd]; rfl
      by_cases hm : minChunk ≤ t.bins.dvsize - need req
      · have hmal : Tag.malloc { t with mem := view base L.mem } req =
            ({ t with mem := takeMem (view base L.mem) d t.bins.dvsize (need req), bins := { t.bins with dv := some (d + need req), dvsize := t.bins.dvsize - need req } }, some d) := by
          unfold Tag.malloc
          simp only [e]
          unfold pickRest
          simp only [hdv, if_true, hd, hm]
        rw [hmal]
        refine ⟨{ L with mem := takeMem L.mem (first base + d) t.bins.dvsize (need req), dv := first base + (d + need req), dvsize := t.bins.dvsize - need req }, hagr, ?_, ⟨k1.smallmap, k1.treemap, rfl, rfl, k1.top, k1.topsize, k1.low, ⟨k1.links.small, k1.links.slot, k1.links.tree⟩, k1.mem.mono (fun x h => h.elim)⟩⟩
        unfold mallocRest
        rw [sim.dvsize]
        simp only [hdv, if_true, hm, ed, Option.map_some]
        rw [setFree_swap _ h32]
        unfold takeMem
        rw [if_neg (by omega)]
        simp only [Nat.add_assoc]
      · have hmal : Tag.malloc { t with mem := view base L.mem } req =
            ({ t with mem := takeMem (view base L.mem) d t.bins.dvsize (need req), bins := { t.bins with dv := none, dvsize := 0 } }, some d) := by
          unfold Tag.malloc
          simp only [e]
          unfold pickRest
          simp only [hdv, if_true, hd, hm, if_false]
        rw [hmal]
        refine ⟨{ L with mem := takeMem L.mem (first base + d) t.bins.dvsize (need req), dv := 0, dvsize := 0 }, hagr, ?_, ⟨k1.smallmap, k1.treemap, rfl, rfl, k1.top, k1.topsize, k1.low, ⟨k1.links.small, k1.links.slot, k1.links.tree⟩, k1.mem.mono (fun x h => h.elim)⟩⟩
        unfold mallocRest
        rw [sim.dvsize]
        simp only [hdv, if_true, hm, ed, Option.map_some, if_false]
        unfold takeMem
        rw [if_pos (by omega)]
  · by_cases ht : need req < t.topsize
    · have hmal : Tag.malloc { t with mem := view base L.mem } req =
          (⟨setSizePinuse (st (view base L.mem) (t.top + need req + 8) ((t.topsize - need req) ||| 1)) t.top (need req), t.bins, t.top + need req, t.topsize - need req⟩, some t.top) := by
        unfold Tag.malloc
        simp only [e]
        unfold pickRest
        simp only [hdv, if_false, ht, if_true]
      rw [hmal]
      have k1 := Sim.setMem (t := { t with mem := view base L.mem }) (D' := fun _ => False) (F := fmap 0 h.chunks)
        (m1 := setSizePinuse (st L.mem (first base + (t.top + need req + 8)) ((t.topsize - need req) ||| 1)) (first base + t.top) (need req))
        (m2 := setSizePinuse (st (view base L.mem) (t.top + need req + 8) ((t.topsize - need req) ||| 1)) t.top (need req)) v k0
        (by
          intro y hy
          rw [setSizePinuse_ne (by omega), st_of_ne (by omega)])
        (by
          intro q z h1 _ y h2 h3
          have := Dl.fmap_bound h1
          rw [setSizePinuse_ne (by omega), st_of_ne (by omega)])
        (by
          intro x _
          rw [view_setSizePinuse, view_st])
      refine ⟨{ L with mem := setSizePinuse (st L.mem (first base + (t.top + need req + 8)) ((t.topsize - need req) ||| 1)) (first base + t.top) (need req), top := first base + (t.top + need req), topsize := t.topsize - need req }, hagr, ?_, ⟨k1.smallmap, k1.treemap, k1.dv, k1.dvsize, rfl, rfl, k1.low, ⟨k1.links.small, k1.links.slot, k1.links.tree⟩, k1.mem.mono (fun x h => h.elim)⟩⟩
      unfold mallocRest
      rw [sim.dvsize, sim.topsize, sim.top]
      simp only [hdv, if_false, ht, if_true, Option.map_some]
      simp only [Nat.add_assoc]
    · have hmal : Tag.malloc { t with mem := view base L.mem } req = ({ t with mem := view base L.mem }, none) := by
        unfold Tag.malloc
        simp only [e]
        unfold pickRest
        simp only [hdv, if_false, ht]
      rw [hmal]
      refine ⟨_, hagr, ?_, k0.mono (fun x h => h.elim)⟩
      unfold mallocRest
      rw [sim.dvsize, sim.topsize]
      simp only [hdv, if_false, ht, Option.map_none]

theorem bin_size (ok : OK t h) (sim : Sim base G (Scratch t) L t) {q z : Nat} (hq : fmap 0 h.chunks q = some z) : chunksize L.mem (first base + q) = z := by
  have ok0 := Tag.scratch_ok ok (m := view base L.mem) sim.mem
  rw [← chunksize_view]
  exact lay_size (Tag.WF.siz ok0.inv.wf) ok0.rep.lay hq

theorem tree_part (ok : OK t h) (hs : Sep base (fmap 0 h.chunks)) (sim : Sim base G (Scratch t) L t) {j : Nat} (hj : j < 32) : Part (first base) L.mem (t.bins.tree j) :=
  ⟨⟨j, _, sim.links.tree j hj⟩, fun _ _ hy => bin_size ok sim (BInv.of_tree ok.inv.bins hy).1, _, tree_good ok.inv.bins hs j⟩

theorem enc_zero (v : Cand) : enc (first base) v = 0 ↔ v = none := by
  cases v with
  | none => simp [enc]
  | some w => simp [enc, first]

theorem takeLarge_eq {L1 : State} {v nb s : Nat} (hv : base ≤ v) (h0 : 0 < nb) (hle : nb ≤ s) (e : unlinkLarge base L v = some L1) :
    takeLarge base L v nb (s - nb) = some { L1 with mem := takeMem L1.mem v s nb } := by
  unfold takeLarge takeMem
  rw [if_pos ⟨hv, by omega⟩, e]
  simp only [Option.map_some]
  rw [show s - nb + nb = s by omega]

/-- `tmalloc_small` -/
theorem tmallocSmall_lnk (ok : OK t h) (hlt : first base + h.cap < 2 ^ 64) (sim : Sim base G (Scratch t) L t) {req : Nat} (hreq : req ≤ 232) (hdv : t.bins.dvsize < need req)
    (htm : t.bins.treemap ≠ 0) (e : ∀ p s, Dl.tsmall t.bins (need req) = some (p, s) → pick t.bins t.topsize req = (.chunk p s, splitDv (t.bins.unlinkLarge p s) p s (need req))) :
    MallocLnk base G t req ((tmallocSmall base L (need req)).map fun y => (y.1, some y.2)) := by
  have hsiz := Tag.WF.siz ok.inv.wf
  have v := ok.inv.bins
  have hcap : total h.chunks ≤ h.cap := by rw [ok.cap]; omega
  have hs := sep_of (base := base) hsiz (by omega)
  have h240 := Dl.need_small hreq
  have h32 := need_ge req
  have hf0 : 0 < first base := by unfold first; omega
  obtain ⟨b1, b2, -⟩ := Dl.bit2idx_least htm
  have hnl := (v.treemap _ b1).1 b2
  have hpart := tree_part ok hs sim b1
  have hslot := sim.links.slot _ b1
  have hts : Dl.tsmall t.bins (need req) = match t.bins.tree (bit2idx (leastBit t.bins.treemap)) with
    | .leaf => none
    | .node s p _ l r => (Dl.scan (need req) (if l.isLeaf then r else l) (some (p, s)) (sub64 s (need req))).1 := rfl
  have hP : ∀ x s, (t.bins.tree (bit2idx (leastBit t.bins.treemap))).mem x s → InTree (fmap 0 h.chunks) t.bins x s ∧ s < 2 ^ 64 := fun x s hm =>
    ⟨(v.inTree hm).1, ok.inv.lt x s (v.inTree hm).1.1⟩
  unfold tmallocSmall
  rw [sim.treemap]
  generalize bit2idx (leastBit t.bins.treemap) = j at *
  cases ht : t.bins.tree j with
  | leaf => exact absurd ht hnl
  | node s p q l r =>
    rw [ht] at hpart hslot hts hP
    have hp0 : ¬(first base + p = 0) := by omega
    rw [hslot]
    simp only [ptr, hp0, if_false]
    obtain ⟨i1, i2⟩ := hP p s (.inl ⟨rfl, by simp⟩)
    have hge := Dl.large_ge i1.2.1
    rw [hpart.size p s (.inl ⟨rfl, by simp⟩), hpart.leftmost hf0]
    have hsub : Part (first base) L.mem (if l.isLeaf then r else l) := by
      split
      · exact hpart.right
      · exact hpart.left
    have hsc := scan_spec hf0 (nb := need req) (if l.isLeaf then r else l) (2 ^ 64) (sub64 s (need req)) (some (p, s)) hsub hsub.height
    rw [show enc (first base) (some (p, s)) = first base + p from rfl] at hsc
    rw [hsc]
    have hok : Dl.Ok (InTree (fmap 0 h.chunks) t.bins) (need req) (some (p, s)) (sub64 s (need req)) := ⟨i1, by omega, i2, Dl.sub64_ge i2 (by omega)⟩
    obtain ⟨k1, k2⟩ := Dl.scan_ok (t := if l.isLeaf then r else l) (nb := need req) (by omega) hok (by
      intro x s hm
      split at hm
      · exact hP x s (.inr (.inr hm))
      · exact hP x s (.inr (.inl hm)))
    simp only at hts
    generalize Dl.scan (need req) (if l.isLeaf then r else l) (some (p, s)) (sub64 s (need req)) = y at *
    obtain ⟨w, rs⟩ := y
    simp only [Option.bind_some] at hts ⊢
    cases w with
    | none =>
      exfalso
      have : rs = 2 ^ 64 - need req := k1
      rw [Dl.sub64_ge i2 (by omega)] at k2
      simp only at k2
      omega
    | some w =>
      obtain ⟨p', s'⟩ := w
      obtain ⟨c1, c2, c3, c4⟩ := k1
      subst c4
      have hpk := e p' s' hts
      have v1 := v.unlinkLarge c1.1 c1.2.1 c1.2.2
      obtain ⟨L1, g1, g2⟩ := unlinkLarge_sim v hs sim c1 (fun q z h1 _ x h2 h3 => bins_scratch v h1 h2 h3)
      rw [show enc (first base) (some (p', s')) = first base + p' from rfl, takeLarge_eq (by unfold first; omega) (by omega) c2 g1]
      simp only [Option.bind_some]
      by_cases hm : s' - need req < minChunk
      · simp only [hm, if_true, Option.map_some]
        exact taken ok hlt hpk v1 g2 (.inl ⟨by unfold splitDv; rw [if_pos hm], rfl⟩)
      · simp only [hm, if_false, Option.map_map]
        refine taken ok hlt hpk v1 g2 (.inr (.inr ⟨by omega, ?_, by unfold splitDv; rw [if_neg hm], ?_⟩))
        · show t.bins.dvsize < 256
          omega
        · rw [Nat.add_assoc]
          rfl

/-- `tmalloc_large` -/
theorem tmallocLarge_lnk (ok : OK t h) (hlt : first base + h.cap < 2 ^ 64) (sim : Sim base G (Scratch t) L t) {req : Nat} (hreq : req < maxRequest)
    (e : ∀ p s, Dl.tlarge t.bins (need req) = some (p, s) → pick t.bins t.topsize req = (.chunk p s, splitBin (t.bins.unlinkLarge p s) p s (need req)))
    (e' : Dl.tlarge t.bins (need req) = none → pick t.bins t.topsize req = pickRest t.bins t.topsize (need req)) :
    MallocLnk base G t req ((tmallocLarge base L (need req)).map fun y => if y.2 ≠ 0 then (y.1, some y.2) else mallocRest y.1 (need req)) := by
  have hsiz := Tag.WF.siz ok.inv.wf
  have v := ok.inv.bins
  have hcap : total h.chunks ≤ h.cap := by rw [ok.cap]; omega
  have hs := sep_of (base := base) hsiz (by omega)
  have h32 := need_ge req
  have hnlt := Dl.need_lt hreq
  have hf0 : 0 < first base := by unfold first; omega
  have hidx := Dl.treeIndex_lt (need req)
  have hpart := tree_part ok hs sim hidx
  have hslot := sim.links.slot _ hidx
  have htok := Dl.tsearch_ok v ok.inv.lt (nb := need req) (by omega) hnlt
  have htl := Dl.tlarge_eq t.bins (need req)
  -- the first loop
  obtain ⟨X, hX⟩ : ∃ X, X = Dl.descend (need req) (keyBits (treeIndex (need req))) (t.bins.tree (treeIndex (need req))) none (sub64 0 (need req)) .leaf := ⟨_, rfl⟩
  have h1 : (if ld L.mem (tbin base (treeIndex (need req))) ≠ 0 then
        descend L.mem (need req) (2 ^ 64) (ld L.mem (tbin base (treeIndex (need req)))) (BitVec.ofNat 64 (need req) <<< leftshift (treeIndex (need req))) 0 (sub64 0 (need req)) 0
      else some (0, 0, sub64 0 (need req))) = some (ptr (first base) X.1, enc (first base) X.2.1, X.2.2) ∧ Part (first base) L.mem X.1 := by
    rw [hslot]
    by_cases hl : t.bins.tree (treeIndex (need req)) = .leaf
    · rw [hl] at hX ⊢
      rw [hX]
      have : ¬(ptr (first base) Tree.leaf ≠ 0) := by simp [ptr]
      rw [if_neg this]
      exact ⟨rfl, .leaf⟩
    · have : ptr (first base) (t.bins.tree (treeIndex (need req))) ≠ 0 := fun e => hl ((ptr_zero hf0).1 e)
      rw [if_pos this, key_start hidx, hX]
      exact descend_spec hf0 _ _ (2 ^ 64) (sub64 0 (need req)) none .leaf hpart hl (by unfold keyBits; split <;> omega) (by have := hpart.height; omega) .leaf
  obtain ⟨h1, hp1⟩ := h1
  unfold tmallocLarge
  simp only
  rw [h1]
  simp only [Option.bind_some]
  -- the second loop
  obtain ⟨T, hT⟩ : ∃ T, T = if X.1.isLeaf && X.2.1.isNone then (if leftBits (idx2bit (treeIndex (need req))) &&& t.bins.treemap ≠ 0 then
      t.bins.tree (bit2idx (leastBit (leftBits (idx2bit (treeIndex (need req))) &&& t.bins.treemap))) else X.1) else X.1 := ⟨_, rfl⟩
  have h2 : (if ptr (first base) X.1 = 0 ∧ enc (first base) X.2.1 = 0 then (if leftBits (idx2bit (treeIndex (need req))) &&& L.treemap ≠ 0 then
        ld L.mem (tbin base (bit2idx (leastBit (leftBits (idx2bit (treeIndex (need req))) &&& L.treemap)))) else ptr (first base) X.1) else ptr (first base) X.1) =
      ptr (first base) T ∧ Part (first base) L.mem T := by
    rw [hT, sim.treemap]
    have hc : (ptr (first base) X.1 = 0 ∧ enc (first base) X.2.1 = 0) ↔ (X.1.isLeaf && X.2.1.isNone) = true := by
      rw [ptr_zero hf0, enc_zero]
      cases X.1 <;> cases X.2.1 <;> simp [Tree.isLeaf]
    by_cases hcc : (X.1.isLeaf && X.2.1.isNone) = true
    · rw [if_pos (hc.2 hcc), if_pos hcc]
      by_cases hlb : leftBits (idx2bit (treeIndex (need req))) &&& t.bins.treemap ≠ 0
      · rw [if_pos hlb, if_pos hlb]
        obtain ⟨b1, -, -⟩ := Dl.bit2idx_least hlb
        exact ⟨sim.links.slot _ b1, tree_part ok hs sim b1⟩
      · rw [if_neg hlb, if_neg hlb]
        exact ⟨rfl, hp1⟩
    · rw [if_neg (fun hh => hcc (hc.1 hh)), if_neg hcc]
      exact ⟨rfl, hp1⟩
  obtain ⟨h2, hp2⟩ := h2
  rw [h2, scan_spec hf0 T (2 ^ 64) X.2.2 X.2.1 hp2 hp2.height]
  have hts : Dl.tsearch t.bins (need req) = Dl.scan (need req) T X.2.1 X.2.2 := by
    rw [hT, hX]; rfl
  rw [← hts]
  simp only [Option.bind_some]
  generalize Dl.tsearch t.bins (need req) = y at *
  obtain ⟨w, rs⟩ := y
  simp only at htl ⊢
  cases w with
  | none =>
    have : ¬(enc (first base) none ≠ 0 ∧ rs < sub64 L.dvsize (need req)) := by simp [enc]
    rw [if_neg this]
    simp only [Option.map_some]
    rw [if_neg (show ¬((0 : Nat) ≠ 0) by simp)]
    exact rest_lnk ok sim (e' htl)
  | some w =>
    obtain ⟨p, s⟩ := w
    obtain ⟨c1, c2, c3, c4⟩ := htok
    subst c4
    simp only at htl
    rw [show enc (first base) (some (p, s)) = first base + p from rfl, sim.dvsize]
    by_cases hd : s - need req < sub64 t.bins.dvsize (need req)
    · rw [if_pos hd] at htl
      rw [if_pos ⟨by omega, hd⟩]
      have hpk := e p s htl
      have v1 := v.unlinkLarge c1.1 c1.2.1 c1.2.2
      obtain ⟨L1, g1, g2⟩ := unlinkLarge_sim v hs sim c1 (fun q z h1 _ x h2 h3 => bins_scratch v h1 h2 h3)
      rw [takeLarge_eq (by unfold first; omega) (by omega) c2 g1]
      simp only [Option.bind_some]
      have hne : first base + p ≠ 0 := by omega
      by_cases hm : s - need req < minChunk
      · simp only [hm, if_true, Option.map_some]
        rw [if_pos hne]
        exact taken ok hlt hpk v1 g2 (.inl ⟨by unfold splitBin; rw [if_pos hm], rfl⟩)
      · simp only [hm, if_false, Option.map_map]
        refine taken ok hlt hpk v1 g2 (.inr (.inl ⟨by omega, by unfold splitBin; rw [if_neg hm], ?_⟩))
        rw [Nat.add_assoc]
        congr 1
        funext c
        simp only [Function.comp]
        rw [if_pos hne]
    · rw [if_neg hd] at htl
      rw [if_neg (fun hh => hd hh.2)]
      simp only [Option.map_some]
      rw [if_neg (show ¬((0 : Nat) ≠ 0) by simp)]
      exact rest_lnk ok sim (e' htl)

/-- `mspace_malloc` -/
theorem malloc_lnk (ok : OK t h) (hlt : first base + h.cap < 2 ^ 64) (sim : Sim base G (Scratch t) L t) (req : Nat) : MallocLnk base G t req (malloc base L req) := by
  have i := ok.inv.bins
  have hsiz := Tag.WF.siz ok.inv.wf
  have hcap : total h.chunks ≤ h.cap := by rw [ok.cap]; omega
  have hs := sep_of (base := base) hsiz (by omega)
  have h32 := need_ge req
  have h16 := need_dvd req
  unfold malloc
  simp only
  rw [sim.smallmap, sim.dvsize, sim.treemap]
  by_cases hsm : req ≤ 232
  · rw [if_pos hsm]
    have h240 := Dl.need_small hsm
    have hidx : need req / 8 ≤ 30 := by omega
    have h8 : 8 * (need req / 8) = need req := by omega
    have hget : ∀ k, (t.bins.smallmap >>> (need req / 8)).getLsbD k = t.bins.smallmap.getLsbD (need req / 8 + k) := fun k => by
      rw [BitVec.getLsbD_ushiftRight]
    have hpk : pick t.bins t.topsize req = if (t.bins.smallmap >>> (need req / 8)) &&& 3 ≠ 0 then
        match t.bins.small (if (t.bins.smallmap >>> (need req / 8)).getLsbD 0 then need req / 8 else need req / 8 + 1) with
        | p :: _ => (.chunk p (8 * (if (t.bins.smallmap >>> (need req / 8)).getLsbD 0 then need req / 8 else need req / 8 + 1)),
            t.bins.unlinkSmall p (8 * (if (t.bins.smallmap >>> (need req / 8)).getLsbD 0 then need req / 8 else need req / 8 + 1)))
        | [] => (.outside, t.bins)
      else if t.bins.dvsize < need req then
        if (t.bins.smallmap >>> (need req / 8)) ≠ 0 then
          match t.bins.small (bit2idx (leastBit (((t.bins.smallmap >>> (need req / 8)) <<< (need req / 8)) &&& leftBits (idx2bit (need req / 8))))) with
          | p :: _ => (.chunk p (8 * (bit2idx (leastBit (((t.bins.smallmap >>> (need req / 8)) <<< (need req / 8)) &&& leftBits (idx2bit (need req / 8)))))),
              splitDv (t.bins.unlinkSmall p (8 * (bit2idx (leastBit (((t.bins.smallmap >>> (need req / 8)) <<< (need req / 8)) &&& leftBits (idx2bit (need req / 8))))))) p
                (8 * (bit2idx (leastBit (((t.bins.smallmap >>> (need req / 8)) <<< (need req / 8)) &&& leftBits (idx2bit (need req / 8)))))) (need req))
          | [] => (.outside, t.bins)
        else if t.bins.treemap ≠ 0 then match Dl.tsmall t.bins (need req) with
          | some (p, s) => (.chunk p s, splitDv (t.bins.unlinkLarge p s) p s (need req))
          | none => (.outside, t.bins)
        else pickRest t.bins t.topsize (need req)
      else pickRest t.bins t.topsize (need req) := by
      unfold pick
      simp only
      rw [if_pos hsm]
      rfl
    have hfront : ∀ j p tl, t.bins.small j = p :: tl → fmap 0 h.chunks p = some (8 * j) ∧ j < 32 ∧ t.bins.dv ≠ some p := fun j p tl h =>
      (i.small_mem j p).1 (by rw [h]; simp)
    have hunl : ∀ j p tl, t.bins.small j = p :: tl → BInv (Function.update (fmap 0 h.chunks) p none) (t.bins.unlinkSmall p (8 * j)) := by
      intro j p tl h
      obtain ⟨f1, f2, f3⟩ := hfront j p tl h
      exact i.unlinkSmall f1 (by simp [isSmall, f2]) f3
    generalize hbits : t.bins.smallmap >>> (need req / 8) = bits at *
    by_cases h3 : bits &&& 3 ≠ 0
    · rw [if_pos h3] at hpk ⊢
      obtain ⟨k, hk, hb⟩ := Dl.ne_zero_iff.1 h3
      rw [BitVec.getLsbD_and, Dl.three_get hk] at hb
      simp only [Bool.and_eq_true, decide_eq_true_eq] at hb
      have hj : ∃ j, (if bits.getLsbD 0 then need req / 8 else need req / 8 + 1) = j ∧ t.bins.small j ≠ [] ∧ need req ≤ 8 * j ∧ 8 * j ≤ need req + 8 := by
        by_cases h0 : bits.getLsbD 0 = true
        · rw [if_pos h0]
          rw [hget] at h0
          exact ⟨need req / 8, rfl, (i.smallmap _ (by omega)).1 h0, by omega, by omega⟩
        · rw [if_neg h0]
          have hk1 : k = 1 := by
            by_contra hc
            have : k = 0 := by omega
            rw [this] at hb
            exact h0 hb.1
          have hb1 := hb.1
          rw [hk1, hget] at hb1
          exact ⟨need req / 8 + 1, rfl, (i.smallmap _ (by omega)).1 hb1, by omega, by omega⟩
      obtain ⟨j, hj, hne, hl1, hl2⟩ := hj
      rw [hj] at hpk ⊢
      cases hsj : t.bins.small j with
      | nil => exact absurd hsj hne
      | cons p tl =>
        rw [hsj] at hpk
        simp only at hpk
        obtain ⟨g1, L1, g2, g3⟩ := unlinkFirst_sim i hs sim hsj (fun q z h1 _ x h2 h3 => bins_scratch i h1 h2 h3)
        rw [g1, g2]
        simp only [Option.map_some]
        refine taken ok hlt hpk (hunl j p tl hsj) g3 (.inl ⟨rfl, ?_⟩)
        unfold takeMem minChunk
        rw [if_pos (by omega)]
    · rw [if_neg h3] at hpk ⊢
      have h3 : bits &&& 3 = 0 := by simpa using h3
      have hlow : ∀ k < 2, bits.getLsbD k = false := by
        intro k hk
        have := Dl.eq_zero_iff.1 h3 k (by omega)
        rw [BitVec.getLsbD_and, Dl.three_get (by omega)] at this
        simpa [hk] using this
      by_cases hdv : t.bins.dvsize < need req
      · rw [if_pos hdv] at hpk ⊢
        by_cases hbz : bits ≠ 0
        · rw [if_pos hbz] at hpk ⊢
          obtain ⟨k, hk, hb⟩ := Dl.ne_zero_iff.1 hbz
          have hk2 : 2 ≤ k := by
            by_contra hc
            rw [hlow k (by omega)] at hb; cases hb
          have hkb : need req / 8 + k < 32 := by
            rw [hget] at hb
            exact BitVec.lt_of_getLsbD hb
          have hlb : ∀ j < 32, ((bits <<< (need req / 8)) &&& leftBits (idx2bit (need req / 8))).getLsbD j = (t.bins.smallmap.getLsbD j && decide (need req / 8 < j)) := by
            intro j hj
            rw [BitVec.getLsbD_and, Dl.leftBits_get hj, BitVec.getLsbD_shiftLeft, hget]
            by_cases hlt : need req / 8 < j
            · have e : need req / 8 + (j - need req / 8) = j := by omega
              rw [e]
              simp [hj, hlt]; omega
            · simp [hlt]
          have hne : (bits <<< (need req / 8)) &&& leftBits (idx2bit (need req / 8)) ≠ 0 := by
            refine Dl.ne_zero_iff.2 ⟨need req / 8 + k, hkb, ?_⟩
            rw [hlb _ hkb, ← hget, hb]
            simp; omega
          obtain ⟨c1, c2, c3⟩ := Dl.bit2idx_least hne
          generalize bit2idx (leastBit ((bits <<< (need req / 8)) &&& leftBits (idx2bit (need req / 8)))) = j at *
          rw [hlb j c1] at c2
          simp only [Bool.and_eq_true, decide_eq_true_eq] at c2
          have hnn := (i.smallmap j c1).1 c2.1
          cases hsj : t.bins.small j with
          | nil => exact absurd hsj hnn
          | cons p tl =>
            rw [hsj] at hpk
            simp only at hpk
            obtain ⟨g1, L1, g2, g3⟩ := unlinkFirst_sim i hs sim hsj (fun q z h1 _ x h2 h3 => bins_scratch i h1 h2 h3)
            rw [g1, g2]
            simp only [Option.bind_some]
            by_cases hm : 8 * j - need req < minChunk
            · rw [if_pos hm]
              simp only [Option.map_some]
              refine taken ok hlt hpk (hunl j p tl hsj) g3 (.inl ⟨by unfold splitDv; rw [if_pos hm], ?_⟩)
              unfold takeMem
              rw [if_pos hm]
            · rw [if_neg hm]
              refine taken ok hlt hpk (hunl j p tl hsj) g3 (.inr (.inr ⟨by omega, ?_, by unfold splitDv; rw [if_neg hm], ?_⟩))
              · show t.bins.dvsize < 256
                omega
              · unfold takeMem
                rw [if_neg hm, Nat.add_assoc]
        · rw [if_neg hbz] at hpk ⊢
          by_cases htm : t.bins.treemap ≠ 0
          · rw [if_pos htm] at hpk ⊢
            refine tmallocSmall_lnk ok hlt sim hsm hdv htm (fun p s hts => ?_)
            rw [hpk, hts]
          · rw [if_neg htm] at hpk ⊢
            exact rest_lnk ok sim hpk
      · rw [if_neg hdv] at hpk ⊢
        exact rest_lnk ok sim hpk
  · rw [if_neg hsm]
    have hpk : pick t.bins t.topsize req = if maxRequest ≤ req then (.outside, t.bins)
      else if t.bins.treemap ≠ 0 then match Dl.tlarge t.bins (need req) with
        | some (p, s) => (.chunk p s, splitBin (t.bins.unlinkLarge p s) p s (need req))
        | none => pickRest t.bins t.topsize (need req)
      else pickRest t.bins t.topsize (need req) := by
      unfold pick
      simp only
      rw [if_neg hsm]
      rfl
    by_cases hmax : maxRequest ≤ req
    · rw [if_pos hmax] at hpk ⊢
      refine ⟨view base L.mem, L, sim.mem, ?_, ?_⟩
      · unfold Tag.malloc
        simp only [hpk, Option.map_none]
      · unfold Tag.malloc
        simp only [hpk]
        exact sim.exact.mono (fun x h => h.elim)
    · rw [if_neg hmax] at hpk ⊢
      by_cases htm : t.bins.treemap ≠ 0
      · rw [if_pos htm] at hpk ⊢
        refine tmallocLarge_lnk ok hlt sim (by omega) (fun p s hts => ?_) (fun hts => ?_)
        · rw [hpk, hts]
        · rw [hpk, hts]
      · rw [if_neg htm] at hpk ⊢
        exact rest_lnk ok sim hpk

end
end Verif.Lnk
