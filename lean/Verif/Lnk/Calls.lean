import Verif.Lnk.Realloc
/-!
# Calls, with links
-/
namespace Verif.Lnk
open Heap (Chunk Use Heap total total_append NotBoth need minChunk maxRequest need_ge need_dvd need_fits users find_user find_some lead lead_ok callocReq giveLead_spec)
open Dl (Tree Bins BInv fmap Pos isSmall fmap_cut fmap_relabel leadBins)
open Tag (Mem CS chunksize copy copy_ne InBins Scratch At Siz Lay OK Eff siz_append siz_cons at_users at_mem at_unique at_apart malloc_full write_ok total_dvd)

section
variable {base : Nat} {L : State} {t : CS} {h : Heap} {G : Mem}

/-- a call `r` with links does what the call `f` does on `t`, after a change of free bytes -/
def CallLnk (base : Nat) (G : Mem) (t : CS) (r : Option (State × Option Nat)) (f : CS → Option (CS × Option Nat)) : Prop :=
  ∃ m0 L' t' o, (∀ x, ¬Scratch t x → m0 x = t.mem x) ∧ r = some (L', o.map (first base + ·)) ∧ f { t with mem := m0 } = some (t', o) ∧ Sim base G (Scratch t') L' t'

theorem malloc_call (ok : OK t h) (hlt : first base + h.cap < 2 ^ 64) (sim : Sim base G (Scratch t) L t) (req : Nat) :
    CallLnk base G t (malloc base L req) (fun c => some (Tag.malloc c req)) := by
  obtain ⟨m0, L', e1, e2, e3⟩ := malloc_lnk ok hlt sim req
  exact ⟨m0, L', _, _, e1, e2, rfl, e3⟩

/-- a write into a block -/
theorem write_sim (ok : OK t h) (sim : Sim base G (Scratch t) L t) {p z u : Nat} (ha : At 0 h.chunks p z (.user u)) {m : Mem}
    (hm : ∀ y, y < first base + p + 16 ∨ first base + p + z + 8 ≤ y → m y = L.mem y) {m' : Mem} (hm' : ∀ x, p + 16 ≤ x → x < p + z + 8 → m' x = view base m x)
    (hm2 : ∀ x, x < p + 16 ∨ p + z + 8 ≤ x → m' x = t.mem x) : Sim base G (Scratch t) { L with mem := m } { t with mem := m' } := by
  have hsz := Tag.WF.siz ok.inv.wf
  refine sim.setMem ok.inv.bins (fun y hy => hm y (by omega)) (fun q s h1 _ y h2 h3 => hm y ?_) ?_
  · have h4 := (fmap_iff (siz_pos hsz)).1 h1
    rcases at_apart hsz ha h4 with e | e | e
    · subst e
      have := (at_unique hsz ha h4).2
      cases this
    · omega
    · omega
  · intro x hx
    by_cases h1 : p + 16 ≤ x ∧ x < p + z + 8
    · exact (hm' x h1.1 h1.2).symm
    · rw [hm2 x (by omega), ← sim.mem x hx]
      exact hm (first base + x) (by omega)

theorem calloc_call (ok : OK t h) (hlt : first base + h.cap < 2 ^ 64) (sim : Sim base G (Scratch t) L t) (n sz : Nat) :
    CallLnk base G t (calloc base L n sz) (fun c => some (Tag.calloc c n sz)) := by
  obtain ⟨m0, L', e1, e2, e3⟩ := malloc_lnk ok hlt sim (callocReq n sz)
  have ok0 := Tag.scratch_ok ok e1
  obtain ⟨h', -, ok1, -, -, new1⟩ := malloc_full ok0 (callocReq n sz)
  unfold calloc
  rw [e2]
  unfold CallLnk
  refine ⟨m0, ?_⟩
  beta_reduce
  unfold Tag.calloc
  have hm : ∀ c r, Tag.malloc c r = ((Tag.malloc c r).1, (Tag.malloc c r).2) := fun _ _ => rfl
  rw [hm { t with mem := m0 } (callocReq n sz)]
  generalize hx : (Tag.malloc { t with mem := m0 } (callocReq n sz)).2 = o at *
  generalize hy : (Tag.malloc { t with mem := m0 } (callocReq n sz)).1 = c1 at *
  cases o with
  | none => exact ⟨L', c1, none, e1, rfl, rfl, e3⟩
  | some q =>
    obtain ⟨⟨z, hat⟩, -⟩ := new1 q rfl
    have hroom := ok1.room hat
    refine ⟨_, _, some q, e1, rfl, rfl, ?_⟩
    refine write_sim ok1 e3 hat ?_ ?_ ?_
    · intro y hy
      simp only [clear]
      rw [if_neg (by omega)]
    · intro x h1 h2
      unfold view clear
      by_cases h3 : x < q + 16 + callocReq n sz
      · simp only
        rw [if_pos ⟨h1, h3⟩, if_pos (by omega)]
      · simp only
        rw [if_neg (by omega), if_neg (by omega)]
        exact (e3.mem x (Tag.scratch_apart ok1 hat h1 h2)).symm
    · intro x hx
      rw [if_neg (by omega)]

theorem free_call (ok : OK t h) (hlt : first base + h.cap < 2 ^ 64) (sim : Sim base G (Scratch t) L t) {p q : Nat} (hu : (p, q) ∈ users 0 h.chunks) :
    CallLnk base G t ((free base L (first base + p)).map fun c => (c, none)) (fun c => (Tag.free c p).map fun c => (c, none)) := by
  obtain ⟨L', t', e1, e2, e3⟩ := free_lnk ok hlt sim hu
  refine ⟨t.mem, L', t', none, fun _ _ => rfl, by rw [e1]; rfl, ?_, e3⟩
  show Option.map _ (Tag.free t p) = _
  rw [e2]; rfl

/-- the header of a block is the same with links -/
theorem block_size (ok : OK t h) (sim : Sim base G (Scratch t) L t) {p z u : Nat} (ha : At 0 h.chunks p z (.user u)) : chunksize L.mem (first base + p) = z := by
  have ok0 := Tag.scratch_ok ok (m := view base L.mem) sim.mem
  rw [← chunksize_view]
  exact ok0.chunksize ha

theorem realloc_call (ok : OK t h) (hlt : first base + h.cap < 2 ^ 64) (sim : Sim base G (Scratch t) L t) {p q : Nat} (hu : (p, q) ∈ users 0 h.chunks) (req : Nat) (os : Bool) :
    CallLnk base G t (realloc base L (first base + p) req os) (fun c => Tag.realloc c p req os) := by
  obtain ⟨l, s, r, hf⟩ := find_user ok.inv.wf.good hu
  obtain ⟨hc, hp⟩ := find_some hf
  rw [Nat.zero_add] at hp
  have hat : At 0 h.chunks p s (.user q) := ⟨l, r, hc, by rw [Nat.zero_add]; exact hp⟩
  unfold realloc
  by_cases hr : req < maxRequest
  · rw [if_pos hr]
    obtain ⟨m0, L1, t1, y, e1, e2, e3, e4⟩ := tryRealloc_lnk ok hlt sim hc req
    rw [hp] at e2 e3
    rw [e2]
    simp only [Option.bind_some]
    cases y with
    | true =>
      refine ⟨m0, L1, t1, some p, e1, rfl, ?_, e4⟩
      beta_reduce
      unfold Tag.realloc
      rw [if_pos hr, e3]
    | false =>
      simp only [Bool.false_eq_true, if_false]
      have ok0 := Tag.scratch_ok ok e1
      -- not possible in place, whatever is in the free chunks
      have hnone : Heap.tryRealloc l s (need req) req r (some t.topsize) = none := by
        obtain ⟨a1, -⟩ := Tag.tryRealloc_sim ok0 hc req
        simp only at a1
        cases hh : Heap.tryRealloc l s (need req) req r (some t.topsize) with
        | none => rfl
        | some h' =>
          obtain ⟨c', k1, -⟩ := a1 h' hh
          rw [hp, e3] at k1
          cases k1
      have hfail : ∀ m1, (∀ x, ¬Scratch t x → m1 x = t.mem x) → Tag.tryRealloc { t with mem := m1 } p (need req) = some ({ t with mem := m1 }, false) := by
        intro m1 hm1
        obtain ⟨-, a2⟩ := Tag.tryRealloc_sim (Tag.scratch_ok ok hm1) hc req
        rw [hp] at a2
        exact a2 hnone
      have et : t1 = { t with mem := m0 } := by
        have := hfail m0 e1
        rw [e3] at this
        injection this with this
        injection this
      subst et
      obtain ⟨m1, L2, f1, f2, f3⟩ := malloc_lnk ok0 hlt e4 req
      have hm1 : ∀ x, ¬Scratch t x → m1 x = t.mem x := fun x hx => (f1 x hx).trans (e1 x hx)
      have ok1' := Tag.scratch_ok ok hm1
      simp only at f2 f3
      obtain ⟨h1, -, ok1, cap1, ef1, new1⟩ := malloc_full ok1' req
      have hat1 : At 0 h1.chunks p s (.user q) := ef1.kept p s q hat (by simp)
      have hu1 : (p, q) ∈ users 0 h1.chunks := at_users.2 ⟨s, hat1⟩
      rw [f2]
      simp only [Option.bind_some]
      refine ⟨m1, ?_⟩
      beta_reduce
      unfold Tag.realloc
      rw [if_pos hr, hfail m1 hm1]
      simp only
      have hm : ∀ c r, Tag.malloc c r = ((Tag.malloc c r).1, (Tag.malloc c r).2) := fun _ _ => rfl
      rw [hm { t with mem := m1 } req]
      generalize hx : (Tag.malloc { t with mem := m1 } req).2 = o at *
      generalize hy : (Tag.malloc { t with mem := m1 } req).1 = c2 at *
      cases o with
      | none =>
        simp only [Option.map_none]
        cases os with
        | false => exact ⟨L2, c2, none, hm1, rfl, rfl, f3⟩
        | true =>
          obtain ⟨L3, t3, g1, g2, g3⟩ := free_lnk ok1 (by rw [cap1]; exact hlt) f3 hu1
          simp only [if_true]
          rw [g1, g2]
          exact ⟨L3, t3, none, hm1, rfl, rfl, g3⟩
      | some p' =>
        simp only [Option.map_some]
        obtain ⟨⟨z', hat'⟩, hfresh⟩ := new1 p' rfl
        have hroom' := ok1.room hat'
        have hroom1 := ok1.room hat1
        rw [block_size ok1 f3 hat1, ok1.chunksize hat1]
        have hs8 : 8 ≤ s := by omega
        have ok2 : OK { c2 with mem := copy c2.mem p p' (min (s - 8) req) } h1 := write_ok ok1 hat' (fun x hx => copy_ne (by omega))
        have sim2 : Sim base G (Scratch c2) { L2 with mem := copy L2.mem (first base + p) (first base + p') (min (s - 8) req) } { c2 with mem := copy c2.mem p p' (min (s - 8) req) } := by
          refine write_sim ok1 f3 hat' ?_ ?_ ?_
          · intro y hy
            exact copy_ne (by omega)
          · intro x h1 h2
            by_cases h3 : x < p' + 16 + min (s - 8) req
            · unfold copy view
              simp only
              rw [if_pos ⟨h1, h3⟩, if_pos (by omega)]
              rw [← f3.mem (p + 16 + (x - (p' + 16))) (Tag.scratch_apart ok1 hat1 (by omega) (by omega))]
              unfold view
              congr 1
              omega
            · rw [copy_ne (by omega)]
              unfold view
              rw [copy_ne (by omega)]
              exact (f3.mem x (Tag.scratch_apart ok1 hat' h1 h2)).symm
          · intro x hx
            exact copy_ne (by omega)
        obtain ⟨L3, t3, g1, g2, g3⟩ := free_lnk ok2 (by rw [cap1]; exact hlt) sim2 hu1
        rw [g1, g2]
        exact ⟨L3, t3, some p', hm1, rfl, rfl, g3⟩
  · rw [if_neg hr]
    refine ⟨t.mem, L, t, none, fun _ _ => rfl, rfl, ?_, sim⟩
    beta_reduce
    unfold Tag.realloc
    rw [if_neg hr]

/-- giving back the front of a block, with the invariants -/
theorem giveLead_full (ok1 : OK t h) {l r : List Chunk} {s u req d : Nat} (hc : h.chunks = l ++ ⟨s, .user u⟩ :: r) (k2 : 16 ∣ d) (hd32 : d = 0 ∨ 32 ≤ d) (hds : d + need req ≤ s) :
    ∃ t2 h2, Tag.giveLead t (total l) d = some t2 ∧ OK t2 h2 ∧ h2.cap = h.cap ∧ (total l + d, req) ∈ users 0 h2.chunks := by
  obtain ⟨s1, s5, s3, s4, -⟩ := ok1.split hc
  have hn32 := need_ge req
  have hh : h = ⟨l ++ ⟨s, .user u⟩ :: r, h.top⟩ := by rw [← hc]
  obtain ⟨w2, cap2, u2⟩ := giveLead_spec (req := req) (d := d) (hh ▸ ok1.inv.wf) (show 0 + total l = total l by omega) k2 (by omega)
  obtain ⟨c2, g1, g2, g3, g4⟩ := Tag.giveLead_sim ok1 (req := req) hc k2 (show d < s by omega)
  rw [ok1.rep.size] at w2 cap2 u2
  have hb2 : BInv (fmap 0 (Heap.giveLead l s d req r (some t.topsize)).chunks) (leadBins t.bins l (total l) s d req r (some t.topsize)) := by
    have ib := ok1.inv.bins
    rw [hc] at ib
    have pl : Pos l := fun c hc => (s1 c hc).2
    have pr : Pos r := fun c hc => (s5 c hc).2
    unfold Heap.giveLead leadBins
    by_cases hd0 : d = 0
    · rw [if_pos hd0, if_pos hd0]
      rwa [fmap_relabel (q' := req)] at ib
    · rw [if_neg hd0, if_neg hd0]
      have hcut : fmap 0 (l ++ ⟨s, .user u⟩ :: r) = fmap 0 (l ++ ⟨d, .user req⟩ :: ⟨s - d, .user req⟩ :: r) := by
        rw [fmap_cut (nb := d) (req := req) (by omega)]
        simp
      rw [hcut] at ib
      refine Dl.dispose_spec ib pl ⟨k2, by omega⟩ ?_
      intro c hc'
      rcases List.mem_cons.1 hc' with rfl | hc'
      · show 0 < s - d
        omega
      · exact pr c hc'
  have cap2' : (Heap.giveLead l s d req r (some t.topsize)).cap = h.cap := by
    rw [cap2]
    conv_rhs => rw [hh, ok1.rep.size]
  rw [← g3] at hb2
  exact ⟨c2, _, g1, ⟨⟨w2, hb2, by rw [cap2']; exact ok1.inv.cap⟩, g2, by rw [cap2']; exact ok1.big⟩, cap2', u2.mem_iff.2 (by simp)⟩

theorem memalign_call (hb : 16 ∣ base) (ok : OK t h) (hlt : first base + h.cap < 2 ^ 64) (sim : Sim base G (Scratch t) L t) {al : Nat} (h16 : 16 ∣ al) (h32 : 32 ≤ al) (req : Nat) :
    CallLnk base G t (memalign base L al req) (fun c => Tag.memalign (first base + 16) c al req) := by
  unfold memalign
  by_cases hr : req < maxRequest - al
  · rw [if_pos hr]
    obtain ⟨m0, L1, e1, e2, e3⟩ := malloc_lnk ok hlt sim (need req + al + minChunk - 8)
    obtain ⟨h1, -, ok1, cap1, ef1, new1⟩ := malloc_full (Tag.scratch_ok ok e1) (need req + al + minChunk - 8)
    rw [e2]
    simp only [Option.bind_some]
    refine ⟨m0, ?_⟩
    unfold Tag.memalign
    simp only [if_pos hr]
    have hm : ∀ c r, Tag.malloc c r = ((Tag.malloc c r).1, (Tag.malloc c r).2) := fun _ _ => rfl
    rw [hm { t with mem := m0 } (need req + al + minChunk - 8)]
    generalize hx : (Tag.malloc { t with mem := m0 } (need req + al + minChunk - 8)).2 = o at *
    generalize hy : (Tag.malloc { t with mem := m0 } (need req + al + minChunk - 8)).1 = c1 at *
    cases o with
    | none => exact ⟨L1, c1, none, e1, rfl, rfl, e3⟩
    | some p =>
      simp only [Option.map_some]
      obtain ⟨⟨s, hat⟩, hfresh⟩ := new1 p rfl
      obtain ⟨l, r, hc, hp⟩ := hat
      have hat : At 0 h1.chunks p s (.user (need req + al + minChunk - 8)) := ⟨l, r, hc, hp⟩
      rw [Nat.zero_add] at hp
      obtain ⟨s1, s5, s3, s4, -⟩ := ok1.split hc
      have hp16 : 16 ∣ p := by rw [← hp]; exact total_dvd s1
      have hf16 : 16 ∣ first base := by unfold first; omega
      rw [show first base + p + 16 = first base + 16 + p by omega]
      obtain ⟨k1, k2, k3, k4⟩ := lead_ok h16 h32 (show 16 ∣ first base + 16 + p by omega)
      generalize lead al (first base + 16 + p) = d at *
      have hsize : need req + al + 32 ≤ s := by
        have h1 := (ok1.inv.wf.good _ (at_mem hat)).2.2 _ rfl
        simp only [minChunk] at h1
        have h2 := need_dvd req
        have h3 := need_ge req
        have h4 : ∀ x, 23 ≤ x → need x = (x + 23) / 16 * 16 := fun x hx => by unfold need; rw [if_neg (by omega)]
        rw [h4 _ (by omega)] at h1
        omega
      have hn32 := need_ge req
      have hd32 : d = 0 ∨ 32 ≤ d := by omega
      obtain ⟨L2, t2, a1, a2, a3⟩ := giveLead_lnk ok1 (by rw [cap1]; exact hlt) e3 hc k2 hd32 (by omega)
      obtain ⟨t2', h2, b1, ok2, cap2, hu2⟩ := giveLead_full ok1 (req := req) hc k2 hd32 (by omega)
      rw [b1] at a2
      injection a2 with a2
      subst a2
      rw [hp] at a1 b1 hu2
      obtain ⟨l2, s2, r2, hf2⟩ := find_user ok2.inv.wf.good hu2
      obtain ⟨hc2', hp2⟩ := find_some hf2
      rw [Nat.zero_add] at hp2
      obtain ⟨L3, t3, c1, c2, c3⟩ := trimEnd_lnk ok2 (by rw [cap2, cap1]; exact hlt) a3 hc2' (need_dvd req) hn32
      rw [hp2] at c1 c2
      rw [a1, b1]
      simp only [Option.bind_some]
      rw [Nat.add_assoc, c1, c2]
      exact ⟨L3, t3, some (p + d), e1, rfl, rfl, c3⟩
  · rw [if_neg hr]
    refine ⟨t.mem, L, t, none, fun _ _ => rfl, rfl, ?_, sim⟩
    unfold Tag.memalign
    simp only [if_neg hr]

end
end Verif.Lnk
