import Verif.Pool.Steps
/-
Preservation of the pool invariant, continued: bump allocation, recording of a region, reference counts,
scrubbing.
-/
namespace Horus.Pool
open Horus.Ring (upd upd_same upd_ne)

theorem upd_self {α : Type} (f : Nat → α) (i : Nat) : upd f i (f i) = f := by
  funext j
  by_cases hj : j = i
  · subst hj; rw [upd_same]
  · rw [upd_ne _ _ hj]

/-- A successful bump. -/
theorem inv_bump {c : Cfg} {s : St} {t r i : Nat} (h : Inv c s)
    (hpc : s.thr t = .bumpCas r i s.bump) :
    Inv c (setThr { s with bump := c.roundUp s.bump + c.roundUp r } t (.freshGen r i (c.roundUp s.bump))) := by
  have hp := h.pc t
  rw [hpc] at hp
  have hle := le_roundUp c s.bump
  have A : ∀ {β : Type} (f : Pc → β), f (.freshGen r i (c.roundUp s.bump)) = f (s.thr t) →
      ∀ u, f (upd s.thr t (.freshGen r i (c.roundUp s.bump)) u) = f (s.thr u) := by
    intro β f e u
    by_cases hu : u = t
    · subst hu; rw [upd_same]; exact e
    · rw [upd_ne _ _ hu]
  have a1 := A holds (by rw [hpc]; rfl)
  have a2 := A custody (by rw [hpc]; rfl)
  have a4 := A unscrubbed (by rw [hpc]; rfl)
  have hpd : ∀ u o a, pend c (upd s.thr t (.freshGen r i (c.roundUp s.bump)) u) = some (o, a) →
      (u = t ∧ o = c.roundUp s.bump ∧ a = c.roundUp r) ∨ (u ≠ t ∧ pend c (s.thr u) = some (o, a)) := by
    intro u o a hu
    rcases upd_cases (pend c) hu with ⟨e, hb⟩ | hb
    · simp only [pend, Option.some.injEq, Prod.mk.injEq] at hb
      exact Or.inl ⟨e, hb.1.symm, hb.2.symm⟩
    · exact Or.inr hb
  constructor
  · exact h.nodup
  · exact h.free
  · exact h.hd
  · exact h.chn
  · intro u j; show holds (upd s.thr t _ u) = _ → _; rw [a1]; exact h.holds u j
  · intro j u hj; show holds (upd s.thr t _ u) = _; rw [a1]; exact h.held j u hj
  · intro u j; show custody (upd s.thr t _ u) = _ → _; rw [a2]; exact h.cust u j
  · intro u j hj; show custody (upd s.thr t _ u) = _; rw [a2]; exact h.busy u j hj
  · exact h.busyND
  · exact h.rc
  · exact h.live
  · exact h.noRef
  · exact h.freeIdle
  · intro j u hj; show custody (upd s.thr t _ u) ≠ _ → _; rw [a2]; exact h.heldIdle j u hj
  · exact h.refs
  · exact h.issued
  · intro j
    have := h.below j
    show _ ≤ c.roundUp s.bump + c.roundUp r
    exact Nat.le_trans this (by omega)
  · exact h.fits
  · exact h.disj
  · intro u o a hu
    show _ ≤ c.roundUp s.bump + c.roundUp r
    rcases hpd u o a hu with ⟨_, rfl, rfl⟩ | ⟨_, hb⟩
    · exact Nat.le_refl _
    · exact Nat.le_trans (h.pendBelow u o a hb) (by omega)
  · intro u o a hu j
    rcases hpd u o a hu with ⟨_, rfl, rfl⟩ | ⟨_, hb⟩
    · exact Or.inr (Nat.le_trans (h.below j) hle)
    · exact h.pendSlot u o a hb j
  · intro u v o a o' a' huv hu hv
    rcases hpd u o a hu with ⟨e1, rfl, rfl⟩ | ⟨n1, hb⟩
    · rcases hpd v o' a' hv with ⟨e2, _, _⟩ | ⟨n2, hb'⟩
      · exact absurd (e1.trans e2.symm) huv
      · exact Or.inr (Nat.le_trans (h.pendBelow v o' a' hb') hle)
    · rcases hpd v o' a' hv with ⟨e2, rfl, rfl⟩ | ⟨n2, hb'⟩
      · exact Or.inl (Nat.le_trans (h.pendBelow u o a hb) hle)
      · exact h.pendPend u v o a o' a' huv hb hb'
  · exact hp
  · intro x hx
    replace hx : c.roundUp s.bump + c.roundUp r ≤ x := hx
    exact h.above x (by omega)
  · exact h.dirt
  · exact h.cleanFree
  · intro j u y hj; show unscrubbed (upd s.thr t _ u) = _ → _; rw [a4]; exact h.cleanHeld j u y hj
  · intro u o a y hu hy
    rcases hpd u o a hu with ⟨_, rfl, rfl⟩ | ⟨_, hb⟩
    · intro _; exact h.above y (by omega)
    · exact h.pendClean u o a y hb hy
  · intro u
    by_cases hut : u = t
    · subst hut; show PcInv c _ (upd s.thr u _ u); rw [upd_same]; trivial
    · show PcInv c _ (upd s.thr t _ u)
      rw [upd_ne _ _ hut]
      exact pcInv_frame (h.pc u) (Or.inl ⟨rfl, rfl, fun _ _ => rfl⟩) (fun _ _ => rfl)
        (fun _ _ => ⟨rfl, rfl, rfl, rfl⟩) (fun _ hd => hd) (fun _ hd => Or.inl hd)
  · exact h.flag

/-- The new region is recorded in the slot. -/
theorem inv_fields {c : Cfg} {s : St} {t r i g o : Nat} (h : Inv c s) (hpc : s.thr t = .fields r i g o) :
    Inv c (setThr (setSlot s i { s.slot i with offset := o, size := r, cap := c.roundUp r }) t (.setOwner r i g o)) := by
  have hp := h.pc t
  rw [hpc] at hp
  have hh : holds (s.thr t) = some i := by rw [hpc]; rfl
  have hc : custody (s.thr t) = none := by rw [hpc]; rfl
  have hpt : pend c (s.thr t) = some (o, c.roundUp r) := by rw [hpc]; rfl
  obtain ⟨ho, hi⟩ := h.holds t i hh
  have hbusy : s.busy i = [] := h.heldIdle i t ho (by rw [hc]; simp)
  have hstk : ∀ j ∈ s.stk, j ≠ i := fun j hj => ne_of_own ((h.free j).mp hj).2 ho (by simp)
  have href : ∀ d ∈ s.refs, d.slot ≠ i := h.noRef i (by rw [ho]; simp)
  have A : ∀ {β : Type} (f : Pc → β), f (.setOwner r i g o) = f (s.thr t) →
      ∀ u, f (upd s.thr t (.setOwner r i g o) u) = f (s.thr u) := by
    intro β f e u
    by_cases hu : u = t
    · subst hu; rw [upd_same]; exact e
    · rw [upd_ne _ _ hu]
  have a1 := A holds (by rw [hpc]; rfl)
  have a2 := A custody (by rw [hpc]; rfl)
  have a4 := A unscrubbed (by rw [hpc]; rfl)
  have hpd : ∀ u o' a, pend c (upd s.thr t (.setOwner r i g o) u) = some (o', a) → u ≠ t ∧ pend c (s.thr u) = some (o', a) := by
    intro u o' a hu
    rcases upd_cases (pend c) hu with ⟨e, hb⟩ | hb
    · simp [pend] at hb
    · exact hb
  generalize hx : ({ s.slot i with offset := o, size := r, cap := c.roundUp r } : Slot) = x
  have xo : x.offset = o := by rw [← hx]
  have xs : x.size = r := by rw [← hx]
  have xc : x.cap = c.roundUp r := by rw [← hx]
  have xg : x.gen = g := by rw [← hx]; exact hp.1
  have xr : x.rc = (s.slot i).rc := by rw [← hx]
  have sr : ∀ j, (upd s.slot i x j).rc = (s.slot j).rc := by
    intro j
    by_cases hj : j = i
    · subst hj; rw [upd_same]; exact xr
    · rw [upd_ne _ _ hj]
  constructor
  · exact h.nodup
  · exact h.free
  · exact h.hd
  · refine chain_congr (fun j hj => ?_) h.chn
    show (upd s.slot i x j).next = _
    rw [upd_ne _ _ (hstk j hj)]
  · intro u j; show holds (upd s.thr t _ u) = _ → _; rw [a1]; exact h.holds u j
  · intro j u hj; show holds (upd s.thr t _ u) = _; rw [a1]; exact h.held j u hj
  · intro u j; show custody (upd s.thr t _ u) = _ → _; rw [a2]; exact h.cust u j
  · intro u j hj; show custody (upd s.thr t _ u) = _; rw [a2]; exact h.busy u j hj
  · exact h.busyND
  · intro j; show (upd s.slot i x j).rc = _; rw [sr]; exact h.rc j
  · intro j; show _ → _ ∧ 0 < (upd s.slot i x j).rc; rw [sr]; exact h.live j
  · exact h.noRef
  · exact h.freeIdle
  · intro j u hj; show custody (upd s.thr t _ u) ≠ _ → _; rw [a2]; exact h.heldIdle j u hj
  · intro d hd
    show _ ∧ _ = (upd s.slot i x d.slot).gen
    rw [upd_ne _ _ (href d hd)]; exact h.refs d hd
  · intro d hd
    show _ ≤ (upd s.slot i x d.slot).gen ∧ (_ = (upd s.slot i x d.slot).gen → _ = (upd s.slot i x d.slot).offset ∧
      _ = (upd s.slot i x d.slot).size)
    by_cases hj : d.slot = i
    · rw [hj, upd_same, xg]
      have := hp.2 d hd hj
      exact ⟨by omega, fun e => by omega⟩
    · rw [upd_ne _ _ hj]; exact h.issued d hd
  · intro j; show (upd s.slot i x j).offset + (upd s.slot i x j).cap ≤ s.bump
    by_cases hj : j = i
    · subst hj; rw [upd_same, xo, xc]; exact h.pendBelow t _ _ hpt
    · rw [upd_ne _ _ hj]; exact h.below j
  · intro j; show (upd s.slot i x j).size ≤ (upd s.slot i x j).cap
    by_cases hj : j = i
    · subst hj; rw [upd_same, xs, xc]; exact le_roundUp c r
    · rw [upd_ne _ _ hj]; exact h.fits j
  · intro j k hjk
    show apart (upd s.slot i x j).offset (upd s.slot i x j).cap (upd s.slot i x k).offset (upd s.slot i x k).cap
    by_cases hj : j = i
    · subst hj
      rw [upd_same, upd_ne _ _ (Ne.symm hjk), xo, xc]; exact h.pendSlot t _ _ hpt k
    · rw [upd_ne _ _ hj]
      by_cases hk : k = i
      · subst hk; rw [upd_same, xo, xc]; exact (h.pendSlot t _ _ hpt j).symm
      · rw [upd_ne _ _ hk]; exact h.disj j k hjk
  · intro u o' a hu; exact h.pendBelow u o' a (hpd u o' a hu).2
  · intro u o' a hu j
    show apart o' a (upd s.slot i x j).offset (upd s.slot i x j).cap
    obtain ⟨hne, hb⟩ := hpd u o' a hu
    by_cases hj : j = i
    · subst hj; rw [upd_same, xo, xc]; exact h.pendPend u t o' a _ _ hne hb hpt
    · rw [upd_ne _ _ hj]; exact h.pendSlot u o' a hb j
  · intro u v o1 a1' o2 a2' huv hu hv; exact h.pendPend u v _ _ _ _ huv (hpd _ _ _ hu).2 (hpd _ _ _ hv).2
  · exact h.bumpLe
  · exact h.above
  · intro j y; show (upd s.slot i x j).offset + (upd s.slot i x j).size ≤ y → y < (upd s.slot i x j).offset + (upd s.slot i x j).cap → _
    by_cases hj : j = i
    · subst hj; rw [upd_same, xo, xs, xc]; intro y1 y2; exact h.pendClean t _ _ y hpt (by omega) y2
    · rw [upd_ne _ _ hj]; exact h.dirt j y
  · intro j y hj1 hj2; show (upd s.slot i x j).offset ≤ y → y < (upd s.slot i x j).offset + (upd s.slot i x j).cap → _
    by_cases hj : j = i
    · subst hj; replace hj2 : s.own j = .free := hj2; rw [ho] at hj2; simp at hj2
    · rw [upd_ne _ _ hj]; exact h.cleanFree j y hj1 hj2
  · intro j u y hj; show unscrubbed (upd s.thr t _ u) = _ → (upd s.slot i x j).offset ≤ y → y < (upd s.slot i x j).offset + (upd s.slot i x j).cap → _
    rw [a4]
    by_cases hji : j = i
    · subst hji; rw [upd_same, xo, xc]; intro _; exact h.pendClean t _ _ y hpt
    · rw [upd_ne _ _ hji]; exact h.cleanHeld j u y hj
  · intro u o' a y hu; exact h.pendClean u o' a y (hpd _ _ _ hu).2
  · intro u
    show PcInv c (setThr (setSlot s i x) t (.setOwner r i g o)) (upd s.thr t _ u)
    by_cases hut : u = t
    · subst hut; rw [upd_same]
      have e : (setThr (setSlot s i x) u (.setOwner r i g o)).slot i = x := upd_same _ _ _
      simp only [PcInv, freshGenOk, e]
      exact ⟨⟨xg, hp.2⟩, xo, xs⟩
    · rw [upd_ne _ _ hut]
      have n1 : ∀ j, holds (s.thr u) = some j → j ≠ i := fun j hj =>
        ne_of_own (h.holds u j hj).1 ho (by simpa using hut)
      have n2 : ∀ j, custody (s.thr u) = some j → j ≠ i := by
        intro j hj e
        subst e
        have := h.cust u j hj
        rw [hbusy] at this; exact absurd this (by simp)
      refine pcInv_frame (h.pc u) (Or.inl ⟨rfl, rfl, fun j hj => ?_⟩) (fun j hj => ?_) (fun j hj => ?_)
        (fun _ hd => hd) (fun _ hd => Or.inl hd)
      · show (upd s.slot i x j).next = _
        rw [upd_ne _ _ (hstk j (mem_stk_of_head hj))]
      · show (upd s.slot i x j).gen = _
        rw [upd_ne _ _ (hj.elim (n1 j) (n2 j))]
      · have e : (setThr (setSlot s i x) t (.setOwner r i g o)).slot j = s.slot j := upd_ne _ _ (n1 j hj)
        rw [e]; exact ⟨rfl, rfl, rfl, rfl⟩
  · intro j hj
    show (upd s.slot i x j).alloc = true
    rw [upd_ne _ _ (ne_of_own (s := s) hj ho (by simp))]; exact h.flag j hj

/-- A change of one slot's count, custody and references by a thread that holds no slot. -/
def rcStep (s : St) (t i n : Nat) (b : List Nat) (refs : List Desc) (pc' : Pc) : St :=
  { s with slot := upd s.slot i { s.slot i with rc := n }, busy := upd s.busy i b, refs := refs, thr := upd s.thr t pc' }

theorem inv_rc {c : Cfg} {s : St} {t i n : Nat} {b : List Nat} {refs : List Desc} {pc' : Pc} (h : Inv c s)
    (h1 : holds (s.thr t) = none) (h2 : pend c (s.thr t) = none)
    (p1 : holds pc' = none) (p2 : pend c pc' = none)
    (b1 : ∀ u, u ≠ t → (u ∈ b ↔ u ∈ s.busy i)) (b2 : b.Nodup)
    (b3 : t ∈ b ↔ custody pc' = some i)
    (b4 : ∀ j, j ≠ i → (custody (s.thr t) ≠ some j ∧ custody pc' ≠ some j))
    (r1 : n = refs.countP (fun d => decide (d.slot = i)) + b.length)
    (r2 : ∀ j, j ≠ i → refs.countP (fun d => decide (d.slot = j)) = s.refs.countP (fun d => decide (d.slot = j)))
    (r3 : s.own i = .live → 0 < n)
    (r4 : ∀ d ∈ refs, d ∈ s.refs ∨ (d.slot = i ∧ s.own i = .live ∧ d ∈ s.issued ∧ d.gen = (s.slot i).gen))
    (o1 : s.own i = .free → b = []) (o2 : ∀ u, s.own i = .held u → custody (s.thr u) ≠ some i → b = [])
    (hp : PcInv c s pc') : Inv c (rcStep s t i n b refs pc') := by
  have S : ∀ {β : Type} (f : Slot → β), (∀ m : Nat, f { s.slot i with rc := m } = f (s.slot i)) →
      ∀ j, f ((rcStep s t i n b refs pc').slot j) = f (s.slot j) := by
    intro β f e j
    show f (upd s.slot i _ j) = _
    by_cases hj : j = i
    · subst hj; rw [upd_same]; exact e n
    · rw [upd_ne _ _ hj]
  have so := S Slot.offset (fun _ => rfl)
  have sc := S Slot.cap (fun _ => rfl)
  have ss := S Slot.size (fun _ => rfl)
  have sg := S Slot.gen (fun _ => rfl)
  have sn := S Slot.next (fun _ => rfl)
  have nheld : ∀ j u, s.own j = .held u → u ≠ t := by
    rintro j u hj rfl
    have := h.held j u hj; rw [h1] at this; simp at this
  have npend : ∀ u o a, pend c (upd s.thr t pc' u) = some (o, a) → pend c (s.thr u) = some (o, a) := by
    intro u o a hu
    rcases upd_cases (pend c) hu with ⟨_, hb⟩ | ⟨_, hb⟩
    · rw [p2] at hb; simp at hb
    · exact hb
  constructor
  · exact h.nodup
  · exact h.free
  · exact h.hd
  · exact chain_congr (fun j _ => sn j) h.chn
  · intro u j hu
    rcases upd_cases holds hu with ⟨_, hb⟩ | ⟨_, hb⟩
    · rw [p1] at hb; simp at hb
    · exact h.holds u j hb
  · intro j u hj; show holds (upd s.thr t pc' u) = _
    rw [upd_ne _ _ (nheld j u hj)]; exact h.held j u hj
  · intro u j hu
    show u ∈ upd s.busy i b j
    rcases upd_cases custody hu with ⟨rfl, hb⟩ | ⟨hne, hb⟩
    · by_cases hj : j = i
      · subst hj; rw [upd_same]; exact b3.mpr hb
      · exact absurd hb (b4 j hj).2
    · have := h.cust u j hb
      by_cases hj : j = i
      · subst hj; rw [upd_same]; exact (b1 u hne).mpr this
      · rw [upd_ne _ _ hj]; exact this
  · intro u j hu
    replace hu : u ∈ upd s.busy i b j := hu
    show custody (upd s.thr t pc' u) = some j
    by_cases hj : j = i
    · subst hj
      rw [upd_same] at hu
      by_cases hut : u = t
      · subst hut; rw [upd_same]; exact b3.mp hu
      · rw [upd_ne _ _ hut]; exact h.busy u j ((b1 u hut).mp hu)
    · rw [upd_ne _ _ hj] at hu
      have := h.busy u j hu
      rw [upd_ne]
      · exact this
      · rintro rfl; exact (b4 j hj).1 this
  · intro j; show (upd s.busy i b j).Nodup
    by_cases hj : j = i
    · subst hj; rw [upd_same]; exact b2
    · rw [upd_ne _ _ hj]; exact h.busyND j
  · intro j; show (upd s.slot i _ j).rc = List.countP _ refs + (upd s.busy i b j).length
    by_cases hj : j = i
    · subst hj; rw [upd_same, upd_same]; exact r1
    · rw [upd_ne _ _ hj, upd_ne _ _ hj, r2 j hj]; exact h.rc j
  · intro j hj; show _ ∧ 0 < (upd s.slot i _ j).rc
    refine ⟨(h.live j hj).1, ?_⟩
    by_cases hji : j = i
    · subst hji; rw [upd_same]; exact r3 hj
    · rw [upd_ne _ _ hji]; exact (h.live j hj).2
  · intro j hj d hd e
    rcases r4 d hd with hm | ⟨e1, e2, _⟩
    · exact h.noRef j hj d hm e
    · exact hj (by rw [← e, e1]; exact e2)
  · intro j hj; show upd s.busy i b j = []
    by_cases hji : j = i
    · subst hji; rw [upd_same]; exact o1 hj
    · rw [upd_ne _ _ hji]; exact h.freeIdle j hj
  · intro j u hj; show custody (upd s.thr t pc' u) ≠ _ → upd s.busy i b j = []
    rw [upd_ne _ _ (nheld j u hj)]
    by_cases hji : j = i
    · subst hji; rw [upd_same]; exact o2 u hj
    · rw [upd_ne _ _ hji]; exact h.heldIdle j u hj
  · intro d hd
    rw [sg]
    rcases r4 d hd with hm | ⟨e1, _, e3, e4⟩
    · exact h.refs d hm
    · exact ⟨e3, by rw [e1]; exact e4⟩
  · intro d hd; rw [sg, so, ss]; exact h.issued d hd
  · intro j; rw [so, sc]; exact h.below j
  · intro j; rw [ss, sc]; exact h.fits j
  · intro j k; rw [so, so, sc, sc]; exact h.disj j k
  · intro u o a hu; exact h.pendBelow u o a (npend u o a hu)
  · intro u o a hu j; rw [so, sc]; exact h.pendSlot u o a (npend u o a hu) j
  · intro u v o a o' a' huv hu hv; exact h.pendPend u v o a o' a' huv (npend _ _ _ hu) (npend _ _ _ hv)
  · exact h.bumpLe
  · exact h.above
  · intro j y; rw [so, ss, sc]; exact h.dirt j y
  · intro j y; rw [so, sc]; exact h.cleanFree j y
  · intro j u y hj; show unscrubbed (upd s.thr t pc' u) = _ → _
    rw [upd_ne _ _ (nheld j u hj), so, sc]; exact h.cleanHeld j u y hj
  · intro u o a y hu; exact h.pendClean u o a y (npend _ _ _ hu)
  · intro u
    show PcInv c _ (upd s.thr t pc' u)
    have F : ∀ pc, PcInv c s pc → PcInv c (rcStep s t i n b refs pc') pc := fun pc hq =>
      pcInv_frame hq (Or.inl ⟨rfl, rfl, fun _ _ => sn _⟩) (fun _ _ => sg _)
        (fun _ _ => ⟨so _, ss _, sc _, sn _⟩) (fun _ hd => hd) (fun _ hd => Or.inl hd)
    by_cases hut : u = t
    · subst hut; rw [upd_same]; exact F _ hp
    · rw [upd_ne _ _ hut]; exact F _ (h.pc u)
  · intro j hj; rw [S Slot.alloc (fun _ => rfl)]; exact h.flag j hj

/-- The last unit of the count goes: the thread takes the slot. -/
theorem inv_last {c : Cfg} {s : St} {t i : Nat} (h : Inv c s) (h1 : holds (s.thr t) = none)
    (h2 : pend c (s.thr t) = none) (h3 : custody (s.thr t) = some i) (hrc : (s.slot i).rc = 1) :
    Inv c (setThr { drop (setSlot s i { s.slot i with rc := 0 }) t i with own := upd s.own i (.held t) } t (.retZero i)) := by
  have htb := h.cust t i h3
  have hlen : 0 < (s.busy i).length := List.length_pos_of_mem htb
  have hr := h.rc i
  have hb1 : (s.busy i).length = 1 := by omega
  have hcp : s.refs.countP (fun d => decide (d.slot = i)) = 0 := by omega
  have hbt : s.busy i = [t] := by
    obtain ⟨a, ha⟩ := List.length_eq_one_iff.mp hb1
    rw [ha] at htb; simp at htb; rw [ha, htb]
  have hlive : s.own i = .live := by
    cases ho : s.own i with
    | free => have := h.freeIdle i ho; rw [hbt] at this; simp at this
    | live => rfl
    | held u =>
      have hu := h.held i u ho
      by_cases hcu : custody (s.thr u) = some i
      · have := h.cust u i hcu
        rw [hbt] at this; simp at this; subst this
        rw [h1] at hu; simp at hu
      · have := h.heldIdle i u ho hcu; rw [hbt] at this; simp at this
  have hi := (h.live i hlive).1
  have S : ∀ {β : Type} (f : Slot → β), (∀ m : Nat, f { s.slot i with rc := m } = f (s.slot i)) →
      ∀ j, f (upd s.slot i { s.slot i with rc := 0 } j) = f (s.slot j) := by
    intro β f e j
    by_cases hj : j = i
    · subst hj; rw [upd_same]; exact e 0
    · rw [upd_ne _ _ hj]
  have so := S Slot.offset (fun _ => rfl)
  have sc := S Slot.cap (fun _ => rfl)
  have ss := S Slot.size (fun _ => rfl)
  have sg := S Slot.gen (fun _ => rfl)
  have sn := S Slot.next (fun _ => rfl)
  have nheld : ∀ j u, s.own j = .held u → u ≠ t := by
    rintro j u hj rfl
    have := h.held j u hj; rw [h1] at this; simp at this
  have npend : ∀ u o a, pend c (upd s.thr t (.retZero i) u) = some (o, a) → pend c (s.thr u) = some (o, a) := by
    intro u o a hu
    rcases upd_cases (pend c) hu with ⟨_, hb⟩ | ⟨_, hb⟩
    · simp [pend] at hb
    · exact hb
  have hbi : (s.busy i).erase t = [] := by rw [hbt]; simp
  have hnostk : i ∉ s.stk := fun hm => by have := ((h.free i).mp hm).2; rw [hlive] at this; simp at this
  constructor
  · exact h.nodup
  · intro j
    show j ∈ s.stk ↔ _ ∧ upd s.own i (.held t) j = .free
    by_cases hj : j = i
    · subst hj; rw [upd_same]; simp [hnostk]
    · rw [upd_ne _ _ hj]; exact h.free j
  · exact h.hd
  · exact chain_congr (fun j _ => sn j) h.chn
  · intro u j hu
    show upd s.own i (.held t) j = _ ∧ _
    rcases upd_cases holds hu with ⟨rfl, hb⟩ | ⟨_, hb⟩
    · simp only [holds, Option.some.injEq] at hb; subst hb; rw [upd_same]; exact ⟨rfl, hi⟩
    · have := h.holds u j hb
      rw [upd_ne _ _ (ne_of_own this.1 hlive (by simp))]; exact this
  · intro j u hj; show holds (upd s.thr t _ u) = _
    replace hj : upd s.own i (.held t) j = .held u := hj
    by_cases hji : j = i
    · subst hji; rw [upd_same] at hj; simp only [Own.held.injEq] at hj; subst hj; rw [upd_same]; rfl
    · rw [upd_ne _ _ hji] at hj; rw [upd_ne _ _ (nheld j u hj)]; exact h.held j u hj
  · intro u j hu
    show u ∈ upd s.busy i _ j
    rcases upd_cases custody hu with ⟨rfl, hb⟩ | ⟨hne, hb⟩
    · simp [custody] at hb
    · have := h.cust u j hb
      by_cases hj : j = i
      · subst hj; rw [hbt] at this; simp at this; exact absurd this hne
      · rw [upd_ne _ _ hj]; exact this
  · intro u j hu
    replace hu : u ∈ upd s.busy i ((s.busy i).erase t) j := hu
    show custody (upd s.thr t _ u) = some j
    by_cases hj : j = i
    · subst hj; rw [upd_same, hbi] at hu; simp at hu
    · rw [upd_ne _ _ hj] at hu
      have := h.busy u j hu
      rw [upd_ne]
      · exact this
      · rintro rfl; rw [h3] at this; simp at this; exact hj this.symm
  · intro j; show (upd s.busy i ((s.busy i).erase t) j).Nodup
    by_cases hj : j = i
    · subst hj; rw [upd_same, hbi]; exact List.nodup_nil
    · rw [upd_ne _ _ hj]; exact h.busyND j
  · intro j; show (upd s.slot i _ j).rc = List.countP _ s.refs + (upd s.busy i ((s.busy i).erase t) j).length
    by_cases hj : j = i
    · subst hj; rw [upd_same, upd_same, hbi, hcp]; rfl
    · rw [upd_ne _ _ hj, upd_ne _ _ hj]; exact h.rc j
  · intro j hj; show _ ∧ 0 < (upd s.slot i _ j).rc
    replace hj : upd s.own i (.held t) j = .live := hj
    by_cases hji : j = i
    · subst hji; rw [upd_same] at hj; simp at hj
    · rw [upd_ne _ _ hji] at hj; rw [upd_ne _ _ hji]; exact h.live j hj
  · intro j hj d hd e
    replace hj : upd s.own i (.held t) j ≠ .live := hj
    by_cases hji : j = i
    · subst hji
      have := List.countP_eq_zero.mp hcp d hd
      simp at this; exact this e
    · rw [upd_ne _ _ hji] at hj; exact h.noRef j hj d hd e
  · intro j hj; show upd s.busy i ((s.busy i).erase t) j = []
    replace hj : upd s.own i (.held t) j = .free := hj
    by_cases hji : j = i
    · subst hji; rw [upd_same] at hj; simp at hj
    · rw [upd_ne _ _ hji] at hj; rw [upd_ne _ _ hji]; exact h.freeIdle j hj
  · intro j u hj; show custody (upd s.thr t _ u) ≠ _ → upd s.busy i ((s.busy i).erase t) j = []
    replace hj : upd s.own i (.held t) j = .held u := hj
    by_cases hji : j = i
    · subst hji; intro _; rw [upd_same, hbi]
    · rw [upd_ne _ _ hji] at hj; rw [upd_ne _ _ hji, upd_ne _ _ (nheld j u hj)]; exact h.heldIdle j u hj
  · intro d hd
    show _ ∧ _ = (upd s.slot i _ d.slot).gen
    rw [sg]; exact h.refs d hd
  · intro d hd
    show _ ≤ (upd s.slot i _ d.slot).gen ∧ (_ = (upd s.slot i _ d.slot).gen → _ = (upd s.slot i _ d.slot).offset ∧ _ = (upd s.slot i _ d.slot).size)
    rw [sg, so, ss]; exact h.issued d hd
  · intro j; show (upd s.slot i _ j).offset + (upd s.slot i _ j).cap ≤ _; rw [so, sc]; exact h.below j
  · intro j; show (upd s.slot i _ j).size ≤ (upd s.slot i _ j).cap; rw [ss, sc]; exact h.fits j
  · intro j k; show _ → apart (upd s.slot i _ j).offset (upd s.slot i _ j).cap (upd s.slot i _ k).offset (upd s.slot i _ k).cap
    rw [so, so, sc, sc]; exact h.disj j k
  · intro u o a hu; exact h.pendBelow u o a (npend u o a hu)
  · intro u o a hu j; show apart o a (upd s.slot i _ j).offset (upd s.slot i _ j).cap
    rw [so, sc]; exact h.pendSlot u o a (npend u o a hu) j
  · intro u v o a o' a' huv hu hv; exact h.pendPend u v o a o' a' huv (npend _ _ _ hu) (npend _ _ _ hv)
  · exact h.bumpLe
  · exact h.above
  · intro j y; show (upd s.slot i _ j).offset + (upd s.slot i _ j).size ≤ y → y < (upd s.slot i _ j).offset + (upd s.slot i _ j).cap → _
    rw [so, ss, sc]; exact h.dirt j y
  · intro j y hj hf; show (upd s.slot i _ j).offset ≤ y → y < (upd s.slot i _ j).offset + (upd s.slot i _ j).cap → _
    replace hf : upd s.own i (.held t) j = .free := hf
    rw [so, sc]
    by_cases hji : j = i
    · subst hji; rw [upd_same] at hf; simp at hf
    · rw [upd_ne _ _ hji] at hf; exact h.cleanFree j y hj hf
  · intro j u y hj; show unscrubbed (upd s.thr t _ u) = _ → (upd s.slot i _ j).offset ≤ y → y < (upd s.slot i _ j).offset + (upd s.slot i _ j).cap → _
    replace hj : upd s.own i (.held t) j = .held u := hj
    rw [so, sc]
    by_cases hji : j = i
    · subst hji; rw [upd_same] at hj; simp only [Own.held.injEq] at hj; subst hj; rw [upd_same]; simp [unscrubbed]
    · rw [upd_ne _ _ hji] at hj; rw [upd_ne _ _ (nheld j u hj)]; exact h.cleanHeld j u y hj
  · intro u o a y hu; exact h.pendClean u o a y (npend _ _ _ hu)
  · intro u
    show PcInv c _ (upd s.thr t (.retZero i) u)
    by_cases hut : u = t
    · subst hut; rw [upd_same]; trivial
    · rw [upd_ne _ _ hut]
      exact pcInv_frame (h.pc u) (Or.inl ⟨rfl, rfl, fun _ _ => sn _⟩) (fun _ _ => sg _)
        (fun _ _ => ⟨so _, ss _, sc _, sn _⟩) (fun _ hd => hd) (fun _ hd => Or.inl hd)
  · intro j hj
    show (upd s.slot i _ j).alloc = true
    replace hj : upd s.own i (.held t) j = .live := hj
    rw [S Slot.alloc (fun _ => rfl)]
    by_cases hji : j = i
    · subst hji; rw [upd_same] at hj; simp at hj
    · rw [upd_ne _ _ hji] at hj; exact h.flag j hj

/-- Scrubbing. -/
theorem inv_zero {c : Cfg} {s : St} {t i : Nat} (h : Inv c s) (hpc : s.thr t = .retZero i) :
    Inv c (setThr { s with mem := fun x => if (s.slot i).offset ≤ x ∧ x < (s.slot i).offset + (s.slot i).size then 0 else s.mem x }
      t (.retOwner i)) := by
  have hh : holds (s.thr t) = some i := by rw [hpc]; rfl
  obtain ⟨ho, hi⟩ := h.holds t i hh
  have A : ∀ {β : Type} (f : Pc → β), f (.retOwner i) = f (s.thr t) →
      ∀ u, f (upd s.thr t (.retOwner i) u) = f (s.thr u) := by
    intro β f e u
    by_cases hu : u = t
    · subst hu; rw [upd_same]; exact e
    · rw [upd_ne _ _ hu]
  have a1 := A holds (by rw [hpc]; rfl)
  have a2 := A custody (by rw [hpc]; rfl)
  have a3 := A (pend c) (by rw [hpc]; rfl)
  have Z : ∀ x, s.mem x = 0 → (if (s.slot i).offset ≤ x ∧ x < (s.slot i).offset + (s.slot i).size then 0 else s.mem x) = 0 := by
    intro x hx; split
    · rfl
    · exact hx
  constructor
  · exact h.nodup
  · exact h.free
  · exact h.hd
  · exact h.chn
  · intro u j; show holds (upd s.thr t _ u) = _ → _; rw [a1]; exact h.holds u j
  · intro j u hj; show holds (upd s.thr t _ u) = _; rw [a1]; exact h.held j u hj
  · intro u j; show custody (upd s.thr t _ u) = _ → _; rw [a2]; exact h.cust u j
  · intro u j hj; show custody (upd s.thr t _ u) = _; rw [a2]; exact h.busy u j hj
  · exact h.busyND
  · exact h.rc
  · exact h.live
  · exact h.noRef
  · exact h.freeIdle
  · intro j u hj; show custody (upd s.thr t _ u) ≠ _ → _; rw [a2]; exact h.heldIdle j u hj
  · exact h.refs
  · exact h.issued
  · exact h.below
  · exact h.fits
  · exact h.disj
  · intro u o a; show pend c (upd s.thr t _ u) = _ → _; rw [a3]; exact h.pendBelow u o a
  · intro u o a; show pend c (upd s.thr t _ u) = _ → _; rw [a3]; exact h.pendSlot u o a
  · intro u v o a o' a' huv; show pend c (upd s.thr t _ u) = _ → pend c (upd s.thr t _ v) = _ → _
    rw [a3, a3]; exact h.pendPend u v o a o' a' huv
  · exact h.bumpLe
  · intro x hx; exact Z x (h.above x hx)
  · intro j y y1 y2; exact Z y (h.dirt j y y1 y2)
  · intro j y y0 y1 y2 y3; exact Z y (h.cleanFree j y y0 y1 y2 y3)
  · intro j u y hj; show unscrubbed (upd s.thr t _ u) = _ → _
    intro hu y1 y2
    by_cases hut : u = t
    · subst hut
      have e := h.held j u hj
      rw [hh] at e; simp only [Option.some.injEq] at e; subst e
      show (if _ then 0 else s.mem y) = 0
      split
      · rfl
      · rename_i hn
        exact h.dirt i y (by have y1' : (s.slot i).offset ≤ y := y1; omega) y2
    · rw [upd_ne _ _ hut] at hu; exact Z y (h.cleanHeld j u y hj hu y1 y2)
  · intro u o a y; show pend c (upd s.thr t _ u) = _ → _; rw [a3]
    intro hu y1 y2; exact Z y (h.pendClean u o a y hu y1 y2)
  · intro u
    by_cases hut : u = t
    · subst hut; show PcInv c _ (upd s.thr u _ u); rw [upd_same]; trivial
    · show PcInv c _ (upd s.thr t _ u)
      rw [upd_ne _ _ hut]
      exact pcInv_frame (h.pc u) (Or.inl ⟨rfl, rfl, fun _ _ => rfl⟩) (fun _ _ => rfl)
        (fun _ _ => ⟨rfl, rfl, rfl, rfl⟩) (fun _ hd => hd) (fun _ hd => Or.inl hd)
  · exact h.flag

end Horus.Pool
