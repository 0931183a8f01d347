import Verif.Pool.Inv
/-
Preservation of the pool invariant, one lemma per kind of step.
-/
namespace Horus.Pool
open Horus.Ring (upd upd_same upd_ne)

theorem upd_cases {β : Type} (f : Pc → β) {thr : Nat → Pc} {t u : Nat} {pc' : Pc} {v : β}
    (h : f (upd thr t pc' u) = v) : (u = t ∧ f pc' = v) ∨ (u ≠ t ∧ f (thr u) = v) := by
  by_cases hu : u = t
  · subst hu; rw [upd_same] at h; exact Or.inl ⟨rfl, h⟩
  · rw [upd_ne _ _ hu] at h; exact Or.inr ⟨hu, h⟩

theorem ne_of_own {s : St} {i j : Nat} {a b : Own} (h : s.own i = a) (h' : s.own j = b) (hab : a ≠ b) : i ≠ j := by
  intro e; subst e; exact hab (h.symm.trans h')

theorem mem_stk_of_head {l : List Nat} {i : Nat} (h : l.head? = some i) : i ∈ l := List.mem_of_mem_head? h

/-- A thread writes fields of the slot it holds; the slot's region stays what it was. -/
theorem inv_held {c : Cfg} {s : St} {t i : Nat} {x : Slot} {pc' : Pc} (h : Inv c s)
    (hh : holds (s.thr t) = some i) (hc : custody (s.thr t) = none) (hu : unscrubbed (s.thr t) = false)
    (e1 : holds pc' = some i) (e2 : custody pc' = none)
    (e3 : pend c pc' = pend c (s.thr t)) (e4 : unscrubbed pc' = false)
    (x1 : x.rc = (s.slot i).rc) (x2 : x.offset = (s.slot i).offset) (x3 : x.cap = (s.slot i).cap)
    (x4 : x.size ≤ x.cap)
    (x5 : ∀ d ∈ s.issued, d.slot = i → d.gen ≤ x.gen ∧ (d.gen = x.gen → d.offset = x.offset ∧ d.size = x.size))
    (hp : PcInv c (setSlot s i x) pc') : Inv c (setThr (setSlot s i x) t pc') := by
  obtain ⟨ho, hi⟩ := h.holds t i hh
  have hbusy : s.busy i = [] := h.heldIdle i t ho (by rw [hc]; simp)
  have hstk : ∀ j ∈ s.stk, j ≠ i := by
    intro j hj
    exact ne_of_own ((h.free j).mp hj).2 ho (by simp)
  have S : ∀ {β : Type} (f : Slot → β), f x = f (s.slot i) → ∀ j, f (upd s.slot i x j) = f (s.slot j) := by
    intro β f e j
    by_cases hj : j = i
    · subst hj; rw [upd_same]; exact e
    · rw [upd_ne _ _ hj]
  have so := S Slot.offset x2
  have sc := S Slot.cap x3
  have sr := S Slot.rc x1
  have href : ∀ d ∈ s.refs, d.slot ≠ i := h.noRef i (by rw [ho]; simp)
  have A : ∀ {β : Type} (f : Pc → β), f pc' = f (s.thr t) → ∀ u, f (upd s.thr t pc' u) = f (s.thr u) := by
    intro β f e u
    by_cases hu : u = t
    · subst hu; rw [upd_same]; exact e
    · rw [upd_ne _ _ hu]
  have a1 := A holds (e1.trans hh.symm)
  have a2 := A custody (e2.trans hc.symm)
  have a3 := A (pend c) e3
  have a4 := A unscrubbed (e4.trans hu.symm)
  constructor
  · exact h.nodup
  · exact h.free
  · exact h.hd
  · refine chain_congr (fun j hj => ?_) h.chn
    show (upd s.slot i x j).next = _
    rw [upd_ne _ _ (hstk j hj)]
  · intro u j; show holds (upd s.thr t pc' u) = _ → _; rw [a1]; exact h.holds u j
  · intro j u hj; show holds (upd s.thr t pc' u) = _; rw [a1]; exact h.held j u hj
  · intro u j; show custody (upd s.thr t pc' u) = _ → _; rw [a2]; exact h.cust u j
  · intro u j hj; show custody (upd s.thr t pc' u) = _; rw [a2]; exact h.busy u j hj
  · exact h.busyND
  · intro j; show (upd s.slot i x j).rc = _; rw [sr]; exact h.rc j
  · intro j; show _ → _ ∧ 0 < (upd s.slot i x j).rc; rw [sr]; exact h.live j
  · exact h.noRef
  · exact h.freeIdle
  · intro j u hj; show custody (upd s.thr t pc' u) ≠ _ → _; rw [a2]; exact h.heldIdle j u hj
  · intro d hd
    show _ ∧ _ = (upd s.slot i x d.slot).gen
    rw [upd_ne _ _ (href d hd)]; exact h.refs d hd
  · intro d hd
    show _ ≤ (upd s.slot i x d.slot).gen ∧ (_ = (upd s.slot i x d.slot).gen → _ = (upd s.slot i x d.slot).offset ∧
      _ = (upd s.slot i x d.slot).size)
    by_cases hj : d.slot = i
    · rw [hj, upd_same]; exact x5 d hd hj
    · rw [upd_ne _ _ hj]; exact h.issued d hd
  · intro j; show (upd s.slot i x j).offset + (upd s.slot i x j).cap ≤ _; rw [so, sc]; exact h.below j
  · intro j; show (upd s.slot i x j).size ≤ (upd s.slot i x j).cap
    by_cases hj : j = i
    · subst hj; rw [upd_same]; exact x4
    · rw [upd_ne _ _ hj]; exact h.fits j
  · intro j k; show _ → apart (upd s.slot i x j).offset (upd s.slot i x j).cap (upd s.slot i x k).offset (upd s.slot i x k).cap
    rw [so, so, sc, sc]; exact h.disj j k
  · intro u o a; show pend c (upd s.thr t pc' u) = _ → _; rw [a3]; exact h.pendBelow u o a
  · intro u o a; show pend c (upd s.thr t pc' u) = _ → ∀ j, apart o a (upd s.slot i x j).offset (upd s.slot i x j).cap
    rw [a3]; intro hh j; rw [so, sc]; exact h.pendSlot u o a hh j
  · intro u v o a o' a' huv; show pend c (upd s.thr t pc' u) = _ → pend c (upd s.thr t pc' v) = _ → _
    rw [a3, a3]; exact h.pendPend u v o a o' a' huv
  · exact h.bumpLe
  · exact h.above
  · intro j y; show (upd s.slot i x j).offset + (upd s.slot i x j).size ≤ y → y < (upd s.slot i x j).offset + (upd s.slot i x j).cap → _
    rw [so, sc]
    intro y1 y2
    by_cases hj : j = i
    · subst hj; exact h.cleanHeld j t y ho hu (by omega) y2
    · rw [upd_ne _ _ hj] at y1; exact h.dirt j y y1 y2
  · intro j y; show _ → _ → (upd s.slot i x j).offset ≤ y → y < (upd s.slot i x j).offset + (upd s.slot i x j).cap → _
    rw [so, sc]; exact h.cleanFree j y
  · intro j u y hj; show unscrubbed (upd s.thr t pc' u) = _ → (upd s.slot i x j).offset ≤ y → y < (upd s.slot i x j).offset + (upd s.slot i x j).cap → _
    rw [a4, so, sc]; exact h.cleanHeld j u y hj
  · intro u o a y; show pend c (upd s.thr t pc' u) = _ → _; rw [a3]; exact h.pendClean u o a y
  · intro u
    show PcInv c (setThr (setSlot s i x) t pc') (upd s.thr t pc' u)
    by_cases hut : u = t
    · subst hut; rw [upd_same]
      exact pcInv_frame hp (Or.inl ⟨rfl, rfl, fun _ _ => rfl⟩) (fun _ _ => rfl) (fun _ _ => ⟨rfl, rfl, rfl, rfl⟩)
        (fun _ hd => hd) (fun _ hd => Or.inl hd)
    · rw [upd_ne _ _ hut]
      have n1 : ∀ j, holds (s.thr u) = some j → j ≠ i := by
        intro j hj
        exact ne_of_own (h.holds u j hj).1 ho (by simpa using hut)
      have n2 : ∀ j, custody (s.thr u) = some j → j ≠ i := by
        intro j hj e
        subst e
        have := h.cust u j hj
        rw [hbusy] at this; exact absurd this (by simp)
      refine pcInv_frame (h.pc u) (Or.inl ⟨rfl, rfl, fun j hj => ?_⟩) (fun j hj => ?_) (fun j hj => ?_)
        (fun _ hd => hd) (fun _ hd => Or.inl hd)
      · show (upd s.slot i x j).next = _
        rw [upd_ne _ _ (hstk j (mem_stk_of_head hj))]
      · show (upd s.slot i x j).gen = _
        rw [upd_ne _ _ (hj.elim (n1 j) (n2 j))]
      · have e : (setThr (setSlot s i x) t pc').slot j = s.slot j := upd_ne _ _ (n1 j hj)
        rw [e]; exact ⟨rfl, rfl, rfl, rfl⟩
  · intro j hj
    show (upd s.slot i x j).alloc = true
    rw [upd_ne _ _ (ne_of_own (s := s) hj ho (by simp))]; exact h.flag j hj

/-- A successful pop. -/
theorem inv_pop {c : Cfg} {s : St} {t r tag i : Nat} {ag : Bool} {nx : Option Nat} (h : Inv c s)
    (hpc : s.thr t = .popCas r ag tag i nx) (hd : s.head = (tag, some i)) :
    Inv c (setThr { s with head := (tag + 1, nx), stk := s.stk.tail, own := upd s.own i (.held t) } t (.claimOwner r i)) := by
  have hp := h.pc t
  rw [hpc] at hp
  obtain ⟨h1, h2⟩ := hp
  have et : tag = s.head.1 := by rw [hd]
  obtain ⟨h3, h4⟩ := h2 et
  obtain ⟨tl, hs⟩ : ∃ tl, s.stk = i :: tl := by
    cases hk : s.stk with
    | nil => rw [hk] at h3; simp at h3
    | cons a tl => rw [hk] at h3; simp at h3; exact ⟨tl, by rw [h3]⟩
  have hnd := h.nodup
  rw [hs, List.nodup_cons] at hnd
  have hfree : i < c.slots ∧ s.own i = .free := (h.free i).mp (by rw [hs]; simp)
  have hchn := h.chn
  rw [hs] at hchn
  have htl : s.stk.tail = tl := by rw [hs]; rfl
  have nh : ∀ u j, holds (s.thr u) = some j → j ≠ i := fun u j hj => ne_of_own (h.holds u j hj).1 hfree.2 (by simp)
  have hbusy := h.freeIdle i hfree.2
  have ht : holds (s.thr t) = none ∧ custody (s.thr t) = none ∧ pend c (s.thr t) = none := by
    rw [hpc]; exact ⟨rfl, rfl, rfl⟩
  have hpd : ∀ u o a, pend c (upd s.thr t (.claimOwner r i) u) = some (o, a) → pend c (s.thr u) = some (o, a) := by
    intro u o a hu
    rcases upd_cases (pend c) hu with ⟨_, hb⟩ | ⟨_, hb⟩
    · simp [pend] at hb
    · exact hb
  constructor
  · show s.stk.tail.Nodup; rw [htl]; exact hnd.2
  · intro j
    show j ∈ s.stk.tail ↔ _ ∧ upd s.own i (.held t) j = .free
    rw [htl]
    by_cases hj : j = i
    · subst hj; rw [upd_same]; simp [hnd.1]
    · rw [upd_ne _ _ hj, ← h.free j, hs]; simp [hj]
  · show nx = s.stk.tail.head?; rw [htl, h4]; exact hchn.1
  · show chain s.slot s.stk.tail; rw [htl]; exact hchn.2
  · intro u j hu
    show upd s.own i (.held t) j = _ ∧ _
    rcases upd_cases holds hu with ⟨rfl, hb⟩ | ⟨hne, hb⟩
    · simp only [holds, Option.some.injEq] at hb
      subst hb; rw [upd_same]; exact ⟨rfl, hfree.1⟩
    · rw [upd_ne _ _ (nh u j hb)]; exact h.holds u j hb
  · intro j u hj
    show holds (upd s.thr t (.claimOwner r i) u) = some j
    replace hj : upd s.own i (.held t) j = .held u := hj
    by_cases hji : j = i
    · subst hji; rw [upd_same] at hj
      simp only [Own.held.injEq] at hj
      subst hj; rw [upd_same]; rfl
    · rw [upd_ne _ _ hji] at hj
      have := h.held j u hj
      rw [upd_ne]
      · exact this
      · rintro rfl; rw [ht.1] at this; simp at this
  · intro u j hu
    rcases upd_cases custody hu with ⟨rfl, hb⟩ | ⟨hne, hb⟩
    · simp [custody] at hb
    · exact h.cust u j hb
  · intro u j hu
    show custody (upd s.thr t _ u) = some j
    have := h.busy u j hu
    rw [upd_ne]
    · exact this
    · rintro rfl; rw [ht.2.1] at this; simp at this
  · exact h.busyND
  · exact h.rc
  · intro j hj
    replace hj : upd s.own i (.held t) j = .live := hj
    by_cases hji : j = i
    · subst hji; rw [upd_same] at hj; simp at hj
    · rw [upd_ne _ _ hji] at hj; exact h.live j hj
  · intro j hj
    replace hj : upd s.own i (.held t) j ≠ .live := hj
    by_cases hji : j = i
    · subst hji; exact h.noRef j (by rw [hfree.2]; simp)
    · rw [upd_ne _ _ hji] at hj; exact h.noRef j hj
  · intro j hj
    replace hj : upd s.own i (.held t) j = .free := hj
    by_cases hji : j = i
    · subst hji; exact hbusy
    · rw [upd_ne _ _ hji] at hj; exact h.freeIdle j hj
  · intro j u hj
    replace hj : upd s.own i (.held t) j = .held u := hj
    show custody (upd s.thr t _ u) ≠ _ → s.busy j = []
    by_cases hji : j = i
    · subst hji; intro _; exact hbusy
    · rw [upd_ne _ _ hji] at hj
      rw [upd_ne]
      · exact h.heldIdle j u hj
      · rintro rfl; have := h.held j u hj; rw [ht.1] at this; simp at this
  · exact h.refs
  · exact h.issued
  · exact h.below
  · exact h.fits
  · exact h.disj
  · intro u o a hu; exact h.pendBelow u o a (hpd u o a hu)
  · intro u o a hu; exact h.pendSlot u o a (hpd u o a hu)
  · intro u v o a o' a' huv hu hv; exact h.pendPend u v o a o' a' huv (hpd _ _ _ hu) (hpd _ _ _ hv)
  · exact h.bumpLe
  · exact h.above
  · exact h.dirt
  · intro j y hj hf
    replace hf : upd s.own i (.held t) j = .free := hf
    by_cases hji : j = i
    · subst hji; rw [upd_same] at hf; simp at hf
    · rw [upd_ne _ _ hji] at hf; exact h.cleanFree j y hj hf
  · intro j u y hj
    replace hj : upd s.own i (.held t) j = .held u := hj
    show unscrubbed (upd s.thr t _ u) = false → _
    by_cases hji : j = i
    · subst hji; intro _; exact h.cleanFree j y hfree.1 hfree.2
    · rw [upd_ne _ _ hji] at hj
      rw [upd_ne]
      · exact h.cleanHeld j u y hj
      · rintro rfl; have := h.held j u hj; rw [ht.1] at this; simp at this
  · intro u o a y hu; exact h.pendClean u o a y (hpd _ _ _ hu)
  · intro u
    by_cases hut : u = t
    · subst hut; show PcInv c _ (upd s.thr u _ u); rw [upd_same]; trivial
    · show PcInv c _ (upd s.thr t _ u)
      rw [upd_ne _ _ hut]
      exact pcInv_frame (h.pc u) (Or.inr (by show s.head.1 < tag + 1; omega)) (fun _ _ => rfl)
        (fun _ _ => ⟨rfl, rfl, rfl, rfl⟩) (fun _ hd => hd) (fun _ hd => Or.inl hd)
  · intro j hj
    replace hj : upd s.own i (.held t) j = .live := hj
    by_cases hji : j = i
    · subst hji; rw [upd_same] at hj; simp at hj
    · rw [upd_ne _ _ hji] at hj; exact h.flag j hj

/-- A successful push. -/
theorem inv_push {c : Cfg} {s : St} {t tag i : Nat} {k : Cont} {hh : Option Nat} (h : Inv c s)
    (hpc : s.thr t = .pushCas i k tag hh) (hd : s.head = (tag, hh)) :
    Inv c (setThr { s with head := (tag + 1, some i), stk := i :: s.stk, own := upd s.own i .free } t (contPc k)) := by
  have hp := h.pc t
  rw [hpc] at hp
  obtain ⟨h1, h2, h3⟩ := hp
  have et : tag = s.head.1 := by rw [hd]
  have h4 := h2 et
  have hht : holds (s.thr t) = some i := by rw [hpc]; rfl
  obtain ⟨ho, hi⟩ := h.holds t i hht
  have hct : custody (s.thr t) = none := by rw [hpc]; rfl
  have hbusy : s.busy i = [] := h.heldIdle i t ho (by rw [hct]; simp)
  have k1 : holds (contPc k) = none ∧ custody (contPc k) = none ∧ pend c (contPc k) = none ∧ PcInv c s (contPc k) := by
    cases k <;> exact ⟨rfl, rfl, rfl, trivial⟩
  have nh : ∀ u j, u ≠ t → holds (s.thr u) = some j → j ≠ i := fun u j hu hj =>
    ne_of_own (h.holds u j hj).1 ho (by simpa using hu)
  have hpd : ∀ u o a, pend c (upd s.thr t (contPc k) u) = some (o, a) → pend c (s.thr u) = some (o, a) := by
    intro u o a hu
    rcases upd_cases (pend c) hu with ⟨_, hb⟩ | ⟨_, hb⟩
    · rw [k1.2.2.1] at hb; simp at hb
    · exact hb
  have hheld : ∀ j u, j ≠ i → s.own j = .held u → u ≠ t := by
    rintro j u hji hj rfl
    have := h.held j u hj
    rw [hht] at this; simp at this; exact hji this.symm
  constructor
  · show (i :: s.stk).Nodup
    rw [List.nodup_cons]
    refine ⟨fun hm => ?_, h.nodup⟩
    have := ((h.free i).mp hm).2
    rw [ho] at this; simp at this
  · intro j
    show j ∈ i :: s.stk ↔ _ ∧ upd s.own i .free j = .free
    by_cases hj : j = i
    · subst hj; rw [upd_same]; simp [hi]
    · rw [upd_ne _ _ hj, ← h.free j]; simp [hj]
  · rfl
  · exact ⟨h3.trans h4, h.chn⟩
  · intro u j hu
    show upd s.own i .free j = _ ∧ _
    rcases upd_cases holds hu with ⟨rfl, hb⟩ | ⟨hne, hb⟩
    · rw [k1.1] at hb; simp at hb
    · rw [upd_ne _ _ (nh u j hne hb)]; exact h.holds u j hb
  · intro j u hj
    replace hj : upd s.own i .free j = .held u := hj
    show holds (upd s.thr t (contPc k) u) = some j
    by_cases hji : j = i
    · subst hji; rw [upd_same] at hj; simp at hj
    · rw [upd_ne _ _ hji] at hj
      rw [upd_ne _ _ (hheld j u hji hj)]; exact h.held j u hj
  · intro u j hu
    rcases upd_cases custody hu with ⟨rfl, hb⟩ | ⟨hne, hb⟩
    · rw [k1.2.1] at hb; simp at hb
    · exact h.cust u j hb
  · intro u j hu
    show custody (upd s.thr t _ u) = some j
    have := h.busy u j hu
    rw [upd_ne]
    · exact this
    · rintro rfl; rw [hct] at this; simp at this
  · exact h.busyND
  · exact h.rc
  · intro j hj
    replace hj : upd s.own i .free j = .live := hj
    by_cases hji : j = i
    · subst hji; rw [upd_same] at hj; simp at hj
    · rw [upd_ne _ _ hji] at hj; exact h.live j hj
  · intro j hj
    replace hj : upd s.own i .free j ≠ .live := hj
    by_cases hji : j = i
    · subst hji; exact h.noRef j (by rw [ho]; simp)
    · rw [upd_ne _ _ hji] at hj; exact h.noRef j hj
  · intro j hj
    replace hj : upd s.own i .free j = .free := hj
    by_cases hji : j = i
    · subst hji; exact hbusy
    · rw [upd_ne _ _ hji] at hj; exact h.freeIdle j hj
  · intro j u hj
    replace hj : upd s.own i .free j = .held u := hj
    show custody (upd s.thr t _ u) ≠ _ → s.busy j = []
    by_cases hji : j = i
    · subst hji; intro _; exact hbusy
    · rw [upd_ne _ _ hji] at hj
      rw [upd_ne _ _ (hheld j u hji hj)]; exact h.heldIdle j u hj
  · exact h.refs
  · exact h.issued
  · exact h.below
  · exact h.fits
  · exact h.disj
  · intro u o a hu; exact h.pendBelow u o a (hpd u o a hu)
  · intro u o a hu; exact h.pendSlot u o a (hpd u o a hu)
  · intro u v o a o' a' huv hu hv; exact h.pendPend u v o a o' a' huv (hpd _ _ _ hu) (hpd _ _ _ hv)
  · exact h.bumpLe
  · exact h.above
  · exact h.dirt
  · intro j y hj hf
    replace hf : upd s.own i .free j = .free := hf
    by_cases hji : j = i
    · subst hji; exact h.cleanHeld j t y ho (by rw [hpc]; rfl)
    · rw [upd_ne _ _ hji] at hf; exact h.cleanFree j y hj hf
  · intro j u y hj
    replace hj : upd s.own i .free j = .held u := hj
    show unscrubbed (upd s.thr t _ u) = false → _
    by_cases hji : j = i
    · subst hji; rw [upd_same] at hj; simp at hj
    · rw [upd_ne _ _ hji] at hj
      rw [upd_ne _ _ (hheld j u hji hj)]; exact h.cleanHeld j u y hj
  · intro u o a y hu; exact h.pendClean u o a y (hpd _ _ _ hu)
  · intro u
    by_cases hut : u = t
    · subst hut; show PcInv c _ (upd s.thr u _ u); rw [upd_same]; cases k <;> trivial
    · show PcInv c _ (upd s.thr t _ u)
      rw [upd_ne _ _ hut]
      exact pcInv_frame (h.pc u) (Or.inr (by show s.head.1 < tag + 1; omega)) (fun _ _ => rfl)
        (fun _ _ => ⟨rfl, rfl, rfl, rfl⟩) (fun _ hd => hd) (fun _ hd => Or.inl hd)
  · intro j hj
    replace hj : upd s.own i .free j = .live := hj
    by_cases hji : j = i
    · subst hji; rw [upd_same] at hj; simp at hj
    · rw [upd_ne _ _ hji] at hj; exact h.flag j hj

end Horus.Pool
