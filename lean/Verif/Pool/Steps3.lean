import Verif.Pool.Steps2
import Mathlib.Data.List.Count
/-
Preservation of the pool invariant, concluded: publication of an allocation, stores, and the theorem
for every proper action.
-/
namespace Horus.Pool
open Horus.Ring (upd upd_same upd_ne)

/-- The first reference is counted. -/
theorem inv_setRc {c : Cfg} {s : St} {t r i g o : Nat} (h : Inv c s) (hpc : s.thr t = .setRc r i g o) :
    Inv c (setThr { setSlot s i { s.slot i with rc := 1 } with busy := upd s.busy i (t :: s.busy i) } t (.setFlags r i g o)) := by
  have hp := h.pc t
  rw [hpc] at hp
  have hh : holds (s.thr t) = some i := by rw [hpc]; rfl
  have hc : custody (s.thr t) = none := by rw [hpc]; rfl
  obtain ⟨ho, hi⟩ := h.holds t i hh
  have hbusy : s.busy i = [] := h.heldIdle i t ho (by rw [hc]; simp)
  have href : ∀ d ∈ s.refs, d.slot ≠ i := h.noRef i (by rw [ho]; simp)
  have hcp : s.refs.countP (fun d => decide (d.slot = i)) = 0 := by
    rw [List.countP_eq_zero]; intro d hd; simp [href d hd]
  have S : ∀ {β : Type} (f : Slot → β), (∀ m : Nat, f { s.slot i with rc := m } = f (s.slot i)) →
      ∀ j, f (upd s.slot i { s.slot i with rc := 1 } j) = f (s.slot j) := by
    intro β f e j
    by_cases hj : j = i
    · subst hj; rw [upd_same]; exact e 1
    · rw [upd_ne _ _ hj]
  have so := S Slot.offset (fun _ => rfl)
  have sc := S Slot.cap (fun _ => rfl)
  have ss := S Slot.size (fun _ => rfl)
  have sg := S Slot.gen (fun _ => rfl)
  have sn := S Slot.next (fun _ => rfl)
  have A : ∀ {β : Type} (f : Pc → β), f (.setFlags r i g o) = f (s.thr t) →
      ∀ u, f (upd s.thr t (.setFlags r i g o) u) = f (s.thr u) := by
    intro β f e u
    by_cases hu : u = t
    · subst hu; rw [upd_same]; exact e
    · rw [upd_ne _ _ hu]
  have a1 := A holds (by rw [hpc]; rfl)
  have a3 := A (pend c) (by rw [hpc]; rfl)
  have a4 := A unscrubbed (by rw [hpc]; rfl)
  rw [hbusy]
  constructor
  · exact h.nodup
  · exact h.free
  · exact h.hd
  · exact chain_congr (fun j _ => sn j) h.chn
  · intro u j; show holds (upd s.thr t _ u) = _ → _; rw [a1]; exact h.holds u j
  · intro j u hj; show holds (upd s.thr t _ u) = _; rw [a1]; exact h.held j u hj
  · intro u j hu
    show u ∈ upd s.busy i [t] j
    rcases upd_cases custody hu with ⟨rfl, hb⟩ | ⟨hne, hb⟩
    · simp only [custody, Option.some.injEq] at hb; subst hb; rw [upd_same]; simp
    · have := h.cust u j hb
      rw [upd_ne]
      · exact this
      · rintro rfl; rw [hbusy] at this; simp at this
  · intro u j hu
    replace hu : u ∈ upd s.busy i [t] j := hu
    show custody (upd s.thr t _ u) = some j
    by_cases hj : j = i
    · subst hj; rw [upd_same] at hu; simp at hu; subst hu; rw [upd_same]; rfl
    · rw [upd_ne _ _ hj] at hu
      have := h.busy u j hu
      rw [upd_ne]
      · exact this
      · rintro rfl; rw [hc] at this; simp at this
  · intro j; show (upd s.busy i [t] j).Nodup
    by_cases hj : j = i
    · subst hj; rw [upd_same]; simp
    · rw [upd_ne _ _ hj]; exact h.busyND j
  · intro j; show (upd s.slot i _ j).rc = List.countP _ s.refs + (upd s.busy i [t] j).length
    by_cases hj : j = i
    · subst hj; rw [upd_same, upd_same, hcp]; rfl
    · rw [upd_ne _ _ hj, upd_ne _ _ hj]; exact h.rc j
  · intro j hj; show _ ∧ 0 < (upd s.slot i _ j).rc
    rw [upd_ne _ _ (ne_of_own (s := s) hj ho (by simp))]; exact h.live j hj
  · exact h.noRef
  · intro j hj; show upd s.busy i [t] j = []
    rw [upd_ne _ _ (ne_of_own (s := s) hj ho (by simp))]; exact h.freeIdle j hj
  · intro j u hj; show custody (upd s.thr t _ u) ≠ _ → upd s.busy i [t] j = []
    by_cases hji : j = i
    · subst hji
      replace hj : s.own j = .held u := hj
      rw [ho] at hj; simp only [Own.held.injEq] at hj; subst hj; rw [upd_same]; simp [custody]
    · rw [upd_ne _ _ hji, upd_ne]
      · exact h.heldIdle j u hj
      · rintro rfl
        have := h.held j u hj; rw [hh] at this; simp at this; exact hji this.symm
  · intro d hd
    show _ ∧ _ = (upd s.slot i _ d.slot).gen
    rw [sg]; exact h.refs d hd
  · intro d hd
    show _ ≤ (upd s.slot i _ d.slot).gen ∧ (_ = (upd s.slot i _ d.slot).gen → _ = (upd s.slot i _ d.slot).offset ∧ _ = (upd s.slot i _ d.slot).size)
    rw [sg, so, ss]; exact h.issued d hd
  · intro j; show (upd s.slot i _ j).offset + (upd s.slot i _ j).cap ≤ _; rw [so, sc]; exact h.below j
  · intro j; show (upd s.slot i _ j).size ≤ (upd s.slot i _ j).cap; rw [ss, sc]; exact h.fits j
  · intro j k; show _ → apart (upd s.slot i _ j).offset (upd s.slot i _ j).cap (upd s.slot i _ k).offset (upd s.slot i _ k).cap
    rw [so, so, sc, sc]; exact h.disj j k
  · intro u o' a; show pend c (upd s.thr t _ u) = _ → _; rw [a3]; exact h.pendBelow u o' a
  · intro u o' a; show pend c (upd s.thr t _ u) = _ → ∀ j, apart o' a (upd s.slot i _ j).offset (upd s.slot i _ j).cap
    rw [a3]; intro hu j; rw [so, sc]; exact h.pendSlot u o' a hu j
  · intro u v o1 a1' o2 a2' huv; show pend c (upd s.thr t _ u) = _ → pend c (upd s.thr t _ v) = _ → _
    rw [a3, a3]; exact h.pendPend u v _ _ _ _ huv
  · exact h.bumpLe
  · exact h.above
  · intro j y; show (upd s.slot i _ j).offset + (upd s.slot i _ j).size ≤ y → y < (upd s.slot i _ j).offset + (upd s.slot i _ j).cap → _
    rw [so, ss, sc]; exact h.dirt j y
  · intro j y; show _ → _ → (upd s.slot i _ j).offset ≤ y → y < (upd s.slot i _ j).offset + (upd s.slot i _ j).cap → _
    rw [so, sc]; exact h.cleanFree j y
  · intro j u y hj; show unscrubbed (upd s.thr t _ u) = _ → (upd s.slot i _ j).offset ≤ y → y < (upd s.slot i _ j).offset + (upd s.slot i _ j).cap → _
    rw [a4, so, sc]; exact h.cleanHeld j u y hj
  · intro u o' a y; show pend c (upd s.thr t _ u) = _ → _; rw [a3]; exact h.pendClean u o' a y
  · intro u
    show PcInv c _ (upd s.thr t (.setFlags r i g o) u)
    have hq : PcInv c s (.setFlags r i g o) := hp
    by_cases hut : u = t
    · subst hut; rw [upd_same]
      exact pcInv_frame hq (Or.inl ⟨rfl, rfl, fun _ _ => sn _⟩) (fun _ _ => sg _)
        (fun _ _ => ⟨so _, ss _, sc _, sn _⟩) (fun _ hd => hd) (fun _ hd => Or.inl hd)
    · rw [upd_ne _ _ hut]
      exact pcInv_frame (h.pc u) (Or.inl ⟨rfl, rfl, fun _ _ => sn _⟩) (fun _ _ => sg _)
        (fun _ _ => ⟨so _, ss _, sc _, sn _⟩) (fun _ hd => hd) (fun _ hd => Or.inl hd)
  · intro j hj; show (upd s.slot i _ j).alloc = true; rw [S Slot.alloc (fun _ => rfl)]; exact h.flag j hj

/-- The allocation is published and its descriptor returned. -/
theorem inv_finish {c : Cfg} {s : St} {t r i g o : Nat} (h : Inv c s) (hpc : s.thr t = .setFlags r i g o) :
    Inv c (setThr { drop (setSlot s i { s.slot i with alloc := true }) t i with
      own := upd s.own i .live, refs := ⟨i, g, o, r⟩ :: s.refs, issued := ⟨i, g, o, r⟩ :: s.issued } t .idle) := by
  have hp := h.pc t
  rw [hpc] at hp
  obtain ⟨⟨hg, hf⟩, hof, hsz⟩ := hp
  have hh : holds (s.thr t) = some i := by rw [hpc]; rfl
  have hc : custody (s.thr t) = some i := by rw [hpc]; rfl
  obtain ⟨ho, hi⟩ := h.holds t i hh
  have htb := h.cust t i hc
  have hlen : ((s.busy i).erase t).length + 1 = (s.busy i).length := by
    rw [List.length_erase_of_mem htb]
    have := List.length_pos_of_mem htb
    omega
  have S : ∀ {β : Type} (f : Slot → β), (∀ m : Bool, f { s.slot i with alloc := m } = f (s.slot i)) →
      ∀ j, f (upd s.slot i { s.slot i with alloc := true } j) = f (s.slot j) := by
    intro β f e j
    by_cases hj : j = i
    · subst hj; rw [upd_same]; exact e true
    · rw [upd_ne _ _ hj]
  have so := S Slot.offset (fun _ => rfl)
  have sc := S Slot.cap (fun _ => rfl)
  have ss := S Slot.size (fun _ => rfl)
  have sg := S Slot.gen (fun _ => rfl)
  have sn := S Slot.next (fun _ => rfl)
  have sr := S Slot.rc (fun _ => rfl)
  have nheld : ∀ j u, j ≠ i → s.own j = .held u → u ≠ t := by
    rintro j u hji hj rfl
    have := h.held j u hj; rw [hh] at this; simp at this; exact hji this.symm
  have npend : ∀ u o a, pend c (upd s.thr t .idle u) = some (o, a) → pend c (s.thr u) = some (o, a) := by
    intro u o a hu
    rcases upd_cases (pend c) hu with ⟨_, hb⟩ | ⟨_, hb⟩
    · simp [pend] at hb
    · exact hb
  have hrc := h.rc i
  constructor
  · exact h.nodup
  · intro j
    show j ∈ s.stk ↔ _ ∧ upd s.own i .live j = .free
    by_cases hj : j = i
    · subst hj; rw [upd_same, h.free j, ho]; simp
    · rw [upd_ne _ _ hj]; exact h.free j
  · exact h.hd
  · exact chain_congr (fun j _ => sn j) h.chn
  · intro u j hu
    show upd s.own i .live j = _ ∧ _
    rcases upd_cases holds hu with ⟨rfl, hb⟩ | ⟨hne, hb⟩
    · simp [holds] at hb
    · have := h.holds u j hb
      rw [upd_ne _ _ (ne_of_own this.1 ho (by simpa using hne))]; exact this
  · intro j u hj; show holds (upd s.thr t _ u) = _
    replace hj : upd s.own i .live j = .held u := hj
    by_cases hji : j = i
    · subst hji; rw [upd_same] at hj; simp at hj
    · rw [upd_ne _ _ hji] at hj; rw [upd_ne _ _ (nheld j u hji hj)]; exact h.held j u hj
  · intro u j hu
    show u ∈ upd s.busy i ((s.busy i).erase t) j
    rcases upd_cases custody hu with ⟨rfl, hb⟩ | ⟨hne, hb⟩
    · simp [custody] at hb
    · have := h.cust u j hb
      by_cases hj : j = i
      · subst hj; rw [upd_same]; exact (List.mem_erase_of_ne hne).mpr this
      · rw [upd_ne _ _ hj]; exact this
  · intro u j hu
    replace hu : u ∈ upd s.busy i ((s.busy i).erase t) j := hu
    show custody (upd s.thr t _ u) = some j
    by_cases hj : j = i
    · subst hj; rw [upd_same] at hu
      have hut : u ≠ t := by
        rintro rfl
        exact (List.Nodup.not_mem_erase (h.busyND j)) hu
      rw [upd_ne _ _ hut]; exact h.busy u j (List.mem_of_mem_erase hu)
    · rw [upd_ne _ _ hj] at hu
      have := h.busy u j hu
      rw [upd_ne]
      · exact this
      · rintro rfl; rw [hc] at this; simp at this; exact hj this.symm
  · intro j; show (upd s.busy i ((s.busy i).erase t) j).Nodup
    by_cases hj : j = i
    · subst hj; rw [upd_same]; exact (h.busyND j).erase t
    · rw [upd_ne _ _ hj]; exact h.busyND j
  · intro j
    show (upd s.slot i _ j).rc = List.countP _ (⟨i, g, o, r⟩ :: s.refs) + (upd s.busy i ((s.busy i).erase t) j).length
    rw [sr]
    by_cases hj : j = i
    · subst hj; rw [upd_same, List.countP_cons]; simp only [decide_true, if_true]; omega
    · rw [upd_ne _ _ hj, List.countP_cons]
      rw [if_neg (by simpa using fun e => hj e.symm)]; exact h.rc j
  · intro j hj; show _ ∧ 0 < (upd s.slot i _ j).rc
    rw [sr]
    replace hj : upd s.own i .live j = .live := hj
    by_cases hji : j = i
    · subst hji; exact ⟨hi, by omega⟩
    · rw [upd_ne _ _ hji] at hj; exact h.live j hj
  · intro j hj d hd
    replace hj : upd s.own i .live j ≠ .live := hj
    replace hd : d ∈ (⟨i, g, o, r⟩ :: s.refs : List Desc) := hd
    by_cases hji : j = i
    · subst hji; rw [upd_same] at hj; exact absurd rfl hj
    · rw [upd_ne _ _ hji] at hj
      rcases List.mem_cons.mp hd with rfl | hd
      · exact fun e => hji e.symm
      · exact h.noRef j hj d hd
  · intro j hj; show upd s.busy i ((s.busy i).erase t) j = []
    replace hj : upd s.own i .live j = .free := hj
    by_cases hji : j = i
    · subst hji; rw [upd_same] at hj; simp at hj
    · rw [upd_ne _ _ hji] at hj; rw [upd_ne _ _ hji]; exact h.freeIdle j hj
  · intro j u hj; show custody (upd s.thr t _ u) ≠ _ → upd s.busy i ((s.busy i).erase t) j = []
    replace hj : upd s.own i .live j = .held u := hj
    by_cases hji : j = i
    · subst hji; rw [upd_same] at hj; simp at hj
    · rw [upd_ne _ _ hji] at hj; rw [upd_ne _ _ hji, upd_ne _ _ (nheld j u hji hj)]; exact h.heldIdle j u hj
  · intro d hd
    show d ∈ (⟨i, g, o, r⟩ :: s.issued : List Desc) ∧ _ = (upd s.slot i _ d.slot).gen
    replace hd : d ∈ (⟨i, g, o, r⟩ :: s.refs : List Desc) := hd
    rw [sg]
    rcases List.mem_cons.mp hd with rfl | hd
    · exact ⟨List.mem_cons_self, hg.symm⟩
    · exact ⟨List.mem_cons_of_mem _ (h.refs d hd).1, (h.refs d hd).2⟩
  · intro d hd
    replace hd : d ∈ (⟨i, g, o, r⟩ :: s.issued : List Desc) := hd
    show _ ≤ (upd s.slot i _ d.slot).gen ∧ (_ = (upd s.slot i _ d.slot).gen → _ = (upd s.slot i _ d.slot).offset ∧ _ = (upd s.slot i _ d.slot).size)
    rw [sg, so, ss]
    rcases List.mem_cons.mp hd with rfl | hd
    · exact ⟨Nat.le_of_eq hg.symm, fun _ => ⟨hof.symm, hsz.symm⟩⟩
    · exact h.issued d hd
  · intro j; show (upd s.slot i _ j).offset + (upd s.slot i _ j).cap ≤ _; rw [so, sc]; exact h.below j
  · intro j; show (upd s.slot i _ j).size ≤ (upd s.slot i _ j).cap; rw [ss, sc]; exact h.fits j
  · intro j k; show _ → apart (upd s.slot i _ j).offset (upd s.slot i _ j).cap (upd s.slot i _ k).offset (upd s.slot i _ k).cap
    rw [so, so, sc, sc]; exact h.disj j k
  · intro u o a hu; exact h.pendBelow u o a (npend u o a hu)
  · intro u o a hu j; show apart o a (upd s.slot i _ j).offset (upd s.slot i _ j).cap
    rw [so, sc]; exact h.pendSlot u o a (npend u o a hu) j
  · intro u v o a o' a' huv hu hv; exact h.pendPend u v o a o' a' huv (npend _ _ _ hu) (npend _ _ _ hv)
  · exact h.bumpLe
  · exact h.above
  · intro j y; show (upd s.slot i _ j).offset + (upd s.slot i _ j).size ≤ y → y < (upd s.slot i _ j).offset + (upd s.slot i _ j).cap → _
    rw [so, ss, sc]; exact h.dirt j y
  · intro j y hj hfr; show (upd s.slot i _ j).offset ≤ y → y < (upd s.slot i _ j).offset + (upd s.slot i _ j).cap → _
    replace hfr : upd s.own i .live j = .free := hfr
    rw [so, sc]
    by_cases hji : j = i
    · subst hji; rw [upd_same] at hfr; simp at hfr
    · rw [upd_ne _ _ hji] at hfr; exact h.cleanFree j y hj hfr
  · intro j u y hj; show unscrubbed (upd s.thr t _ u) = _ → (upd s.slot i _ j).offset ≤ y → y < (upd s.slot i _ j).offset + (upd s.slot i _ j).cap → _
    replace hj : upd s.own i .live j = .held u := hj
    rw [so, sc]
    by_cases hji : j = i
    · subst hji; rw [upd_same] at hj; simp at hj
    · rw [upd_ne _ _ hji] at hj; rw [upd_ne _ _ (nheld j u hji hj)]; exact h.cleanHeld j u y hj
  · intro u o a y hu; exact h.pendClean u o a y (npend _ _ _ hu)
  · intro u
    show PcInv c _ (upd s.thr t .idle u)
    by_cases hut : u = t
    · subst hut; rw [upd_same]; trivial
    · rw [upd_ne _ _ hut]
      refine pcInv_frame (h.pc u) (Or.inl ⟨rfl, rfl, fun _ _ => sn _⟩) (fun _ _ => sg _)
        (fun _ _ => ⟨so _, ss _, sc _, sn _⟩) (fun _ hd => List.mem_cons_of_mem _ hd) (fun d hd => ?_)
      replace hd : d ∈ (⟨i, g, o, r⟩ :: s.issued : List Desc) := hd
      rcases List.mem_cons.mp hd with rfl | hd
      · right
        intro e
        have := (h.holds u i e).1
        rw [ho] at this; simp at this; exact hut this.symm
      · exact Or.inl hd
  · intro j hj
    show (upd s.slot i _ j).alloc = true
    replace hj : upd s.own i .live j = .live := hj
    by_cases hji : j = i
    · subst hji; rw [upd_same]
    · rw [upd_ne _ _ hji] at hj; rw [upd_ne _ _ hji]; exact h.flag j hj

/-- A store through a held reference. -/
theorem inv_write {c : Cfg} {s : St} {d : Desc} {x v : Nat} (h : Inv c s) (hd : d ∈ s.refs) (hx : x < d.size) :
    Inv c { s with mem := upd s.mem (d.offset + x) v } := by
  obtain ⟨hi, hg⟩ := h.refs d hd
  obtain ⟨eo, es⟩ := (h.issued d hi).2 hg
  have hlive : s.own d.slot = .live := by
    by_contra hn; exact h.noRef _ hn d hd rfl
  have hfit := h.fits d.slot
  have hbel := h.below d.slot
  have keep : ∀ y, y ≠ d.offset + x → s.mem y = 0 → upd s.mem (d.offset + x) v y = 0 := by
    intro y hy h0; rw [upd_ne _ _ hy]; exact h0
  have ap : ∀ j y, j ≠ d.slot → (s.slot j).offset ≤ y → y < (s.slot j).offset + (s.slot j).cap → y ≠ d.offset + x := by
    intro j y hj y1 y2
    have := h.disj j d.slot hj
    unfold apart at this
    omega
  constructor
  · exact h.nodup
  · exact h.free
  · exact h.hd
  · exact h.chn
  · exact h.holds
  · exact h.held
  · exact h.cust
  · exact h.busy
  · exact h.busyND
  · exact h.rc
  · exact h.live
  · exact h.noRef
  · exact h.freeIdle
  · exact h.heldIdle
  · exact h.refs
  · exact h.issued
  · exact h.below
  · exact h.fits
  · exact h.disj
  · exact h.pendBelow
  · exact h.pendSlot
  · exact h.pendPend
  · exact h.bumpLe
  · intro y hy
    replace hy : s.bump ≤ y := hy
    exact keep y (by omega) (h.above y hy)
  · intro j y y1 y2
    replace y1 : (s.slot j).offset + (s.slot j).size ≤ y := y1
    replace y2 : y < (s.slot j).offset + (s.slot j).cap := y2
    refine keep y ?_ (h.dirt j y y1 y2)
    by_cases hj : j = d.slot
    · subst hj; omega
    · exact ap j y hj (by omega) y2
  · intro j y y0 y1 y2 y3
    refine keep y (ap j y ?_ y2 y3) (h.cleanFree j y y0 y1 y2 y3)
    exact ne_of_own (s := s) y1 hlive (by simp)
  · intro j u y y1 yu y2 y3
    refine keep y (ap j y ?_ y2 y3) (h.cleanHeld j u y y1 yu y2 y3)
    exact ne_of_own (s := s) y1 hlive (by simp)
  · intro u o a y hu y1 y2
    refine keep y ?_ (h.pendClean u o a y hu y1 y2)
    have := h.pendSlot u o a hu d.slot
    unfold apart at this
    omega
  · intro u
    exact pcInv_frame (h.pc u) (Or.inl ⟨rfl, rfl, fun _ _ => rfl⟩) (fun _ _ => rfl)
      (fun _ _ => ⟨rfl, rfl, rfl, rfl⟩) (fun _ hd => hd) (fun _ hd => Or.inl hd)
  · exact h.flag

theorem inv_crash {c : Cfg} {s : St} {p : Nat} (h : Inv c s) : Inv c { s with dead := p :: s.dead } := by
  constructor
  · exact h.nodup
  · exact h.free
  · exact h.hd
  · exact h.chn
  · exact h.holds
  · exact h.held
  · exact h.cust
  · exact h.busy
  · exact h.busyND
  · exact h.rc
  · exact h.live
  · exact h.noRef
  · exact h.freeIdle
  · exact h.heldIdle
  · exact h.refs
  · exact h.issued
  · exact h.below
  · exact h.fits
  · exact h.disj
  · exact h.pendBelow
  · exact h.pendSlot
  · exact h.pendPend
  · exact h.bumpLe
  · exact h.above
  · exact h.dirt
  · exact h.cleanFree
  · exact h.cleanHeld
  · exact h.pendClean
  · intro u
    exact pcInv_frame (h.pc u) (Or.inl ⟨rfl, rfl, fun _ _ => rfl⟩) (fun _ _ => rfl)
      (fun _ _ => ⟨rfl, rfl, rfl, rfl⟩) (fun _ hd => hd) (fun _ hd => Or.inl hd)
  · exact h.flag

/-! ### Reference counts -/

/-- A thread in custody of a unit of a live slot gives it up, with others remaining. -/
theorem inv_dec {c : Cfg} {s : St} {t i : Nat} (h : Inv c s) (h1 : holds (s.thr t) = none)
    (h2 : pend c (s.thr t) = none) (h3 : custody (s.thr t) = some i) (hrc : (s.slot i).rc ≠ 1) :
    Inv c (rcStep s t i ((s.slot i).rc - 1) ((s.busy i).erase t) s.refs .idle) := by
  have htb := h.cust t i h3
  have hpos := List.length_pos_of_mem htb
  have hr := h.rc i
  have hlen : ((s.busy i).erase t).length + 1 = (s.busy i).length := by
    rw [List.length_erase_of_mem htb]; omega
  refine inv_rc h h1 h2 rfl rfl (fun u hu => List.mem_erase_of_ne hu) ((h.busyND i).erase t) ?_ ?_ ?_
    (fun _ _ => rfl) ?_ (fun d hd => Or.inl hd) ?_ ?_ trivial
  · simp only [custody, (by simp : (none : Option Nat) = some i ↔ False), iff_false]
    exact List.Nodup.not_mem_erase (h.busyND i)
  · intro j hj; rw [h3]; simp [custody, Ne.symm hj]
  · omega
  · intro _; omega
  · intro ho; have := h.freeIdle i ho; rw [this] at htb; simp at htb
  · intro u ho hc; have := h.heldIdle i u ho hc; rw [this] at htb; simp at htb

theorem rcStep_dec (s : St) (t i : Nat) :
    rcStep s t i ((s.slot i).rc - 1) ((s.busy i).erase t) s.refs .idle =
    setThr (drop (setSlot s i { s.slot i with rc := (s.slot i).rc - 1 }) t i) t .idle := rfl

/-- A user's reference passes into the custody of a thread. -/
theorem inv_take {c : Cfg} {s : St} {t : Nat} {d : Desc} {pc' : Pc} (h : Inv c s) (hd : d ∈ s.refs)
    (ht : s.thr t = .idle) (p1 : holds pc' = none) (p2 : pend c pc' = none) (p3 : custody pc' = some d.slot)
    (hp : PcInv c s pc') : Inv c (setThr (take s t d) t pc') := by
  have hlive : s.own d.slot = .live := by
    by_contra hn; exact h.noRef _ hn d hd rfl
  have htb : ∀ j, t ∉ s.busy j := by
    intro j hm; have := h.busy t j hm; rw [ht] at this; simp [custody] at this
  have hr := h.rc d.slot
  have hl := h.live _ hlive
  have hc : 0 < s.refs.countP (fun e => decide (e.slot = d.slot)) := List.countP_pos_iff.mpr ⟨d, hd, by simp⟩
  have e : setThr (take s t d) t pc' =
      rcStep s t d.slot (s.slot d.slot).rc (t :: s.busy d.slot) (s.refs.erase d) pc' := by
    unfold rcStep setThr take
    rw [show ({ s.slot d.slot with rc := (s.slot d.slot).rc } : Slot) = s.slot d.slot from rfl, upd_self]
  rw [e]
  refine inv_rc h (by rw [ht]; rfl) (by rw [ht]; rfl) p1 p2 ?_ ?_ ?_ ?_ ?_ ?_ (fun _ => hl.2) ?_ ?_ ?_ hp
  · intro u hu; simp [hu]
  · exact List.nodup_cons.mpr ⟨htb _, h.busyND _⟩
  · simp [p3]
  · intro j hj; rw [ht, p3]; simp [custody, Ne.symm hj]
  · rw [List.countP_erase]; simp only [hd, decide_true, true_and, if_true, List.length_cons]; omega
  · intro j hj
    rw [List.countP_erase, if_neg]
    · rfl
    · simp [Ne.symm hj]
  · intro x hx; exact Or.inl (List.mem_of_mem_erase hx)
  · intro ho; rw [hlive] at ho; simp at ho
  · intro u ho; rw [hlive] at ho; simp at ho

theorem live_of_rc {c : Cfg} {s : St} {d : Desc} (h : Inv c s) (hi : d ∈ s.issued)
    (hg : (s.slot d.slot).gen = d.gen) {t : Nat} (ht : t ∈ s.busy d.slot) : s.own d.slot = .live := by
  cases ho : s.own d.slot with
  | free => have := h.freeIdle _ ho; rw [this] at ht; simp at ht
  | live => rfl
  | held u =>
    exfalso
    have hu := h.held _ u ho
    by_cases hcu : custody (s.thr u) = some d.slot
    · have hp := h.pc u
      cases hpc : s.thr u <;> rw [hpc] at hu hcu hp <;> simp only [holds, custody, reduceCtorEq, Option.some.injEq] at hu hcu
      obtain ⟨⟨e, hf⟩, _⟩ := hp
      have := hf d hi hu.symm
      subst hu; omega
    · have := h.heldIdle _ u ho hcu; rw [this] at ht; simp at ht

/-- The custody of a unit passes to the user as `refs' = d :: refs`. -/
theorem inv_give {c : Cfg} {s : St} {t : Nat} {d : Desc} (h : Inv c s) (hi : d ∈ s.issued)
    (hg : (s.slot d.slot).gen = d.gen)
    (h1 : holds (s.thr t) = none) (h2 : pend c (s.thr t) = none) (h3 : custody (s.thr t) = some d.slot) :
    Inv c (setThr (giveBack s t d) t .idle) := by
  have htb := h.cust t _ h3
  have hlive := live_of_rc h hi hg htb
  have hpos := List.length_pos_of_mem htb
  have hr := h.rc d.slot
  have hlen : ((s.busy d.slot).erase t).length + 1 = (s.busy d.slot).length := by
    rw [List.length_erase_of_mem htb]; omega
  have e : setThr (giveBack s t d) t .idle =
      rcStep s t d.slot (s.slot d.slot).rc ((s.busy d.slot).erase t) (d :: s.refs) .idle := by
    unfold rcStep setThr giveBack drop
    rw [show ({ s.slot d.slot with rc := (s.slot d.slot).rc } : Slot) = s.slot d.slot from rfl, upd_self]
  rw [e]
  refine inv_rc h h1 h2 rfl rfl (fun u hu => List.mem_erase_of_ne hu) ((h.busyND _).erase t) ?_ ?_ ?_
    ?_ ?_ ?_ ?_ ?_ trivial
  · simp only [custody, (by simp : (none : Option Nat) = some d.slot ↔ False), iff_false]
    exact List.Nodup.not_mem_erase (h.busyND _)
  · intro j hj; rw [h3]; simp [custody, Ne.symm hj]
  · rw [List.countP_cons]; simp only [decide_true, if_true]; omega
  · intro j hj; rw [List.countP_cons, if_neg (by simpa using Ne.symm hj)]; rfl
  · intro _; omega
  · intro x hx
    rcases List.mem_cons.mp hx with rfl | hx
    · exact Or.inr ⟨rfl, hlive, hi, hg.symm⟩
    · exact Or.inl hx
  · intro ho; rw [hlive] at ho; simp at ho
  · intro u ho; rw [hlive] at ho; simp at ho

/-- A successful retain. -/
theorem inv_keep {c : Cfg} {s : St} {t : Nat} {d : Desc} (h : Inv c s) (hi : d ∈ s.issued)
    (hg : (s.slot d.slot).gen = d.gen)
    (h1 : holds (s.thr t) = none) (h2 : pend c (s.thr t) = none) (h3 : custody (s.thr t) = some d.slot) :
    Inv c (rcStep s t d.slot ((s.slot d.slot).rc + 1) ((s.busy d.slot).erase t) (d :: d :: s.refs) .idle) := by
  have htb := h.cust t _ h3
  have hlive := live_of_rc h hi hg htb
  have hpos := List.length_pos_of_mem htb
  have hr := h.rc d.slot
  have hlen : ((s.busy d.slot).erase t).length + 1 = (s.busy d.slot).length := by
    rw [List.length_erase_of_mem htb]; omega
  refine inv_rc h h1 h2 rfl rfl (fun u hu => List.mem_erase_of_ne hu) ((h.busyND _).erase t) ?_ ?_ ?_
    ?_ ?_ ?_ ?_ ?_ trivial
  · simp only [custody, (by simp : (none : Option Nat) = some d.slot ↔ False), iff_false]
    exact List.Nodup.not_mem_erase (h.busyND _)
  · intro j hj; rw [h3]; simp [custody, Ne.symm hj]
  · rw [List.countP_cons, List.countP_cons]; simp only [decide_true, if_true]; omega
  · intro j hj
    rw [List.countP_cons, List.countP_cons, if_neg (by simpa using Ne.symm hj)]; rfl
  · intro _; omega
  · intro x hx
    rcases List.mem_cons.mp hx with rfl | hx
    · exact Or.inr ⟨rfl, hlive, hi, hg.symm⟩
    · rcases List.mem_cons.mp hx with rfl | hx
      · exact Or.inr ⟨rfl, hlive, hi, hg.symm⟩
      · exact Or.inl hx
  · intro ho; rw [hlive] at ho; simp at ho
  · intro u ho; rw [hlive] at ho; simp at ho

/-- try_retain counts itself before it knows whether the descriptor is current. -/
theorem inv_tryInc {c : Cfg} {s : St} {t : Nat} {d : Desc} {cur : Nat} (h : Inv c s)
    (hpc : s.thr t = .tryCas d cur) (hrc : (s.slot d.slot).rc = cur) :
    Inv c (rcStep s t d.slot (cur + 1) (t :: s.busy d.slot) s.refs (.tryCheck d)) := by
  have hp := h.pc t
  rw [hpc] at hp
  obtain ⟨hi, h0⟩ := hp
  have hct : custody (s.thr t) = none := by rw [hpc]; rfl
  have htb : ∀ j, t ∉ s.busy j := by
    intro j hm; have := h.busy t j hm; rw [hct] at this; simp at this
  have hr := h.rc d.slot
  have hz : ∀ a, s.own d.slot = a → a ≠ .live → s.busy d.slot ≠ [] := by
    intro a ha hn hb
    have hno := h.noRef d.slot (by rw [ha]; exact hn)
    have : s.refs.countP (fun e => decide (e.slot = d.slot)) = 0 := by
      rw [List.countP_eq_zero]; intro e he; simp [hno e he]
    rw [this, hb] at hr; simp at hr; omega
  refine inv_rc h (by rw [hpc]; rfl) (by rw [hpc]; rfl) rfl rfl ?_ ?_ ?_ ?_ ?_ (fun _ _ => rfl) ?_
    (fun _ hd => Or.inl hd) ?_ ?_ hi
  · intro u hu; simp [hu]
  · exact List.nodup_cons.mpr ⟨htb _, h.busyND _⟩
  · simp [custody]
  · intro j hj; rw [hct]; simp [custody, Ne.symm hj]
  · rw [List.length_cons]; omega
  · intro _; omega
  · intro ho; exact absurd (h.freeIdle _ ho) (hz _ ho (by simp))
  · intro u ho hc; exact absurd (h.heldIdle _ u ho hc) (hz _ ho (by simp))

/-! ### Every proper action -/

theorem inv_start {c : Cfg} {s : St} {t : Nat} {op : Op} (h : Inv c s) (ht : s.thr t = .idle)
    (hp : Proper s (.start t op)) : Inv c (start s t op) := by
  cases op with
  | alloc r =>
    exact inv_pc h (by rw [ht]; rfl) (by rw [ht]; rfl) (by rw [ht]; rfl) (by rw [ht]; rfl) trivial
  | tryRetain d =>
    exact inv_pc h (by rw [ht]; rfl) (by rw [ht]; rfl) (by rw [ht]; rfl) (by rw [ht]; rfl) hp
  | release d => exact inv_take h hp ht rfl rfl rfl ⟨(h.refs d hp).2.symm, (h.refs d hp).1⟩
  | retain d => exact inv_take h hp ht rfl rfl rfl ⟨(h.refs d hp).2.symm, (h.refs d hp).1⟩

theorem inv_stepThr {c : Cfg} {s : St} {t : Nat} {ok : Bool} (h : Inv c s) (hpr : Proper s (.step t ok)) :
    Inv c (stepThr c s t ok) := by
  have hp := h.pc t
  unfold stepThr
  cases hpc : s.thr t with
  | idle => exact h
  | popHead r ag =>
    dsimp only
    have hd := h.hd
    cases hh : s.head.2 with
    | none =>
      dsimp only
      cases ag <;> exact inv_pc h (by rw [hpc]; rfl) (by rw [hpc]; rfl) (by rw [hpc]; rfl) (by rw [hpc]; rfl) trivial
    | some i =>
      refine inv_pc h (by rw [hpc]; rfl) (by rw [hpc]; rfl) (by rw [hpc]; rfl) (by rw [hpc]; rfl) ?_
      exact ⟨Nat.le_refl _, fun _ => by rw [← hd, hh]⟩
  | popNext r ag tag i =>
    rw [hpc] at hp
    exact inv_pc h (by rw [hpc]; rfl) (by rw [hpc]; rfl) (by rw [hpc]; rfl) (by rw [hpc]; rfl)
      ⟨hp.1, fun e => ⟨hp.2 e, rfl⟩⟩
  | popCas r ag tag i nx =>
    dsimp only
    split
    · rename_i hc; exact inv_pop h hpc hc.2
    · exact inv_pc h (by rw [hpc]; rfl) (by rw [hpc]; rfl) (by rw [hpc]; rfl) (by rw [hpc]; rfl) trivial
  | claimOwner r i =>
    exact inv_held h (by rw [hpc]; rfl) (by rw [hpc]; rfl) (by rw [hpc]; rfl) rfl rfl (by rw [hpc]; rfl) rfl rfl rfl rfl
      (h.fits i) (fun d hd e => by subst e; exact h.issued d hd) trivial
  | claimFlags r i =>
    exact inv_held h (by rw [hpc]; rfl) (by rw [hpc]; rfl) (by rw [hpc]; rfl) rfl rfl (by rw [hpc]; rfl) rfl rfl rfl rfl
      (h.fits i) (fun d hd e => by subst e; exact h.issued d hd) trivial
  | choose r i =>
    dsimp only
    split
    · rename_i hc
      exact inv_pc h (by rw [hpc]; rfl) (by rw [hpc]; rfl) (by rw [hpc]; rfl) (by rw [hpc]; rfl) hc.2
    · exact inv_pc h (by rw [hpc]; rfl) (by rw [hpc]; rfl) (by rw [hpc]; rfl) (by rw [hpc]; rfl) trivial
  | reuseGen r i =>
    rw [hpc] at hp
    refine inv_held h (by rw [hpc]; rfl) (by rw [hpc]; rfl) (by rw [hpc]; rfl) rfl rfl (by rw [hpc]; rfl) rfl rfl rfl rfl
      (h.fits i) (fun d hd e => ?_) ?_
    · subst e; have := (h.issued d hd).1; exact ⟨Nat.le_succ_of_le this, fun e => by simp only at e; omega⟩
    · have e1 : (setSlot s i { s.slot i with gen := (s.slot i).gen + 1 }).slot i = { s.slot i with gen := (s.slot i).gen + 1 } :=
        upd_same _ _ _
      simp only [PcInv, freshGenOk, e1]
      refine ⟨hp, trivial, fun d hd e => ?_⟩
      subst e; exact Nat.lt_succ_of_le (h.issued d hd).1
  | setSize r i g =>
    rw [hpc] at hp
    obtain ⟨hcap, hg, hf⟩ := hp
    refine inv_held h (by rw [hpc]; rfl) (by rw [hpc]; rfl) (by rw [hpc]; rfl) rfl rfl (by rw [hpc]; rfl) rfl rfl rfl rfl
      (Nat.le_trans (le_roundUp c r) hcap) (fun d hd e => ?_) ?_
    · have := hf d hd e; simp only; exact ⟨by omega, fun e => by omega⟩
    · have e1 : (setSlot s i { s.slot i with size := r }).slot i = { s.slot i with size := r } := upd_same _ _ _
      simp only [PcInv, freshGenOk, e1]
      exact ⟨⟨hg, hf⟩, trivial, trivial⟩
  | bumpLoad r i =>
    dsimp only
    split
    · exact inv_pc h (by rw [hpc]; rfl) (by rw [hpc]; rfl) (by rw [hpc]; rfl) (by rw [hpc]; rfl) trivial
    · rename_i hc
      exact inv_pc h (by rw [hpc]; rfl) (by rw [hpc]; rfl) (by rw [hpc]; rfl) (by rw [hpc]; rfl) (Nat.le_of_not_lt hc)
  | bumpCas r i cur =>
    dsimp only
    split
    · rename_i hc
      obtain ⟨_, rfl⟩ := hc
      exact inv_bump h hpc
    · exact inv_pc h (by rw [hpc]; rfl) (by rw [hpc]; rfl) (by rw [hpc]; rfl) (by rw [hpc]; rfl) trivial
  | freshGen r i o =>
    refine inv_held h (by rw [hpc]; rfl) (by rw [hpc]; rfl) (by rw [hpc]; rfl) rfl rfl (by rw [hpc]; rfl) rfl rfl rfl rfl
      (h.fits i) (fun d hd e => ?_) ?_
    · subst e; have := (h.issued d hd).1; exact ⟨Nat.le_succ_of_le this, fun e => by simp only at e; omega⟩
    · have e1 : (setSlot s i { s.slot i with gen := (s.slot i).gen + 1 }).slot i = { s.slot i with gen := (s.slot i).gen + 1 } :=
        upd_same _ _ _
      simp only [PcInv, freshGenOk, e1]
      refine ⟨trivial, fun d hd e => ?_⟩
      subst e; exact Nat.lt_succ_of_le (h.issued d hd).1
  | fields r i g o => exact inv_fields h hpc
  | setOwner r i g o =>
    rw [hpc] at hp
    refine inv_held h (by rw [hpc]; rfl) (by rw [hpc]; rfl) (by rw [hpc]; rfl) rfl rfl (by rw [hpc]; rfl) rfl rfl rfl rfl
      (h.fits i) (fun d hd e => by subst e; exact h.issued d hd) ?_
    have e1 : (setSlot s i { s.slot i with owner := c.pid t }).slot i = { s.slot i with owner := c.pid t } := upd_same _ _ _
    simp only [PcInv, freshGenOk, e1]
    exact hp
  | setRc r i g o => exact inv_setRc h hpc
  | setFlags r i g o => exact inv_finish h hpc
  | relGen d =>
    rw [hpc] at hp
    dsimp only
    rw [if_pos hp.1]
    exact inv_pc h (by rw [hpc]; rfl) (by rw [hpc]; rfl) (by rw [hpc]; rfl) (by rw [hpc]; rfl) hp
  | relLoad d =>
    rw [hpc] at hp
    dsimp only
    have htb := h.cust t d.slot (by rw [hpc]; rfl)
    have hr := h.rc d.slot
    have hpos := List.length_pos_of_mem htb
    rw [if_neg (by omega)]
    exact inv_pc h (by rw [hpc]; rfl) (by rw [hpc]; rfl) (by rw [hpc]; rfl) (by rw [hpc]; rfl)
      ⟨hp.1, hp.2, by omega⟩
  | relCas d cur =>
    rw [hpc] at hp
    dsimp only
    split
    · rename_i hc
      obtain ⟨_, rfl⟩ := hc
      split
      · rename_i h1
        have := inv_last (c := c) (t := t) (i := d.slot) h (by rw [hpc]; rfl) (by rw [hpc]; rfl) (by rw [hpc]; rfl) h1
        rw [h1]; exact this
      · rename_i h1
        rw [← rcStep_dec]
        exact inv_dec h (by rw [hpc]; rfl) (by rw [hpc]; rfl) (by rw [hpc]; rfl) h1
    · exact inv_pc h (by rw [hpc]; rfl) (by rw [hpc]; rfl) (by rw [hpc]; rfl) (by rw [hpc]; rfl) ⟨hp.1, hp.2.1⟩
  | keepGen d =>
    rw [hpc] at hp
    dsimp only
    rw [if_pos hp.1]
    exact inv_pc h (by rw [hpc]; rfl) (by rw [hpc]; rfl) (by rw [hpc]; rfl) (by rw [hpc]; rfl) hp
  | keepLoad d =>
    rw [hpc] at hp
    dsimp only
    have htb := h.cust t d.slot (by rw [hpc]; rfl)
    have hr := h.rc d.slot
    have hpos := List.length_pos_of_mem htb
    rw [if_neg (by omega)]
    exact inv_pc h (by rw [hpc]; rfl) (by rw [hpc]; rfl) (by rw [hpc]; rfl) (by rw [hpc]; rfl)
      ⟨hp.1, hp.2, by omega⟩
  | keepCas d cur =>
    rw [hpc] at hp
    dsimp only
    split
    · rename_i hc
      obtain ⟨_, rfl⟩ := hc
      exact inv_keep h hp.2.1 hp.1 (by rw [hpc]; rfl) (by rw [hpc]; rfl) (by rw [hpc]; rfl)
    · exact inv_pc h (by rw [hpc]; rfl) (by rw [hpc]; rfl) (by rw [hpc]; rfl) (by rw [hpc]; rfl) ⟨hp.1, hp.2.1⟩
  | tryGen d =>
    rw [hpc] at hp
    dsimp only
    split
    · exact inv_pc h (by rw [hpc]; rfl) (by rw [hpc]; rfl) (by rw [hpc]; rfl) (by rw [hpc]; rfl) hp
    · exact inv_pc h (by rw [hpc]; rfl) (by rw [hpc]; rfl) (by rw [hpc]; rfl) (by rw [hpc]; rfl) trivial
  | tryLoad d =>
    rw [hpc] at hp
    dsimp only
    split
    · exact inv_pc h (by rw [hpc]; rfl) (by rw [hpc]; rfl) (by rw [hpc]; rfl) (by rw [hpc]; rfl) trivial
    · rename_i hc
      exact inv_pc h (by rw [hpc]; rfl) (by rw [hpc]; rfl) (by rw [hpc]; rfl) (by rw [hpc]; rfl)
        ⟨hp, Nat.pos_of_ne_zero hc⟩
  | tryCas d cur =>
    rw [hpc] at hp
    dsimp only
    split
    · rename_i hc
      exact inv_tryInc h hpc hc.2
    · exact inv_pc h (by rw [hpc]; rfl) (by rw [hpc]; rfl) (by rw [hpc]; rfl) (by rw [hpc]; rfl) hp.1
  | tryCheck d =>
    rw [hpc] at hp
    dsimp only
    split
    · rename_i hc
      exact inv_give h hp hc (by rw [hpc]; rfl) (by rw [hpc]; rfl) (by rw [hpc]; rfl)
    · exact inv_pc h (by rw [hpc]; rfl) (by rw [hpc]; rfl) (by rw [hpc]; rfl) (by rw [hpc]; rfl) hp
  | tryUndo d =>
    dsimp only
    split
    · rename_i h1
      have := inv_last (c := c) (t := t) (i := d.slot) h (by rw [hpc]; rfl) (by rw [hpc]; rfl) (by rw [hpc]; rfl) h1
      rw [h1]; exact this
    · rename_i h1
      rw [← rcStep_dec]
      exact inv_dec h (by rw [hpc]; rfl) (by rw [hpc]; rfl) (by rw [hpc]; rfl) h1
  | retZero i => exact inv_zero h hpc
  | retOwner i =>
    exact inv_held h (by rw [hpc]; rfl) (by rw [hpc]; rfl) (by rw [hpc]; rfl) rfl rfl (by rw [hpc]; rfl) rfl rfl rfl rfl
      (h.fits i) (fun d hd e => by subst e; exact h.issued d hd) trivial
  | retFlags i =>
    exact inv_held h (by rw [hpc]; rfl) (by rw [hpc]; rfl) (by rw [hpc]; rfl) rfl rfl (by rw [hpc]; rfl) rfl rfl rfl rfl
      (h.fits i) (fun d hd e => by subst e; exact h.issued d hd) trivial
  | pushHead i k =>
    exact inv_pc h (by rw [hpc]; rfl) (by rw [hpc]; rfl) (by rw [hpc]; rfl) (by rw [hpc]; rfl)
      ⟨Nat.le_refl _, fun _ => h.hd⟩
  | pushNext i k tag hh =>
    rw [hpc] at hp
    refine inv_held h (by rw [hpc]; rfl) (by rw [hpc]; rfl) (by rw [hpc]; rfl) rfl rfl (by rw [hpc]; rfl) rfl rfl rfl rfl
      (h.fits i) (fun d hd e => by subst e; exact h.issued d hd) ?_
    have e1 : (setSlot s i { s.slot i with next := hh }).slot i = { s.slot i with next := hh } := upd_same _ _ _
    simp only [PcInv, e1]
    exact ⟨hp.1, hp.2, trivial⟩
  | pushCas i k tag hh =>
    dsimp only
    split
    · rename_i hc; exact inv_push h hpc hc.2
    · exact inv_pc h (by rw [hpc]; rfl) (by rw [hpc]; rfl) (by rw [hpc]; rfl) (by rw [hpc]; rfl) trivial
  | scanFlags r j n =>
    dsimp only
    split
    · split
      · exact inv_pc h (by rw [hpc]; rfl) (by rw [hpc]; rfl) (by rw [hpc]; rfl) (by rw [hpc]; rfl) trivial
      · exact inv_pc h (by rw [hpc]; rfl) (by rw [hpc]; rfl) (by rw [hpc]; rfl) (by rw [hpc]; rfl) trivial
    · split
      · exact inv_pc h (by rw [hpc]; rfl) (by rw [hpc]; rfl) (by rw [hpc]; rfl) (by rw [hpc]; rfl) trivial
      · exact inv_pc h (by rw [hpc]; rfl) (by rw [hpc]; rfl) (by rw [hpc]; rfl) (by rw [hpc]; rfl) trivial
  | scanOwner r j n =>
    simp only [Proper, hpc] at hpr
    dsimp only
    rw [if_pos hpr]
    exact inv_pc h (by rw [hpc]; rfl) (by rw [hpc]; rfl) (by rw [hpc]; rfl) (by rw [hpc]; rfl) trivial
  | scanCas r j n => rw [hpc] at hp; exact absurd hp (by simp [PcInv])
  | scanRc r j n => rw [hpc] at hp; exact absurd hp (by simp [PcInv])
  | scanClear r j n => rw [hpc] at hp; exact absurd hp (by simp [PcInv])
  | scanGen r j n => rw [hpc] at hp; exact absurd hp (by simp [PcInv])

theorem inv_step {c : Cfg} {s : St} {a : Act} (h : Inv c s) (hp : Proper s a) : Inv c (step c s a) := by
  cases a with
  | start t op =>
    unfold step
    dsimp only
    split
    · rename_i hc; exact inv_start h hc.1 hp
    · exact h
  | step t ok =>
    unfold step
    dsimp only
    split
    · exact h
    · exact inv_stepThr h hp
  | write d x v =>
    unfold step
    dsimp only
    split
    · rename_i hc; exact inv_write h hp hc.2.2
    · exact h
  | crash p => exact inv_crash h

theorem inv_run {c : Cfg} {as : List Act} : ∀ {s : St}, Inv c s → ProperRun c s as → Inv c (run c s as) := by
  induction as with
  | nil => exact fun h _ => h
  | cons a as ih => exact fun h hp => ih (inv_step h hp.1) hp.2

end Horus.Pool
