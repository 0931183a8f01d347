import Verif.Safety.Latch
/-
C53: the emergency stop is latched and announced once.
-/
namespace Horus.Safety.Latch
open Horus.Ring (upd upd_same upd_ne)

/-! ### Specification and proofs -/

theorem run_append (s : St) (as bs : List Act) : run s (as ++ bs) = run (run s as) bs := by
  induction as generalizing s with
  | nil => rfl
  | cons a as ih => exact ih _

/-- The thread still owes the slot a reason of this monitor. -/
def owes (m : Nat) : Pc → Bool
  | .trigState m' true _ => m' == m
  | .trigPend m' _ => m' == m
  | _ => false

theorem latched_step (s : St) (a : Act) (m : Nat) (h : s.flag m = true) : (step s a).flag m = true := by
  cases a with
  | trigger t mon r =>
    simp only [step]; split
    · simp only [trigger, upd]; split <;> simp_all
    · exact h
  | extern t =>
    simp only [step]; split
    · unfold extern; split
      · exact h
      · simp only [upd]; split <;> simp_all
    · exact h
  | safe t =>
    simp only [step]; split
    · unfold safe; split
      · exact h
      · unfold extern; split
        · exact h
        · simp only [upd]; split <;> simp_all
    · exact h
  | installStop mon => exact h
  | installSafe mon => exact h
  | take => simp only [step, take]; split <;> exact h
  | next t => simp only [step, next]; split <;> exact h

/-- C53: once the emergency stop of a monitor is raised, it is reported for ever. -/
theorem latched (as bs : List Act) (m : Nat) (h : (run init as).flag m = true) :
    (run init (as ++ bs)).flag m = true := by
  rw [run_append]
  generalize run init as = s at h
  induction bs generalizing s with
  | nil => exact h
  | cons b bs ih => exact ih _ (latched_step s b m h)

/-- The invariant: per monitor, at most one rising edge, and it is either still owed by one thread or
queued once. -/
structure Inv (s : St) : Prop where
  /-- a recorded rising edge means the flag is up -/
  rise_flag : ∀ m ∈ s.localRise, s.flag m = true
  rise_nodup : s.localRise.Nodup
  /-- whoever owes comes from a rising edge, not yet queued -/
  owes_rise : ∀ t m, owes m (s.thr t) = true → m ∈ s.localRise ∧ m ∉ s.queued.map Prod.fst
  owes_uniq : ∀ t t' m, owes m (s.thr t) = true → owes m (s.thr t') = true → t = t'
  queued_rise : ∀ m ∈ s.queued.map Prod.fst, m ∈ s.localRise
  queued_nodup : (s.queued.map Prod.fst).Nodup
  rise_done : ∀ m ∈ s.localRise, (∃ t, owes m (s.thr t) = true) ∨ m ∈ s.queued.map Prod.fst
  /-- what was drained, and what waits, was queued, in order -/
  taken_sub : (s.taken ++ s.pending.toList).Sublist s.queued
  /-- the last queued reason is waiting or drained -/
  last_kept : ∀ p, s.queued.getLast? = some p → (s.taken ++ s.pending.toList).getLast? = some p
  /-- a raised flag is owed a state store or the state was stored since -/
  flag_state : ∀ m, s.flag m = true → s.state m ≠ .normal ∨ ∃ t, (∃ b r, s.thr t = .trigState m b r) ∨ s.thr t = .extState m

theorem inv_init : Inv init where
  rise_flag := by simp [init]
  rise_nodup := by simp [init]
  owes_rise := by simp [init, owes]
  owes_uniq := by simp [init, owes]
  queued_rise := by simp [init]
  queued_nodup := by simp [init]
  rise_done := by simp [init]
  taken_sub := by simp [init]
  last_kept := by simp [init]
  flag_state := by simp [init]


theorem upd_eq {α : Type} (f : Nat → α) (i : Nat) (v : α) (j : Nat) :
    upd f i v j = if j = i then v else f j := rfl

theorem inv_trigger {s : St} (h : Inv s) (t mon r : Nat) (hi : s.thr t = .idle) : Inv (trigger s t mon r) := by
  obtain ⟨h1, h2, h3, h4, h5, h6, h7, h8, h9, h10⟩ := h
  have hno : ∀ m, owes m (s.thr t) = false := by intro m; rw [hi]; rfl
  have hth : ∀ t', (trigger s t mon r).thr t' = if t' = t then .trigState mon (!s.flag mon) r else s.thr t' := fun _ => rfl
  have how : ∀ t' m, owes m ((trigger s t mon r).thr t') = if t' = t then (!s.flag mon && mon == m) else owes m (s.thr t') := by
    intro t' m; rw [hth]; by_cases e : t' = t
    · simp only [if_pos e]; cases s.flag mon <;> rfl
    · simp only [if_neg e]
  have hfl : ∀ m, (trigger s t mon r).flag m = if m = mon then true else s.flag m := fun _ => rfl
  have hst : (trigger s t mon r).state = s.state := rfl
  by_cases hf : s.flag mon = true
  · have hr : (trigger s t mon r).localRise = s.localRise := by simp [trigger, hf]
    have how' : ∀ t' m, owes m ((trigger s t mon r).thr t') = owes m (s.thr t') := by
      intro t' m; rw [how]; split
      · next e => rw [hf, e, hno]; rfl
      · rfl
    refine ⟨?_, hr ▸ h2, ?_, ?_, hr ▸ h5, h6, ?_, h8, h9, ?_⟩
    · intro m hm; rw [hfl]; split
      · rfl
      · exact h1 m (hr ▸ hm)
    · intro t' m; rw [how', hr]; exact h3 t' m
    · intro t' t'' m; rw [how', how']; exact h4 t' t'' m
    · intro m hm; rw [hr] at hm
      rcases h7 m hm with ⟨t', ht'⟩ | hq
      · exact .inl ⟨t', by rw [how']; exact ht'⟩
      · exact .inr hq
    · intro m hm
      by_cases e : m = mon
      · right; refine ⟨t, .inl ⟨!s.flag mon, r, ?_⟩⟩; rw [hth, if_pos rfl, e]
      · rw [hfl, if_neg e] at hm
        rcases h10 m hm with a | ⟨t', ht'⟩
        · exact .inl a
        · right
          refine ⟨t', ?_⟩
          have : t' ≠ t := by rintro rfl; rw [hi] at ht'; simp at ht'
          rw [hth, if_neg this]; exact ht'
  · have hff : s.flag mon = false := by simpa using hf
    have hr : (trigger s t mon r).localRise = s.localRise ++ [mon] := by simp [trigger, hff]
    have hnr : mon ∉ s.localRise := fun hm => hf (h1 mon hm)
    refine ⟨?_, ?_, ?_, ?_, ?_, h6, ?_, h8, h9, ?_⟩
    · intro m hm; rw [hfl]; split
      · rfl
      · next e =>
        rw [hr, List.mem_append, List.mem_singleton] at hm
        exact h1 m (hm.resolve_right e)
    · rw [hr, List.nodup_append]
      exact ⟨h2, by simp, by intro a ha b hb; simp at hb; rintro rfl; exact hnr (hb ▸ ha)⟩
    · intro t' m; rw [how, hr]
      split
      · intro hm
        simp [hff] at hm
        subst hm
        exact ⟨by simp, fun hq => hnr (h5 _ hq)⟩
      · intro hm
        obtain ⟨a, b⟩ := h3 t' m hm
        exact ⟨List.mem_append_left _ a, b⟩
    · intro t' t'' m
      rw [how, how]
      split <;> split
      · intro _ _; omega
      · intro hm hm2
        simp [hff] at hm; subst hm
        exact absurd (h3 _ _ hm2).1 hnr
      · intro hm2 hm
        simp [hff] at hm; subst hm
        exact absurd (h3 _ _ hm2).1 hnr
      · exact h4 t' t'' m
    · intro m hm; rw [hr]; exact List.mem_append_left _ (h5 m hm)
    · intro m hm
      rw [hr, List.mem_append, List.mem_singleton] at hm
      rcases hm with hm | rfl
      · rcases h7 m hm with ⟨t', ht'⟩ | hq
        · left
          refine ⟨t', ?_⟩
          have : t' ≠ t := by rintro rfl; rw [hno] at ht'; simp at ht'
          rw [how, if_neg this]; exact ht'
        · exact .inr hq
      · left; exact ⟨t, by rw [how, if_pos rfl]; simp [hff]⟩
    · intro m hm
      by_cases e : m = mon
      · right; refine ⟨t, .inl ⟨!s.flag mon, r, ?_⟩⟩; rw [hth, if_pos rfl, e]
      · rw [hfl, if_neg e] at hm
        rcases h10 m hm with a | ⟨t', ht'⟩
        · exact .inl a
        · right
          refine ⟨t', ?_⟩
          have : t' ≠ t := by rintro rfl; rw [hi] at ht'; simp at ht'
          rw [hth, if_neg this]; exact ht'

theorem inv_extern {s : St} (h : Inv s) (t : Nat) (hi : s.thr t = .idle) : Inv (extern s t) := by
  unfold extern
  split
  · exact h
  · next mon _ =>
    obtain ⟨h1, h2, h3, h4, h5, h6, h7, h8, h9, h10⟩ := h
    have hno : ∀ m, owes m (s.thr t) = false := by intro m; rw [hi]; rfl
    have how : ∀ t' m, owes m (upd s.thr t (.extState mon) t') = owes m (s.thr t') := by
      intro t' m; rw [upd_eq]; split
      · next e => rw [e, hno]; rfl
      · rfl
    refine ⟨?_, h2, ?_, ?_, h5, h6, ?_, h8, h9, ?_⟩
    · intro m hm; show upd s.flag mon true m = true; rw [upd_eq]; split
      · rfl
      · exact h1 m hm
    · intro t' m; rw [how]; exact h3 t' m
    · intro t' t'' m; rw [how, how]; exact h4 t' t'' m
    · intro m hm
      rcases h7 m hm with ⟨t', ht'⟩ | hq
      · exact .inl ⟨t', by rw [how]; exact ht'⟩
      · exact .inr hq
    · intro m hm
      by_cases e : m = mon
      · right; exact ⟨t, .inr (by show upd s.thr t (.extState mon) t = _; rw [upd_same, e])⟩
      · replace hm : upd s.flag mon true m = true := hm
        rw [upd_eq, if_neg e] at hm
        rcases h10 m hm with a | ⟨t', ht'⟩
        · exact .inl a
        · right
          refine ⟨t', ?_⟩
          have : t' ≠ t := by rintro rfl; rw [hi] at ht'; simp at ht'
          show (∃ b r, upd s.thr t _ t' = _) ∨ upd s.thr t _ t' = _
          rw [upd_ne _ _ this]; exact ht'

theorem inv_next {s : St} (h : Inv s) (t : Nat) : Inv (next s t) := by
  unfold next
  split
  · exact h
  · next mon rising r hpc =>
    obtain ⟨h1, h2, h3, h4, h5, h6, h7, h8, h9, h10⟩ := h
    have how : ∀ t' m, owes m (upd s.thr t (if rising then .trigPend mon r else .idle) t') = owes m (s.thr t') := by
      intro t' m; rw [upd_eq]; split
      · next e => rw [e, hpc]; cases rising <;> rfl
      · rfl
    refine ⟨h1, h2, ?_, ?_, h5, h6, ?_, h8, h9, ?_⟩
    · intro t' m; rw [how]; exact h3 t' m
    · intro t' t'' m; rw [how, how]; exact h4 t' t'' m
    · intro m hm
      rcases h7 m hm with ⟨t', ht'⟩ | hq
      · exact .inl ⟨t', by rw [how]; exact ht'⟩
      · exact .inr hq
    · intro m hm
      by_cases e : m = mon
      · left; show upd s.state mon .emergencyStop m ≠ _; rw [e, upd_same]; simp
      · rcases h10 m hm with a | ⟨t', ht'⟩
        · left; show upd s.state mon .emergencyStop m ≠ _; rw [upd_ne _ _ e]; exact a
        · right
          refine ⟨t', ?_⟩
          have : t' ≠ t := by
            rintro rfl; rw [hpc] at ht'
            simp at ht'; exact e ht'.symm
          show (∃ b r, upd s.thr t _ t' = _) ∨ upd s.thr t _ t' = _
          rw [upd_ne _ _ this]; exact ht'
  · next mon r hpc =>
    obtain ⟨h1, h2, h3, h4, h5, h6, h7, h8, h9, h10⟩ := h
    have hown : owes mon (s.thr t) = true := by rw [hpc]; simp [owes]
    have how : ∀ t' m, owes m (upd s.thr t .idle t') = if t' = t then false else owes m (s.thr t') := by
      intro t' m; rw [upd_eq]; split <;> rfl
    obtain ⟨hmr, hmq⟩ := h3 t mon hown
    have hqm : (s.queued ++ [(mon, r)]).map Prod.fst = s.queued.map Prod.fst ++ [mon] := by simp
    refine ⟨h1, h2, ?_, ?_, ?_, ?_, ?_, ?_, ?_, ?_⟩
    · intro t' m hm
      rw [how] at hm
      split at hm
      · simp at hm
      · next e =>
        obtain ⟨a, b⟩ := h3 t' m hm
        refine ⟨a, ?_⟩
        rw [hqm, List.mem_append, List.mem_singleton]
        rintro (c | rfl)
        · exact b c
        · exact e (h4 t' t m hm hown)
    · intro t' t'' m hm hm2
      rw [how] at hm hm2
      split at hm
      · simp at hm
      · split at hm2
        · simp at hm2
        · exact h4 t' t'' m hm hm2
    · intro m hm
      rw [hqm, List.mem_append, List.mem_singleton] at hm
      rcases hm with hm | rfl
      · exact h5 m hm
      · exact hmr
    · rw [hqm, List.nodup_append]
      exact ⟨h6, by simp, by intro a ha b hb; simp at hb; rintro rfl; exact hmq (hb ▸ ha)⟩
    · intro m hm
      rw [hqm]
      by_cases e : m = mon
      · right; simp [e]
      · rcases h7 m hm with ⟨t', ht'⟩ | hq
        · left
          refine ⟨t', ?_⟩
          have : t' ≠ t := by
            rintro rfl; rw [hpc] at ht'; simp [owes] at ht'; exact e ht'.symm
          rw [how, if_neg this]; exact ht'
        · right; exact List.mem_append_left _ hq
    · show (s.taken ++ [(mon, r)]).Sublist (s.queued ++ [(mon, r)])
      exact List.Sublist.append ((List.sublist_append_left _ _).trans h8) (List.Sublist.refl _)
    · intro p hp
      show (s.taken ++ [(mon, r)]).getLast? = some p
      replace hp : (s.queued ++ [(mon, r)]).getLast? = some p := hp
      simpa using hp
    · intro m hm
      rcases h10 m hm with a | ⟨t', ht'⟩
      · exact .inl a
      · right
        refine ⟨t', ?_⟩
        have : t' ≠ t := by rintro rfl; rw [hpc] at ht'; simp at ht'
        show (∃ b r, upd s.thr t _ t' = _) ∨ upd s.thr t _ t' = _
        rw [upd_ne _ _ this]; exact ht'
  · next mon hpc =>
    obtain ⟨h1, h2, h3, h4, h5, h6, h7, h8, h9, h10⟩ := h
    have how : ∀ t' m, owes m (upd s.thr t .idle t') = owes m (s.thr t') := by
      intro t' m; rw [upd_eq]; split
      · next e => rw [e, hpc]; rfl
      · rfl
    refine ⟨h1, h2, ?_, ?_, h5, h6, ?_, h8, h9, ?_⟩
    · intro t' m; rw [how]; exact h3 t' m
    · intro t' t'' m; rw [how, how]; exact h4 t' t'' m
    · intro m hm
      rcases h7 m hm with ⟨t', ht'⟩ | hq
      · exact .inl ⟨t', by rw [how]; exact ht'⟩
      · exact .inr hq
    · intro m hm
      by_cases e : m = mon
      · left; show upd s.state mon .emergencyStop m ≠ _; rw [e, upd_same]; simp
      · rcases h10 m hm with a | ⟨t', ht'⟩
        · left; show upd s.state mon .emergencyStop m ≠ _; rw [upd_ne _ _ e]; exact a
        · right
          refine ⟨t', ?_⟩
          have : t' ≠ t := by
            rintro rfl; rw [hpc] at ht'
            simp at ht'; exact e ht'.symm
          show (∃ b r, upd s.thr t _ t' = _) ∨ upd s.thr t _ t' = _
          rw [upd_ne _ _ this]; exact ht'

theorem inv_step {s : St} (h : Inv s) (a : Act) : Inv (step s a) := by
  cases a with
  | trigger t mon r =>
    simp only [step]; split
    · next hi => exact inv_trigger h t mon r hi
    · exact h
  | extern t =>
    simp only [step]; split
    · next hi => exact inv_extern h t hi
    · exact h
  | safe t =>
    simp only [step]; split
    · next hi =>
      unfold safe; split
      · next mon _ =>
        obtain ⟨h1, h2, h3, h4, h5, h6, h7, h8, h9, h10⟩ := h
        refine ⟨h1, h2, h3, h4, h5, h6, h7, h8, h9, ?_⟩
        intro m hm
        rcases h10 m hm with a | a
        · left; show upd s.state mon .safeState m ≠ _; rw [upd_eq]; split
          · simp
          · exact a
        · exact .inr a
      · exact inv_extern h t hi
    · exact h
  | installStop mon => obtain ⟨h1, h2, h3, h4, h5, h6, h7, h8, h9, h10⟩ := h; exact ⟨h1, h2, h3, h4, h5, h6, h7, h8, h9, h10⟩
  | installSafe mon => obtain ⟨h1, h2, h3, h4, h5, h6, h7, h8, h9, h10⟩ := h; exact ⟨h1, h2, h3, h4, h5, h6, h7, h8, h9, h10⟩
  | take =>
    simp only [step, take]; split
    · exact h
    · next p hp =>
      obtain ⟨h1, h2, h3, h4, h5, h6, h7, h8, h9, h10⟩ := h
      rw [hp] at h8 h9
      refine ⟨h1, h2, h3, h4, h5, h6, h7, ?_, ?_, h10⟩
      · simpa using h8
      · intro q hq; simpa using h9 q hq
  | next t => exact inv_next h t

theorem inv_run (as : List Act) : Inv (run init as) := by
  have : ∀ (as : List Act) (s : St), Inv s → Inv (run s as) := by
    intro as
    induction as with
    | nil => intro s h; exact h
    | cons a as ih => intro s h; exact ih _ (inv_step h a)
  exact this as _ inv_init

/-- C53: the reasons of one monitor are handed to the network at most once, whatever the interleaving
of triggers, external stops and drains. -/
theorem announced_at_most_once (as : List Act) (m : Nat) :
    ((run init as).taken.filter (·.1 = m)).length ≤ 1 := by
  have h := inv_run as
  have hnd : ((run init as).taken.map Prod.fst).Nodup :=
    List.Nodup.sublist (((List.sublist_append_left _ _).trans h.taken_sub).map _) h.queued_nodup
  revert hnd
  generalize (run init as).taken = l
  induction l with
  | nil => simp
  | cons p l ih =>
    intro hnd
    simp only [List.map_cons, List.nodup_cons] at hnd
    by_cases e : p.1 = m
    · have : l.filter (·.1 = m) = [] := by
        rw [List.filter_eq_nil_iff]
        intro q hq hqm
        simp at hqm
        exact hnd.1 (List.mem_map.2 ⟨q, hq, by rw [hqm, e]⟩)
      simp [List.filter_cons, e, this]
    · simpa [List.filter_cons, e] using ih hnd.2

/-- C53: every announcement comes from a local trigger that raised that monitor's stop. -/
theorem announced_only_local (as : List Act) (p : Nat × Nat) (hp : p ∈ (run init as).taken) :
    p.1 ∈ (run init as).localRise := by
  have h := inv_run as
  exact h.queued_rise _ (List.mem_map.2 ⟨p, ((List.sublist_append_left _ _).trans h.taken_sub).subset hp, rfl⟩)

/-- A monitor stopped without a local rising edge never gets one later. -/
theorem no_late_rise (s : St) (as : List Act) (m : Nat) (hf : s.flag m = true) (hl : m ∉ s.localRise) :
    m ∉ (run s as).localRise := by
  induction as generalizing s with
  | nil => exact hl
  | cons a as ih =>
    refine ih _ (latched_step s a m hf) ?_
    cases a with
    | trigger t mon r =>
      simp only [step]; split
      · simp only [trigger]; split
        · exact hl
        · next e =>
          rw [List.mem_append, List.mem_singleton]
          rintro (c | rfl)
          · exact hl c
          · exact e hf
      · exact hl
    | extern t => simp only [step]; split <;> [(unfold extern; split <;> exact hl); exact hl]
    | safe t =>
      simp only [step]; split
      · unfold safe; split
        · exact hl
        · unfold extern; split <;> exact hl
      · exact hl
    | installStop mon => exact hl
    | installSafe mon => exact hl
    | take => simp only [step, take]; split <;> exact hl
    | next t => simp only [step, next]; split <;> exact hl

/-- C53: a stop that came from outside is never announced, even if local triggers follow: if the
external call is the one that raises the flag, nothing of that monitor is ever handed to the
network. -/
theorem remote_never_announced (as bs : List Act) (t m : Nat) (hh : (run init as).hook = some m)
    (hi : (run init as).thr t = .idle) (hf : (run init as).flag m = false) (p : Nat × Nat)
    (hp : p ∈ (run init (as ++ .extern t :: bs)).taken) : p.1 ≠ m := by
  intro e
  have h1 := announced_only_local _ p hp
  rw [e, run_append] at h1
  refine no_late_rise (step (run init as) (.extern t)) bs m ?_ ?_ h1
  · simp only [step, if_pos hi, extern, hh, upd_same]
  · simp only [step, if_pos hi, extern, hh]
    intro hm
    rw [(inv_run as).rise_flag m hm] at hf
    simp at hf

/-- C53: a local stop is announced: once every started call has finished, a monitor raised locally has
been queued, and the last one queued is waiting for or was handed to the network. -/
theorem local_is_queued (as : List Act) (m : Nat) (hm : m ∈ (run init as).localRise)
    (hidle : ∀ t, (run init as).thr t = .idle) : m ∈ (run init as).queued.map Prod.fst := by
  rcases (inv_run as).rise_done m hm with ⟨t, ht⟩ | h
  · rw [hidle] at ht; simp [owes] at ht
  · exact h

/-- With one monitor in the process, the next drain hands the local reason over exactly once. -/
theorem local_is_announced (as : List Act) (m : Nat) (hm : m ∈ (run init as).localRise)
    (hone : ∀ m' ∈ (run init as).localRise, m' = m) (hidle : ∀ t, (run init as).thr t = .idle) :
    ∃ r, (run init (as ++ [.take])).taken = [(m, r)] := by
  have h := inv_run as
  have hq := local_is_queued as m hm hidle
  obtain ⟨⟨m', r⟩, hp, hpe⟩ := List.mem_map.1 hq
  simp at hpe; subst hpe
  have hall : (run init as).queued = [(m', r)] := by
    have hnd := h.queued_nodup
    have hsub := h.queued_rise
    revert hp hnd hsub
    generalize (run init as).queued = l
    intro hp hnd hsub
    match l with
    | [] => simp at hp
    | [x] => simp at hp; rw [hp]
    | x :: y :: l =>
      exfalso
      have a := hone x.1 (hsub x.1 (by simp))
      have b := hone y.1 (hsub y.1 (by simp))
      simp at hnd
      exact hnd.1.1 (a.trans b.symm)
  have h8 := h.taken_sub
  have h9 := h.last_kept (m', r) (by rw [hall]; rfl)
  rw [hall] at h8
  have hlen := h8.length_le
  refine ⟨r, ?_⟩
  rw [run_append]
  show (take (run init as)).taken = _
  unfold take
  cases hpd : (run init as).pending with
  | none =>
    simp only
    rw [hpd] at h8 h9
    simp at h8 h9
    rcases List.sublist_cons_iff.1 h8 with hx | ⟨l', hx, hy⟩
    · have : (run init as).taken = [] := List.sublist_nil.1 hx
      rw [this] at h9; simp at h9
    · rw [hx, List.sublist_nil.1 hy]
  | some p =>
    simp only
    rw [hpd] at h9 hlen
    simp at h9 hlen
    have : (run init as).taken = [] := by simpa using hlen
    rw [this, h9]; rfl

/-- The reported state has left `Normal` as soon as no trigger is in progress. -/
theorem state_not_normal (as : List Act) (m : Nat) (hf : (run init as).flag m = true)
    (hidle : ∀ t, (run init as).thr t = .idle) : (run init as).state m ≠ .normal := by
  rcases (inv_run as).flag_state m hf with h | ⟨t, h⟩
  · exact h
  · rw [hidle] at h; simp at h

theorem state_stop_step (s : St) (a : Act) (m : Nat) (hns : ∀ t, a ≠ .safe t) (h : s.state m = .emergencyStop) :
    (step s a).state m = .emergencyStop := by
  cases a with
  | trigger t mon r => simp only [step]; split <;> exact h
  | extern t => simp only [step]; split <;> [(unfold extern; split <;> exact h); exact h]
  | safe t => exact absurd rfl (hns t)
  | installStop mon => exact h
  | installSafe mon => exact h
  | take => simp only [step, take]; split <;> exact h
  | next t =>
    simp only [step, next]; split
    · exact h
    · show upd s.state _ _ m = _; rw [upd_eq]; split <;> [rfl; exact h]
    · exact h
    · show upd s.state _ _ m = _; rw [upd_eq]; split <;> [rfl; exact h]

/-- What holds of the reported state: without safe-state requests, `EmergencyStop` is never left. -/
theorem state_latched_partial (as bs : List Act) (m : Nat) (hns : ∀ b ∈ bs, ∀ t, b ≠ .safe t)
    (h : (run init as).state m = .emergencyStop) : (run init (as ++ bs)).state m = .emergencyStop := by
  rw [run_append]
  generalize run init as = s at h
  induction bs generalizing s with
  | nil => exact h
  | cons b bs ih =>
    exact ih (fun c hc => hns c (List.mem_cons_of_mem _ hc)) _
      (state_stop_step s b m (hns b List.mem_cons_self) h)

/-- Disagreement: a safe-state request after an emergency stop makes the monitor report `SafeState`,
although the stop is latched and drained. -/
theorem safe_state_hides_stop :
    let s := run init [.installSafe 0, .trigger 1 0 7, .next 1, .next 1, .take, .safe 2]
    s.flag 0 = true ∧ s.taken = [(0, 7)] ∧ s.state 0 = .safeState ∧ ∀ t, s.thr t = .idle := by
  refine ⟨by decide, by decide, by decide, ?_⟩
  intro t
  show upd (upd (upd (fun _ => Pc.idle) 1 _) 1 _) 1 _ t = _
  simp only [upd_eq]
  split <;> rfl

/-- An external stop reaches only the monitor installed last: an earlier one in the same process keeps
running. -/
theorem external_reaches_last_only :
    let s := run init [.installStop 0, .installStop 1, .extern 5, .next 5]
    s.flag 1 = true ∧ s.flag 0 = false := by decide

/-- Two monitors stopping before a drain: one reason is overwritten, the fleet hears of one stop. -/
theorem two_monitors_one_announcement :
    let s := run init [.trigger 1 0 7, .trigger 2 1 8, .next 1, .next 1, .next 2, .next 2, .take, .take]
    s.localRise = [0, 1] ∧ s.taken = [(1, 8)] := by decide

/-! ### Non-vacuity -/

/-- Two threads race on one monitor while the network drains: one announcement. -/
example : (run init [.trigger 1 0 7, .trigger 2 0 8, .next 2, .take, .next 1, .next 1, .take, .take]).taken = [(0, 7)] := by decide
/-- The external stop comes first, then a starving watchdog triggers: nothing is announced. -/
example : let s := run init [.installStop 0, .extern 9, .trigger 1 0 7, .next 9, .next 1, .next 1, .take]
    s.taken = [] ∧ s.flag 0 = true ∧ s.state 0 = .emergencyStop := by decide

end Horus.Safety.Latch
