import Verif.Sched.DispatchInv
/-
C50 (parallel part), C51 (parallel part), C72: the parallel executor runs every due node exactly
once, after everything it depends on, and always returns.
-/
namespace Horus.Sched.Dispatch
open Horus.Ring (upd upd_same upd_ne)
open Horus.Sched.Graph

/-! ### Safety -/

/-- No tick is started twice or finished twice, and only nodes due this cycle tick. -/
theorem ticks_once (j : Job) (hj : j.Ok) (k : Nat) (ws : List Nat) :
    (run j k (St.init j) ws).log.Nodup ∧
    ∀ i, Ev.start i ∈ (run j k (St.init j) ws).log → i < j.n ∧ j.ticks i = true := by
  have h := inv_run hj (inv_init j hj) k ws
  refine ⟨h.nolog, ?_⟩
  intro i hi
  apply h.real
  rcases (h.started i).1 hi with ⟨w, e⟩ | ⟨w, r, e⟩ | e <;> rw [e] <;> simp

/-- Two workers never hold the same node. -/
theorem node_exclusive (j : Job) (hj : j.Ok) (k : Nat) (ws : List Nat) (w w' i : Nat)
    (h1 : (run j k (St.init j) ws).pc w = .tick i) (h2 : (run j k (St.init j) ws).pc w' = .tick i) :
    w = w' := by
  have h := inv_run hj (inv_init j hj) k ws
  have a := (h.tick w i).1 h1
  have b := (h.tick w' i).1 h2
  rw [a] at b; injection b

/-- A node's tick starts only after the tick of every due predecessor has finished. -/
theorem starts_after_predecessors (j : Job) (hj : j.Ok) (k : Nat) (ws : List Nat) (c p : Nat)
    (l1 l2 : List Ev) (hl : (run j k (St.init j) ws).log = l1 ++ .start c :: l2)
    (hp : j.ticks p = true) (hc : c ∈ j.succ p) : Ev.finish p ∈ l1 :=
  (inv_run hj (inv_init j hj) k ws).after l1 l2 c hl p hp hc

/-! ### Termination -/

/-- Work left for one node. -/
def weight (j : Job) (i : Nat) (ph : Phase) : Nat :=
  if j.ticks i then
    match ph with
    | .waiting => (j.succ i).length + 5
    | .toSend _ => (j.succ i).length + 4
    | .queued => (j.succ i).length + 3
    | .ticking _ => (j.succ i).length + 2
    | .notifying _ rest => rest.length + 1
    | .done => 0
  else 0

/-- Work left in total. -/
def work (j : Job) (ph : Nat → Phase) : Nat := ((List.range j.n).map fun i => weight j i (ph i)).sum

theorem sum_upd (l : List Nat) (hn : l.Nodup) (F : Nat → Phase → Nat) (ph : Nat → Phase) {i : Nat}
    (hi : i ∈ l) (x : Phase) :
    (l.map fun k => F k (upd ph i x k)).sum + F i (ph i) = (l.map fun k => F k (ph k)).sum + F i x := by
  induction l with
  | nil => simp at hi
  | cons a l ih =>
    rw [List.nodup_cons] at hn
    rw [List.map_cons, List.map_cons, List.sum_cons, List.sum_cons]
    by_cases ha : a = i
    · subst ha
      have : (l.map fun k => F k (upd ph a x k)) = l.map fun k => F k (ph k) := by
        apply List.map_congr_left
        intro k hk
        have : k ≠ a := fun e => hn.1 (e ▸ hk)
        rw [upd_ne _ _ this]
      rw [this, upd_same]; omega
    · have hi' : i ∈ l := by
        rcases List.mem_cons.1 hi with h | h
        · exact absurd h.symm ha
        · exact h
      have := ih hn.2 hi'
      rw [upd_ne _ _ ha]; omega

theorem work_upd (j : Job) (ph : Nat → Phase) {i : Nat} (hi : i < j.n) (x : Phase) :
    work j (upd ph i x) + weight j i (ph i) = work j ph + weight j i x :=
  sum_upd (List.range j.n) List.nodup_range (weight j) ph (List.mem_range.2 hi) x

/-- A worker that is inside a node's tick or its aftermath. -/
def busy : Pc → Bool
  | .tick _ | .notify _ _ | .send _ _ _ => true
  | _ => false

/-- A busy worker's move, and a move that finds work, reduce the work left. -/
theorem step_effective {j : Job} (hj : j.Ok) {s : St} (h : Inv j s) (w : Nat)
    (hb : busy (s.pc w) = true ∨ (s.pc w = .recv ∧ s.queue ≠ [])) :
    work j (step j s w).ph < work j s.ph := by
  unfold step
  cases hpc : s.pc w with
  | check => simp [hpc, busy] at hb
  | gone => simp [hpc, busy] at hb
  | recv =>
    cases hq : s.queue with
    | nil => simp [hpc, busy, hq] at hb
    | cons i q =>
      have hph : s.ph i = .queued := (h.qmem i).1 (by simp [hq])
      have hr := h.real (i := i) (by simp [hph])
      have := work_upd j s.ph hr.1 (.ticking w)
      simp only [hph, weight, hr.2, if_true] at this
      simp only; omega
  | tick i =>
    have hph : s.ph i = .ticking w := (h.tick w i).1 hpc
    have hr := h.real (i := i) (by simp [hph])
    have := work_upd j s.ph hr.1 (.notifying w (j.succ i))
    simp only [hph, weight, hr.2, if_true] at this
    simp only; omega
  | notify i rest =>
    cases rest with
    | nil =>
      have hph : s.ph i = .notifying w [] := (h.noti w i _).2 (.inl hpc)
      have hr := h.real (i := i) (by simp [hph])
      have := work_upd j s.ph hr.1 .done
      simp only [hph, weight, hr.2, if_true, List.length_nil] at this
      simp only; omega
    | cons c rest =>
      have hph : s.ph i = .notifying w (c :: rest) := (h.noti w i _).2 (.inl hpc)
      have hr := h.real (i := i) (by simp [hph])
      have hw := work_upd j s.ph hr.1 (.notifying w rest)
      simp only [hph, weight, hr.2, if_true, List.length_cons] at hw
      simp only
      by_cases hc : j.ticks c = true
      · rw [if_pos hc]
        obtain ⟨hne, hin, hcn, hti, hcr, _, hpc0, hpos, hnd, hsubr, hcnt⟩ := notify_facts hj h hpc hc
        by_cases h1 : s.pending c = 1
        · rw [if_pos h1]
          have hw2 := work_upd j (upd s.ph i (.notifying w rest)) hcn (.toSend w)
          rw [upd_ne _ _ (Ne.symm hne)] at hw2
          simp only [hpc0, weight, hc, if_true] at hw2
          simp only; omega
        · rw [if_neg h1]; simp only; omega
      · rw [if_neg hc]; simp only; omega
  | send c i rest =>
    have hph : s.ph c = .toSend w := (h.send w c).2 ⟨i, rest, hpc⟩
    have hr := h.real (i := c) (by simp [hph])
    have := work_upd j s.ph hr.1 .queued
    simp only [hph, weight, hr.2, if_true] at this
    simp only; omega

/-- Any other move only changes where the mover is. -/
theorem step_idle {j : Job} {s : St} (w : Nat)
    (hb : ¬ (busy (s.pc w) = true ∨ (s.pc w = .recv ∧ s.queue ≠ []))) :
    (step j s w).ph = s.ph ∧ (step j s w).queue = s.queue ∧ (step j s w).completed = s.completed ∧
    ∀ w', w' ≠ w → (step j s w).pc w' = s.pc w' := by
  unfold step
  cases hpc : s.pc w with
  | check => simp only; split <;> exact ⟨rfl, rfl, rfl, fun w' hw => upd_ne _ _ hw⟩
  | gone => exact ⟨rfl, rfl, rfl, fun _ _ => rfl⟩
  | recv =>
    cases hq : s.queue with
    | nil => simp only; exact ⟨trivial, trivial, trivial, fun w' hw => upd_ne _ _ hw⟩
    | cons i q => simp [hpc, hq] at hb
  | tick i => simp [hpc, busy] at hb
  | notify i rest => simp [hpc, busy] at hb
  | send c i rest => simp [hpc, busy] at hb

/-- A move does not change where other workers are. -/
theorem step_other {j : Job} {s : St} (w w' : Nat) (hw : w' ≠ w) : (step j s w).pc w' = s.pc w' := by
  unfold step
  cases hpc : s.pc w with
  | check => simp only; split <;> exact upd_ne _ _ hw
  | gone => rfl
  | recv => simp only; cases hq : s.queue <;> exact upd_ne _ _ hw
  | tick i => exact upd_ne _ _ hw
  | notify i rest =>
    cases rest with
    | nil => exact upd_ne _ _ hw
    | cons c rest =>
      simp only
      split
      · split <;> exact upd_ne _ _ hw
      · exact upd_ne _ _ hw
  | send c i rest => exact upd_ne _ _ hw

theorem step_work_le {j : Job} (hj : j.Ok) {s : St} (h : Inv j s) (w : Nat) :
    work j (step j s w).ph ≤ work j s.ph := by
  by_cases hb : busy (s.pc w) = true ∨ (s.pc w = .recv ∧ s.queue ≠ [])
  · exact Nat.le_of_lt (step_effective hj h w hb)
  · rw [(step_idle w hb).1]

theorem run_work_le {j : Job} (hj : j.Ok) {s : St} (h : Inv j s) (k : Nat) (ws : List Nat) :
    work j (run j k s ws).ph ≤ work j s.ph := by
  induction ws generalizing s with
  | nil => exact Nat.le_refl _
  | cons w ws ih =>
    unfold run
    split
    · exact Nat.le_trans (ih (inv_step hj h w)) (step_work_le hj h w)
    · exact ih h

theorem work_zero {j : Job} {s : St} (_h : Inv j s) :
    work j s.ph = 0 ↔ ∀ i, i < j.n → j.ticks i = true → s.ph i = .done := by
  unfold work
  rw [List.sum_eq_zero_iff_forall_eq_nat]
  simp only [List.mem_map, List.mem_range, forall_exists_index, and_imp, forall_apply_eq_imp_iff₂]
  constructor
  · intro hz i hi ht
    have := hz i hi
    unfold weight at this
    rw [if_pos ht] at this
    cases hp : s.ph i <;> rw [hp] at this <;> simp at this
  · intro hd i hi
    unfold weight
    by_cases ht : j.ticks i = true
    · rw [hd i hi ht]; simp
    · simp [ht]

theorem countP_eq_of_le {p q : Nat → Bool} (l : List Nat) (hpq : ∀ x ∈ l, p x = true → q x = true)
    (h : l.countP q ≤ l.countP p) : ∀ x ∈ l, q x = true → p x = true := by
  induction l with
  | nil => simp
  | cons a l ih =>
    rw [List.countP_cons, List.countP_cons] at h
    have hm : l.countP p ≤ l.countP q := List.countP_mono_left fun x hx => hpq x (by simp [hx])
    have ha := hpq a (by simp)
    have hqp : l.countP q ≤ l.countP p := by
      by_cases h1 : p a = true
      · simp [h1, ha h1] at h; exact h
      · by_cases h2 : q a = true <;> simp [h1, h2] at h <;> omega
    have := ih (fun x hx => hpq x (by simp [hx])) hqp
    intro x hx hq
    rcases List.mem_cons.1 hx with rfl | hx
    · by_contra h1
      simp [h1, hq] at h; omega
    · exact this x hx hq

/-- The completion counter reaches the total exactly when every due node is done. -/
theorem completed_iff {j : Job} {s : St} (h : Inv j s) : total j ≤ s.completed ↔ work j s.ph = 0 := by
  rw [work_zero h, h.comp]
  unfold total
  constructor
  · intro hle i hi ht
    have := countP_eq_of_le (List.range j.n) (p := fun i => decide (s.ph i = .done)) (q := j.ticks) (by
      intro x _ hx
      exact (h.real (i := x) (by have := of_decide_eq_true hx; rw [this]; simp)).2) hle i (List.mem_range.2 hi) ht
    simpa using this
  · intro hd
    apply List.countP_mono_left
    intro x hx ht
    simpa using hd x (List.mem_range.1 hx) ht

/-- There is always something to do: if some due node is not done, a worker is busy or a node is
queued. -/
theorem never_stuck {j : Job} (hj : j.Ok) {s : St} (h : Inv j s) (hw : work j s.ph ≠ 0) :
    (∃ w, busy (s.pc w) = true) ∨ s.queue ≠ [] := by
  by_contra hno
  simp only [not_or, not_exists, not_not] at hno
  obtain ⟨hnb, hq⟩ := hno
  have hph : ∀ i, s.ph i = .waiting ∨ s.ph i = .done := by
    intro i
    cases hp : s.ph i with
    | waiting => exact .inl rfl
    | done => exact .inr rfl
    | toSend w => obtain ⟨a, b, e⟩ := (h.send w i).1 hp; have := hnb w; rw [e] at this; simp [busy] at this
    | queued => have := (h.qmem i).2 hp; rw [hq] at this; simp at this
    | ticking w => have e := (h.tick w i).2 hp; have := hnb w; rw [e] at this; simp [busy] at this
    | notifying w r =>
      have := hnb w
      rcases (h.noti w i r).1 hp with e | ⟨c, e⟩ <;> rw [e] at this <;> simp [busy] at this
  obtain ⟨rank, hrk⟩ := hj.acyclic
  have : ∀ r i, rank i = r → i < j.n → j.ticks i = true → s.ph i = .done := by
    intro r
    induction r using Nat.strongRecOn with
    | _ r ih =>
      intro i hi hin ht
      rcases hph i with hwt | hd
      · exfalso
        have hp := (h.wait i ht hin).1 hwt
        rw [h.pend i ht] at hp
        apply hp
        rw [holders_zero j hj]
        intro p hpt hpc
        have := ih (rank p) (by have := hrk p i hpc; omega) p rfl (hj.bound p i hpc).1 hpt
        rw [this]; rfl
      · exact hd
  exact hw ((work_zero h).2 fun i hi ht => this _ i rfl hi ht)

/-- Workers that do not exist never move. -/
theorem run_absent {j : Job} {s : St} (k : Nat) (ws : List Nat) {w : Nat} (hw : k ≤ w) :
    (run j k s ws).pc w = s.pc w := by
  induction ws generalizing s with
  | nil => rfl
  | cons a ws ih =>
    unfold run
    split
    · rw [ih, step_other]; omega
    · exact ih

/-- A busy worker's next move happens during any schedule that lets it move, so work decreases. -/
theorem run_busy {j : Job} (hj : j.Ok) {s : St} (h : Inv j s) {k w : Nat} (hk : w < k) (ws : List Nat)
    (hb : busy (s.pc w) = true) (hm : w ∈ ws) : work j (run j k s ws).ph < work j s.ph := by
  induction ws generalizing s with
  | nil => simp at hm
  | cons a ws ih =>
    unfold run
    by_cases ha : a = w
    · subst ha
      rw [if_pos hk]
      exact Nat.lt_of_le_of_lt (run_work_le hj (inv_step hj h a) k ws) (step_effective hj h a (.inl hb))
    · have hm' : w ∈ ws := by
        rcases List.mem_cons.1 hm with e | e
        · exact absurd e.symm ha
        · exact e
      split
      · exact Nat.lt_of_lt_of_le (ih (inv_step hj h a) (by rw [step_other a w (Ne.symm ha)]; exact hb) hm')
          (step_work_le hj h a)
      · exact ih h hb hm'

theorem run_recv {j : Job} (hj : j.Ok) {s : St} (h : Inv j s) {k w : Nat} (hk : w < k) (ws : List Nat)
    (hb : s.pc w = .recv) (hq : s.queue ≠ []) (hm : w ∈ ws) :
    work j (run j k s ws).ph < work j s.ph := by
  induction ws generalizing s with
  | nil => simp at hm
  | cons a ws ih =>
    unfold run
    by_cases ha : a = w
    · subst ha
      rw [if_pos hk]
      exact Nat.lt_of_le_of_lt (run_work_le hj (inv_step hj h a) k ws) (step_effective hj h a (.inr ⟨hb, hq⟩))
    · have hm' : w ∈ ws := by
        rcases List.mem_cons.1 hm with e | e
        · exact absurd e.symm ha
        · exact e
      split
      · by_cases he : busy (s.pc a) = true ∨ (s.pc a = .recv ∧ s.queue ≠ [])
        · exact Nat.lt_of_le_of_lt (run_work_le hj (inv_step hj h a) k ws) (step_effective hj h a he)
        · obtain ⟨e1, e2, _, e4⟩ := step_idle (j := j) a he
          rw [← e1]
          exact ih (inv_step hj h a) (by rw [e4 w (Ne.symm ha)]; exact hb) (by rw [e2]; exact hq) hm'
      · exact ih h hb hq hm'

theorem run_check {j : Job} (hj : j.Ok) {s : St} (h : Inv j s) {k w : Nat} (hk : w < k) (ws : List Nat)
    (hb : s.pc w = .check) (hq : s.queue ≠ []) (hm : 2 ≤ ws.count w) :
    work j (run j k s ws).ph < work j s.ph := by
  have hw0 : work j s.ph ≠ 0 := by
    intro h0
    obtain ⟨i, hi⟩ := List.exists_mem_of_ne_nil _ hq
    have hp := (h.qmem i).1 hi
    have hr := h.real (i := i) (by simp [hp])
    have := (work_zero h).1 h0 i hr.1 hr.2
    rw [hp] at this; simp at this
  induction ws generalizing s with
  | nil => simp at hm
  | cons a ws ih =>
    unfold run
    by_cases ha : a = w
    · subst ha
      rw [if_pos hk]
      have hnb : ¬ (busy (s.pc a) = true ∨ (s.pc a = .recv ∧ s.queue ≠ [])) := by simp [hb, busy]
      obtain ⟨e1, e2, _, _⟩ := step_idle (j := j) a hnb
      have hcm : ¬ total j ≤ s.completed := fun hle => hw0 ((completed_iff h).1 hle)
      have hpc : (step j s a).pc a = .recv := by
        unfold step; rw [hb]; simp [hcm]
      rw [← e1]
      refine run_recv hj (inv_step hj h a) hk ws hpc (by rw [e2]; exact hq) ?_
      rw [List.count_cons_self] at hm
      exact List.count_pos_iff.1 (by omega)
    · have hm' : 2 ≤ ws.count w := by rwa [List.count_cons_of_ne ha] at hm
      split
      · by_cases he : busy (s.pc a) = true ∨ (s.pc a = .recv ∧ s.queue ≠ [])
        · exact Nat.lt_of_le_of_lt (run_work_le hj (inv_step hj h a) k ws) (step_effective hj h a he)
        · obtain ⟨e1, e2, _, e4⟩ := step_idle (j := j) a he
          rw [← e1]
          exact ih (inv_step hj h a) (by rw [e4 w (Ne.symm ha)]; exact hb) (by rw [e2]; exact hq) hm' (by rw [e1]; exact hw0)
      · exact ih h hb hq hm' hw0

/-- A round: a stretch of the schedule in which every worker moves at least twice. -/
def Round (k : Nat) (ws : List Nat) : Prop := ∀ w, w < k → 2 ≤ ws.count w

/-- While due nodes remain, every round makes progress. -/
theorem round_progress {j : Job} (hj : j.Ok) {s : St} (h : Inv j s) {k : Nat} (hk : 0 < k)
    (habs : ∀ w, k ≤ w → busy (s.pc w) = false) (ws : List Nat) (hr : Round k ws)
    (hw : work j s.ph ≠ 0) : work j (run j k s ws).ph < work j s.ph := by
  rcases never_stuck hj h hw with ⟨w, hb⟩ | hq
  · have hwk : w < k := by
      by_contra hc
      rw [habs w (by omega)] at hb; simp at hb
    exact run_busy hj h hwk ws hb (List.count_pos_iff.1 (by have := hr w hwk; omega))
  · have h2 := hr 0 hk
    cases hpc : s.pc 0 with
    | check => exact run_check hj h hk ws hpc hq h2
    | recv => exact run_recv hj h hk ws hpc hq (List.count_pos_iff.1 (by omega))
    | gone => exact absurd ((completed_iff h).1 (h.gone 0 hpc)) hw
    | tick i => exact run_busy hj h hk ws (by rw [hpc]; rfl) (List.count_pos_iff.1 (by omega))
    | notify i r => exact run_busy hj h hk ws (by rw [hpc]; rfl) (List.count_pos_iff.1 (by omega))
    | send c i r => exact run_busy hj h hk ws (by rw [hpc]; rfl) (List.count_pos_iff.1 (by omega))

theorem run_append (j : Job) (k : Nat) (s : St) (a b : List Nat) :
    run j k s (a ++ b) = run j k (run j k s a) b := by
  induction a generalizing s with
  | nil => rfl
  | cons w a ih => simp only [List.cons_append, run]; exact ih _

theorem rounds_drain {j : Job} (hj : j.Ok) {s : St} (h : Inv j s) {k : Nat} (hk : 0 < k)
    (habs : ∀ w, k ≤ w → busy (s.pc w) = false) (R : List (List Nat)) (hR : ∀ ws ∈ R, Round k ws)
    (hlen : work j s.ph ≤ R.length) : work j (run j k s R.flatten).ph = 0 := by
  induction R generalizing s with
  | nil => simpa [run] using hlen
  | cons ws R ih =>
    rw [List.flatten_cons, run_append]
    have habs' : ∀ w, k ≤ w → busy ((run j k s ws).pc w) = false := by
      intro w hw; rw [run_absent k ws hw]; exact habs w hw
    apply ih (inv_run hj h k ws) habs' (fun x hx => hR x (by simp [hx]))
    by_cases hw : work j s.ph = 0
    · have := run_work_le hj h k ws; omega
    · have := round_progress hj h hk habs ws (hR ws (by simp)) hw
      simp only [List.length_cons] at hlen; omega

/-- When nothing is left to do, a worker that moves twice leaves. -/
theorem leaves {j : Job} (hj : j.Ok) {s : St} (h : Inv j s) (hw : work j s.ph = 0) {k w : Nat} (hk : w < k)
    (ws : List Nat) (hm : (s.pc w = .gone) ∨ (s.pc w = .check ∧ 1 ≤ ws.count w) ∨ (s.pc w = .recv ∧ 2 ≤ ws.count w)) :
    (run j k s ws).pc w = .gone := by
  have hcm : total j ≤ s.completed := (completed_iff h).2 hw
  have hq : s.queue = [] := by
    by_contra hq
    obtain ⟨i, hi⟩ := List.exists_mem_of_ne_nil _ hq
    have hp := (h.qmem i).1 hi
    have hr := h.real (i := i) (by simp [hp])
    have := (work_zero h).1 hw i hr.1 hr.2
    rw [hp] at this; simp at this
  induction ws generalizing s with
  | nil =>
    rcases hm with e | ⟨_, e⟩ | ⟨_, e⟩
    · exact e
    · simp at e
    · simp at e
  | cons a ws ih =>
    unfold run
    have keep : ∀ (w' : Nat), Inv j (step j s w') ∧ work j (step j s w').ph = 0 := fun w' =>
      ⟨inv_step hj h w', by have := step_work_le hj h w'; omega⟩
    have hq' : ∀ w', (step j s w').queue = [] := by
      intro w'
      by_contra hq
      obtain ⟨i, hi⟩ := List.exists_mem_of_ne_nil _ hq
      have hp := ((keep w').1.qmem i).1 hi
      have hr := (keep w').1.real (i := i) (by simp [hp])
      have := (work_zero (keep w').1).1 (keep w').2 i hr.1 hr.2
      rw [hp] at this; simp at this
    have hc' : ∀ w', total j ≤ (step j s w').completed := fun w' => (completed_iff (keep w').1).2 (keep w').2
    by_cases ha : a = w
    · subst ha
      rw [if_pos hk]
      apply ih (keep a).1 (keep a).2 _ (hc' a) (hq' a)
      rcases hm with e | ⟨e, _⟩ | ⟨e, e2⟩
      · left; unfold step; rw [e]; exact e
      · left; unfold step; rw [e]; simp [hcm]
      · right; left
        refine ⟨by unfold step; rw [e]; simp [hq], ?_⟩
        rw [List.count_cons_self] at e2; omega
    · have hcount : (a :: ws).count w = ws.count w := List.count_cons_of_ne ha
      rw [hcount] at hm
      split
      · apply ih (keep a).1 (keep a).2 _ (hc' a) (hq' a)
        rw [step_other a w (Ne.symm ha)]; exact hm
      · exact ih h hw hm hcm hq

theorem not_busy_of_done {j : Job} {s : St} (h : Inv j s) (hw : work j s.ph = 0) (w : Nat) :
    busy (s.pc w) = false := by
  have hd := (work_zero h).1 hw
  cases hpc : s.pc w with
  | check => rfl
  | recv => rfl
  | gone => rfl
  | tick i =>
    have hp := (h.tick w i).1 hpc
    have hr := h.real (i := i) (by simp [hp])
    have := hd i hr.1 hr.2; rw [hp] at this; simp at this
  | notify i r =>
    have hp := (h.noti w i r).2 (.inl hpc)
    have hr := h.real (i := i) (by simp [hp])
    have := hd i hr.1 hr.2; rw [hp] at this; simp at this
  | send c i r =>
    have hp := (h.noti w i r).2 (.inr ⟨c, hpc⟩)
    have hr := h.real (i := i) (by simp [hp])
    have := hd i hr.1 hr.2; rw [hp] at this; simp at this

theorem sum_le_of_le (l : List Nat) (f g : Nat → Nat) (h : ∀ i, f i ≤ g i) :
    (l.map f).sum ≤ (l.map g).sum := by
  induction l with
  | nil => simp
  | cons a l ih => have := h a; simp; omega

theorem work_init_le (j : Job) :
    work j (St.init j).ph ≤ ((List.range j.n).map fun i => (j.succ i).length + 5).sum := by
  unfold work
  apply sum_le_of_le
  intro i
  have hp : (St.init j).ph i = .queued ∨ (St.init j).ph i = .waiting := by
    show (if i ∈ queue0 j then Phase.queued else .waiting) = _ ∨ (if i ∈ queue0 j then Phase.queued else .waiting) = _
    split <;> simp
  unfold weight
  rcases hp with e | e <;> rw [e] <;> split <;> simp

/-- The executor always returns and has then ticked every due node: after a number of rounds linear
in the size of the graph, whatever the interleaving inside the rounds, every worker has left and
every due node has started and finished. -/
theorem dispatch_returns (j : Job) (hj : j.Ok) (cores : Nat) (hc : 0 < cores) (ht : 0 < total j)
    (R : List (List Nat)) (hR : ∀ ws ∈ R, Round (workers j cores) ws)
    (hlen : ((List.range j.n).map fun i => (j.succ i).length + 5).sum < R.length) :
    let s := run j (workers j cores) (St.init j) R.flatten
    (∀ w, w < workers j cores → s.pc w = .gone) ∧
    ∀ i, i < j.n → j.ticks i = true → Ev.start i ∈ s.log ∧ Ev.finish i ∈ s.log := by
  intro s
  have hk : 0 < workers j cores := by unfold workers; omega
  have hi := inv_init j hj
  obtain ⟨R', ws, rfl⟩ : ∃ R' ws, R = R' ++ [ws] := by
    rcases List.eq_nil_or_concat R with rfl | ⟨l, a, rfl⟩
    · simp at hlen
    · exact ⟨l, a, by simp⟩
  have hinit : ∀ w, workers j cores ≤ w → busy ((St.init j).pc w) = false := fun _ _ => rfl
  have h0 : work j (run j (workers j cores) (St.init j) R'.flatten).ph = 0 := by
    apply rounds_drain hj hi hk hinit R' (fun x hx => hR x (by simp [hx]))
    have := work_init_le j
    simp only [List.length_append, List.length_singleton] at hlen
    omega
  have hs : s = run j (workers j cores) (run j (workers j cores) (St.init j) R'.flatten) ws := by
    show run _ _ _ _ = _
    rw [List.flatten_append, run_append]; simp
  have hinv := inv_run hj hi (workers j cores) R'.flatten
  constructor
  · intro w hw
    rw [hs]
    apply leaves hj hinv h0 hw
    have := not_busy_of_done hinv h0 w
    have h2 := hR ws (by simp) w hw
    cases hpc : (run j (workers j cores) (St.init j) R'.flatten).pc w with
    | gone => exact .inl rfl
    | check => exact .inr (.inl ⟨rfl, by omega⟩)
    | recv => exact .inr (.inr ⟨rfl, h2⟩)
    | tick i => rw [hpc] at this; simp [busy] at this
    | notify i r => rw [hpc] at this; simp [busy] at this
    | send c i r => rw [hpc] at this; simp [busy] at this
  · intro i hin hti
    have hinv' := inv_run hj hinv (workers j cores) ws
    rw [← hs] at hinv'
    have hz : work j s.ph = 0 := by
      rw [hs]; have := run_work_le hj hinv (workers j cores) ws; omega
    have hd := (work_zero hinv').1 hz i hin hti
    exact ⟨(hinv'.started i).2 (.inr (.inr hd)), (hinv'.finished i).2 (.inr hd)⟩

/-- No worker leaves early: once one has left, every due node has finished. -/
theorem leaves_only_when_done (j : Job) (hj : j.Ok) (k : Nat) (ws : List Nat) (w : Nat)
    (h : (run j k (St.init j) ws).pc w = .gone) (i : Nat) (hi : i < j.n) (ht : j.ticks i = true) :
    Ev.finish i ∈ (run j k (St.init j) ws).log := by
  have hinv := inv_run hj (inv_init j hj) k ws
  have hz := (completed_iff hinv).1 (hinv.gone w h)
  exact (hinv.finished i).2 (.inr ((work_zero hinv).1 hz i hi ht))

end Horus.Sched.Dispatch
