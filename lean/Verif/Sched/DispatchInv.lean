import Verif.Sched.Dispatch
/-
Invariant of the parallel executor.
-/
namespace Horus.Sched.Dispatch
open Horus.Ring (upd upd_same upd_ne)
open Horus.Sched.Graph (countP_split)

/-- Predecessor `p` in this phase has not yet released `c`. -/
def holds (ph : Phase) (c : Nat) : Bool :=
  match ph with
  | .waiting | .toSend _ | .queued | .ticking _ => true
  | .notifying _ rest => decide (c ∈ rest)
  | .done => false

/-- Number of ticking predecessors that have not yet released `c`. -/
def holders (j : Job) (ph : Nat → Phase) (c : Nat) : Nat :=
  (List.range j.n).countP fun p => j.ticks p && decide (c ∈ j.succ p) && holds (ph p) c

/-- The invariant of the parallel executor. -/
structure Inv (j : Job) (s : St) : Prop where
  pend : ∀ c, j.ticks c = true → s.pending c = holders j s.ph c
  wait : ∀ c, j.ticks c = true → c < j.n → (s.ph c = .waiting ↔ s.pending c ≠ 0)
  skip : ∀ c, (j.ticks c = false ∨ j.n ≤ c) → s.ph c = .waiting
  qnodup : s.queue.Nodup
  qmem : ∀ c, c ∈ s.queue ↔ s.ph c = .queued
  tick : ∀ w i, s.pc w = .tick i ↔ s.ph i = .ticking w
  noti : ∀ w i rest, s.ph i = .notifying w rest ↔
    (s.pc w = .notify i rest ∨ ∃ c, s.pc w = .send c i rest)
  send : ∀ w c, s.ph c = .toSend w ↔ ∃ i rest, s.pc w = .send c i rest
  sub : ∀ w i rest, s.ph i = .notifying w rest → rest.Nodup ∧ ∀ c ∈ rest, c ∈ j.succ i
  comp : s.completed = (List.range j.n).countP (fun i => decide (s.ph i = .done))
  nolog : s.log.Nodup
  started : ∀ i, Ev.start i ∈ s.log ↔
    (∃ w, s.ph i = .ticking w) ∨ (∃ w r, s.ph i = .notifying w r) ∨ s.ph i = .done
  finished : ∀ i, Ev.finish i ∈ s.log ↔ (∃ w r, s.ph i = .notifying w r) ∨ s.ph i = .done
  after : ∀ l1 l2 c, s.log = l1 ++ .start c :: l2 → ∀ p, j.ticks p = true → c ∈ j.succ p → Ev.finish p ∈ l1
  gone : ∀ w, s.pc w = .gone → total j ≤ s.completed

theorem holders_zero (j : Job) (hj : j.Ok) (ph : Nat → Phase) (c : Nat) :
    holders j ph c = 0 ↔ ∀ p, j.ticks p = true → c ∈ j.succ p → holds (ph p) c = false := by
  unfold holders
  rw [List.countP_eq_zero]
  constructor
  · intro h p h1 h2
    have := h p (List.mem_range.2 (hj.bound p c h2).1)
    simpa [h1, h2] using this
  · intro h p _
    by_cases h1 : j.ticks p = true
    · by_cases h2 : c ∈ j.succ p
      · simp [h p h1 h2]
      · simp [h2]
    · simp [h1]

/-- Changing one node's phase changes the count of holders by that node's own contribution. -/
theorem holders_upd (j : Job) (ph : Nat → Phase) {i : Nat} (hi : i < j.n) (x : Phase) (c : Nat) :
    holders j (upd ph i x) c + (if j.ticks i && decide (c ∈ j.succ i) && holds (ph i) c then 1 else 0)
      = holders j ph c + (if j.ticks i && decide (c ∈ j.succ i) && holds x c then 1 else 0) := by
  unfold holders
  rw [countP_split List.nodup_range (List.mem_range.2 hi)
      (fun p => j.ticks p && decide (c ∈ j.succ p) && holds (upd ph i x p) c),
    countP_split List.nodup_range (List.mem_range.2 hi)
      (fun p => j.ticks p && decide (c ∈ j.succ p) && holds (ph p) c)]
  have : (List.range j.n).countP (fun p => (j.ticks p && decide (c ∈ j.succ p) && holds (upd ph i x p) c) && !(p == i))
      = (List.range j.n).countP (fun p => (j.ticks p && decide (c ∈ j.succ p) && holds (ph p) c) && !(p == i)) := by
    apply List.countP_congr
    intro p _
    by_cases hp : p = i
    · subst hp; simp
    · rw [upd_ne _ _ hp]
  rw [this, upd_same]
  omega

theorem holders_same (j : Job) (ph : Nat → Phase) {i : Nat} (hi : i < j.n) (x : Phase) (c : Nat)
    (h : holds x c = holds (ph i) c) : holders j (upd ph i x) c = holders j ph c := by
  have := holders_upd j ph hi x c
  rw [h] at this; omega

theorem doneCount_upd (ph : Nat → Phase) {n i : Nat} (hi : i < n) (x : Phase) :
    (List.range n).countP (fun k => decide (upd ph i x k = .done)) + (if ph i = .done then 1 else 0)
      = (List.range n).countP (fun k => decide (ph k = .done)) + (if x = .done then 1 else 0) := by
  rw [countP_split List.nodup_range (List.mem_range.2 hi) (fun k => decide (upd ph i x k = .done)),
    countP_split List.nodup_range (List.mem_range.2 hi) (fun k => decide (ph k = .done))]
  have : (List.range n).countP (fun p => decide (upd ph i x p = .done) && !(p == i))
      = (List.range n).countP (fun p => decide (ph p = .done) && !(p == i)) := by
    apply List.countP_congr
    intro p _
    by_cases hp : p = i
    · subst hp; simp
    · rw [upd_ne _ _ hp]
  rw [this, upd_same]
  simp only [decide_eq_true_eq]
  omega

/-! ### Initial state -/

theorem foldl_fetchSub (l : List Nat) (hn : l.Nodup) (p : Nat → Nat) (c : Nat) :
    l.foldl (fun p c => upd p c (fetchSub (p c))) p c = if c ∈ l then fetchSub (p c) else p c := by
  induction l generalizing p with
  | nil => simp
  | cons a l ih =>
    rw [List.nodup_cons] at hn
    rw [List.foldl_cons, ih hn.2]
    by_cases hc : c = a
    · subst hc; simp [hn.1]
    · rw [upd_ne _ _ hc]; simp [hc]

theorem pending0_eq (j : Job) (hj : j.Ok) (c : Nat) :
    pending0 j c = (List.range j.n).countP (fun p => j.ticks p && decide (c ∈ j.succ p)) := by
  unfold pending0
  have : ∀ (l : List Nat) (p : Nat → Nat), l.Nodup →
      l.countP (fun i => decide (c ∈ j.succ i)) ≤ p c →
      l.foldl (fun p i => if j.ticks i then p else (j.succ i).foldl (fun p c => upd p c (fetchSub (p c))) p) p c
        + l.countP (fun i => !j.ticks i && decide (c ∈ j.succ i)) = p c := by
    intro l
    induction l with
    | nil => intro p _ _; simp
    | cons a l ih =>
      intro p hn hle
      rw [List.nodup_cons] at hn
      rw [List.countP_cons] at hle
      rw [List.foldl_cons, List.countP_cons]
      by_cases ht : j.ticks a = true
      · have := ih p hn.2 (by omega)
        simp only [ht, if_true, Bool.not_true, Bool.false_and]
        simpa using this
      · have ht' : j.ticks a = false := by simpa using ht
        simp only [ht', Bool.not_false, Bool.true_and]
        have key := foldl_fetchSub (j.succ a) (hj.nodup a) p c
        by_cases hc : c ∈ j.succ a
        · rw [if_pos hc] at key
          simp only [hc, decide_true, if_true] at hle
          have hp : p c ≠ 0 := by omega
          rw [fetchSub, if_neg hp] at key
          have := ih ((j.succ a).foldl (fun p c => upd p c (fetchSub (p c))) p) hn.2 (by rw [key]; omega)
          rw [key] at this
          simp only [hc, decide_true, if_true, Bool.false_eq_true, if_false]
          omega
        · rw [if_neg hc] at key
          have := ih ((j.succ a).foldl (fun p c => upd p c (fetchSub (p c))) p) hn.2 (by rw [key]; omega)
          rw [key] at this
          simp only [hc, decide_false, Bool.false_eq_true, if_false]
          omega
  have h1 := this (List.range j.n) j.dep List.nodup_range (by rw [hj.dep c])
  rw [hj.dep c] at h1
  have h2 : (List.range j.n).countP (fun p => decide (c ∈ j.succ p))
      = (List.range j.n).countP (fun p => j.ticks p && decide (c ∈ j.succ p))
        + (List.range j.n).countP (fun p => !j.ticks p && decide (c ∈ j.succ p)) := by
    induction (List.range j.n) with
    | nil => simp
    | cons a l ih =>
      rw [List.countP_cons, List.countP_cons, List.countP_cons, ih]
      by_cases ht : j.ticks a = true <;> simp [ht] <;> omega
  omega

theorem mem_queue0 (j : Job) (c : Nat) :
    c ∈ queue0 j ↔ c < j.n ∧ j.ticks c = true ∧ pending0 j c = 0 := by
  unfold queue0; simp [List.mem_filter]

theorem inv_init (j : Job) (hj : j.Ok) : Inv j (St.init j) := by
  have hph : ∀ i, (St.init j).ph i = if i ∈ queue0 j then .queued else .waiting := fun _ => rfl
  have hp : ∀ i, (St.init j).ph i = .queued ∨ (St.init j).ph i = .waiting := by
    intro i; rw [hph]; split <;> simp
  constructor
  · intro c _
    show pending0 j c = _
    rw [pending0_eq j hj]
    unfold holders
    apply List.countP_congr
    intro p _
    have : holds ((St.init j).ph p) c = true := by
      rcases hp p with h | h <;> rw [h] <;> rfl
    simp [this]
  · intro c h1 h2
    show _ ↔ pending0 j c ≠ 0
    rw [hph]
    by_cases hq : c ∈ queue0 j
    · have := (mem_queue0 j c).1 hq; simp [hq, this.2.2]
    · simp only [hq, if_false, true_iff]
      intro h0; exact hq ((mem_queue0 j c).2 ⟨h2, h1, h0⟩)
  · intro c hc
    rw [hph, if_neg]
    intro hq
    have := (mem_queue0 j c).1 hq
    rcases hc with h | h
    · rw [h] at this; simp at this
    · omega
  · exact List.Nodup.filter _ List.nodup_range
  · intro c
    show c ∈ queue0 j ↔ _
    rw [hph]; split <;> simp_all
  · intro w i
    have : (St.init j).pc w = .check := rfl
    rw [this]
    rcases hp i with h | h <;> rw [h] <;> simp
  · intro w i rest
    have : (St.init j).pc w = .check := rfl
    rw [this]
    rcases hp i with h | h <;> rw [h] <;> simp
  · intro w c
    have : (St.init j).pc w = .check := rfl
    rw [this]
    rcases hp c with h | h <;> rw [h] <;> simp
  · intro w i rest h
    rcases hp i with h' | h' <;> rw [h'] at h <;> simp at h
  · show 0 = _
    symm
    rw [List.countP_eq_zero]
    intro i _
    rcases hp i with h | h <;> rw [h] <;> simp
  · exact List.nodup_nil
  · intro i
    have : (St.init j).log = [] := rfl
    rw [this]
    rcases hp i with h | h <;> rw [h] <;> simp
  · intro i
    have : (St.init j).log = [] := rfl
    rw [this]
    rcases hp i with h | h <;> rw [h] <;> simp
  · intro l1 l2 c h
    have : (St.init j).log = [] := rfl
    rw [this] at h; simp at h
  · intro w h
    have : (St.init j).pc w = .check := rfl
    rw [this] at h; simp at h

/-! ### Steps -/

/-- A node in a phase other than `waiting` exists and ticks. -/
theorem Inv.real {j : Job} {s : St} (h : Inv j s) {i : Nat} (hi : s.ph i ≠ .waiting) :
    i < j.n ∧ j.ticks i = true := by
  constructor
  · by_contra hc; exact hi (h.skip i (.inr (by omega)))
  · by_contra hc; exact hi (h.skip i (.inl (by simpa using hc)))

theorem upd_eq_iff {α : Type} (f : Nat → α) (i j : Nat) (v x : α) :
    upd f i v j = x ↔ (j = i ∧ v = x) ∨ (j ≠ i ∧ f j = x) := by
  unfold upd
  by_cases h : j = i <;> simp [h]

theorem log_snoc_after {j : Job} {log : List Ev} {e : Ev}
    (h : ∀ l1 l2 c, log = l1 ++ .start c :: l2 → ∀ p, j.ticks p = true → c ∈ j.succ p → Ev.finish p ∈ l1)
    (he : ∀ c, e = .start c → ∀ p, j.ticks p = true → c ∈ j.succ p → Ev.finish p ∈ log) :
    ∀ l1 l2 c, log ++ [e] = l1 ++ .start c :: l2 → ∀ p, j.ticks p = true → c ∈ j.succ p → Ev.finish p ∈ l1 := by
  intro l1 l2 c hl p hp hc
  rcases List.eq_nil_or_concat l2 with rfl | ⟨l2', z, rfl⟩
  · have := List.append_inj' hl (by simp)
    have he' : e = .start c := by simpa using this.2
    rw [← this.1]; exact he c he' p hp hc
  · have : log ++ [e] = (l1 ++ .start c :: l2') ++ [z] := by simpa using hl
    have := List.append_inj' this (by simp)
    exact h l1 l2' c this.1 p hp hc

theorem inv_check {j : Job} {s : St} (h : Inv j s) {w : Nat} (hpc : s.pc w = .check) (x : Pc)
    (hx : x = .recv ∨ (x = .gone ∧ total j ≤ s.completed)) : Inv j { s with pc := upd s.pc w x } := by
  obtain ⟨h1, h2, h3, h4, h5, h6, h7, h8, h9, h10, h11, h12, h13, h14, h15⟩ := h
  refine ⟨h1, h2, h3, h4, h5, ?_, ?_, ?_, h9, h10, h11, h12, h13, h14, ?_⟩ <;> simp only [upd_eq_iff] <;> grind

theorem inv_timeout {j : Job} {s : St} (h : Inv j s) {w : Nat} (hpc : s.pc w = .recv) :
    Inv j { s with pc := upd s.pc w .check } := by
  obtain ⟨h1, h2, h3, h4, h5, h6, h7, h8, h9, h10, h11, h12, h13, h14, h15⟩ := h
  refine ⟨h1, h2, h3, h4, h5, ?_, ?_, ?_, h9, h10, h11, h12, h13, h14, ?_⟩ <;> simp only [upd_eq_iff] <;> grind

theorem inv_pop {j : Job} (hj : j.Ok) {s : St} (h : Inv j s) {w i : Nat} {q : List Nat} (hpc : s.pc w = .recv)
    (hq : s.queue = i :: q) :
    Inv j { s with queue := q, pc := upd s.pc w (.tick i), log := s.log ++ [.start i], ph := upd s.ph i (.ticking w) } := by
  have hph : s.ph i = .queued := (h.qmem i).1 (by simp [hq])
  have hr := h.real (i := i) (by simp [hph])
  have hz : s.pending i = 0 := by
    by_contra hne
    have := (h.wait i hr.2 hr.1).2 hne
    rw [hph] at this; simp at this
  have hfin : ∀ p, j.ticks p = true → i ∈ j.succ p → Ev.finish p ∈ s.log := by
    intro p hp hc
    have := h.pend i hr.2
    rw [hz] at this
    have := (holders_zero j hj s.ph i).1 this.symm p hp hc
    rw [h.finished]
    cases hpp : s.ph p <;> rw [hpp] at this <;> simp_all [holds]
  obtain ⟨h1, h2, h3, h4, h5, h6, h7, h8, h9, h10, h11, h12, h13, h14, h15⟩ := h
  rw [hq] at h4 h5
  rw [List.nodup_cons] at h4
  refine ⟨?_, ?_, ?_, h4.2, ?_, ?_, ?_, ?_, ?_, ?_, ?_, ?_, ?_, ?_, ?_⟩
  · intro c hc
    show _ = holders j (upd s.ph i _) c
    rw [holders_same j s.ph hr.1 _ c (by rw [hph]; rfl)]; exact h1 c hc
  · simp only [upd_eq_iff]; grind
  · simp only [upd_eq_iff]; grind
  · simp only [upd_eq_iff]; grind
  · simp only [upd_eq_iff]; grind
  · simp only [upd_eq_iff]; grind
  · simp only [upd_eq_iff]; grind
  · simp only [upd_eq_iff]; grind
  · have := doneCount_upd s.ph hr.1 (.ticking w)
    simp only [hph] at this
    show s.completed = _
    rw [h10]; simpa using this.symm
  · show (s.log ++ [Ev.start i]).Nodup
    have : Ev.start i ∉ s.log := by rw [h12]; simp [hph]
    exact List.Nodup.append h11 (by simp) (by simpa [List.disjoint_singleton] using this)
  · simp only [upd_eq_iff, List.mem_append]; grind
  · simp only [upd_eq_iff, List.mem_append]; grind
  · exact log_snoc_after h14 (by intro c hc; injection hc with hc; subst hc; exact hfin)
  · simp only [upd_eq_iff]; grind

theorem inv_tick {j : Job} (hj : j.Ok) {s : St} (h : Inv j s) {w i : Nat} (hpc : s.pc w = .tick i) :
    Inv j { s with pc := upd s.pc w (.notify i (j.succ i)), log := s.log ++ [.finish i], ph := upd s.ph i (.notifying w (j.succ i)) } := by
  have hph : s.ph i = .ticking w := (h.tick w i).1 hpc
  have hr := h.real (i := i) (by simp [hph])
  obtain ⟨h1, h2, h3, h4, h5, h6, h7, h8, h9, h10, h11, h12, h13, h14, h15⟩ := h
  refine ⟨?_, ?_, ?_, h4, ?_, ?_, ?_, ?_, ?_, ?_, ?_, ?_, ?_, ?_, ?_⟩
  · intro c hc
    show _ = holders j (upd s.ph i _) c
    have := holders_upd j s.ph hr.1 (.notifying w (j.succ i)) c
    have e : s.pending c = _ := h1 c hc
    show s.pending c = _
    rw [e]
    simp only [hph, holds] at this
    by_cases hcs : c ∈ j.succ i <;> simp [hcs] at this <;> omega
  · simp only [upd_eq_iff]; grind
  · simp only [upd_eq_iff]; grind
  · simp only [upd_eq_iff]; grind
  · simp only [upd_eq_iff]; grind
  · simp only [upd_eq_iff]; grind
  · simp only [upd_eq_iff]; grind
  · intro w' i' rest hx
    rw [show ({ s with pc := upd s.pc w (.notify i (j.succ i)), log := s.log ++ [.finish i], ph := upd s.ph i (.notifying w (j.succ i)) } : St).ph = upd s.ph i (.notifying w (j.succ i)) from rfl, upd_eq_iff] at hx
    rcases hx with ⟨rfl, hx⟩ | ⟨_, hx⟩
    · injection hx with _ hx; subst hx; exact ⟨hj.nodup _, fun c hc => hc⟩
    · exact h9 w' i' rest hx
  · have := doneCount_upd s.ph hr.1 (.notifying w (j.succ i))
    simp only [hph] at this
    show s.completed = _
    rw [h10]; simpa using this.symm
  · show (s.log ++ [Ev.finish i]).Nodup
    have : Ev.finish i ∉ s.log := by rw [h13]; simp [hph]
    exact List.Nodup.append h11 (by simp) (by simpa [List.disjoint_singleton] using this)
  · simp only [upd_eq_iff, List.mem_append]; grind
  · simp only [upd_eq_iff, List.mem_append]; grind
  · exact log_snoc_after h14 (by intro c hc; simp at hc)
  · simp only [upd_eq_iff]; grind

/-- Releasing a successor that does not tick. -/
theorem inv_notify_skip {j : Job} {s : St} (h : Inv j s) {w i c : Nat} {rest : List Nat}
    (hpc : s.pc w = .notify i (c :: rest)) (hc : j.ticks c ≠ true) :
    Inv j { s with pc := upd s.pc w (.notify i rest), ph := upd s.ph i (.notifying w rest) } := by
  have hph : s.ph i = .notifying w (c :: rest) := (h.noti w i _).2 (.inl hpc)
  have hr := h.real (i := i) (by simp [hph])
  obtain ⟨h1, h2, h3, h4, h5, h6, h7, h8, h9, h10, h11, h12, h13, h14, h15⟩ := h
  have hsub := h9 w i _ hph
  rw [List.nodup_cons] at hsub
  refine ⟨?_, ?_, ?_, h4, ?_, ?_, ?_, ?_, ?_, ?_, h11, ?_, ?_, h14, ?_⟩
  · intro d hd
    show _ = holders j (upd s.ph i _) d
    have hdc : d ≠ c := fun e => hc (e ▸ hd)
    rw [holders_same j s.ph hr.1 _ d (by rw [hph]; simp [holds, hdc])]; exact h1 d hd
  · simp only [upd_eq_iff]; grind
  · simp only [upd_eq_iff]; grind
  · simp only [upd_eq_iff]; grind
  · simp only [upd_eq_iff]; grind
  · simp only [upd_eq_iff]; grind
  · simp only [upd_eq_iff]; grind
  · intro w' i' rest' hx
    rw [show ({ s with pc := upd s.pc w (.notify i rest), ph := upd s.ph i (.notifying w rest) } : St).ph = upd s.ph i (.notifying w rest) from rfl, upd_eq_iff] at hx
    rcases hx with ⟨rfl, hx⟩ | ⟨_, hx⟩
    · injection hx with _ hx; subst hx; exact ⟨hsub.1.2, fun d hd => hsub.2 d (by simp [hd])⟩
    · exact h9 w' i' rest' hx
  · have := doneCount_upd s.ph hr.1 (.notifying w rest)
    simp only [hph] at this
    show s.completed = _
    rw [h10]; simpa using this.symm
  · simp only [upd_eq_iff]; grind
  · simp only [upd_eq_iff]; grind
  · simp only [upd_eq_iff]; grind

/-- What holds when a worker is about to release ticking successor `c`. -/
theorem notify_facts {j : Job} (hj : j.Ok) {s : St} (h : Inv j s) {w i c : Nat} {rest : List Nat}
    (hpc : s.pc w = .notify i (c :: rest)) (hc : j.ticks c = true) :
    i ≠ c ∧ i < j.n ∧ c < j.n ∧ j.ticks i = true ∧ c ∉ rest ∧ s.ph i = .notifying w (c :: rest) ∧
    s.ph c = .waiting ∧ 0 < s.pending c ∧ rest.Nodup ∧ (∀ d ∈ rest, d ∈ j.succ i) ∧
    ∀ d, holders j (upd s.ph i (.notifying w rest)) d + (if d = c then 1 else 0) = holders j s.ph d := by
  have hph : s.ph i = .notifying w (c :: rest) := (h.noti w i _).2 (.inl hpc)
  have hr := h.real (i := i) (by simp [hph])
  have hsub := h.sub w i _ hph
  rw [List.nodup_cons] at hsub
  have hci : c ∈ j.succ i := hsub.2 c (by simp)
  have hcn := (hj.bound i c hci).2
  have hne : i ≠ c := by
    obtain ⟨rank, hrk⟩ := hj.acyclic
    intro e; have := hrk i c hci; rw [e] at this; omega
  have hpos : holders j s.ph c ≠ 0 := by
    intro h0
    have := (holders_zero j hj s.ph c).1 h0 i hr.2 hci
    rw [hph] at this; simp [holds] at this
  have hpd := h.pend c hc
  refine ⟨hne, hr.1, hcn, hr.2, hsub.1.1, hph, (h.wait c hc hcn).2 (by omega), by omega, hsub.1.2, fun d hd => hsub.2 d (by simp [hd]), ?_⟩
  intro d
  have := holders_upd j s.ph hr.1 (.notifying w rest) d
  by_cases hd : d = c
  · subst hd
    simp only [hph, holds, hr.2, hci, List.mem_cons, true_or, decide_true, Bool.and_self, if_true, hsub.1.1, decide_false, Bool.and_false, Bool.false_eq_true, if_false] at this ⊢
    omega
  · have e : holds (s.ph i) d = holds (.notifying w rest) d := by rw [hph]; simp [holds, hd]
    rw [e] at this
    rw [if_neg hd]; omega

theorem inv_notify_last {j : Job} (hj : j.Ok) {s : St} (h : Inv j s) {w i c : Nat} {rest : List Nat}
    (hpc : s.pc w = .notify i (c :: rest)) (hc : j.ticks c = true) (h1' : s.pending c = 1) :
    Inv j { s with pending := upd s.pending c (fetchSub (s.pending c)), pc := upd s.pc w (.send c i rest), ph := upd (upd s.ph i (.notifying w rest)) c (.toSend w) } := by
  obtain ⟨hne, hin, hcn, hti, hcr, hph, hpc0, hpos, hnd, hsubr, hcnt⟩ := notify_facts hj h hpc hc
  have hfs : fetchSub (s.pending c) = 0 := by rw [h1']; rfl
  obtain ⟨h1, h2, h3, h4, h5, h6, h7, h8, h9, h10, h11, h12, h13, h14, h15⟩ := h
  refine ⟨?_, ?_, ?_, h4, ?_, ?_, ?_, ?_, ?_, ?_, h11, ?_, ?_, h14, ?_⟩
  · intro d hd
    show upd s.pending c (fetchSub (s.pending c)) d = holders j (upd (upd s.ph i (.notifying w rest)) c (.toSend w)) d
    rw [holders_same j _ hcn _ d (by rw [upd_ne _ _ (Ne.symm hne), hpc0]; rfl)]
    have := hcnt d
    have := h1 d hd
    by_cases hdc : d = c
    · subst hdc; rw [upd_same, hfs]; simp at *; omega
    · rw [upd_ne _ _ hdc]; simp only [hdc, if_false] at *; omega
  · rw [hfs]
    intro d hd hdn
    have hd2 := h2 d hd hdn
    show upd (upd s.ph i (.notifying w rest)) c (.toSend w) d = .waiting ↔ upd s.pending c 0 d ≠ 0
    by_cases hdc : d = c
    · subst hdc; simp
    · rw [upd_ne _ _ hdc, upd_ne _ _ hdc]
      by_cases hdi : d = i
      · subst hdi; rw [upd_same]; rw [hph] at hd2; simpa using hd2
      · rw [upd_ne _ _ hdi]; exact hd2
  · simp only [upd_eq_iff]; grind
  · simp only [upd_eq_iff]; grind
  · simp only [upd_eq_iff]; grind
  · intro w' i' rest'
    show upd (upd s.ph i (.notifying w rest)) c (.toSend w) i' = _ ↔ upd s.pc w (.send c i rest) w' = _ ∨ ∃ d, upd s.pc w (.send c i rest) w' = _
    have u : ∀ x r, s.ph x = .notifying w r → x = i := by
      intro x r hx
      rcases (h7 w x r).1 hx with a | ⟨c', a⟩ <;> rw [hpc] at a
      · injection a with a _; exact a.symm
      · simp at a
    by_cases hw : w' = w
    · subst hw
      rw [upd_same]
      by_cases hi : i' = i
      · subst hi; rw [upd_ne _ _ hne, upd_same]; simp
      · have : ¬ i = i' := fun e => hi e.symm
        by_cases hc' : i' = c
        · subst hc'; rw [upd_same]; simp [this]
        · rw [upd_ne _ _ hc', upd_ne _ _ hi]
          simp [this]; intro hx; exact hi (u _ _ hx)
    · rw [upd_ne _ _ hw, ← h7]
      by_cases hi : i' = i
      · subst hi; rw [upd_ne _ _ hne, upd_same, hph]
        have : ¬ w = w' := fun e => hw e.symm
        simp [this]
      · by_cases hc' : i' = c
        · subst hc'; rw [upd_same, hpc0]; simp
        · rw [upd_ne _ _ hc', upd_ne _ _ hi]
  · intro w' c'
    show upd (upd s.ph i (.notifying w rest)) c (.toSend w) c' = _ ↔ ∃ i' r', upd s.pc w (.send c i rest) w' = _
    have u : ∀ x, s.ph x ≠ .toSend w := by
      intro x hx
      obtain ⟨_, _, a⟩ := (h8 w x).1 hx
      rw [hpc] at a; simp at a
    by_cases hc' : c' = c
    · subst hc'; rw [upd_same]
      by_cases hw : w' = w
      · subst hw; rw [upd_same]; simp
      · rw [upd_ne _ _ hw, ← h8, hpc0]
        have : ¬ w = w' := fun e => hw e.symm
        simp [this]
    · rw [upd_ne _ _ hc']
      have hcc : ¬ c = c' := fun e => hc' e.symm
      by_cases hw : w' = w
      · subst hw; rw [upd_same]
        by_cases hi : c' = i
        · subst hi; rw [upd_same]; simp [hcc]
        · rw [upd_ne _ _ hi]; simp [hcc]; exact u c'
      · rw [upd_ne _ _ hw, ← h8]
        by_cases hi : c' = i
        · subst hi; rw [upd_same, hph]; simp
        · rw [upd_ne _ _ hi]
  · intro w' i' rest' hx
    rw [show ({ s with pending := upd s.pending c (fetchSub (s.pending c)), pc := upd s.pc w (.send c i rest), ph := upd (upd s.ph i (.notifying w rest)) c (.toSend w) } : St).ph = upd (upd s.ph i (.notifying w rest)) c (.toSend w) from rfl, upd_eq_iff, upd_eq_iff] at hx
    rcases hx with ⟨rfl, hx⟩ | ⟨_, ⟨rfl, hx⟩ | ⟨_, hx⟩⟩
    · simp at hx
    · injection hx with _ hx; subst hx; exact ⟨hnd, hsubr⟩
    · exact h9 w' i' rest' hx
  · have a := doneCount_upd s.ph hin (.notifying w rest)
    have b := doneCount_upd (upd s.ph i (.notifying w rest)) hcn (.toSend w)
    rw [upd_ne _ _ (Ne.symm hne)] at b
    simp only [hph, hpc0] at a b
    show s.completed = (List.range j.n).countP (fun k => decide (upd (upd s.ph i (.notifying w rest)) c (.toSend w) k = .done))
    rw [h10]; simp at a b; omega
  · simp only [upd_eq_iff]; grind
  · simp only [upd_eq_iff]; grind
  · simp only [upd_eq_iff]; grind

theorem inv_notify_more {j : Job} (hj : j.Ok) {s : St} (h : Inv j s) {w i c : Nat} {rest : List Nat}
    (hpc : s.pc w = .notify i (c :: rest)) (hc : j.ticks c = true) (h1' : s.pending c ≠ 1) :
    Inv j { s with pending := upd s.pending c (fetchSub (s.pending c)), pc := upd s.pc w (.notify i rest), ph := upd s.ph i (.notifying w rest) } := by
  obtain ⟨hne, hin, hcn, hti, hcr, hph, hpc0, hpos, hnd, hsubr, hcnt⟩ := notify_facts hj h hpc hc
  have hfs : fetchSub (s.pending c) = s.pending c - 1 := by unfold fetchSub; rw [if_neg (by omega)]
  obtain ⟨h1, h2, h3, h4, h5, h6, h7, h8, h9, h10, h11, h12, h13, h14, h15⟩ := h
  refine ⟨?_, ?_, ?_, h4, ?_, ?_, ?_, ?_, ?_, ?_, h11, ?_, ?_, h14, ?_⟩
  · intro d hd
    show upd s.pending c (fetchSub (s.pending c)) d = holders j (upd s.ph i (.notifying w rest)) d
    have := hcnt d
    have := h1 d hd
    by_cases hdc : d = c
    · subst hdc; rw [upd_same, hfs]; simp at *; omega
    · rw [upd_ne _ _ hdc]; simp only [hdc, if_false] at *; omega
  · rw [hfs]
    intro d hd hdn
    have hd2 := h2 d hd hdn
    show upd s.ph i (.notifying w rest) d = .waiting ↔ upd s.pending c (s.pending c - 1) d ≠ 0
    by_cases hdc : d = c
    · subst hdc; rw [upd_same, upd_ne _ _ (Ne.symm hne), hpc0]; simp; omega
    · rw [upd_ne _ _ hdc]
      by_cases hdi : d = i
      · subst hdi; rw [upd_same]; rw [hph] at hd2; simpa using hd2
      · rw [upd_ne _ _ hdi]; exact hd2
  · simp only [upd_eq_iff]; grind
  · simp only [upd_eq_iff]; grind
  · simp only [upd_eq_iff]; grind
  · simp only [upd_eq_iff]; grind
  · simp only [upd_eq_iff]; grind
  · intro w' i' rest' hx
    rw [show ({ s with pending := upd s.pending c (fetchSub (s.pending c)), pc := upd s.pc w (.notify i rest), ph := upd s.ph i (.notifying w rest) } : St).ph = upd s.ph i (.notifying w rest) from rfl, upd_eq_iff] at hx
    rcases hx with ⟨rfl, hx⟩ | ⟨_, hx⟩
    · injection hx with _ hx; subst hx; exact ⟨hnd, hsubr⟩
    · exact h9 w' i' rest' hx
  · have a := doneCount_upd s.ph hin (.notifying w rest)
    simp only [hph] at a
    show s.completed = (List.range j.n).countP (fun k => decide (upd s.ph i (.notifying w rest) k = .done))
    rw [h10]; simp at a; omega
  · simp only [upd_eq_iff]; grind
  · simp only [upd_eq_iff]; grind
  · simp only [upd_eq_iff]; grind

theorem inv_send {j : Job} {s : St} (h : Inv j s) {w i c : Nat} {rest : List Nat}
    (hpc : s.pc w = .send c i rest) :
    Inv j { s with queue := s.queue ++ [c], pc := upd s.pc w (.notify i rest), ph := upd s.ph c .queued } := by
  have hph : s.ph c = .toSend w := (h.send w c).2 ⟨i, rest, hpc⟩
  have hpi : s.ph i = .notifying w rest := (h.noti w i rest).2 (.inr ⟨c, hpc⟩)
  have hr := h.real (i := c) (by simp [hph])
  have hic : i ≠ c := by intro e; rw [e, hph] at hpi; simp at hpi
  obtain ⟨h1, h2, h3, h4, h5, h6, h7, h8, h9, h10, h11, h12, h13, h14, h15⟩ := h
  refine ⟨?_, ?_, ?_, ?_, ?_, ?_, ?_, ?_, ?_, ?_, h11, ?_, ?_, h14, ?_⟩
  · intro d hd
    show _ = holders j (upd s.ph c _) d
    rw [holders_same j s.ph hr.1 _ d (by rw [hph]; rfl)]; exact h1 d hd
  · simp only [upd_eq_iff]; grind
  · simp only [upd_eq_iff]; grind
  · show (s.queue ++ [c]).Nodup
    have : c ∉ s.queue := by rw [h5]; simp [hph]
    exact List.Nodup.append h4 (by simp) (by simpa [List.disjoint_singleton] using this)
  · simp only [upd_eq_iff, List.mem_append]; grind
  · simp only [upd_eq_iff]; grind
  · intro w' i' rest'
    show upd s.ph c .queued i' = _ ↔ upd s.pc w (.notify i rest) w' = _ ∨ ∃ d, upd s.pc w (.notify i rest) w' = _
    have u : ∀ x r, s.ph x = .notifying w r → x = i ∧ r = rest := by
      intro x r hx
      rcases (h7 w x r).1 hx with a | ⟨c', a⟩ <;> rw [hpc] at a
      · simp at a
      · injection a with _ a b; exact ⟨a.symm, b.symm⟩
    by_cases hw : w' = w
    · subst hw
      rw [upd_same]
      by_cases hi : i' = i
      · subst hi; rw [upd_ne _ _ hic, hpi]; simp
      · have : ¬ i = i' := fun e => hi e.symm
        by_cases hc' : i' = c
        · subst hc'; rw [upd_same]; simp [this]
        · rw [upd_ne _ _ hc']
          simp [this]; intro hx; exact hi (u _ _ hx).1
    · rw [upd_ne _ _ hw, ← h7]
      by_cases hc' : i' = c
      · subst hc'; rw [upd_same, hph]; simp
      · rw [upd_ne _ _ hc']
  · intro w' c'
    show upd s.ph c .queued c' = _ ↔ ∃ i' r', upd s.pc w (.notify i rest) w' = _
    have u : ∀ x, s.ph x = .toSend w → x = c := by
      intro x hx
      obtain ⟨_, _, a⟩ := (h8 w x).1 hx
      rw [hpc] at a; injection a with a; exact a.symm
    by_cases hc' : c' = c
    · subst hc'; rw [upd_same]
      by_cases hw : w' = w
      · subst hw; rw [upd_same]; simp
      · rw [upd_ne _ _ hw, ← h8, hph]
        have : ¬ w = w' := fun e => hw e.symm
        simp [this]
    · rw [upd_ne _ _ hc']
      by_cases hw : w' = w
      · subst hw; rw [upd_same]; simp; exact fun hx => hc' (u _ hx)
      · rw [upd_ne _ _ hw, ← h8]
  · simp only [upd_eq_iff]; grind
  · have := doneCount_upd s.ph hr.1 .queued
    simp only [hph] at this
    show s.completed = _
    rw [h10]; simpa using this.symm
  · intro x
    show _ ↔ (∃ w, upd s.ph c .queued x = _) ∨ (∃ w r, upd s.ph c .queued x = _) ∨ upd s.ph c .queued x = _
    have := h12 x
    by_cases hx : x = c
    · subst hx; rw [upd_same]; rw [hph] at this; simpa using this
    · rw [upd_ne _ _ hx]; exact this
  · intro x
    show _ ↔ (∃ w r, upd s.ph c .queued x = _) ∨ upd s.ph c .queued x = _
    have := h13 x
    by_cases hx : x = c
    · subst hx; rw [upd_same]; rw [hph] at this; simpa using this
    · rw [upd_ne _ _ hx]; exact this
  · simp only [upd_eq_iff]; grind

theorem inv_complete {j : Job} {s : St} (h : Inv j s) {w i : Nat} (hpc : s.pc w = .notify i []) :
    Inv j { s with completed := s.completed + 1, pc := upd s.pc w .check, ph := upd s.ph i .done } := by
  have hph : s.ph i = .notifying w [] := (h.noti w i _).2 (.inl hpc)
  have hr := h.real (i := i) (by simp [hph])
  obtain ⟨h1, h2, h3, h4, h5, h6, h7, h8, h9, h10, h11, h12, h13, h14, h15⟩ := h
  refine ⟨?_, ?_, ?_, h4, ?_, ?_, ?_, ?_, ?_, ?_, h11, ?_, ?_, h14, ?_⟩
  · intro d hd
    show _ = holders j (upd s.ph i _) d
    rw [holders_same j s.ph hr.1 _ d (by rw [hph]; simp [holds])]; exact h1 d hd
  · simp only [upd_eq_iff]; grind
  · simp only [upd_eq_iff]; grind
  · simp only [upd_eq_iff]; grind
  · simp only [upd_eq_iff]; grind
  · simp only [upd_eq_iff]; grind
  · simp only [upd_eq_iff]; grind
  · simp only [upd_eq_iff]; grind
  · have := doneCount_upd s.ph hr.1 .done
    simp only [hph] at this
    show s.completed + 1 = _
    rw [h10]; simp at this; exact this.symm
  · simp only [upd_eq_iff]; grind
  · simp only [upd_eq_iff]; grind
  · simp only [upd_eq_iff]; grind

theorem inv_step {j : Job} (hj : j.Ok) {s : St} (h : Inv j s) (w : Nat) : Inv j (step j s w) := by
  unfold step
  cases hpc : s.pc w with
  | check =>
    simp only
    split
    · exact inv_check h hpc _ (.inr ⟨rfl, by assumption⟩)
    · exact inv_check h hpc _ (.inl rfl)
  | recv =>
    simp only
    cases hq : s.queue with
    | nil => simp only; have := inv_timeout h hpc; rw [hq] at this; exact this
    | cons i q => simp only; exact inv_pop hj h hpc hq
  | tick i => exact inv_tick hj h hpc
  | notify i rest =>
    cases rest with
    | nil => exact inv_complete h hpc
    | cons c rest =>
      simp only
      by_cases hc : j.ticks c = true
      · rw [if_pos hc]
        by_cases h1 : s.pending c = 1
        · rw [if_pos h1]; exact inv_notify_last hj h hpc hc h1
        · rw [if_neg h1]; exact inv_notify_more hj h hpc hc h1
      · rw [if_neg hc]; exact inv_notify_skip h hpc hc
  | send c i rest => exact inv_send h hpc
  | gone => exact h

theorem inv_run {j : Job} (hj : j.Ok) {s : St} (h : Inv j s) (k : Nat) (ws : List Nat) :
    Inv j (run j k s ws) := by
  induction ws generalizing s with
  | nil => exact h
  | cons w ws ih =>
    unfold run
    apply ih
    split
    · exact inv_step hj h w
    · exact h

end Horus.Sched.Dispatch
