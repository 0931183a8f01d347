import Verif.Loop.LifeProps

/-!
The lifecycle theorems: C98-C104.
-/

namespace Horus.Loop

/-! ### the invariant -/

/-- Reading a callback log: every tick and every shutdown of a node comes after a successful
`init` of that node. -/
def Ordered (l : List Ev) : Prop :=
  ∀ l1 l2 i, (l = l1 ++ Ev.tick i :: l2 ∨ l = l1 ++ Ev.shutdown i :: l2) → Ev.init i .ok ∈ l1

theorem append_cons_split {α} {l e l1 l2 : List α} {x : α} (h : l ++ e = l1 ++ x :: l2) :
    (∃ r, l = l1 ++ x :: r) ∨ (∃ p, l1 = l ++ p ∧ e = p ++ x :: l2) := by
  rcases List.append_eq_append_iff.mp h with ⟨a, h1, h2⟩ | ⟨c, h1, h2⟩
  · exact .inr ⟨a, h1, h2⟩
  · cases c with
    | nil =>
      right
      refine ⟨[], by simpa using h1.symm, ?_⟩
      simpa using h2.symm
    | cons y c =>
      left
      simp only [List.cons_append, List.cons.injEq] at h2
      exact ⟨c, by rw [h1, h2.1]⟩

theorem ordered_append {l e : List Ev} (h : Ordered l)
    (he : ∀ p q i, (e = p ++ Ev.tick i :: q ∨ e = p ++ Ev.shutdown i :: q) → Ev.init i .ok ∈ l ++ p) :
    Ordered (l ++ e) := by
  intro l1 l2 i hl
  rcases hl with hl | hl
  · rcases append_cons_split hl with ⟨r, hr⟩ | ⟨p, rfl, hp⟩
    · exact h l1 r i (.inl hr)
    · exact he p l2 i (.inl hp)
  · rcases append_cons_split hl with ⟨r, hr⟩ | ⟨p, rfl, hp⟩
    · exact h l1 r i (.inr hr)
    · exact he p l2 i (.inr hp)

/-- The lifecycle invariant. -/
structure Inv (s : Sys) : Prop where
  ordered : Ordered s.log
  inited : ∀ n ∈ s.nodes, n.inited = true → Ev.init n.id .ok ∈ s.log
  armed : ∀ n ∈ s.nodes, n.armed = true → n.inited = true ∧ n.stopped = false
  idle : s.phase = .idle → ∀ n ∈ s.nodes, n.armed = false ∧ n.moved = false
  once : s.phase = .once → ∀ n ∈ s.nodes, n.moved = false
  fresh : ∀ n ∈ s.nodes, n.id < s.next

theorem inv_init : Inv Sys.init := by
  refine ⟨?_, by simp [Sys.init], by simp [Sys.init], by simp [Sys.init], by simp [Sys.init], by simp [Sys.init]⟩
  intro l1 l2 i h
  rcases h with h | h <;> simp [Sys.init] at h

theorem inits_ordered {l e : List Ev} (h : Ordered l) (he : ∀ x ∈ e, x = Ev.call ∨ ∃ i r, x = Ev.init i r) :
    Ordered (l ++ e) := by
  refine ordered_append h ?_
  intro p q i hx
  rcases hx with rfl | rfl
  · rcases he (Ev.tick i) (by simp) with h | ⟨_, _, h⟩ <;> cases h
  · rcases he (Ev.shutdown i) (by simp) with h | ⟨_, _, h⟩ <;> cases h

theorem step_next (R s a) : s.next ≤ (step R s a).next ∧
    (∀ c, a = .add c → s.phase = .idle → (step R s a).next = s.next + 1) := by
  have fin : ∀ t : Sys, (finalize R t).next = t.next := by
    intro t; unfold finalize; split_ifs <;> rfl
  have aft : ∀ (t : Sys) n e, (afterTick R t n e).next = t.next := by
    intro t n e
    cases e <;> unfold afterTick <;> simp only <;> (try split_ifs) <;> (try rfl)
    cases n.owner <;> rfl
  cases a <;> simp only [step]
  case add c =>
    split_ifs with h
    · exact ⟨Nat.le_succ _, fun _ _ _ => rfl⟩
    · exact ⟨Nat.le_refl _, fun _ _ x => absurd x h⟩
  case tick i e =>
    refine ⟨?_, by simp⟩
    cases s.nodes.find? (fun n => n.id == i && n.armed) with
    | none => exact Nat.le_refl _
    | some n => simp only; rw [aft]; exact Nat.le_refl _
  all_goals
    refine ⟨?_, by simp⟩
    try split_ifs
    all_goals first
      | exact Nat.le_refl _
      | (simp only [fin]; exact Nat.le_refl _)

theorem finalize_phase' (R) (s : Sys) : (finalize R s).phase = s.phase := finalize_phase R s

theorem afterTick_phase (R s n e) :
    (afterTick R s n e).phase = s.phase ∨
      (s.phase = .once ∧ e = .fatal ∧ (afterTick R s n e).phase = .idle ∧
        ∀ m ∈ (afterTick R s n e).nodes, m.armed = false) := by
  cases e <;> simp only [afterTick]
  case fatal =>
    split_ifs with h
    · exact .inr ⟨h, trivial, rfl, by simp⟩
    · exact .inl rfl
  case errPanic => cases n.owner <;> exact .inl rfl
  all_goals first
    | exact .inl rfl
    | exact .inl trivial
    | (split_ifs <;> first | exact .inl rfl | exact .inl trivial)

/-- How the scheduler gets back to idle. -/
theorem step_idle (R) {s : Sys} {a} (h : (step R s a).phase = .idle) :
    (s.phase = .idle ∧ (∀ det f, a ≠ .run det f) ∧ a ≠ .tickOnce) ∨
      (s.phase = .once ∧ ∀ m ∈ (step R s a).nodes, m.armed = false) ∨
      (s.phase = .top ∧ a = .finish ∧ ∀ m ∈ (step R s a).nodes, m.armed = false ∧ m.moved = false) := by
  cases a with
  | tickOnce =>
    by_cases hp : s.phase = .idle
    · rw [step_tickOnce R hp] at h; cases h
    · simp only [step, if_neg hp] at h; exact absurd h hp
  | run det f =>
    by_cases hp : s.phase = .idle
    · rw [step_run R det f hp] at h; cases h
    · simp only [step, if_neg hp] at h; exact absurd h hp
  | round =>
    by_cases hp : s.phase = .top ∧ s.running = true
    · rw [step_round R hp] at h; cases h
    · simp only [step, if_neg hp] at h; exact .inl ⟨h, by simp, by simp⟩
  | endOnce =>
    by_cases hp : s.phase = .once ∧ ∀ n ∈ s.nodes, n.armed = false
    · right; left; refine ⟨hp.1, ?_⟩; simp only [step, if_pos hp]; exact hp.2
    · simp only [step, if_neg hp] at h; exact .inl ⟨h, by simp, by simp⟩
  | endRound =>
    by_cases hp : s.phase = .round ∧ ∀ n ∈ s.nodes, n.moved = false → n.armed = false
    · simp only [step, if_pos hp] at h; cases h
    · simp only [step, if_neg hp] at h; exact .inl ⟨h, by simp, by simp⟩
  | finish =>
    by_cases hp : s.phase = .top ∧ ∀ n ∈ s.nodes, n.armed = false
    · right; right; refine ⟨hp.1, rfl, ?_⟩
      simp only [step, if_pos hp]
      intro m hm
      obtain ⟨k, hk, rfl⟩ := List.mem_map.mp hm
      exact ⟨hp.2 k ((mem_regroup _ _).mp hk), rfl⟩
    · simp only [step, if_neg hp] at h; exact .inl ⟨h, by simp, by simp⟩
  | tick i e =>
    cases hf : s.nodes.find? (fun n => n.id == i && n.armed) with
    | none => simp only [step, hf] at h; exact .inl ⟨h, by simp, by simp⟩
    | some k =>
      simp only [step, hf] at h ⊢
      rcases afterTick_phase R { s with nodes := onId i (fun m => { m with armed := false }) s.nodes, log := s.log ++ [Ev.tick i] } k e with h1 | ⟨h1, -, -, h2⟩
      · rw [h1] at h; exact .inl ⟨h, by simp, by simp⟩
      · exact .inr (.inl ⟨h1, h2⟩)
  | add _ | pause _ | resume _ =>
    left
    simp only [step] at h
    split_ifs at h <;> exact ⟨h, by simp, by simp⟩
  | stop | arm _ | drop _ | halt _ => exact .inl ⟨h, by simp, by simp⟩

/-- How the scheduler gets into `tick_once`. -/
theorem step_once (R) {s : Sys} {a} (h : (step R s a).phase = .once) :
    (s.phase = .idle ∧ a = .tickOnce) ∨ s.phase = .once := by
  cases a with
  | tickOnce =>
    by_cases hp : s.phase = .idle
    · exact .inl ⟨hp, rfl⟩
    · simp only [step, if_neg hp] at h; exact .inr h
  | run det f =>
    by_cases hp : s.phase = .idle
    · rw [step_run R det f hp] at h; cases h
    · simp only [step, if_neg hp] at h; exact .inr h
  | round =>
    by_cases hp : s.phase = .top ∧ s.running = true
    · rw [step_round R hp] at h; cases h
    · simp only [step, if_neg hp] at h; exact .inr h
  | endOnce =>
    by_cases hp : s.phase = .once ∧ ∀ n ∈ s.nodes, n.armed = false
    · simp only [step, if_pos hp] at h; cases h
    · simp only [step, if_neg hp] at h; exact .inr h
  | endRound =>
    by_cases hp : s.phase = .round ∧ ∀ n ∈ s.nodes, n.moved = false → n.armed = false
    · simp only [step, if_pos hp] at h; cases h
    · simp only [step, if_neg hp] at h; exact .inr h
  | finish =>
    by_cases hp : s.phase = .top ∧ ∀ n ∈ s.nodes, n.armed = false
    · simp only [step, if_pos hp] at h; cases h
    · simp only [step, if_neg hp] at h; exact .inr h
  | tick i e =>
    cases hf : s.nodes.find? (fun n => n.id == i && n.armed) with
    | none => simp only [step, hf] at h; exact .inr h
    | some k =>
      simp only [step, hf] at h ⊢
      rcases afterTick_phase R { s with nodes := onId i (fun m => { m with armed := false }) s.nodes, log := s.log ++ [Ev.tick i] } k e with h1 | ⟨h1, -, h2, -⟩
      · rw [h1] at h; exact .inr h
      · rw [h2] at h; cases h
  | add _ | pause _ | resume _ =>
    right
    simp only [step] at h
    split_ifs at h <;> exact h
  | stop | arm _ | drop _ | halt _ => exact .inr h

theorem inv_step (R) {s : Sys} (h : Inv s) (a : Act) : Inv (step R s a) := by
  have hmono : ∃ evs, (step R s a).log = s.log ++ evs := by
    rcases step_log R s a with ⟨e, h1, -⟩ | ⟨n, -, -, -, e, h1, -⟩
    · exact ⟨e, h1⟩
    · exact ⟨_, h1⟩
  obtain ⟨evs, hev⟩ := hmono
  have hin : ∀ n' ∈ (step R s a).nodes, n'.inited = true → Ev.init n'.id .ok ∈ (step R s a).log := by
    intro n' hn' hi
    rcases step_nodes R s a hn' with ⟨n, hn, r⟩ | ⟨c, -, -, rfl⟩
    · rcases r.inited' hi with hi | hi
      · rw [hev, r.id]; exact List.mem_append_left _ (h.inited n hn hi)
      · rw [r.id]; exact hi
    · cases hi
  have hfresh : ∀ n' ∈ (step R s a).nodes, n'.id < (step R s a).next := by
    intro n' hn'
    rcases step_nodes R s a hn' with ⟨n, hn, r⟩ | ⟨c, hc, hp, rfl⟩
    · rw [r.id]; exact Nat.lt_of_lt_of_le (h.fresh n hn) (step_next R s a).1
    · rw [(step_next R s a).2 c hc hp]; exact Nat.lt_succ_self _
  have harm : ∀ n' ∈ (step R s a).nodes, n'.armed = true → n'.inited = true ∧ n'.stopped = false := by
    intro n' hn' ha
    rcases step_nodes R s a hn' with ⟨n, hn, r⟩ | ⟨c, -, -, rfl⟩
    · rcases r.armed ha with hna | ⟨-, he, hna, -⟩
      · obtain ⟨h1, h2⟩ := h.armed n hn hna
        refine ⟨r.inited h1, ?_⟩
        cases hs : n'.stopped with
        | false => rfl
        | true =>
          rcases r.stopped' hna ha hs with x | x
          · rw [h2] at x; cases x
          · rw [h1] at x; cases x
      · have tc := tryArm_cases s.filt n
        rw [he] at ha ⊢
        rcases tc.2.2.2.2.2.2.2.1 ha with x | ⟨x, y, -⟩
        · rw [hna] at x; cases x
        · exact ⟨tc.2.2.1.trans x, tc.2.2.2.1.trans y⟩
    · cases ha
  have hord : Ordered (step R s a).log := by
    rcases step_log R s a with ⟨e, h1, h2⟩ | ⟨n, hn, hna, ⟨e, rfl⟩, evs', h1, h2⟩
    · by_cases hf : a = .finish
      · subst hf
        simp only [step]
        split_ifs with hp
        · refine ordered_append h.ordered ?_
          intro p q i hx
          have hm : Ev.shutdown i ∈ shutdownPass s.filt (regroup s.nodes) ∨ Ev.tick i ∈ shutdownPass s.filt (regroup s.nodes) := by
            rcases hx with hx | hx
            · right; rw [hx]; simp
            · left; rw [hx]; simp
          rcases hm with hm | hm
          · obtain ⟨m, hm1, -, hm2, hm3⟩ := (shutdownPass_mem _ _ _).mp hm
            cases hm3
            exact List.mem_append_left _ (h.inited m ((mem_regroup _ _).mp hm1) hm2)
          · obtain ⟨m, -, -, -, hm3⟩ := (shutdownPass_mem _ _ _).mp hm
            cases hm3
        · exact h.ordered
      · by_cases ht : ∃ i e, a = .tick i e
        · obtain ⟨i, ef, rfl⟩ := ht
          -- no armed node: nothing happened
          cases hfd : s.nodes.find? (fun n => n.id == i && n.armed) with
          | none => simp only [step, hfd]; exact h.ordered
          | some k =>
            exfalso
            obtain ⟨evs2, h3, -⟩ := afterTick_log R
              { s with nodes := onId i (fun m => { m with armed := false }) s.nodes,
                       log := s.log ++ [Ev.tick i] } k ef
            simp only [step, hfd] at h1
            rw [h3] at h1
            simp only [List.append_assoc, List.append_cancel_left_eq] at h1
            exact h2 i (h1 ▸ by simp)
        · rw [h1]
          -- only initialisations
          refine inits_ordered h.ordered ?_
          have fl : ∀ t : Sys, ∃ evs, (finalize R t).log = t.log ++ evs ∧ ∀ x ∈ evs, ∃ i r, x = Ev.init i r := by
            intro t
            unfold finalize
            split_ifs
            · exact ⟨[], by simp, by simp⟩
            · refine ⟨_, rfl, fun x hx => ?_⟩
              obtain ⟨m, -, -, -, hm⟩ := initPass_evs _ _ _ x hx
              exact ⟨_, _, hm⟩
          intro x hx
          cases a with
          | finish => exact absurd rfl hf
          | tick i e => exact absurd ⟨i, e, rfl⟩ ht
          | tickOnce =>
            by_cases hp : s.phase = .idle
            · rw [step_tickOnce R hp] at h1
              obtain ⟨ev, h3, h4⟩ := fl { s with log := s.log ++ [Ev.call] }
              simp only [h3, List.append_assoc, List.append_cancel_left_eq] at h1
              rw [← h1] at hx
              simp only [List.mem_append, List.mem_singleton] at hx
              rcases hx with hx | hx | hx
              · exact .inl hx
              · exact .inr (h4 x hx)
              · obtain ⟨m, -, -, -, hm⟩ := reinitPass_evs _ _ x hx
                exact .inr ⟨_, _, hm⟩
            · simp only [step, if_neg hp] at h1
              have : e = [] := by simpa using h1
              subst this; cases hx
          | run det f =>
            by_cases hp : s.phase = .idle
            · rw [step_run R det f hp] at h1
              obtain ⟨ev, h3, h4⟩ := fl { s with log := s.log ++ [Ev.call] }
              simp only [h3, List.append_assoc, List.append_cancel_left_eq] at h1
              rw [← h1] at hx
              simp only [List.mem_append, List.mem_singleton] at hx
              rcases hx with hx | hx | hx
              · exact .inl hx
              · exact .inr (h4 x hx)
              · obtain ⟨m, -, -, -, hm⟩ := initPass_evs _ _ _ x hx
                exact .inr ⟨_, _, hm⟩
            · simp only [step, if_neg hp] at h1
              have : e = [] := by simpa using h1
              subst this; cases hx
          | round =>
            by_cases hp : s.phase = .top ∧ s.running = true
            · rw [step_round R hp] at h1
              simp only [List.append_cancel_left_eq] at h1
              rw [← h1] at hx
              obtain ⟨m, -, -, -, hm⟩ := reinitPass_evs _ _ x hx
              exact .inr ⟨_, _, hm⟩
            · simp only [step, if_neg hp] at h1
              have : e = [] := by simpa using h1
              subst this; cases hx
          | add _ | stop | endOnce | pause _ | resume _ | endRound | arm _ | drop _ | halt _ =>
            exfalso
            have h5 : s.log = s.log ++ e := by
              rw [← h1]; simp only [step] <;> (try split_ifs) <;> rfl
            have : e = [] := by simpa using h5
            subst this; cases hx
    · -- a tick
      have hI := h.inited n hn (h.armed n hn hna).1
      cases hfd : s.nodes.find? (fun m => m.id == n.id && m.armed) with
      | none => simp only [step, hfd]; exact h.ordered
      | some k =>
        have hk := List.find?_some hfd
        simp only [Bool.and_eq_true, beq_iff_eq] at hk
        have o1 : Ordered (s.log ++ [Ev.tick n.id]) := by
          refine ordered_append h.ordered ?_
          intro p q i hx
          rcases hx with hx | hx
          · have hm : Ev.tick i ∈ [Ev.tick n.id] := by rw [hx]; simp
            simp only [List.mem_singleton, Ev.tick.injEq] at hm
            subst hm; exact List.mem_append_left _ hI
          · have hm : Ev.shutdown i ∈ [Ev.tick n.id] := by rw [hx]; simp
            simp at hm
        simp only [step, hfd]
        cases e <;> simp only [afterTick]
        · exact o1
        · split_ifs <;> exact o1
        · exact o1
        · split_ifs
          · refine ordered_append o1 ?_
            intro p q i hx
            rcases hx with hx | hx
            · have hm : Ev.tick i ∈ [Ev.shutdown k.id] := by rw [hx]; simp
              simp at hm
            · have hm : Ev.shutdown i ∈ [Ev.shutdown k.id] := by rw [hx]; simp
              simp only [List.mem_singleton, Ev.shutdown.injEq] at hm
              subst hm
              rw [hk.1]
              simp [hI]
          · exact o1
        · split_ifs <;> exact o1
        · exact inits_ordered o1 (fun x hx => .inr ⟨_, _, List.mem_singleton.mp hx⟩)
        · cases k.owner <;> exact o1
  refine ⟨hord, hin, harm, ?_, ?_, hfresh⟩
  · intro hp n' hn'
    rcases step_idle R hp with ⟨hs, hnr, hnt⟩ | ⟨hs, ha⟩ | ⟨hs, -, ha⟩
    · rcases step_nodes R s a hn' with ⟨n, hn, r⟩ | ⟨c, -, -, rfl⟩
      · obtain ⟨h1, h2⟩ := h.idle hs n hn
        constructor
        · cases hx : n'.armed with
          | false => rfl
          | true =>
            rcases r.armed hx with y | ⟨-, -, -, -, y⟩
            · rw [h1] at y; cases y
            · rcases (y h2).1 with z | z <;> rw [hs] at z <;> cases z
        · rcases r.moved with x | ⟨-, f, x⟩ | ⟨x, -⟩
          · rw [x]; exact h2
          · exact absurd x (hnr _ _)
          · subst x
            have : step R s .finish = s := by
              simp only [step]; rw [if_neg (by rw [hs]; simp)]
            rw [this] at hn'
            exact (h.idle hs n' hn').2
      · exact ⟨rfl, rfl⟩
    · refine ⟨ha n' hn', ?_⟩
      rcases step_nodes R s a hn' with ⟨n, hn, r⟩ | ⟨c, -, -, rfl⟩
      · rcases r.moved with x | ⟨x, -⟩ | ⟨x, -⟩
        · rw [x]; exact h.once hs n hn
        · rw [hs] at x; cases x
        · subst x
          have : step R s .finish = s := by
            simp only [step]; rw [if_neg (by rw [hs]; simp)]
          rw [this] at hn'
          exact h.once hs n' hn'
      · rfl
    · exact ha n' hn'
  · intro hp n' hn'
    rcases step_once R hp with ⟨hs, rfl⟩ | hs
    · rcases step_nodes R s _ hn' with ⟨n, hn, r⟩ | ⟨c, hc, -, -⟩
      · rcases r.moved with x | ⟨-, f, x⟩ | ⟨x, -⟩
        · rw [x]; exact (h.idle hs n hn).2
        · cases x
        · cases x
      · cases hc
    · rcases step_nodes R s a hn' with ⟨n, hn, r⟩ | ⟨c, -, -, rfl⟩
      · rcases r.moved with x | ⟨x, -⟩ | ⟨-, x⟩
        · rw [x]; exact h.once hs n hn
        · rw [hs] at x; cases x
        · rw [hp] at x; cases x
      · rfl

/-! ### names stay distinct -/

theorem initPass_ids (R f) (ns : List Node) : (initPass R f ns).1.map (·.id) = ns.map (·.id) := by
  induction ns with
  | nil => rfl
  | cons n ns ih =>
    unfold initPass
    split_ifs
    · cases R n.id n.inits <;> simp [ih]
    · simp [ih]

theorem reinitNode_id (R) (n : Node) : (reinitNode R n).1.id = n.id := by
  unfold reinitNode
  split_ifs
  · cases R n.id n.inits <;> rfl
  · rfl

theorem reinitPass_ids (R) (ns : List Node) : (reinitPass R ns).1.map (·.id) = ns.map (·.id) := by
  unfold reinitPass
  simp only [List.map_map]
  exact List.map_congr_left fun n _ => reinitNode_id R n

theorem onId_ids (i g) (ns : List Node) (hg : ∀ n, (g n).id = n.id) :
    (onId i g ns).map (·.id) = ns.map (·.id) := by
  unfold onId
  rw [List.map_map]
  refine List.map_congr_left fun n _ => ?_
  simp only [Function.comp]
  split_ifs
  · exact hg n
  · rfl

theorem finalize_ids (R s) : (finalize R s).nodes.map (·.id) = s.nodes.map (·.id) := by
  unfold finalize
  split_ifs
  · rfl
  · exact initPass_ids _ _ _

theorem tryArm_id (f) (n : Node) : (tryArm f n).id = n.id := (tryArm_cases f n).1

theorem regroup_perm (ns : List Node) : (regroup ns).Perm ns := by
  unfold regroup
  induction ns with
  | nil => exact List.Perm.refl _
  | cons n ns ih =>
    have := ih
    cases ho : n.owner
    · simp only [List.filter_cons, ho, decide_true, if_true]
      simpa using ih
    · simp only [List.filter_cons, ho]
      simp only [decide_true, if_true, reduceCtorEq, decide_false, Bool.false_eq_true, if_false]
      refine List.Perm.trans ?_ (List.Perm.cons n ih)
      simp only [List.append_assoc, List.cons_append]
      exact List.perm_middle
    · simp only [List.filter_cons, ho]
      simp only [decide_true, if_true, reduceCtorEq, decide_false, Bool.false_eq_true, if_false]
      refine List.Perm.trans ?_ (List.Perm.cons n ih)
      have := @List.perm_middle _ n (ns.filter (fun n => n.owner = .main) ++ ns.filter (fun n => n.owner = .rt)) (ns.filter (fun n => n.owner = .compute) ++ (ns.filter (fun n => n.owner = .event) ++ ns.filter (fun n => n.owner = .async)))
      simpa only [List.append_assoc, List.cons_append] using this
    · simp only [List.filter_cons, ho]
      simp only [decide_true, if_true, reduceCtorEq, decide_false, Bool.false_eq_true, if_false]
      refine List.Perm.trans ?_ (List.Perm.cons n ih)
      have := @List.perm_middle _ n (ns.filter (fun n => n.owner = .main) ++ ns.filter (fun n => n.owner = .rt) ++ ns.filter (fun n => n.owner = .compute)) (ns.filter (fun n => n.owner = .event) ++ ns.filter (fun n => n.owner = .async))
      simpa only [List.append_assoc, List.cons_append] using this
    · simp only [List.filter_cons, ho]
      simp only [decide_true, if_true, reduceCtorEq, decide_false, Bool.false_eq_true, if_false]
      refine List.Perm.trans ?_ (List.Perm.cons n ih)
      have := @List.perm_middle _ n (ns.filter (fun n => n.owner = .main) ++ ns.filter (fun n => n.owner = .rt) ++ ns.filter (fun n => n.owner = .compute) ++ ns.filter (fun n => n.owner = .event)) (ns.filter (fun n => n.owner = .async))
      simpa only [List.append_assoc, List.cons_append] using this

theorem sub_of_ids {l l' : List Nat} {P : Prop} (h : l = l') : l.Sublist l' ∧ (P → l = l') :=
  ⟨h ▸ List.Sublist.refl _, fun _ => h⟩

theorem afterTick_ids (R s n e) :
    ((afterTick R s n e).nodes.map (·.id)).Sublist (s.nodes.map (·.id)) ∧
      (e ≠ .errPanic → (afterTick R s n e).nodes.map (·.id) = s.nodes.map (·.id)) := by
  cases e <;> simp only [afterTick]
  case errPanic =>
    refine ⟨?_, fun h => absurd rfl h⟩
    cases n.owner <;> simp only
    · exact List.Sublist.refl _
    · exact (sub_of_ids (P := True) (onId_ids _ _ _ (by intro n; rfl))).1
    all_goals exact List.filter_sublist.map _
  case fatal =>
    split_ifs
    · simp only [List.map_map]
      exact ⟨List.Sublist.refl _, fun _ => rfl⟩
    · exact ⟨List.Sublist.refl _, fun _ => rfl⟩
  all_goals
    try split_ifs
    all_goals first
      | exact ⟨List.Sublist.refl _, fun _ => rfl⟩
      | exact ⟨List.Sublist.refl _, fun _ => trivial⟩
      | exact sub_of_ids (onId_ids _ _ _ (by intro n; rfl))

/-- A step keeps the names, up to order, except that `add` gives a fresh one and a crashed
executor loses some. -/
theorem step_ids (R s a) :
    (∃ c, a = .add c ∧ (step R s a).nodes.map (·.id) = s.nodes.map (·.id) ++ [s.next]) ∨
      (∃ i, a = .tick i .errPanic ∧ ((step R s a).nodes.map (·.id)).Sublist (s.nodes.map (·.id))) ∨
      ((step R s a).nodes.map (·.id)).Perm (s.nodes.map (·.id)) := by
  cases a with
  | add c =>
    by_cases hp : s.phase = .idle
    · left; refine ⟨c, rfl, ?_⟩; simp only [step, if_pos hp, List.map_append, List.map_cons, List.map_nil]
    · right; right; simp only [step, if_neg hp]; exact List.Perm.refl _
  | tickOnce =>
    right; right
    by_cases hp : s.phase = .idle
    · rw [step_tickOnce R hp]
      simp only [List.map_map]
      have h1 := reinitPass_ids R (finalize R { s with log := s.log ++ [Ev.call] }).nodes
      rw [finalize_ids] at h1
      exact List.Perm.of_eq h1
    · simp only [step, if_neg hp]; exact List.Perm.refl _
  | run det f =>
    right; right
    by_cases hp : s.phase = .idle
    · rw [step_run R det f hp]
      have h1 := initPass_ids R f (finalize R { s with log := s.log ++ [Ev.call] }).nodes
      rw [finalize_ids] at h1
      cases det
      · simp only [Bool.false_eq_true, if_false, List.map_map]
        exact List.Perm.of_eq h1
      · exact List.Perm.of_eq h1
    · simp only [step, if_neg hp]; exact List.Perm.refl _
  | round =>
    right; right
    by_cases hp : s.phase = .top ∧ s.running = true
    · rw [step_round R hp]
      simp only [List.map_map]
      exact List.Perm.of_eq (reinitPass_ids R s.nodes)
    · simp only [step, if_neg hp]; exact List.Perm.refl _
  | tick i e =>
    cases hf : s.nodes.find? (fun n => n.id == i && n.armed) with
    | none => right; right; simp only [step, hf]; exact List.Perm.refl _
    | some k =>
      have h1 := afterTick_ids R { s with nodes := onId i (fun m => { m with armed := false }) s.nodes, log := s.log ++ [Ev.tick i] } k e
      simp only [onId_ids i (fun m => { m with armed := false }) s.nodes (by intro n; rfl)] at h1
      right
      by_cases he : e = .errPanic
      · subst he; left; exact ⟨i, rfl, by simp only [step, hf]; exact h1.1⟩
      · right; simp only [step, hf]; exact List.Perm.of_eq (h1.2 he)
  | finish =>
    right; right
    by_cases hp : s.phase = .top ∧ ∀ n ∈ s.nodes, n.armed = false
    · simp only [step, if_pos hp, List.map_map]
      exact (regroup_perm s.nodes).map _
    · simp only [step, if_neg hp]; exact List.Perm.refl _
  | arm i =>
    right; right
    simp only [step]
    refine List.Perm.of_eq (onId_ids _ _ _ fun n => ?_)
    split_ifs <;> first | rfl | exact tryArm_id _ _
  | pause i | resume i =>
    right; right
    simp only [step]
    split_ifs
    · exact List.Perm.of_eq (onId_ids _ _ _ fun n => rfl)
    · exact List.Perm.refl _
  | drop i => right; right; exact List.Perm.of_eq (onId_ids _ _ _ fun n => rfl)
  | halt i =>
    right; right
    refine List.Perm.of_eq (onId_ids _ _ _ fun n => ?_)
    split_ifs <;> rfl
  | endOnce | endRound => right; right; simp only [step]; split_ifs <;> exact List.Perm.refl _
  | stop => right; right; exact List.Perm.refl _

theorem nodup_step (R) {s : Sys} (h : Inv s) (hn : (s.nodes.map (·.id)).Nodup) (a) :
    ((step R s a).nodes.map (·.id)).Nodup := by
  rcases step_ids R s a with ⟨c, -, e⟩ | ⟨i, -, e⟩ | e
  · rw [e]
    refine List.nodup_append.mpr ⟨hn, by simp, ?_⟩
    intro x hx y hy
    obtain ⟨n, hm, rfl⟩ := List.mem_map.mp hx
    have := h.fresh n hm
    simp only [List.mem_singleton] at hy
    omega
  · exact hn.sublist e
  · exact e.nodup_iff.mpr hn

theorem nodup_run (R) (as : List Act) {s : Sys} (h : Inv s) (hn : (s.nodes.map (·.id)).Nodup) :
    ((run R s as).nodes.map (·.id)).Nodup := by
  induction as generalizing s with
  | nil => exact hn
  | cons a as ih => exact ih (inv_step R h a) (nodup_step R h hn a)

theorem inv_run (R) (as : List Act) {s : Sys} (h : Inv s) : Inv (run R s as) := by
  induction as generalizing s with
  | nil => exact h
  | cons a as ih => exact ih (inv_step R h a)

end Horus.Loop
