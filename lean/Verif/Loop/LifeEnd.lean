import Verif.Loop.LifeThms

/-!
C99 (shutdown exactly once), C103 (init failures) and C104 (filtered runs) of the lifecycle model.
-/

namespace Horus.Loop

/-! ### who is initialised -/

/-- Every successful `init` belongs to a node that still exists and is marked initialised. -/
def Known (s : Sys) : Prop := ∀ i, Ev.init i .ok ∈ s.log → ∃ n ∈ s.nodes, n.id = i ∧ n.inited = true

theorem initPass_fwd (R f) (ns : List Node) {n : Node} (hn : n ∈ ns) (hi : n.inited = true) :
    n ∈ (initPass R f ns).1 := by
  induction ns with
  | nil => cases hn
  | cons m ns ih =>
    unfold initPass
    rcases List.mem_cons.mp hn with rfl | h
    · have c : ¬ (f n.id && !n.inited) = true := by simp [hi]
      rw [if_neg c]; exact List.mem_cons_self
    · split_ifs
      · cases R m.id m.inits <;> simp only <;>
          first | exact List.mem_cons_of_mem _ (ih h) | exact List.mem_cons_of_mem _ h
      · exact List.mem_cons_of_mem _ (ih h)

theorem initPass_known (R f) (ns : List Node) {i} (h : Ev.init i .ok ∈ (initPass R f ns).2.1) :
    ∃ n ∈ (initPass R f ns).1, n.id = i ∧ n.inited = true := by
  induction ns with
  | nil => cases h
  | cons m ns ih =>
    unfold initPass at h ⊢
    split_ifs at h ⊢ with c
    · cases hr : R m.id m.inits <;> rw [hr] at h <;> simp only [List.mem_cons, Ev.init.injEq, and_true, reduceCtorEq, and_false, false_or, List.not_mem_nil, or_false] at h ⊢
      · rcases h with h | h
        · exact ⟨_, .inl rfl, h.symm, rfl⟩
        · obtain ⟨n, h1, h2⟩ := ih h; exact ⟨n, .inr h1, h2⟩
      all_goals (obtain ⟨n, h1, h2⟩ := ih h; exact ⟨n, .inr h1, h2⟩)
    · obtain ⟨n, h1, h2⟩ := ih h; exact ⟨n, List.mem_cons_of_mem _ h1, h2⟩

theorem reinitPass_fwd (R) {ns : List Node} {n : Node} (hn : n ∈ ns) (hi : n.inited = true) :
    n ∈ (reinitPass R ns).1 := by
  refine List.mem_map.mpr ⟨n, hn, ?_⟩
  have c : ¬ (!n.moved && !n.stopped && !n.paused && !n.inited) = true := by simp [hi]
  unfold reinitNode; rw [if_neg c]

theorem reinitPass_known (R) (ns : List Node) {i} (h : Ev.init i .ok ∈ (reinitPass R ns).2) :
    ∃ n ∈ (reinitPass R ns).1, n.id = i ∧ n.inited = true := by
  obtain ⟨n, hn, he⟩ := List.mem_flatMap.mp h
  refine ⟨_, List.mem_map.mpr ⟨n, hn, rfl⟩, ?_⟩
  unfold reinitNode at he ⊢
  split_ifs at he ⊢ with c
  · cases hr : R n.id n.inits <;> rw [hr] at he <;> simp only [List.mem_cons, Ev.init.injEq, and_true, reduceCtorEq, and_false, List.not_mem_nil, or_false] at he ⊢
    exact he.symm
  · cases he

theorem finalize_known (R) {s : Sys} (h : Known s) : Known (finalize R s) := by
  unfold finalize
  split_ifs with c
  · exact h
  · intro i hi
    simp only at hi ⊢
    rcases List.mem_append.mp hi with x | x
    · obtain ⟨n, h1, h2, h3⟩ := h i x
      exact ⟨n, initPass_fwd R _ _ h1 h3, h2, h3⟩
    · exact initPass_known R _ _ x

theorem onId_fwd {i g} {ns : List Node} {n : Node} (hn : n ∈ ns) (hg : ∀ m, (g m).id = m.id ∧ (g m).inited = m.inited) :
    ∃ n' ∈ onId i g ns, n'.id = n.id ∧ n'.inited = n.inited := by
  refine ⟨_, List.mem_map.mpr ⟨n, hn, rfl⟩, ?_⟩
  split_ifs
  · exact hg n
  · exact ⟨rfl, rfl⟩

theorem known_onId {s : Sys} {i g} (h : Known s) (hg : ∀ m, (g m).id = m.id ∧ (g m).inited = m.inited)
    {t : Sys} (hn : t.nodes = onId i g s.nodes) (hl : t.log = s.log) : Known t := by
  intro k hk
  rw [hl] at hk
  obtain ⟨n, h1, h2, h3⟩ := h k hk
  obtain ⟨n', a, b, c⟩ := onId_fwd (i := i) h1 hg
  exact ⟨n', by rw [hn]; exact a, b.trans h2, c.trans h3⟩

theorem tryArm_inited (f) (n : Node) : (tryArm f n).inited = n.inited := by
  unfold tryArm
  cases n.owner <;> simp only <;> split_ifs <;> rfl

theorem known_step (R) {s : Sys} (hI : Inv s) (h : Known s) {a : Act} (ha : ∀ i, a ≠ .tick i .errPanic) :
    Known (step R s a) := by
  have call : Known { s with log := s.log ++ [Ev.call] } := by
    intro i hi
    rcases List.mem_append.mp hi with x | x
    · exact h i x
    · simp at x
  cases a with
  | add c =>
    simp only [step]; split_ifs
    · intro i hi
      obtain ⟨n, h1, h2⟩ := h i hi
      exact ⟨n, List.mem_append_left _ h1, h2⟩
    · exact h
  | stop => exact h
  | tickOnce =>
    by_cases hp : s.phase = .idle
    · rw [step_tickOnce R hp]
      have hf := finalize_known R call
      intro i hi
      rcases List.mem_append.mp hi with x | x
      · obtain ⟨n, h1, h2, h3⟩ := hf i x
        exact ⟨_, List.mem_map.mpr ⟨n, reinitPass_fwd R h1 h3, rfl⟩, h2, h3⟩
      · obtain ⟨n, h1, h2, h3⟩ := reinitPass_known R _ x
        exact ⟨_, List.mem_map.mpr ⟨n, h1, rfl⟩, h2, h3⟩
    · simp only [step, if_neg hp]; exact h
  | endOnce => simp only [step]; split_ifs <;> exact h
  | run det f =>
    by_cases hp : s.phase = .idle
    · rw [step_run R det f hp]
      have hf := finalize_known R call
      intro i hi
      have hi' := List.mem_append.mp hi
      have : ∃ n ∈ (initPass R f (finalize R { s with log := s.log ++ [Ev.call] }).nodes).1,
          n.id = i ∧ n.inited = true := by
        rcases hi' with x | x
        · obtain ⟨n, h1, h2, h3⟩ := hf i x
          exact ⟨n, initPass_fwd R _ _ h1 h3, h2, h3⟩
        · exact initPass_known R _ _ x
      obtain ⟨n, h1, h2, h3⟩ := this
      cases det with
      | true => exact ⟨n, h1, h2, h3⟩
      | false => exact ⟨_, List.mem_map.mpr ⟨n, h1, rfl⟩, h2, h3⟩
    · simp only [step, if_neg hp]; exact h
  | pause i =>
    simp only [step]; split_ifs
    · exact known_onId (i := i) (g := fun n => { n with held := true }) h (fun _ => ⟨rfl, rfl⟩) rfl rfl
    · exact h
  | resume i =>
    simp only [step]; split_ifs
    · exact known_onId (i := i) (g := fun n => { n with held := false }) h (fun _ => ⟨rfl, rfl⟩) rfl rfl
    · exact h
  | round =>
    by_cases hp : s.phase = .top ∧ s.running = true
    · rw [step_round R hp]
      intro i hi
      rcases List.mem_append.mp hi with x | x
      · obtain ⟨n, h1, h2, h3⟩ := h i x
        exact ⟨_, List.mem_map.mpr ⟨n, reinitPass_fwd R h1 h3, rfl⟩, h2, h3⟩
      · obtain ⟨n, h1, h2, h3⟩ := reinitPass_known R _ x
        exact ⟨_, List.mem_map.mpr ⟨n, h1, rfl⟩, h2, h3⟩
    · simp only [step, if_neg hp]; exact h
  | endRound => simp only [step]; split_ifs <;> exact h
  | arm i =>
    refine known_onId (s := s) (i := i) (g := fun n =>
        if n.armed then n
        else if n.moved then
          (if s.running && (s.phase == .top || s.phase == .round) then tryArm s.filt n else n)
        else if (s.phase == .once || s.phase == .round) && !n.seen then tryArm s.filt n
        else n) h (fun m => ?_) rfl rfl
    split_ifs <;> first | exact ⟨rfl, rfl⟩ | exact ⟨tryArm_id _ _, tryArm_inited _ _⟩
  | drop i => exact known_onId (i := i) (g := fun n => { n with armed := false }) h (fun _ => ⟨rfl, rfl⟩) rfl rfl
  | halt i =>
    refine known_onId (s := s) (i := i) (g := fun n => if n.armed then n else { n with stopped := true }) h (fun m => ?_) rfl rfl
    split_ifs <;> exact ⟨rfl, rfl⟩
  | finish =>
    simp only [step]; split_ifs
    · intro i hi
      have : Ev.init i .ok ∈ s.log := by
        rcases List.mem_append.mp hi with x | x
        · exact x
        · obtain ⟨n, -, e⟩ := List.mem_map.mp x; cases e
      obtain ⟨n, h1, h2, h3⟩ := h i this
      exact ⟨_, List.mem_map.mpr ⟨n, (mem_regroup _ _).mpr h1, rfl⟩, h2, h3⟩
    · exact h
  | tick i e =>
    cases hf : s.nodes.find? (fun n => n.id == i && n.armed) with
    | none => simp only [step, hf]; exact h
    | some k =>
      have hkm := List.mem_of_find?_eq_some hf
      have hk := List.find?_some hf
      simp only [Bool.and_eq_true, beq_iff_eq] at hk
      simp only [step, hf]
      have base : Known { s with nodes := onId i (fun m => { m with armed := false }) s.nodes,
                                 log := s.log ++ [Ev.tick i] } := by
        have := known_onId (s := s) (i := i) (g := fun m => { m with armed := false })
          (t := { s with nodes := onId i (fun m => { m with armed := false }) s.nodes }) h (fun _ => ⟨rfl, rfl⟩) rfl rfl
        intro j hj
        rcases List.mem_append.mp hj with x | x
        · exact this j x
        · simp at x
      cases e with
      | none => exact base
      | skip =>
        simp only [afterTick]; split_ifs
        · exact known_onId (i := k.id) (g := fun m => { m with paused := true }) base (fun _ => ⟨rfl, rfl⟩) rfl rfl
        · exact base
      | stop => exact known_onId (i := k.id) (g := fun m => { m with stopped := true }) base (fun _ => ⟨rfl, rfl⟩) rfl rfl
      | kill =>
        simp only [afterTick]; split_ifs
        · intro j hj
          have := known_onId (i := k.id) (g := fun m => { m with stopped := true })
            (t := { s with nodes := onId k.id (fun m => { m with stopped := true })
                            (onId i (fun m => { m with armed := false }) s.nodes),
                           log := s.log ++ [Ev.tick i] }) base (fun _ => ⟨rfl, rfl⟩) rfl rfl
          rcases List.mem_append.mp hj with x | x
          · exact this j x
          · simp at x
        · exact base
      | fatal =>
        simp only [afterTick]; split_ifs
        · intro j hj
          obtain ⟨n, h1, h2, h3⟩ := base j hj
          exact ⟨_, List.mem_map.mpr ⟨n, h1, rfl⟩, h2, h3⟩
        · exact base
      | restart =>
        intro j hj
        have := known_onId (i := k.id) (g := fun m => { m with inits := m.inits + 1 })
          (t := { s with nodes := onId k.id (fun m => { m with inits := m.inits + 1 })
                          (onId i (fun m => { m with armed := false }) s.nodes),
                         log := s.log ++ [Ev.tick i] }) base (fun _ => ⟨rfl, rfl⟩) rfl rfl
        rcases List.mem_append.mp hj with x | x
        · exact this j x
        · -- the restarted node was initialised already
          simp only [List.mem_cons, Ev.init.injEq, List.not_mem_nil, or_false] at x
          have hin := (hI.armed k hkm hk.2).1
          obtain ⟨n1, a1, b1, c1⟩ := onId_fwd (i := i) (g := fun m : Node => { m with armed := false }) hkm (fun _ => ⟨rfl, rfl⟩)
          obtain ⟨n2, a2, b2, c2⟩ := onId_fwd (i := k.id) (g := fun m : Node => { m with inits := m.inits + 1 }) a1 (fun _ => ⟨rfl, rfl⟩)
          exact ⟨n2, a2, by rw [b2, b1, x.1], by rw [c2, c1, hin]⟩
      | errPanic => exact absurd rfl (ha i)

/-! ### counting shutdowns -/

theorem shuts_append {i} {l e : List Ev} (h : NoShut e) : (l ++ e).count (Ev.shutdown i) = l.count (Ev.shutdown i) := by
  rw [List.count_append, List.count_eq_zero.mpr (h i)]; rfl

theorem noShut_init {l : List Ev} (h : ∀ e ∈ l, e = Ev.call ∨ ∃ i r, e = Ev.init i r) : NoShut l := by
  intro i hi
  rcases h _ hi with e | ⟨j, r, e⟩ <;> cases e

theorem finalize_shuts (R s i) : shuts i (finalize R s) = shuts i s := by
  unfold finalize shuts
  split_ifs
  · rfl
  · exact shuts_append (noShut_init fun e he => by
      obtain ⟨n, -, -, -, h⟩ := initPass_evs R _ _ e he; exact .inr ⟨_, _, h⟩)

/-- Only the end of a run and the two kill paths call `shutdown`. -/
theorem shuts_step (R s) {a : Act} (h1 : a ≠ .finish) (h2 : ∀ i, a ≠ .tick i .kill) (i) :
    shuts i (step R s a) = shuts i s := by
  have call : shuts i { s with log := s.log ++ [Ev.call] } = shuts i s :=
    shuts_append (noShut_init (by simp))
  cases a with
  | tickOnce =>
    by_cases hp : s.phase = .idle
    · rw [step_tickOnce R hp]
      refine Eq.trans (shuts_append (noShut_init fun e he => ?_)) ((finalize_shuts R _ i).trans call)
      obtain ⟨n, -, hh⟩ := List.mem_flatMap.mp he
      unfold reinitNode at hh
      split_ifs at hh
      · cases hr : R n.id n.inits <;> rw [hr] at hh <;> simp at hh <;> exact .inr ⟨_, _, hh⟩
      · cases hh
    · simp only [step, if_neg hp]
  | run det f =>
    by_cases hp : s.phase = .idle
    · rw [step_run R det f hp]
      refine Eq.trans (shuts_append (noShut_init fun e he => ?_)) ((finalize_shuts R _ i).trans call)
      obtain ⟨n, -, -, -, h⟩ := initPass_evs R _ _ e he; exact .inr ⟨_, _, h⟩
    · simp only [step, if_neg hp]
  | round =>
    by_cases hp : s.phase = .top ∧ s.running = true
    · rw [step_round R hp]
      refine shuts_append (noShut_init fun e he => ?_)
      obtain ⟨n, -, hh⟩ := List.mem_flatMap.mp he
      unfold reinitNode at hh
      split_ifs at hh
      · cases hr : R n.id n.inits <;> rw [hr] at hh <;> simp at hh <;> exact .inr ⟨_, _, hh⟩
      · cases hh
    · simp only [step, if_neg hp]
  | finish => exact absurd rfl h1
  | tick j e =>
    cases hf : s.nodes.find? (fun n => n.id == j && n.armed) with
    | none => simp only [step, hf]
    | some k =>
      simp only [step, hf]
      have base : (s.log ++ [Ev.tick j]).count (Ev.shutdown i) = s.log.count (Ev.shutdown i) :=
        shuts_append (by intro q hq; simp at hq)
      cases e with
      | none => exact base
      | skip => simp only [afterTick]; split_ifs <;> exact base
      | stop => exact base
      | kill => exact absurd rfl (h2 j)
      | fatal => simp only [afterTick]; split_ifs <;> exact base
      | restart => exact (shuts_append (noShut_init fun e he => .inr ⟨_, _, by simpa using he⟩)).trans base
      | errPanic => simp only [afterTick]; cases k.owner <;> exact base
  | _ => simp only [step] <;> (try split_ifs) <;> rfl

theorem shutdownPass_count (f) {ns : List Node} (hn : (ns.map (·.id)).Nodup) (i) :
    (shutdownPass f ns).count (Ev.shutdown i) =
      if f i = true ∧ ∃ n ∈ ns, n.id = i ∧ n.inited = true then 1 else 0 := by
  have hnd : (shutdownPass f ns).Nodup := by
    have : (((ns.filter fun n => f n.id && n.inited).map (·.id))).Nodup :=
      hn.sublist (List.Sublist.map _ List.filter_sublist)
    have e : shutdownPass f ns = ((ns.filter fun n => f n.id && n.inited).map (·.id)).map Ev.shutdown := by
      unfold shutdownPass; rw [List.map_map]; rfl
    rw [e]; exact this.map (fun a b h => by cases h; rfl)
  have hm : Ev.shutdown i ∈ shutdownPass f ns ↔ f i = true ∧ ∃ n ∈ ns, n.id = i ∧ n.inited = true := by
    unfold shutdownPass
    simp only [List.mem_map, List.mem_filter, Bool.and_eq_true, Ev.shutdown.injEq]
    constructor
    · rintro ⟨n, ⟨h1, h2, h3⟩, rfl⟩; exact ⟨h2, n, h1, rfl, h3⟩
    · rintro ⟨h2, n, h1, rfl, h3⟩; exact ⟨n, ⟨h1, h2, h3⟩, rfl⟩
  split_ifs with c
  · exact List.count_eq_one_of_mem hnd (hm.mpr c)
  · exact List.count_eq_zero.mpr (fun x => c (hm.mp x))

/-- The end of any run calls `shutdown` exactly once on each node that is in the run's filter and
is marked initialised, and on no other. -/
theorem finish_shuts (R) {s : Sys} (hn : (s.nodes.map (·.id)).Nodup) (hp : s.phase = .top)
    (ha : ∀ n ∈ s.nodes, n.armed = false) (i) :
    shuts i (step R s .finish) = shuts i s +
      if s.filt i = true ∧ ∃ n ∈ s.nodes, n.id = i ∧ n.inited = true then 1 else 0 := by
  have e : step R s .finish = { s with
        running := false, phase := .idle,
        nodes := (regroup s.nodes).map (fun n => { n with moved := false }),
        log := s.log ++ shutdownPass s.filt (regroup s.nodes) } := by
    simp only [step, if_pos (And.intro hp ha)]
  rw [e]
  unfold shuts
  simp only
  rw [List.count_append, shutdownPass_count _ (((regroup_perm s.nodes).map _).nodup_iff.mpr hn)]
  simp only [mem_regroup]

/-- A history with no run end, kill or executor crash. -/
def Calm (a : Act) : Prop := a ≠ .finish ∧ (∀ i, a ≠ .tick i .kill) ∧ (∀ i, a ≠ .tick i .errPanic)

theorem calm_run (R) {s : Sys} (hI : Inv s) (hk : Known s) (i) (as : List Act) (h : ∀ a ∈ as, Calm a) :
    Known (run R s as) ∧ shuts i (run R s as) = shuts i s := by
  induction as generalizing s with
  | nil => exact ⟨hk, rfl⟩
  | cons a as ih =>
    have ha := h a List.mem_cons_self
    have := ih (inv_step R hI a) (known_step R hI hk ha.2.2) (fun b hb => h b (List.mem_cons_of_mem _ hb))
    exact ⟨this.1, this.2.trans (shuts_step R s ha.1 ha.2.1 i)⟩

/-- C99: a scheduler's first run, in which no node is killed and no executor thread dies, calls
`shutdown` exactly once on every node of the run that ever initialised (including nodes that
failed, were stopped or paused) and never on any other node. Missing from the full claim: the cases
below, where it is false. -/
theorem shutdown_exactly_once_partial (R) (as : List Act) (h : ∀ a ∈ as, Calm a)
    (hp : (reach R as).phase = .top) (ha : ∀ n ∈ (reach R as).nodes, n.armed = false) (i) :
    shuts i (reach R (as ++ [.finish])) =
      if (reach R as).filt i = true ∧ Ev.init i .ok ∈ (reach R as).log then 1 else 0 := by
  have e : reach R (as ++ [.finish]) = step R (reach R as) .finish := by unfold reach; rw [run_append]; rfl
  obtain ⟨hk, hs⟩ := calm_run R inv_init (fun i hi => by cases hi) i as h
  rw [e, finish_shuts R (reach_nodup R as) hp ha]
  have z : shuts i (reach R as) = 0 := hs
  rw [z, Nat.zero_add]
  have : (∃ n ∈ (reach R as).nodes, n.id = i ∧ n.inited = true) ↔ Ev.init i .ok ∈ (reach R as).log :=
    ⟨fun ⟨n, h1, h2, h3⟩ => h2 ▸ (reach_inv R as).inited n h1 h3, fun x => hk i x⟩
  simp only [this]

/-- The hypotheses are met by a run with a healthy node, one whose `init` fails and one that is
stopped after a failed tick: the first and third are shut down. -/
example :
    let as := [Act.add .main, .add .main, .add .compute, .run false (fun _ => true), .arm 2,
      .tick 2 .stop, .round, .arm 0, .tick 0 .none, .endRound]
    let R : Nat → Nat → InitRes := fun i _ => if i = 1 then .other else .ok
    (∀ a ∈ as, Calm a) ∧ (reach R as).phase = .top ∧ (∀ n ∈ (reach R as).nodes, n.armed = false) ∧
      (reach R (as ++ [.finish])).log = [.call, .init 0 .ok, .init 1 .other, .init 2 .ok, .init 1 .other,
        .tick 2, .init 1 .other, .tick 0, .shutdown 0, .shutdown 2] := by
  refine ⟨?_, by decide, by decide, by decide⟩
  intro a h
  simp only [List.mem_cons, List.not_mem_nil, or_false] at h
  rcases h with rfl | rfl | rfl | rfl | rfl | rfl | rfl | rfl | rfl | rfl <;>
    exact ⟨by simp, by simp, by simp⟩

/-- C99 fails for a node killed by budget enforcement: it is shut down at the kill and again at the
end of the run. -/
theorem killed_node_shut_down_twice : (reach (fun _ _ => .ok)
    [.add .rt, .run false (fun _ => true), .arm 0, .tick 0 .kill, .stop, .finish]).log =
      [.call, .init 0 .ok, .tick 0, .shutdown 0, .shutdown 0] := by decide

/-- C99 fails when an error handler panics on a compute executor: none of that executor's nodes is
ever shut down. -/
theorem crashed_executor_never_shuts_down : (reach (fun _ _ => .ok)
    [.add .compute, .add .compute, .run false (fun _ => true), .arm 0, .tick 0 .errPanic, .arm 1, .tick 1 .none,
      .stop, .finish]).log = [.call, .init 0 .ok, .init 1 .ok, .tick 0] ∧
    (reach (fun _ _ => .ok)
    [.add .compute, .add .compute, .run false (fun _ => true), .arm 0, .tick 0 .errPanic, .arm 1, .tick 1 .none,
      .stop, .finish]).lost = [0, 1] := by decide

/-- C99 fails for a program driven by `tick_once`: nothing ever calls `shutdown`, and after a run a
node that was shut down can still be ticked by `tick_once`. -/
theorem tick_once_after_run_ticks_shut_down_node : (reach (fun _ _ => .ok)
    [.add .main, .run false (fun _ => true), .finish, .tickOnce, .arm 0, .tick 0 .none, .endOnce]).log =
      [.call, .init 0 .ok, .shutdown 0, .call, .tick 0] := by decide

/-- No number of `tick_once` calls ever shuts a node down (kills aside). -/
theorem tick_once_never_shuts_down (R) (as : List Act) (h : ∀ a ∈ as, Calm a) (i) :
    shuts i (reach R as) = 0 := (calm_run R inv_init (fun i hi => by cases hi) i as h).2

end Horus.Loop
