import Verif.Loop.LifeEnd

/-!
C103 (init failures and retries) and C104 (runs restricted to named nodes) of the lifecycle model.
-/

namespace Horus.Loop

/-- Is this a call of node `i`'s `init`? -/
def isInit (i : Nat) : Ev → Bool
  | .init j _ => j == i
  | _ => false

/-- How often node `i`'s `init` was called. -/
def initCalls (i : Nat) (s : Sys) : Nat := s.log.countP (isInit i)

/-! ### the state of the loop between the start and the end of a run -/

theorem loop_step (R) {s : Sys} (h : s.phase = .top ∨ s.phase = .round) {a} (ha : a ≠ .finish) :
    ((step R s a).phase = .top ∨ (step R s a).phase = .round) ∧ (step R s a).filt = s.filt := by
  have ni : s.phase ≠ .idle := by rcases h with v | v <;> rw [v] <;> simp
  have no : s.phase ≠ .once := by rcases h with v | v <;> rw [v] <;> simp
  cases a with
  | tickOnce => simp only [step, if_neg ni]; exact ⟨h, trivial⟩
  | run det f => simp only [step, if_neg ni]; exact ⟨h, trivial⟩
  | finish => exact absurd rfl ha
  | tick i e =>
    cases hf : s.nodes.find? (fun n => n.id == i && n.armed) with
    | none => simp only [step, hf]; exact ⟨h, trivial⟩
    | some k =>
      simp only [step, hf]
      cases e with
      | none => exact ⟨h, rfl⟩
      | skip => simp only [afterTick]; split_ifs <;> exact ⟨h, rfl⟩
      | stop => exact ⟨h, rfl⟩
      | kill => simp only [afterTick]; split_ifs <;> exact ⟨h, rfl⟩
      | fatal => simp only [afterTick, if_neg no]; exact ⟨h, trivial⟩
      | restart => exact ⟨h, rfl⟩
      | errPanic => simp only [afterTick]; cases k.owner <;> exact ⟨h, rfl⟩
  | round => simp only [step]; split_ifs; · exact ⟨.inr rfl, rfl⟩
             · exact ⟨h, rfl⟩
  | endRound => simp only [step]; split_ifs; · exact ⟨.inl rfl, rfl⟩
                · exact ⟨h, rfl⟩
  | endOnce =>
    have : ¬ (s.phase = .once ∧ ∀ n ∈ s.nodes, n.armed = false) := fun x => no x.1
    simp only [step, if_neg this]; exact ⟨h, trivial⟩
  | add c => simp only [step, if_neg ni]; exact ⟨h, trivial⟩
  | _ => simp only [step] <;> (try split_ifs) <;> first | exact ⟨h, rfl⟩ | exact ⟨h, trivial⟩

/-! ### C103 -/

/-- At the start of every round the scheduler calls `init` once on each main-thread node that is
not yet initialised and neither stopped nor paused, and ticks it in that round only if that
succeeds. After a transient failure the node is left as it was, so the next round calls `init` again;
after any other failure it is stopped. -/
theorem main_init_retried_each_round (R) {s : Sys} (hnd : (s.nodes.map (·.id)).Nodup)
    (hp : s.phase = .top) (hr : s.running = true) {n : Node} (hn : n ∈ s.nodes)
    (hm : n.moved = false) (hi : n.inited = false) (hs : n.stopped = false) (hpa : n.paused = false) :
    initCalls n.id (step R s .round) = initCalls n.id s + 1 ∧
      Ev.init n.id (R n.id n.inits) ∈ (step R s .round).log ∧
      ∀ m ∈ (step R s .round).nodes, m.id = n.id →
        (m.inited = true ↔ R n.id n.inits = .ok) ∧
        (m.stopped = false ↔ R n.id n.inits = .ok ∨ R n.id n.inits = .transient) ∧
        m.moved = false ∧ m.paused = false := by
  rw [step_round R ⟨hp, hr⟩]
  have c : (!n.moved && !n.stopped && !n.paused && !n.inited) = true := by simp [hm, hi, hs, hpa]
  have he : (reinitNode R n).2 = [Ev.init n.id (R n.id n.inits)] := by
    unfold reinitNode; rw [if_pos c]; cases hR : R n.id n.inits <;> rfl
  have hoth : ∀ m : Node, m.id ≠ n.id → (reinitNode R m).2.countP (isInit n.id) = 0 := by
    intro m hne
    unfold reinitNode
    split_ifs
    · cases R m.id m.inits <;> simp [isInit, hne]
    · rfl
  have hcount : ∀ ns : List Node, (ns.map (·.id)).Nodup → n ∈ ns →
      (ns.flatMap fun n => (reinitNode R n).2).countP (isInit n.id) = 1 := by
    intro ns hnd hmem
    induction ns with
    | nil => cases hmem
    | cons m ns ih =>
      rw [List.map_cons, List.nodup_cons] at hnd
      rw [List.flatMap_cons, List.countP_append]
      rcases List.mem_cons.mp hmem with e | h
      · subst e
        have z : (ns.flatMap fun n => (reinitNode R n).2).countP (isInit n.id) = 0 := by
          rw [List.countP_eq_zero]
          intro x hx
          obtain ⟨k, hk, hxk⟩ := List.mem_flatMap.mp hx
          have hne : k.id ≠ n.id := fun e => hnd.1 (e ▸ List.mem_map.mpr ⟨k, hk, rfl⟩)
          have := List.countP_eq_zero.mp (hoth k hne) x hxk
          exact this
        rw [z, he]; simp [isInit]
      · have hne : m.id ≠ n.id := fun e => hnd.1 (e ▸ List.mem_map.mpr ⟨n, h, rfl⟩)
        rw [hoth m hne, ih hnd.2 h]
  refine ⟨?_, ?_, ?_⟩
  · unfold initCalls
    simp only
    rw [List.countP_append]
    exact congrArg _ (hcount s.nodes hnd hn)
  · refine List.mem_append_right _ (List.mem_flatMap.mpr ⟨n, hn, ?_⟩)
    rw [he]; exact List.mem_cons_self
  · intro m hm' hid
    obtain ⟨m1, hm1, rfl⟩ := List.mem_map.mp hm'
    obtain ⟨m0, hm0, rfl⟩ := List.mem_map.mp hm1
    have : m0 = n := List.inj_on_of_nodup_map hnd hm0 hn ((reinitNode_id R m0).symm.trans hid)
    subst this
    simp only
    unfold reinitNode; rw [if_pos c]
    cases hR : R m0.id m0.inits <;> simp [hi, hs, hm, hpa]

/-- State of an executor's node whose `init` has not succeeded, during a run. -/
structure Stuck (s : Sys) (i : Nat) : Prop where
  lt : i < s.next
  phase : s.phase = .top ∨ s.phase = .round
  node : OnlyIf s.nodes i (fun n => n.moved = true ∧ n.cls ≠ .main ∧ n.inited = false ∧ n.armed = false)
  never : Ev.init i .ok ∉ s.log

theorem countP_append_zero {p : Ev → Bool} {l e : List Ev} (h : ∀ x ∈ e, p x = false) :
    (l ++ e).countP p = l.countP p := by
  have : e.countP p = 0 := List.countP_eq_zero.mpr (fun x hx => by rw [h x hx]; simp)
  rw [List.countP_append, this]; rfl

theorem stuck_step (R) {s : Sys} {i} (h : Stuck s i) {a} (ha : a ≠ .finish) :
    Stuck (step R s a) i ∧ ticks i (step R s a) = ticks i s ∧ initCalls i (step R s a) = initCalls i s := by
  have ni : s.phase ≠ .idle := by rcases h.phase with v | v <;> rw [v] <;> simp
  have hinit : initCalls i (step R s a) = initCalls i s := by
    cases a with
    | tickOnce => simp only [step, if_neg ni]
    | run det f => simp only [step, if_neg ni]
    | round =>
      by_cases hp : s.phase = .top ∧ s.running = true
      · rw [step_round R hp]
        refine countP_append_zero fun x hx => ?_
        obtain ⟨k, hk, hxk⟩ := List.mem_flatMap.mp hx
        unfold reinitNode at hxk
        split_ifs at hxk with c
        · have hne : k.id ≠ i := by
            intro e; rw [(h.node k hk e).1] at c; simp at c
          cases hR : R k.id k.inits <;> rw [hR] at hxk <;> simp at hxk <;> subst hxk <;> simp [isInit, hne]
        · cases hxk
      · simp only [step, if_neg hp]
    | finish => exact absurd rfl ha
    | tick j e =>
      cases hf : s.nodes.find? (fun n => n.id == j && n.armed) with
      | none => simp only [step, hf]
      | some k =>
        have hkm := List.mem_of_find?_eq_some hf
        have hk := List.find?_some hf
        simp only [Bool.and_eq_true, beq_iff_eq] at hk
        have hne : k.id ≠ i := fun e => by
          have := (h.node k hkm e).2.2.2; rw [hk.2] at this; cases this
        simp only [step, hf]
        have base : (s.log ++ [Ev.tick j]).countP (isInit i) = s.log.countP (isInit i) :=
          countP_append_zero (by simp [isInit])
        cases e with
        | none => exact base
        | skip => simp only [afterTick]; split_ifs <;> exact base
        | stop => exact base
        | kill =>
          simp only [afterTick]; split_ifs
          · exact (countP_append_zero (by simp [isInit])).trans base
          · exact base
        | fatal => simp only [afterTick]; split_ifs <;> exact base
        | restart => exact (countP_append_zero (by simp [isInit, hne])).trans base
        | errPanic => simp only [afterTick]; cases k.owner <;> exact base
    | _ => simp only [step] <;> (try split_ifs) <;> rfl
  have hl := loop_step R h.phase ha
  have hnever : Ev.init i .ok ∉ (step R s a).log := by
    have hlog : ∃ e, (step R s a).log = s.log ++ e := by
      rcases step_log R s a with ⟨e, h1, -⟩ | ⟨n, -, -, -, e, h1, -⟩
      · exact ⟨e, h1⟩
      · exact ⟨_, h1⟩
    obtain ⟨e, he⟩ := hlog
    rw [he]
    intro hm
    rcases List.mem_append.mp hm with x | x
    · exact h.never x
    · unfold initCalls at hinit
      rw [he, List.countP_append] at hinit
      have : e.countP (isInit i) = 0 := by omega
      have hc := List.countP_eq_zero.mp this _ x
      simp [isInit] at hc
  refine ⟨⟨Nat.lt_of_lt_of_le h.lt (step_next R s a).1, hl.1, ?_, hnever⟩, ?_, hinit⟩
  · intro n' hn' hid
    rcases step_nodes R s a hn' with ⟨n, hn, r⟩ | ⟨c, -, -, rfl⟩
    · obtain ⟨h1, hc, h2, h3⟩ := h.node n hn (r.id.symm.trans hid)
      have hmv : n'.moved = true := by
        rcases r.moved with e | ⟨e, -⟩ | ⟨e, -⟩
        · rw [e]; exact h1
        · exact absurd e ni
        · exact absurd e ha
      refine ⟨hmv, by rw [r.cls]; exact hc, ?_, ?_⟩
      · cases hx : n'.inited with
        | false => rfl
        | true =>
          exfalso
          rcases r.inited' hx with y | y
          · rw [h2] at y; cases y
          · rw [r.id.symm.trans hid] at y; exact hnever y
      · cases hx : n'.armed with
        | false => rfl
        | true =>
          rcases r.armed hx with y | ⟨-, e, -⟩
          · rw [h3] at y; cases y
          · rw [e] at hx
            unfold tryArm Node.owner at hx
            rw [if_pos h1] at hx
            cases hcl : n.cls <;> rw [hcl] at hx
            · exact absurd hcl hc
            all_goals simp [h2, h3] at hx
    · simp only at hid; exact absurd hid (Nat.ne_of_gt h.lt)
  · rcases ticks_step R s a i with e | ⟨-, -, n, hn, hid, hna⟩
    · exact e
    · rw [(h.node n hn hid).2.2.2] at hna; cases hna

theorem stuck_run (R) {s : Sys} {i} (h : Stuck s i) (as : List Act) (ha : .finish ∉ as) :
    ticks i (run R s as) = ticks i s ∧ initCalls i (run R s as) = initCalls i s := by
  induction as generalizing s with
  | nil => exact ⟨rfl, rfl⟩
  | cons a as ih =>
    obtain ⟨h1, h2, h3⟩ := stuck_step R h (a := a) (fun e => ha (e ▸ List.mem_cons_self))
    obtain ⟨g1, g2⟩ := ih h1 (fun e => ha (List.mem_cons_of_mem _ e))
    exact ⟨g1.trans h2, g2.trans h3⟩

/-- C103: a node that runs on an executor and whose `init` had not succeeded when the run started
is neither initialised nor ticked again for the rest of the run, whatever its failure's severity
(a transient failure is reported as "will retry"). -/
theorem executor_init_never_retried (R) (as bs : List Act) {n : Node} (hn : n ∈ (reach R as).nodes)
    (hm : n.moved = true) (hp : (reach R as).phase = .top ∨ (reach R as).phase = .round)
    (hi : Ev.init n.id .ok ∉ (reach R as).log) (hb : .finish ∉ bs) :
    ticks n.id (reach R (as ++ bs)) = ticks n.id (reach R as) ∧
      initCalls n.id (reach R (as ++ bs)) = initCalls n.id (reach R as) := by
  have e : reach R (as ++ bs) = run R (reach R as) bs := by unfold reach; rw [run_append]
  rw [e]
  refine stuck_run R ⟨(reach_inv R as).fresh n hn, hp, ?_, hi⟩ bs hb
  intro m hm' hid
  have : m = n := List.inj_on_of_nodup_map (reach_nodup R as) hm' hn hid
  subst this
  have hnot : m.inited = false := by
    cases hx : m.inited with
    | false => rfl
    | true => exact absurd ((reach_inv R as).inited m hn hx) hi
  refine ⟨hm, reach_moved R as m hn hm, hnot, ?_⟩
  cases hx : m.armed with
  | false => rfl
  | true => have := ((reach_inv R as).armed m hn hx).1; rw [hnot] at this; cases this

/-- The hypotheses are met: a compute node whose `init` fails transiently. The main-thread node
with the same failure is retried and then ticks. -/
example :
    let R : Nat → Nat → InitRes := fun _ k => if k < 2 then .transient else .ok
    (reach R [.add .main, .add .compute, .run false (fun _ => true), .round, .arm 0, .tick 0 .none,
      .arm 1, .tick 1 .none, .endRound, .round, .arm 0, .tick 0 .none, .arm 1, .tick 1 .none]).log =
      [.call, .init 0 .transient, .init 1 .transient, .init 0 .transient, .init 1 .transient, .init 0 .ok,
        .tick 0, .tick 0] := by decide

theorem initPass_fatal (R f) (ns : List Node) {i} (h : Ev.init i .fatal ∈ (initPass R f ns).2.1) :
    (initPass R f ns).2.2 = true := by
  induction ns with
  | nil => cases h
  | cons m ns ih =>
    unfold initPass at h ⊢
    split_ifs at h ⊢ with c
    · cases hr : R m.id m.inits <;> rw [hr] at h <;> simp only [List.mem_cons, Ev.init.injEq, and_true, reduceCtorEq, and_false, false_or] at h ⊢ <;> exact ih h
    · exact ih h

/-- C103: if a node's `init` fails fatally when a run starts, no node at all is ticked in that
run, nor in any later run. -/
theorem fatal_init_prevents_all_ticks (R) (as : List Act) (det f) (evs : List Ev) {i}
    (hp : (reach R as).phase = .idle)
    (hl : (reach R (as ++ [.run det f])).log = (reach R as).log ++ evs) (hf : Ev.init i .fatal ∈ evs)
    (bs : List Act) (hb : .tickOnce ∉ bs) (j) :
    ticks j (reach R (as ++ .run det f :: bs)) = ticks j (reach R as) := by
  have e : reach R (as ++ .run det f :: bs) = run R (step R (reach R as) (.run det f)) bs := by
    unfold reach; rw [run_append]; rfl
  have e1 : reach R (as ++ [.run det f]) = step R (reach R as) (.run det f) := by
    unfold reach; rw [run_append]; rfl
  rw [e1] at hl
  have htk : ticks j (step R (reach R as) (.run det f)) = ticks j (reach R as) := by
    rcases ticks_step R (reach R as) (.run det f) j with h | ⟨-, ⟨e, h⟩, -⟩
    · exact h
    · cases h
  have hover : Over (step R (reach R as) (.run det f)) := by
    refine ⟨?_, ?_, ?_⟩
    · rw [step_run R det f hp] at hl ⊢
      simp only at hl ⊢
      have hcases : (finalize R { reach R as with log := (reach R as).log ++ [Ev.call] }).running = false ∨
          (initPass R f (finalize R { reach R as with log := (reach R as).log ++ [Ev.call] }).nodes).2.2 = true := by
        unfold finalize at hl ⊢
        split_ifs at hl ⊢ with c
        · right
          refine initPass_fatal R f _ (i := i) ?_
          simp only [List.append_assoc, List.append_cancel_left_eq] at hl
          rw [← hl] at hf
          rcases List.mem_append.mp hf with x | x
          · simp at x
          · exact x
        · simp only [List.append_assoc, List.append_cancel_left_eq] at hl
          rw [← hl] at hf
          rcases List.mem_append.mp hf with x | x
          · simp at x
          rcases List.mem_append.mp x with x | x
          · left
            simp only
            rw [initPass_fatal R _ _ x]; simp
          · right; exact initPass_fatal R f _ x
      rcases hcases with h | h <;> rw [h] <;> simp
    · rw [step_run R det f hp]; exact .inr rfl
    · intro n' hn'
      rcases step_nodes R _ _ hn' with ⟨n, hn, r⟩ | ⟨c, hc, -⟩
      · cases hx : n'.armed with
        | false => rfl
        | true =>
          rcases r.armed hx with y | ⟨y, -⟩
          · rw [((reach_inv R as).idle hp n hn).1] at y; cases y
          · cases y
      · cases hc
  rw [e, (over_run R hover bs hb).2 j, htk]

/-- The hypotheses are met, and `tick_once` behaves differently: the same program driven by
`tick_once` calls the failed node's `init` again in the same call and ticks everything. -/
theorem fatal_init_ignored_by_tick_once :
    let R : Nat → Nat → InitRes := fun i k => if i = 0 ∧ k = 0 then .fatal else .ok
    (reach R [.add .main, .add .main, .run false (fun _ => true)]).log = [.call, .init 0 .fatal, .init 0 .ok, .init 1 .ok] ∧
    (reach R [.add .main, .add .main, .run false (fun _ => true), .round, .arm 0, .tick 0 .none]).log =
      [.call, .init 0 .fatal, .init 0 .ok, .init 1 .ok] ∧
    (reach R [.add .main, .add .main, .tickOnce, .arm 0, .tick 0 .none, .arm 1, .tick 1 .none, .endOnce]).log =
      [.call, .init 0 .fatal, .init 0 .ok, .init 1 .ok, .tick 0, .tick 1] := by decide

/-! ### C104 -/

/-- State of a node outside the run's filter that is ticked by the main thread. -/
structure Outside (s : Sys) (i : Nat) : Prop where
  lt : i < s.next
  phase : s.phase = .top ∨ s.phase = .round
  filt : s.filt i = false
  node : OnlyIf s.nodes i (fun n => n.moved = false ∧ n.armed = false)

theorem outside_step (R) {s : Sys} {i} (h : Outside s i) {a} (ha : a ≠ .finish) :
    Outside (step R s a) i ∧ ticks i (step R s a) = ticks i s := by
  have ni : s.phase ≠ .idle := by rcases h.phase with v | v <;> rw [v] <;> simp
  have hl := loop_step R h.phase ha
  refine ⟨⟨Nat.lt_of_lt_of_le h.lt (step_next R s a).1, hl.1, by rw [hl.2]; exact h.filt, ?_⟩, ?_⟩
  · intro n' hn' hid
    rcases step_nodes R s a hn' with ⟨n, hn, r⟩ | ⟨c, -, -, rfl⟩
    · have hni := r.id.symm.trans hid
      obtain ⟨h1, h3⟩ := h.node n hn hni
      refine ⟨?_, ?_⟩
      · rcases r.moved with e | ⟨e, -⟩ | ⟨e, -⟩
        · rw [e]; exact h1
        · exact absurd e ni
        · exact absurd e ha
      · cases hx : n'.armed with
        | false => rfl
        | true =>
          rcases r.armed hx with y | ⟨-, e, -⟩
          · rw [h3] at y; cases y
          · rw [e] at hx
            unfold tryArm Node.owner at hx
            rw [if_neg (by rw [h1]; simp), hni, h.filt] at hx
            simp only [Bool.false_and, Bool.false_eq_true, if_false] at hx
            split_ifs at hx <;> simp [h3] at hx
    · simp only at hid; exact absurd hid (Nat.ne_of_gt h.lt)
  · rcases ticks_step R s a i with e | ⟨-, -, n, hn, hid, hna⟩
    · exact e
    · rw [(h.node n hn hid).2] at hna; cases hna

theorem outside_run (R) {s : Sys} {i} (h : Outside s i) (as : List Act) (ha : .finish ∉ as) :
    ticks i (run R s as) = ticks i s := by
  induction as generalizing s with
  | nil => rfl
  | cons a as ih =>
    obtain ⟨h1, h2⟩ := outside_step R h (a := a) (fun e => ha (e ▸ List.mem_cons_self))
    exact (ih h1 (fun e => ha (List.mem_cons_of_mem _ e))).trans h2

/-- C104: in a run restricted to some nodes, a node outside the restriction that has no execution
class of its own, and in deterministic mode any node outside it, is never ticked. Missing from the
full claim: nodes on executors, for which it is false. -/
theorem filtered_out_never_ticks_partial (R) (as : List Act) (det f) (i)
    (hp : (reach R as).phase = .idle) (hf : f i = false)
    {n : Node} (hn : n ∈ (reach R as).nodes) (hid : n.id = i) (hc : det = true ∨ n.cls = .main)
    (bs : List Act) (hb : .finish ∉ bs) :
    ticks i (reach R (as ++ .run det f :: bs)) = ticks i (reach R as) := by
  have e : reach R (as ++ .run det f :: bs) = run R (step R (reach R as) (.run det f)) bs := by
    unfold reach; rw [run_append]; rfl
  have htk : ticks i (step R (reach R as) (.run det f)) = ticks i (reach R as) := by
    rcases ticks_step R (reach R as) (.run det f) i with h | ⟨-, ⟨e, h⟩, -⟩
    · exact h
    · cases h
  rw [e, ← htk]
  refine outside_run R ⟨?_, ?_, ?_, ?_⟩ bs hb
  · exact Nat.lt_of_lt_of_le (hid ▸ (reach_inv R as).fresh n hn) (step_next R _ _).1
  · rw [step_run R det f hp]; exact .inl rfl
  · rw [step_run R det f hp]; exact hf
  · intro m hm hmi
    have harm : m.armed = false := by
      rcases step_nodes R _ _ hm with ⟨k, hk, r⟩ | ⟨c, hc, -⟩
      · cases hx : m.armed with
        | false => rfl
        | true =>
          rcases r.armed hx with y | ⟨y, -⟩
          · rw [((reach_inv R as).idle hp k hk).1] at y; cases y
          · cases y
      · cases hc
    refine ⟨?_, harm⟩
    rcases step_nodes R _ _ hm with ⟨k, hk, r⟩ | ⟨c, hc, -⟩
    · have hkn : k = n := List.inj_on_of_nodup_map (reach_nodup R as) hk hn ((r.id.symm.trans hmi).trans hid.symm)
      subst hkn
      cases det with
      | true =>
        rcases r.moved with e | ⟨-, g, e⟩ | ⟨e, -⟩
        · rw [e]; exact ((reach_inv R as).idle hp k hk).2
        · cases e
        · cases e
      | false =>
        have hmain : k.cls = .main := by
          rcases hc with x | x
          · cases x
          · exact x
        cases hx : m.moved with
        | false => rfl
        | true =>
          have := moved_step R (reach_moved R as) (.run false f) m hm hx
          exact absurd (r.cls.trans hmain) this
    · cases hc

/-- The hypotheses are met, and the theorem does not extend to executors: of four nodes outside the
restriction, the RT and the compute node tick, the main-thread node does not; the restriction also
does not keep `init` from being called on them, while `shutdown` is only called on the selected
node. -/
theorem executors_ignore_filter :
    (reach (fun _ _ => .ok) [.add .main, .add .main, .add .rt, .add .compute,
      .run false (fun i => i == 0), .arm 2, .tick 2 .none, .arm 3, .tick 3 .none, .round, .arm 0, .tick 0 .none,
      .arm 1, .tick 1 .none, .endRound, .finish]).log =
      [.call, .init 0 .ok, .init 1 .ok, .init 2 .ok, .init 3 .ok, .tick 2, .tick 3, .tick 0, .shutdown 0] := by
  decide

end Horus.Loop
