import Verif.Loop.LifeMain
import Mathlib.Data.List.Nodup

/-!
C98-C104: the lifecycle properties, for every history of API calls, init outcomes, tick outcomes,
stop/pause commands and interleaving of the executor threads.
-/

namespace Horus.Loop

/-- How often node `i` was ticked. -/
def ticks (i : Nat) (s : Sys) : Nat := s.log.count (Ev.tick i)

/-- How often node `i` was shut down. -/
def shuts (i : Nat) (s : Sys) : Nat := s.log.count (Ev.shutdown i)

/-- A history from a fresh scheduler. -/
def reach (R : Nat → Nat → InitRes) (as : List Act) : Sys := run R Sys.init as

theorem reach_inv (R as) : Inv (reach R as) := inv_run R as inv_init

theorem reach_nodup (R as) : ((reach R as).nodes.map (·.id)).Nodup :=
  nodup_run R as inv_init (by simp [Sys.init])

theorem count_noTick {l : List Ev} (h : NoTick l) (i) : l.count (Ev.tick i) = 0 :=
  List.count_eq_zero.mpr (h i)

theorem ticks_step (R s a i) :
    ticks i (step R s a) = ticks i s ∨
      (ticks i (step R s a) = ticks i s + 1 ∧ (∃ e, a = .tick i e) ∧
        ∃ n ∈ s.nodes, n.id = i ∧ n.armed = true) := by
  unfold ticks
  rcases step_log R s a with ⟨e, h1, h2⟩ | ⟨n, hn, hna, he, e, h1, h2⟩
  · left; rw [h1, List.count_append, count_noTick h2]
    rfl
  · rw [h1, List.count_append, List.count_cons, count_noTick h2]
    by_cases c : n.id = i
    · subst c
      right; refine ⟨by simp, he, n, hn, rfl, hna⟩
    · left
      have : (Ev.tick n.id == Ev.tick i) = false := by simp [c]
      rw [this]; rfl

theorem run_append (R s) (as bs : List Act) : run R s (as ++ bs) = run R (run R s as) bs := by
  unfold run; rw [List.foldl_append]

/-! ### C98: init comes first, and a stopped node stays stopped -/

/-- In every history, whenever a node's `tick` is called, its `init` has succeeded before. -/
theorem init_before_tick (R as l1 l2 i) (h : (reach R as).log = l1 ++ Ev.tick i :: l2) :
    Ev.init i .ok ∈ l1 := (reach_inv R as).ordered l1 l2 i (.inl h)

/-- In every history, `shutdown` is only called on a node whose `init` has succeeded before. -/
theorem init_before_shutdown (R as l1 l2 i) (h : (reach R as).log = l1 ++ Ev.shutdown i :: l2) :
    Ev.init i .ok ∈ l1 := (reach_inv R as).ordered l1 l2 i (.inr h)

theorem dead_step (R) {s : Sys} (h : Inv s) {i} (hi : i < s.next)
    (hd : OnlyIf s.nodes i (fun n => n.stopped = true)) (a) :
    (i < (step R s a).next ∧ OnlyIf (step R s a).nodes i (fun n => n.stopped = true)) ∧
      ticks i (step R s a) = ticks i s := by
  refine ⟨⟨Nat.lt_of_lt_of_le hi (step_next R s a).1, ?_⟩, ?_⟩
  · intro n' hn' hid
    rcases step_nodes R s a hn' with ⟨n, hn, r⟩ | ⟨c, -, -, rfl⟩
    · exact r.stopped (hd n hn (r.id ▸ hid))
    · simp only at hid; omega
  · rcases ticks_step R s a i with h1 | ⟨-, -, n, hn, hid, hna⟩
    · exact h1
    · have := (h.armed n hn hna).2
      rw [hd n hn hid] at this; cases this

/-- Once a node is stopped no later tick of it happens, in any continuation, including later API
calls. -/
theorem stopped_never_ticks (R) (as bs : List Act) (i) (hi : i < (reach R as).next)
    (hd : OnlyIf (reach R as).nodes i (fun n => n.stopped = true)) :
    ticks i (run R (reach R as) bs) = ticks i (reach R as) := by
  have h := reach_inv R as
  generalize reach R as = s at h hi hd
  induction bs generalizing s with
  | nil => rfl
  | cons b bs ih =>
    obtain ⟨⟨h1, h2⟩, h3⟩ := dead_step R h hi hd b
    have := ih (step R s b) (inv_step R h b) h1 h2
    show ticks i (run R (step R s b) bs) = _
    rw [this, h3]

/-- A node killed by the degradation ladder or by budget enforcement gets `shutdown()` right
after its last tick and never ticks again, whatever happens next. -/
theorem killed_never_ticks (R) (as bs : List Act) (i) (n : Node)
    (hn : n ∈ (reach R as).nodes) (hid : n.id = i) (hna : n.armed = true)
    (ho : n.owner = .main ∨ n.owner = .rt) :
    (reach R (as ++ [.tick i .kill])).log = (reach R as).log ++ [Ev.tick i, Ev.shutdown i] ∧
      ticks i (reach R (as ++ .tick i .kill :: bs)) = ticks i (reach R as) + 1 := by
  have hnd := reach_nodup R as
  have hf : (reach R as).nodes.find? (fun m => m.id == i && m.armed) = some n := by
    cases hfd : (reach R as).nodes.find? (fun m => m.id == i && m.armed) with
    | none =>
      have := List.find?_eq_none.mp hfd n hn
      simp [hid, hna] at this
    | some k =>
      have hk := List.find?_some hfd
      simp only [Bool.and_eq_true, beq_iff_eq] at hk
      have hk2 := List.mem_of_find?_eq_some hfd
      have : k = n := List.inj_on_of_nodup_map hnd hk2 hn (hk.1.trans hid.symm)
      rw [this]
  have hs : step R (reach R as) (.tick i .kill) =
      { reach R as with
        nodes := onId n.id (fun m => { m with stopped := true })
          (onId i (fun m => { m with armed := false }) (reach R as).nodes),
        log := (reach R as).log ++ [Ev.tick i] ++ [Ev.shutdown n.id] } := by
    simp only [step, hf, afterTick, if_pos ho]
  have hr : reach R (as ++ [.tick i .kill]) = step R (reach R as) (.tick i .kill) := by
    unfold reach; rw [run_append]; rfl
  have hlog : (reach R (as ++ [.tick i .kill])).log = (reach R as).log ++ [Ev.tick i, Ev.shutdown i] := by
    rw [hr, hs]; simp [hid]
  refine ⟨hlog, ?_⟩
  have hst : OnlyIf (reach R (as ++ [.tick i .kill])).nodes i (fun n => n.stopped = true) := by
    rw [hr, hs]
    intro m hm hmi
    simp only at hm
    obtain ⟨k, -, e⟩ := mem_onId hm
    rcases e with ⟨-, rfl⟩ | ⟨hne, rfl⟩
    · rfl
    · exact absurd (hmi.trans hid.symm) hne
  have hlt : i < (reach R (as ++ [.tick i .kill])).next := by
    rw [hr]
    exact Nat.lt_of_lt_of_le (hid ▸ (reach_inv R as).fresh n hn) (step_next R _ _).1
  have := stopped_never_ticks R (as ++ [.tick i .kill]) bs i hlt hst
  have e : reach R (as ++ .tick i .kill :: bs) = run R (reach R (as ++ [.tick i .kill])) bs := by
    unfold reach; rw [← run_append]; simp
  rw [e, this]
  unfold ticks; rw [hlog, List.count_append]
  simp

/-- The hypotheses are met: an RT node that overruns is killed while the run goes on. -/
example : ∃ n, n ∈ (reach (fun _ _ => .ok) [.add .rt, .add .main, .run false (fun _ => true), .arm 0]).nodes ∧
    n.id = 0 ∧ n.armed = true ∧ n.owner = .rt := ⟨{ id := 0, cls := .rt, inited := true, moved := true, armed := true, inits := 1 }, by decide, rfl, rfl, rfl⟩

/-! ### C100: a scheduler that ran once does not tick again -/

theorem finalize_running_false (R) {s : Sys} (h : s.running = false) : (finalize R s).running = false := by
  unfold finalize; split_ifs <;> simp [h]

/-- `running` is never set again. -/
theorem running_step (R) {s : Sys} (h : s.running = false) (a) : (step R s a).running = false := by
  cases a with
  | tickOnce =>
    simp only [step]; split_ifs
    · exact finalize_running_false R (s := { s with log := s.log ++ [Ev.call] }) h
    · exact h
  | run det f =>
    by_cases hp : s.phase = .idle
    · rw [step_run R det f hp]
      simp only
      rw [finalize_running_false R (s := { s with log := s.log ++ [Ev.call] }) h]; rfl
    · simp only [step, if_neg hp]; exact h
  | tick i e =>
    cases hf : s.nodes.find? (fun n => n.id == i && n.armed) with
    | none => simp only [step, hf]; exact h
    | some k =>
      simp only [step, hf]
      cases e <;> simp only [afterTick] <;> (try split_ifs) <;> (try exact h) <;> (try rfl)
      cases k.owner <;> exact h
  | _ => simp only [step] <;> (try split_ifs) <;> first | exact h | rfl

/-- State of a scheduler that will never tick a node again except by `tick_once`. -/
structure Over (s : Sys) : Prop where
  running : s.running = false
  phase : s.phase = .idle ∨ s.phase = .top
  armed : ∀ n ∈ s.nodes, n.armed = false

theorem over_step (R) {s : Sys} (h : Over s) (a) (ha : a ≠ .tickOnce) :
    Over (step R s a) ∧ ∀ i, ticks i (step R s a) = ticks i s := by
  have harm : ∀ n' ∈ (step R s a).nodes, n'.armed = false := by
    intro n' hn'
    rcases step_nodes R s a hn' with ⟨n, hn, r⟩ | ⟨c, -, -, rfl⟩
    · cases hx : n'.armed with
      | false => rfl
      | true =>
        rcases r.armed hx with y | ⟨-, -, -, y, z⟩
        · rw [h.armed n hn] at y; cases y
        · cases hm : n.moved with
          | true => exact absurd (y hm).1 (by rw [h.running]; simp)
          | false =>
            rcases (z hm).1 with w | w <;> rcases h.phase with v | v <;> rw [v] at w <;> cases w
    · rfl
  refine ⟨⟨running_step R h.running a, ?_, harm⟩, ?_⟩
  · have nr : s.phase ≠ .round := by rcases h.phase with v | v <;> rw [v] <;> simp
    have no : s.phase ≠ .once := by rcases h.phase with v | v <;> rw [v] <;> simp
    cases a with
    | tickOnce => exact absurd rfl ha
    | run det f =>
      by_cases hp : s.phase = .idle
      · rw [step_run R det f hp]; exact .inr rfl
      · simp only [step, if_neg hp]; exact h.phase
    | tick i e =>
      cases hf : s.nodes.find? (fun n => n.id == i && n.armed) with
      | none => simp only [step, hf]; exact h.phase
      | some k =>
        have hk := List.find?_some hf
        simp only [Bool.and_eq_true] at hk
        rw [h.armed k (List.mem_of_find?_eq_some hf)] at hk
        cases hk.2
    | round =>
      have : ¬ (s.phase = .top ∧ s.running = true) := by rw [h.running]; simp
      simp only [step, if_neg this]; exact h.phase
    | _ => simp only [step] <;> (try split_ifs) <;> first | exact h.phase | exact .inl rfl | exact .inr rfl
  · intro i
    rcases ticks_step R s a i with h1 | ⟨-, -, n, hn, -, hna⟩
    · exact h1
    · rw [h.armed n hn] at hna; cases hna

theorem over_run (R) {s : Sys} (h : Over s) (as : List Act) (ha : .tickOnce ∉ as) :
    Over (run R s as) ∧ ∀ i, ticks i (run R s as) = ticks i s := by
  induction as generalizing s with
  | nil => exact ⟨h, fun _ => rfl⟩
  | cons a as ih =>
    have h1 := over_step R h a (fun e => ha (e ▸ List.mem_cons_self))
    have h2 := ih h1.1 (fun e => ha (List.mem_cons_of_mem _ e))
    exact ⟨h2.1, fun i => (h2.2 i).trans (h1.2 i)⟩

/-- After a run has returned (for whatever reason), every later `run`/`run_for` on the same
scheduler executes no tick at all, although it returns normally. -/
theorem second_run_never_ticks (R) (as bs : List Act) (i)
    (hp : (reach R as).phase = .idle) (hr : (reach R as).running = false)
    (hb : .tickOnce ∉ bs) :
    ticks i (reach R (as ++ bs)) = ticks i (reach R as) := by
  have : reach R (as ++ bs) = run R (reach R as) bs := by unfold reach; rw [run_append]
  rw [this]
  exact (over_run R ⟨hr, .inl hp, fun n hn => ((reach_inv R as).idle hp n hn).1⟩ bs hb).2 i

/-- A run that has returned leaves the scheduler idle with `running` false. -/
theorem run_returns_stopped (R as)
    (hp : (reach R as).phase = .top) (hn : ∀ n ∈ (reach R as).nodes, n.armed = false) :
    (reach R (as ++ [.finish])).phase = .idle ∧ (reach R (as ++ [.finish])).running = false := by
  have : reach R (as ++ [.finish]) = step R (reach R as) .finish := by unfold reach; rw [run_append]; rfl
  rw [this]; simp only [step, if_pos (And.intro hp hn)]; exact ⟨trivial, trivial⟩

/-- A program that runs twice: the second run ticks nothing and shuts the node down again. -/
def twice : List Act :=
  [.add .main, .run false (fun _ => true), .round, .arm 0, .tick 0 .none, .endRound, .finish,
    .run false (fun _ => true), .round, .arm 0, .tick 0 .none, .endRound, .finish]

/-- C100 witness: the second run's round never starts, and the node's `shutdown` is called twice
for one `init`. -/
theorem second_run_witness : (reach (fun _ _ => .ok) twice).log =
    [.call, .init 0 .ok, .tick 0, .shutdown 0, .call, .shutdown 0] := by decide

/-! ### C101: stop -/

/-- How the scheduler gets to the top of its loop. -/
theorem step_top (R) {s : Sys} {a} (h : (step R s a).phase = .top) :
    (s.phase = .top ∧ a ≠ .finish ∨ s.phase = .top ∧ step R s a = s) ∨ s.phase = .idle ∨
      (s.phase = .round ∧ ∀ n ∈ (step R s a).nodes, n.moved = false → n.armed = false) := by
  cases a with
  | tickOnce =>
    by_cases hp : s.phase = .idle
    · exact .inr (.inl hp)
    · simp only [step, if_neg hp] at h; exact .inl (.inl ⟨h, by simp⟩)
  | run det f =>
    by_cases hp : s.phase = .idle
    · exact .inr (.inl hp)
    · simp only [step, if_neg hp] at h; exact .inl (.inl ⟨h, by simp⟩)
  | round =>
    by_cases hp : s.phase = .top ∧ s.running = true
    · rw [step_round R hp] at h; cases h
    · simp only [step, if_neg hp] at h; exact .inl (.inl ⟨h, by simp⟩)
  | endOnce =>
    by_cases hp : s.phase = .once ∧ ∀ n ∈ s.nodes, n.armed = false
    · simp only [step, if_pos hp] at h; cases h
    · simp only [step, if_neg hp] at h; exact .inl (.inl ⟨h, by simp⟩)
  | endRound =>
    by_cases hp : s.phase = .round ∧ ∀ n ∈ s.nodes, n.moved = false → n.armed = false
    · right; right; refine ⟨hp.1, ?_⟩; simp only [step, if_pos hp]; exact hp.2
    · simp only [step, if_neg hp] at h; exact .inl (.inl ⟨h, by simp⟩)
  | finish =>
    by_cases hp : s.phase = .top ∧ ∀ n ∈ s.nodes, n.armed = false
    · simp only [step, if_pos hp] at h; cases h
    · simp only [step, if_neg hp] at h ⊢; exact .inl (.inr ⟨h, trivial⟩)
  | tick i e =>
    cases hf : s.nodes.find? (fun n => n.id == i && n.armed) with
    | none => simp only [step, hf] at h; exact .inl (.inl ⟨h, by simp⟩)
    | some k =>
      simp only [step, hf] at h ⊢
      rcases afterTick_phase R { s with nodes := onId i (fun m => { m with armed := false }) s.nodes, log := s.log ++ [Ev.tick i] } k e with h1 | ⟨-, -, h2, -⟩
      · rw [h1] at h; exact .inl (.inl ⟨h, by simp⟩)
      · rw [h2] at h; cases h
  | add _ | pause _ | resume _ =>
    left; left
    simp only [step] at h
    split_ifs at h <;> exact ⟨h, by simp⟩
  | stop | arm _ | drop _ | halt _ => exact .inl (.inl ⟨h, by simp⟩)

/-- Bookkeeping of a round: nodes of the main thread that passed their gates have been seen in
this round, and none is pending between rounds. -/
structure Inv2 (s : Sys) : Prop where
  nodup : (s.nodes.map (·.id)).Nodup
  seen : ∀ n ∈ s.nodes, n.armed = true → n.moved = false → n.seen = true
  top : s.phase = .top → ∀ n ∈ s.nodes, n.moved = false → n.armed = false

theorem inv2_init : Inv2 Sys.init := ⟨by simp [Sys.init], by simp [Sys.init], by simp [Sys.init]⟩

theorem inv2_step (R) {s : Sys} (h : Inv s) (h2 : Inv2 s) (a) : Inv2 (step R s a) := by
  refine ⟨nodup_step R h h2.nodup a, ?_, ?_⟩
  · intro n' hn' ha hm
    rcases step_nodes R s a hn' with ⟨n, hmem, r⟩ | ⟨c, -, -, rfl⟩
    · rcases r.armed ha with hna | ⟨-, he, hna, -⟩
      · rcases r.moved with e | ⟨e, -⟩ | ⟨e, e2⟩
        · have hm' : n.moved = false := e ▸ hm
          rcases r.seen (h2.seen n hmem hna hm') with x | ⟨x, -⟩ | ⟨x, -⟩
          · exact x
          · rw [(h.idle x n hmem).1] at hna; cases hna
          · rw [h2.top x n hmem hm'] at hna; cases hna
        · rw [(h.idle e n hmem).1] at hna; cases hna
        · rcases step_idle R e2 with ⟨x, -⟩ | ⟨-, x⟩ | ⟨-, -, x⟩
          · rw [(h.idle x n hmem).1] at hna; cases hna
          · rw [x n' hn'] at ha; cases ha
          · rw [(x n' hn').1] at ha; cases ha
      · have tc := tryArm_cases s.filt n
        have hmv : n.moved = false := by rw [he, tc.2.2.2.2.2.1] at hm; exact hm
        rw [he]
        exact tc.2.2.2.2.2.2.2.2.2 (by unfold Node.owner; rw [hmv]; rfl)
    · cases ha
  · intro hp n' hn' hm
    rcases step_top R hp with (⟨hs, hnf⟩ | ⟨hs, e⟩) | hs | ⟨-, hx⟩
    · rcases step_nodes R s a hn' with ⟨n, hmem, r⟩ | ⟨c, -, -, rfl⟩
      · cases hx : n'.armed with
        | false => rfl
        | true =>
          have hmv : n.moved = false := by
            rcases r.moved with e | ⟨e, -⟩ | ⟨e, -⟩
            · rw [← e]; exact hm
            · rw [hs] at e; cases e
            · exact absurd e hnf
          rcases r.armed hx with y | ⟨-, -, -, -, z⟩
          · rw [h2.top hs n hmem hmv] at y; cases y
          · rcases (z hmv).1 with w | w <;> rw [hs] at w <;> cases w
      · rfl
    · rw [e] at hn'; exact h2.top hs n' hn' hm
    · rcases step_nodes R s a hn' with ⟨n, hmem, r⟩ | ⟨c, -, -, rfl⟩
      · cases hx : n'.armed with
        | false => rfl
        | true =>
          rcases r.armed hx with y | ⟨-, -, -, -, z⟩
          · rw [(h.idle hs n hmem).1] at y; cases y
          · rcases (z (h.idle hs n hmem).2).1 with w | w <;> rw [hs] at w <;> cases w
      · rfl
    · exact hx n' hn' hm

theorem inv2_run (R) (as : List Act) {s : Sys} (h : Inv s) (h2 : Inv2 s) : Inv2 (run R s as) := by
  induction as generalizing s with
  | nil => exact h2
  | cons a as ih => exact ih (inv_step R h a) (inv2_step R h h2 a)

theorem reach_inv2 (R as) : Inv2 (reach R as) := inv2_run R as inv_init inv2_init

/-- Node `i` may still tick although the scheduler was told to stop: it has passed its gates, or
the current round of the main loop has not come to it yet. -/
def Pending (s : Sys) (i : Nat) : Prop :=
  ∃ n ∈ s.nodes, n.id = i ∧ (n.armed = true ∨ (n.moved = false ∧ n.seen = false ∧ s.phase = .round))

theorem round_from (R) {s : Sys} {a} (h : (step R s a).phase = .round) (hr : s.running = false) :
    s.phase = .round := by
  cases a with
  | tickOnce =>
    by_cases hp : s.phase = .idle
    · rw [step_tickOnce R hp] at h; cases h
    · simp only [step, if_neg hp] at h; exact h
  | run det f =>
    by_cases hp : s.phase = .idle
    · rw [step_run R det f hp] at h; cases h
    · simp only [step, if_neg hp] at h; exact h
  | round =>
    have : ¬ (s.phase = .top ∧ s.running = true) := by rw [hr]; simp
    simp only [step, if_neg this] at h; exact h
  | tick i e =>
    cases hf : s.nodes.find? (fun n => n.id == i && n.armed) with
    | none => simp only [step, hf] at h; exact h
    | some k =>
      simp only [step, hf] at h
      rcases afterTick_phase R { s with nodes := onId i (fun m => { m with armed := false }) s.nodes, log := s.log ++ [Ev.tick i] } k e with h1 | ⟨-, -, h2, -⟩
      · rw [h1] at h; exact h
      · rw [h2] at h; cases h
  | endOnce | endRound | finish | add _ | pause _ | resume _ =>
    simp only [step] at h
    split_ifs at h
    all_goals first | exact h | cases h
  | stop | arm _ | drop _ | halt _ => exact h

/-- After its tick a node has to pass its gates again. -/
theorem tick_disarms (R) (s : Sys) (i e) :
    OnlyIf (step R s (.tick i e)).nodes i (fun n => n.armed = false) := by
  intro n' hn' hid'
  cases hfd : s.nodes.find? (fun n => n.id == i && n.armed) with
  | none =>
    simp only [step, hfd] at hn'
    have := List.find?_eq_none.mp hfd n' hn'
    simpa [hid'] using this
  | some k =>
    have hb : ∀ q ∈ onId i (fun m => { m with armed := false }) s.nodes, q.id = i → q.armed = false := by
      intro q hq hqi
      obtain ⟨q0, -, e⟩ := mem_onId hq
      rcases e with ⟨-, rfl⟩ | ⟨hq0, rfl⟩
      · rfl
      · exact absurd hqi hq0
    have hg : ∀ (g : Node → Node), (∀ q, (g q).armed = q.armed ∧ (g q).id = q.id) →
        ∀ q ∈ onId k.id g (onId i (fun m => { m with armed := false }) s.nodes), q.id = i → q.armed = false := by
      intro g hg q hq hqi
      obtain ⟨q0, hq0, e⟩ := mem_onId hq
      rcases e with ⟨-, rfl⟩ | ⟨-, rfl⟩
      · rw [(hg q0).1]; exact hb q0 hq0 ((hg q0).2 ▸ hqi)
      · exact hb q hq0 hqi
    simp only [step, hfd] at hn'
    cases e with
    | none => exact hb n' hn' hid'
    | skip =>
      simp only [afterTick] at hn'
      by_cases c : k.owner = .main ∨ k.owner = .rt
      · rw [if_pos c] at hn'; exact hg (fun m => { m with paused := true }) (fun q => ⟨rfl, rfl⟩) n' hn' hid'
      · rw [if_neg c] at hn'; exact hb n' hn' hid'
    | stop => exact hg (fun m => { m with stopped := true }) (fun q => ⟨rfl, rfl⟩) n' hn' hid'
    | kill =>
      simp only [afterTick] at hn'
      by_cases c : k.owner = .main ∨ k.owner = .rt
      · rw [if_pos c] at hn'; exact hg (fun m => { m with stopped := true }) (fun q => ⟨rfl, rfl⟩) n' hn' hid'
      · rw [if_neg c] at hn'; exact hb n' hn' hid'
    | fatal =>
      simp only [afterTick] at hn'
      by_cases c : s.phase = .once
      · rw [if_pos c] at hn'
        obtain ⟨q, -, rfl⟩ := List.mem_map.mp hn'
        rfl
      · rw [if_neg c] at hn'; exact hb n' hn' hid'
    | restart => exact hg (fun m => { m with inits := m.inits + 1 }) (fun q => ⟨rfl, rfl⟩) n' hn' hid'
    | errPanic =>
      simp only [afterTick] at hn'
      cases hk : k.owner <;> rw [hk] at hn' <;> simp only at hn'
      · exact hb n' hn' hid'
      · exact hg (fun m => { m with stopped := true }) (fun q => ⟨rfl, rfl⟩) n' hn' hid'
      all_goals exact hb n' (List.mem_of_mem_filter hn') hid'

theorem pending_step (R) {s : Sys} (h : Inv s) (h2 : Inv2 s) (hr : s.running = false)
    (ho : s.phase ≠ .once) {a} (ha : a ≠ .tickOnce) {i} (hi : i < s.next) :
    (Pending (step R s a) i → Pending s i) ∧
      (ticks i (step R s a) ≠ ticks i s →
        ticks i (step R s a) = ticks i s + 1 ∧ Pending s i ∧ ¬ Pending (step R s a) i) := by
  have back : Pending (step R s a) i → Pending s i := by
    rintro ⟨n', hn', hid, hx⟩
    rcases step_nodes R s a hn' with ⟨n, hmem, r⟩ | ⟨c, -, -, rfl⟩
    · refine ⟨n, hmem, r.id.symm.trans hid, ?_⟩
      rcases hx with hx | ⟨hm, hse, hp⟩
      · rcases r.armed hx with y | ⟨-, -, -, y, z⟩
        · exact .inl y
        · cases hmv : n.moved with
          | true => exact absurd (y hmv).1 (by rw [hr]; simp)
          | false =>
            rcases (z hmv).1 with w | w
            · exact absurd w ho
            · exact .inr ⟨rfl, (z hmv).2, w⟩
      · have hp' := round_from R hp hr
        refine .inr ⟨?_, ?_, hp'⟩
        · rcases r.moved with e | ⟨e, -⟩ | ⟨-, e⟩
          · rw [← e]; exact hm
          · rw [hp'] at e; cases e
          · rw [hp] at e; cases e
        · cases hs : n.seen with
          | false => rfl
          | true =>
            rcases r.seen hs with e | ⟨e, -⟩ | ⟨e, -⟩
            · rw [hse] at e; cases e
            · rw [hp'] at e; cases e
            · rw [hp'] at e; cases e
    · simp only at hid; omega
  refine ⟨back, fun hne => ?_⟩
  rcases ticks_step R s a i with h1 | ⟨h1, ⟨e, rfl⟩, n, hn, hid, hna⟩
  · exact absurd h1 hne
  · refine ⟨h1, ⟨n, hn, hid, .inl hna⟩, ?_⟩
    rintro ⟨n', hn', hid', hx⟩
    rcases step_nodes R s _ hn' with ⟨m, hmem, r⟩ | ⟨c, hc, -, -⟩
    · have hmn : m = n :=
        List.inj_on_of_nodup_map h2.nodup hmem hn ((r.id.symm.trans hid').trans hid.symm)
      subst hmn
      have hna' : n'.armed = false := tick_disarms R s i e n' hn' hid'
      rcases hx with hx | ⟨hm, hse, hp⟩
      · rw [hna'] at hx; cases hx
      · have hp' := round_from R hp hr
        have hmv : m.moved = false := by
          rcases r.moved with e | ⟨e, -⟩ | ⟨-, e⟩
          · rw [← e]; exact hm
          · rw [hp'] at e; cases e
          · rw [hp] at e; cases e
        rcases r.seen (h2.seen m hmem hna hmv) with e | ⟨e, -⟩ | ⟨e, -⟩
        · rw [hse] at e; cases e
        · rw [hp'] at e; cases e
        · rw [hp'] at e; cases e
    · cases hc

theorem once_from (R) {s : Sys} {a} (ho : s.phase ≠ .once) (ha : a ≠ .tickOnce) :
    (step R s a).phase ≠ .once := by
  intro h
  rcases step_once R h with ⟨-, x⟩ | x
  · exact ha x
  · exact ho x

theorem stop_run (R) {s : Sys} (h : Inv s) (h2 : Inv2 s) (hr : s.running = false)
    (ho : s.phase ≠ .once) (as : List Act) (ha : .tickOnce ∉ as) {i} (hi : i < s.next) :
    ticks i (run R s as) ≤ ticks i s + 1 ∧ (¬ Pending s i → ticks i (run R s as) = ticks i s) := by
  induction as generalizing s with
  | nil => exact ⟨Nat.le_succ _, fun _ => rfl⟩
  | cons a as ih =>
    have ha' : a ≠ .tickOnce := fun e => ha (e ▸ List.mem_cons_self)
    obtain ⟨p1, p2⟩ := pending_step R h h2 hr ho ha' hi
    obtain ⟨q1, q2⟩ := ih (inv_step R h a) (inv2_step R h h2 a) (running_step R hr a)
      (once_from R ho ha') (fun e => ha (List.mem_cons_of_mem _ e))
      (Nat.lt_of_lt_of_le hi (step_next R s a).1)
    change ticks i (run R (step R s a) as) ≤ _ ∧ (_ → ticks i (run R (step R s a) as) = _)
    by_cases e : ticks i (step R s a) = ticks i s
    · rw [e] at q1 q2
      exact ⟨q1, fun hp => q2 (fun hp' => hp (p1 hp'))⟩
    · obtain ⟨e1, e2, e3⟩ := p2 e
      have := q2 e3
      exact ⟨by omega, fun hp => absurd e2 hp⟩

/-- C101. Once a run has been told to stop (by `stop()`, Ctrl-C, a fatal failure, an emergency
stop or a shutdown command), each node ticks at most once more, whatever the interleaving, both
before the call returns and in any later run. -/
theorem stop_at_most_one_more_tick (R) (as bs : List Act) (i) (hi : i < (reach R as).next)
    (ho : (reach R as).phase ≠ .once) (hb : .tickOnce ∉ bs) :
    ticks i (reach R (as ++ .stop :: bs)) ≤ ticks i (reach R as) + 1 := by
  have e : reach R (as ++ .stop :: bs) = run R (step R (reach R as) .stop) bs := by
    unfold reach; rw [run_append]; rfl
  rw [e]
  exact (stop_run R (inv_step R (reach_inv R as) .stop)
    (inv2_step R (reach_inv R as) (reach_inv2 R as) .stop) rfl ho bs hb hi).1

/-- A node's fatal failure is a stop request: whatever thread ticks the node and whatever the call,
`running` is cleared. -/
theorem fatal_tick_stops (R) (s : Sys) (i : Nat) (h : ∃ n ∈ s.nodes, n.id = i ∧ n.armed = true) :
    (step R s (.tick i .fatal)).running = false := by
  obtain ⟨n, hn, hid, ha⟩ := h
  cases hf : s.nodes.find? (fun n => n.id == i && n.armed) with
  | none => have := List.find?_eq_none.mp hf n hn; simp [hid, ha] at this
  | some k => simp only [step, hf, afterTick]; split_ifs <;> rfl

/-- C101 for fatal failures: after the tick that fails fatally, every node ticks at most once more in
that run, the failing node included. -/
theorem fatal_at_most_one_more_tick (R) (as bs : List Act) (i j) (hi : i < (reach R as).next)
    (hj : ∃ n ∈ (reach R as).nodes, n.id = j ∧ n.armed = true)
    (ho : (reach R as).phase ≠ .once) (hb : .tickOnce ∉ bs) :
    ticks i (reach R (as ++ .tick j .fatal :: bs)) ≤ ticks i (reach R (as ++ [.tick j .fatal])) + 1 := by
  have e : reach R (as ++ .tick j .fatal :: bs) = run R (step R (reach R as) (.tick j .fatal)) bs := by
    unfold reach; rw [run_append]; rfl
  have e2 : reach R (as ++ [.tick j .fatal]) = step R (reach R as) (.tick j .fatal) := by
    unfold reach; rw [run_append]; rfl
  rw [e, e2]
  have hph : (step R (reach R as) (.tick j .fatal)).phase ≠ .once := by
    cases hf : (reach R as).nodes.find? (fun n => n.id == j && n.armed) with
    | none => simp only [step, hf]; exact ho
    | some k => simp only [step, hf, afterTick, if_neg ho]; exact ho
  exact (stop_run R (inv_step R (reach_inv R as) _)
    (inv2_step R (reach_inv R as) (reach_inv2 R as) _) (fatal_tick_stops R _ j hj) hph bs hb
    (Nat.lt_of_lt_of_le hi (step_next R _ _).1)).1

/-- The hypotheses are met and the bound attained: node 1 was past its gates when node 0 failed. -/
example : ticks 1 (reach (fun _ _ => .ok) [.add .rt, .add .compute, .run false (fun _ => true), .arm 0, .arm 1, .tick 0 .fatal, .tick 1 .none, .arm 1, .tick 1 .none, .round]) = 1 := by decide

/-- The bound is met: a node past its gates still ticks once after `stop()`. -/
theorem stop_one_more_is_possible :
    ticks 0 (reach (fun _ _ => .ok) [.add .rt, .run false (fun _ => true), .arm 0, .stop, .tick 0 .none, .arm 0, .tick 0 .none, .finish]) = 1 := by decide

/-- `tick_once` does not look at the stop flag: it still ticks after `stop()`. -/
theorem tick_once_ignores_stop :
    ticks 0 (reach (fun _ _ => .ok) [.add .main, .stop, .tickOnce, .arm 0, .tick 0 .none, .endOnce, .tickOnce, .arm 0, .tick 0 .none, .endOnce]) = 2 := by decide

/-! ### C102: operator pause -/

theorem moved_step (R) {s : Sys} (h : ∀ n ∈ s.nodes, n.moved = true → n.cls ≠ .main) (a) :
    ∀ n' ∈ (step R s a).nodes, n'.moved = true → n'.cls ≠ .main := by
  intro n' hn' hm
  have hn0 := hn'
  rcases step_nodes R s a hn' with ⟨n, hmem, r⟩ | ⟨c, -, -, rfl⟩
  · rcases r.moved with e | ⟨e, f, rfl⟩ | ⟨rfl, e⟩
    · rw [r.cls]; exact h n hmem (e ▸ hm)
    · rw [step_run R false f e] at hn0
      simp only [Bool.false_eq_true, if_false] at hn0
      obtain ⟨k, -, rfl⟩ := List.mem_map.mp hn0
      simpa using hm
    · rcases step_idle R e with ⟨x, -⟩ | ⟨x, -⟩ | ⟨-, -, x⟩
      · have : step R s .finish = s := by
          simp only [step]; rw [if_neg (by rw [x]; simp)]
        rw [this] at hn'; exact h n' hn' hm
      · have : step R s .finish = s := by
          simp only [step]; rw [if_neg (by rw [x]; simp)]
        rw [this] at hn'; exact h n' hn' hm
      · rw [(x n' hn').2] at hm; cases hm
  · cases hm

theorem reach_moved (R as) : ∀ n ∈ (reach R as).nodes, n.moved = true → n.cls ≠ .main := by
  unfold reach
  have : ∀ s : Sys, (∀ n ∈ s.nodes, n.moved = true → n.cls ≠ .main) →
      ∀ n ∈ (run R s as).nodes, n.moved = true → n.cls ≠ .main := by
    induction as with
    | nil => exact fun s h => h
    | cons a as ih => exact fun s h => ih (step R s a) (moved_step R h a)
  exact this _ (by simp [Sys.init])

/-- Node `i` is held by the operator and ticked by the main thread or an RT thread. -/
def Held (s : Sys) (i : Nat) : Prop :=
  i < s.next ∧ OnlyIf s.nodes i (fun n => n.held = true ∧ (n.cls = .main ∨ n.cls = .rt))

/-- Node `i` has passed its gates and is about to tick. -/
def Armed (s : Sys) (i : Nat) : Prop := ∃ n ∈ s.nodes, n.id = i ∧ n.armed = true

/-- If a step lets no node called `i` through the gates, ticks of `i` are limited to the one
already past them. -/
theorem gated_step (R) {s : Sys} {a : Act} {i}
    (hg : ∀ n' ∈ (step R s a).nodes, n'.id = i → n'.armed = true → Armed s i) :
    (Armed (step R s a) i → Armed s i ∧ ticks i (step R s a) = ticks i s) ∧
      (ticks i (step R s a) = ticks i s ∨ (Armed s i ∧ ticks i (step R s a) = ticks i s + 1)) := by
  constructor
  · rintro ⟨n', hn', hid, hx⟩
    refine ⟨hg n' hn' hid hx, ?_⟩
    rcases ticks_step R s a i with ht | ⟨-, ⟨e, rfl⟩, -⟩
    · exact ht
    · rw [tick_disarms R s i e n' hn' hid] at hx; cases hx
  · rcases ticks_step R s a i with ht | ⟨ht, -, n, hn, hid, hna⟩
    · exact .inl ht
    · exact .inr ⟨⟨n, hn, hid, hna⟩, ht⟩

theorem held_step (R) {s : Sys}
    (hmv : ∀ n ∈ s.nodes, n.moved = true → n.cls ≠ .main) {i} (hh : Held s i) {a}
    (h1 : a ≠ .resume i) (h3 : ∀ f, a ≠ .run false f) :
    Held (step R s a) i ∧
      ∀ n' ∈ (step R s a).nodes, n'.id = i → n'.armed = true → Armed s i := by
  obtain ⟨hi, ho⟩ := hh
  constructor
  · refine ⟨Nat.lt_of_lt_of_le hi (step_next R s a).1, ?_⟩
    intro n' hn' hid
    rcases step_nodes R s a hn' with ⟨n, hmem, r⟩ | ⟨c, -, -, rfl⟩
    · have hn := ho n hmem (r.id.symm.trans hid)
      refine ⟨?_, by rw [r.cls]; exact hn.2⟩
      rcases r.held hn.1 with e | e | ⟨-, f, e⟩
      · exact e
      · rw [r.id.symm.trans hid] at e; exact absurd e h1
      · exact absurd e (h3 f)
    · simp only at hid; omega
  · intro n' hn' hid hx
    rcases step_nodes R s a hn' with ⟨n, hmem, r⟩ | ⟨c, -, -, rfl⟩
    · rcases r.armed hx with y | ⟨-, e, hna, -⟩
      · exact ⟨n, hmem, r.id.symm.trans hid, y⟩
      · exfalso
        have hn := ho n hmem (r.id.symm.trans hid)
        rw [e] at hx
        rcases (tryArm_cases s.filt n).2.2.2.2.2.2.2.1 hx with x | ⟨-, -, -, x, -⟩
        · rw [hna] at x; cases x
        · have hown : n.owner = .main ∨ n.owner = .rt := by
            unfold Node.owner
            cases hm : n.moved with
            | false => exact .inl rfl
            | true =>
              rcases hn.2 with c | c
              · exact absurd c (hmv n hmem hm)
              · exact .inr c
          rw [x hown] at hn; cases hn.1
    · cases hx

theorem held_run (R) {s : Sys} (hmv : ∀ n ∈ s.nodes, n.moved = true → n.cls ≠ .main) {i}
    (hh : Held s i) (as : List Act) (h1 : .resume i ∉ as) (h3 : ∀ f, .run false f ∉ as) :
    ticks i (run R s as) ≤ ticks i s + 1 ∧ (¬ Armed s i → ticks i (run R s as) = ticks i s) := by
  induction as generalizing s with
  | nil => exact ⟨Nat.le_succ _, fun _ => rfl⟩
  | cons a as ih =>
    obtain ⟨p1, p2⟩ := held_step R hmv hh (a := a) (fun e => h1 (e ▸ List.mem_cons_self))
      (fun f e => h3 f (e ▸ List.mem_cons_self))
    obtain ⟨q1, q2⟩ := gated_step R p2
    obtain ⟨r1, r2⟩ := ih (moved_step R hmv a) p1 (fun e => h1 (List.mem_cons_of_mem _ e))
      (fun f e => h3 f (List.mem_cons_of_mem _ e))
    change ticks i (run R (step R s a) as) ≤ _ ∧ (_ → ticks i (run R (step R s a) as) = _)
    rcases q2 with e | ⟨e1, e2⟩
    · rw [e] at r1 r2
      exact ⟨r1, fun hn => r2 (fun x => hn (q1 x).1)⟩
    · have hna : ¬ Armed (step R s a) i := fun x => by have := (q1 x).2; omega
      have := r2 hna
      exact ⟨by omega, fun hn => absurd e1 hn⟩

/-- C102, the full claim for nodes on the main thread and on RT threads: after the scheduler has
processed an operator pause, a main-thread node does not tick at all, and an RT node at most
finishes the tick it had begun, until it is resumed or a new run begins; in particular the pause
does not lapse by itself. -/
theorem pause_holds_partial (R) (as bs : List Act) (i) (n : Node) (hn : n ∈ (reach R as).nodes)
    (hid : n.id = i) (hc : n.cls = .main ∨ n.cls = .rt)
    (hp : (reach R as).phase = .top) (hct : (reach R as).controls = true)
    (h1 : .resume i ∉ bs) (h3 : ∀ f, .run false f ∉ bs) :
    ticks i (reach R (as ++ .pause i :: bs)) ≤ ticks i (reach R as) + 1 ∧
      (n.cls = .main → ticks i (reach R (as ++ .pause i :: bs)) = ticks i (reach R as)) := by
  have e : reach R (as ++ .pause i :: bs) = run R (step R (reach R as) (.pause i)) bs := by
    unfold reach; rw [run_append]; rfl
  have hs : step R (reach R as) (.pause i) =
      { reach R as with nodes := onId i (fun n => { n with held := true }) (reach R as).nodes } := by
    simp only [step, if_pos (And.intro hp hct)]
  have hnd := (reach_inv2 R as).nodup
  have huniq : ∀ m ∈ (reach R as).nodes, m.id = i → m = n := fun m hm hmi =>
    List.inj_on_of_nodup_map hnd hm hn (hmi.trans hid.symm)
  have hheld : Held (step R (reach R as) (.pause i)) i := by
    refine ⟨?_, ?_⟩
    · rw [hs]; exact hid ▸ (reach_inv R as).fresh n hn
    · rw [hs]
      intro m hm hmi
      obtain ⟨k, hk, e⟩ := mem_onId hm
      rcases e with ⟨hki, rfl⟩ | ⟨hne, rfl⟩
      · refine ⟨rfl, ?_⟩
        have := huniq k hk hki
        subst this; exact hc
      · exact absurd hmi hne
  have ht : ticks i (step R (reach R as) (.pause i)) = ticks i (reach R as) := by rw [hs]; rfl
  have := held_run R (moved_step R (reach_moved R as) (.pause i)) hheld bs h1 h3
  rw [e]
  rw [ht] at this
  refine ⟨this.1, fun hm => this.2 ?_⟩
  rintro ⟨m, hm, hmi, hma⟩
  rw [hs] at hm
  obtain ⟨k, hk, e⟩ := mem_onId hm
  rcases e with ⟨hki, rfl⟩ | ⟨hne, rfl⟩
  · have := huniq k hk hki
    subst this
    have hmv : k.moved = false := by
      cases hx : k.moved with
      | false => rfl
      | true => exact absurd hm (fun _ => reach_moved R as k hk hx (by assumption))
    rw [(reach_inv2 R as).top hp k hk hmv] at hma; cases hma
  · exact hne hmi

/-- The hypotheses are met in an ordinary run with one main-thread and one RT node. -/
example : (reach (fun _ _ => .ok) [.add .main, .add .rt, .run false (fun _ => true)]).phase = .top ∧
    (reach (fun _ _ => .ok) [.add .main, .add .rt, .run false (fun _ => true)]).controls = true ∧
    (reach (fun _ _ => .ok) [.add .main, .add .rt, .run false (fun _ => true)]).nodes.map (·.cls) =
      [.main, .rt] := by decide

/-- C102 fails for compute, event and async nodes: their executors never read the pause. -/
theorem pause_ignored_by_other_executors (c : Cls) (hc : c = .compute ∨ c = .event ∨ c = .async) :
    ticks 0 (reach (fun _ _ => .ok) [.add c, .run false (fun _ => true), .pause 0,
      .arm 0, .tick 0 .none, .arm 0, .tick 0 .none, .arm 0, .tick 0 .none]) = 3 := by
  rcases hc with rfl | rfl | rfl <;> decide

/-- In deterministic mode there is no control topic: a pause has no effect on any node. -/
theorem pause_ignored_in_deterministic_mode :
    ticks 0 (reach (fun _ _ => .ok) [.add .main, .run true (fun _ => true), .pause 0,
      .round, .arm 0, .tick 0 .none, .endRound, .round, .arm 0, .tick 0 .none, .endRound]) = 2 := by
  decide

end Horus.Loop
