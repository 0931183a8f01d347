import Verif.Loop.Life
import Mathlib.Tactic.Common
import Mathlib.Data.List.Basic

/-!
What a node sees of the scheduler: `init` before `tick`, `shutdown` only of initialised nodes,
nothing after a kill, stop and pause taking effect, over every history of the model in `Life`.
-/

namespace Horus.Loop

/-- No `tick` callback in a piece of log. -/
def NoTick (l : List Ev) : Prop := ∀ i, Ev.tick i ∉ l

/-- No `shutdown` callback in a piece of log. -/
def NoShut (l : List Ev) : Prop := ∀ i, Ev.shutdown i ∉ l

/-- Every node called `i` satisfies `P`. -/
def OnlyIf (ns : List Node) (i : Nat) (P : Node → Prop) : Prop := ∀ n ∈ ns, n.id = i → P n

/-! ### the helper passes -/

theorem initPass_evs (R f) (ns : List Node) :
    ∀ e ∈ (initPass R f ns).2.1, ∃ n ∈ ns, f n.id = true ∧ n.inited = false ∧
      e = Ev.init n.id (R n.id n.inits) := by
  induction ns with
  | nil => intro e he; cases he
  | cons n ns ih =>
    intro e he
    unfold initPass at he
    by_cases c : (f n.id && !n.inited) = true
    · have c' : f n.id = true ∧ n.inited = false := by simpa using c
      rw [if_pos c] at he
      cases hr : R n.id n.inits <;> rw [hr] at he <;> simp only [List.mem_cons, List.not_mem_nil, or_false] at he
      all_goals first
        | (rcases he with h | h
           · exact ⟨n, List.mem_cons_self, c'.1, c'.2, by rw [h, hr]⟩
           · obtain ⟨m, hm, h1⟩ := ih e h; exact ⟨m, List.mem_cons_of_mem _ hm, h1⟩)
        | exact ⟨n, List.mem_cons_self, c'.1, c'.2, by rw [he, hr]⟩
    · rw [if_neg c] at he
      obtain ⟨m, hm, h1⟩ := ih e he
      exact ⟨m, List.mem_cons_of_mem _ hm, h1⟩

theorem initPass_mem (R f) (ns : List Node) :
    ∀ n' ∈ (initPass R f ns).1, ∃ n ∈ ns, n' = n ∨
      (f n.id = true ∧ n.inited = false ∧
        (n' = { n with inits := n.inits + 1 } ∨
          (R n.id n.inits = .ok ∧ Ev.init n.id .ok ∈ (initPass R f ns).2.1 ∧
            n' = { n with inited := true, inits := n.inits + 1 }))) := by
  induction ns with
  | nil => intro n' h; cases h
  | cons n ns ih =>
    intro n' h
    unfold initPass at h ⊢
    by_cases c : (f n.id && !n.inited) = true
    · have c' : f n.id = true ∧ n.inited = false := by simpa using c
      rw [if_pos c] at h ⊢
      cases hr : R n.id n.inits <;> rw [hr] at h <;> simp only [List.mem_cons] at h ⊢
      · rcases h with h | h
        · exact ⟨n, .inl rfl, .inr ⟨c'.1, c'.2, .inr ⟨hr, .inl rfl, h⟩⟩⟩
        · obtain ⟨m, hm, h1⟩ := ih n' h
          refine ⟨m, .inr hm, ?_⟩
          rcases h1 with h1 | ⟨a, b, h1 | ⟨x, y, z⟩⟩
          · exact .inl h1
          · exact .inr ⟨a, b, .inl h1⟩
          · exact .inr ⟨a, b, .inr ⟨x, .inr y, z⟩⟩
      · rcases h with h | h
        · exact ⟨n, .inl rfl, .inr ⟨c'.1, c'.2, .inl h⟩⟩
        · exact ⟨n', .inr h, .inl rfl⟩
      all_goals
        rcases h with h | h
        · exact ⟨n, .inl rfl, .inr ⟨c'.1, c'.2, .inl h⟩⟩
        · obtain ⟨m, hm, h1⟩ := ih n' h
          refine ⟨m, .inr hm, ?_⟩
          rcases h1 with h1 | ⟨a, b, h1 | ⟨x, y, z⟩⟩
          · exact .inl h1
          · exact .inr ⟨a, b, .inl h1⟩
          · exact .inr ⟨a, b, .inr ⟨x, .inr y, z⟩⟩
    · rw [if_neg c] at h ⊢
      simp only [List.mem_cons] at h ⊢
      rcases h with h | h
      · exact ⟨n, .inl rfl, .inl h⟩
      · obtain ⟨m, hm, h1⟩ := ih n' h
        exact ⟨m, .inr hm, h1⟩

theorem reinitNode_cases (R) (n : Node) :
    reinitNode R n = (n, []) ∨
      (n.moved = false ∧ n.stopped = false ∧ n.paused = false ∧ n.inited = false ∧
        (reinitNode R n).2 = [Ev.init n.id (R n.id n.inits)] ∧
        ((R n.id n.inits = .ok ∧ (reinitNode R n).1 = { n with inited := true, inits := n.inits + 1 }) ∨
          (R n.id n.inits ≠ .ok ∧ ((reinitNode R n).1 = { n with inits := n.inits + 1 } ∨
            (reinitNode R n).1 = { n with stopped := true, inits := n.inits + 1 })))) := by
  unfold reinitNode
  by_cases c : (!n.moved && !n.stopped && !n.paused && !n.inited) = true
  · have c' : ((n.moved = false ∧ n.stopped = false) ∧ n.paused = false) ∧ n.inited = false := by
      simpa using c
    rw [if_pos c]
    refine .inr ⟨c'.1.1.1, c'.1.1.2, c'.1.2, c'.2, ?_⟩
    cases hr : R n.id n.inits <;> simp
  · rw [if_neg c]; exact .inl rfl

theorem reinitPass_evs (R) (ns : List Node) :
    ∀ e ∈ (reinitPass R ns).2, ∃ n ∈ ns, n.moved = false ∧ n.inited = false ∧
      e = Ev.init n.id (R n.id n.inits) := by
  intro e he
  unfold reinitPass at he
  simp only [List.mem_flatMap] at he
  obtain ⟨n, hn, he⟩ := he
  rcases reinitNode_cases R n with h | ⟨h1, -, -, h4, h5, -⟩
  · rw [h] at he; cases he
  · rw [h5] at he
    exact ⟨n, hn, h1, h4, by simpa using he⟩

theorem mem_regroup (ns : List Node) (n : Node) : n ∈ regroup ns ↔ n ∈ ns := by
  unfold regroup
  simp only [List.mem_append, List.mem_filter, decide_eq_true_eq]
  constructor
  · rintro ((((h | h) | h) | h) | h) <;> exact h.1
  · intro h
    cases e : n.owner <;> simp [h]

theorem shutdownPass_mem (f) (ns : List Node) (e : Ev) :
    e ∈ shutdownPass f ns ↔ ∃ n ∈ ns, f n.id = true ∧ n.inited = true ∧ e = Ev.shutdown n.id := by
  unfold shutdownPass
  simp only [List.mem_map, List.mem_filter, Bool.and_eq_true]
  constructor
  · rintro ⟨n, ⟨h1, h2, h3⟩, rfl⟩; exact ⟨n, h1, h2, h3, rfl⟩
  · rintro ⟨n, h1, h2, h3, rfl⟩; exact ⟨n, ⟨h1, h2, h3⟩, rfl⟩

theorem mem_onId {i g} {ns : List Node} {n' : Node} (h : n' ∈ onId i g ns) :
    ∃ n ∈ ns, (n.id = i ∧ n' = g n) ∨ (n.id ≠ i ∧ n' = n) := by
  unfold onId at h
  obtain ⟨n, hn, rfl⟩ := List.mem_map.mp h
  refine ⟨n, hn, ?_⟩
  by_cases c : n.id = i
  · rw [if_pos c]; exact .inl ⟨c, rfl⟩
  · rw [if_neg c]; exact .inr ⟨c, rfl⟩

theorem tryArm_cases (f) (n : Node) :
    (tryArm f n).id = n.id ∧ (tryArm f n).cls = n.cls ∧ (tryArm f n).inited = n.inited ∧
      (tryArm f n).stopped = n.stopped ∧ (tryArm f n).held = n.held ∧
      (tryArm f n).moved = n.moved ∧ (tryArm f n).inits = n.inits ∧
      ((tryArm f n).armed = true → n.armed = true ∨
        (n.inited = true ∧ n.stopped = false ∧ n.paused = false ∧
          (n.owner = .main ∨ n.owner = .rt → n.held = false) ∧
          (n.owner = .main → f n.id = true))) ∧
      (n.seen = true → (tryArm f n).seen = true) ∧
      (n.owner = .main → (tryArm f n).seen = true) := by
  unfold tryArm
  cases ho : n.owner <;> simp only <;> split_ifs <;> simp_all

/-! ### one step of the log -/

theorem noTick_nil : NoTick [] := by intro i h; cases h

theorem log_same {l l' : List Ev} (h : l' = l) : ∃ evs, l' = l ++ evs ∧ NoTick evs :=
  ⟨[], by simp [h], noTick_nil⟩

theorem noTick_append {a b : List Ev} (ha : NoTick a) (hb : NoTick b) : NoTick (a ++ b) := by
  intro i h
  rcases List.mem_append.mp h with h | h
  · exact ha i h
  · exact hb i h

theorem initPass_noTick (R f ns) : NoTick (initPass R f ns).2.1 := by
  intro i h
  obtain ⟨n, -, -, -, h⟩ := initPass_evs R f ns _ h
  cases h

theorem reinitPass_noTick (R ns) : NoTick (reinitPass R ns).2 := by
  intro i h
  obtain ⟨n, -, -, -, h⟩ := reinitPass_evs R ns _ h
  cases h

theorem finalize_log (R s) : ∃ evs, (finalize R s).log = s.log ++ evs ∧ NoTick evs := by
  unfold finalize
  split_ifs
  · exact ⟨[], by simp, noTick_nil⟩
  · exact ⟨_, rfl, initPass_noTick _ _ _⟩

theorem afterTick_log (R s n e) :
    ∃ evs, (afterTick R s n e).log = s.log ++ evs ∧ NoTick evs := by
  cases e <;> unfold afterTick <;> simp only
  · exact ⟨[], by simp, noTick_nil⟩
  · split_ifs <;> exact ⟨[], by simp, noTick_nil⟩
  · exact ⟨[], by simp, noTick_nil⟩
  · split_ifs
    · exact ⟨_, rfl, by intro i h; simp at h⟩
    · exact ⟨[], by simp, noTick_nil⟩
  · split_ifs <;> exact ⟨[], by simp, noTick_nil⟩
  · exact ⟨_, rfl, by intro i h; simp at h⟩
  · cases n.owner <;> exact ⟨[], by simp, noTick_nil⟩

/-- Each step adds either no tick at all, or exactly one tick, of a node that had passed its
gates, as the first callback of the step. -/
theorem step_log (R s a) :
    (∃ evs, (step R s a).log = s.log ++ evs ∧ NoTick evs) ∨
      ∃ n ∈ s.nodes, n.armed = true ∧ (∃ e, a = .tick n.id e) ∧
        ∃ evs, (step R s a).log = s.log ++ Ev.tick n.id :: evs ∧ NoTick evs := by
  cases a <;> unfold step <;> simp only
  case tick i e =>
    cases hf : s.nodes.find? (fun n => n.id == i && n.armed) with
    | none => exact .inl (log_same rfl)
    | some n =>
      have hm := List.mem_of_find?_eq_some hf
      have hp := List.find?_some hf
      simp only [Bool.and_eq_true, beq_iff_eq] at hp
      obtain ⟨evs, h1, h2⟩ := afterTick_log R
        { s with nodes := onId i (fun m => { m with armed := false }) s.nodes,
                 log := s.log ++ [Ev.tick i] } n e
      refine .inr ⟨n, hm, hp.2, ⟨e, by rw [hp.1]⟩, evs, ?_, h2⟩
      simp only
      rw [h1, hp.1]; simp
  case tickOnce =>
    left
    split_ifs
    · obtain ⟨evs, h1, h2⟩ := finalize_log R { s with log := s.log ++ [Ev.call] }
      exact ⟨Ev.call :: evs ++ (reinitPass R (finalize R { s with log := s.log ++ [Ev.call] }).nodes).2,
        by simp [h1], noTick_append (by intro i h; rcases List.mem_cons.mp h with h | h; cases h; exact h2 i h)
          (reinitPass_noTick _ _)⟩
    · exact log_same rfl
  case run det f =>
    left
    split_ifs
    all_goals first
      | exact log_same rfl
      | (obtain ⟨evs, h1, h2⟩ := finalize_log R { s with log := s.log ++ [Ev.call] }
         exact ⟨Ev.call :: evs ++ (initPass R f (finalize R { s with log := s.log ++ [Ev.call] }).nodes).2.1,
          by simp [h1], noTick_append (by intro i h; rcases List.mem_cons.mp h with h | h; cases h; exact h2 i h)
            (initPass_noTick _ _ _)⟩)
  case round =>
    left
    split_ifs
    · exact ⟨_, rfl, reinitPass_noTick _ _⟩
    · exact log_same rfl
  case finish =>
    left
    split_ifs
    · refine ⟨_, rfl, fun i h => ?_⟩
      obtain ⟨n, -, -, -, h⟩ := (shutdownPass_mem _ _ _).mp h
      cases h
    · exact log_same rfl
  all_goals
    left
    first
      | exact log_same rfl
      | (split_ifs <;> exact log_same rfl)

/-! ### one step of one node -/

/-- How one step may change one node. -/
structure Rel (s s' : Sys) (a : Act) (n n' : Node) : Prop where
  id : n'.id = n.id
  cls : n'.cls = n.cls
  inited : n.inited = true → n'.inited = true
  inited' : n'.inited = true → n.inited = true ∨ Ev.init n.id .ok ∈ s'.log
  stopped : n.stopped = true → n'.stopped = true
  stopped' : n.armed = true → n'.armed = true → n'.stopped = true →
    n.stopped = true ∨ n.inited = false
  armed : n'.armed = true → n.armed = true ∨
    (a = .arm n.id ∧ n' = tryArm s.filt n ∧ n.armed = false ∧
      (n.moved = true → s.running = true ∧ (s.phase = .top ∨ s.phase = .round)) ∧
      (n.moved = false → (s.phase = .once ∨ s.phase = .round) ∧ n.seen = false))
  held : n.held = true → n'.held = true ∨ a = .resume n.id ∨ (s.phase = .idle ∧ ∃ f, a = .run false f)
  moved : n'.moved = n.moved ∨ (s.phase = .idle ∧ ∃ f, a = .run false f) ∨ (a = .finish ∧ s'.phase = .idle)
  seen : n.seen = true → n'.seen = true ∨ (s.phase = .idle ∧ a = .tickOnce) ∨
    (s.phase = .top ∧ s.running = true ∧ a = .round)

theorem Rel.refl (s s' a n) : Rel s s' a n n :=
  ⟨rfl, rfl, fun h => h, .inl, fun h => h, fun _ _ => .inl, .inl, .inl, .inl rfl, .inl⟩

/-- Rewriting only `paused`, `inits` or the run's bookkeeping. -/
theorem Rel.soft {s s' a n n'} (h1 : n'.id = n.id) (h2 : n'.cls = n.cls) (h3 : n'.inited = n.inited)
    (h4 : n'.stopped = n.stopped) (h5 : n'.armed = n.armed) (h6 : n'.held = n.held)
    (h7 : n'.moved = n.moved) (h8 : n'.seen = n.seen) : Rel s s' a n n' := by
  refine ⟨h1, h2, ?_, ?_, ?_, ?_, ?_, ?_, .inl h7, ?_⟩
  · intro h; rw [h3]; exact h
  · intro h; rw [h3] at h; exact .inl h
  · intro h; rw [h4]; exact h
  · intro _ _ h; rw [h4] at h; exact .inl h
  · intro h; rw [h5] at h; exact .inl h
  · intro h; rw [h6]; exact .inl h
  · intro h; rw [h8]; exact .inl h

theorem initPass_rel {R f s s' a} {ns : List Node}
    (hl : ∀ e ∈ (initPass R f ns).2.1, e ∈ s'.log) {n' : Node}
    (h : n' ∈ (initPass R f ns).1) : ∃ n ∈ ns, Rel s s' a n n' := by
  obtain ⟨n, hn, h⟩ := initPass_mem R f ns n' h
  refine ⟨n, hn, ?_⟩
  rcases h with rfl | ⟨-, -, rfl | ⟨-, hk, rfl⟩⟩
  · exact Rel.refl _ _ _ _
  · exact Rel.soft rfl rfl rfl rfl rfl rfl rfl rfl
  · exact ⟨rfl, rfl, fun _ => rfl, fun _ => .inr (hl _ hk), id, fun _ _ => .inl, .inl, .inl, .inl rfl, .inl⟩

theorem Rel.trans {s t s' a n m k} (h : Rel s s' a n m) (h' : Rel t s' a m k)
    (hp : t.phase = s.phase) (hr : t.running = true → s.running = true)
    (ha : k.armed = true → m.armed = true) (hna : ∀ i, a ≠ .arm i) (hns : n.inited = true → m.stopped = n.stopped) :
    Rel s s' a n k := by
  refine ⟨h'.id.trans h.id, h'.cls.trans h.cls, fun x => h'.inited (h.inited x), ?_,
    fun x => h'.stopped (h.stopped x), ?_,
    fun x => .inl ((h.armed (ha x)).resolve_right fun y => hna _ y.1), ?_, ?_, ?_⟩
  · intro x
    rcases h'.inited' x with x | x
    · exact h.inited' x
    · right; rw [← h.id]; exact x
  · intro x y z
    cases hi : n.inited with
    | false => exact .inr rfl
    | true =>
      rcases h'.stopped' (ha y) y z with w | w
      · left; rw [← hns hi]; exact w
      · rw [h.inited hi] at w; cases w
  · intro x
    rcases h.held x with y | y | y
    · rcases h'.held y with z | z | z
      · exact .inl z
      · right; left; rw [z, h.id]
      · right; right; rw [← hp]; exact z
    · exact .inr (.inl y)
    · exact .inr (.inr y)
  · rcases h'.moved with x | x | x
    · rcases h.moved with y | y
      · exact .inl (x.trans y)
      · exact .inr y
    · right; left; rw [← hp]; exact x
    · exact .inr (.inr x)
  · intro x
    rcases h.seen x with y | y
    · rcases h'.seen y with z | z | z
      · exact .inl z
      · right; left; rw [← hp]; exact z
      · right; right; rw [← hp]; exact ⟨z.1, hr z.2.1, z.2.2⟩
    · exact .inr y

theorem initPass_stopped {R f} {ns : List Node} {n' : Node} (h : n' ∈ (initPass R f ns).1) :
    ∃ n ∈ ns, n'.stopped = n.stopped ∧ n'.id = n.id := by
  obtain ⟨n, hn, h⟩ := initPass_mem R f ns n' h
  refine ⟨n, hn, ?_⟩
  rcases h with rfl | ⟨-, -, rfl | ⟨-, h, rfl⟩⟩ <;> exact ⟨rfl, rfl⟩

theorem finalize_rel {R s s' a} (hl : ∀ e ∈ (finalize R s).log, e ∈ s'.log) {n' : Node}
    (h : n' ∈ (finalize R s).nodes) :
    ∃ n ∈ s.nodes, Rel s s' a n n' ∧ n'.stopped = n.stopped ∧ n'.armed = n.armed := by
  unfold finalize at h hl
  by_cases c : s.finalized = true
  · rw [if_pos c] at h; exact ⟨n', h, Rel.refl _ _ _ _, rfl, rfl⟩
  · rw [if_neg c] at h hl
    simp only at h hl
    obtain ⟨n, hn, h⟩ := initPass_mem R _ _ n' h
    refine ⟨n, hn, ?_⟩
    rcases h with rfl | ⟨-, -, rfl | ⟨-, hk, rfl⟩⟩
    · exact ⟨Rel.refl _ _ _ _, rfl, rfl⟩
    · exact ⟨Rel.soft rfl rfl rfl rfl rfl rfl rfl rfl, rfl, rfl⟩
    · exact ⟨⟨rfl, rfl, fun _ => rfl, fun _ => .inr (hl _ (List.mem_append_right _ hk)), id,
        fun _ _ => .inl, .inl, .inl, .inl rfl, .inl⟩, rfl, rfl⟩

theorem finalize_phase (R s) : (finalize R s).phase = s.phase := by
  unfold finalize; split_ifs <;> rfl

theorem finalize_running (R s) : (finalize R s).running = true → s.running = true := by
  unfold finalize; split_ifs <;> simp <;> tauto

theorem reinit_rel {R s s' a} (n : Node) (hl : ∀ e ∈ (reinitNode R n).2, e ∈ s'.log) :
    Rel s s' a n (reinitNode R n).1 := by
  rcases reinitNode_cases R n with h | ⟨h1, h2, h3, h4, h5, h6⟩
  · rw [h]; exact Rel.refl _ _ _ _
  · rcases h6 with ⟨h7, h8⟩ | ⟨h7, h8 | h8⟩
    · rw [h8]
      refine ⟨rfl, rfl, fun _ => rfl, fun _ => .inr (hl _ ?_), id, fun _ _ => .inl, .inl, .inl, .inl rfl, .inl⟩
      rw [h5, h7]; exact List.mem_singleton.mpr rfl
    · rw [h8]; exact Rel.soft rfl rfl rfl rfl rfl rfl rfl rfl
    · rw [h8]
      exact ⟨rfl, rfl, id, .inl, fun _ => rfl, fun _ _ _ => .inr h4, .inl, .inl, .inl rfl, .inl⟩

theorem step_tickOnce (R) {s : Sys} (hp : s.phase = .idle) :
    step R s .tickOnce =
      { finalize R { s with log := s.log ++ [Ev.call] } with
        nodes := (reinitPass R (finalize R { s with log := s.log ++ [Ev.call] }).nodes).1.map
          (fun n => { n with seen := false }),
        log := (finalize R { s with log := s.log ++ [Ev.call] }).log ++
          (reinitPass R (finalize R { s with log := s.log ++ [Ev.call] }).nodes).2,
        filt := fun _ => true, phase := .once } := by
  simp only [step, if_pos hp]

theorem step_run (R det f) {s : Sys} (hp : s.phase = .idle) :
    step R s (.run det f) =
      { finalize R { s with log := s.log ++ [Ev.call] } with
        nodes := if det then (initPass R f (finalize R { s with log := s.log ++ [Ev.call] }).nodes).1
          else (initPass R f (finalize R { s with log := s.log ++ [Ev.call] }).nodes).1.map
            (fun n => { n with moved := decide (n.cls ≠ .main), held := false }),
        log := (finalize R { s with log := s.log ++ [Ev.call] }).log ++
          (initPass R f (finalize R { s with log := s.log ++ [Ev.call] }).nodes).2.1,
        running := (finalize R { s with log := s.log ++ [Ev.call] }).running &&
          !(initPass R f (finalize R { s with log := s.log ++ [Ev.call] }).nodes).2.2,
        controls := (finalize R { s with log := s.log ++ [Ev.call] }).controls || !det,
        filt := f, phase := .top } := by
  simp only [step, if_pos hp]

theorem step_round (R) {s : Sys} (hp : s.phase = .top ∧ s.running = true) :
    step R s .round =
      { s with nodes := (reinitPass R s.nodes).1.map (fun n => { n with seen := false }),
               log := s.log ++ (reinitPass R s.nodes).2, phase := .round } := by
  simp only [step, if_pos hp]

/-- Every node after a step is a node before it, changed as `Rel` allows, or was just added. -/
theorem step_nodes (R s a) {n' : Node} (h : n' ∈ (step R s a).nodes) :
    (∃ n ∈ s.nodes, Rel s (step R s a) a n n') ∨
      (∃ c, a = .add c ∧ s.phase = .idle ∧ n' = { id := s.next, cls := c }) := by
  have keep : (step R s a).nodes = s.nodes → ∃ n ∈ s.nodes, Rel s (step R s a) a n n' := by
    intro e; rw [e] at h; exact ⟨n', h, Rel.refl _ _ _ _⟩
  cases a with
  | add c =>
    by_cases hp : s.phase = .idle
    · simp only [step, if_pos hp, List.mem_append, List.mem_singleton] at h
      rcases h with h | h
      · exact .inl ⟨n', h, Rel.refl _ _ _ _⟩
      · exact .inr ⟨c, rfl, hp, h⟩
    · exact .inl (keep (by simp only [step, if_neg hp]))
  | stop => exact .inl (keep rfl)
  | tickOnce =>
    left
    by_cases hp : s.phase = .idle
    · have hs := step_tickOnce R hp
      set s' := step R s .tickOnce with hs'
      have h0 := h
      rw [hs] at h
      simp only [reinitPass, List.map_map, List.mem_map, Function.comp] at h
      obtain ⟨m, hm, rfl⟩ := h
      have hl : ∀ e ∈ (finalize R { s with log := s.log ++ [Ev.call] }).log, e ∈ s'.log := by
        intro e he; rw [hs]; exact List.mem_append_left _ he
      obtain ⟨n, hn, hrel, hst, har⟩ := finalize_rel (a := Act.tickOnce) hl hm
      have hl2 : ∀ e ∈ (reinitNode R m).2, e ∈ s'.log := by
        intro e he; rw [hs]
        exact List.mem_append_right _ (List.mem_flatMap.mpr ⟨m, hm, he⟩)
      have h2 := reinit_rel (s := s) (s' := s') (a := Act.tickOnce) m hl2
      have hrel' : Rel s s' Act.tickOnce n m := by
        refine ⟨hrel.id, hrel.cls, hrel.inited, hrel.inited', hrel.stopped, hrel.stopped', ?_, hrel.held, hrel.moved, hrel.seen⟩
        intro x; exact .inl (har ▸ x)
      have h3 := Rel.trans hrel' h2 rfl id
        (by
          rcases reinitNode_cases R m with e | ⟨_, _, _, _, _, e⟩
          · rw [e]; exact id
          · rcases e with ⟨-, e⟩ | ⟨-, e | e⟩ <;> rw [e] <;> exact id)
        (fun _ => by simp) (fun _ => hst)
      refine ⟨n, hn, ⟨h3.id, h3.cls, h3.inited, h3.inited', h3.stopped, h3.stopped', (fun x => by
        rcases h3.armed x with y | ⟨y, -⟩
        · exact .inl y
        · cases y), h3.held, h3.moved, fun _ => .inr (.inl ⟨hp, rfl⟩)⟩⟩
    · exact keep (by simp only [step, if_neg hp])
  | endOnce => exact .inl (keep (by simp only [step]; split_ifs <;> rfl))
  | run det f =>
    left
    by_cases hp : s.phase = .idle
    · have hs := step_run R det f hp
      set s' := step R s (.run det f) with hs'
      rw [hs] at h
      have hl : ∀ e ∈ (finalize R { s with log := s.log ++ [Ev.call] }).log, e ∈ s'.log := by
        intro e he; rw [hs]; exact List.mem_append_left _ he
      have hl2 : ∀ e ∈ (initPass R f (finalize R { s with log := s.log ++ [Ev.call] }).nodes).2.1, e ∈ s'.log := by
        intro e he; rw [hs]; exact List.mem_append_right _ he
      have key : ∀ k ∈ (initPass R f (finalize R { s with log := s.log ++ [Ev.call] }).nodes).1,
          ∃ n ∈ s.nodes, Rel s s' (.run det f) n k := by
        intro k hk
        obtain ⟨m, hm, e⟩ := initPass_mem R f _ k hk
        obtain ⟨n, hn, hrel, hst, har⟩ := finalize_rel (a := Act.run det f) hl hm
        have hrel' : Rel s s' (Act.run det f) n m := by
          refine ⟨hrel.id, hrel.cls, hrel.inited, hrel.inited', hrel.stopped, hrel.stopped', ?_, hrel.held, hrel.moved, hrel.seen⟩
          intro x; exact .inl (har ▸ x)
        refine ⟨n, hn, ?_⟩
        have h2 : Rel s s' (Act.run det f) m k ∧ (k.armed = true → m.armed = true) := by
          rcases e with rfl | ⟨-, -, rfl | ⟨-, e, rfl⟩⟩
          · exact ⟨Rel.refl _ _ _ _, id⟩
          · exact ⟨Rel.soft rfl rfl rfl rfl rfl rfl rfl rfl, id⟩
          · exact ⟨⟨rfl, rfl, fun _ => rfl, fun _ => .inr (hl2 _ e), id, fun _ _ => .inl, .inl, .inl, .inl rfl, .inl⟩, id⟩
        exact Rel.trans hrel' h2.1 rfl id h2.2 (fun _ => by simp) (fun _ => hst)
      cases det with
      | true => exact key n' h
      | false =>
        simp only [Bool.false_eq_true, if_false, List.mem_map] at h
        obtain ⟨k, hk, rfl⟩ := h
        obtain ⟨n, hn, r⟩ := key k hk
        exact ⟨n, hn, ⟨r.id, r.cls, r.inited, r.inited', r.stopped, r.stopped', (fun x => by
          rcases r.armed x with y | ⟨y, -⟩
          · exact .inl y
          · cases y), fun _ => .inr (.inr ⟨hp, f, rfl⟩), .inr (.inl ⟨hp, f, rfl⟩), r.seen⟩⟩
    · exact keep (by simp only [step, if_neg hp])
  | pause i =>
    left
    by_cases hp : s.phase = .top ∧ s.controls = true
    · simp only [step, if_pos hp] at h
      obtain ⟨n, hn, h⟩ := mem_onId h
      refine ⟨n, hn, ?_⟩
      rcases h with ⟨-, rfl⟩ | ⟨-, rfl⟩
      · exact ⟨rfl, rfl, id, .inl, id, fun _ _ => .inl, .inl, fun _ => .inl rfl, .inl rfl, .inl⟩
      · exact Rel.refl _ _ _ _
    · exact keep (by simp only [step, if_neg hp])
  | resume i =>
    left
    by_cases hp : s.phase = .top ∧ s.controls = true
    · simp only [step, if_pos hp] at h
      obtain ⟨n, hn, h⟩ := mem_onId h
      refine ⟨n, hn, ?_⟩
      rcases h with ⟨hi, rfl⟩ | ⟨-, rfl⟩
      · exact ⟨rfl, rfl, id, .inl, id, fun _ _ => .inl, .inl, fun _ => .inr (.inl (by rw [hi])), .inl rfl, .inl⟩
      · exact Rel.refl _ _ _ _
    · exact keep (by simp only [step, if_neg hp])
  | round =>
    left
    by_cases hp : s.phase = .top ∧ s.running = true
    · have hs := step_round R hp
      set s' := step R s .round with hs'
      rw [hs] at h
      simp only [reinitPass, List.map_map, List.mem_map, Function.comp] at h
      obtain ⟨m, hm, rfl⟩ := h
      have hl2 : ∀ e ∈ (reinitNode R m).2, e ∈ s'.log := by
        intro e he; rw [hs]
        exact List.mem_append_right _ (List.mem_flatMap.mpr ⟨m, hm, he⟩)
      have h2 := reinit_rel (s := s) (s' := s') (a := Act.round) m hl2
      exact ⟨m, hm, ⟨h2.id, h2.cls, h2.inited, h2.inited', h2.stopped, h2.stopped', (fun x => by
          rcases h2.armed x with y | ⟨y, -⟩
          · exact .inl y
          · cases y), h2.held, h2.moved, fun _ => .inr (.inr ⟨hp.1, hp.2, rfl⟩)⟩⟩
    · exact keep (by simp only [step, if_neg hp])
  | endRound => exact .inl (keep (by simp only [step]; split_ifs <;> rfl))
  | arm i =>
    left
    simp only [step] at h
    obtain ⟨n, hn, h⟩ := mem_onId h
    refine ⟨n, hn, ?_⟩
    rcases h with ⟨hi, rfl⟩ | ⟨-, rfl⟩
    · have tc := tryArm_cases s.filt n
      have main : ∀ (hna : n.armed = false)
          (h1 : n.moved = true → s.running = true ∧ (s.phase = .top ∨ s.phase = .round))
          (h2 : n.moved = false → (s.phase = .once ∨ s.phase = .round) ∧ n.seen = false),
          Rel s (step R s (.arm i)) (.arm i) n (tryArm s.filt n) := by
        intro hna h1 h2
        refine ⟨tc.1, tc.2.1, ?_, ?_, ?_, ?_, ?_, ?_, .inl tc.2.2.2.2.2.1, ?_⟩
        · intro x; rw [tc.2.2.1]; exact x
        · intro x; rw [tc.2.2.1] at x; exact .inl x
        · intro x; rw [tc.2.2.2.1]; exact x
        · intro x; rw [hna] at x; cases x
        · intro _; exact .inr ⟨by rw [hi], rfl, hna, h1, h2⟩
        · intro x; rw [tc.2.2.2.2.1]; exact .inl x
        · intro x; exact .inl (tc.2.2.2.2.2.2.2.2.1 x)
      by_cases ha : n.armed = true
      · rw [if_pos ha]; exact Rel.refl _ _ _ _
      · have ha' : n.armed = false := by simpa using ha
        rw [if_neg ha]
        by_cases hm : n.moved = true
        · rw [if_pos hm]
          by_cases hc : (s.running && (s.phase == .top || s.phase == .round)) = true
          · rw [if_pos hc]
            have hc' : s.running = true ∧ (s.phase = .top ∨ s.phase = .round) := by simpa using hc
            exact main ha' (fun _ => hc') (fun x => by rw [hm] at x; cases x)
          · rw [if_neg hc]; exact Rel.refl _ _ _ _
        · rw [if_neg hm]
          by_cases hc : ((s.phase == .once || s.phase == .round) && !n.seen) = true
          · rw [if_pos hc]
            have hc' : (s.phase = .once ∨ s.phase = .round) ∧ n.seen = false := by simpa using hc
            exact main ha' (fun x => absurd x hm) (fun _ => hc')
          · rw [if_neg hc]; exact Rel.refl _ _ _ _
    · exact Rel.refl _ _ _ _
  | drop i =>
    left
    simp only [step] at h
    obtain ⟨n, hn, h⟩ := mem_onId h
    refine ⟨n, hn, ?_⟩
    rcases h with ⟨-, rfl⟩ | ⟨-, rfl⟩
    · exact ⟨rfl, rfl, id, .inl, id, (fun _ x => by cases x), (fun x => by cases x), .inl, .inl rfl, .inl⟩
    · exact Rel.refl _ _ _ _
  | halt i =>
    left
    simp only [step] at h
    obtain ⟨n, hn, h⟩ := mem_onId h
    refine ⟨n, hn, ?_⟩
    rcases h with ⟨-, rfl⟩ | ⟨-, rfl⟩
    · by_cases ha : n.armed = true
      · rw [if_pos ha]; exact Rel.refl _ _ _ _
      · rw [if_neg ha]
        exact ⟨rfl, rfl, id, .inl, fun _ => rfl, (fun x => absurd x ha), .inl, .inl, .inl rfl, .inl⟩
    · exact Rel.refl _ _ _ _
  | finish =>
    left
    by_cases hp : s.phase = .top ∧ ∀ n ∈ s.nodes, n.armed = false
    · have hph : (step R s .finish).phase = .idle := by simp only [step, if_pos hp]
      simp only [step, if_pos hp, List.mem_map] at h
      obtain ⟨n, hn, rfl⟩ := h
      rw [mem_regroup] at hn
      exact ⟨n, hn, ⟨rfl, rfl, id, .inl, id, fun _ _ => .inl, .inl, .inl, .inr (.inr ⟨rfl, hph⟩), .inl⟩⟩
    · exact keep (by simp only [step, if_neg hp])
  | tick i e =>
    left
    cases hf : s.nodes.find? (fun n => n.id == i && n.armed) with
    | none => exact keep (by simp only [step, hf])
    | some k =>
      have hk := List.find?_some hf
      simp only [Bool.and_eq_true, beq_iff_eq] at hk
      have base : ∀ m ∈ onId i (fun m => { m with armed := false }) s.nodes,
          ∃ n ∈ s.nodes, Rel s (step R s (.tick i e)) (.tick i e) n m ∧ (m.id = i → m.armed = false) := by
        intro m hm
        obtain ⟨n, hn, h⟩ := mem_onId hm
        refine ⟨n, hn, ?_⟩
        rcases h with ⟨-, rfl⟩ | ⟨hne, rfl⟩
        · exact ⟨⟨rfl, rfl, id, .inl, id, (fun _ x => by cases x), (fun x => by cases x), .inl, .inl rfl, .inl⟩, fun _ => rfl⟩
        · exact ⟨Rel.refl _ _ _ _, fun x => absurd x hne⟩
      have upd1 : ∀ (g : Node → Node), (∀ m, (g m).id = m.id ∧ (g m).cls = m.cls ∧
            (g m).inited = m.inited ∧ (m.stopped = true → (g m).stopped = true) ∧ (g m).armed = m.armed ∧
            (g m).held = m.held ∧ (g m).moved = m.moved ∧ (g m).seen = m.seen) →
          ∀ m' ∈ onId k.id g (onId i (fun m => { m with armed := false }) s.nodes),
          ∃ n ∈ s.nodes, Rel s (step R s (.tick i e)) (.tick i e) n m' := by
        intro g hg m' hm'
        obtain ⟨m, hm, h⟩ := mem_onId hm'
        obtain ⟨n, hn, r, har⟩ := base m hm
        refine ⟨n, hn, ?_⟩
        rcases h with ⟨hmi, rfl⟩ | ⟨-, rfl⟩
        · obtain ⟨g1, g2, g3, g4, g5, g6, g7, g8⟩ := hg m
          have hna : m.armed = false := har (hmi.trans hk.1)
          refine ⟨g1.trans r.id, g2.trans r.cls, ?_, ?_, ?_, ?_, ?_, ?_, ?_, ?_⟩
          · intro x; rw [g3]; exact r.inited x
          · intro x; rw [g3] at x; exact r.inited' x
          · intro x; exact g4 (r.stopped x)
          · intro _ x; rw [g5, hna] at x; cases x
          · intro x; rw [g5, hna] at x; cases x
          · intro x; rw [g6]; exact r.held x
          · rw [g7]; exact r.moved
          · intro x; rw [g8]; exact r.seen x
        · exact r
      have fin : ∀ m ∈ onId i (fun m => { m with armed := false }) s.nodes,
          ∃ n ∈ s.nodes, Rel s (step R s (.tick i e)) (.tick i e) n m := by
        intro m hm; obtain ⟨n, hn, r, -⟩ := base m hm; exact ⟨n, hn, r⟩
      have h1 : n' ∈ (afterTick R { s with nodes := onId i (fun m => { m with armed := false }) s.nodes, log := s.log ++ [Ev.tick i] } k e).nodes := by
        simp only [step, hf] at h; exact h
      have spread : ∀ (b : Bool) (m : Node), m ∈ onId i (fun m => { m with armed := false }) s.nodes →
          ∃ n ∈ s.nodes, Rel s (step R s (.tick i e)) (.tick i e) n { m with armed := false } := by
        intro _ m hm
        obtain ⟨n, hn, r⟩ := fin m hm
        exact ⟨n, hn, ⟨r.id, r.cls, r.inited, r.inited', r.stopped, (fun _ x => by cases x), (fun x => by cases x), r.held, r.moved, r.seen⟩⟩
      cases e with
      | none => exact fin n' h1
      | skip =>
        simp only [afterTick] at h1
        by_cases c : k.owner = .main ∨ k.owner = .rt
        · rw [if_pos c] at h1
          exact upd1 (fun m => { m with paused := true }) (fun m => ⟨rfl, rfl, rfl, id, rfl, rfl, rfl, rfl⟩) n' h1
        · rw [if_neg c] at h1; exact fin n' h1
      | stop => exact upd1 (fun m => { m with stopped := true }) (fun m => ⟨rfl, rfl, rfl, fun _ => rfl, rfl, rfl, rfl, rfl⟩) n' h1
      | kill =>
        simp only [afterTick] at h1
        by_cases c : k.owner = .main ∨ k.owner = .rt
        · rw [if_pos c] at h1
          exact upd1 (fun m => { m with stopped := true }) (fun m => ⟨rfl, rfl, rfl, fun _ => rfl, rfl, rfl, rfl, rfl⟩) n' h1
        · rw [if_neg c] at h1; exact fin n' h1
      | fatal =>
        simp only [afterTick] at h1
        by_cases c : s.phase = .once
        · rw [if_pos c] at h1
          obtain ⟨m, hm, rfl⟩ := List.mem_map.mp h1
          exact spread true m hm
        · rw [if_neg c] at h1; exact fin n' h1
      | restart => exact upd1 (fun m => { m with inits := m.inits + 1 }) (fun m => ⟨rfl, rfl, rfl, id, rfl, rfl, rfl, rfl⟩) n' h1
      | errPanic =>
        simp only [afterTick] at h1
        cases ho : k.owner <;> rw [ho] at h1 <;> simp only at h1
        · exact fin n' h1
        · exact upd1 (fun m => { m with stopped := true }) (fun m => ⟨rfl, rfl, rfl, fun _ => rfl, rfl, rfl, rfl, rfl⟩) n' h1
        · exact fin n' (List.mem_of_mem_filter h1)
        · exact fin n' (List.mem_of_mem_filter h1)
        · exact fin n' (List.mem_of_mem_filter h1)

end Horus.Loop
