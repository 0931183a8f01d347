import Verif.Sched.DispatchProps
/-
The executor on the graphs the scheduler builds, and what `.order()` guarantees in parallel mode.
-/
namespace Horus.Sched.Dispatch
open Horus.Ring (upd upd_same upd_ne)
open Horus.Sched.Graph

/-- The job of one cycle for a built graph (mod.rs:5109-5135). -/
def jobOf (nodes : List NodeDecl) (g : Graph) (ticks : Nat → Bool) : Job where
  n := nodes.length
  succ := g.successors
  dep := g.depCounts
  ticks := ticks

/-! ### Graphs from topics -/

theorem job_topics_ok {nodes : List NodeDecl} {g : Graph} (h : build nodes = .ok g)
    (hm : g.fromTopics = true) (ticks : Nat → Bool) : (jobOf nodes g ticks).Ok := by
  obtain ⟨h1, h2, h3⟩ := dispatch_data h hm
  refine ⟨h2, ?_, h3, stepOf g.steps, ?_⟩
  · intro p c hc; have := (h1 p c).1 hc; exact ⟨this.1, this.2.1⟩
  · intro p c hc
    exact (producers_first h ((h1 p c).1 hc)).lt (build_topics h hm).1.1

/-- In parallel mode, whatever the interleaving, a consumer due this cycle starts only after every
due producer of its topics has finished. -/
theorem parallel_respects_topics {nodes : List NodeDecl} {g : Graph} (h : build nodes = .ok g)
    (ticks : Nat → Bool) (k : Nat) (ws : List Nat) {p c : Nat} (hd : DependsOn nodes p c)
    (hp : ticks p = true) (l1 l2 : List Ev)
    (hl : (run (jobOf nodes g ticks) k (St.init (jobOf nodes g ticks)) ws).log = l1 ++ .start c :: l2) :
    Ev.finish p ∈ l1 := by
  have hm : g.fromTopics = true := by
    rw [topics_used_iff h]
    obtain ⟨h1, _, _, t, ht, _⟩ := hd
    refine ⟨nodes[p], List.getElem_mem h1, .inl ?_⟩
    have : nodeAt nodes p = nodes[p] := by unfold nodeAt; simp [List.getD, h1]
    rw [this] at ht
    intro e; rw [e] at ht; simp at ht
  exact starts_after_predecessors _ (job_topics_ok h hm ticks) k ws c p l1 l2 hl hp
    (((dispatch_data h hm).1 p c).2 hd)

/-- In deterministic mode and in `tick_once`, a due consumer ticks after every due producer. -/
theorem sequential_respects_topics {nodes : List NodeDecl} {g : Graph} (h : build nodes = .ok g)
    (ticks : Nat → Bool) {p c : Nat} (hd : DependsOn nodes p c) (hp : ticks p = true)
    (hc : ticks c = true) :
    ∃ l1 l2 l3, sequential g.steps ticks = l1 ++ p :: l2 ++ c :: l3 := by
  obtain ⟨s1, s2, s3, x, y, e, hx, hy⟩ := producers_first h hd
  obtain ⟨x1, x2, rfl⟩ := List.append_of_mem hx
  obtain ⟨y1, y2, rfl⟩ := List.append_of_mem hy
  refine ⟨s1.flatten.filter ticks ++ x1.filter ticks,
    x2.filter ticks ++ s2.flatten.filter ticks ++ y1.filter ticks,
    y2.filter ticks ++ s3.flatten.filter ticks, ?_⟩
  unfold sequential
  rw [e]
  simp [List.filter_append, hp, hc]

/-- Sequential mode ticks every due node exactly once. -/
theorem sequential_complete {nodes : List NodeDecl} {g : Graph} (h : build nodes = .ok g)
    (ticks : Nat → Bool) :
    (sequential g.steps ticks).Perm ((List.range nodes.length).filter ticks) :=
  (steps_cover_once h).filter ticks

/-! ### Graphs from `.order()` -/

theorem linkPair_fst (l : List (Nat × Nat)) (sd : (Nat → List Nat) × (Nat → Nat)) (p : Nat) :
    (l.foldl linkPair sd).1 p = sd.1 p ++ (l.filter (fun x => x.1 == p)).map (·.2) := by
  induction l generalizing sd with
  | nil => simp
  | cons a l ih =>
    rw [List.foldl_cons, ih]
    unfold linkPair
    by_cases hp : a.1 = p
    · subst hp; simp
    · have : p ≠ a.1 := fun e => hp e.symm
      simp [hp, upd_ne _ _ this]

theorem linkPair_snd (l : List (Nat × Nat)) (sd : (Nat → List Nat) × (Nat → Nat)) (c : Nat) :
    (l.foldl linkPair sd).2 c = sd.2 c + l.countP (fun x => x.2 == c) := by
  induction l generalizing sd with
  | nil => simp
  | cons a l ih =>
    rw [List.foldl_cons, ih, List.countP_cons]
    unfold linkPair
    by_cases hp : a.2 = c
    · subst hp; simp; omega
    · have : c ≠ a.2 := fun e => hp e.symm
      simp [hp, upd_ne _ _ this]

theorem tierPairs_nodup (ts : List (List Nat)) (h : ts.flatten.Nodup) : (tierPairs ts).Nodup := by
  induction ts using tierPairs.induct with
  | case1 a b rest ih =>
    rw [tierPairs]
    rw [List.flatten_cons] at h
    have h2 := List.nodup_append.1 h
    have hb : b.Nodup := by
      have := h2.2.1; rw [List.flatten_cons] at this; exact (List.nodup_append.1 this).1
    refine List.Nodup.append ?_ (ih h2.2.1) ?_
    · rw [List.nodup_flatMap]
      refine ⟨fun x _ => List.Nodup.map (fun u v e => by simpa using e) hb, ?_⟩
      refine h2.1.imp ?_
      intro x y hxy z hz hz'
      simp only [List.mem_map] at hz hz'
      obtain ⟨u, _, rfl⟩ := hz
      obtain ⟨v, _, e⟩ := hz'
      simp only [Prod.mk.injEq] at e
      exact hxy e.1.symm
    · rintro ⟨p, c⟩ h1 h3
      have hp : p ∈ a := by
        simp only [List.mem_flatMap, List.mem_map, Prod.mk.injEq] at h1
        obtain ⟨q, hq, d, _, rfl, _⟩ := h1; exact hq
      rw [mem_tierPairs] at h3
      obtain ⟨s1, s2, x, y, e, hx, _⟩ := h3
      have : p ∈ (b :: rest).flatten := by rw [e]; simp [hx]
      exact List.disjoint_of_nodup_append h hp this
  | case2 t h' =>
    rw [tierPairs]
    · simp
    · exact h'

theorem order_succ_iff (nodes : List NodeDecl) (p c : Nat) :
    c ∈ (buildFromOrder nodes).successors p ↔
      ∃ s1 s2 x y, orderSteps nodes = s1 ++ x :: y :: s2 ∧ p ∈ x ∧ c ∈ y := by
  rw [← mem_tierPairs]
  show c ∈ ((tierPairs (orderSteps nodes)).foldl linkPair (fun _ => [], fun _ => 0)).1 p ↔ _
  rw [linkPair_fst]
  simp

theorem job_order_ok (nodes : List NodeDecl) (ticks : Nat → Bool) :
    (jobOf nodes (buildFromOrder nodes) ticks).Ok := by
  have hnd := orderSteps_nodup nodes
  have hpn := tierPairs_nodup _ hnd
  have hbd : ∀ p c, c ∈ (buildFromOrder nodes).successors p → p < nodes.length ∧ c < nodes.length := by
    intro p c hc
    obtain ⟨s1, s2, x, y, e, hx, hy⟩ := (order_succ_iff nodes p c).1 hc
    constructor
    · rw [← mem_orderSteps, e]; simp [hx]
    · rw [← mem_orderSteps, e]; simp [hy]
  refine ⟨?_, hbd, ?_, stepOf (orderSteps nodes), ?_⟩
  · intro p
    show (((tierPairs (orderSteps nodes)).foldl linkPair (fun _ => [], fun _ => 0)).1 p).Nodup
    rw [linkPair_fst]
    simp only [List.nil_append]
    apply List.Nodup.map_on _ (hpn.filter _)
    rintro ⟨a, b⟩ h1 ⟨a', b'⟩ h2 e
    simp only [List.mem_filter, beq_iff_eq] at h1 h2 e
    rw [h1.2, h2.2, e]
  · intro c
    show ((tierPairs (orderSteps nodes)).foldl linkPair (fun _ => [], fun _ => 0)).2 c = _
    rw [linkPair_snd]
    simp only [Nat.zero_add]
    rw [List.countP_eq_length_filter, List.countP_eq_length_filter]
    have : (((tierPairs (orderSteps nodes)).filter (fun x => x.2 == c)).map (·.1)).Perm
        ((List.range nodes.length).filter (fun p => decide (c ∈ (buildFromOrder nodes).successors p))) := by
      rw [List.perm_ext_iff_of_nodup]
      · intro p
        simp only [List.mem_map, List.mem_filter, List.mem_range, beq_iff_eq, decide_eq_true_eq]
        constructor
        · rintro ⟨⟨a, b⟩, ⟨h1, rfl⟩, rfl⟩
          have := (order_succ_iff nodes a b).2 ((mem_tierPairs _ _ _).1 h1)
          exact ⟨(hbd a b this).1, this⟩
        · rintro ⟨_, h2⟩
          exact ⟨(p, c), ⟨(mem_tierPairs _ _ _).2 ((order_succ_iff nodes p c).1 h2), rfl⟩, rfl⟩
      · apply List.Nodup.map_on _ (hpn.filter _)
        rintro ⟨a, b⟩ h1 ⟨a', b'⟩ h2 e
        simp only [List.mem_filter, beq_iff_eq] at h1 h2 e
        rw [h1.2, h2.2, e]
      · exact List.Nodup.filter _ List.nodup_range
    have := this.length_eq
    rw [List.length_map] at this
    exact this
  · intro p c hc
    obtain ⟨s1, s2, x, y, e, hx, hy⟩ := (order_succ_iff nodes p c).1 hc
    exact Earlier.lt hnd ⟨s1, [], s2, x, y, by simpa using e, hx, hy⟩

/-- In the log, a finish comes after its own start. -/
theorem finish_after_start (j : Job) (hj : j.Ok) (k : Nat) (ws : List Nat) :
    ∀ l1 l2 i, (run j k (St.init j) ws).log = l1 ++ .finish i :: l2 → Ev.start i ∈ l1 := by
  suffices H : ∀ (s : St), Inv j s → (∀ l1 l2 i, s.log = l1 ++ .finish i :: l2 → Ev.start i ∈ l1) →
      ∀ l1 l2 i, (run j k s ws).log = l1 ++ .finish i :: l2 → Ev.start i ∈ l1 from
    H _ (inv_init j hj) (by intro l1 l2 i h; have : (St.init j).log = [] := rfl; rw [this] at h; simp at h)
  induction ws with
  | nil => intro s _ h; exact h
  | cons w ws ih =>
    intro s hs h
    unfold run
    have hlog : (step j s w).log = s.log ∨ (∃ i, (step j s w).log = s.log ++ [.start i]) ∨
        ∃ i, (step j s w).log = s.log ++ [.finish i] ∧ Ev.start i ∈ s.log := by
      unfold step
      cases hpc : s.pc w with
      | check => simp only; split <;> exact .inl rfl
      | gone => exact .inl rfl
      | recv =>
        simp only
        cases hq : s.queue with
        | nil => exact .inl rfl
        | cons i q => exact .inr (.inl ⟨i, rfl⟩)
      | tick i => exact .inr (.inr ⟨i, rfl, (hs.started i).2 (.inl ⟨w, (hs.tick w i).1 hpc⟩)⟩)
      | notify i rest =>
        cases rest with
        | nil => exact .inl rfl
        | cons c rest =>
          simp only
          split
          · split <;> exact .inl rfl
          · exact .inl rfl
      | send c i rest => exact .inl rfl
    split
    · apply ih _ (inv_step hj hs w)
      intro l1 l2 i hl
      rcases hlog with e | ⟨x, e⟩ | ⟨x, e, hx⟩
      · rw [e] at hl; exact h l1 l2 i hl
      · rw [e] at hl
        rcases List.eq_nil_or_concat l2 with rfl | ⟨l2', z, rfl⟩
        · have := (List.append_inj' hl (by simp)).2; simp at this
        · have hl' : s.log ++ [Ev.start x] = (l1 ++ .finish i :: l2') ++ [z] := by simpa using hl
          exact h l1 l2' i (List.append_inj' hl' (by simp)).1
      · rw [e] at hl
        rcases List.eq_nil_or_concat l2 with rfl | ⟨l2', z, rfl⟩
        · have := List.append_inj' hl (by simp)
          have e2 : x = i := by simpa using this.2
          rw [← this.1, ← e2]; exact hx
        · have hl' : s.log ++ [Ev.finish x] = (l1 ++ .finish i :: l2') ++ [z] := by simpa using hl
          exact h l1 l2' i (List.append_inj' hl' (by simp)).1
    · exact ih s hs h

/-- In parallel mode without topic declarations, a due node starts after every due node of lower
`.order()` has finished, provided every tier strictly between has a due node.
The full claim (no proviso) is false: see `parallel_order_violated`. -/
theorem parallel_order_partial (nodes : List NodeDecl) (ticks : Nat → Bool) (k : Nat) (ws : List Nat)
    {a b : Nat} (ha : a < nodes.length) (hb : b < nodes.length)
    (hlt : (nodeAt nodes a).order < (nodeAt nodes b).order) (hta : ticks a = true)
    (hbetween : ∀ o, (∃ i, i < nodes.length ∧ (nodeAt nodes i).order = o) →
      (nodeAt nodes a).order < o → o < (nodeAt nodes b).order →
      ∃ i, i < nodes.length ∧ (nodeAt nodes i).order = o ∧ ticks i = true)
    (l1 l2 : List Ev)
    (hl : (run (jobOf nodes (buildFromOrder nodes) ticks) k (St.init (jobOf nodes (buildFromOrder nodes) ticks)) ws).log
      = l1 ++ .start b :: l2) : Ev.finish a ∈ l1 := by
  have hj := job_order_ok nodes ticks
  generalize ho : (nodeAt nodes b).order = o at *
  induction o using Nat.strongRecOn generalizing b l1 l2 with
  | _ o ih =>
    obtain ⟨s1, s2, s3, x, y, e, hx, hy⟩ := orderSteps_earlier nodes ha hb (by omega)
    rcases List.eq_nil_or_concat s2 with rfl | ⟨s2', z, rfl⟩
    · exact starts_after_predecessors _ hj k ws b a l1 l2 hl hta
        ((order_succ_iff nodes a b).2 ⟨s1, s3, x, y, by simpa using e, hx, hy⟩)
    · have hz : z ∈ orderSteps nodes := by rw [e]; simp
      obtain ⟨oz, hoz, rfl⟩ := List.mem_map.1 hz
      obtain ⟨i0, hi0, hio⟩ := (mem_orderValues nodes oz).1 hoz
      have hi0z := (mem_orderStep nodes oz i0).2 ⟨hi0, hio⟩
      have e1 : Earlier (orderSteps nodes) a i0 :=
        ⟨s1, s2', y :: s3, x, _, by rw [e]; simp, hx, hi0z⟩
      have e2 : Earlier (orderSteps nodes) i0 b :=
        ⟨s1 ++ x :: s2', [], s3, _, y, by rw [e]; simp, hi0z, hy⟩
      have o1 := (orderSteps_earlier_iff nodes ha hi0).2 e1
      have o2 := (orderSteps_earlier_iff nodes hi0 hb).2 e2
      obtain ⟨m, hm, hmo, hmt⟩ := hbetween oz ⟨i0, hi0, hio⟩ (by omega) (by omega)
      have hf := starts_after_predecessors _ hj k ws b m l1 l2 hl hmt
        ((order_succ_iff nodes m b).2 ⟨s1 ++ x :: s2', s3, _, y, by rw [e]; simp,
          (mem_orderStep nodes oz m).2 ⟨hm, hmo⟩, hy⟩)
      obtain ⟨p1, p2, rfl⟩ := List.append_of_mem hf
      have hs := finish_after_start _ hj k ws p1 (p2 ++ .start b :: l2) m (by rw [hl]; simp)
      obtain ⟨q1, q2, rfl⟩ := List.append_of_mem hs
      have := ih oz (by omega) hm q1 (q2 ++ .finish m :: p2 ++ .start b :: l2)
        (by rw [hl]; simp) hmo (by omega) (fun o' h1 h2 h3 => hbetween o' h1 h2 (by omega))
      simp [this]

/-- Three nodes with `.order(0)`, `.order(1)`, `.order(2)`; the middle one is not due this cycle
(for example because of its own lower rate). -/
def tiered : List NodeDecl := [⟨[], [], 0⟩, ⟨[], [], 1⟩, ⟨[], [], 2⟩]

/-- Disagreement with the documented meaning of `.order()` ("different order = sequential",
dependency_graph.rs:50-52): when the middle tier is not due, the node of order 2 starts while the
node of order 0 is still running. -/
theorem parallel_order_violated :
    ∃ ws, (run (jobOf tiered (buildFromOrder tiered) (fun i => i != 1)) 2
      (St.init (jobOf tiered (buildFromOrder tiered) (fun i => i != 1))) ws).log = [.start 0, .start 2] :=
  ⟨[0, 1, 0, 1], by decide +kernel⟩

/-- The hypotheses of the partial theorem are met by a run in which all three tiers are due. -/
example : (run (jobOf tiered (buildFromOrder tiered) (fun _ => true)) 2
    (St.init (jobOf tiered (buildFromOrder tiered) (fun _ => true)))
    [0, 0, 0, 0, 0, 0, 1, 1, 1, 1, 1, 1, 0, 0, 0, 0, 0, 0, 0]).log
    = [.start 0, .finish 0, .start 1, .finish 1, .start 2, .finish 2] := by decide +kernel

/-- A run of the robot graph: both drivers tick in parallel, then SLAM, then the controller. -/
example : ∃ g, build robot = .ok g ∧
    (run (jobOf robot g (fun _ => true)) 2 (St.init (jobOf robot g (fun _ => true)))
      [0, 1, 0, 1, 1, 1, 1, 1, 0, 0, 0, 1, 1, 1, 1, 1, 1, 1, 1, 1, 1, 1, 1, 1, 1]).log.length = 8 := by
  have hk : (match build robot with
    | .ok g => (run (jobOf robot g (fun _ => true)) 2 (St.init (jobOf robot g (fun _ => true)))
      [0, 1, 0, 1, 1, 1, 1, 1, 0, 0, 0, 1, 1, 1, 1, 1, 1, 1, 1, 1, 1, 1, 1, 1, 1]).log.length
    | _ => 0) = 8 := by decide +kernel
  cases hb : build robot with
  | ok g => rw [hb] at hk; exact ⟨g, rfl, hk⟩
  | cycle i => rw [hb] at hk; simp at hk
  | panic => rw [hb] at hk; simp at hk
  | diverge => rw [hb] at hk; simp at hk

end Horus.Sched.Dispatch
