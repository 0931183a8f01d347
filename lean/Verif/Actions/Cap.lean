import Verif.Actions.Inv
/-
Concurrency limits, queue bounds and queue progress of the action server.
-/
namespace Horus.Actions
open Horus

theorem occupied_modify (s : Server) (id : Nat) (f : GState → GState)
    (hf : ∀ g, (f g).abandoned = g.abandoned) :
    occupied { s with active := modify s.active id f } = occupied s :=
  countP_modify s.active id f (fun p => !p.2.abandoned) fun p _ => by simp [hf]

theorem occupied_preempt (s : Server) (id : Nat) : occupied (preempt id s) = occupied s :=
  occupied_modify s id _ fun _ => rfl

theorem pendingPre_modify (s : Server) (id : Nat) (f : GState → GState)
    (hf : ∀ g, (f g).preempt = g.preempt) :
    pendingPre { s with active := modify s.active id f } = pendingPre s :=
  countP_modify s.active id f (fun p => p.2.preempt) fun p _ => by simp [hf]

theorem pendingPre_preempt (s : Server) (id : Nat) (hok : s.active.Ok) (hm : id ∈ s.active.keys)
    (h0 : pendingPre s = 0) : pendingPre (preempt id s) = 1 := by
  have hall : ∀ p ∈ s.active, p.2.preempt = false := by
    intro p hp
    have := List.countP_eq_zero.mp h0 p hp
    simpa using this
  have e : pendingPre (preempt id s) = s.active.keys.count id := by
    rw [keys_count]
    unfold pendingPre preempt modify
    rw [List.countP_map]
    apply List.countP_congr
    intro p hp
    simp only [Function.comp]
    by_cases e : p.1 = id
    · simp [e]
    · simp [e, hall p hp]
  rw [e, keys_count_has _ hok, if_pos ((has_iff _ _).mpr hm)]

/-- What accepting does to the counters of the table. -/
theorem accept_counts (env : Env) (cfg : Config) (r : Req) (s : Server) :
    (occupied (accept env cfg r s) = occupied s ∨ occupied (accept env cfg r s) = occupied s + 1)
    ∧ pendingPre (accept env cfg r s) = pendingPre s
    ∧ (accept env cfg r s).queue = s.queue := by
  unfold accept
  by_cases hh : s.active.has r.id = true
  · rw [if_pos hh]; exact ⟨Or.inl rfl, rfl, rfl⟩
  · rw [if_neg hh]
    have hn : s.active.get r.id = none := by simpa [Map.has] using hh
    generalize hg : (GState.mk r.prio false false env.now false false) = g
    have hga : g.abandoned = false := by rw [← hg]
    have hgp : g.preempt = false := by rw [← hg]
    have hset := set_absent s.active r.id g hn
    have hd : (s.active.set r.id g).del r.id = s.active := by
      rw [hset]
      have := del_absent s.active r.id hn
      simp only [Map.del, List.filter_append] at *
      rw [this]; simp
    simp only
    split
    · split
      · refine ⟨Or.inr ?_, ?_, rfl⟩
        · simp only [occupied, publish, hset, List.countP_append, List.countP_cons, List.countP_nil, hga]; simp
        · simp only [pendingPre, publish, hset, List.countP_append, List.countP_cons, List.countP_nil, hgp]; simp
      · refine ⟨Or.inl ?_, ?_, rfl⟩
        · simp only [occupied, publish, hd]
        · simp only [pendingPre, publish, hd]
    · refine ⟨Or.inr ?_, ?_, rfl⟩
      · simp only [occupied, publish, hset, List.countP_append, List.countP_cons, List.countP_nil, hga]; simp
      · simp only [pendingPre, publish, hset, List.countP_append, List.countP_cons, List.countP_nil, hgp]; simp

theorem accept_ok (env : Env) (cfg : Config) (r : Req) (s : Server) (h : s.active.Ok) :
    (accept env cfg r s).active.Ok := by
  unfold accept
  simp only [publish]
  split
  · exact h
  · split
    · split
      · exact h.set _ _
      · exact (h.set _ _).del _
    · exact h.set _ _

theorem accept_calm (env : Env) (cfg : Config) (r : Req) (s : Server)
    (h : ∀ p ∈ s.active, p.2.abandoned = false) :
    ∀ p ∈ (accept env cfg r s).active, p.2.abandoned = false := by
  unfold accept
  by_cases hh : s.active.has r.id = true
  · rw [if_pos hh]; exact h
  · rw [if_neg hh]
    have hn : s.active.get r.id = none := by simpa [Map.has] using hh
    generalize hg : (GState.mk r.prio false false env.now false false) = g
    have hga : g.abandoned = false := by rw [← hg]
    have hset := set_absent s.active r.id g hn
    have h2 : ∀ p ∈ s.active.set r.id g, p.2.abandoned = false := by
      intro p hp
      rw [hset] at hp
      simp only [List.mem_append, List.mem_singleton] at hp
      rcases hp with hp | rfl
      · exact h p hp
      · exact hga
    simp only [publish]
    split
    · split
      · exact h2
      · intro p hp; exact h2 p (List.mem_of_mem_filter hp)
    · exact h2

theorem del_counts (s : Server) (id : Nat) :
    occupied { s with active := s.active.del id } ≤ occupied s := by
  exact List.Sublist.countP_le List.filter_sublist

/-- Removing a goal that was not given up frees at least what its preemption flag was worth. -/
theorem del_pre (s : Server) (id : Nat) (h : s.active.Ok)
    (hc : ∀ p ∈ s.active, p.2.abandoned = false) (m : Nat)
    (hle : occupied s ≤ m + pendingPre s) :
    occupied { s with active := s.active.del id } ≤ m + pendingPre { s with active := s.active.del id }
    ∧ pendingPre { s with active := s.active.del id } ≤ pendingPre s := by
  refine ⟨?_, List.Sublist.countP_le List.filter_sublist⟩
  cases hg : s.active.get id with
  | none => rw [del_absent _ _ hg]; exact hle
  | some g =>
    have h1 := countP_del (fun p => !p.2.abandoned) s.active id g h hg
    have h2 := countP_del (fun p => p.2.preempt) s.active id g h hg
    have hga := hc _ (Map.mem_of_get hg)
    have hga' : g.abandoned = false := hga
    simp only [hga', Bool.not_false, if_true] at h1
    unfold occupied pendingPre at *
    simp only at h2 ⊢
    have : (if g.preempt = true then 1 else 0) ≤ 1 := by split <;> omega
    omega

/-- The limit that each policy keeps, with what is needed to keep it. -/
structure Cap (cfg : Config) (s : Server) : Prop where
  ok : s.active.Ok
  calm : cfg.timeout = none → ∀ p ∈ s.active, p.2.abandoned = false
  hard : ∀ m, cfg.max = some m → (cfg.policy = .rejectNew ∨ ∃ n, cfg.policy = .queue n) → occupied s ≤ m
  soft : ∀ m, cfg.max = some m → cfg.policy = .preemptOld → cfg.timeout = none →
    occupied s ≤ m + pendingPre s ∧ pendingPre s ≤ 1
  qlen : ∀ n, cfg.policy = .queue n → s.queue.length ≤ n
  qnone : (∀ n, cfg.policy ≠ .queue n) → s.queue = []
  idle : cfg.timeout = none → s.queue = [] ∨ full cfg s = true

theorem cap_init (cfg : Config) : Cap cfg init := by
  constructor <;> simp [init, Map.Ok, Map.keys, occupied, pendingPre]

theorem full_iff (cfg : Config) (s : Server) : full cfg s = true ↔ ∃ m, cfg.max = some m ∧ m ≤ occupied s := by
  unfold full
  cases cfg.max <;> simp

/-- Same table and queue: same limits. -/
theorem cap_congr {cfg s s'} (h : Cap cfg s) (ha : s'.active = s.active) (hq : s'.queue = s.queue) :
    Cap cfg s' := by
  have e1 : occupied s' = occupied s := by unfold occupied; rw [ha]
  have e2 : pendingPre s' = pendingPre s := by unfold pendingPre; rw [ha]
  have e3 : full cfg s' = full cfg s := by unfold full; rw [e1]
  refine ⟨ha ▸ h.ok, ?_, ?_, ?_, ?_, ?_, ?_⟩
  · rw [ha]; exact h.calm
  · rw [e1]; exact h.hard
  · rw [e1, e2]; exact h.soft
  · rw [hq]; exact h.qlen
  · rw [hq]; exact h.qnone
  · rw [hq, e3]; exact h.idle

/-- Everything but queue progress, for use inside the queue loop. -/
structure Cap0 (cfg : Config) (s : Server) : Prop where
  ok : s.active.Ok
  calm : cfg.timeout = none → ∀ p ∈ s.active, p.2.abandoned = false
  hard : ∀ m, cfg.max = some m → (cfg.policy = .rejectNew ∨ ∃ n, cfg.policy = .queue n) → occupied s ≤ m
  soft : ∀ m, cfg.max = some m → cfg.policy = .preemptOld → cfg.timeout = none →
    occupied s ≤ m + pendingPre s ∧ pendingPre s ≤ 1

theorem cap_of_queue {cfg} (env : Env) (q : List Req) (s : Server) (h : Cap0 cfg s)
    (hl : ∀ n, cfg.policy = .queue n → q.length ≤ n) (hn : (∀ n, cfg.policy ≠ .queue n) → q = []) :
    Cap cfg (processQueueFrom env cfg q s) := by
  induction q generalizing s with
  | nil =>
    refine ⟨h.ok, h.calm, h.hard, h.soft, ?_, fun _ => rfl, fun _ => Or.inl rfl⟩
    intro n _; exact Nat.zero_le _
  | cons r q ih =>
    unfold processQueueFrom
    by_cases hf : full cfg s = true
    · rw [if_pos hf]
      exact ⟨h.ok, h.calm, h.hard, h.soft, hl, hn, fun _ => Or.inr hf⟩
    · rw [if_neg hf]
      have hc := accept_counts env cfg r s
      apply ih
      · refine ⟨accept_ok env cfg r s h.ok, fun ht => accept_calm env cfg r s (h.calm ht), ?_, ?_⟩
        · intro m hm hp
          have := h.hard m hm hp
          rcases hc.1 with e | e
          · omega
          · have h2 : ¬ m ≤ occupied s := fun h2 => hf ((full_iff cfg s).mpr ⟨m, hm, h2⟩)
            omega
        · intro m hm hp ht
          have := h.soft m hm hp ht
          have h2 : ¬ m ≤ occupied s := fun h2 => hf ((full_iff cfg s).mpr ⟨m, hm, h2⟩)
          rw [hc.2.1]
          rcases hc.1 with e | e <;> omega
      · intro n hp; have := hl n hp; simp at this; omega
      · intro hp; have := hn hp; cases this

theorem cap_drainOne {cfg} (env : Env) (e : Ev) (s : Server) (h : Cap cfg s) :
    Cap cfg (drainOne env cfg s e) := by
  have key : ∀ (id : Nat) (s' : Server), s'.active = s.active.del id → s'.queue = s.queue →
      Cap cfg (processQueue env cfg s') := by
    intro id s' ha hq
    have e1 : occupied s' = occupied { s with active := s.active.del id } := by
      unfold occupied; rw [ha]
    have e2 : pendingPre s' = pendingPre { s with active := s.active.del id } := by
      unfold pendingPre; rw [ha]
    unfold processQueue
    apply cap_of_queue
    · refine ⟨by rw [ha]; exact h.ok.del id, ?_, ?_, ?_⟩
      · intro ht p hp; rw [ha] at hp; exact h.calm ht p (List.mem_of_mem_filter hp)
      · intro m hm hp
        have := h.hard m hm hp
        have := del_counts s id
        rw [e1]; omega
      · intro m hm hp ht
        have h1 := h.soft m hm hp ht
        have h2 := del_pre s id h.ok (h.calm ht) m h1.1
        rw [e1, e2]
        exact ⟨h2.1, by omega⟩
    · rw [hq]; exact h.qlen
    · rw [hq]; exact h.qnone
  cases e with
  | feedback id v => exact cap_congr h rfl rfl
  | completed id o => exact key id _ rfl rfl
  | panicked id => exact key id _ rfl rfl

theorem cap_drain {cfg s} (env : Env) (h : Cap cfg s) : Cap cfg (drain env cfg s) := by
  unfold drain
  have : ∀ (l : List Ev) (s : Server), Cap cfg s → Cap cfg (l.foldl (drainOne env cfg) s) := by
    intro l
    induction l with
    | nil => intro s h; exact h
    | cons e l ih => intro s h; exact ih _ (cap_drainOne env e s h)
  exact this _ _ (cap_congr h rfl rfl)

theorem minBy_mem {α : Type} (f : α → Nat) (l : List α) (a : α) (h : minBy f l = some a) :
    a ∈ l ∧ ∀ b ∈ l, f a ≤ f b := by
  induction l generalizing a with
  | nil => cases h
  | cons x l ih =>
    unfold minBy at h
    cases hm : minBy f l with
    | none =>
      rw [hm] at h
      cases h
      have : l = [] := by
        cases l with
        | nil => rfl
        | cons y l =>
          unfold minBy at hm
          split at hm
          · cases hm
          · split at hm <;> cases hm
      subst this; simp
    | some b =>
      rw [hm] at h
      obtain ⟨h1, h2⟩ := ih b hm
      simp only at h
      split at h
      · rename_i hle
        cases h
        refine ⟨List.mem_cons_self, ?_⟩
        intro c hc
        rcases List.mem_cons.mp hc with rfl | hc
        · exact Nat.le_refl _
        · have := h2 c hc; omega
      · rename_i hle
        cases h
        refine ⟨List.mem_cons_of_mem _ h1, ?_⟩
        intro c hc
        rcases List.mem_cons.mp hc with rfl | hc
        · omega
        · exact h2 c hc

theorem maxBy_mem {α : Type} (f : α → Nat) (l : List α) (a : α) (h : maxBy f l = some a) :
    a ∈ l ∧ ∀ b ∈ l, f b ≤ f a := by
  induction l generalizing a with
  | nil => cases h
  | cons x l ih =>
    unfold maxBy at h
    cases hm : maxBy f l with
    | none =>
      rw [hm] at h
      cases h
      have : l = [] := by
        cases l with
        | nil => rfl
        | cons y l =>
          unfold maxBy at hm
          split at hm
          · cases hm
          · split at hm <;> cases hm
      subst this; simp
    | some b =>
      rw [hm] at h
      obtain ⟨h1, h2⟩ := ih b hm
      simp only at h
      split at h
      · rename_i hle
        cases h
        refine ⟨List.mem_cons_of_mem _ h1, ?_⟩
        intro c hc
        rcases List.mem_cons.mp hc with rfl | hc
        · omega
        · exact h2 c hc
      · rename_i hle
        cases h
        refine ⟨List.mem_cons_self, ?_⟩
        intro c hc
        rcases List.mem_cons.mp hc with rfl | hc
        · exact Nat.le_refl _
        · have := h2 c hc; omega

theorem oldest_mem {s : Server} {v : Nat} (h : oldest s = some v) :
    ∃ g, (v, g) ∈ s.active ∧ ∀ p ∈ s.active, g.started ≤ p.2.started := by
  unfold oldest at h
  simp only [Option.map_eq_some_iff] at h
  obtain ⟨⟨a, g⟩, hm, rfl⟩ := h
  exact ⟨g, (minBy_mem _ _ _ hm).1, (minBy_mem _ _ _ hm).2⟩

theorem lowest_mem {s : Server} {v p : Nat} (h : lowest s = some (v, p)) :
    ∃ g, (v, g) ∈ s.active ∧ g.prio = p ∧ ∀ q ∈ s.active, q.2.prio ≤ p := by
  unfold lowest at h
  simp only [Option.map_eq_some_iff] at h
  obtain ⟨⟨a, g⟩, hm, he⟩ := h
  cases he
  exact ⟨g, (maxBy_mem _ _ _ hm).1, rfl, (maxBy_mem _ _ _ hm).2⟩

theorem modify_calm (m : Map Nat GState) (id : Nat) (f : GState → GState)
    (hf : ∀ g, (f g).abandoned = g.abandoned) (h : ∀ p ∈ m, p.2.abandoned = false) :
    ∀ p ∈ modify m id f, p.2.abandoned = false := by
  intro p hp
  simp only [modify, List.mem_map] at hp
  obtain ⟨q, hq, rfl⟩ := hp
  have := h q hq
  by_cases e : q.1 = id
  · simp only [e, if_true, hf]; exact this
  · simp only [e, if_false]; exact this

theorem cap_handleGoal {cfg} (env : Env) (r : Req) (s : Server) (h : Cap cfg s) :
    Cap cfg (handleGoal env cfg r s) := by
  unfold handleGoal
  simp only
  generalize hs1 : ({ s with received := s.received + 1, got := s.got ++ [r.id] } : Server) = s1
  have h1 : Cap cfg s1 := by rw [← hs1]; exact cap_congr h rfl rfl
  clear hs1 h
  split
  · unfold admit
    by_cases hf : full cfg s1 = false
    · rw [if_pos hf]
      simp only
      have hc := accept_counts env cfg r s1
      have hnf : ∀ m, cfg.max = some m → occupied s1 < m := by
        intro m hm
        have : ¬ m ≤ occupied s1 := fun h2 => by
          have := (full_iff cfg s1).mpr ⟨m, hm, h2⟩
          rw [this] at hf; cases hf
        omega
      refine ⟨accept_ok env cfg r s1 h1.ok, fun ht => accept_calm env cfg r s1 (h1.calm ht), ?_, ?_, ?_, ?_, ?_⟩
      · intro m hm hp
        have := hnf m hm
        rcases hc.1 with e | e <;> omega
      · intro m hm hp ht
        have := hnf m hm
        have h2 := h1.soft m hm hp ht
        rw [hc.2.1]
        rcases hc.1 with e | e <;> omega
      · rw [hc.2.2]; exact h1.qlen
      · rw [hc.2.2]; exact h1.qnone
      · intro ht
        rw [hc.2.2]
        rcases h1.idle ht with e | e
        · exact Or.inl e
        · rw [hf] at e; cases e
    · rw [if_neg hf]
      have hft : full cfg s1 = true := by simpa using hf
      cases hp : cfg.policy with
      | rejectNew => exact cap_congr h1 rfl rfl
      | preemptOld =>
        simp only
        have hq : s1.queue = [] := h1.qnone (by simp [hp])
        by_cases hpp : 0 < pendingPre s1
        · rw [if_pos hpp]; exact cap_congr h1 rfl rfl
        · rw [if_neg hpp]
          cases ho : oldest s1 with
          | none => exact cap_congr h1 rfl rfl
          | some v =>
            simp only
            obtain ⟨g, hg, _⟩ := oldest_mem ho
            have hvk : v ∈ s1.active.keys := List.mem_map.mpr ⟨_, hg, rfl⟩
            have hc := accept_counts env cfg r (preempt v s1)
            have e1 := occupied_preempt s1 v
            have e2 := pendingPre_preempt s1 v h1.ok hvk (by omega)
            have hok : (preempt v s1).active.Ok := by
              unfold Map.Ok preempt; rw [keys_modify]; exact h1.ok
            refine ⟨accept_ok env cfg r _ hok, ?_, ?_, ?_, ?_, ?_, ?_⟩
            · intro ht
              exact accept_calm env cfg r _ (modify_calm s1.active v (fun g => { g with preempt := true }) (fun _ => rfl) (h1.calm ht))
            · intro m hm hx; simp [hp] at hx
            · intro m hm hx ht
              have := h1.soft m hm hp ht
              rw [hc.2.1]
              rcases hc.1 with e | e <;> omega
            · intro n hx; simp [hp] at hx
            · intro _; rw [hc.2.2]; exact hq
            · intro _; left; rw [hc.2.2]; exact hq
      | priority =>
        simp only
        have hq : s1.queue = [] := h1.qnone (by simp [hp])
        cases ho : lowest s1 with
        | none => exact cap_congr h1 rfl rfl
        | some vp =>
          obtain ⟨v, p⟩ := vp
          simp only
          by_cases hlt : r.prio < p
          · rw [if_pos hlt]
            simp only
            have hc := accept_counts env cfg r (preempt v s1)
            have hok : (preempt v s1).active.Ok := by
              unfold Map.Ok preempt; rw [keys_modify]; exact h1.ok
            refine ⟨accept_ok env cfg r _ hok, ?_, ?_, ?_, ?_, ?_, ?_⟩
            · intro ht
              exact accept_calm env cfg r _ (modify_calm s1.active v (fun g => { g with preempt := true }) (fun _ => rfl) (h1.calm ht))
            · intro m hm hx; simp [hp] at hx
            · intro m hm hx; simp [hp] at hx
            · intro n hx; simp [hp] at hx
            · intro _; rw [hc.2.2]; exact hq
            · intro _; left; rw [hc.2.2]; exact hq
          · rw [if_neg hlt]; exact cap_congr h1 rfl rfl
      | queue n =>
        simp only
        by_cases hl : s1.queue.length < n
        · rw [if_pos hl]
          refine ⟨h1.ok, h1.calm, h1.hard, h1.soft, ?_, ?_, ?_⟩
          · intro n' hx
            rw [hp] at hx
            cases hx
            simp; omega
          · intro hx; exact absurd hp (hx n)
          · intro _; exact Or.inr hft
        · rw [if_neg hl]; exact cap_congr h1 rfl rfl
  · exact cap_congr h1 rfl rfl

theorem dequeue_length (id : Nat) (q : List Req) : (dequeue id q).length ≤ q.length := by
  induction q with
  | nil => exact Nat.le_refl _
  | cons r q ih => unfold dequeue; split <;> simp only [List.length_cons] <;> omega

theorem cap_cancelOne {cfg s} (ok : Nat → Bool) (id : Nat) (h : Cap cfg s) :
    Cap cfg (cancelOne ok id s) := by
  unfold cancelOne
  split
  · rename_i hq
    split
    · have hl := dequeue_length id s.queue
      refine ⟨h.ok, h.calm, h.hard, h.soft, ?_, ?_, ?_⟩
      · intro n hp; have := h.qlen n hp; simp only [publish]; omega
      · intro hp
        have := h.qnone hp
        simp [this] at hq
      · intro ht
        rcases h.idle ht with e | e
        · simp [e] at hq
        · exact Or.inr e
    · exact h
  · split
    · split
      · have e1 := occupied_modify s id (fun g => { g with cancel := true }) fun _ => rfl
        have e2 := pendingPre_modify s id (fun g => { g with cancel := true }) fun _ => rfl
        have e3 : full cfg { s with active := modify s.active id fun g => { g with cancel := true } } = full cfg s := by
          unfold full; rw [e1]
        refine ⟨?_, ?_, ?_, ?_, h.qlen, h.qnone, ?_⟩
        · unfold Map.Ok; simp only [keys_modify]; exact h.ok
        · intro ht; exact modify_calm s.active id (fun g => { g with cancel := true }) (fun _ => rfl) (h.calm ht)
        · rw [e1]; exact h.hard
        · rw [e1, e2]; exact h.soft
        · rw [e3]; exact h.idle
      · exact h
    · exact h

theorem cap_timeouts {cfg s} (now : Nat) (h : Cap cfg s) : Cap cfg (checkTimeouts cfg now s) := by
  unfold checkTimeouts
  cases ht : cfg.timeout with
  | none => exact h
  | some t =>
    simp only
    refine ⟨h.ok.mapVal _, ?_, ?_, ?_, h.qlen, h.qnone, ?_⟩
    · intro hc; rw [ht] at hc; cases hc
    · intro m hm hp
      have := h.hard m hm hp
      refine Nat.le_trans ?_ this
      unfold occupied
      rw [List.countP_map]
      apply List.countP_mono_left
      intro p _ hx
      simp only [Function.comp, Bool.not_eq_true'] at *
      by_cases ha : p.2.abandoned = true
      · unfold timeoutOne at hx; rw [if_pos ha, ha] at hx; cases hx
      · simpa using ha
    · intro m hm hp hc; rw [ht] at hc; cases hc
    · intro hc; rw [ht] at hc; cases hc

theorem cap_step {cfg a s s'} (h : Cap cfg s) (hs : step cfg a s = some s') : Cap cfg s' := by
  cases a with
  | tick i =>
    exact tick_ind (Cap cfg) hs (cap_drain i.env h) (fun r s hs => cap_handleGoal i.env r s hs)
      (fun id s hs => cap_cancelOne _ id hs) (fun s hs => cap_timeouts _ hs)
  | feedback id v =>
    simp only [step] at hs; cases hs
    split
    · exact cap_congr h rfl rfl
    · exact h
  | finish id o =>
    simp only [step] at hs; cases hs
    split
    · exact cap_congr h rfl rfl
    · exact h
  | panic id =>
    simp only [step] at hs; cases hs
    split
    · exact cap_congr h rfl rfl
    · exact h
  | rehash m =>
    simp only [step] at hs; cases hs
    split
    · rename_i hp
      have e1 : occupied { s with active := m } = occupied s := hp.countP_eq _
      have e2 : pendingPre { s with active := m } = pendingPre s := hp.countP_eq _
      have e3 : full cfg { s with active := m } = full cfg s := by unfold full; rw [e1]
      have hk : (Map.keys m).Perm s.active.keys := hp.map _
      refine ⟨hk.nodup_iff.mpr h.ok, fun ht p hpm => h.calm ht p (hp.mem_iff.mp hpm), ?_, ?_, h.qlen, h.qnone, ?_⟩
      · rw [e1]; exact h.hard
      · rw [e1, e2]; exact h.soft
      · rw [e3]; exact h.idle
    · exact h

theorem reach_cap {cfg s} (h : Reach cfg s) : Cap cfg s := by
  obtain ⟨as, ha⟩ := h
  have : ∀ (as : List Act) (s s' : Server), Cap cfg s → run cfg as s = some s' → Cap cfg s' := by
    intro as
    induction as with
    | nil => intro s s' h hr; cases hr; exact h
    | cons a as ih =>
      intro s s' h hr
      simp only [run] at hr
      cases hs : step cfg a s with
      | none => simp [hs] at hr
      | some s1 =>
        simp only [hs, Option.bind_some] at hr
        exact ih s1 s' (cap_step h hs) hr
  exact this as init s (cap_init cfg) ha

end Horus.Actions
