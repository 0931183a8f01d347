import Mathlib.Data.List.Nodup
import Verif.Actions.Model
/-
Bookkeeping invariant of the action server: threads, handles, requests and metrics.
-/
namespace Horus.Actions
open Horus

/-! ### Map lemmas -/

theorem set_absent (m : Map Nat GState) (k : Nat) (v : GState) (h : m.get k = none) :
    m.set k v = m ++ [(k, v)] := by
  induction m with
  | nil => rfl
  | cons p m ih =>
    obtain ⟨a, b⟩ := p
    rw [Map.get_cons] at h
    by_cases e : a = k
    · simp [e] at h
    · rw [if_neg e] at h
      simp [Map.set, e, ih h]

theorem del_absent (m : Map Nat GState) (k : Nat) (h : m.get k = none) : m.del k = m := by
  unfold Map.del
  rw [List.filter_eq_self]
  rintro ⟨a, b⟩ hp
  have : ¬ k ∈ m.keys := by rw [Map.mem_keys_iff, h]; simp
  have h2 : a ∈ m.keys := List.mem_map.mpr ⟨(a, b), hp, rfl⟩
  simp only [ne_eq, decide_not, Bool.not_eq_true', decide_eq_false_iff_not]
  intro e; subst e; exact this h2

theorem countP_del (q : Nat × GState → Bool) (m : Map Nat GState) (k : Nat) (v : GState)
    (hm : m.Ok) (h : m.get k = some v) :
    m.countP q = (m.del k).countP q + if q (k, v) then 1 else 0 := by
  induction m with
  | nil => simp at h
  | cons p m ih =>
    obtain ⟨a, b⟩ := p
    have hm' : Map.Ok m := by
      unfold Map.Ok Map.keys at *
      exact (List.nodup_cons.mp hm).2
    have hna : a ∉ Map.keys m := by
      unfold Map.Ok Map.keys at *
      exact (List.nodup_cons.mp hm).1
    rw [Map.get_cons] at h
    by_cases e : a = k
    · subst e
      rw [if_pos rfl] at h
      cases h
      have hn : Map.get m a = none := by
        rw [Map.mem_keys_iff] at hna
        simpa using hna
      have := del_absent m a hn
      have e2 : Map.del ((a, v) :: m) a = m := by
        have h3 : Map.del ((a, v) :: m) a = Map.del m a := by simp [Map.del]
        rw [h3, this]
      rw [e2, List.countP_cons]
    · rw [if_neg e] at h
      have h3 : Map.del ((a, b) :: m) k = (a, b) :: Map.del m k := by simp [Map.del, e]
      rw [h3, List.countP_cons, List.countP_cons, ih hm' h]
      omega

theorem length_eq_countP {α : Type} (l : List α) : l.length = l.countP (fun _ => true) := by
  simp

theorem keys_count (m : Map Nat GState) (id : Nat) :
    m.keys.count id = m.countP fun p => decide (p.1 = id) := by
  unfold Map.keys
  rw [List.count, List.countP_map]
  congr 1

theorem has_iff (m : Map Nat GState) (id : Nat) : m.has id = true ↔ id ∈ m.keys := by
  unfold Map.has; rw [Map.mem_keys_iff]

theorem keys_count_has (m : Map Nat GState) (hm : m.Ok) (id : Nat) :
    m.keys.count id = if m.has id then 1 else 0 := by
  by_cases h : m.has id = true
  · rw [if_pos h]
    have h1 := List.nodup_iff_count_le_one.mp hm id
    have h2 := List.count_pos_iff.mpr ((has_iff m id).mp h)
    omega
  · rw [if_neg h]
    exact List.count_eq_zero_of_not_mem fun h2 => h ((has_iff m id).mpr h2)

theorem keys_modify (m : Map Nat GState) (id : Nat) (f : GState → GState) :
    (modify m id f).keys = m.keys := by
  simp [modify, Map.keys, Function.comp]

theorem countP_modify (m : Map Nat GState) (id : Nat) (f : GState → GState)
    (q : Nat × GState → Bool) (hq : ∀ p ∈ m, q (p.1, f p.2) = q p) :
    (modify m id f).countP q = m.countP q := by
  unfold modify
  rw [List.countP_map]
  apply List.countP_congr
  intro p hp
  simp only [Function.comp]
  by_cases e : p.1 = id
  · simp [e]; rw [← e, hq p hp]
  · simp [e]

/-- The goal ids of the final events in an inbox. -/
def ends : List Ev → List Nat
  | [] => []
  | .feedback _ _ :: l => ends l
  | .completed id _ :: l => id :: ends l
  | .panicked id :: l => id :: ends l

theorem ends_append (a b : List Ev) : ends (a ++ b) = ends a ++ ends b := by
  induction a with
  | nil => rfl
  | cons e a ih => cases e <;> simp [ends, ih]

/-- Final results counted by the metrics. -/
def finals (s : Server) : Nat := s.succeeded + s.aborted + s.canceled + s.preempted

/-- Bookkeeping invariant; `pend` are the goals whose final event has not been dispatched. -/
structure Inv (cfg : Config) (pend : List Nat) (s : Server) : Prop where
  ok : s.active.Ok
  thr : ∀ id, s.running.count id + pend.count id = if cfg.hasExec then s.active.keys.count id else 0
  hand : ∀ id, s.running.count id + pend.count id = s.threads.count id
  acct : ∀ id, submitted s id + s.late.count id = terminals s id + live s id + waiting s id
  met : s.accepted + s.qcan = finals s + s.active.length
  recv : s.received = s.got.length
  noTimeout : cfg.timeout = none → s.late = [] ∧ ∀ p ∈ s.active, p.2.abandoned = false

theorem inv_init (cfg : Config) : Inv cfg [] init := by
  constructor <;> simp [init, Map.Ok, Map.keys, submitted, terminals, live, waiting, finals]

theorem terminals_publish (id i : Nat) (st : Status) (s : Server) :
    terminals (publish id st s) i = terminals s i + if id = i ∧ st.terminal then 1 else 0 := by
  simp only [terminals, publish, List.countP_append, List.countP_cons, List.countP_nil]
  by_cases h : id = i <;> cases st <;> simp [h, Status.terminal]

theorem live_set (s : Server) (m : Map Nat GState) : live { s with active := m } = fun id =>
    m.countP fun p => decide (p.1 = id) && !p.2.abandoned := rfl

/-- Preempting keeps the books. -/
theorem inv_preempt {cfg pend s} (h : Inv cfg pend s) (id : Nat) : Inv cfg pend (preempt id s) := by
  have hk := keys_modify s.active id fun g => { g with preempt := true }
  refine ⟨?_, ?_, h.hand, ?_, ?_, h.recv, ?_⟩
  · unfold Map.Ok preempt; rw [hk]; exact h.ok
  · intro i; have := h.thr i; unfold preempt; rw [hk]; exact this
  · intro i
    have := h.acct i
    have e : live (preempt id s) i = live s i :=
      countP_modify s.active id (fun g => { g with preempt := true }) (fun p => decide (p.1 = i) && !p.2.abandoned) fun p _ => rfl
    rw [e]; exact this
  · have := h.met
    have e : (preempt id s).active.length = s.active.length := by simp [preempt, modify]
    rw [e]; exact this
  · intro ht
    refine ⟨(h.noTimeout ht).1, ?_⟩
    intro p hp
    simp only [preempt, modify, List.mem_map] at hp
    obtain ⟨q, hq, rfl⟩ := hp
    have := (h.noTimeout ht).2 q hq
    by_cases e : q.1 = id <;> simp [e, this]

/-- Accepting a request that has been taken into the books (`extra` is its id). -/
theorem inv_accept {cfg pend s} (env : Env) (r : Req)
    (ok : s.active.Ok)
    (thr : ∀ id, s.running.count id + pend.count id = if cfg.hasExec then s.active.keys.count id else 0)
    (hand : ∀ id, s.running.count id + pend.count id = s.threads.count id)
    (acct : ∀ id, submitted s id + s.late.count id
      = terminals s id + live s id + waiting s id + if r.id = id then 1 else 0)
    (met : s.accepted + s.qcan = finals s + s.active.length)
    (rec : s.received = s.got.length)
    (noTimeout : cfg.timeout = none → s.late = [] ∧ ∀ p ∈ s.active, p.2.abandoned = false) :
    Inv cfg pend (accept env cfg r s) := by
  unfold accept
  by_cases hh : s.active.has r.id = true
  · rw [if_pos hh]
    refine ⟨ok, thr, hand, ?_, met, rec, noTimeout⟩
    intro id
    have := acct id
    rw [terminals_publish]
    simp only [Status.terminal, and_true]
    change submitted s id + s.late.count id = _ + _ + live s id + waiting s id
    omega
  · rw [if_neg hh]
    have hn : s.active.get r.id = none := by simpa [Map.has] using hh
    have hk0 : s.active.keys.count r.id = 0 := by
      rw [keys_count_has _ ok]; simp [hh]
    have ht0 : cfg.hasExec = true → s.threads.count r.id = 0 := by
      intro he
      have := thr r.id
      have h2 := hand r.id
      rw [if_pos he, hk0] at this
      omega
    generalize hg : (GState.mk r.prio false false env.now false false) = g
    have hga : g.abandoned = false := by rw [← hg]
    by_cases he : cfg.hasExec = true
    · simp only [he, if_true]
      by_cases hs : env.spawn r.id = true
      · simp only [hs, if_true]
        have hnt : r.id ∉ s.threads := by
          intro hc
          have := List.count_pos_iff.mpr hc
          have := ht0 he
          omega
        refine ⟨ok.set _ _, ?_, ?_, ?_, ?_, rec, ?_⟩
        · intro id
          have := thr id
          rw [if_pos he] at this
          simp only [publish, he, if_true]
          rw [set_absent _ _ _ hn]
          simp only [Map.keys, List.map_append, List.map_cons, List.map_nil, List.count_append] at *
          omega
        · intro id
          have := hand id
          change (s.running ++ [r.id]).count id + pend.count id = (if r.id ∈ s.threads then s.threads else s.threads ++ [r.id]).count id
          rw [if_neg hnt, List.count_append, List.count_append]
          omega
        · intro id
          have := acct id
          have e1 := terminals_publish r.id id .active { s with accepted := s.accepted + 1, active := s.active.set r.id g }
          simp only [Status.terminal, Bool.false_eq_true, and_false, if_false, Nat.add_zero] at e1
          have e2 : live { s with active := s.active.set r.id g } id = live s id + if r.id = id then 1 else 0 := by
            rw [live_set, set_absent _ _ _ hn]
            simp only [List.countP_append, List.countP_cons, List.countP_nil, hga]
            by_cases e : r.id = id <;> simp [e, live]
          have e3 : terminals { s with accepted := s.accepted + 1, active := s.active.set r.id g } id = terminals s id := rfl
          change submitted s id + s.late.count id = terminals (publish r.id .active { s with accepted := s.accepted + 1, active := s.active.set r.id g }) id + live { s with active := s.active.set r.id g } id + waiting s id
          omega
        · have := met
          have e : (s.active.set r.id g).length = s.active.length + 1 := by
            rw [set_absent _ _ _ hn]; simp
          change s.accepted + 1 + s.qcan = finals s + (s.active.set r.id g).length
          omega
        · intro ht
          refine ⟨(noTimeout ht).1, ?_⟩
          intro p hp
          change p ∈ s.active.set r.id g at hp
          rw [set_absent _ _ _ hn] at hp
          simp only [List.mem_append, List.mem_singleton] at hp
          rcases hp with hp | rfl
          · exact (noTimeout ht).2 p hp
          · exact hga
      · simp only [hs]
        have hd : (s.active.set r.id g).del r.id = s.active := by
          rw [set_absent _ _ _ hn]
          have := del_absent s.active r.id hn
          simp only [Map.del, List.filter_append] at *
          rw [this]; simp
        refine ⟨?_, ?_, hand, ?_, ?_, rec, ?_⟩
        · change Map.Ok ((s.active.set r.id g).del r.id); rw [hd]; exact ok
        · intro id
          change _ = if cfg.hasExec = true then Map.keys ((s.active.set r.id g).del r.id) |>.count id else 0
          rw [hd]; exact thr id
        · intro id
          have := acct id
          have e1 := terminals_publish r.id id .active { s with accepted := s.accepted + 1, active := s.active.set r.id g }
          simp only [Status.terminal, Bool.false_eq_true, and_false, if_false, Nat.add_zero] at e1
          generalize hs2 : publish r.id .active { s with accepted := s.accepted + 1, active := s.active.set r.id g } = s2 at *
          have e2 := terminals_publish r.id id .aborted { s2 with active := s2.active.del r.id, aborted := s2.aborted + 1 }
          simp only [Status.terminal, and_true] at e2
          have e3 : terminals { s2 with active := s2.active.del r.id, aborted := s2.aborted + 1 } id = terminals s2 id := rfl
          have e4 : live (publish r.id .aborted { s2 with active := s2.active.del r.id, aborted := s2.aborted + 1 }) id = live s id := by
            have : s2.active.del r.id = s.active := by rw [← hs2]; exact hd
            simp only [live, publish, this]
          have e5 : terminals { s with accepted := s.accepted + 1, active := s.active.set r.id g } id = terminals s id := rfl
          have e6 : submitted (publish r.id .aborted { s2 with active := s2.active.del r.id, aborted := s2.aborted + 1 }) id = submitted s id := by rw [← hs2]; rfl
          have e7 : (publish r.id .aborted { s2 with active := s2.active.del r.id, aborted := s2.aborted + 1 }).late = s.late := by rw [← hs2]; rfl
          have e8 : waiting (publish r.id .aborted { s2 with active := s2.active.del r.id, aborted := s2.aborted + 1 }) id = waiting s id := by rw [← hs2]; rfl
          simp only [Bool.false_eq_true, if_false]
          rw [e6, e7, e8, e4]
          omega
        · have := met
          simp only [Bool.false_eq_true, if_false]
          simp only [publish, finals, hd] at *
          omega
        · intro ht
          refine ⟨(noTimeout ht).1, ?_⟩
          simp only [Bool.false_eq_true, if_false, publish, hd]
          exact (noTimeout ht).2
    · have he' : cfg.hasExec = false := by simpa using he
      simp only [he', Bool.false_eq_true, if_false]
      refine ⟨ok.set _ _, ?_, hand, ?_, ?_, rec, ?_⟩
      · intro id
        have := thr id
        simpa [he', publish] using this
      · intro id
        have := acct id
        have e1 := terminals_publish r.id id .active { s with accepted := s.accepted + 1, active := s.active.set r.id g }
        simp only [Status.terminal, Bool.false_eq_true, and_false, if_false, Nat.add_zero] at e1
        have e2 : live { s with active := s.active.set r.id g } id = live s id + if r.id = id then 1 else 0 := by
          rw [live_set, set_absent _ _ _ hn]
          simp only [List.countP_append, List.countP_cons, List.countP_nil, hga]
          by_cases e : r.id = id <;> simp [e, live]
        have e3 : terminals { s with accepted := s.accepted + 1, active := s.active.set r.id g } id = terminals s id := rfl
        change submitted s id + s.late.count id = terminals (publish r.id .active { s with accepted := s.accepted + 1, active := s.active.set r.id g }) id + live { s with active := s.active.set r.id g } id + waiting s id
        omega
      · have := met
        have e : (s.active.set r.id g).length = s.active.length + 1 := by
          rw [set_absent _ _ _ hn]; simp
        change s.accepted + 1 + s.qcan = finals s + (s.active.set r.id g).length
        omega
      · intro ht
        refine ⟨(noTimeout ht).1, ?_⟩
        intro p hp
        change p ∈ s.active.set r.id g at hp
        rw [set_absent _ _ _ hn] at hp
        simp only [List.mem_append, List.mem_singleton] at hp
        rcases hp with hp | rfl
        · exact (noTimeout ht).2 p hp
        · exact hga

theorem accept_queue (env : Env) (cfg : Config) (r : Req) (s : Server) (q : List Req) :
    accept env cfg r { s with queue := q } = { accept env cfg r s with queue := q } := by
  unfold accept
  simp only [publish]
  split
  · rfl
  · split
    · split <;> rfl
    · rfl

theorem inv_processQueueFrom {cfg pend} (env : Env) (q : List Req) (s : Server)
    (h : Inv cfg pend { s with queue := q }) : Inv cfg pend (processQueueFrom env cfg q s) := by
  induction q generalizing s with
  | nil => exact h
  | cons r q ih =>
    unfold processQueueFrom
    by_cases hf : full cfg s = true
    · rw [if_pos hf]; exact h
    · rw [if_neg hf]
      apply ih
      rw [← accept_queue]
      refine inv_accept (s := { s with queue := q }) env r h.ok h.thr h.hand ?_ h.met h.recv h.noTimeout
      intro id
      have := h.acct id
      simp only [waiting, List.countP_cons, decide_eq_true_eq] at this
      simp only [waiting]
      change submitted s id + s.late.count id = terminals s id + live s id + (_ + _) at this
      change submitted s id + s.late.count id = terminals s id + live s id + _ + _
      omega

theorem inv_processQueue {cfg pend s} (env : Env) (h : Inv cfg pend s) :
    Inv cfg pend (processQueue env cfg s) := inv_processQueueFrom env s.queue s h

/-- The common part of the two ways a goal ends: its handle is joined, it leaves the table, one
final is counted and one terminal status published. -/
theorem inv_end {cfg pend s} {id : Nat} (h : Inv cfg (id :: pend) s) (s' : Server)
    (ha : s'.active = s.active.del id) (hq : s'.queue = s.queue)
    (ht : s'.threads = s.threads.erase id) (hr : s'.running = s.running)
    (hterm : ∀ i, terminals s' i = terminals s i + if id = i then 1 else 0)
    (hrec : s'.received = s.received) (hacc : s'.accepted = s.accepted)
    (hgot : s'.got = s.got) (hqc : s'.qcan = s.qcan)
    (hlate : s'.late = if isAbandoned s id then s.late ++ [id] else s.late)
    (hfin : finals s' = finals s + 1) : Inv cfg pend s' := by
  have h1 := h.thr id
  simp only [List.count_cons_self] at h1
  have he : cfg.hasExec = true := by
    by_cases e : cfg.hasExec = true
    · exact e
    · rw [if_neg e] at h1; omega
  have hall := h.thr
  simp only [he, if_true] at hall h1
  have hkc := keys_count_has s.active h.ok id
  have hhas : s.active.has id = true := by
    by_cases e : s.active.has id = true
    · exact e
    · rw [if_neg e] at hkc; omega
  rw [if_pos hhas] at hkc
  obtain ⟨g, hg⟩ : ∃ g, s.active.get id = some g := by
    simpa [Map.has, Option.isSome_iff_exists] using hhas
  have hdel := fun q => countP_del q s.active id g h.ok hg
  refine ⟨?_, ?_, ?_, ?_, ?_, ?_, ?_⟩
  · rw [ha]; exact h.ok.del id
  · intro i
    rw [if_pos he, hr, ha, keys_count]
    have h2 := hdel fun p => decide (p.1 = i)
    have h3 := hall i
    rw [keys_count, List.count_cons] at h3
    simp only [decide_eq_true_eq, beq_iff_eq] at h2 h3
    omega
  · intro i
    have h3 := h.hand i
    rw [hr, ht]
    rw [List.count_cons] at h3
    by_cases e : i = id
    · subst e
      rw [List.count_erase_self]
      simp at h3
      omega
    · rw [List.count_erase_of_ne e]
      have : (id == i) = false := by simpa using fun x : id = i => e x.symm
      simp only [this, Bool.false_eq_true, if_false] at h3
      exact h3
  · intro i
    have h3 := h.acct i
    have h2 := hdel fun p => decide (p.1 = i) && !p.2.abandoned
    have e1 : live s' i = List.countP (fun p => decide (p.1 = i) && !p.2.abandoned) (s.active.del id) := by
      unfold live; rw [ha]
    have e2 : live s i = List.countP (fun p => decide (p.1 = i) && !p.2.abandoned) s.active := rfl
    have e3 : submitted s' i = submitted s i := by unfold submitted; rw [hgot]
    have e4 : waiting s' i = waiting s i := by unfold waiting; rw [hq]
    have e5 := hterm i
    have hia : isAbandoned s id = g.abandoned := by unfold isAbandoned; rw [hg]
    rw [e3, e4, e5, e1, hlate, hia]
    rw [e2, h2] at h3
    by_cases ea : g.abandoned = true
    · by_cases ei : id = i
      · subst ei; simp [ea] at h3 ⊢; omega
      · simp [ea, ei] at h3 ⊢; omega
    · have ea' : g.abandoned = false := by simpa using ea
      by_cases ei : id = i
      · simp [ea', ei] at h3 ⊢; omega
      · simp [ea', ei] at h3 ⊢; omega
  · have h3 := h.met
    have h2 := hdel fun _ => true
    simp only [← length_eq_countP, if_true] at h2
    rw [ha, hfin, hacc, hqc]
    omega
  · rw [hrec, hgot]; exact h.recv
  · intro hto
    obtain ⟨n1, n2⟩ := h.noTimeout hto
    have hia : isAbandoned s id = false := by
      unfold isAbandoned; rw [hg]; exact n2 _ (Map.mem_of_get hg)
    refine ⟨by rw [hlate, hia]; simpa using n1, ?_⟩
    intro p hp
    rw [ha] at hp
    exact n2 p (List.mem_of_mem_filter hp)

theorem inv_drainOne {cfg} (env : Env) (e : Ev) (l : List Ev) (s : Server)
    (h : Inv cfg (ends (e :: l)) s) : Inv cfg (ends l) (drainOne env cfg s e) := by
  cases e with
  | feedback id v =>
    refine ⟨h.ok, h.thr, h.hand, ?_, h.met, h.recv, h.noTimeout⟩
    intro i
    have := h.acct i
    have e1 : terminals (drainOne env cfg s (.feedback id v)) i = terminals s i := by
      simp [terminals, drainOne]
    rw [e1]; exact this
  | completed id o =>
    apply inv_processQueue
    refine inv_end (id := id) (s := s) h _ rfl rfl rfl rfl ?_ rfl rfl rfl rfl rfl ?_
    · intro i
      rw [terminals_publish]
      have : o.status.terminal = true := by cases o <;> rfl
      simp only [this, and_true]
      congr 1
      simp [terminals]
    · cases o <;> simp [finals, publish] <;> omega
  | panicked id =>
    apply inv_processQueue
    refine inv_end (id := id) (s := s) h _ rfl rfl rfl rfl ?_ rfl rfl rfl rfl rfl ?_
    · intro i
      rw [terminals_publish]
      simp only [Status.terminal, and_true]
      rfl
    · simp [finals, publish]; omega

theorem inv_drainAll {cfg} (env : Env) (l : List Ev) (s : Server)
    (h : Inv cfg (ends l) s) : Inv cfg [] (l.foldl (drainOne env cfg) s) := by
  induction l generalizing s with
  | nil => exact h
  | cons e l ih => exact ih _ (inv_drainOne env e l s h)

theorem accept_events (env : Env) (cfg : Config) (r : Req) (s : Server) :
    (accept env cfg r s).events = s.events := by
  unfold accept
  simp only [publish]
  split
  · rfl
  · split
    · split <;> rfl
    · rfl

theorem processQueueFrom_events (env : Env) (cfg : Config) (q : List Req) (s : Server) :
    (processQueueFrom env cfg q s).events = s.events := by
  induction q generalizing s with
  | nil => rfl
  | cons r q ih =>
    unfold processQueueFrom
    split
    · rfl
    · rw [ih, accept_events]

theorem drainOne_events (env : Env) (cfg : Config) (s : Server) (e : Ev) :
    (drainOne env cfg s e).events = s.events := by
  cases e with
  | feedback id v => rfl
  | completed id o => exact processQueueFrom_events _ _ _ _
  | panicked id => exact processQueueFrom_events _ _ _ _

theorem drain_events (env : Env) (cfg : Config) (s : Server) : (drain env cfg s).events = [] := by
  unfold drain
  have : ∀ (l : List Ev) (s : Server), (l.foldl (drainOne env cfg) s).events = s.events := by
    intro l
    induction l with
    | nil => intro s; rfl
    | cons e l ih => intro s; rw [List.foldl_cons, ih, drainOne_events]
  rw [this]

/-- The invariant between ticks. -/
def Good (cfg : Config) (s : Server) : Prop := Inv cfg (ends s.events) s

theorem inv_drain {cfg s} (env : Env) (h : Good cfg s) : Inv cfg [] (drain env cfg s) :=
  inv_drainAll env s.events _ ⟨h.ok, h.thr, h.hand, h.acct, h.met, h.recv, h.noTimeout⟩

theorem inv_admit {cfg pend} (r : Req) (s : Server) (h : Inv cfg pend s)
    (hn : (admit cfg r s).1 ≠ .queued) : Inv cfg pend (admit cfg r s).2 := by
  unfold admit at *
  split at hn
  · rename_i hf; rw [if_pos hf]; exact h
  · rename_i hf
    rw [if_neg hf]
    cases hp : cfg.policy with
    | rejectNew => exact h
    | preemptOld =>
      simp only
      split
      · exact h
      · split
        · exact inv_preempt h _
        · exact h
    | priority =>
      simp only
      split
      · split
        · exact inv_preempt h _
        · exact h
      · exact h
    | queue n =>
      simp only [hp] at hn
      simp only
      split
      · rename_i hl; rw [if_pos hl] at hn; exact absurd rfl hn
      · exact h

theorem admit_keeps (cfg : Config) (r : Req) (s : Server) :
    (admit cfg r s).2.got = s.got ∧ (admit cfg r s).2.events = s.events ∧
    ((∀ n, cfg.policy ≠ .queue n) → (admit cfg r s).2.queue = s.queue) := by
  unfold admit
  split
  · simp
  · cases hp : cfg.policy with
    | rejectNew => simp
    | preemptOld =>
      simp only
      split
      · simp
      · split <;> simp [preempt]
    | priority =>
      simp only
      split
      · split <;> simp [preempt]
      · simp
    | queue n =>
      simp only
      refine ⟨by split <;> rfl, by split <;> rfl, ?_⟩
      intro hn; exact absurd rfl (hn _)

theorem admit_queued {cfg r s} (h : (admit cfg r s).1 = .queued) :
    (admit cfg r s).2 = { s with queue := s.queue ++ [r] } := by
  unfold admit at *
  split at h
  · cases h
  · rename_i hf
    rw [if_neg hf]
    cases hp : cfg.policy with
    | rejectNew => simp [hp] at h
    | preemptOld =>
      simp only [hp] at h
      split at h
      · cases h
      · split at h <;> cases h
    | priority =>
      simp only [hp] at h
      split at h
      · split at h <;> cases h
      · cases h
    | queue n =>
      simp only [hp] at h ⊢
      split at h
      · rename_i hl; rw [if_pos hl]
      · cases h

/-- One more request in the books. -/
theorem submitted_more (s : Server) (i id : Nat) :
    submitted { s with received := s.received + 1, got := s.got ++ [i] } id
      = submitted s id + if i = id then 1 else 0 := by
  simp only [submitted, List.count_append, List.count_cons, List.count_nil, beq_iff_eq]
  omega

/-- The books up to one request `rid` that has been received and not yet placed. -/
structure Owed (cfg : Config) (pend : List Nat) (rid : Nat) (s : Server) : Prop where
  ok : s.active.Ok
  thr : ∀ id, s.running.count id + pend.count id = if cfg.hasExec then s.active.keys.count id else 0
  hand : ∀ id, s.running.count id + pend.count id = s.threads.count id
  acct : ∀ id, submitted s id + s.late.count id
    = terminals s id + live s id + waiting s id + if rid = id then 1 else 0
  met : s.accepted + s.qcan = finals s + s.active.length
  recv : s.received = s.got.length
  noTimeout : cfg.timeout = none → s.late = [] ∧ ∀ p ∈ s.active, p.2.abandoned = false

theorem owed_preempt {cfg pend s rid} (h : Owed cfg pend rid s) (id : Nat) :
    Owed cfg pend rid (preempt id s) := by
  have hk := keys_modify s.active id fun g => { g with preempt := true }
  refine ⟨?_, ?_, h.hand, ?_, ?_, h.recv, ?_⟩
  · unfold Map.Ok preempt; rw [hk]; exact h.ok
  · intro i; have := h.thr i; unfold preempt; rw [hk]; exact this
  · intro i
    have := h.acct i
    have e : live (preempt id s) i = live s i :=
      countP_modify s.active id (fun g => { g with preempt := true }) (fun p => decide (p.1 = i) && !p.2.abandoned) fun p _ => rfl
    rw [e]; exact this
  · have := h.met
    have e : (preempt id s).active.length = s.active.length := by simp [preempt, modify]
    rw [e]; exact this
  · intro ht
    refine ⟨(h.noTimeout ht).1, ?_⟩
    intro p hp
    simp only [preempt, modify, List.mem_map] at hp
    obtain ⟨q, hq, rfl⟩ := hp
    have := (h.noTimeout ht).2 q hq
    by_cases e : q.1 = id <;> simp [e, this]

theorem owed_admit {cfg pend rid} (r : Req) (s : Server) (h : Owed cfg pend rid s)
    (hn : (admit cfg r s).1 ≠ .queued) : Owed cfg pend rid (admit cfg r s).2 := by
  unfold admit at *
  split at hn
  · rename_i hf; rw [if_pos hf]; exact h
  · rename_i hf
    rw [if_neg hf]
    cases hp : cfg.policy with
    | rejectNew => exact h
    | preemptOld =>
      simp only
      split
      · exact h
      · split
        · exact owed_preempt h _
        · exact h
    | priority =>
      simp only
      split
      · split
        · exact owed_preempt h _
        · exact h
      · exact h
    | queue n =>
      simp only [hp] at hn
      simp only
      split
      · rename_i hl; rw [if_pos hl] at hn; exact absurd rfl hn
      · exact h

theorem owed_reject {cfg pend rid s} (h : Owed cfg pend rid s) : Inv cfg pend (reject rid s) := by
  refine ⟨h.ok, h.thr, h.hand, ?_, h.met, h.recv, h.noTimeout⟩
  intro id
  have := h.acct id
  unfold reject
  rw [terminals_publish]
  simp only [Status.terminal, and_true]
  change submitted s id + s.late.count id = terminals s id + _ + live s id + waiting s id
  omega

theorem inv_handleGoal {cfg pend} (env : Env) (r : Req) (s : Server) (h : Inv cfg pend s) :
    Inv cfg pend (handleGoal env cfg r s) := by
  have ho : Owed cfg pend r.id { s with received := s.received + 1, got := s.got ++ [r.id] } := by
    refine ⟨h.ok, h.thr, h.hand, ?_, h.met, ?_, h.noTimeout⟩
    · intro id
      have := h.acct id
      have e := submitted_more s r.id id
      change _ + s.late.count id = terminals s id + live s id + waiting s id + _
      omega
    · have := h.recv; simp; omega
  unfold handleGoal
  simp only
  by_cases hv : r.valid = true
  · rw [if_pos hv]
    generalize hs1 : ({ s with received := s.received + 1, got := s.got ++ [r.id] } : Server) = s1 at ho
    generalize hadm : admit cfg r s1 = x
    obtain ⟨a, s2⟩ := x
    cases a with
    | accept =>
      have h2 := owed_admit r s1 ho (by rw [hadm]; simp)
      rw [hadm] at h2
      exact inv_accept env r h2.ok h2.thr h2.hand h2.acct h2.met h2.recv h2.noTimeout
    | queued =>
      have h2 := admit_queued (cfg := cfg) (r := r) (s := s1) (by rw [hadm])
      rw [hadm] at h2
      simp only at h2
      subst h2
      refine ⟨ho.ok, ho.thr, ho.hand, ?_, ho.met, ho.recv, ho.noTimeout⟩
      intro id
      have := ho.acct id
      have e : waiting { s1 with queue := s1.queue ++ [r] } id = waiting s1 id + if r.id = id then 1 else 0 := by
        simp [waiting, List.countP_append, List.countP_cons]
      change submitted s1 id + s1.late.count id = terminals s1 id + live s1 id + _
      rw [e]; omega
    | reject =>
      have h2 := owed_admit r s1 ho (by rw [hadm]; simp)
      rw [hadm] at h2
      exact owed_reject h2
  · rw [if_neg hv]; exact owed_reject ho

theorem inv_goals {cfg pend} (env : Env) (l : List Req) (s : Server) (h : Inv cfg pend s) :
    Inv cfg pend (l.foldl (fun s r => handleGoal env cfg r s) s) := by
  induction l generalizing s with
  | nil => exact h
  | cons r l ih => exact ih _ (inv_handleGoal env r s h)

theorem waiting_dequeue (id i : Nat) (q : List Req) (h : q.any (fun r => r.id = id) = true) :
    q.countP (fun r => decide (r.id = i)) = (dequeue id q).countP (fun r => decide (r.id = i)) + if id = i then 1 else 0 := by
  induction q with
  | nil => simp at h
  | cons r q ih =>
    unfold dequeue
    by_cases e : r.id = id
    · rw [if_pos e, List.countP_cons]; simp [e]
    · rw [if_neg e, List.countP_cons, List.countP_cons]
      have h2 : q.any (fun r => r.id = id) = true := by simpa [e] using h
      have := ih h2
      omega

theorem inv_cancelOne {cfg pend s} (ok : Nat → Bool) (id : Nat) (h : Inv cfg pend s) :
    Inv cfg pend (cancelOne ok id s) := by
  unfold cancelOne
  by_cases hq : s.queue.any (fun r => r.id = id) = true
  · rw [if_pos hq]
    by_cases ho : ok id = true
    · rw [if_pos ho]
      refine ⟨h.ok, h.thr, h.hand, ?_, ?_, h.recv, h.noTimeout⟩
      · intro i
        have := h.acct i
        have h2 := waiting_dequeue id i s.queue hq
        rw [terminals_publish]
        simp only [Status.terminal, and_true]
        change submitted s i + s.late.count i = terminals s i + _ + live s i + (dequeue id s.queue).countP _
        change _ = _ + _ + s.queue.countP _ at this
        omega
      · have := h.met
        simp only [finals, publish] at *
        omega
    · rw [if_neg ho]; exact h
  · rw [if_neg hq]
    split
    · split
      · have hk := keys_modify s.active id fun g => { g with cancel := true }
        refine ⟨?_, ?_, h.hand, ?_, ?_, h.recv, ?_⟩
        · unfold Map.Ok; simp only [hk]; exact h.ok
        · intro i; have := h.thr i; simp only [hk]; exact this
        · intro i
          have := h.acct i
          have e : live { s with active := modify s.active id fun g => { g with cancel := true } } i = live s i :=
            countP_modify s.active id (fun g => { g with cancel := true }) (fun p => decide (p.1 = i) && !p.2.abandoned) fun p _ => rfl
          rw [e]; exact this
        · have := h.met
          simpa [modify, finals] using this
        · intro ht
          refine ⟨(h.noTimeout ht).1, ?_⟩
          intro p hp
          simp only [modify, List.mem_map] at hp
          obtain ⟨q, hq, rfl⟩ := hp
          have := (h.noTimeout ht).2 q hq
          by_cases e : q.1 = id <;> simp [e, this]
      · exact h
    · exact h

/-- Any predicate kept by single cancels is kept by every request that returns. -/
theorem cancel_ind (P : Server → Prop) (ok : Nat → Bool)
    (hP : ∀ id s, P s → P (cancelOne ok id s)) (fuel : Nat) :
    ∀ id s s', P s → cancel ok fuel id s = some s' → P s' := by
  induction fuel with
  | zero => intro id s s' _ h; cases h
  | succ n ih =>
    intro id s s' hs h
    unfold cancel at h
    split at h
    · have : ∀ (l : List Nat) (s s' : Server), P s →
          l.foldlM (fun s' i => cancel ok n i s') s = some s' → P s' := by
        intro l
        induction l with
        | nil => intro s s' hs h; simp at h; exact h ▸ hs
        | cons a l ihl =>
          intro s s' hs h
          simp only [List.foldlM_cons] at h
          cases hc : cancel ok n a s with
          | none => simp [hc] at h
          | some s1 =>
            simp only [hc] at h
            exact ihl s1 s' (ih a s s1 hs hc) h
      exact this _ s s' hs h
    · cases h; exact hP id s hs

theorem cancels_ind (P : Server → Prop) (ok : Nat → Bool) (fuel : Nat)
    (hP : ∀ id s, P s → P (cancelOne ok id s)) (l : List Nat) (s s' : Server) (hs : P s)
    (h : l.foldlM (fun s id => cancel ok fuel id s) s = some s') : P s' := by
  induction l generalizing s with
  | nil => simp at h; exact h ▸ hs
  | cons a l ih =>
    simp only [List.foldlM_cons] at h
    cases hc : cancel ok fuel a s with
    | none => simp [hc] at h
    | some s1 =>
      simp only [hc] at h
      exact ih s1 (cancel_ind P ok hP fuel a s s1 hs hc) h

theorem terminals_append (s : Server) (l : List Nat) (i : Nat) (s' : Server)
    (h : s'.out = s.out ++ l.map fun id => Pub.status id .aborted) :
    terminals s' i = terminals s i + l.count i := by
  unfold terminals
  rw [h, List.countP_append]
  congr 1
  rw [List.countP_map, List.count]
  apply List.countP_congr
  intro x _
  simp [Function.comp, Status.terminal]

theorem live_timeouts (m : Map Nat GState) (t now i : Nat) :
    m.countP (fun p => decide (p.1 = i) && !p.2.abandoned)
      = (m.map fun p => (p.1, timeoutOne t now p.2)).countP (fun p => decide (p.1 = i) && !p.2.abandoned)
        + (((m.filter fun p => !p.2.abandoned && (timeoutOne t now p.2).abandoned).map Prod.fst).count i) := by
  induction m with
  | nil => rfl
  | cons p m ih =>
    rw [List.map_cons, List.countP_cons, List.countP_cons, List.filter_cons, ih]
    have key : ∀ g : GState, g.abandoned = true → (timeoutOne t now g).abandoned = true := by
      intro g hg; unfold timeoutOne; rw [if_pos hg]; exact hg
    by_cases ha : p.2.abandoned = true
    · have := key _ ha
      simp [ha, this]
    · have ha' : p.2.abandoned = false := by simpa using ha
      by_cases hb : (timeoutOne t now p.2).abandoned = true
      · simp only [ha', hb, Bool.not_false, Bool.and_self, if_true, List.map_cons, List.count_cons]
        by_cases e : p.1 = i <;> simp [e]
        omega
      · have hb' : (timeoutOne t now p.2).abandoned = false := by simpa using hb
        simp only [ha', hb', Bool.not_false, Bool.and_false, Bool.false_eq_true, if_false]
        omega

theorem inv_timeouts {cfg pend s} (now : Nat) (h : Inv cfg pend s) :
    Inv cfg pend (checkTimeouts cfg now s) := by
  unfold checkTimeouts
  cases ht : cfg.timeout with
  | none => exact h
  | some t =>
    simp only
    have hk : Map.keys (s.active.map fun p => (p.1, timeoutOne t now p.2)) = s.active.keys :=
      Map.keys_mapVal _ _
    refine ⟨h.ok.mapVal _, ?_, h.hand, ?_, ?_, h.recv, ?_⟩
    · intro i; have := h.thr i; simp only [hk]; exact this
    · intro i
      have := h.acct i
      have e1 := live_timeouts s.active t now i
      have e2 := terminals_append s (givenUp t now s) i
        { s with active := s.active.map fun p => (p.1, timeoutOne t now p.2), out := s.out ++ (givenUp t now s).map fun id => Pub.status id .aborted } rfl
      rw [e2]
      change submitted s i + s.late.count i = _ + List.countP _ (s.active.map fun p => (p.1, timeoutOne t now p.2)) + waiting s i
      change _ = _ + List.countP _ s.active + _ at this
      rw [e1] at this
      change _ = _ + (_ + (givenUp t now s).count i) + _ at this
      omega
    · have := h.met
      simpa [finals] using this
    · intro hc; rw [ht] at hc; cases hc

/-- A predicate kept by the parts of a tick is kept by the tick. -/
theorem tick_ind (P : Server → Prop) {cfg i s s'} (h : tick cfg i s = some s')
    (hd : P (drain i.env cfg s))
    (hg : ∀ r s, P s → P (handleGoal i.env cfg r s))
    (hc : ∀ id s, P s → P (cancelOne i.cancelOk id s))
    (ht : ∀ s, P s → P (checkTimeouts cfg i.env.now s)) : P s' := by
  unfold tick at h
  simp only [Option.map_eq_some_iff] at h
  obtain ⟨s2, h2, rfl⟩ := h
  apply ht
  refine cancels_ind P i.cancelOk depth hc i.cancels _ s2 ?_ h2
  have : ∀ (l : List Req) (s : Server), P s → P (l.foldl (fun s r => handleGoal i.env cfg r s) s) := by
    intro l
    induction l with
    | nil => intro s hs; exact hs
    | cons r l ih => intro s hs; exact ih _ (hg r s hs)
  exact this _ _ hd

theorem tick_events {cfg i s s'} (h : tick cfg i s = some s') : s'.events = [] := by
  refine tick_ind (fun s => s.events = []) h (drain_events _ _ _) ?_ ?_ ?_
  · intro r s hs
    unfold handleGoal
    simp only
    split
    · generalize hs1 : ({ s with received := s.received + 1, got := s.got ++ [r.id] } : Server) = s1
      have h1 : s1.events = [] := by rw [← hs1]; exact hs
      have h2 := (admit_keeps cfg r s1).2.1
      generalize hadm : admit cfg r s1 = x at h2
      obtain ⟨a, s2⟩ := x
      simp only [h1] at h2
      cases a with
      | accept => simp only; rw [accept_events]; exact h2
      | queued => exact h2
      | reject => exact h2
    · exact hs
  · intro id s hs
    unfold cancelOne
    split
    · split <;> exact hs
    · split
      · split <;> exact hs
      · exact hs
  · intro s hs
    unfold checkTimeouts
    split <;> exact hs

theorem good_tick {cfg i s s'} (h : Good cfg s) (ht : tick cfg i s = some s') : Good cfg s' := by
  unfold Good
  rw [tick_events ht]
  exact tick_ind (Inv cfg []) ht (inv_drain i.env h) (fun r s hs => inv_handleGoal i.env r s hs)
    (fun id s hs => inv_cancelOne _ id hs) (fun s hs => inv_timeouts _ hs)

theorem count_move (l p : List Nat) (id i : Nat) (h : id ∈ l) :
    (l.erase id).count i + (p ++ [id]).count i = l.count i + p.count i := by
  rw [List.count_append]
  by_cases e : i = id
  · subst e
    have := List.count_pos_iff.mpr h
    rw [List.count_erase_self]
    simp; omega
  · rw [List.count_erase_of_ne e]
    have : ¬ id = i := fun x => e x.symm
    simp [this]

theorem good_step {cfg a s s'} (h : Good cfg s) (hs : step cfg a s = some s') : Good cfg s' := by
  cases a with
  | tick i => exact good_tick h hs
  | feedback id v =>
    simp only [step] at hs
    cases hs
    split
    · unfold Good
      have e : ends (s.events ++ [Ev.feedback id v]) = ends s.events := by
        rw [ends_append]; simp [ends]
      simp only [e]
      exact ⟨h.ok, h.thr, h.hand, h.acct, h.met, h.recv, h.noTimeout⟩
    · exact h
  | finish id o =>
    simp only [step] at hs
    cases hs
    split
    · rename_i hm
      unfold Good
      have e : ends (s.events ++ [Ev.completed id o]) = ends s.events ++ [id] := by
        rw [ends_append]; simp [ends]
      simp only [e]
      refine ⟨h.ok, ?_, ?_, h.acct, h.met, h.recv, h.noTimeout⟩
      · intro i; simp only [count_move _ _ _ _ hm]; exact h.thr i
      · intro i; simp only [count_move _ _ _ _ hm]; exact h.hand i
    · exact h
  | panic id =>
    simp only [step] at hs
    cases hs
    split
    · rename_i hm
      unfold Good
      have e : ends (s.events ++ [Ev.panicked id]) = ends s.events ++ [id] := by
        rw [ends_append]; simp [ends]
      simp only [e]
      refine ⟨h.ok, ?_, ?_, h.acct, h.met, h.recv, h.noTimeout⟩
      · intro i; simp only [count_move _ _ _ _ hm]; exact h.thr i
      · intro i; simp only [count_move _ _ _ _ hm]; exact h.hand i
    · exact h
  | rehash m =>
    simp only [step] at hs
    cases hs
    split
    · rename_i hp
      have hk : (Map.keys m).Perm s.active.keys := hp.map _
      refine ⟨?_, ?_, h.hand, ?_, ?_, h.recv, ?_⟩
      · exact hk.nodup_iff.mpr h.ok
      · intro i; simp only [hk.count_eq]; exact h.thr i
      · intro i
        have := h.acct i
        have e : live { s with active := m } i = live s i := hp.countP_eq _
        rw [e]; exact this
      · have := h.met
        simp only [hp.length_eq]
        exact this
      · intro ht
        exact ⟨(h.noTimeout ht).1, fun p hpm => (h.noTimeout ht).2 p (hp.mem_iff.mp hpm)⟩
    · exact h

theorem good_run {cfg} (as : List Act) (s s' : Server) (h : Good cfg s)
    (hr : run cfg as s = some s') : Good cfg s' := by
  induction as generalizing s with
  | nil => cases hr; exact h
  | cons a as ih =>
    simp only [run] at hr
    cases hs : step cfg a s with
    | none => simp [hs] at hr
    | some s1 =>
      simp only [hs, Option.bind_some] at hr
      exact ih s1 (good_step h hs) hr

/-- States a server can be in. -/
def Reach (cfg : Config) (s : Server) : Prop := ∃ as, run cfg as init = some s

theorem reach_good {cfg s} (h : Reach cfg s) : Good cfg s := by
  obtain ⟨as, ha⟩ := h
  exact good_run as init s (inv_init cfg) ha

end Horus.Actions
