import Verif.Discovery.Props
import Verif.Guard.Model
import Verif.Reliability.Model
import Mathlib.Data.List.Induction
/-
Model of which local topics the replicator of horus_net/src/replicator.rs opens for export and for
import (`update_matches`, `topic_name_by_hash`, the destination list of `handle_export`), and of
the traffic between two hosts that both have a topic open in both directions.

Not modelled here: the codec and fragmentation (Verif/Replicator), flow control, the shared-memory
ring itself (Verif/ShmNet): a topic's ring is reduced to the number of messages ever written to it.
-/
namespace Horus.NetUpdate
open Horus.Wire Horus.Discovery Horus.Guard Horus.Reliability

/-- replicator.rs:66-72: the `readers`, `writers` and `matches` of the replicator; of a reader or
writer only the topic name is kept. -/
structure St where
  readers : List Bytes := []
  writers : List Bytes := []
  matched : List ReplicationMatch := []
  deriving DecidableEq

/-- replicator.rs:1026-1027: `retain(|m| seen.insert(m.topic.clone()))`. -/
def keepFirst (seen : List Bytes) : List ReplicationMatch → List ReplicationMatch
  | [] => []
  | m :: ms => if m.topic ∈ seen then keepFirst seen ms else m :: keepFirst (m.topic :: seen) ms

/-- replicator.rs:1015-1024: the matches with every alive peer, in the order `alive_peers` yields
them (a hash map's order: any). A peer is its announced topic list. -/
def allMatches (locals : List TopicEntry) (peers : List (List WireTopicEntry)) : List ReplicationMatch :=
  peers.flatMap (findMatches locals)

/-- replicator.rs:1029-1039: one match opens a reader and a writer; `opens t` says whether
`ShmRingWriter::open` succeeds on `t` now. -/
def openOne (opens : Bytes → Bool) (s : St) (m : ReplicationMatch) : St :=
  { s with
    readers := if m.export && decide (m.topic ∉ s.readers) then s.readers ++ [m.topic] else s.readers
    writers := if m.import && decide (m.topic ∉ s.writers) && opens m.topic then s.writers ++ [m.topic]
      else s.writers }

/-- replicator.rs:1014-1047 `update_matches`. -/
def update (opens : Bytes → Bool) (locals : List TopicEntry) (peers : List (List WireTopicEntry))
    (s : St) : St :=
  let ms := keepFirst [] (allMatches locals peers)
  let s1 := ms.foldl (openOne opens) s
  let names := ms.map ReplicationMatch.topic
  { readers := s1.readers.filter (fun t => decide (t ∈ names))
    writers := s1.writers.filter (fun t => decide (t ∈ names))
    matched := ms }

/-- What `update_matches` is called with (replicator.rs:343, 798). -/
structure Call where
  opens : Bytes → Bool
  locals : List TopicEntry
  peers : List (List WireTopicEntry)

/-- A history of calls. Schedules over replicator.rs:1014-1047. -/
def updates (s : St) (cs : List Call) : St := cs.foldl (fun s c => update c.opens c.locals c.peers s) s

/-- peer.rs:185-195 `subscribers_of` as used by `handle_export` (replicator.rs:620-625). -/
def destinations (peers : List (List WireTopicEntry)) (t : Bytes) : List (List WireTopicEntry) :=
  peers.filter fun p => p.any fun e => decide (e.name = t) && (e.role == 2 || e.role == 3)

/-- replicator.rs:1050-1055 `topic_name_by_hash` and 1057-1062 `find_writer_by_hash`: the first
writer, in map order, whose name has the hash. -/
def writerOf (writers : List Bytes) (hash : UInt32) : Option Bytes :=
  writers.find? fun n => fnv1a n == hash

/-! ### Specification -/

/-- The alive peer announcing `p` shares a type with the local host on `t` and one of them
publishes what the other subscribes to. -/
def Shares (locals : List TopicEntry) (p : List WireTopicEntry) (t : Bytes) : Prop :=
  ∃ l ∈ locals, ∃ r ∈ p, l.name = t ∧ r.name = t ∧ l.typeHash = r.typeHash ∧
    ((l.role ≠ .subscriber ∧ (r.role = 2 ∨ r.role = 3)) ∨ (l.role ≠ .publisher ∧ (r.role = 1 ∨ r.role = 3)))

/-- The local host publishes `t` and this peer subscribes to it with the same type. -/
def Outbound (locals : List TopicEntry) (p : List WireTopicEntry) (t : Bytes) : Prop :=
  ∃ l ∈ locals, ∃ r ∈ p, l.name = t ∧ r.name = t ∧ l.typeHash = r.typeHash ∧
    l.role ≠ .subscriber ∧ (r.role = 2 ∨ r.role = 3)

/-- The local host subscribes to `t` and this peer publishes it with the same type. -/
def Inbound (locals : List TopicEntry) (p : List WireTopicEntry) (t : Bytes) : Prop :=
  ∃ l ∈ locals, ∃ r ∈ p, l.name = t ∧ r.name = t ∧ l.typeHash = r.typeHash ∧
    l.role ≠ .publisher ∧ (r.role = 1 ∨ r.role = 3)

/-! ### Basics -/

theorem matchOne_some (l : TopicEntry) (r : WireTopicEntry) (m : ReplicationMatch) :
    matchOne l r = some m ↔ l.name = r.name ∧ l.typeHash = r.typeHash ∧ m.topic = l.name ∧
      m.typeHash = l.typeHash ∧ m.isPod = l.isPod ∧
      (m.export = true ↔ l.role ≠ .subscriber ∧ (r.role = 2 ∨ r.role = 3)) ∧
      (m.import = true ↔ l.role ≠ .publisher ∧ (r.role = 1 ∨ r.role = 3)) ∧
      (m.export = true ∨ m.import = true) := by
  have h1 : (l.role = .publisher ∨ l.role = .both) ↔ l.role ≠ .subscriber := by cases l.role <;> decide
  have h2 : (l.role = .subscriber ∨ l.role = .both) ↔ l.role ≠ .publisher := by cases l.role <;> decide
  unfold matchOne
  by_cases hn : l.name = r.name
  · by_cases ht : l.typeHash = r.typeHash
    · rw [if_neg (not_not.2 hn), if_neg (not_not.2 ht)]
      dsimp only
      simp only [h1, h2]
      by_cases ho : (decide (l.role ≠ .subscriber ∧ (r.role = 2 ∨ r.role = 3)) ||
          decide (l.role ≠ .publisher ∧ (r.role = 1 ∨ r.role = 3))) = true
      · rw [if_pos ho]
        constructor
        · intro e
          injection e with e
          subst e
          refine ⟨hn, ht, rfl, rfl, rfl, ?_, ?_, ?_⟩
          · exact decide_eq_true_iff
          · exact decide_eq_true_iff
          · simpa only [Bool.or_eq_true] using ho
        · rintro ⟨_, _, e1, e2, e3, e4, e5, _⟩
          obtain ⟨a, b, c, d, e⟩ := m
          dsimp only at e1 e2 e3 e4 e5
          subst e1; subst e2; subst e3
          congr 1
          rw [ReplicationMatch.mk.injEq]
          refine ⟨rfl, ?_, ?_, rfl, rfl⟩
          · rw [Bool.eq_iff_iff, e4, decide_eq_true_iff]
          · rw [Bool.eq_iff_iff, e5, decide_eq_true_iff]
      · rw [if_neg ho]
        constructor
        · intro e; cases e
        · rintro ⟨_, _, _, _, _, e4, e5, e6⟩
          exfalso
          apply ho
          rw [Bool.or_eq_true, decide_eq_true_iff, decide_eq_true_iff]
          exact e6.imp e4.1 e5.1
    · rw [if_neg (not_not.2 hn), if_pos ht]
      exact ⟨fun e => (by cases e), fun e => absurd e.2.1 ht⟩
  · rw [if_pos hn]
    exact ⟨fun e => (by cases e), fun e => absurd e.1 hn⟩

theorem mem_all (locals : List TopicEntry) (peers : List (List WireTopicEntry)) (m : ReplicationMatch) :
    m ∈ allMatches locals peers ↔ ∃ p ∈ peers, ∃ l ∈ locals, ∃ r ∈ p, matchOne l r = some m := by
  simp only [allMatches, findMatches, List.mem_flatMap, List.mem_filterMap]

theorem keepFirst_mem (ms : List ReplicationMatch) (seen : List Bytes) (m : ReplicationMatch) :
    m ∈ keepFirst seen ms ↔ m.topic ∉ seen ∧ ms.find? (fun x => decide (x.topic = m.topic)) = some m := by
  induction ms generalizing seen with
  | nil => simp [keepFirst]
  | cons a ms ih =>
    unfold keepFirst
    by_cases ha : a.topic ∈ seen
    · rw [if_pos ha, ih]
      by_cases e : a.topic = m.topic
      · constructor
        · intro h; exact absurd (e ▸ ha) h.1
        · intro h; exact absurd (e ▸ ha) h.1
      · rw [List.find?_cons_of_neg (by simpa using e)]
    · rw [if_neg ha, List.mem_cons, ih]
      by_cases e : a.topic = m.topic
      · rw [List.find?_cons_of_pos (by simpa using e)]
        constructor
        · rintro (rfl | h)
          · exact ⟨ha, rfl⟩
          · exact absurd (List.mem_cons.2 (Or.inl e.symm)) h.1
        · rintro ⟨_, h⟩
          exact Or.inl (Option.some.inj h).symm
      · rw [List.find?_cons_of_neg (by simpa using e)]
        constructor
        · rintro (rfl | h)
          · exact absurd rfl e
          · exact ⟨fun h' => h.1 (List.mem_cons_of_mem _ h'), h.2⟩
        · rintro ⟨h1, h2⟩
          refine Or.inr ⟨?_, h2⟩
          intro h'
          rcases List.mem_cons.1 h' with h' | h'
          · exact e h'.symm
          · exact h1 h'

theorem fold_readers (opens : Bytes → Bool) (ms : List ReplicationMatch) (s : St) (t : Bytes) :
    t ∈ (ms.foldl (openOne opens) s).readers ↔ t ∈ s.readers ∨ ∃ m ∈ ms, m.topic = t ∧ m.export = true := by
  induction ms generalizing s with
  | nil => simp
  | cons m ms ih =>
    rw [List.foldl_cons, ih]
    have hb : t ∈ (openOne opens s m).readers ↔ t ∈ s.readers ∨ (m.topic = t ∧ m.export = true) := by
      unfold openOne
      dsimp only
      by_cases he : m.export = true
      · by_cases hm : m.topic ∈ s.readers
        · simp only [he, hm, not_true, decide_false, Bool.and_false]
          constructor
          · exact Or.inl
          · rintro (h | ⟨rfl, _⟩)
            · exact h
            · exact hm
        · simp only [he, hm, not_false_eq_true, decide_true, Bool.and_true, if_true, List.mem_append,
            List.mem_singleton, and_true, eq_comm]
      · simp [he]
    rw [hb]
    simp only [List.mem_cons, exists_eq_or_imp, or_assoc]

theorem fold_writers (opens : Bytes → Bool) (ms : List ReplicationMatch) (s : St) (t : Bytes) :
    t ∈ (ms.foldl (openOne opens) s).writers ↔
      t ∈ s.writers ∨ (opens t = true ∧ ∃ m ∈ ms, m.topic = t ∧ m.import = true) := by
  induction ms generalizing s with
  | nil => simp
  | cons m ms ih =>
    rw [List.foldl_cons, ih]
    have hb : t ∈ (openOne opens s m).writers ↔
        t ∈ s.writers ∨ (opens t = true ∧ m.topic = t ∧ m.import = true) := by
      unfold openOne
      dsimp only
      by_cases he : m.import = true
      · by_cases hm : m.topic ∈ s.writers
        · simp only [he, hm, not_true, decide_false, Bool.and_false, Bool.false_and]
          constructor
          · exact Or.inl
          · rintro (h | ⟨_, rfl, _⟩)
            · exact h
            · exact hm
        · by_cases ho : opens m.topic = true
          · simp only [he, hm, ho, not_false_eq_true, decide_true, Bool.and_true, if_true, List.mem_append,
              List.mem_singleton, and_true]
            constructor
            · rintro (h | rfl)
              · exact Or.inl h
              · exact Or.inr ⟨ho, rfl⟩
            · rintro (h | ⟨_, rfl⟩)
              · exact Or.inl h
              · exact Or.inr rfl
          · simp only [ho, Bool.and_false]
            constructor
            · exact Or.inl
            · rintro (h | ⟨h, rfl, _⟩)
              · exact h
              · exact absurd h ho
      · simp [he]
    rw [hb]
    simp only [List.mem_cons, exists_eq_or_imp, or_assoc]
    tauto

theorem first_some {locals : List TopicEntry} {peers : List (List WireTopicEntry)} {t : Bytes}
    {m : ReplicationMatch}
    (h : (allMatches locals peers).find? (fun x => decide (x.topic = t)) = some m) :
    m.topic = t ∧ m ∈ allMatches locals peers :=
  ⟨by simpa using List.find?_some h, List.mem_of_find?_eq_some h⟩

/-- The first match on `t` alone decides; later ones are dropped. -/
theorem readers_iff (opens : Bytes → Bool) (locals : List TopicEntry) (peers : List (List WireTopicEntry))
    (s : St) (t : Bytes) :
    t ∈ (update opens locals peers s).readers ↔
      ∃ m, (allMatches locals peers).find? (fun x => decide (x.topic = t)) = some m ∧
        (m.export = true ∨ t ∈ s.readers) := by
  unfold update
  dsimp only
  rw [List.mem_filter, fold_readers, decide_eq_true_iff, List.mem_map]
  constructor
  · rintro ⟨h1, m, hm, rfl⟩
    have hm' := (keepFirst_mem _ _ _).1 hm
    refine ⟨m, hm'.2, ?_⟩
    rcases h1 with h | ⟨m', hm2, e, he⟩
    · exact Or.inr h
    · have h2 := (keepFirst_mem _ _ _).1 hm2
      rw [e, hm'.2] at h2
      exact Or.inl (Option.some.inj h2.2 ▸ he)
  · rintro ⟨m, hm, h⟩
    obtain ⟨e, _⟩ := first_some hm
    subst e
    have hk : m ∈ keepFirst [] (allMatches locals peers) := (keepFirst_mem _ _ _).2 ⟨List.not_mem_nil, hm⟩
    refine ⟨?_, m, hk, rfl⟩
    rcases h with h | h
    · exact Or.inr ⟨m, hk, rfl, h⟩
    · exact Or.inl h

theorem writers_iff (opens : Bytes → Bool) (locals : List TopicEntry) (peers : List (List WireTopicEntry))
    (s : St) (t : Bytes) :
    t ∈ (update opens locals peers s).writers ↔
      ∃ m, (allMatches locals peers).find? (fun x => decide (x.topic = t)) = some m ∧
        ((m.import = true ∧ opens t = true) ∨ t ∈ s.writers) := by
  unfold update
  dsimp only
  rw [List.mem_filter, fold_writers, decide_eq_true_iff, List.mem_map]
  constructor
  · rintro ⟨h1, m, hm, rfl⟩
    have hm' := (keepFirst_mem _ _ _).1 hm
    refine ⟨m, hm'.2, ?_⟩
    rcases h1 with h | ⟨ho, m', hm2, e, he⟩
    · exact Or.inr h
    · have h2 := (keepFirst_mem _ _ _).1 hm2
      rw [e, hm'.2] at h2
      exact Or.inl ⟨Option.some.inj h2.2 ▸ he, ho⟩
  · rintro ⟨m, hm, h⟩
    obtain ⟨e, _⟩ := first_some hm
    subst e
    have hk : m ∈ keepFirst [] (allMatches locals peers) := (keepFirst_mem _ _ _).2 ⟨List.not_mem_nil, hm⟩
    refine ⟨?_, m, hk, rfl⟩
    rcases h with h | h
    · exact Or.inr ⟨h.2, m, hk, rfl, h.1⟩
    · exact Or.inl h

theorem shares_iff (locals : List TopicEntry) (peers : List (List WireTopicEntry)) (t : Bytes) :
    (∃ m ∈ allMatches locals peers, m.topic = t) ↔ ∃ p ∈ peers, Shares locals p t := by
  constructor
  · rintro ⟨m, hm, rfl⟩
    obtain ⟨p, hp, l, hl, r, hr, h⟩ := (mem_all _ _ _).1 hm
    obtain ⟨a, b, c, _, _, d, e, f⟩ := (matchOne_some _ _ _).1 h
    exact ⟨p, hp, l, hl, r, hr, c.symm, (a.symm.trans c.symm), b, f.imp d.1 e.1⟩
  · rintro ⟨p, hp, l, hl, r, hr, e1, e2, e3, h⟩
    refine ⟨⟨l.name, decide (l.role ≠ .subscriber ∧ (r.role = 2 ∨ r.role = 3)),
      decide (l.role ≠ .publisher ∧ (r.role = 1 ∨ r.role = 3)), l.typeHash, l.isPod⟩, ?_, e1⟩
    refine (mem_all _ _ _).2 ⟨p, hp, l, hl, r, hr, (matchOne_some _ _ _).2
      ⟨e1.trans e2.symm, e3, rfl, rfl, rfl, decide_eq_true_iff, decide_eq_true_iff, ?_⟩⟩
    rw [decide_eq_true_iff, decide_eq_true_iff]
    exact h

theorem first_exists (locals : List TopicEntry) (peers : List (List WireTopicEntry)) (t : Bytes)
    (h : ∃ p ∈ peers, Shares locals p t) :
    ∃ m, (allMatches locals peers).find? (fun x => decide (x.topic = t)) = some m := by
  obtain ⟨m, hm, e⟩ := (shares_iff _ _ _).2 h
  cases hq : (allMatches locals peers).find? (fun x => decide (x.topic = t)) with
  | some x => exact ⟨x, rfl⟩
  | none => exact absurd e (by simpa using List.find?_eq_none.1 hq m hm)

/-- `imu`. A literal for the examples; a topic name as in registry.rs:84-98. -/
def t0 : Bytes := [105, 109, 117]
/-- An example entry; fields as in registry.rs:84-98. -/
def local0 (r : Role) : TopicEntry := ⟨t0, 7, 8, r, true⟩
/-- An example announced entry; fields as in discovery.rs:59-66. -/
def remote0 (r : Role) : WireTopicEntry := ⟨t0, 7, 8, r.toWire, 1, 2⟩

/-! ### C240: what is opened -/

/-- C240: a topic no alive peer shares with this host has neither a reader nor a writer after the
next update, whatever happened before: replication stops when the last peer leaves. -/
theorem unshared_closed (opens : Bytes → Bool) (locals : List TopicEntry) (peers : List (List WireTopicEntry))
    (s : St) (t : Bytes) (h : ∀ p ∈ peers, ¬ Shares locals p t) :
    t ∉ (update opens locals peers s).readers ∧ t ∉ (update opens locals peers s).writers := by
  have hn : ∀ m, (allMatches locals peers).find? (fun x => decide (x.topic = t)) ≠ some m := by
    intro m hm
    obtain ⟨p, hp, hs⟩ := (shares_iff locals peers t).1 ⟨m, (first_some hm).2, (first_some hm).1⟩
    exact h p hp hs
  refine ⟨fun h' => ?_, fun h' => ?_⟩
  · obtain ⟨m, hm, _⟩ := (readers_iff _ _ _ _ _).1 h'
    exact hn m hm
  · obtain ⟨m, hm, _⟩ := (writers_iff _ _ _ _ _).1 h'
    exact hn m hm

/-- C240: a topic this host publishes is exported as soon as some alive peer subscribes to it with
the same type, provided every alive peer that shares it subscribes to it. (Peers that opened the
topic through the topic API always do: see `Horus.Guard` lifecycle.) -/
theorem published_is_exported (opens : Bytes → Bool) (locals : List TopicEntry)
    (peers : List (List WireTopicEntry)) (s : St) (t : Bytes)
    (hl : ∀ l ∈ locals, l.name = t → l.role ≠ .subscriber)
    (hp : ∀ p ∈ peers, ∀ r ∈ p, r.name = t → r.role = 2 ∨ r.role = 3)
    (h : ∃ p ∈ peers, Outbound locals p t) : t ∈ (update opens locals peers s).readers := by
  obtain ⟨p, hpm, l, hlm, r, hr, e1, e2, e3, e4, e5⟩ := h
  obtain ⟨m, hm⟩ := first_exists locals peers t ⟨p, hpm, l, hlm, r, hr, e1, e2, e3, Or.inl ⟨e4, e5⟩⟩
  refine (readers_iff _ _ _ _ _).2 ⟨m, hm, Or.inl ?_⟩
  obtain ⟨em, hmem⟩ := first_some hm
  obtain ⟨p', hp', l', hl', r', hr', h'⟩ := (mem_all _ _ _).1 hmem
  obtain ⟨a, _, c, _, _, d, _, _⟩ := (matchOne_some _ _ _).1 h'
  exact d.2 ⟨hl l' hl' (c.symm.trans em), hp p' hp' r' hr' (a.symm.trans (c.symm.trans em))⟩

/-- C240: a topic this host only subscribes to is imported exactly when some alive peer publishes
it with the same type and its shared-memory region could be opened, now or at an earlier update
since which it has always been shared. -/
theorem subscribed_is_imported (opens : Bytes → Bool) (locals : List TopicEntry)
    (peers : List (List WireTopicEntry)) (s : St) (t : Bytes)
    (hl : ∀ l ∈ locals, l.name = t → l.role = .subscriber) :
    t ∈ (update opens locals peers s).writers ↔
      (∃ p ∈ peers, Inbound locals p t) ∧ (opens t = true ∨ t ∈ s.writers) := by
  rw [writers_iff]
  constructor
  · rintro ⟨m, hm, h⟩
    obtain ⟨em, hmem⟩ := first_some hm
    obtain ⟨p, hp, l, hlm, r, hr, h'⟩ := (mem_all _ _ _).1 hmem
    obtain ⟨a, b, c, _, _, d, e, f⟩ := (matchOne_some _ _ _).1 h'
    have hs := hl l hlm (c.symm.trans em)
    have hi : m.import = true := by
      rcases f with f | f
      · exact absurd hs (d.1 f).1
      · exact f
    exact ⟨⟨p, hp, l, hlm, r, hr, c.symm.trans em, a.symm.trans (c.symm.trans em), b, e.1 hi⟩, h.imp (·.2) id⟩
  · rintro ⟨⟨p, hp, l, hlm, r, hr, e1, e2, e3, e4, e5⟩, h⟩
    obtain ⟨m, hm⟩ := first_exists locals peers t ⟨p, hp, l, hlm, r, hr, e1, e2, e3, Or.inr ⟨e4, e5⟩⟩
    refine ⟨m, hm, h.imp (fun ho => ⟨?_, ho⟩) id⟩
    obtain ⟨em, hmem⟩ := first_some hm
    obtain ⟨p', hp', l', hl', r', hr', h'⟩ := (mem_all _ _ _).1 hmem
    obtain ⟨_, _, c, _, _, d, _, f⟩ := (matchOne_some _ _ _).1 h'
    rcases f with f | f
    · exact absurd (hl l' hl' (c.symm.trans em)) (d.1 f).1
    · exact f

/-- C240, what holds of exporting in every history: a topic with a reader was, at some update of
the history, published here and subscribed to by a peer with the same type, and has been shared at
every update since. -/
theorem reader_origin (cs : List Call) (t : Bytes) (h : t ∈ (updates {} cs).readers) :
    ∃ cs1 c cs2, cs = cs1 ++ c :: cs2 ∧ (∃ p ∈ c.peers, Outbound c.locals p t) ∧
      ∀ d ∈ cs2, ∃ p ∈ d.peers, Shares d.locals p t := by
  induction cs using List.reverseRecOn with
  | nil => cases h
  | append_singleton cs c ih =>
    unfold updates at h
    rw [List.foldl_append] at h
    obtain ⟨m, hm, hd⟩ := (readers_iff _ _ _ _ _).1 h
    obtain ⟨em, hmem⟩ := first_some hm
    rcases hd with he | hr
    · refine ⟨cs, c, [], rfl, ?_, fun d hd => absurd hd List.not_mem_nil⟩
      obtain ⟨p, hp, l, hl, r, hr, h'⟩ := (mem_all _ _ _).1 hmem
      obtain ⟨a, b, c', _, _, d, _, _⟩ := (matchOne_some _ _ _).1 h'
      exact ⟨p, hp, l, hl, r, hr, c'.symm.trans em, a.symm.trans (c'.symm.trans em), b, d.1 he⟩
    · obtain ⟨c1, c0, c2, e, h1, h2⟩ := ih hr
      refine ⟨c1, c0, c2 ++ [c], by rw [e]; simp, h1, ?_⟩
      intro d hd
      rcases List.mem_append.1 hd with hd | hd
      · exact h2 d hd
      · rw [List.mem_singleton.1 hd]
        exact (shares_iff _ _ _).1 ⟨m, hmem, em⟩

/-- C240: while this host has never published the topic in any update, nothing is exported. -/
theorem never_published (cs : List Call) (t : Bytes)
    (h : ∀ c ∈ cs, ∀ l ∈ c.locals, l.name = t → l.role = .subscriber) : t ∉ (updates {} cs).readers := by
  intro hr
  obtain ⟨c1, c, c2, e, ⟨p, _, l, hl, r, _, e1, _, _, e4, _⟩, _⟩ := reader_origin cs t hr
  exact e4 (h c (by rw [e]; simp) l hl e1)

example : t0.length = 3 ∧ (∃ p ∈ [[remote0 .subscriber]], Outbound [local0 .both] p t0) ∧
    t0 ∈ (update (fun _ => false) [local0 .both] [[remote0 .subscriber], [remote0 .both]] {}).readers :=
  ⟨rfl, ⟨_, List.mem_singleton.2 rfl, _, List.mem_singleton.2 rfl, _, List.mem_singleton.2 rfl, rfl, rfl, rfl,
    by decide, Or.inl rfl⟩, by decide⟩

example : (∃ p ∈ [[remote0 .both]], Inbound [local0 .subscriber] p t0) ∧
    t0 ∈ (update (fun _ => true) [local0 .subscriber] [[remote0 .both]] {}).writers ∧
    t0 ∉ (update (fun _ => false) [local0 .subscriber] [[remote0 .both]] {}).writers :=
  ⟨⟨_, List.mem_singleton.2 rfl, _, List.mem_singleton.2 rfl, _, List.mem_singleton.2 rfl, rfl, rfl, rfl,
    by decide, Or.inr rfl⟩, by decide, by decide⟩

example : (∀ p ∈ ([[remote0 .subscriber]] : List _), ¬ Shares [local0 .subscriber] p t0) := by
  rintro p hp ⟨l, hl, r, hr, _, _, _, h⟩
  rw [List.mem_singleton.1 hp] at hr
  rw [List.mem_singleton.1 hl, List.mem_singleton.1 hr] at h
  revert h
  decide

/-! ### C240: what fails -/

/-- A topic `t`, open on this host. Concrete values for the witnesses; entries as in
registry.rs:84-98. -/
def local1 (t : Bytes) (r : Role) : TopicEntry := ⟨t, 7, 8, r, true⟩
/-- The same topic as a peer announces it. Entries as in discovery.rs:59-66. -/
def remote1 (t : Bytes) (r : Role) : WireTopicEntry := ⟨t, 7, 8, r.toWire, 1, 2⟩

/-- C240 fails: a host that sends and receives `t`, one peer that only receives it and one that only
sends it. If the receiver happens to come first, nothing is ever imported from the sender; if the
sender comes first, nothing is ever exported to the receiver. -/
theorem second_peer_ignored (t : Bytes) (n : Nat) :
    let c1 : Call := ⟨fun _ => true, [local1 t .both], [[remote1 t .subscriber], [remote1 t .publisher]]⟩
    let c2 : Call := ⟨fun _ => true, [local1 t .both], [[remote1 t .publisher], [remote1 t .subscriber]]⟩
    Inbound [local1 t .both] [remote1 t .publisher] t ∧ Outbound [local1 t .both] [remote1 t .subscriber] t ∧
    t ∉ (updates {} (List.replicate n c1)).writers ∧ t ∉ (updates {} (List.replicate n c2)).readers := by
  refine ⟨?_, ?_, ?_, ?_⟩
  · exact ⟨_, List.mem_singleton.2 rfl, _, List.mem_singleton.2 rfl, rfl, rfl, rfl, fun h => (by cases h), Or.inl rfl⟩
  · exact ⟨_, List.mem_singleton.2 rfl, _, List.mem_singleton.2 rfl, rfl, rfl, rfl, fun h => (by cases h), Or.inl rfl⟩
  · induction n with
    | zero => exact List.not_mem_nil
    | succ n ih =>
      rw [List.replicate_succ']
      unfold updates at ih ⊢
      rw [List.foldl_append]
      intro h
      obtain ⟨m, hm, hd⟩ := (writers_iff _ _ _ _ _).1 h
      rcases hd with ⟨hi, _⟩ | hd
      · have hf : (allMatches [local1 t .both] [[remote1 t .subscriber], [remote1 t .publisher]]).find?
            (fun x => decide (x.topic = t)) = some ⟨t, true, false, 7, true⟩ := by
          simp [allMatches, findMatches, matchOne, local1, remote1, Role.toWire]
        rw [hf] at hm
        rw [← Option.some.inj hm] at hi
        cases hi
      · exact ih hd
  · induction n with
    | zero => exact List.not_mem_nil
    | succ n ih =>
      rw [List.replicate_succ']
      unfold updates at ih ⊢
      rw [List.foldl_append]
      intro h
      obtain ⟨m, hm, hd⟩ := (readers_iff _ _ _ _ _).1 h
      rcases hd with hi | hd
      · have hf : (allMatches [local1 t .both] [[remote1 t .publisher], [remote1 t .subscriber]]).find?
            (fun x => decide (x.topic = t)) = some ⟨t, false, true, 7, true⟩ := by
          simp [allMatches, findMatches, matchOne, local1, remote1, Role.toWire]
        rw [hf] at hm
        rw [← Option.some.inj hm] at hi
        cases hi
      · exact ih hd

/-- C240 fails: a host that published `t`, closed it and reopened it only to receive keeps its
reader as long as some peer publishes the topic, so it goes on exporting. -/
theorem reader_outlives_publisher (t : Bytes) (n : Nat) :
    let c1 : Call := ⟨fun _ => true, [local1 t .both], [[remote1 t .both]]⟩
    let c2 : Call := ⟨fun _ => true, [local1 t .subscriber], [[remote1 t .both]]⟩
    t ∈ (updates {} (c1 :: List.replicate n c2)).readers := by
  intro c1 c2
  have h2 : (allMatches [local1 t .subscriber] [[remote1 t .both]]).find?
      (fun x => decide (x.topic = t)) = some ⟨t, false, true, 7, true⟩ := by
    simp [allMatches, findMatches, matchOne, local1, remote1, Role.toWire]
  have h1 : (allMatches [local1 t .both] [[remote1 t .both]]).find?
      (fun x => decide (x.topic = t)) = some ⟨t, true, true, 7, true⟩ := by
    simp [allMatches, findMatches, matchOne, local1, remote1, Role.toWire]
  induction n with
  | zero => exact (readers_iff _ _ _ _ _).2 ⟨_, h1, Or.inl rfl⟩
  | succ n ih =>
    rw [List.replicate_succ', ← List.cons_append]
    unfold updates at ih ⊢
    rw [List.foldl_append]
    exact (readers_iff _ _ _ _ _).2 ⟨_, h2, Or.inr ih⟩

/-! ### C240: where messages go -/

/-- C240: an exported message goes to exactly the alive peers announcing a subscription to that
topic name. -/
theorem destinations_iff (peers : List (List WireTopicEntry)) (t : Bytes) (p : List WireTopicEntry) :
    p ∈ destinations peers t ↔ p ∈ peers ∧ ∃ r ∈ p, r.name = t ∧ (r.role = 2 ∨ r.role = 3) := by
  unfold destinations
  rw [List.mem_filter, List.any_eq_true]
  simp only [Bool.and_eq_true, decide_eq_true_eq, Bool.or_eq_true, beq_iff_eq]

/-- C240 fails: the type is not looked at, so a peer that uses the name with another type is sent
the bytes too, as soon as any peer matches. -/
theorem other_type_sent (t : Bytes) :
    let good := [remote1 t .subscriber]
    let bad : List WireTopicEntry := [⟨t, 9, 4, 2, 1, 2⟩]
    t ∈ (update (fun _ => true) [local1 t .both] [good, bad] {}).readers ∧
    ¬ Shares [local1 t .both] bad t ∧ bad ∈ destinations [good, bad] t := by
  intro good bad
  refine ⟨?_, ?_, ?_⟩
  · refine (readers_iff _ _ _ _ _).2 ⟨⟨t, true, false, 7, true⟩, ?_, Or.inl rfl⟩
    simp [allMatches, findMatches, matchOne, local1, remote1, Role.toWire, good, bad]
  · rintro ⟨l, hl, r, hr, _, _, h, _⟩
    rw [List.mem_singleton.1 hl, List.mem_singleton.1 hr] at h
    exact absurd (show (7 : UInt32) = 9 from h) (by decide)
  · rw [destinations_iff]
    exact ⟨by simp, _, List.mem_singleton.2 rfl, rfl, Or.inl rfl⟩

/-- C240: a message is written to a topic that has a writer and whose name hash equals the one on the
wire; with no two writers of equal hash, that is the topic the sender meant. -/
theorem written_to_its_topic_partial (writers : List Bytes) (t : Bytes)
    (hinj : ∀ a ∈ writers, fnv1a a = fnv1a t → a = t) :
    writerOf writers (fnv1a t) = if t ∈ writers then some t else none := by
  unfold writerOf
  cases hq : writers.find? (fun n => fnv1a n == fnv1a t) with
  | none =>
    rw [if_neg]
    intro h
    exact absurd (List.find?_eq_none.1 hq t h) (by simp)
  | some x =>
    have hx : x = t := hinj x (List.mem_of_find?_eq_some hq) (by simpa using List.find?_some hq)
    rw [hx, if_pos (hx ▸ List.mem_of_find?_eq_some hq)]

/-- `map.scan.joint`. A literal as used by the witness below; hashed as in wire.rs:235-237. -/
def nameA : Bytes := [109,97,112,46,115,99,97,110,46,106,111,105,110,116]
/-- `lidar.right.depth.status`. A literal as used by the witness below; hashed as in wire.rs:235-237. -/
def nameB : Bytes := [108,105,100,97,114,46,114,105,103,104,116,46,100,101,112,116,104,46,115,116,97,116,117,115]

/-- C240 fails: `map.scan.joint` and `lidar.right.depth.status` have the same hash. With both
imported, every message for one of them is written into the other. -/
theorem colliding_names : nameA ≠ nameB ∧ writerOf [nameA, nameB] (fnv1a nameB) = some nameA ∧
    writerOf [nameB, nameA] (fnv1a nameA) = some nameB := by decide +kernel

/-! ### C240: echo -/

/-- One host as far as topic `t` is concerned: messages ever written to the local ring
(`messages_total`), the reader's `last_write_idx` (shm_reader.rs:36), whether it has a reader and a
writer, the import guard's mode, its registered role, and the duplicate table. -/
structure Host where
  total : Nat
  seen : Nat
  reader : Bool
  writer : Bool
  mode : ImportMode
  role : Role
  dedup : Dedup

/-- replicator.rs:577-609 with shm_reader.rs:71-95: the reader yields the newest message when there
is one since its last look; its number modulo 2³² is the sequence. -/
def exportOne (h : Host) : Host × Option UInt32 :=
  if h.reader && decide (h.seen < h.total) then ({ h with seen := h.total }, some (UInt32.ofNat h.total))
  else (h, none)

/-- replicator.rs:396-409, 495-509 and 550-556 for one message of topic `t` from `sender`:
duplicates go first, then the import guard, then the ring is written. -/
def importOne (t : Bytes) (sender : UInt16) (h : Host) (seq : UInt32) : Host :=
  let (d, new) := isNewMessage h.dedup sender (fnv1a t) seq
  let h := { h with dedup := d }
  if new && h.writer && allowImport h.mode (some [(t, h.role)]) t then { h with total := h.total + 1 } else h

/-- Deliver what was sent, if anything. Schedules over replicator.rs. -/
def deliver (t : Bytes) (sender : UInt16) (h : Host) : Option UInt32 → Host
  | none => h
  | some s => importOne t sender h s

/-- One exchange each way: A polls its ring and sends to B, B polls and sends to A; nothing is lost.
Schedules over replicator.rs. -/
def exchange (t : Bytes) (ida idb : UInt16) (a b : Host) : Host × Host :=
  let (a1, m1) := exportOne a
  let b1 := deliver t ida b m1
  let (b2, m2) := exportOne b1
  (deliver t idb a1 m2, b2)

/-- `n` exchanges. Schedules over replicator.rs. -/
def exchanges (t : Bytes) (ida idb : UInt16) : Nat → Host × Host → Host × Host
  | 0, p => p
  | n + 1, p => exchanges t ida idb n (exchange t ida idb p.1 p.2)

theorem fresh_new (x : Nat) : isOld (UInt32.ofNat x) (UInt32.ofNat (x + 1)) = false := by
  unfold isOld
  rw [Bool.and_eq_false_iff]
  have e1 : (UInt32.ofNat x).toNat = x % 2 ^ 32 := by simp
  have e2 : (UInt32.ofNat (x + 1)).toNat = (x + 1) % 2 ^ 32 := by simp
  by_cases h : x % 2 ^ 32 = 2 ^ 32 - 1
  · right
    rw [decide_eq_false_iff_not, UInt32.lt_iff_toNat_lt]
    have h0 : UInt32.ofNat (x + 1) = 0 := by
      apply UInt32.toNat_inj.1
      rw [e2]
      show (x + 1) % 2 ^ 32 = 0
      omega
    rw [h0, UInt32.sub_zero, e1, h]
    decide
  · left
    rw [decide_eq_false_iff_not, UInt32.le_iff_toNat_le, e1, e2]
    omega

/-- What is known of a host's duplicate table for messages from `sender`: nothing, or the last
number that host sent. Source: reliability.rs:37. -/
def Knows (t : Bytes) (sender : UInt16) (d : Dedup) (last : Nat) : Prop :=
  ∀ s, Map.get d (sender, fnv1a t) = some s → s = UInt32.ofNat last

theorem new_step (t : Bytes) (sender : UInt16) (d : Dedup) (last : Nat) (h : Knows t sender d last) :
    (isNewMessage d sender (fnv1a t) (UInt32.ofNat (last + 1))).2 = true ∧
    Knows t sender (isNewMessage d sender (fnv1a t) (UInt32.ofNat (last + 1))).1 (last + 1) := by
  have e : isNewMessage d sender (fnv1a t) (UInt32.ofNat (last + 1)) =
      ((enforceKeyCap d).set (sender, fnv1a t) (UInt32.ofNat (last + 1)), true) := by
    unfold isNewMessage
    dsimp only
    cases hq : Map.get d (sender, fnv1a t) with
    | none => rfl
    | some s =>
      have hf : isOld s (UInt32.ofNat (last + 1)) = false := by rw [h s hq]; exact fresh_new last
      simp only [hf, Bool.false_eq_true, if_false]
  rw [e]
  refine ⟨rfl, ?_⟩
  intro s hs
  dsimp only at hs
  rw [Map.get_set, if_pos rfl] at hs
  exact (Option.some.inj hs).symm

/-- A host that replicates `t` both ways under an allow list naming it. Fields as in
replicator.rs:48-95. -/
def Open (t : Bytes) (h : Host) : Prop :=
  h.reader = true ∧ h.writer = true ∧ ∃ ps, h.mode = .allowList ps ∧ globMatchAny t ps = true

theorem importOne_open (t : Bytes) (sender : UInt16) (h : Host) (last : Nat) (ho : Open t h)
    (hk : Knows t sender h.dedup last) :
    importOne t sender h (UInt32.ofNat (last + 1)) =
      { h with dedup := (isNewMessage h.dedup sender (fnv1a t) (UInt32.ofNat (last + 1))).1, total := h.total + 1 } := by
  obtain ⟨_, hw, ps, hm, hg⟩ := ho
  have hn := (new_step t sender h.dedup last hk).1
  have ha : allowImport h.mode (some [(t, h.role)]) t = true := by
    unfold allowImport
    rw [hm]
    split
    · rfl
    · exact hg
  unfold importOne
  dsimp only
  rw [hn, hw, ha]
  rfl

/-- C240 fails: two hosts that both send and receive `t`, each importing it under an allow list. One
message published on A bounces between them for ever: after `n` exchanges A's ring has grown by `n`
messages and so has B's, and there is always one more to send. -/
theorem echo_never_stops (t : Bytes) (ida idb : UInt16) (n : Nat) (a b : Host)
    (ha : Open t a) (hb : Open t b) (hpub : a.total = a.seen + 1) (hidle : b.seen = b.total)
    (hka : Knows t idb a.dedup b.total) (hkb : Knows t ida b.dedup a.seen) :
    (exchanges t ida idb n (a, b)).1.total = a.total + n ∧
    (exchanges t ida idb n (a, b)).2.total = b.total + n ∧
    (exportOne (exchanges t ida idb n (a, b)).1).2.isSome = true := by
  induction n generalizing a b with
  | zero =>
    refine ⟨rfl, rfl, ?_⟩
    have h : a.seen < a.total := by omega
    show (exportOne a).2.isSome = true
    simp [exportOne, ha.1, h]
  | succ n ih =>
    unfold exchanges
    have e1 : exportOne a = ({ a with seen := a.total }, some (UInt32.ofNat a.total)) := by
      have h : a.seen < a.total := by omega
      simp [exportOne, ha.1, h]
    have hkb' := new_step t ida b.dedup a.seen hkb
    have e2 : importOne t ida b (UInt32.ofNat a.total) =
        { b with dedup := (isNewMessage b.dedup ida (fnv1a t) (UInt32.ofNat (a.seen + 1))).1, total := b.total + 1 } := by
      rw [hpub]
      exact importOne_open t ida b a.seen hb hkb
    have e3 : exportOne (importOne t ida b (UInt32.ofNat a.total)) =
        ({ (importOne t ida b (UInt32.ofNat a.total)) with seen := b.total + 1 }, some (UInt32.ofNat (b.total + 1))) := by
      rw [e2]
      have h : b.seen < b.total + 1 := by omega
      simp [exportOne, hb.1, h]
    have hka' := new_step t idb a.dedup b.total hka
    have e4 : importOne t idb { a with seen := a.total } (UInt32.ofNat (b.total + 1)) =
        { a with seen := a.total, dedup := (isNewMessage a.dedup idb (fnv1a t) (UInt32.ofNat (b.total + 1))).1, total := a.total + 1 } :=
      importOne_open t idb { a with seen := a.total } b.total ha hka
    have e5 : exchange t ida idb a b =
        ({ a with seen := a.total, dedup := (isNewMessage a.dedup idb (fnv1a t) (UInt32.ofNat (b.total + 1))).1, total := a.total + 1 },
         { b with dedup := (isNewMessage b.dedup ida (fnv1a t) (UInt32.ofNat (a.seen + 1))).1, total := b.total + 1, seen := b.total + 1 }) := by
      unfold exchange
      rw [e1]
      dsimp only [deliver]
      rw [e3]
      dsimp only [deliver]
      rw [e4, e2]
    rw [e5]
    have := ih (a := { a with seen := a.total, dedup := (isNewMessage a.dedup idb (fnv1a t) (UInt32.ofNat (b.total + 1))).1, total := a.total + 1 })
      (b := { b with dedup := (isNewMessage b.dedup ida (fnv1a t) (UInt32.ofNat (a.seen + 1))).1, total := b.total + 1, seen := b.total + 1 })
      ha hb rfl rfl hka'.2 (by rw [← hpub] at hkb' ⊢; exact hkb'.2)
    dsimp only at this
    exact ⟨by omega, by omega, this.2.2⟩

/-- The hypotheses are met: a fresh pair, A having published once. -/
example : ∃ a b : Host, Open nameA a ∧ Open nameA b ∧ a.total = a.seen + 1 ∧ b.seen = b.total ∧
    Knows nameA 2 a.dedup b.total ∧ Knows nameA 1 b.dedup a.seen :=
  ⟨⟨1, 0, true, true, .allowList [[42]], .both, []⟩, ⟨0, 0, true, true, .allowList [[42]], .both, []⟩,
    ⟨rfl, rfl, _, rfl, by decide⟩, ⟨rfl, rfl, _, rfl, by decide⟩, rfl, rfl,
    fun _ h => (by cases h), fun _ h => (by cases h)⟩

/-- C240: under the default import mode no host echoes, when a host has a reader only on a topic it
publishes (which `reader_outlives_publisher` says is not always so): a host that publishes `t` never
has anything written into its ring by the network. -/
theorem auto_no_echo_partial (t : Bytes) (ida idb : UInt16) (n : Nat) (a b : Host) (hs : isSystemTopic t = false)
    (ha : a.mode = .auto) (hb : b.mode = .auto) (ra : a.reader = true → a.role ≠ .subscriber)
    (rb : b.reader = true → b.role ≠ .subscriber) :
    (a.reader = true → (exchanges t ida idb n (a, b)).1.total = a.total) ∧
    (b.reader = true → (exchanges t ida idb n (a, b)).2.total = b.total) := by
  have key : ∀ (h : Host) (sender seq), h.mode = .auto → h.role ≠ .subscriber → (importOne t sender h seq).total = h.total := by
    intro h sender seq hm hr
    unfold importOne
    have hg : allowImport h.mode (some [(t, h.role)]) t = false := by
      unfold allowImport
      rw [hs, hm]
      simp only [Map.get_cons, if_true]
      cases hq : h.role with
      | subscriber => exact absurd hq hr
      | publisher => rfl
      | both => rfl
    dsimp only
    rw [hg, Bool.and_false]
    rfl
  have frame : ∀ (h : Host) (sender seq), (importOne t sender h seq).mode = h.mode ∧
      (importOne t sender h seq).role = h.role ∧ (importOne t sender h seq).reader = h.reader := by
    intro h sender seq
    unfold importOne
    dsimp only
    split <;> exact ⟨rfl, rfl, rfl⟩
  have fexp : ∀ h : Host, (exportOne h).1.mode = h.mode ∧ (exportOne h).1.role = h.role ∧
      (exportOne h).1.reader = h.reader ∧ (exportOne h).1.total = h.total := by
    intro h
    unfold exportOne
    split <;> exact ⟨rfl, rfl, rfl, rfl⟩
  have fdel : ∀ (h : Host) (sender m), (deliver t sender h m).mode = h.mode ∧
      (deliver t sender h m).role = h.role ∧ (deliver t sender h m).reader = h.reader ∧
      (h.mode = .auto → h.role ≠ .subscriber → (deliver t sender h m).total = h.total) := by
    intro h sender m
    cases m with
    | none => exact ⟨rfl, rfl, rfl, fun _ _ => rfl⟩
    | some s => exact ⟨(frame h sender s).1, (frame h sender s).2.1, (frame h sender s).2.2, key h sender s⟩
  induction n generalizing a b with
  | zero => exact ⟨fun _ => rfl, fun _ => rfl⟩
  | succ n ih =>
    unfold exchanges
    have hA : (exchange t ida idb a b).1.mode = a.mode ∧ (exchange t ida idb a b).1.role = a.role ∧
        (exchange t ida idb a b).1.reader = a.reader ∧
        (a.role ≠ .subscriber → (exchange t ida idb a b).1.total = a.total) := by
      unfold exchange
      dsimp only
      obtain ⟨d1, d2, d3, d4⟩ := fdel (exportOne a).1 idb (exportOne (deliver t ida b (exportOne a).2)).2
      obtain ⟨x1, x2, x3, x4⟩ := fexp a
      exact ⟨d1.trans x1, d2.trans x2, d3.trans x3, fun h => (d4 (x1.trans ha) (by rw [x2]; exact h)).trans x4⟩
    have hB : (exchange t ida idb a b).2.mode = b.mode ∧ (exchange t ida idb a b).2.role = b.role ∧
        (exchange t ida idb a b).2.reader = b.reader ∧
        (b.role ≠ .subscriber → (exchange t ida idb a b).2.total = b.total) := by
      unfold exchange
      dsimp only
      obtain ⟨d1, d2, d3, d4⟩ := fdel b ida (exportOne a).2
      obtain ⟨x1, x2, x3, x4⟩ := fexp (deliver t ida b (exportOne a).2)
      exact ⟨x1.trans d1, x2.trans d2, x3.trans d3, fun h => x4.trans (d4 hb h)⟩
    have := ih (exchange t ida idb a b).1 (exchange t ida idb a b).2 (hA.1.trans ha) (hB.1.trans hb)
      (fun h => by rw [hA.2.1]; exact ra (hA.2.2.1.symm.trans h))
      (fun h => by rw [hB.2.1]; exact rb (hB.2.2.1.symm.trans h))
    refine ⟨fun h => ?_, fun h => ?_⟩
    · exact (this.1 (hA.2.2.1.trans h)).trans (hA.2.2.2 (ra h))
    · exact (this.2 (hB.2.2.1.trans h)).trans (hB.2.2.2 (rb h))

example : ∃ a b : Host, isSystemTopic t0 = false ∧ a.mode = .auto ∧ b.mode = .auto ∧
    a.reader = true ∧ b.reader = false ∧ (exchanges t0 1 2 1 (a, b)).2.total = 1 :=
  ⟨⟨1, 0, true, true, .auto, .both, []⟩, ⟨0, 0, false, true, .auto, .subscriber, []⟩, by decide, rfl, rfl, rfl, rfl,
    by decide⟩

/-- C240 fails: a host that only receives `t` but has kept its reader sends every message it imports
back to the network, the peer it came from included. -/
theorem stale_reader_relays (t : Bytes) (hs : isSystemTopic t = false) (sender : UInt16) (h : Host) (last : Nat)
    (hr : h.reader = true) (hw : h.writer = true) (hm : h.mode = .auto) (ho : h.role = .subscriber)
    (hi : h.seen = h.total) (hk : Knows t sender h.dedup last) :
    (exportOne h).2 = none ∧
    (exportOne (importOne t sender h (UInt32.ofNat (last + 1)))).2 = some (UInt32.ofNat (h.total + 1)) := by
  have hn := (new_step t sender h.dedup last hk).1
  have ha : allowImport h.mode (some [(t, h.role)]) t = true := by
    unfold allowImport
    rw [hs, hm, ho]
    simp only [Map.get_cons, if_true]
    rfl
  have e : importOne t sender h (UInt32.ofNat (last + 1)) =
      { h with dedup := (isNewMessage h.dedup sender (fnv1a t) (UInt32.ofNat (last + 1))).1, total := h.total + 1 } := by
    unfold importOne
    dsimp only
    rw [hn, hw, ha]
    rfl
  refine ⟨?_, ?_⟩
  · simp [exportOne, hi]
  · rw [e]
    have : h.seen < h.total + 1 := by omega
    simp [exportOne, hr, this]

end Horus.NetUpdate
