import Verif.Blackbox.Props
/-
Model of what `horus blackbox` shows: horus_manager/src/commands/blackbox.rs, on top of the model of the
recorder and of its log in Verif/Blackbox/Model.lean.

Texts of details (format_record, format_event_detail) and colours are left out, as is finding the directory.
Lower-casing of a text is a parameter. A follower that reads in the middle of a `write` system call is
modelled by `followChunks` only.
-/
namespace Horus.BbView
open Horus.Blackbox

/-! ### Events and filters -/

/-- `BlackBoxEvent` (horus_core/src/scheduling/blackbox.rs:36-104), with the fields the filters look at. -/
inductive Event where
  | schedulerStart (name : List Char)
  | schedulerStop
  | nodeAdded (name : List Char)
  | nodeTick (name : List Char) (success : Bool)
  | nodeError (name : List Char)
  | deadlineMiss (name : List Char)
  | budgetViolation (name : List Char)
  | learningComplete
  | emergencyStop
  | netPeerDiscovered
  | netPeerLost
  | netReplicationStarted
  | netImportRejected
  | custom
deriving DecidableEq

/-- `event_node_name` (commands/blackbox.rs:469-488). -/
def nodeName : Event → List Char
  | .schedulerStart n => n
  | .nodeAdded n => n
  | .nodeTick n _ => n
  | .nodeError n => n
  | .deadlineMiss n => n
  | .budgetViolation n => n
  | _ => []

/-- `event_type_name` (commands/blackbox.rs:491-508). -/
def typeName : Event → List Char
  | .schedulerStart _ => "SchedulerStart".toList
  | .schedulerStop => "SchedulerStop".toList
  | .nodeAdded _ => "NodeAdded".toList
  | .nodeTick _ _ => "NodeTick".toList
  | .nodeError _ => "NodeError".toList
  | .deadlineMiss _ => "DeadlineMiss".toList
  | .budgetViolation _ => "BudgetViolation".toList
  | .learningComplete => "LearningComplete".toList
  | .emergencyStop => "EmergencyStop".toList
  | .netPeerDiscovered => "NetPeerDiscovered".toList
  | .netPeerLost => "NetPeerLost".toList
  | .netReplicationStarted => "NetReplicationStarted".toList
  | .netImportRejected => "NetImportRejected".toList
  | .custom => "Custom".toList

/-- `is_anomaly` (commands/blackbox.rs:511-521). -/
def isAnomaly : Event → Bool
  | .nodeError _ => true
  | .deadlineMiss _ => true
  | .budgetViolation _ => true
  | .emergencyStop => true
  | .netPeerLost => true
  | .netImportRejected => true
  | _ => false

/-- `str::contains` (commands/blackbox.rs:225). -/
def contains (s p : List Char) : Bool :=
  p.isPrefixOf s || match s with
    | [] => false
    | _ :: cs => contains cs p

/-- The options of the command that choose records (commands/blackbox.rs:15-25). -/
structure Filter where
  anomalies : Bool := false
  tick : Option (Nat × Nat) := none
  node : Option (List Char) := none
  event : Option (List Char) := none

/-- `record_matches` (commands/blackbox.rs:206-238). `low` is `str::to_lowercase`. -/
def accepts (low : List Char → List Char) (f : Filter) (r : Rec Event) : Bool :=
  if f.anomalies && !isAnomaly r.event then false
  else if (match f.tick with | none => false | some (a, b) => decide (r.tick < a) || decide (b < r.tick)) then false
  else if (match f.node with | none => false | some n => !contains (low (nodeName r.event)) (low n)) then false
  else match f.event with
    | none => true
    | some e => (typeName r.event).map Char.toLower == e.map Char.toLower

/-- The records `run_blackbox` shows (commands/blackbox.rs:57-68). -/
def view (low : List Char → List Char) (f : Filter) (last : Option Nat) (rs : List (Rec Event)) : List (Rec Event) :=
  let kept := rs.filter (accepts low f)
  match last with
  | none => kept
  | some n => if kept.length > n then kept.drop (kept.length - n) else kept

/-- `str::split('-')` (commands/blackbox.rs:559). -/
def splitDash : List Char → List (List Char)
  | [] => [[]]
  | c :: cs =>
    if c = '-' then [] :: splitDash cs
    else match splitDash cs with
      | [] => [[c]]
      | p :: ps => (c :: p) :: ps

/-- `TickRange::parse` (commands/blackbox.rs:557-586). `num` trims and parses a number. -/
def parseRange (num : List Char → Option Nat) (s : List Char) : Option (Nat × Nat) :=
  match splitDash s with
  | [a] => (num a).map fun n => (n, n)
  | [a, b] => match num a, num b with
    | some x, some y => some (x, y)
    | _, _ => none
  | _ => none

/-! ### Following a log that is being written -/

/-- A recorder's log and a follower (commands/blackbox.rs:371-413): `part` says that the text of a record
has been handed to the writer and its line feed has not; `pos` is how far the follower has read; `shown` is
what it printed. -/
structure Sys (α : Type) where
  wal : Wal
  part : Bool
  pos : Nat
  shown : List (Rec α)
deriving DecidableEq

/-- What can happen (scheduling/blackbox.rs:234-243, 259-264; commands/blackbox.rs:388-408). -/
inductive Ev (α : Type) where
  | text (r : Rec α)
  | endLine (flush : Bool)
  | flush
  | poll

/-- One step. `text` and `endLine` are the two writes of `writeln!` (scheduling/blackbox.rs:236-241), the
second with the flush if one is due; `poll` reads to the end of the file and prints the records in what it
read and that `keep` accepts (commands/blackbox.rs:388-408). -/
def Sys.step {α : Type} (enc : Rec α → Bytes) (dec : Bytes → Option (Rec α)) (keep : Rec α → Bool)
    (s : Sys α) : Ev α → Sys α
  | .text r => if s.part then s else { s with wal := s.wal.write (enc r), part := true }
  | .endLine fl =>
    if s.part then
      { s with wal := if fl then (s.wal.write [10]).flush else s.wal.write [10], part := false }
    else s
  | .flush => if s.part then s else { s with wal := s.wal.flush }
  | .poll =>
    { s with pos := s.wal.disk.length, shown := s.shown ++ (loadWal dec (s.wal.disk.drop s.pos)).filter keep }

/-- Any schedule of the steps (scheduling/blackbox.rs:234-243; commands/blackbox.rs:388-408). -/
def Sys.run {α : Type} (enc : Rec α → Bytes) (dec : Bytes → Option (Rec α)) (keep : Rec α → Bool)
    (s : Sys α) (l : List (Ev α)) : Sys α := l.foldl (Sys.step enc dec keep) s

/-- `seek(SeekFrom::End(0))` (commands/blackbox.rs:376): a follower starts at the end of the file. -/
def Sys.start {α : Type} (s : Sys α) : Sys α := { s with pos := s.wal.disk.length, shown := [] }

/-- The follower fed with what its reads returned (commands/blackbox.rs:387-409), whatever the boundaries:
the text of a read is dropped after it. -/
def followChunks {α : Type} (dec : Bytes → Option (Rec α)) (keep : Rec α → Bool) (reads : List Bytes) : List (Rec α) :=
  (reads.map fun c => (loadWal dec c).filter keep).flatten

/-- What a follower is asked to show (commands/blackbox.rs:46-54, 398): `--tick` is not passed on. -/
def followKeep (low : List Char → List Char) (f : Filter) : Rec Event → Bool := accepts low { f with tick := none }

/-! ### Clearing -/

/-- The directory entry of the log and the files there are. A recorder writes to the file it opened
(scheduling/blackbox.rs:194-204), whatever its name is now. -/
structure Fs where
  link : Option Nat
  data : Nat → Bytes

/-- A recorder with file `i` open for appending writes (scheduling/blackbox.rs:236-239). -/
def Fs.append (fs : Fs) (i : Nat) (b : Bytes) : Fs :=
  { fs with data := fun j => if j = i then fs.data j ++ b else fs.data j }

/-- What `load_blackbox_records` finds of the log (commands/blackbox.rs:158-166). -/
def Fs.read (fs : Fs) : Option Bytes := fs.link.map fs.data

/-- `clear_blackbox` (commands/blackbox.rs:420-464), the log only; `answer` is the trimmed line typed. -/
def Fs.clear (fs : Fs) (answer : List Char) : Fs :=
  if fs.link.isNone then fs
  else if answer.map Char.toLower == ['y'] then { fs with link := none }
  else fs

/-! ### Specification and theorems -/

variable {low : List Char → List Char}

theorem contains_iff (s p : List Char) : contains s p = true ↔ ∃ a b, s = a ++ p ++ b := by
  induction s with
  | nil =>
    simp only [contains, Bool.or_false, List.isPrefixOf_iff_prefix]
    constructor
    · intro h; exact ⟨[], [], by simpa using h⟩
    · rintro ⟨a, b, h⟩
      have : p = [] := by
        have := congrArg List.length h; simp at this; exact List.eq_nil_of_length_eq_zero (by omega)
      rw [this]; exact List.nil_prefix
  | cons c cs ih =>
    simp only [contains, Bool.or_eq_true, List.isPrefixOf_iff_prefix]
    constructor
    · rintro (⟨b, h⟩ | h)
      · exact ⟨[], b, by simpa using h.symm⟩
      · obtain ⟨a, b, h⟩ := ih.1 h
        exact ⟨c :: a, b, by simp [h]⟩
    · rintro ⟨a, b, h⟩
      cases a with
      | nil => exact .inl ⟨b, by simpa using h.symm⟩
      | cons x a =>
        simp only [List.cons_append, List.cons.injEq] at h
        exact .inr (ih.2 ⟨a, b, h.2⟩)

/-- An event the recorder calls something that went wrong: an error, a missed deadline, a budget exceeded, an
emergency stop, a peer lost, an import refused. -/
inductive Wrong : Event → Prop
  | error (n) : Wrong (.nodeError n)
  | deadline (n) : Wrong (.deadlineMiss n)
  | budget (n) : Wrong (.budgetViolation n)
  | stop : Wrong .emergencyStop
  | lost : Wrong .netPeerLost
  | refused : Wrong .netImportRejected

/-- What the options ask for. -/
structure Asked (low : List Char → List Char) (f : Filter) (r : Rec Event) : Prop where
  anomalies : f.anomalies = true → Wrong r.event
  tick : ∀ a b, f.tick = some (a, b) → a ≤ r.tick ∧ r.tick ≤ b
  node : ∀ n, f.node = some n → ∃ x y, low (nodeName r.event) = x ++ low n ++ y
  event : ∀ e, f.event = some e → (typeName r.event).map Char.toLower = e.map Char.toLower

theorem anomaly_iff (e : Event) : isAnomaly e = true ↔ Wrong e := by
  constructor
  · cases e <;> simp [isAnomaly] <;> constructor
  · intro h; cases h <;> rfl

/-- C293: a record is chosen exactly if it is what every option asks for. -/
theorem accepts_iff (f : Filter) (r : Rec Event) : accepts low f r = true ↔ Asked low f r := by
  have e1 : accepts low f r = true ↔
      ((f.anomalies = true → isAnomaly r.event = true) ∧ (∀ a b, f.tick = some (a, b) → a ≤ r.tick ∧ r.tick ≤ b) ∧
        (∀ n, f.node = some n → contains (low (nodeName r.event)) (low n) = true) ∧
        (∀ e, f.event = some e → (typeName r.event).map Char.toLower = e.map Char.toLower)) := by
    obtain ⟨an, tk, nd, ev⟩ := f
    unfold accepts
    cases an <;> cases isAnomaly r.event <;> rcases tk with _ | ⟨a, b⟩ <;> cases nd <;> cases ev <;>
      simp
  rw [e1]
  constructor
  · rintro ⟨h1, h2, h3, h4⟩
    exact ⟨fun h => (anomaly_iff _).1 (h1 h), h2, fun n hn => (contains_iff _ _).1 (h3 n hn), h4⟩
  · rintro ⟨h1, h2, h3, h4⟩
    exact ⟨fun h => (anomaly_iff _).2 (h1 h), h2, fun n hn => (contains_iff _ _).2 (h3 n hn), h4⟩

/-- C293: without `--last`, the records asked for are shown, no others, in the order of the log. -/
theorem view_all (f : Filter) (rs : List (Rec Event)) :
    (view low f none rs).Sublist rs ∧ (∀ r, r ∈ view low f none rs ↔ r ∈ rs ∧ Asked low f r) ∧
    (∀ r, Asked low f r → (view low f none rs).count r = rs.count r) := by
  refine ⟨List.filter_sublist, fun r => ?_, fun r h => ?_⟩
  · simp [view, List.mem_filter, accepts_iff]
  · exact List.count_filter ((accepts_iff f r).2 h)

/-- C293: `--last n` shows the latest `n` of them, or all if there are fewer. -/
theorem view_last (f : Filter) (n : Nat) (rs : List (Rec Event)) :
    (∃ hidden, view low f none rs = hidden ++ view low f (some n) rs) ∧
    (view low f (some n) rs).length = min n (view low f none rs).length := by
  simp only [view]
  split
  · refine ⟨⟨(rs.filter (accepts low f)).take ((rs.filter (accepts low f)).length - n), (List.take_append_drop _ _).symm⟩, ?_⟩
    simp only [List.length_drop]; omega
  · exact ⟨⟨[], rfl⟩, by omega⟩

/-- C293, a disagreement: with `--node` no emergency stop is shown, nor anything else that names no node,
whatever the node. -/
theorem stop_hidden (f : Filter) (n : List Char) (hn : f.node = some n) (hl : low n ≠ []) (h0 : low [] = []) (t : Nat) :
    accepts low f ⟨t, .emergencyStop⟩ = false := by
  rw [Bool.eq_false_iff]
  intro h
  obtain ⟨x, y, e⟩ := ((accepts_iff f _).1 h).node n hn
  simp only [nodeName, h0] at e
  have := congrArg List.length e
  simp at this
  exact hl (List.eq_nil_of_length_eq_zero (by omega))

/-- C293, a disagreement: a tick that failed is not among the anomalies. -/
theorem failed_tick_quiet (f : Filter) (hf : f.anomalies = true) (n : List Char) (t : Nat) :
    accepts low f ⟨t, .nodeTick n false⟩ = false := by
  simp [accepts, hf, isAnomaly]

/-- C293, a disagreement: a range given backwards is taken, and shows nothing. -/
theorem backwards_range (num : List Char → Option Nat) (a b : List Char) (x y : Nat) (ha : '-' ∉ a) (hb : '-' ∉ b)
    (hx : num a = some x) (hy : num b = some y) (hlt : y < x) :
    parseRange num (a ++ '-' :: b) = some (x, y) ∧
    ∀ (f : Filter) (last : Option Nat) (rs : List (Rec Event)), f.tick = some (x, y) → view low f last rs = [] := by
  have hs : ∀ b : List Char, '-' ∉ b → splitDash b = [b] := by
    intro b hb
    induction b with
    | nil => rfl
    | cons c cs ih =>
      simp only [List.mem_cons, not_or] at hb
      simp [splitDash, ih hb.2, Ne.symm hb.1]
  have hs2 : ∀ a : List Char, '-' ∉ a → splitDash (a ++ '-' :: b) = [a, b] := by
    intro a ha
    induction a with
    | nil => simp [splitDash, hs b hb]
    | cons c cs ih =>
      simp only [List.mem_cons, not_or] at ha
      simp [splitDash, ih ha.2, Ne.symm ha.1]
  refine ⟨by simp [parseRange, hs2 a ha, hx, hy], fun f last rs hf => ?_⟩
  have : rs.filter (accepts low f) = [] := by
    rw [List.filter_eq_nil_iff]
    intro r _ h
    have := ((accepts_iff f r).1 h).tick x y hf
    omega
  unfold view
  simp only [this]
  cases last <;> simp

/-- C293: a range is taken exactly if it is one number or two with a dash between. -/
theorem range_iff (num : List Char → Option Nat) (s : List Char) (x y : Nat) :
    parseRange num s = some (x, y) ↔
      ('-' ∉ s ∧ num s = some x ∧ x = y) ∨ ∃ a b, '-' ∉ a ∧ '-' ∉ b ∧ s = a ++ '-' :: b ∧ num a = some x ∧ num b = some y := by
  have key : ∀ s : List Char, splitDash s ≠ [] ∧ (∀ p ∈ splitDash s, '-' ∉ p) ∧
      (∀ a, splitDash s = [a] ↔ '-' ∉ s ∧ a = s) ∧
      (∀ a b, splitDash s = [a, b] ↔ '-' ∉ a ∧ '-' ∉ b ∧ s = a ++ '-' :: b) := by
    intro s
    induction s with
    | nil => simp [splitDash, eq_comm]
    | cons c cs ih =>
      obtain ⟨i0, i1, i2, i3⟩ := ih
      by_cases hc : c = '-'
      · subst hc
        simp only [splitDash, if_true]
        refine ⟨by simp, by simpa using i1, by simp [i0], fun a b => ?_⟩
        constructor
        · intro h
          simp only [List.cons.injEq] at h
          obtain ⟨rfl, h⟩ := h
          obtain ⟨h1, h2⟩ := (i2 b).1 h
          subst h2
          exact ⟨by simp, h1, rfl⟩
        · rintro ⟨h1, h2, h3⟩
          cases a with
          | nil =>
            simp only [List.nil_append, List.cons.injEq, true_and] at h3
            rw [(i2 b).2 ⟨by rw [h3]; exact h2, h3.symm⟩]
          | cons x a =>
            simp only [List.cons_append, List.cons.injEq] at h3
            simp [← h3.1] at h1
      · cases hsp : splitDash cs with
        | nil => exact absurd hsp i0
        | cons p ps =>
          have hd : splitDash (c :: cs) = (c :: p) :: ps := by simp [splitDash, hc, hsp]
          rw [hd]
          rw [hsp] at i1 i2 i3
          refine ⟨by simp, ?_, fun a => ?_, fun a b => ?_⟩
          · intro q hq
            rcases List.mem_cons.1 hq with rfl | hq
            · simp [Ne.symm hc, i1 p (by simp)]
            · exact i1 q (by simp [hq])
          · constructor
            · intro h
              simp only [List.cons.injEq] at h
              obtain ⟨k1, k2⟩ := (i2 p).1 (by rw [h.2])
              exact ⟨by simp [Ne.symm hc, k1], by rw [← h.1, k2]⟩
            · rintro ⟨h1, rfl⟩
              simp only [List.mem_cons, not_or] at h1
              have := (i2 cs).2 ⟨h1.2, rfl⟩
              simp only [List.cons.injEq] at this
              rw [this.1, this.2]
          · constructor
            · intro h
              simp only [List.cons.injEq] at h
              obtain ⟨k1, k2, k3⟩ := (i3 p b).1 (by rw [h.2])
              refine ⟨by rw [← h.1]; simp [Ne.symm hc, k1], k2, by rw [← h.1, k3]; rfl⟩
            · rintro ⟨h1, h2, h3⟩
              cases a with
              | nil => simp at h3; exact absurd h3.1 hc
              | cons x a =>
                simp only [List.cons_append, List.cons.injEq] at h3
                simp only [List.mem_cons, not_or] at h1
                have := (i3 a b).2 ⟨h1.2, h2, h3.2⟩
                simp only [List.cons.injEq] at this
                rw [this.1, this.2, h3.1]
  obtain ⟨k0, k1, k2, k3⟩ := key s
  unfold parseRange
  constructor
  · intro h
    split at h
    · next a ha =>
      obtain ⟨h1, h2⟩ := (k2 a).1 ha
      subst h2
      simp only [Option.map_eq_some_iff, Prod.mk.injEq] at h
      obtain ⟨n, hn, rfl, rfl⟩ := h
      exact .inl ⟨h1, hn, rfl⟩
    · next a b hab =>
      obtain ⟨h1, h2, h3⟩ := (k3 a b).1 hab
      split at h
      · next u v hu hv => simp at h; exact .inr ⟨a, b, h1, h2, h3, by rw [hu, h.1], by rw [hv, h.2]⟩
      · exact absurd h (by simp)
    · exact absurd h (by simp)
  · rintro (⟨h1, h2, rfl⟩ | ⟨a, b, h1, h2, h3, h4, h5⟩)
    · rw [(k2 s).2 ⟨h1, rfl⟩]; simp [h2]
    · rw [(k3 a b).2 ⟨h1, h2, h3⟩]; simp [h4, h5]

/-! ### Following -/

section follow
variable {α : Type} {enc : Rec α → Bytes} {dec : Bytes → Option (Rec α)} {keep : Rec α → Bool}

/-- The two steps of a record and the flush are what the recorder does with its log. -/
theorem record_steps (b : Box α) (w : Wal) (hw : b.wal = some w) (he : b.enabled = true) (e : α) (n : Nat) (sh : List (Rec α)) :
    (b.record enc e).wal = some ((Sys.run enc dec keep ⟨w, false, n, sh⟩
      [.text ⟨b.tickCounter, e⟩, .endLine (decide (b.since + 1 ≥ b.interval))]).wal) := by
  have hr : Sys.run enc dec keep ⟨w, false, n, sh⟩ [.text ⟨b.tickCounter, e⟩, .endLine (decide (b.since + 1 ≥ b.interval))] =
      ⟨if b.since + 1 ≥ b.interval then (w.writeln (enc ⟨b.tickCounter, e⟩)).flush else w.writeln (enc ⟨b.tickCounter, e⟩), false, n, sh⟩ := by
    simp [Sys.run, Sys.step, Wal.writeln]
  rw [hr]
  unfold Box.record
  simp only [he, Bool.true_eq_false, if_false, hw]
  by_cases hc : b.since + 1 ≥ b.interval
  · simp only [if_pos hc]; split <;> rfl
  · simp only [if_neg hc]; split <;> rfl

/-- What holds of the log between steps: the file ends at the end of a line, or what is still to be written
begins with the line feed that is missing. -/
def Edge (part : Bool) (w : Wal) : Prop :=
  if part then Whole w.disk ∨ w.buf.head? = some 10 ∨ w.buf = []
  else (Whole w.disk ∨ w.buf.head? = some 10) ∧ Whole (w.disk ++ w.buf)

theorem edge_text (w : Wal) (t : Bytes) (h : Edge false w) : Edge true (w.write t) := by
  simp only [Edge, Bool.false_eq_true, if_false, if_true] at h ⊢
  obtain ⟨h1, h2⟩ := h
  have hd : ∀ x : Bytes, w.buf.head? = some 10 → (w.buf ++ x).head? = some 10 := by
    intro x hx; cases hb : w.buf with
    | nil => simp [hb] at hx
    | cons c cs => simpa [hb] using hx
  unfold Wal.write
  split
  · exact h1.imp id (fun h => .inl (hd _ h))
  · next hlt =>
    split
    · split
      · exact .inr (.inr rfl)
      · exact .inl h2
    · next hgt =>
      split
      · next hbig =>
        refine .inr (.inr ?_)
        have : t.length ≥ 8192 := hbig
        have : ¬ t.length > 8192 - w.buf.length := hgt
        show w.buf = []
        exact List.eq_nil_of_length_eq_zero (by omega)
      · exact h1.imp id (fun h => .inl (hd _ h))

theorem whole_lf (d : Bytes) : Whole (d ++ [10]) := .inr ⟨d, rfl⟩

theorem edge_endLine (w : Wal) (h : Edge true w) : Edge false (w.write [10]) := by
  simp only [Edge, Bool.false_eq_true, if_false, if_true] at h ⊢
  refine ⟨?_, by rw [write_all]; exact whole_lf _⟩
  have hd : w.buf.head? = some 10 ∨ w.buf = [] → (w.buf ++ [10]).head? = some 10 := by
    cases hb : w.buf with
    | nil => simp
    | cons c cs => simp
  unfold Wal.write
  split
  · exact h.imp id hd
  · split
    · split
      · next hbig => exact absurd hbig (by simp [bufCap])
      · exact .inr rfl
    · split
      · next hbig => exact absurd hbig (by simp [bufCap])
      · exact h.imp id hd

/-- A log that ends at an edge reads as two parts. -/
theorem load_split (hc : Codec enc dec) (d c : Bytes) (h : Whole d ∨ c = [] ∨ c.head? = some 10) :
    loadWal dec (d ++ c) = loadWal dec d ++ loadWal dec c := by
  rcases h with h | rfl | h
  · exact loadWal_whole hc d h c
  · simp [loadWal, lines, hc.blank]
  · cases c with
    | nil => simp at h
    | cons x xs =>
      simp at h
      subst h
      rw [loadWal, lines_append_whole]
      simp [loadWal, lines, hc.blank]

/-- The invariant of following: `d0` is the file at the start. -/
structure Inv (dec : Bytes → Option (Rec α)) (keep : Rec α → Bool) (d0 : Bytes) (s : Sys α) : Prop where
  edge : Edge s.part s.wal
  le : s.pos ≤ s.wal.disk.length
  seen : ∃ raw, loadWal dec (s.wal.disk.take s.pos) = loadWal dec d0 ++ raw ∧ s.shown = raw.filter keep
  cut : Whole (s.wal.disk.take s.pos) ∨ (s.wal.disk.drop s.pos ++ s.wal.buf = [] ∧ s.part = true) ∨
    (s.wal.disk.drop s.pos ++ s.wal.buf).head? = some 10

theorem write_grow (w : Wal) (t : Bytes) (n : Nat) (h : n ≤ w.disk.length) :
    n ≤ (w.write t).disk.length ∧ (w.write t).disk.take n = w.disk.take n ∧
    (w.write t).disk.drop n ++ (w.write t).buf = w.disk.drop n ++ w.buf ++ t := by
  obtain ⟨x, hx⟩ := write_disk w t
  have ha := write_all w t
  rw [← hx] at ha ⊢
  refine ⟨by simp; omega, List.take_append_of_le_length h, ?_⟩
  rw [List.drop_append_of_le_length h, List.append_assoc, List.append_assoc]
  congr 1
  rw [List.append_assoc, List.append_assoc] at ha
  exact List.append_cancel_left ha

theorem flush_grow (w : Wal) (n : Nat) (h : n ≤ w.disk.length) :
    n ≤ w.flush.disk.length ∧ w.flush.disk.take n = w.disk.take n ∧
    w.flush.disk.drop n ++ w.flush.buf = w.disk.drop n ++ w.buf := by
  simp only [Wal.flush]
  refine ⟨by simp; omega, List.take_append_of_le_length h, ?_⟩
  rw [List.drop_append_of_le_length h]; simp

theorem inv_step (hc : Codec enc dec) (d0 : Bytes) (s : Sys α) (h : Inv dec keep d0 s) (o : Ev α) :
    Inv dec keep d0 (s.step enc dec keep o) := by
  obtain ⟨h1, h2, ⟨raw, h3, h3'⟩, h4⟩ := h
  have hh : ∀ (x t : Bytes), x.head? = some 10 → (x ++ t).head? = some 10 := by
    intro x t hx; cases x with
    | nil => simp at hx
    | cons c cs => simpa using hx
  cases o with
  | text r =>
    simp only [Sys.step]
    split
    · exact ⟨h1, h2, ⟨raw, h3, h3'⟩, h4⟩
    · next hp =>
      have hp : s.part = false := by simpa using hp
      rw [hp] at h1 h4
      obtain ⟨g1, g2, g3⟩ := write_grow s.wal (enc r) s.pos h2
      refine ⟨edge_text _ _ h1, g1, ⟨raw, by rw [g2]; exact h3, h3'⟩, ?_⟩
      simp only [g2, g3]
      rcases h4 with h | ⟨_, h⟩ | h
      · exact .inl h
      · exact absurd h (by simp)
      · exact .inr (.inr (hh _ _ h))
  | endLine fl =>
    simp only [Sys.step]
    split
    · next hp =>
      rw [hp] at h1
      obtain ⟨g1, g2, g3⟩ := write_grow s.wal [10] s.pos h2
      have he := edge_endLine _ h1
      have h4' : Whole (s.wal.disk.take s.pos) ∨ (s.wal.disk.drop s.pos ++ s.wal.buf ++ [10]).head? = some 10 := by
        rcases h4 with h | ⟨h, _⟩ | h
        · exact .inl h
        · right; rw [h]; rfl
        · exact .inr (hh _ _ h)
      cases fl with
      | false =>
        refine ⟨he, g1, ⟨raw, by simp only [Bool.false_eq_true, if_false]; rw [g2]; exact h3, h3'⟩, ?_⟩
        simp only [Bool.false_eq_true, if_false, g2, g3]
        exact h4'.imp id .inr
      | true =>
        obtain ⟨k1, k2, k3⟩ := flush_grow (s.wal.write [10]) s.pos g1
        refine ⟨?_, k1, ⟨raw, by simp only [if_true]; rw [k2, g2]; exact h3, h3'⟩, ?_⟩
        · simp only [Edge, Bool.false_eq_true, if_false, if_true] at he ⊢
          exact ⟨.inl he.2, by simpa [Wal.flush] using he.2⟩
        · simp only [if_true, k2, k3, g2, g3]
          exact h4'.imp id .inr
    · exact ⟨h1, h2, ⟨raw, h3, h3'⟩, h4⟩
  | flush =>
    simp only [Sys.step]
    split
    · exact ⟨h1, h2, ⟨raw, h3, h3'⟩, h4⟩
    · next hp =>
      have hp : s.part = false := by simpa using hp
      rw [hp] at h1
      obtain ⟨k1, k2, k3⟩ := flush_grow s.wal s.pos h2
      refine ⟨?_, k1, ⟨raw, by rw [k2]; exact h3, h3'⟩, by simp only [k2, k3]; exact h4⟩
      simp only [Edge, hp, Bool.false_eq_true, if_false] at h1 ⊢
      exact ⟨.inl h1.2, by simpa [Wal.flush] using h1.2⟩
  | poll =>
    simp only [Sys.step]
    have hsp : loadWal dec s.wal.disk = loadWal dec (s.wal.disk.take s.pos) ++ loadWal dec (s.wal.disk.drop s.pos) := by
      rw [← load_split hc _ _ ?_, List.take_append_drop]
      rcases h4 with h | ⟨h, _⟩ | h
      · exact .inl h
      · exact .inr (.inl (List.append_eq_nil_iff.1 h).1)
      · cases hd : s.wal.disk.drop s.pos with
        | nil => exact .inr (.inl rfl)
        | cons c cs => rw [hd] at h; exact .inr (.inr (by simpa using h))
    refine ⟨h1, Nat.le_refl _, ⟨raw ++ loadWal dec (s.wal.disk.drop s.pos), ?_, ?_⟩, ?_⟩
    · rw [List.take_length, hsp, h3, List.append_assoc]
    · rw [h3', List.filter_append]
    · rw [List.take_length, List.drop_length, List.nil_append]
      cases hp : s.part with
      | false =>
        rw [hp] at h1; simp only [Edge, Bool.false_eq_true, if_false] at h1
        exact h1.1.imp id .inr
      | true =>
        rw [hp] at h1; simp only [Edge, if_true] at h1
        rcases h1 with h | h | h
        · exact .inl h
        · exact .inr (.inr h)
        · exact .inr (.inl ⟨h, rfl⟩)

theorem inv_run (hc : Codec enc dec) (d0 : Bytes) (l : List (Ev α)) : ∀ (s : Sys α), Inv dec keep d0 s →
    Inv dec keep d0 (s.run enc dec keep l) := by
  induction l with
  | nil => exact fun s h => h
  | cons o l ih => exact fun s h => ih _ (inv_step hc d0 s h o)

/-- C293: a recorder opens a log that ends at the end of a line (or a new one) and writes records in any way. A
follower started at any moment that looks whenever it likes, then once more, has shown exactly what the log
holds more than at the start and is asked for, in order, each record once. -/
theorem follow_exact (hc : Codec enc dec) (file : Bytes) (hf : Whole file) (before after : List (Ev α)) (n : Nat) (old : List (Rec α)) :
    let s0 := Sys.run enc dec keep ⟨⟨file, []⟩, false, n, old⟩ before
    let s1 := (s0.start.run enc dec keep after).step enc dec keep .poll
    ∃ new, loadWal dec s1.wal.disk = loadWal dec s0.wal.disk ++ new ∧ s1.shown = new.filter keep := by
  intro s0 s1
  have he : ∀ (l : List (Ev α)) (s : Sys α), Edge s.part s.wal → Edge (s.run enc dec keep l).part (s.run enc dec keep l).wal := by
    intro l
    induction l with
    | nil => exact fun s h => h
    | cons o l ih =>
      refine fun s h => ih _ ?_
      have hi : Inv dec keep s.wal.disk s.start := ⟨h, Nat.le_refl _, ⟨[], by simp [Sys.start], rfl⟩, by
        simp only [Sys.start, List.take_length, List.drop_length, List.nil_append]
        cases hp : s.part with
        | false => rw [hp] at h; simp only [Edge, Bool.false_eq_true, if_false] at h; exact h.1.imp id .inr
        | true =>
          rw [hp] at h; simp only [Edge, if_true] at h
          rcases h with h | h | h
          · exact .inl h
          · exact .inr (.inr h)
          · exact .inr (.inl ⟨h, rfl⟩)⟩
      have hs := (inv_step (enc := enc) hc _ _ hi o).edge
      have e : (s.start.step enc dec keep o).part = (s.step enc dec keep o).part ∧ (s.start.step enc dec keep o).wal = (s.step enc dec keep o).wal := by
        rcases s with ⟨w, p, n, sh⟩; cases o <;> simp only [Sys.step, Sys.start] <;> cases p <;> simp
      rw [e.1, e.2] at hs
      exact hs
  have h0 : Edge s0.part s0.wal := he before _ (by
    simp only [Edge, Bool.false_eq_true, if_false]
    exact ⟨.inl hf, by simpa using hf⟩)
  have hi : Inv dec keep s0.wal.disk s0.start := ⟨h0, Nat.le_refl _, ⟨[], by simp [Sys.start], rfl⟩, by
    simp only [Sys.start, List.take_length, List.drop_length, List.nil_append]
    cases hp : s0.part with
    | false => rw [hp] at h0; simp only [Edge, Bool.false_eq_true, if_false] at h0; exact h0.1.imp id .inr
    | true =>
      rw [hp] at h0; simp only [Edge, if_true] at h0
      rcases h0 with h | h | h
      · exact .inl h
      · exact .inr (.inr h)
      · exact .inr (.inl ⟨h, rfl⟩)⟩
  obtain ⟨raw, r1, r2⟩ := (inv_step (enc := enc) hc _ _ (inv_run (enc := enc) hc _ after _ hi) .poll).seen
  refine ⟨raw, ?_, r2⟩
  have e : s1.pos = s1.wal.disk.length := rfl
  rw [← r1]
  show _ = loadWal dec (s1.wal.disk.take s1.pos)
  rw [e, List.take_length]

/-- C293, a disagreement: if a read ends in the middle of a line, which happens when it falls into a write, the
record on that line is never shown, although it is in the log: what was read of it is thrown away. -/
theorem torn_read : ∃ (enc : Rec Nat → Bytes) (dec : Bytes → Option (Rec Nat)) (r : Rec Nat) (a b : Bytes),
    Codec enc dec ∧ a ++ b = enc r ++ [10] ∧ loadWal dec (a ++ b) = [r] ∧ followChunks dec (fun _ => true) [a, b] = [] :=
  ⟨exEnc, exDec, ⟨1, 1⟩, (exEnc ⟨1, 1⟩).take 2, (exEnc ⟨1, 1⟩).drop 2 ++ [10], exCodec, by decide +kernel, by decide +kernel, by decide +kernel⟩

/-- The reads of a follower that end at ends of lines show all there is. -/
theorem whole_reads (hc : Codec enc dec) (reads : List Bytes) (h : ∀ c ∈ reads, Whole c) :
    followChunks dec keep reads = (loadWal dec reads.flatten).filter keep := by
  induction reads with
  | nil => simp [followChunks, loadWal, lines, hc.blank]
  | cons c cs ih =>
    have := ih fun x hx => h x (by simp [hx])
    simp only [followChunks, List.map_cons, List.flatten_cons] at this ⊢
    rw [this, loadWal_whole hc c (h c (by simp)), List.filter_append]

end follow

/-- C293, a disagreement: a follower does not look at `--tick`: what is outside the range is shown too. -/
theorem tick_ignored (f : Filter) (t : Option (Nat × Nat)) (r : Rec Event) :
    followKeep low { f with tick := t } r = followKeep low f r := rfl

/-- C293: apart from that a follower shows what is asked for. -/
theorem follow_asked_partial (f : Filter) (hf : f.tick = none) (r : Rec Event) : followKeep low f r = true ↔ Asked low f r := by
  have : ({ f with tick := none } : Filter) = f := by cases f; simp at hf; simp [hf]
  rw [followKeep, this]; exact accepts_iff f r

/-! ### Clearing -/

/-- C293: the log is gone exactly if the answer was yes. -/
theorem clear_iff (fs : Fs) (a : List Char) (i : Nat) (h : fs.link = some i) :
    (fs.clear a).read = none ↔ a = ['y'] ∨ a = ['Y'] := by
  have hy : (a.map Char.toLower == ['y']) = true ↔ a = ['y'] ∨ a = ['Y'] := by
    rw [beq_iff_eq]
    constructor
    · intro h
      rcases a with _ | ⟨c, _ | ⟨d, ds⟩⟩
      · simp at h
      · simp only [List.map_cons, List.map_nil, List.cons.injEq, and_true] at h ⊢
        unfold Char.toLower at h
        split at h
        · right
          have := congrArg Char.val h
          simp only at this
          apply Char.ext
          have h2 : c.val + ('a'.val - 'A'.val) = 'y'.val := this
          have h3 : c.val = 'y'.val - ('a'.val - 'A'.val) := by rw [← h2]; simp
          rw [h3]; decide
        · exact .inl h
      · simp at h
    · rintro (rfl | rfl) <;> decide
  unfold Fs.clear
  rw [h]
  simp only [Option.isNone_some, Bool.false_eq_true, if_false]
  by_cases hh : a.map Char.toLower == ['y']
  · rw [if_pos hh]; simp [Fs.read, hy.1 hh]
  · rw [if_neg hh]
    simp only [Fs.read, h, Option.map_some, reduceCtorEq, false_iff]
    exact fun k => hh (hy.2 k)

/-- C293, a disagreement: clearing while the recorder runs blinds it: whatever it writes from then on is in no
file the command can find, until it is started again. -/
theorem clear_blinds (fs : Fs) (a : List Char) (i : Nat) (h : fs.link = some i) (ha : a = ['y'] ∨ a = ['Y']) (ws : List Bytes) :
    (ws.foldl (fun fs w => fs.append i w) (fs.clear a)).read = none ∧
    (ws.foldl (fun fs w => fs.append i w) (fs.clear a)).data i = fs.data i ++ ws.flatten := by
  have h0 := (clear_iff fs a i h).2 ha
  have hd : (fs.clear a).data = fs.data := by unfold Fs.clear; split <;> [rfl; split <;> rfl]
  have hl : (fs.clear a).link = none := by simpa [Fs.read] using h0
  have key : ∀ (ws : List Bytes) (g : Fs), g.link = none →
      (ws.foldl (fun fs w => fs.append i w) g).read = none ∧ (ws.foldl (fun fs w => fs.append i w) g).data i = g.data i ++ ws.flatten := by
    intro ws
    induction ws with
    | nil => intro g hg; simp [Fs.read, hg]
    | cons w ws ih =>
      intro g hg
      obtain ⟨k1, k2⟩ := ih (g.append i w) hg
      refine ⟨k1, ?_⟩
      rw [List.foldl_cons, k2]
      simp [Fs.append]
  have := key ws (fs.clear a) hl
  rwa [hd] at this

/-! ### Examples -/

/-- Of three records, two are about the motor; `--last 1` shows the later. -/
example :
    let rs : List (Rec Event) := [⟨1, .deadlineMiss "Motor".toList⟩, ⟨2, .nodeError "imu".toList⟩, ⟨3, .nodeTick "motor2".toList true⟩]
    let f : Filter := { node := some "MOTOR".toList }
    view (List.map Char.toLower) f none rs = [⟨1, .deadlineMiss "Motor".toList⟩, ⟨3, .nodeTick "motor2".toList true⟩] ∧
    view (List.map Char.toLower) f (some 1) rs = [⟨3, .nodeTick "motor2".toList true⟩] := by decide +kernel

/-- A follower started between the text of a record and its line feed, looking twice. -/
example :
    ((Sys.run exEnc exDec (fun r => decide (r.event > 1)) ⟨⟨[], []⟩, false, 0, []⟩
        [.text ⟨0, 2⟩]).start.run exEnc exDec (fun r => decide (r.event > 1))
        [.endLine true, .poll, .text ⟨1, 1⟩, .poll, .endLine false, .text ⟨1, 3⟩, .endLine true, .poll]).shown
      = [⟨0, 2⟩, ⟨1, 3⟩] := by decide +kernel

example : Whole [] ∧ Codec exEnc exDec := ⟨.inl rfl, exCodec⟩

end Horus.BbView
