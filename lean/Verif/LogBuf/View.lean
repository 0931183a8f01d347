import Mathlib.Data.List.Basic
import Mathlib.Data.List.Infix
import Mathlib.Tactic.Common
/-
What `horus log` shows: horus_manager/src/commands/log.rs, and which records of the `log` facade reach
the log buffer: horus_core/src/core/log_bridge.rs.

Modelled: the level, node, time and count filters (log.rs 29-286), following (288-345), clearing
(356-382), and the bridge's level filter (log_bridge.rs 39-129).
Simplified: times are milliseconds; texts are compared by their ASCII letters; the buffers hold entries
that can be read (what a read returns is `LogBuf/Ring`); colours and headings are left out.
-/
namespace Horus.LogView

abbrev Text := List Char

/-- `LogType` (horus_core/src/core/log_buffer.rs). -/
inductive Kind
  | publish | subscribe | info | warning | error | debug
  deriving DecidableEq, Repr

/-- `LogLevel::from_log_type` (log.rs 52-61), in the order of `LogLevel` (21-27): trace 0 … error 4. -/
def severity : Kind → Nat
  | .error => 4
  | .warning => 3
  | .info => 2
  | .debug => 1
  | .publish => 0
  | .subscribe => 0

def lower (s : Text) : Text := s.map Char.toLower

/-- `LogLevel::from_str` (log.rs 30-39). -/
def levelOf (s : Text) : Option Nat :=
  if lower s = "trace".toList then some 0
  else if lower s = "debug".toList then some 1
  else if lower s = "info".toList then some 2
  else if lower s = "warn".toList ∨ lower s = "warning".toList then some 3
  else if lower s = "error".toList ∨ lower s = "err".toList then some 4
  else none

/-- `min_level` (log.rs 173-175). -/
def minLevel (o : Option Text) : Nat := (o.bind levelOf).getD 0

/-- A log entry, with the moment it was written, in milliseconds since 1970 (UTC). -/
structure Entry where
  kind : Kind
  node : Text
  time : Int
  deriving DecidableEq, Repr

def day : Int := 86400000

/-- The stored timestamp: the local time of day (log_bridge.rs 62-66); `zone` is the local offset from UTC. -/
def stamp (zone : Int) (e : Entry) : Int := (e.time + zone) % day

/-- `parse_entry_time` (log.rs 117-128): today's local date with the stored time of day, read as if it
were UTC, in whole seconds. -/
def wall (zone now : Int) (e : Entry) : Int := ((now + zone) / day * day + stamp zone e) / 1000 * 1000

/-- The entry passes `--since` (log.rs 243-250). -/
def recent (zone now : Int) (since : Option Nat) (e : Entry) : Bool :=
  match since with
  | none => true
  | some secs => decide (now - secs * 1000 ≤ wall zone now e)

/-- `str::contains`. -/
def holds (n s : Text) : Bool := s.tails.any fun t => n.isPrefixOf t

/-- The three filters (log.rs 230-252). -/
def passes (zone now : Int) (node : Option Text) (min : Nat) (since : Option Nat) (e : Entry) : Bool :=
  decide (min ≤ severity e.kind) && (node.all fun n => holds n e.node) && recent zone now since e

/-- The last `n` (log.rs 255-262). -/
def lastN {α : Type} (n : Nat) (l : List α) : List α := (l.reverse.take n).reverse

/-- An entry goes before the first that is not earlier. -/
def insert (zone : Int) (a : Entry) : List Entry → List Entry
  | [] => [a]
  | b :: r => if stamp zone a ≤ stamp zone b then a :: b :: r else b :: insert zone a r

/-- The order of display (log.rs 212-213): by timestamp, equal ones as they were (`sort_by` is stable). -/
def sorted (zone : Int) (l : List Entry) : List Entry := l.foldr (insert zone) []

/-- `view_logs` (log.rs 166-286): what is shown of the local and remote entries. -/
def view (zone now : Int) (node : Option Text) (min : Nat) (since : Option Nat) (count : Nat) (here remote : List Entry) : List Entry :=
  lastN count ((sorted zone (here ++ remote)).filter (passes zone now node min since))

/-- What goes into the error buffer (log_buffer.rs 511-516). -/
def errors (l : List Entry) : List Entry := l.filter fun e => e.kind = .error ∨ e.kind = .warning

/-- The buffer that is read (log.rs 199-206). -/
def buffer (min : Nat) (l : List Entry) : List Entry := if 3 ≤ min then errors l else l

/-- The outcome of reading the text after `--since` (log.rs 68-110). -/
inductive Since
  | refused
  | panics
  | secs (n : Nat)
  deriving DecidableEq, Repr

/-- `str::parse::<u64>`: an optional plus sign and digits. -/
def parseU64 (s : Text) : Option Nat :=
  let d := if s.head? = some '+' then s.tail else s
  if d ≠ [] ∧ (∀ c ∈ d, c.isDigit = true) ∧ Nat.ofDigitChars 10 d 0 < 2 ^ 64 then some (Nat.ofDigitChars 10 d 0) else none

/-- The seconds of a unit (log.rs 74-107). -/
def unit (c : Char) : Option Nat :=
  if c = 's' then some 1 else if c = 'm' then some 60 else if c = 'h' then some 3600 else if c = 'd' then some 86400 else none

/-- `parse_since` in a release build, where the product wraps; `nowSecs` is the clock, and the earliest
`SystemTime` is 2^63 seconds before 1970. -/
def parseSince (nowSecs : Nat) (s : Text) : Since :=
  match s.getLast?.bind unit with
  | none => .refused
  | some u => match parseU64 s.dropLast with
    | none => .refused
    | some n => if nowSecs + 2 ^ 63 < n * u % 2 ^ 64 then .panics else .secs (n * u % 2 ^ 64)

/-- The entries a read of the ring returns when `l` were written. -/
def ring (cap : Nat) (l : List Entry) : List Entry := l.drop (l.length - cap)

/-- One poll of `follow_logs` (log.rs 311-340): the write index was `i` when asked for and `j` when the
buffer was read. -/
def poll (cap : Nat) (l : List Entry) (last i j : Nat) : List Entry :=
  let all := ring cap (l.take j)
  all.drop (all.length - min (i - last) all.length)

/-- The polls, one after another. -/
def follow (cap : Nat) (l : List Entry) : Nat → List (Nat × Nat) → List Entry
  | _, [] => []
  | last, (i, j) :: r => poll cap l last i j ++ follow cap l i r

/-- The log files (log.rs 356-382). -/
structure Logs where
  main : List Entry
  errors : List Entry
  remote : List Entry
  files : List Text

/-- `clear_logs`; its argument is not used. -/
def clear (_all : Bool) (s : Logs) : Logs := { s with main := [], errors := [] }

/-! The bridge. Levels of the `log` crate: error 1 … trace 5. -/

/-- `init_log_bridge`'s filter (log_bridge.rs 112-118). -/
def filterOf (s : Text) : Nat :=
  if lower s = "trace".toList then 5
  else if lower s = "debug".toList then 4
  else if lower s = "info".toList then 3
  else if lower s = "error".toList then 1
  else 2

/-- A process's bridge: the level set when it was installed. `init` (log_bridge.rs 111-129) does
nothing when one is there. -/
def init (b : Option Nat) (s : Text) : Option Nat := match b with
  | some f => some f
  | none => some (filterOf s)

/-- The record is forwarded: the facade's filter, then the bridge's own, fixed at debug (98-100). -/
def forwarded (b : Option Nat) (level : Nat) : Bool := match b with
  | none => false
  | some f => decide (level ≤ f) && decide (level ≤ 4)

/-- The kind of the entry (log_bridge.rs 50-55). -/
def kindOf (level : Nat) : Kind :=
  if level = 1 then .error else if level = 2 then .warning else if level = 3 then .info else .debug

/-! ### Specification -/

/-- All entries were written on one local day. -/
def SameDay (zone : Int) (d : Int) (l : List Entry) : Prop := ∀ e ∈ l, (e.time + zone) / day = d

/-- The text is in the entry's node name. -/
def NodeMatches (node : Option Text) (e : Entry) : Prop := ∀ n, node = some n → n <:+: e.node

/-! ### Proofs: the filters -/

/-- **An entry passes the filters exactly if it is at least as severe as asked, its node's name holds the
text, and it is recent.** -/
theorem passes_iff (zone now : Int) (node : Option Text) (min : Nat) (since : Option Nat) (e : Entry) :
    passes zone now node min since e = true ↔ min ≤ severity e.kind ∧ NodeMatches node e ∧ recent zone now since e = true := by
  unfold passes NodeMatches
  cases node with
  | none => simp
  | some n =>
    have : holds n e.node = true ↔ n <:+: e.node := by
      unfold holds
      rw [List.any_eq_true]
      constructor
      · rintro ⟨t, ht, h⟩
        exact (List.isPrefixOf_iff_prefix.1 h).isInfix.trans ((List.mem_tails t e.node).1 ht).isInfix
      · rintro ⟨a, b, h⟩
        exact ⟨n ++ b, (List.mem_tails _ _).2 ⟨a, by rw [← h]; simp⟩, List.isPrefixOf_iff_prefix.2 (List.prefix_append _ _)⟩
    simp [and_assoc, this]

theorem insert_perm (zone : Int) (a : Entry) (l : List Entry) : List.Perm (insert zone a l) (a :: l) := by
  induction l with
  | nil => exact List.Perm.refl _
  | cons b r ih =>
    unfold insert
    split
    · exact List.Perm.refl _
    · exact (ih.cons b).trans (List.Perm.swap a b r)

theorem sorted_perm (zone : Int) (l : List Entry) : List.Perm (sorted zone l) l := by
  induction l with
  | nil => exact List.Perm.refl _
  | cons a r ih => exact (insert_perm zone a _).trans (ih.cons a)

theorem sorted_sorted (zone : Int) (l : List Entry) : List.Pairwise (fun a b => stamp zone a ≤ stamp zone b) (sorted zone l) := by
  have hi : ∀ (a : Entry) (r : List Entry), List.Pairwise (fun a b => stamp zone a ≤ stamp zone b) r → List.Pairwise (fun a b => stamp zone a ≤ stamp zone b) (insert zone a r) := by
    intro a r
    induction r with
    | nil => intro _; simp [insert]
    | cons b r ih =>
      intro h
      rw [List.pairwise_cons] at h
      unfold insert
      split
      · rename_i hab
        rw [List.pairwise_cons]
        refine ⟨fun x hx => ?_, List.pairwise_cons.2 h⟩
        rcases List.mem_cons.1 hx with rfl | hx
        · exact hab
        · exact Int.le_trans hab (h.1 x hx)
      · rename_i hab
        rw [List.pairwise_cons]
        refine ⟨fun x hx => ?_, ih h.2⟩
        rcases List.mem_cons.1 ((insert_perm zone a r).mem_iff.1 hx) with rfl | hx
        · omega
        · exact h.1 x hx
  induction l with
  | nil => exact List.Pairwise.nil
  | cons a r ih => exact hi a _ ih

theorem lastN_spec {α : Type} (n : Nat) (l : List α) : ∃ hidden, l = hidden ++ lastN n l ∧ (lastN n l).length = min n l.length := by
  refine ⟨(l.reverse.drop n).reverse, ?_, ?_⟩
  · unfold lastN
    rw [← List.reverse_append, List.take_append_drop, List.reverse_reverse]
  · unfold lastN
    simp

/-- **What is shown are the matching entries, as many as asked for, in the order of their times of day;
those left out are earlier in the day than those shown.** -/
theorem view_exact (zone now : Int) (node : Option Text) (min : Nat) (since : Option Nat) (count : Nat) (here remote : List Entry) :
    ∃ hidden, List.Perm (hidden ++ view zone now node min since count here remote) ((here ++ remote).filter (passes zone now node min since)) ∧
      (view zone now node min since count here remote).length = Min.min count ((here ++ remote).filter (passes zone now node min since)).length ∧
      List.Pairwise (fun a b => stamp zone a ≤ stamp zone b) (view zone now node min since count here remote) ∧
      ∀ h ∈ hidden, ∀ s ∈ view zone now node min since count here remote, stamp zone h ≤ stamp zone s := by
  have hperm : List.Perm ((sorted zone (here ++ remote)).filter (passes zone now node min since)) ((here ++ remote).filter (passes zone now node min since)) :=
    (sorted_perm zone _).filter _
  have hsort : List.Pairwise (fun a b => stamp zone a ≤ stamp zone b) ((sorted zone (here ++ remote)).filter (passes zone now node min since)) := by
    exact (sorted_sorted zone _).filter _
  obtain ⟨hidden, h1, h2⟩ := lastN_spec count ((sorted zone (here ++ remote)).filter (passes zone now node min since))
  refine ⟨hidden, ?_, ?_, ?_, ?_⟩
  · unfold view; rw [← h1]; exact hperm
  · unfold view; rw [h2, hperm.length_eq]
  · unfold view
    rw [h1, List.pairwise_append] at hsort
    exact hsort.2.1
  · unfold view
    rw [h1, List.pairwise_append] at hsort
    exact hsort.2.2

theorem same_day_order (zone d : Int) (a b : Entry) (ha : (a.time + zone) / day = d) (hb : (b.time + zone) / day = d) :
    stamp zone a ≤ stamp zone b ↔ a.time ≤ b.time := by
  unfold stamp
  unfold day at *
  omega

/-- **If all entries were written on one day, the newest matching ones are shown, oldest first.** What
is missing: logs that span a midnight. -/
theorem newest_shown_partial (zone now d : Int) (node : Option Text) (min : Nat) (since : Option Nat) (count : Nat) (here remote : List Entry)
    (hd : SameDay zone d (here ++ remote)) :
    ∃ hidden, List.Perm (hidden ++ view zone now node min since count here remote) ((here ++ remote).filter (passes zone now node min since)) ∧
      List.Pairwise (fun a b => a.time ≤ b.time) (view zone now node min since count here remote) ∧
      ∀ h ∈ hidden, ∀ s ∈ view zone now node min since count here remote, h.time ≤ s.time := by
  obtain ⟨hidden, h1, -, h3, h4⟩ := view_exact zone now node min since count here remote
  have hm : ∀ x ∈ hidden ++ view zone now node min since count here remote, (x.time + zone) / day = d := by
    intro x hx
    exact hd x (List.mem_filter.1 (h1.mem_iff.1 hx)).1
  refine ⟨hidden, h1, ?_, ?_⟩
  · refine h3.imp_of_mem ?_
    intro a b ha hb h
    exact (same_day_order zone d a b (hm a (by simp [ha])) (hm b (by simp [hb]))).1 h
  · intro h hh s hs
    exact (same_day_order zone d h s (hm h (by simp [hh])) (hm s (by simp [hs]))).1 (h4 h hh s hs)

/-- **Disagreement: after midnight the newest entries are the ones left out**: an error of one minute
past midnight is hidden by one of the evening before. -/
theorem midnight_hides :
    let evening : Entry := ⟨.error, "arm".toList, 86340000⟩
    let now : Entry := ⟨.error, "arm".toList, 86460000⟩
    view 0 86470000 none 0 none 1 [evening, now] [] = [evening] := by decide +kernel

/-- **Entries of warnings and errors are the same, whichever buffer they are read from.** -/
theorem buffer_same (zone now : Int) (node : Option Text) (min : Nat) (since : Option Nat) (l : List Entry) :
    (buffer min l).filter (passes zone now node min since) = l.filter (passes zone now node min since) := by
  unfold buffer
  by_cases h : 3 ≤ min
  · rw [if_pos h]
    unfold errors
    rw [List.filter_filter]
    apply List.filter_congr
    intro e _
    cases hp : passes zone now node min since e with
    | false => rfl
    | true =>
      have := ((passes_iff zone now node min since e).1 hp).1
      cases hk : e.kind <;> rw [hk] at this <;> simp [severity] at this ⊢ <;> omega
  · rw [if_neg h]

/-- **A level that is not known shows everything**, without a word. -/
theorem unknown_level_shows_all (s : Text) (h : levelOf s = none) (zone now : Int) (e : Entry) : passes zone now none (minLevel (some s)) none e = true := by
  rw [passes_iff]
  refine ⟨?_, fun n hn => (nomatch hn), rfl⟩
  unfold minLevel
  rw [Option.bind_some, h]
  exact Nat.zero_le _

example : levelOf "critical".toList = none := by decide

/-! ### Proofs: since -/

theorem wall_same_day (zone now : Int) (e : Entry) (h : (e.time + zone) / day = (now + zone) / day) : wall zone now e = (e.time + zone) / 1000 * 1000 := by
  unfold wall stamp
  have : (now + zone) / day * day + (e.time + zone) % day = e.time + zone := by rw [← h, Int.mul_comm]; exact Int.mul_ediv_add_emod _ _
  rw [this]

/-- **In the zone of UTC, an entry of today passes `--since` if it is at most that old, to within a
second.** What is missing: other zones and other days. -/
theorem since_exact_partial (now : Int) (secs : Nat) (e : Entry) (h : e.time / day = now / day) :
    (recent 0 now (some secs) e = true → now - e.time ≤ secs * 1000) ∧ (now - e.time ≤ secs * 1000 - 999 → recent 0 now (some secs) e = true) := by
  unfold recent
  dsimp only
  rw [wall_same_day 0 now e (by simpa using h), decide_eq_true_eq]
  constructor <;> intro h' <;> omega

/-- **Disagreement: west of Greenwich `--since` hides everything** if it is shorter than the zone's
distance from UTC: no entry of today passes, however new. -/
theorem west_hides_all (zone now : Int) (secs : Nat) (hz : secs * 1000 < -zone) (e : Entry) (he : e.time ≤ now) (h : (e.time + zone) / day = (now + zone) / day) :
    recent zone now (some secs) e = false := by
  unfold recent
  dsimp only
  rw [wall_same_day zone now e h, decide_eq_false_iff_not]
  omega

/-- **Disagreement: east of Greenwich `--since` shows entries that are older**, by up to the zone's distance. -/
theorem east_shows_older (zone now : Int) (secs : Nat) (e : Entry) (h : (e.time + zone) / day = (now + zone) / day) (ho : now - e.time ≤ secs * 1000 + zone - 999) :
    recent zone now (some secs) e = true := by
  unfold recent
  dsimp only
  rw [wall_same_day zone now e h, decide_eq_true_eq]
  omega

/-- **Disagreement: entries of other days count as today's**: one written the day before at a later time
of day passes every `--since`. -/
theorem yesterday_shown (now : Int) (secs : Nat) (e : Entry) (h : now % day / 1000 * 1000 < e.time % day / 1000 * 1000) : recent 0 now (some secs) e = true := by
  unfold recent wall stamp
  dsimp only
  rw [decide_eq_true_eq]
  unfold day at *
  simp only [Int.add_zero]
  omega

/-- **A text is refused exactly if it is not a number followed by a unit.** -/
theorem since_refused_iff (nowSecs : Nat) (s : Text) : parseSince nowSecs s = .refused ↔ ¬ ∃ n c u, s = n ++ [c] ∧ unit c = some u ∧ (parseU64 n).isSome := by
  rcases List.eq_nil_or_concat s with rfl | ⟨n, c, rfl⟩
  · constructor
    · rintro - ⟨n, c, u, h, -⟩
      simp at h
    · intro _; rfl
  · have h1 : (n ++ [c]).getLast?.bind unit = unit c := by simp
    unfold parseSince
    rw [List.concat_eq_append, h1, List.dropLast_concat]
    cases hu : unit c with
    | none =>
      refine ⟨fun _ => ?_, fun _ => rfl⟩
      rintro ⟨n', c', u, e, hu', -⟩
      obtain ⟨-, e2⟩ := List.append_inj' e rfl
      injection e2 with e2
      rw [← e2, hu] at hu'
      cases hu'
    | some u =>
      dsimp only
      cases hp : parseU64 n with
      | none =>
        refine ⟨fun _ => ?_, fun _ => rfl⟩
        rintro ⟨n', c', u', e, -, hp'⟩
        obtain ⟨e1, -⟩ := List.append_inj' e rfl
        rw [← e1, hp] at hp'
        cases hp'
      | some k =>
        dsimp only
        constructor
        · intro h
          split at h <;> cases h
        · intro h
          exact absurd ⟨n, c, u, rfl, hu, by rw [hp]; rfl⟩ h

/-- **A number and a unit mean that many seconds** — as long as the product fits 64 bits and is not
before the beginning of time. -/
theorem since_meaning_partial (nowSecs : Nat) (n : Text) (c : Char) (k u : Nat) (hu : unit c = some u) (hk : parseU64 n = some k) (h : k * u ≤ nowSecs + 2 ^ 63) (h2 : k * u < 2 ^ 64) :
    parseSince nowSecs (n ++ [c]) = .secs (k * u) := by
  have h1 : (n ++ [c]).getLast?.bind unit = unit c := by simp
  unfold parseSince
  rw [h1, hu, List.dropLast_concat]
  dsimp only
  rw [hk]
  dsimp only
  rw [Nat.mod_eq_of_lt h2, if_neg (by omega)]

/-- **Disagreement: a large number panics, and a larger one wraps** to a window of hours. -/
theorem since_panics : parseSince 1700000000 "18446744073709551615s".toList = .panics ∧ parseSince 1700000000 "213503982334602d".toList = .secs 61184 := by decide +kernel

example : parseSince 1700000000 "5m".toList = .secs 300 := by decide +kernel
example : parseSince 1700000000 "5 m".toList = .refused := by decide +kernel

/-! ### Proofs: following -/

theorem ring_take (cap : Nat) (l : List Entry) (j : Nat) (hj : j ≤ l.length) : ring cap (l.take j) = (l.take j).drop (j - cap) := by
  unfold ring
  rw [List.length_take, Nat.min_eq_left hj]

/-- What one poll shows: the newest of what it read, as many as the index had grown by when it was asked
for. -/
theorem poll_spec (cap : Nat) (l : List Entry) (last i j : Nat) (hj : j ≤ l.length) (hl : last ≤ i) (hij : i ≤ j) :
    poll cap l last i j = (l.take j).drop (j - min (i - last) cap) := by
  unfold poll
  dsimp only
  rw [ring_take cap l j hj, List.length_drop, List.length_take, Nat.min_eq_left hj, List.drop_drop]
  congr 1
  omega

/-- Polls that are not raced: the index does not move while the buffer is read, and no more arrives
between polls than the ring holds. -/
def Calm (cap len : Nat) : Nat → List (Nat × Nat) → Prop
  | _, [] => True
  | last, (i, j) :: r => j = i ∧ last ≤ i ∧ i - last ≤ cap ∧ i ≤ len ∧ Calm cap len i r

/-- **Following shows every entry written since it began, once and in order** — if nothing is written
between the two reads of a poll. -/
theorem follow_exact_partial (cap : Nat) (l : List Entry) (last : Nat) (ps : List (Nat × Nat)) (h : Calm cap l.length last ps) (hl : last ≤ l.length) :
    follow cap l last ps = (l.take ((ps.map Prod.fst).getLastD last)).drop last := by
  induction ps generalizing last with
  | nil => simp [follow]
  | cons p r ih =>
    obtain ⟨i, j⟩ := p
    obtain ⟨rfl, h1, h2, h3, h4⟩ := h
    rw [follow, poll_spec cap l last j j h3 h1 (Nat.le_refl _), ih j h4 h3, Nat.min_eq_left h2, List.map_cons, List.getLastD_cons]
    have hge : j ≤ (r.map Prod.fst).getLastD j ∧ (r.map Prod.fst).getLastD j ≤ l.length := by
      clear ih h2 h1
      induction r generalizing j with
      | nil => exact ⟨Nat.le_refl _, h3⟩
      | cons q r ih =>
        obtain ⟨a, b⟩ := q
        obtain ⟨rfl, k1, k2, k3, k4⟩ := h4
        rw [List.map_cons, List.getLastD_cons]
        have := ih b k3 k4
        exact ⟨Nat.le_trans k1 this.1, this.2⟩
    have e : j - (j - last) = last := by omega
    rw [e]
    generalize hg : (r.map Prod.fst).getLastD j = m at hge
    have : l.take j = (l.take m).take j := by rw [List.take_take, Nat.min_eq_left hge.1]
    rw [this]
    have e2 : ((l.take m).take j).drop last = ((l.take m).drop last).take (j - last) := by rw [List.drop_take]
    have e3 : (l.take m).drop j = ((l.take m).drop last).drop (j - last) := by rw [List.drop_drop]; congr 1; omega
    rw [e2, e3, List.take_append_drop]

/-- **Disagreement: an entry written while a poll reads is shown in place of an older one, and then
again**: the older one is never shown. -/
theorem raced_poll (a b : Entry) (cap : Nat) (hc : 2 ≤ cap) : follow cap [a, b] 0 [(1, 2), (2, 2)] = [b, b] := by
  unfold follow follow follow
  rw [poll_spec cap [a, b] 0 1 2 (by simp) (by omega) (by omega), poll_spec cap [a, b] 1 2 2 (by simp) (by omega) (by omega)]
  have h1 : 2 - min (1 - 0) cap = 1 := by omega
  rw [h1]
  rfl

/-- **Clearing empties the two local buffers and leaves the remote entries and the log files**, also with
`--clear-all`, which promises the files. -/
theorem clear_leaves_files (all : Bool) (s : Logs) : (clear all s).main = [] ∧ (clear all s).errors = [] ∧ (clear all s).remote = s.remote ∧ (clear all s).files = s.files := ⟨rfl, rfl, rfl, rfl⟩

/-! ### Proofs: the bridge -/

/-- **Records of the `log` facade are forwarded exactly from the level asked for** — for every level
but trace. -/
theorem forwarded_iff_partial (s : Text) (h : lower s ≠ "trace".toList) (level : Nat) : forwarded (init none s) level = true ↔ level ≤ filterOf s := by
  have : filterOf s ≤ 4 := by
    unfold filterOf
    rw [if_neg h]
    split
    · omega
    · split
      · omega
      · split <;> omega
  unfold init forwarded
  simp only [Bool.and_eq_true, decide_eq_true_eq]
  omega

/-- **The names mean their levels.** -/
theorem filter_names : filterOf "error".toList = 1 ∧ filterOf "WARN".toList = 2 ∧ filterOf "Info".toList = 3 ∧ filterOf "debug".toList = 4 := by decide

/-- **A forwarded record is shown by `horus log -l` exactly from its own level.** Levels count down in
the facade and up in the command. -/
theorem bridged_severity (level : Nat) (h1 : 1 ≤ level) (h2 : level ≤ 4) : severity (kindOf level) = 5 - level := by
  rcases (by omega : level = 1 ∨ level = 2 ∨ level = 3 ∨ level = 4) with rfl | rfl | rfl | rfl <;> rfl

/-- **Disagreement: trace records are never forwarded**, also when trace is asked for. -/
theorem trace_never (b : Option Nat) : forwarded b 5 = false := by
  unfold forwarded
  cases b <;> simp

/-- **Disagreement: `off` means warn.** -/
theorem off_is_warn : forwarded (init none "off".toList) 2 = true := by decide

/-- **The first level stays**: installing again changes nothing. -/
theorem first_level_stays (s : Text) (rest : List Text) : rest.foldl init (init none s) = some (filterOf s) := by
  have : ∀ f, rest.foldl init (some f) = some f := by
    intro f
    induction rest with
    | nil => rfl
    | cons x r ih => exact ih
  exact this _

/-! ### The hypotheses are met -/

example : SameDay 0 0 [⟨.info, "a".toList, 5⟩, ⟨.error, "arm".toList, 3⟩] := by
  intro e he
  simp only [List.mem_cons, List.not_mem_nil, or_false] at he
  rcases he with rfl | rfl <;> decide
example : view 0 100 (some "a".toList) 2 none 10 [⟨.info, "a".toList, 5⟩, ⟨.debug, "a".toList, 6⟩] [⟨.error, "arm".toList, 3⟩] = [⟨.error, "arm".toList, 3⟩, ⟨.info, "a".toList, 5⟩] := by decide +kernel
example : Calm 4 5 0 [(2, 2), (5, 5)] := by simp [Calm]
-- five hours west, one minute old, `--since 1h`
example : (3600 : Int) * 1000 < - -18000000 ∧ ((80000000 : Int) + -18000000) / day = (80060000 + -18000000) / day := by decide

end Horus.LogView
