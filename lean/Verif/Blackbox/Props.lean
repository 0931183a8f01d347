import Verif.Blackbox.Model
import Mathlib.Tactic.Common
import Mathlib.Data.List.Induction
/-
C57 (flight recorder) and C75 (reading it back).
-/
namespace Horus.Blackbox

variable {α : Type}

/-! ### Specification -/

/-- Everything recorded since the start or the last `clear`, with its tick. -/
def noteOp (s : List (Rec α) × Nat) : Op α → List (Rec α) × Nat
  | .record e => (s.1 ++ [⟨s.2, e⟩], s.2)
  | .tick => (s.1, s.2 + 1)
  | .flush => s
  | .clear => ([], 0)
/-- Specification: what a history leaves recorded, and the tick it ends on. -/
def recorded (l : List (Op α)) : List (Rec α) × Nat := l.foldl noteOp ([], 0)

/-- Everything ever recorded, with its tick, whatever was cleared. -/
def noteEver (s : List (Rec α) × Nat) : Op α → List (Rec α) × Nat
  | .record e => (s.1 ++ [⟨s.2, e⟩], s.2)
  | .tick => (s.1, s.2 + 1)
  | .flush => s
  | .clear => (s.1, 0)
/-- Specification: everything a history ever recorded, and the tick it ends on. -/
def everRecorded (l : List (Op α)) : List (Rec α) × Nat := l.foldl noteEver ([], 0)

/-- What is assumed of the JSON codec, for one record per line: it reads back what it writes, writes no
line feed, and reads neither the empty text nor a
truncated one -/
structure Codec (enc : Rec α → Bytes) (dec : Bytes → Option (Rec α)) : Prop where
  round : ∀ r, dec (enc r) = some r
  oneLine : ∀ r, (10 : UInt8) ∉ enc r
  blank : dec [] = none
  cut : ∀ r p, p <+: enc r → p ≠ enc r → dec p = none

/-! ### The buffer -/

variable (enc : Rec α → Bytes)

/-- C57: the recorder holds exactly the latest records, in order, up to its capacity, and has counted
exactly the others as lost. -/
theorem latest_kept (b : Box α) (hb : b.buffer = []) (he : b.enabled = true) (ht : b.tickCounter = 0) (hl : b.lost = 0)
    (hm : 0 < b.maxSize) (l : List (Op α)) :
    (b.ops enc l).buffer = (recorded l).1.drop ((recorded l).1.length - b.maxSize) ∧
    (b.ops enc l).lost = (recorded l).1.length - b.maxSize ∧
    (b.ops enc l).tickCounter = (recorded l).2 ∧ (b.ops enc l).enabled = true ∧ (b.ops enc l).maxSize = b.maxSize := by
  induction l using List.reverseRecOn with
  | nil => simp [Box.ops, recorded, hb, he, ht, hl]
  | append_singleton l o ih =>
    obtain ⟨i1, i2, i3, i4, i5⟩ := ih
    have hs : b.ops enc (l ++ [o]) = (b.ops enc l).op enc o := by simp [Box.ops]
    rw [hs]
    have hr : recorded (l ++ [o]) = noteOp (recorded l) o := by simp [recorded]
    rw [hr]
    generalize b.ops enc l = c at *
    cases o with
    | tick => exact ⟨i1, i2, by simp [Box.op, Box.tick, i3, noteOp], i4, i5⟩
    | clear => simp [Box.op, Box.clear, i4, i5, noteOp]
    | flush =>
      simp only [Box.op, Box.flushWal]
      cases c.wal <;> exact ⟨i1, i2, i3, i4, i5⟩
    | record e =>
      simp only [Box.op]
      have key : ∀ c' : Box α, c'.buffer = c.buffer → c'.maxSize = c.maxSize → c'.lost = c.lost →
          c'.tickCounter = c.tickCounter → c'.enabled = c.enabled →
          let r : Rec α := ⟨c.tickCounter, e⟩
          let d := if c'.buffer.length ≥ c'.maxSize then
              { c' with buffer := c'.buffer.drop 1 ++ [r], lost := c'.lost + 1 }
            else { c' with buffer := c'.buffer ++ [r] }
          d.buffer = (noteOp (recorded l) (.record e)).1.drop ((noteOp (recorded l) (.record e)).1.length - b.maxSize) ∧
          d.lost = (noteOp (recorded l) (.record e)).1.length - b.maxSize ∧
          d.tickCounter = (noteOp (recorded l) (.record e)).2 ∧ d.enabled = true ∧ d.maxSize = b.maxSize := by
        intro c' h1 h2 h3 h4 h5 r d
        have hr' : (⟨(recorded l).2, e⟩ : Rec α) = r := by rw [← i3]
        simp only [noteOp, hr']
        generalize (recorded l).1 = R at *
        have hlen : c.buffer.length = R.length - (R.length - b.maxSize) := by
          rw [i1, List.length_drop]
        have hlr : (R ++ [r]).length = R.length + 1 := by simp
        by_cases hc : c'.buffer.length ≥ c'.maxSize
        · have hd : d = { c' with buffer := c'.buffer.drop 1 ++ [r], lost := c'.lost + 1 } := if_pos hc
          rw [h1, h2, i5] at hc
          have hge : b.maxSize ≤ R.length := by omega
          rw [hd, hlr]
          refine ⟨?_, ?_, h4.trans i3, h5.trans i4, h2.trans i5⟩
          · show c'.buffer.drop 1 ++ [r] = _
            rw [h1, i1, List.drop_drop, List.drop_append_of_le_length (by omega)]
            congr 2; omega
          · show c'.lost + 1 = _
            rw [h3, i2]; omega
        · have hd : d = { c' with buffer := c'.buffer ++ [r] } := if_neg hc
          rw [h1, h2, i5] at hc
          have hlt : R.length < b.maxSize := by omega
          rw [hd, hlr]
          refine ⟨?_, ?_, h4.trans i3, h5.trans i4, h2.trans i5⟩
          · show c'.buffer ++ [r] = _
            rw [h1, i1, show R.length - b.maxSize = 0 by omega, show R.length + 1 - b.maxSize = 0 by omega]; rfl
          · show c'.lost = _
            rw [h3, i2]; omega
      unfold Box.record
      simp only [i4, Bool.true_eq_false, if_false]
      cases hw : c.wal with
      | none => exact key c rfl rfl rfl rfl rfl
      | some w =>
        simp only
        by_cases hc : c.since + 1 ≥ c.interval
        · rw [if_pos hc]
          exact key { c with wal := some (w.writeln (enc ⟨c.tickCounter, e⟩)).flush, since := 0, enabled := true } rfl rfl rfl rfl i4.symm
        · rw [if_neg hc]
          exact key { c with wal := some (w.writeln (enc ⟨c.tickCounter, e⟩)), since := c.since + 1, enabled := true } rfl rfl rfl rfl i4.symm

/-- A recorder as configured: at least a thousand records, or disabled. -/
theorem new_capacity (mb : Nat) : 1000 ≤ (Box.new mb : Box α).maxSize ∧ ((Box.new mb : Box α).enabled = true ↔ 0 < mb) := by
  refine ⟨Nat.le_max_right _ _, by simp [Box.new]⟩

/-- C57: a recorder of size zero records nothing at all. -/
theorem disabled_records_nothing (b : Box α) (he : b.enabled = false) (e : α) : b.record enc e = b := by
  simp [Box.record, he]

/-! ### The log -/

theorem write_all (w : Wal) (t : Bytes) : (w.write t).disk ++ (w.write t).buf = w.disk ++ w.buf ++ t := by
  unfold Wal.write
  split
  · simp
  · next h =>
    simp only [Wal.flush]
    by_cases h1 : t.length > bufCap - w.buf.length
    · simp only [if_pos h1]; split <;> simp
    · simp only [if_neg h1]
      split
      · next h2 =>
        have : w.buf = [] := by
          apply List.eq_nil_of_length_eq_zero; simp only [bufCap] at *; omega
        simp [this]
      · simp

theorem write_disk (w : Wal) (t : Bytes) : w.disk <+: (w.write t).disk := by
  unfold Wal.write
  split
  · exact List.prefix_refl _
  · simp only [Wal.flush]
    split <;> split <;> simp

/-- The text of a list of records in the log. -/
def text (rs : List (Rec α)) : Bytes := (rs.map fun r => enc r ++ [10]).flatten

theorem text_append (a b : List (Rec α)) : text enc (a ++ b) = text enc a ++ text enc b := by simp [text]

theorem text_single (r : Rec α) : text enc [r] = enc r ++ [10] := by simp [text]

/-- The log after a history. -/
structure LogInv (file : Bytes) (b : Box α) (rs : List (Rec α)) (w : Wal) : Prop where
  wal : b.wal = some w
  all : w.disk ++ w.buf = file ++ text enc rs
  few : b.since < b.interval
  done : b.since ≤ rs.length
  kept : file ++ text enc (rs.take (rs.length - b.since)) <+: w.disk

theorem log_step (file : Bytes) (b : Box α) (rs : List (Rec α)) (w : Wal) (h : LogInv enc file b rs w)
    (he : b.enabled = true) (o : Op α) :
    (match o with
      | .record e => ∃ w', LogInv enc file (b.op enc o) (rs ++ [⟨b.tickCounter, e⟩]) w'
      | _ => ∃ w', LogInv enc file (b.op enc o) rs w') ∧ (b.op enc o).enabled = true ∧
    (b.op enc o).interval = b.interval ∧
    (b.op enc o).tickCounter = (match o with | .tick => b.tickCounter + 1 | .clear => 0 | _ => b.tickCounter) := by
  obtain ⟨h1, h2, h3, h4, h5⟩ := h
  cases o with
  | tick => exact ⟨⟨w, h1, h2, h3, h4, h5⟩, he, rfl, rfl⟩
  | clear => exact ⟨⟨w, h1, h2, h3, h4, h5⟩, he, rfl, rfl⟩
  | flush =>
    simp only [Box.op, Box.flushWal, h1]
    refine ⟨⟨w.flush, rfl, ?_, by show 0 < b.interval; omega, Nat.zero_le _, ?_⟩, he, trivial, trivial⟩
    · simp [Wal.flush, h2]
    · simp [Wal.flush, h2]
  | record e =>
    simp only [Box.op]
    generalize hr : (⟨b.tickCounter, e⟩ : Rec α) = r
    have hall : (w.writeln (enc r)).disk ++ (w.writeln (enc r)).buf = file ++ text enc (rs ++ [r]) := by
      unfold Wal.writeln
      rw [write_all, write_all, h2, text_append, text_single]
      simp
    have hpre : w.disk <+: (w.writeln (enc r)).disk := (write_disk w _).trans (write_disk _ _)
    unfold Box.record
    simp only [he, Bool.true_eq_false, if_false, h1, hr]
    by_cases hc : b.since + 1 ≥ b.interval
    · simp only [if_pos hc]
      have hk : LogInv enc file ({ b with wal := some (w.writeln (enc r)).flush, since := 0 }) (rs ++ [r]) (w.writeln (enc r)).flush := by
        refine ⟨rfl, by simp [Wal.flush, hall], by show 0 < b.interval; omega, Nat.zero_le _, ?_⟩
        show file ++ text enc ((rs ++ [r]).take ((rs ++ [r]).length - 0)) <+: _
        rw [Nat.sub_zero, List.take_length]
        simp [Wal.flush, hall]
      split
      · exact ⟨⟨_, hk.wal, hk.all, hk.few, hk.done, hk.kept⟩, rfl, rfl, rfl⟩
      · exact ⟨⟨_, hk.wal, hk.all, hk.few, hk.done, hk.kept⟩, rfl, rfl, rfl⟩
    · simp only [if_neg hc]
      have hk : LogInv enc file ({ b with wal := some (w.writeln (enc r)), since := b.since + 1 }) (rs ++ [r]) (w.writeln (enc r)) := by
        refine ⟨rfl, hall, by show b.since + 1 < b.interval; omega, ?_, ?_⟩
        · show b.since + 1 ≤ _; simp; omega
        · have : (rs ++ [r]).take ((rs ++ [r]).length - (b.since + 1)) = rs.take (rs.length - b.since) := by
            rw [List.length_append, List.length_singleton, show rs.length + 1 - (b.since + 1) = rs.length - b.since by omega]
            rw [List.take_append_of_le_length (by omega)]
          show file ++ text enc ((rs ++ [r]).take ((rs ++ [r]).length - (b.since + 1))) <+: _
          rw [this]
          exact h5.trans hpre
      split
      · exact ⟨⟨_, hk.wal, hk.all, hk.few, hk.done, hk.kept⟩, rfl, rfl, rfl⟩
      · exact ⟨⟨_, hk.wal, hk.all, hk.few, hk.done, hk.kept⟩, rfl, rfl, rfl⟩

/-- A recorder that logs to a file holding `file`. -/
theorem log_inv (b : Box α) (file : Bytes) (hw : b.wal = some ⟨file, []⟩) (he : b.enabled = true)
    (hs : b.since = 0) (hi : 0 < b.interval) (ht : b.tickCounter = 0) (l : List (Op α)) :
    ∃ w, LogInv enc file (b.ops enc l) (everRecorded l).1 w ∧ (b.ops enc l).enabled = true ∧
      (b.ops enc l).interval = b.interval ∧ (b.ops enc l).tickCounter = (everRecorded l).2 := by
  induction l using List.reverseRecOn with
  | nil =>
    refine ⟨⟨file, []⟩, ⟨hw, ?_, ?_, ?_, ?_⟩, he, rfl, ht⟩
    · simp [everRecorded, text]
    · show b.since < b.interval; omega
    · show b.since ≤ _; omega
    · simp [everRecorded, text]
  | append_singleton l o ih =>
    obtain ⟨w, i1, i2, i3, i4⟩ := ih
    have hstep : b.ops enc (l ++ [o]) = (b.ops enc l).op enc o := by simp [Box.ops]
    have hr : everRecorded (l ++ [o]) = noteEver (everRecorded l) o := by simp [everRecorded]
    have hs := log_step enc file _ _ w i1 i2 o
    rw [hstep, hr]
    cases o with
    | record e =>
      obtain ⟨⟨w', k1⟩, k2, k3, k4⟩ := hs
      exact ⟨w', by simp only [noteEver]; rw [← i4]; exact k1, k2, k3.trans i3, k4.trans i4⟩
    | tick =>
      obtain ⟨⟨w', k1⟩, k2, k3, k4⟩ := hs
      exact ⟨w', k1, k2, k3.trans i3, by rw [k4]; simp only; rw [i4]; rfl⟩
    | flush =>
      obtain ⟨⟨w', k1⟩, k2, k3, k4⟩ := hs
      exact ⟨w', k1, k2, k3.trans i3, k4.trans i4⟩
    | clear =>
      obtain ⟨⟨w', k1⟩, k2, k3, k4⟩ := hs
      exact ⟨w', k1, k2, k3.trans i3, k4⟩

/-! ### Reading the log back -/

theorem lines_ne (b : Bytes) : lines b ≠ [] := by
  cases b with
  | nil => simp [lines]
  | cons c cs =>
    unfold lines
    split
    · simp
    · split <;> simp

theorem lines_noLF (t : Bytes) (ht : (10 : UInt8) ∉ t) : lines t = [t] := by
  induction t with
  | nil => rfl
  | cons c cs ih =>
    simp only [List.mem_cons, not_or] at ht
    have : ¬ c = 10 := fun h => ht.1 h.symm
    simp [lines, this, ih ht.2]

theorem lines_cons_line (t rest : Bytes) (ht : (10 : UInt8) ∉ t) : lines (t ++ 10 :: rest) = t :: lines rest := by
  induction t with
  | nil => simp [lines]
  | cons c cs ih =>
    simp only [List.mem_cons, not_or] at ht
    have : ¬ c = 10 := fun h => ht.1 h.symm
    simp [lines, this, ih ht.2]

/-- A file that does not end inside a line. -/
def Whole (file : Bytes) : Prop := file = [] ∨ ∃ f, file = f ++ [10]

theorem lines_append_whole (f rest : Bytes) : lines (f ++ 10 :: rest) = lines f ++ lines rest := by
  induction f with
  | nil => simp [lines]
  | cons c cs ih =>
    simp only [List.cons_append, lines]
    split
    · simp [ih]
    · rw [ih]
      cases h : lines cs with
      | nil => exact absurd h (lines_ne cs)
      | cons x xs => simp

variable {enc} {dec : Bytes → Option (Rec α)}

/-- Any part of the text of some records, cut anywhere, reads back as the first records, at least those
that are complete in it. -/
theorem loadWal_cut (hc : Codec enc dec) (rs : List (Rec α)) :
    ∀ (p : Bytes) (n : Nat), p <+: text enc rs → n ≤ rs.length → text enc (rs.take n) <+: p →
    ∃ k, n ≤ k ∧ k ≤ rs.length ∧ loadWal dec p = rs.take k := by
  induction rs with
  | nil =>
    intro p n hp hn _
    have : p = [] := by simpa [text] using hp
    subst this
    refine ⟨0, hn, Nat.le_refl _, ?_⟩
    simp [loadWal, lines, hc.blank]
  | cons r rs ih =>
    intro p n hp hn hk
    have ht : text enc (r :: rs) = (enc r ++ [10]) ++ text enc rs := by simp [text]
    have hlf := hc.oneLine r
    rw [ht] at hp
    by_cases hl : p.length ≤ (enc r).length
    · have hpr : p <+: enc r :=
        List.prefix_of_prefix_length_le hp (by rw [List.append_assoc]; exact List.prefix_append _ _) hl
      have hn0 : n = 0 := by
        cases n with
        | zero => rfl
        | succ n =>
          have := hk.length_le
          rw [List.take_succ_cons, text, List.map_cons, List.flatten_cons] at this
          simp at this
          omega
      subst hn0
      have hp10 : (10 : UInt8) ∉ p := fun h => hlf (hpr.subset h)
      by_cases he : p = enc r
      · refine ⟨1, by omega, by simp, ?_⟩
        rw [loadWal, lines_noLF p hp10, he]; simp [hc.round]
      · refine ⟨0, by omega, by simp, ?_⟩
        simp [loadWal, lines_noLF p hp10, hc.cut r p hpr he]
    · have hpr : enc r ++ [10] <+: p :=
        List.prefix_of_prefix_length_le (List.prefix_append _ _) hp (by simp; omega)
      obtain ⟨q, rfl⟩ := hpr
      have hq : q <+: text enc rs := (List.prefix_append_right_inj _).1 hp
      have hload : loadWal dec (enc r ++ [10] ++ q) = r :: loadWal dec q := by
        rw [List.append_assoc, List.singleton_append, loadWal, lines_cons_line _ _ hlf]
        simp [hc.round, loadWal]
      cases n with
      | zero =>
        obtain ⟨k, _, k2, k3⟩ := ih q 0 hq (by omega) (by simp [text])
        exact ⟨k + 1, by omega, by simp; omega, by rw [hload, k3, List.take_succ_cons]⟩
      | succ n =>
        have hk' : text enc (rs.take n) <+: q := by
          have : text enc ((r :: rs).take (n + 1)) = (enc r ++ [10]) ++ text enc (rs.take n) := by simp [text]
          rw [this] at hk
          exact (List.prefix_append_right_inj _).1 hk
        obtain ⟨k, k1, k2, k3⟩ := ih q n hq (by simp at hn; omega) hk'
        exact ⟨k + 1, by omega, by simp; omega, by rw [hload, k3, List.take_succ_cons]⟩

theorem loadWal_whole (hc : Codec enc dec) (file : Bytes) (hf : Whole file) (p : Bytes) :
    loadWal dec (file ++ p) = loadWal dec file ++ loadWal dec p := by
  rcases hf with rfl | ⟨f, rfl⟩
  · simp [loadWal, lines, hc.blank]
  · rw [List.append_assoc, List.singleton_append, loadWal, lines_append_whole, loadWal, lines_append_whole]
    simp [lines, hc.blank, loadWal]

/-- C57: whenever the process dies, reading the log gives what the file held before, and then all records
in order except for fewer than `interval` of the last. -/
theorem crash_loses_few (hc : Codec enc dec) (b : Box α) (file : Bytes) (hw : b.wal = some ⟨file, []⟩)
    (he : b.enabled = true) (hs : b.since = 0) (hi : 0 < b.interval) (ht : b.tickCounter = 0)
    (hf : Whole file) (l : List (Op α)) :
    ∃ w, (b.ops enc l).wal = some w ∧
      ∃ k, loadWal dec w.disk = loadWal dec file ++ (everRecorded l).1.take k ∧
        (everRecorded l).1.length < k + b.interval ∧ k ≤ (everRecorded l).1.length := by
  obtain ⟨w, h, _, h3, _⟩ := log_inv enc b file hw he hs hi ht l
  refine ⟨w, h.wal, ?_⟩
  have hfw : file <+: w.disk := (List.prefix_append _ _).trans h.kept
  obtain ⟨p, hp⟩ := hfw
  have hpt : p <+: text enc (everRecorded l).1 := by
    have : w.disk <+: file ++ text enc (everRecorded l).1 := ⟨w.buf, h.all⟩
    rw [← hp] at this
    exact (List.prefix_append_right_inj _).1 this
  have hk := h.kept
  rw [← hp] at hk
  have hk' := (List.prefix_append_right_inj _).1 hk
  obtain ⟨k, k1, k2, k3⟩ := loadWal_cut hc (everRecorded l).1 p _ hpt (Nat.sub_le _ _) hk'
  refine ⟨k, by rw [← hp, loadWal_whole hc file hf, k3], ?_, k2⟩
  have := h.few
  have := h.done
  rw [h3] at *
  omega

/-- C57: after a flush nothing is missing. -/
theorem flush_complete (hc : Codec enc dec) (b : Box α) (file : Bytes) (hw : b.wal = some ⟨file, []⟩)
    (he : b.enabled = true) (hs : b.since = 0) (hi : 0 < b.interval) (ht : b.tickCounter = 0)
    (hf : Whole file) (l : List (Op α)) :
    ∃ w, ((b.ops enc l).flushWal).wal = some w ∧
      loadWal dec w.disk = loadWal dec file ++ (everRecorded l).1 ∧ Whole w.disk := by
  obtain ⟨w, h, _, h3, _⟩ := log_inv enc b file hw he hs hi ht l
  refine ⟨w.flush, by simp [Box.flushWal, h.wal], ?_, ?_⟩
  · show loadWal dec (w.disk ++ w.buf) = _
    rw [h.all, loadWal_whole hc file hf]
    congr 1
    obtain ⟨k, k1, k2, k3⟩ := loadWal_cut hc (everRecorded l).1 (text enc (everRecorded l).1) (everRecorded l).1.length
      (List.prefix_refl _) (Nat.le_refl _) (by rw [List.take_length]; exact List.prefix_refl _)
    rw [k3, show k = (everRecorded l).1.length by omega, List.take_length]
  · show Whole (w.disk ++ w.buf)
    rw [h.all]
    generalize (everRecorded l).1 = rs
    induction rs using List.reverseRecOn with
    | nil => simpa [text] using hf
    | append_singleton rs r _ =>
      right
      exact ⟨file ++ text enc rs ++ enc r, by simp [text_append, text_single]⟩

/-- C57 for a recorder as it is set up: of whatever size, with whatever flush interval `n` (0 counts as
1), on a log that earlier runs have left. Whenever the process dies, the reader shows what the log held
before and all records of this run but fewer than the interval of the last; after a flush, all. A
snapshot beside the log is not looked at. -/
theorem reader_shows_log (hc : Codec enc dec) (mb n : Nat) (hmb : 0 < mb) (file : Bytes) (hf : Whole file) (l : List (Op α))
    (json : Option (Snapshot α)) :
    let b := (((Box.new mb : Box α).withInterval n).withPath file).ops enc l
    (∃ w, b.wal = some w ∧ ∃ k, loadRecords dec (some w.disk) json = some (loadWal dec file ++ (everRecorded l).1.take k) ∧
      (everRecorded l).1.length < k + max n 1 ∧ k ≤ (everRecorded l).1.length) ∧
    ∃ w, b.flushWal.wal = some w ∧ loadRecords dec (some w.disk) json = some (loadWal dec file ++ (everRecorded l).1) := by
  have he : (((Box.new mb : Box α).withInterval n).withPath file).enabled = true := by
    simp [Box.withPath, Box.withInterval, Box.new, hmb]
  have hi : 0 < (((Box.new mb : Box α).withInterval n).withPath file).interval := by
    show 0 < max n 1
    omega
  obtain ⟨w, h1, k, h2, h3, h4⟩ := crash_loses_few hc (((Box.new mb : Box α).withInterval n).withPath file) file rfl he rfl hi rfl hf l
  obtain ⟨w', g1, g2, _⟩ := flush_complete hc (((Box.new mb : Box α).withInterval n).withPath file) file rfl he rfl hi rfl hf l
  exact ⟨⟨w, h1, k, by simp [loadRecords, h2], h3, h4⟩, w', g1, by simp [loadRecords, g2]⟩

/-! ### Restart -/

/-- C75: the snapshot of a clean shutdown restores the records and the count of lost ones. -/
theorem load_save (encS : Snapshot α → Bytes) (decS : Bytes → Option (Snapshot α)) (hS : ∀ s, decS (encS s) = some s)
    (b c : Box α) : ∃ d, c.load decS (some (encS b.snapshot)) = some d ∧ d.buffer = b.buffer ∧ d.lost = b.lost := by
  refine ⟨c.restore b.snapshot, by simp [Box.load, hS], rfl, rfl⟩

/-- A snapshot of an older version has no count of lost records: none is assumed, whatever was counted
before. -/
theorem load_old (decS : Bytes → Option (Snapshot α)) (text : Bytes) (es : List (Rec α)) (h : decS text = some (.bare es)) (c : Box α) :
    ∃ d, c.load decS (some text) = some d ∧ d.buffer = es ∧ d.lost = 0 :=
  ⟨c.restore (.bare es), by simp [Box.load, h], rfl, rfl⟩

/-- Disagreement with C75: a crash while the snapshot is written leaves a file that cannot be loaded, and
the previous snapshot is gone. -/
theorem crash_during_save_loses_snapshot (encS : Snapshot α → Bytes) (decS : Bytes → Option (Snapshot α))
    (hcut : ∀ s p, p <+: encS s → p ≠ encS s → decS p = none) (b c : Box α) (k : Nat)
    (hk : k < (encS b.snapshot).length) : c.load decS (some (savedUpTo encS b k)) = none := by
  have : decS ((encS b.snapshot).take k) = none := by
    apply hcut b.snapshot _ (List.take_prefix _ _)
    intro h
    have := congrArg List.length h
    simp at this
    omega
  simp [Box.load, savedUpTo, this]

/-- Disagreement with C75: the command that shows the recorder reads the snapshot in the old format only,
so without a log it shows nothing of what `save` wrote. -/
theorem reader_refuses_snapshot (b : Box α) : loadRecords dec none (some b.snapshot) = none := rfl

/-- A snapshot from a larger recorder is loaded whole: the buffer then stays above its capacity. -/
theorem load_exceeds_capacity (b : Box α) (es : List (Rec α)) (n : Nat) (h : b.maxSize < es.length) :
    b.maxSize < (b.restore (.withLoss n es)).buffer.length := h

/-- Disagreement with C57 across restarts: if the log ends inside a line, the first record of the next run
is joined to it and lost, whatever is flushed. -/
theorem torn_line_swallows_next (hc : Codec enc dec) (p : Bytes) (hp : (10 : UInt8) ∉ p) (r : Rec α)
    (hj : dec (p ++ enc r) = none) (rs : List (Rec α)) :
    loadWal dec (p ++ text enc (r :: rs)) = rs := by
  have h1 : p ++ text enc (r :: rs) = (p ++ enc r) ++ 10 :: text enc rs := by simp [text]
  have hn : (10 : UInt8) ∉ p ++ enc r := by
    rw [List.mem_append]; rintro (h | h)
    · exact hp h
    · exact hc.oneLine r h
  rw [h1, loadWal, lines_cons_line _ _ hn, List.filterMap_cons, hj]
  obtain ⟨k, k1, k2, k3⟩ := loadWal_cut hc rs (text enc rs) rs.length (List.prefix_refl _) (Nat.le_refl _) (by rw [List.take_length]; exact List.prefix_refl _)
  have : k = rs.length := by omega
  rw [this, List.take_length] at k3
  exact k3

/-! ### Examples -/

/-- A small codec: `{`, the tick as that many `1`s, `,`, the event likewise, `}`. -/
def exEnc (r : Rec Nat) : Bytes := 123 :: (List.replicate r.tick 49 ++ 44 :: (List.replicate r.event 50 ++ [125]))
/-- The reader of the small codec. -/
def exDec (b : Bytes) : Option (Rec Nat) :=
  let r : Rec Nat := ⟨b.count 49, b.count 50⟩
  if b = exEnc r then some r else none

theorem exCodec : Codec exEnc exDec := by
  have hcnt : ∀ r : Rec Nat, (exEnc r).count 49 = r.tick ∧ (exEnc r).count 50 = r.event ∧ (exEnc r).count 125 = 1 := by
    intro r
    refine ⟨?_, ?_, ?_⟩ <;> simp [exEnc, List.count_append, List.count_cons, List.count_replicate]
  refine ⟨?_, ?_, by decide, ?_⟩
  · intro r; obtain ⟨h1, h2, _⟩ := hcnt r; simp [exDec, h1, h2]
  · intro r; simp [exEnc, List.mem_replicate]
  · intro r p hp hne
    unfold exDec
    simp only
    split
    · next h =>
      exfalso
      obtain ⟨q, hq⟩ := hp
      have hc1 : p.count 125 = 1 := by rw [h]; exact (hcnt _).2.2
      have hc2 := (hcnt r).2.2
      rw [← hq, List.count_append, hc1] at hc2
      have hq0 : q.count 125 = 0 := by omega
      -- the text ends with the closing brace, so the rest is empty
      rcases List.eq_nil_or_concat q with rfl | ⟨q', c, rfl⟩
      · exact hne (by simpa using hq)
      · have hl : (exEnc r).getLast? = some 125 := by
          have : exEnc r = (123 :: (List.replicate r.tick 49 ++ 44 :: List.replicate r.event 50)) ++ [125] := by simp [exEnc]
          rw [this, List.getLast?_append]; rfl
        rw [← hq] at hl
        simp at hl
        subst hl
        simp at hq0
    · rfl

/-- A recorder of one megabyte flushing every 2 records, logging to an empty file, meets the hypotheses; after
three records the log shows two. -/
example :
    let b : Box Nat := ((Box.new 1).withInterval 2).withPath []
    b.wal = some ⟨[], []⟩ ∧ b.enabled = true ∧ b.since = 0 ∧ 0 < b.interval ∧ b.tickCounter = 0 ∧ Whole [] ∧
    ((b.ops exEnc [.record 3, .tick, .record 1, .record 4]).wal.map fun w => loadWal exDec w.disk) = some [⟨0, 3⟩, ⟨1, 1⟩] := by
  refine ⟨rfl, rfl, rfl, by decide, rfl, .inl rfl, by decide +kernel⟩

/-- The log is really torn by a crash: a record larger than the buffer reaches the file without its line
feed. -/
theorem log_can_be_torn : ∃ (w : Wal) (t : Bytes), (10 : UInt8) ∉ t ∧ (w.writeln t).disk = t ∧ (w.writeln t).buf = [10] := by
  have key : ∀ t : Bytes, t.length = 8192 → (Wal.writeln ⟨[], []⟩ t).disk = t ∧ (Wal.writeln ⟨[], []⟩ t).buf = [10] := by
    intro t ht
    simp [Wal.writeln, Wal.write, bufCap, ht]
  refine ⟨⟨[], []⟩, List.replicate 8192 50, ?_, key _ List.length_replicate⟩
  rw [List.mem_replicate]; rintro ⟨_, h⟩; exact absurd h (by decide)

end Horus.Blackbox
