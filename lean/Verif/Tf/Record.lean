import Mathlib.Data.List.Basic
/-
Recording coordinate transforms to a `.tfr` file and reading it back: `horus tf record` and the reader
used by `horus tf play` and `horus tf diff`.
Source: /repo/horus_manager/src/commands/tf.rs:1053-1295.
Simplifications: bytes of an entry are an arbitrary fixed-length code; one write either appends all its
bytes or a strict part of them (disk full); the start time and the progress line are left out.
-/
namespace Horus.TfRecord

/-- tf.rs:1083-1092 `TfrEntry`: tag, time offset, child frame and the rest of the transform. -/
structure Entry (V : Type) where
  static : Bool
  offset : Nat
  child : Nat
  value : V
deriving DecidableEq

/-- The in-memory form of an entry (a `repr(C)` struct) as bytes: all entries have the same size and
bytes determine the entry. -/
structure Code (V : Type) where
  size : Nat
  pos : 0 < size
  enc : Entry V → List Nat
  dec : List Nat → Entry V
  len : ∀ e, (enc e).length = size
  inv : ∀ e, dec (enc e) = e

/-- A `.tfr` file: the entry count of the header and the bytes after it. -/
structure File where
  count : Nat
  body : List Nat
deriving DecidableEq

/-- What the recorder holds (tf.rs:1141-1142) and the file. -/
structure St where
  file : File
  written : Nat
  seen : List Nat
deriving DecidableEq

/-- tf.rs:1122-1139: the file is created with a count of zero. -/
def St.new : St := ⟨⟨0, []⟩, 0, []⟩

/-- tf.rs:1170-1173, 1196-1199: `write_all` of one entry. `fail` is the number of bytes that got onto
the disk before an error, if there was one. -/
def write {V : Type} (C : Code V) (s : St) (e : Entry V) (fail : Option Nat) : St × Bool :=
  match fail with
  | none => (⟨⟨s.file.count, s.file.body ++ C.enc e⟩, s.written + 1, s.seen⟩, true)
  | some k => (⟨⟨s.file.count, s.file.body ++ (C.enc e).take k⟩, s.written, s.seen⟩, false)

/-- A transform as it arrives. -/
structure Stamped (V : Type) where
  child : Nat
  value : V

/-- tf.rs:1156-1175: a dynamic transform is always written. -/
def dynamic {V : Type} (C : Code V) (off : Nat) (s : St) (x : Stamped V × Option Nat) : St :=
  (write C s ⟨false, off, x.1.child, x.1.value⟩ x.2).1

/-- tf.rs:1181-1203: a static transform is written the first time its frame is seen, with offset zero. -/
def fixed {V : Type} (C : Code V) (s : St) (x : Stamped V × Option Nat) : St :=
  if x.1.child ∈ s.seen then s
  else
    match write C s ⟨true, 0, x.1.child, x.1.value⟩ x.2 with
    | (s', true) => { s' with seen := x.1.child :: s'.seen }
    | (s', false) => s'

/-- One turn of the loop (tf.rs:1148-1218): the messages that were there, and which writes failed. -/
structure Turn (V : Type) where
  offset : Nat
  dyn : List (Stamped V × Option Nat)
  sta : List (Stamped V × Option Nat)

def turn {V : Type} (C : Code V) (s : St) (t : Turn V) : St :=
  t.sta.foldl (fixed C) (t.dyn.foldl (dynamic C t.offset) s)

/-- The loop over all turns. -/
def loop {V : Type} (C : Code V) (ts : List (Turn V)) : St := ts.foldl (turn C) St.new

/-- tf.rs:1220-1240: the header is rewritten with the final count. -/
def close (s : St) : File := ⟨s.written, s.file.body⟩

/-- tf.rs:1281-1292: entries are read until the count is reached or the file ends. -/
def readN {V : Type} (C : Code V) : Nat → List Nat → List (Entry V)
  | 0, _ => []
  | n + 1, b => if b.length < C.size then [] else C.dec (b.take C.size) :: readN C n (b.drop C.size)

/-- tf.rs:1253-1295 `read_tfr_file` after the checks of magic and version; `none` is the panic of
`Vec::with_capacity` when the count asks for more than 2^63 - 1 bytes. -/
def read {V : Type} (C : Code V) (f : File) : Option (List (Entry V)) :=
  if f.count * C.size > 2 ^ 63 - 1 then none else some (readN C f.count f.body)

/- Specification. -/

/-- The entries a recording of these turns should hold: every dynamic transform, and each static one
whose frame has not been recorded as static before. -/
def expected {V : Type} : List Nat → List (Turn V) → List (Entry V)
  | _, [] => []
  | seen, t :: ts =>
    let sta := t.sta.foldl (fun (p : List Nat × List (Entry V)) x =>
      if x.1.child ∈ p.1 then p else (x.1.child :: p.1, p.2 ++ [⟨true, 0, x.1.child, x.1.value⟩])) (seen, [])
    t.dyn.map (fun x => ⟨false, t.offset, x.1.child, x.1.value⟩) ++ sta.2 ++ expected sta.1 ts

/-- No write fails. -/
def Healthy {V : Type} (ts : List (Turn V)) : Prop := ∀ t ∈ ts, (∀ x ∈ t.dyn, x.2 = none) ∧ ∀ x ∈ t.sta, x.2 = none

/-- The file holds exactly these entries. -/
def Holds {V : Type} (C : Code V) (s : St) (l : List (Entry V)) : Prop :=
  s.file.body = l.flatMap C.enc ∧ s.written = l.length ∧ s.file.count = 0

/- Proofs. -/

theorem write_holds {V : Type} (C : Code V) {s : St} {l : List (Entry V)} (h : Holds C s l) (e : Entry V) :
    Holds C (write C s e none).1 (l ++ [e]) := by
  obtain ⟨h1, h2, h3⟩ := h
  refine ⟨?_, ?_, h3⟩
  · simp [write, h1]
  · simp [write, h2]

theorem dyn_holds {V : Type} (C : Code V) (off : Nat) (xs : List (Stamped V × Option Nat)) (hn : ∀ x ∈ xs, x.2 = none)
    {s : St} {l : List (Entry V)} (h : Holds C s l) :
    Holds C (xs.foldl (dynamic C off) s) (l ++ xs.map fun x => ⟨false, off, x.1.child, x.1.value⟩) ∧
    (xs.foldl (dynamic C off) s).seen = s.seen := by
  induction xs generalizing s l with
  | nil => exact ⟨by simpa using h, rfl⟩
  | cons x t ih =>
    have hx := hn x List.mem_cons_self
    rw [List.foldl_cons]
    have hs : dynamic C off s x = (write C s ⟨false, off, x.1.child, x.1.value⟩ none).1 := by rw [dynamic, hx]
    have := ih (fun y hy => hn y (List.mem_cons_of_mem _ hy)) (s := dynamic C off s x) (l := l ++ [⟨false, off, x.1.child, x.1.value⟩])
      (by rw [hs]; exact write_holds C h _)
    rw [List.map_cons]
    refine ⟨by simpa using this.1, ?_⟩
    rw [this.2, hs]; rfl

theorem sta_holds {V : Type} (C : Code V) (xs : List (Stamped V × Option Nat)) (hn : ∀ x ∈ xs, x.2 = none)
    {s : St} {l acc : List (Entry V)} (h : Holds C s (l ++ acc)) :
    Holds C (xs.foldl (fixed C) s) (l ++ (xs.foldl (fun (p : List Nat × List (Entry V)) x =>
      if x.1.child ∈ p.1 then p else (x.1.child :: p.1, p.2 ++ [⟨true, 0, x.1.child, x.1.value⟩])) (s.seen, acc)).2) ∧
    (xs.foldl (fixed C) s).seen = (xs.foldl (fun (p : List Nat × List (Entry V)) x =>
      if x.1.child ∈ p.1 then p else (x.1.child :: p.1, p.2 ++ [⟨true, 0, x.1.child, x.1.value⟩])) (s.seen, acc)).1 := by
  induction xs generalizing s acc with
  | nil => exact ⟨h, rfl⟩
  | cons x t ih =>
    have hx := hn x List.mem_cons_self
    rw [List.foldl_cons, List.foldl_cons]
    by_cases hm : x.1.child ∈ s.seen
    · have e : fixed C s x = s := by rw [fixed, if_pos hm]
      rw [e]
      dsimp only
      rw [if_pos hm]
      exact ih (fun y hy => hn y (List.mem_cons_of_mem _ hy)) h
    · have e : fixed C s x = { (write C s ⟨true, 0, x.1.child, x.1.value⟩ none).1 with seen := x.1.child :: s.seen } := by
        rw [fixed, if_neg hm, hx]; rfl
      dsimp only
      rw [if_neg hm]
      have hw := write_holds C h ⟨true, 0, x.1.child, x.1.value⟩
      have := ih (fun y hy => hn y (List.mem_cons_of_mem _ hy)) (s := fixed C s x)
        (acc := acc ++ [⟨true, 0, x.1.child, x.1.value⟩]) (by rw [e]; rw [List.append_assoc] at hw; exact hw)
      have hseen : (fixed C s x).seen = x.1.child :: s.seen := by rw [e]
      rw [hseen] at this
      exact this

theorem loop_holds {V : Type} (C : Code V) (ts : List (Turn V)) (hh : Healthy ts) (s : St) (l : List (Entry V)) (h : Holds C s l) :
    Holds C (ts.foldl (turn C) s) (l ++ expected s.seen ts) := by
  induction ts generalizing s l with
  | nil => simpa [expected] using h
  | cons t ts ih =>
    have ht := hh t List.mem_cons_self
    rw [List.foldl_cons]
    have hd := dyn_holds C t.offset t.dyn ht.1 h
    have hs := sta_holds C t.sta ht.2 (acc := []) (by simpa using hd.1)
    rw [hd.2] at hs
    have := ih (fun y hy => hh y (List.mem_cons_of_mem _ hy)) (turn C s t) _ hs.1
    have e : (turn C s t).seen = _ := hs.2
    rw [e] at this
    unfold expected
    dsimp only
    simpa [List.append_assoc] using this

theorem readN_all {V : Type} (C : Code V) (l : List (Entry V)) (extra : List Nat) :
    readN C l.length (l.flatMap C.enc ++ extra) = l := by
  induction l with
  | nil => rfl
  | cons e t ih =>
    rw [List.length_cons, readN, List.flatMap_cons, List.append_assoc]
    have hlen := C.len e
    rw [if_neg (by simp [hlen]), List.take_left' hlen, List.drop_left' hlen, ih, C.inv]

/-- C205. When every write succeeds and the recording is ended normally, reading the file gives back
exactly the transforms that arrived, in order: every dynamic one with its time, and each static frame
once. -/
theorem read_back_partial {V : Type} (C : Code V) (ts : List (Turn V)) (hh : Healthy ts)
    (hsz : (expected [] ts).length * C.size ≤ 2 ^ 63 - 1) :
    read C (close (loop C ts)) = some (expected [] ts) := by
  have h := loop_holds C ts hh St.new [] ⟨rfl, rfl, rfl⟩
  obtain ⟨h1, h2, -⟩ := h
  rw [List.nil_append] at h1 h2
  have e2 : (loop C ts).written = (expected [] ts).length := h2
  have e1 : (loop C ts).file.body = (expected [] ts).flatMap C.enc := h1
  unfold read close
  dsimp only
  rw [e2, if_neg (by omega), e1]
  have := readN_all C (expected [] ts) []
  rw [List.append_nil] at this
  rw [this]

/-- The entries whose write succeeded: every dynamic transform, and each static one whose frame has not
been written as static before. -/
def landed {V : Type} : List Nat → List (Turn V) → List (Entry V)
  | _, [] => []
  | seen, t :: ts =>
    let sta := t.sta.foldl (fun (p : List Nat × List (Entry V)) x =>
      if x.1.child ∈ p.1 ∨ x.2 ≠ none then p else (x.1.child :: p.1, p.2 ++ [⟨true, 0, x.1.child, x.1.value⟩])) (seen, [])
    (t.dyn.filter fun x => x.2 = none).map (fun x => ⟨false, t.offset, x.1.child, x.1.value⟩) ++ sta.2 ++ landed sta.1 ts

/-- A write that fails leaves nothing on the disk. -/
def Clean {V : Type} (ts : List (Turn V)) : Prop := ∀ t ∈ ts, (∀ x ∈ t.dyn, x.2 = none ∨ x.2 = some 0) ∧ ∀ x ∈ t.sta, x.2 = none ∨ x.2 = some 0

theorem write_failed {V : Type} (C : Code V) (s : St) (e : Entry V) : write C s e (some 0) = (s, false) := by
  unfold write
  simp

theorem dyn_landed {V : Type} (C : Code V) (off : Nat) (xs : List (Stamped V × Option Nat)) (hn : ∀ x ∈ xs, x.2 = none ∨ x.2 = some 0)
    {s : St} {l : List (Entry V)} (h : Holds C s l) :
    Holds C (xs.foldl (dynamic C off) s) (l ++ (xs.filter fun x => x.2 = none).map fun x => ⟨false, off, x.1.child, x.1.value⟩) ∧
    (xs.foldl (dynamic C off) s).seen = s.seen := by
  induction xs generalizing s l with
  | nil => exact ⟨by simpa using h, rfl⟩
  | cons x t ih =>
    have ht : ∀ y ∈ t, y.2 = none ∨ y.2 = some 0 := fun y hy => hn y (List.mem_cons_of_mem _ hy)
    rw [List.foldl_cons]
    rcases hn x List.mem_cons_self with hx | hx
    · have hs : dynamic C off s x = (write C s ⟨false, off, x.1.child, x.1.value⟩ none).1 := by rw [dynamic, hx]
      have := ih ht (s := dynamic C off s x) (l := l ++ [⟨false, off, x.1.child, x.1.value⟩]) (by rw [hs]; exact write_holds C h _)
      rw [List.filter_cons, if_pos (by simp [hx]), List.map_cons]
      refine ⟨by simpa using this.1, ?_⟩
      rw [this.2, hs]; rfl
    · have hs : dynamic C off s x = s := by rw [dynamic, hx, write_failed]
      rw [hs, List.filter_cons, if_neg (by simp [hx])]
      exact ih ht h

theorem sta_landed {V : Type} (C : Code V) (xs : List (Stamped V × Option Nat)) (hn : ∀ x ∈ xs, x.2 = none ∨ x.2 = some 0)
    {s : St} {l acc : List (Entry V)} (h : Holds C s (l ++ acc)) :
    Holds C (xs.foldl (fixed C) s) (l ++ (xs.foldl (fun (p : List Nat × List (Entry V)) x =>
      if x.1.child ∈ p.1 ∨ x.2 ≠ none then p else (x.1.child :: p.1, p.2 ++ [⟨true, 0, x.1.child, x.1.value⟩])) (s.seen, acc)).2) ∧
    (xs.foldl (fixed C) s).seen = (xs.foldl (fun (p : List Nat × List (Entry V)) x =>
      if x.1.child ∈ p.1 ∨ x.2 ≠ none then p else (x.1.child :: p.1, p.2 ++ [⟨true, 0, x.1.child, x.1.value⟩])) (s.seen, acc)).1 := by
  induction xs generalizing s acc with
  | nil => exact ⟨h, rfl⟩
  | cons x t ih =>
    have ht : ∀ y ∈ t, y.2 = none ∨ y.2 = some 0 := fun y hy => hn y (List.mem_cons_of_mem _ hy)
    rw [List.foldl_cons, List.foldl_cons]
    by_cases hm : x.1.child ∈ s.seen
    · have e : fixed C s x = s := by rw [fixed, if_pos hm]
      rw [e]
      dsimp only
      rw [if_pos (Or.inl hm)]
      exact ih ht h
    · rcases hn x List.mem_cons_self with hx | hx
      · have e : fixed C s x = { (write C s ⟨true, 0, x.1.child, x.1.value⟩ none).1 with seen := x.1.child :: s.seen } := by
          rw [fixed, if_neg hm, hx]; rfl
        dsimp only
        rw [if_neg (by rintro (a | a); exacts [hm a, a hx])]
        have hw := write_holds C h ⟨true, 0, x.1.child, x.1.value⟩
        have := ih ht (s := fixed C s x)
          (acc := acc ++ [⟨true, 0, x.1.child, x.1.value⟩]) (by rw [e]; rw [List.append_assoc] at hw; exact hw)
        have hseen : (fixed C s x).seen = x.1.child :: s.seen := by rw [e]
        rw [hseen] at this
        exact this
      · have e : fixed C s x = s := by rw [fixed, if_neg hm, hx, write_failed]
        rw [e]
        dsimp only
        rw [if_pos (Or.inr (by rw [hx]; simp))]
        exact ih ht h

theorem loop_landed {V : Type} (C : Code V) (ts : List (Turn V)) (hh : Clean ts) (s : St) (l : List (Entry V)) (h : Holds C s l) :
    Holds C (ts.foldl (turn C) s) (l ++ landed s.seen ts) := by
  induction ts generalizing s l with
  | nil => simpa [landed] using h
  | cons t ts ih =>
    have ht := hh t List.mem_cons_self
    rw [List.foldl_cons]
    have hd := dyn_landed C t.offset t.dyn ht.1 h
    have hs := sta_landed C t.sta ht.2 (acc := []) (by simpa using hd.1)
    rw [hd.2] at hs
    have := ih (fun y hy => hh y (List.mem_cons_of_mem _ hy)) (turn C s t) _ hs.1
    have e : (turn C s t).seen = _ := hs.2
    rw [e] at this
    unfold landed
    dsimp only
    simpa [List.append_assoc] using this

/-- C205. When writes fail without leaving anything on the disk, reading the file gives back exactly the
transforms whose write succeeded; a static frame whose write failed is tried again when it next
arrives. -/
theorem clean_failures_read {V : Type} (C : Code V) (ts : List (Turn V)) (hh : Clean ts)
    (hsz : (landed [] ts).length * C.size ≤ 2 ^ 63 - 1) :
    read C (close (loop C ts)) = some (landed [] ts) := by
  have h := loop_landed C ts hh St.new [] ⟨rfl, rfl, rfl⟩
  obtain ⟨h1, h2, -⟩ := h
  rw [List.nil_append] at h1 h2
  have e2 : (loop C ts).written = (landed [] ts).length := h2
  have e1 : (loop C ts).file.body = (landed [] ts).flatMap C.enc := h1
  unfold read close
  dsimp only
  rw [e2, if_neg (by omega), e1]
  have := readN_all C (landed [] ts) []
  rw [List.append_nil] at this
  rw [this]

/-- C205 (finding). A recorder that is killed before it ends (a crash, a kill, a power cut) leaves a
file that reads as empty, however much was written. -/
theorem killed_loses_all {V : Type} (C : Code V) (ts : List (Turn V)) : read C (loop C ts).file = some [] := by
  have key : ∀ s : St, s.file.count = 0 → (ts.foldl (turn C) s).file.count = 0 := by
    have hd : ∀ (off : Nat) (xs : List (Stamped V × Option Nat)) (s : St), s.file.count = 0 → (xs.foldl (dynamic C off) s).file.count = 0 := by
      intro off xs
      induction xs with
      | nil => intro s h; exact h
      | cons x t ih =>
        intro s h
        apply ih
        unfold dynamic write
        split <;> exact h
    have hs : ∀ (xs : List (Stamped V × Option Nat)) (s : St), s.file.count = 0 → (xs.foldl (fixed C) s).file.count = 0 := by
      intro xs
      induction xs with
      | nil => intro s h; exact h
      | cons x t ih =>
        intro s h
        apply ih
        unfold fixed
        split
        · exact h
        · unfold write
          cases x.2 <;> exact h
    induction ts with
    | nil => intro s h; exact h
    | cons t r ih =>
      intro s h
      exact ih _ (hs _ _ (hd _ _ _ h))
  have h0 : (loop C ts).file.count = 0 := key St.new rfl
  unfold read
  rw [h0]
  simp [readN]

/-- C205. Entries written before the first write that failed are read back intact, whatever happened
afterwards. -/
theorem before_failure_kept {V : Type} (C : Code V) (l : List (Entry V)) (extra : List Nat) (n : Nat) (hn : l.length ≤ n) :
    (readN C n (l.flatMap C.enc ++ extra)).take l.length = l := by
  induction l generalizing n with
  | nil => rfl
  | cons e t ih =>
    cases n with
    | zero => simp at hn
    | succ n =>
      have hlen := C.len e
      rw [readN, List.flatMap_cons, List.append_assoc, if_neg (by simp [hlen]), List.take_left' hlen, List.drop_left' hlen, C.inv,
        List.length_cons, List.take_succ_cons, ih n (by simpa using hn)]

/-- C205. At most as many entries are read as the header says, and no more than the file has room
for. -/
theorem read_bounded {V : Type} (C : Code V) (n : Nat) (b : List Nat) :
    (readN C n b).length ≤ n ∧ (readN C n b).length * C.size ≤ b.length := by
  induction n generalizing b with
  | zero => simp [readN]
  | succ n ih =>
    unfold readN
    split
    · simp
    · rename_i h
      have := ih (b.drop C.size)
      rw [List.length_drop] at this
      rw [List.length_cons, Nat.add_mul]
      omega

/-- A code for small entries, for examples. -/
def tiny : Code Nat where
  size := 4
  pos := by omega
  enc e := [if e.static then 1 else 0, e.offset, e.child, e.value]
  dec b := ⟨b.getD 0 0 = 1, b.getD 1 0, b.getD 2 0, b.getD 3 0⟩
  len _ := rfl
  inv e := by obtain ⟨s, o, c, v⟩ := e; cases s <;> rfl

/-- C205 (finding). After a write that failed half way (a full disk), later entries are read at the
wrong place: the reader returns an entry that no message held. -/
theorem torn_entry_shifts :
    let ts : List (Turn Nat) := [⟨5, [(⟨1, 10⟩, none), (⟨2, 20⟩, some 2), (⟨3, 30⟩, none)], []⟩]
    read tiny (close (loop tiny ts)) = some [⟨false, 5, 1, 10⟩, ⟨false, 5, 0, 5⟩] := by
  decide +kernel

/-- C205 (finding). A static transform that is published again with another value is not recorded: the
file keeps the first one. -/
theorem static_update_lost :
    let ts : List (Turn Nat) := [⟨5, [], [(⟨1, 10⟩, none)]⟩, ⟨6, [], [(⟨1, 99⟩, none)]⟩]
    read tiny (close (loop tiny ts)) = some [⟨true, 0, 1, 10⟩] := by
  decide +kernel

/-- C205 (finding). A damaged count makes the reader panic instead of reporting an error. -/
theorem forged_count_panics {V : Type} (C : Code V) (body : List Nat) : read C ⟨2 ^ 64 - 1, body⟩ = none := by
  have := C.pos
  unfold read
  rw [if_pos]
  dsimp only
  have : (2 ^ 64 - 1) * 1 ≤ (2 ^ 64 - 1) * C.size := Nat.mul_le_mul_left _ this
  omega

example :
    let ts : List (Turn Nat) := [⟨5, [(⟨1, 10⟩, some 0)], [(⟨7, 70⟩, some 0)]⟩, ⟨6, [(⟨1, 11⟩, none)], [(⟨7, 70⟩, none)]⟩]
    landed [] ts = [⟨false, 6, 1, 11⟩, ⟨true, 0, 7, 70⟩] := by decide +kernel

/-- Non-vacuity: three turns with both kinds of transforms. -/
example :
    let ts : List (Turn Nat) := [⟨5, [(⟨1, 10⟩, none)], [(⟨7, 70⟩, none)]⟩, ⟨6, [(⟨1, 11⟩, none), (⟨2, 20⟩, none)], [(⟨7, 70⟩, none), (⟨8, 80⟩, none)]⟩]
    Healthy ts ∧ expected [] ts = [⟨false, 5, 1, 10⟩, ⟨true, 0, 7, 70⟩, ⟨false, 6, 1, 11⟩, ⟨false, 6, 2, 20⟩, ⟨true, 0, 8, 80⟩] := by
  refine ⟨?_, by decide +kernel⟩
  intro t ht
  simp only [List.mem_cons, List.not_mem_nil, or_false] at ht
  rcases ht with rfl | rfl <;> simp

end Horus.TfRecord
