import Mathlib.Tactic.Common
import Mathlib.Data.List.Basic

/-!
Several processes attached to one shared log buffer file, each with the capacity its own environment
gives (`horus_core/src/core/log_buffer.rs`): sizing the file while others have it mapped, and
reading entries another process wrote.
-/

namespace Horus.LogAttach

/-! ## The capacity -/

/-- `usize::clamp`. -/
def clamp (x lo hi : Nat) : Nat := if x < lo then lo else if x > hi then hi else x

/-- `max_log_entries` (log_buffer.rs:36-42): `env` is the parsed `HORUS_LOG_BUFFER_SIZE`. -/
def logCap (env : Option Nat) : Nat := clamp (env.getD 5000) 100 50000

/-- `new_error_buffer` (log_buffer.rs:186-195): `HORUS_ERROR_BUFFER_SIZE`. -/
def errorCap (env : Option Nat) : Nat := clamp (env.getD 500) 50 5000

/-- `new_remote_buffer` (log_buffer.rs:199-207): `HORUS_REMOTE_LOG_SIZE`. -/
def remoteCap (env : Option Nat) : Nat := clamp (env.getD 2000) 100 50000

/-- The file size for a capacity (log_buffer.rs:220): a 64-byte header and 512 bytes per slot. -/
def total (cap : Nat) : Nat := 64 + cap * 512

/-! ## Opening -/

/-- Where a process is in `open_at_with_capacity` (log_buffer.rs:213-271). -/
inductive Pc
  /-- Before `metadata()`. -/
  | start
  /-- `metadata().len()` was read. -/
  | stated (len : Nat)
  /-- The size was set or left alone. -/
  | sized
  /-- The file is mapped with this length. -/
  | mapped (len : Nat)
deriving DecidableEq

/-- The file length and every process. -/
structure Sys where
  len : Nat
  pc : Nat → Pc

/-- Process `p` moves. -/
def setPc (s : Sys) (p : Nat) (c : Pc) : Nat → Pc := fun q => if q = p then c else s.pc q

/-- One step of process `p` with capacity `cap p` (log_buffer.rs:238-263): read the length; set it
when the file is empty or shorter than needed; map the whole file. -/
def step (cap : Nat → Nat) (s : Sys) (p : Nat) : Sys :=
  match s.pc p with
  | .start => { s with pc := setPc s p (.stated s.len) }
  | .stated l => ⟨if l = 0 ∨ total (cap p) > l then total (cap p) else s.len, setPc s p .sized⟩
  | .sized => { s with pc := setPc s p (.mapped s.len) }
  | .mapped _ => s

/-- A schedule: which process moves next. -/
def run (cap : Nat → Nat) : Sys → List Nat → Sys
  | s, [] => s
  | s, p :: ps => run cap (step cap s p) ps

/-- A file of the given length nobody has opened yet. -/
def fresh (len : Nat) : Sys := ⟨len, fun _ => .start⟩

/-- One whole open without interference. -/
def openOne (cap : Nat → Nat) (s : Sys) (p : Nat) : Sys := step cap (step cap (step cap s p) p) p

/-- Opens one after the other. -/
def openAll (cap : Nat → Nat) : Sys → List Nat → Sys
  | s, [] => s
  | s, p :: ps => openAll cap (openOne cap s p) ps

/-! ## Content -/

/-- The write counter and the slots; a slot holds the global index it was written at (its sequence
number) and the entry. -/
structure Ring (α : Type) where
  n : Nat
  slot : Nat → Option (Nat × α)

/-- An empty buffer. -/
def Ring.empty (α : Type) : Ring α := ⟨0, fun _ => none⟩

/-- `push` by a process whose capacity is `c` (log_buffer.rs:278-352), as one step. -/
def push {α : Type} (r : Ring α) (c : Nat) (e : α) : Ring α :=
  ⟨r.n + 1, fun s => if s = r.n % c then some (r.n, e) else r.slot s⟩

/-- Pushes by processes of various capacities, in claim order. -/
def pushes {α : Type} : Ring α → List (Nat × α) → Ring α
  | r, [] => r
  | r, (c, e) :: l => pushes (push r c e) l

/-- `get_since` by a process whose capacity is `c` (log_buffer.rs:386-460), with no write in
progress. The sequence number of a slot is only compared with 0. -/
def getSince {α : Type} (r : Ring α) (c k : Nat) : List α :=
  let num := min r.n c
  let start := if r.n > c then r.n % c else 0
  let skip := min (k - (r.n - num)) num
  (List.range' skip (num - skip)).filterMap fun i => (r.slot ((start + i) % c)).map (·.2)

/-! ## Theorems: capacity -/

/-- **The capacity is never zero and always within its range**, whatever the environment holds. -/
theorem caps_in_range (env : Option Nat) :
    (100 ≤ logCap env ∧ logCap env ≤ 50000) ∧ (50 ≤ errorCap env ∧ errorCap env ≤ 5000) ∧
    (100 ≤ remoteCap env ∧ remoteCap env ≤ 50000) := by
  unfold logCap errorCap remoteCap clamp
  refine ⟨?_, ?_, ?_⟩ <;> (split <;> [skip; split]) <;> omega

/-- A value within the range is used as it is. -/
theorem cap_respected (x : Nat) (h : 100 ≤ x) (h2 : x ≤ 50000) : logCap (some x) = x := by
  unfold logCap clamp; simp only [Option.getD_some]; rw [if_neg (by omega), if_neg (by omega)]

/-! ## Theorems: sizing -/

/-- What a mapped process touches: everything up to `total cap`. It is safe when the mapping and the
file both reach that far; a file that ends earlier faults. -/
def Safe (cap : Nat → Nat) (s : Sys) : Prop :=
  ∀ p l, s.pc p = .mapped l → total (cap p) ≤ l ∧ total (cap p) ≤ s.len

theorem total_pos (c : Nat) : 0 < total c := by unfold total; omega

theorem setPc_same (s : Sys) (p : Nat) (c : Pc) : setPc s p c p = c := by simp [setPc]

theorem setPc_other (s : Sys) (p q : Nat) (c : Pc) (h : q ≠ p) : setPc s p c q = s.pc q := by simp [setPc, h]

/-- Invariant of processes with one capacity: whoever is past sizing finds the file long enough, no
reading exceeds the file, and the file either had its length from the start or is no longer than
needed. -/
def InvEq (c L : Nat) (s : Sys) : Prop :=
  (∀ p, s.pc p = .sized → total c ≤ s.len) ∧ (∀ p l, s.pc p = .mapped l → total c ≤ l ∧ total c ≤ s.len) ∧
  (∀ p l, s.pc p = .stated l → l ≤ s.len) ∧
  ((s.len = L ∧ total c ≤ L ∧ ∀ p l, s.pc p = .stated l → l = L) ∨ s.len ≤ total c)

theorem invEq_step (cap : Nat → Nat) (c L : Nat) (hc : ∀ p, cap p = c) (s : Sys) (h : InvEq c L s) (p : Nat) :
    InvEq c L (step cap s p) ∧ s.len ≤ (step cap s p).len := by
  obtain ⟨h1, h2, h3, h4⟩ := h
  have hpos := total_pos c
  unfold step
  cases hp : s.pc p with
  | start =>
    refine ⟨⟨?_, ?_, ?_, ?_⟩, Nat.le_refl _⟩
    · intro q hq
      by_cases hqp : q = p
      · subst hqp; simp only [setPc_same] at hq; cases hq
      · simp only [setPc_other _ _ _ _ hqp] at hq; exact h1 q hq
    · intro q l hq
      by_cases hqp : q = p
      · subst hqp; simp only [setPc_same] at hq; cases hq
      · simp only [setPc_other _ _ _ _ hqp] at hq; exact h2 q l hq
    · intro q l hq
      by_cases hqp : q = p
      · subst hqp; simp only [setPc_same] at hq; cases hq; exact Nat.le_refl _
      · simp only [setPc_other _ _ _ _ hqp] at hq; exact h3 q l hq
    · rcases h4 with ⟨a, b, d⟩ | a
      · left
        refine ⟨a, b, ?_⟩
        intro q l hq
        by_cases hqp : q = p
        · subst hqp; simp only [setPc_same] at hq; cases hq; exact a
        · simp only [setPc_other _ _ _ _ hqp] at hq; exact d q l hq
      · right; exact a
  | stated l0 =>
    have h0 := h3 p l0 hp
    simp only [hc p]
    have hnew : total c ≤ (if l0 = 0 ∨ total c > l0 then total c else s.len) ∧
        s.len ≤ (if l0 = 0 ∨ total c > l0 then total c else s.len) := by
      rcases h4 with ⟨a, b, d⟩ | a
      · have := d p l0 hp
        rw [if_neg (by omega)]; exact ⟨by omega, by omega⟩
      · by_cases hx : l0 = 0 ∨ total c > l0
        · rw [if_pos hx]; exact ⟨Nat.le_refl _, a⟩
        · rw [if_neg hx]; exact ⟨by omega, Nat.le_refl _⟩
    refine ⟨⟨?_, ?_, ?_, ?_⟩, hnew.2⟩
    · intro q _; exact hnew.1
    · intro q l hq
      by_cases hqp : q = p
      · subst hqp; simp only [setPc_same] at hq; cases hq
      · simp only [setPc_other _ _ _ _ hqp] at hq; exact ⟨(h2 q l hq).1, hnew.1⟩
    · intro q l hq
      by_cases hqp : q = p
      · subst hqp; simp only [setPc_same] at hq; cases hq
      · simp only [setPc_other _ _ _ _ hqp] at hq; exact Nat.le_trans (h3 q l hq) hnew.2
    · rcases h4 with ⟨a, b, d⟩ | a
      · left
        have := d p l0 hp
        refine ⟨?_, b, ?_⟩
        · show (if l0 = 0 ∨ total c > l0 then total c else s.len) = L
          rw [if_neg (by omega)]; exact a
        · intro q l hq
          by_cases hqp : q = p
          · subst hqp; simp only [setPc_same] at hq; cases hq
          · simp only [setPc_other _ _ _ _ hqp] at hq; exact d q l hq
      · right
        show (if l0 = 0 ∨ total c > l0 then total c else s.len) ≤ total c
        split
        · exact Nat.le_refl _
        · exact a
  | sized =>
    have h0 := h1 p hp
    refine ⟨⟨?_, ?_, ?_, ?_⟩, Nat.le_refl _⟩
    · intro q hq
      by_cases hqp : q = p
      · subst hqp; simp only [setPc_same] at hq; cases hq
      · simp only [setPc_other _ _ _ _ hqp] at hq; exact h1 q hq
    · intro q l hq
      by_cases hqp : q = p
      · subst hqp; simp only [setPc_same] at hq; cases hq; exact ⟨h0, h0⟩
      · simp only [setPc_other _ _ _ _ hqp] at hq; exact h2 q l hq
    · intro q l hq
      by_cases hqp : q = p
      · subst hqp; simp only [setPc_same] at hq; cases hq
      · simp only [setPc_other _ _ _ _ hqp] at hq; exact h3 q l hq
    · rcases h4 with ⟨a, b, d⟩ | a
      · left
        refine ⟨a, b, ?_⟩
        intro q l hq
        by_cases hqp : q = p
        · subst hqp; simp only [setPc_same] at hq; cases hq
        · simp only [setPc_other _ _ _ _ hqp] at hq; exact d q l hq
      · right; exact a
  | mapped l0 => exact ⟨⟨h1, h2, h3, h4⟩, Nat.le_refl _⟩

theorem invEq_run (cap : Nat → Nat) (c L : Nat) (hc : ∀ p, cap p = c) (ps : List Nat) (s : Sys) (h : InvEq c L s) :
    InvEq c L (run cap s ps) ∧ s.len ≤ (run cap s ps).len := by
  induction ps generalizing s with
  | nil => exact ⟨h, Nat.le_refl _⟩
  | cons p ps ih =>
    have h1 := invEq_step cap c L hc s h p
    have h2 := ih _ h1.1
    exact ⟨h2.1, Nat.le_trans h1.2 h2.2⟩

theorem invEq_fresh (c L : Nat) : InvEq c L (fresh L) := by
  refine ⟨fun p h => (by cases h), fun p l h => (by cases h), fun p l h => (by cases h), ?_⟩
  by_cases hL : total c ≤ L
  · left; exact ⟨rfl, hL, fun p l h => (by cases h)⟩
  · right; show L ≤ total c; omega

/-- **Processes with one capacity never lose their mapping**: whatever length the file had and
however their opens interleave, everyone who has it mapped can reach all of its slots, and the file
never gets shorter. -/
theorem equal_capacity_safe_partial (cap : Nat → Nat) (c L : Nat) (hc : ∀ p, cap p = c) (ps qs : List Nat) :
    Safe cap (run cap (fresh L) ps) ∧ (run cap (fresh L) ps).len ≤ (run cap (run cap (fresh L) ps) qs).len := by
  have h := (invEq_run cap c L hc ps _ (invEq_fresh c L)).1
  refine ⟨?_, (invEq_run cap c L hc qs _ h).2⟩
  intro p l hp
  rw [hc p]; exact h.2.1 p l hp

theorem openOne_start (cap : Nat → Nat) (s : Sys) (p : Nat) (hp : s.pc p = .start) :
    openOne cap s p = ⟨max s.len (total (cap p)), setPc s p (.mapped (max s.len (total (cap p))))⟩ := by
  have hpos := total_pos (cap p)
  have h1 : step cap s p = { s with pc := setPc s p (.stated s.len) } := by simp [step, hp]
  have h2 : step cap (step cap s p) p = ⟨max s.len (total (cap p)), setPc s p .sized⟩ := by
    rw [h1]
    simp only [step, setPc_same]
    congr 1
    · by_cases hx : s.len = 0 ∨ total (cap p) > s.len
      · rw [if_pos hx]; omega
      · rw [if_neg hx]; omega
    · funext q; simp only [setPc]; split <;> rfl
  unfold openOne
  rw [h2]
  simp only [step, setPc_same]
  congr 1
  funext q; simp only [setPc]; split <;> rfl

/-- **Opens that do not overlap in time are safe for any mix of capacities**: the file only grows. -/
theorem sequential_open_safe (cap : Nat → Nat) (L : Nat) (ps : List Nat) (hn : ps.Nodup) :
    Safe cap (openAll cap (fresh L) ps) ∧ L ≤ (openAll cap (fresh L) ps).len := by
  have key : ∀ (ps : List Nat) (s : Sys), ps.Nodup → (∀ p ∈ ps, s.pc p = .start) → Safe cap s →
      Safe cap (openAll cap s ps) ∧ s.len ≤ (openAll cap s ps).len := by
    intro ps
    induction ps with
    | nil => intro s _ _ h; exact ⟨h, Nat.le_refl _⟩
    | cons p ps ih =>
      intro s hn hst h
      rw [List.nodup_cons] at hn
      have ho := openOne_start cap s p (hst p (by simp))
      have hs : Safe cap (openOne cap s p) := by
        rw [ho]
        intro q l hq
        by_cases hqp : q = p
        · subst hqp; simp only [setPc_same] at hq; cases hq
          exact ⟨Nat.le_max_right _ _, Nat.le_max_right _ _⟩
        · simp only [setPc_other _ _ _ _ hqp] at hq
          have := h q l hq
          exact ⟨this.1, Nat.le_trans this.2 (Nat.le_max_left _ _)⟩
      have := ih (openOne cap s p) hn.2 (fun q hq => by
        rw [ho]
        have hqp : q ≠ p := fun e => hn.1 (e ▸ hq)
        simp only [setPc_other _ _ _ _ hqp]; exact hst q (by simp [hq])) hs
      refine ⟨this.1, Nat.le_trans ?_ this.2⟩
      rw [ho]; exact Nat.le_max_left _ _
  exact key ps (fresh L) hn (fun _ _ => rfl) (fun p l h => by cases h)

/-- **Opens that overlap shrink the file under a mapping**: for any two different capacities, the
process with the smaller one can read the length, be overtaken by a whole open of the larger, and
then cut the file down; the larger process is left with a mapping that runs past the end of the
file. -/
theorem overlapping_open_shrinks (a b : Nat) (h : a < b) :
    let cap : Nat → Nat := fun p => if p = 0 then a else b
    let s := run cap (fresh 0) [0, 1, 1, 1, 0]
    s.pc 1 = .mapped (total b) ∧ s.len = total a ∧ s.len < total b ∧ ¬ Safe cap s := by
  intro cap s
  have hlen : s.len = total a := rfl
  have hpc : s.pc 1 = .mapped (total b) := rfl
  have hlt : total a < total b := by unfold total; omega
  refine ⟨hpc, hlen, by omega, ?_⟩
  intro hsafe
  have h1 := (hsafe 1 (total b) hpc).2
  have h2 : total (cap 1) = total b := rfl
  omega

/-! ## Theorems: content -/

/-- The entries pushed so far with their global indices: slot `i % c` holds entry `i` for the last
`c` indices. -/
def Holds {α : Type} (c : Nat) (r : Ring α) (log : List α) : Prop :=
  r.n = log.length ∧ ∀ i, ∀ h : i < log.length, log.length ≤ i + c → r.slot (i % c) = some (i, log[i])

theorem holds_push {α : Type} (c : Nat) (r : Ring α) (log : List α) (e : α) (hh : Holds c r log) :
    Holds c (push r c e) (log ++ [e]) := by
  obtain ⟨h1, h2⟩ := hh
  refine ⟨by simp [push, h1], ?_⟩
  intro i hi hc
  simp only [List.length_append, List.length_cons, List.length_nil] at hi hc
  simp only [push, h1]
  by_cases he : i = log.length
  · subst he; simp
  · have hlt : i < log.length := by omega
    have hne : i % c ≠ log.length % c := by
      intro hx
      have h3 := Nat.div_add_mod i c
      have h4 := Nat.div_add_mod log.length c
      have hle : i / c ≤ log.length / c := Nat.div_le_div_right (by omega)
      have : i / c = log.length / c := by
        rcases Nat.lt_or_ge (i / c) (log.length / c) with hl | hg
        · have h5 : c * (i / c + 1) ≤ c * (log.length / c) := Nat.mul_le_mul_left c hl
          rw [Nat.mul_add] at h5; omega
        · omega
      rw [this] at h3; omega
    rw [if_neg hne, h2 i hlt (by omega), List.getElem_append_left hlt]

theorem holds_pushes {α : Type} (c : Nat) (ws : List (Nat × α)) (hw : ∀ w ∈ ws, w.1 = c) (r : Ring α) (log : List α)
    (hh : Holds c r log) : Holds c (pushes r ws) (log ++ ws.map (·.2)) := by
  induction ws generalizing r log with
  | nil => simpa [pushes] using hh
  | cons w ws ih =>
    obtain ⟨c', e⟩ := w
    have hc : c' = c := hw (c', e) (by simp)
    subst hc
    have := ih (fun w h => hw w (by simp [h])) _ _ (holds_push c' r log e hh)
    simpa [pushes] using this

theorem filterMap_range' {α : Type} (f : Nat → Option α) (l : List α) (k : Nat)
    (h : ∀ i, ∀ hi : i < l.length, k ≤ i → f i = some l[i]) :
    (List.range' k (l.length - k)).filterMap f = l.drop k := by
  rcases Nat.lt_or_ge k l.length with hk | hk
  · have : ∀ m k, l.length = k + m → (∀ i, ∀ hi : i < l.length, k ≤ i → f i = some l[i]) →
        (List.range' k m).filterMap f = l.drop k := by
      intro m
      induction m with
      | zero => intro k hm _; rw [List.drop_eq_nil_of_le (by omega)]; rfl
      | succ m ih =>
        intro k hm hf
        rw [List.range'_succ, List.filterMap_cons, hf k (by omega) (Nat.le_refl _), List.drop_eq_getElem_cons (by omega)]
        simp only
        rw [ih (k + 1) (by omega) (fun i hi hk => hf i hi (by omega))]
    exact this _ k (by omega) h
  · rw [List.drop_eq_nil_of_le hk]
    have : l.length - k = 0 := by omega
    rw [this]; rfl

/-- **Processes with one capacity read each other's log**: after any pushes by any of them, reading
from index `k` gives exactly the entries from `k` on that the ring still has, oldest first. -/
theorem equal_capacity_reads {α : Type} (c : Nat) (hc : 0 < c) (ws : List (Nat × α)) (hw : ∀ w ∈ ws, w.1 = c) (k : Nat) :
    getSince (pushes (Ring.empty α) ws) c k = (ws.map (·.2)).drop (max k (ws.length - c)) := by
  have hh := holds_pushes c ws hw (Ring.empty α) [] ⟨rfl, fun i h => by simp at h⟩
  simp only [List.nil_append] at hh
  obtain ⟨h1, h2⟩ := hh
  generalize hr : pushes (Ring.empty α) ws = r at h1 h2
  generalize hl : ws.map (·.2) = log at h1 h2
  have hlen : ws.length = log.length := by rw [← hl]; simp
  rw [hlen]
  have key : ∀ i, i < min r.n c → r.slot (((if r.n > c then r.n % c else 0) + i) % c) = r.slot ((r.n - min r.n c + i) % c) := by
    intro i hi
    congr 1
    by_cases hx : r.n > c
    · rw [if_pos hx, Nat.mod_add_mod]
      have : r.n + i = (r.n - min r.n c + i) + c := by omega
      rw [this, Nat.add_mod_right]
    · rw [if_neg hx]
      congr 1; omega
  unfold getSince
  simp only
  have hnum : (log.drop (log.length - min r.n c)).length = min r.n c := by rw [List.length_drop]; omega
  have := filterMap_range' (fun i => (r.slot (((if r.n > c then r.n % c else 0) + i) % c)).map (·.2)) (log.drop (log.length - min r.n c)) (min (k - (r.n - min r.n c)) (min r.n c)) (by
    intro i hi _
    have hi' : i < min r.n c := by rw [hnum] at hi; exact hi
    rw [key i hi', h2 (r.n - min r.n c + i) (by omega) (by omega)]
    simp only [Option.map_some, List.getElem_drop]
    congr 2; omega)
  rw [hnum] at this
  rw [this, List.drop_drop]
  by_cases hk : k - (r.n - min r.n c) ≤ min r.n c
  · congr 1; omega
  · rw [List.drop_eq_nil_of_le (by omega), List.drop_eq_nil_of_le (by omega)]

theorem pushes_slot {α : Type} (a : Nat) (ws : List (Nat × α)) (hw : ∀ w ∈ ws, w.1 = a) (r : Ring α) (ha : 0 < a)
    (hr : ∀ s, a ≤ s → r.slot s = none) : (∀ s, a ≤ s → (pushes r ws).slot s = none) ∧ (pushes r ws).n = r.n + ws.length := by
  induction ws generalizing r with
  | nil => exact ⟨hr, rfl⟩
  | cons w ws ih =>
    obtain ⟨c, e⟩ := w
    have hc : c = a := hw (c, e) (by simp)
    subst hc
    have := ih (fun w h => hw w (by simp [h])) (push r c e) (fun s hs => by
      simp only [push]
      rw [if_neg (by have := Nat.mod_lt r.n ha; omega)]; exact hr s hs)
    refine ⟨this.1, ?_⟩
    rw [pushes, this.2]; simp [push]; omega

/-- **A reader with a larger capacity misses everything new**: when writers with capacity `a` have
pushed more than `a` and at most `b` entries, a reader with capacity `b` that has read at least the
first `a` gets nothing more, however many entries were written since. -/
theorem larger_reader_misses {α : Type} (a b k : Nat) (ha : 0 < a) (ws : List (Nat × α)) (hw : ∀ w ∈ ws, w.1 = a)
    (hb : ws.length ≤ b) (hk : a ≤ k) : getSince (pushes (Ring.empty α) ws) b k = [] := by
  obtain ⟨h1, h2⟩ := pushes_slot a ws hw (Ring.empty α) ha (fun _ _ => rfl)
  generalize pushes (Ring.empty α) ws = r at h1 h2
  have hn : r.n = ws.length := by rw [h2]; simp [Ring.empty]
  unfold getSince
  simp only
  rw [List.filterMap_eq_nil_iff]
  intro i hi
  rw [List.mem_range'_1] at hi
  have hm : min r.n b = r.n := by omega
  rw [hm] at hi
  rw [if_neg (by omega), Nat.zero_add, Nat.mod_eq_of_lt (by omega), h1 i (by omega)]
  rfl

/-- **A reader with a smaller capacity never sees some entries**: what a writer with capacity `a`
pushes at an index `i` with `i % a ≥ b` is in no slot that a reader with capacity `b` looks at.
Here: an entry that occurs only at such indices is never returned. -/
theorem smaller_reader_blind {α : Type} (a b k : Nat) (hb : 0 < b) (ws : List (Nat × α)) (hw : ∀ w ∈ ws, w.1 = a) (x : α)
    (hx : ∀ i, ∀ h : i < ws.length, (ws[i]).2 = x → b ≤ i % a) :
    x ∉ getSince (pushes (Ring.empty α) ws) b k := by
  have key : ∀ (ws : List (Nat × α)) (r : Ring α), (∀ w ∈ ws, w.1 = a) → (∀ i, ∀ h : i < ws.length, (ws[i]).2 = x → b ≤ (r.n + i) % a) →
      (∀ s i, s < b → r.slot s ≠ some (i, x)) → ∀ s i, s < b → (pushes r ws).slot s ≠ some (i, x) := by
    intro ws
    induction ws with
    | nil => intro r _ _ h; exact h
    | cons w ws ih =>
      intro r hw hx h
      obtain ⟨c, e⟩ := w
      have hc : c = a := hw (c, e) (by simp)
      subst hc
      refine ih (push r c e) (fun w h => hw w (by simp [h])) ?_ ?_
      · intro i hi he
        have := hx (i + 1) (by simpa using hi) (by simpa using he)
        simp only [push]
        have h3 : r.n + 1 + i = r.n + (i + 1) := by omega
        rw [h3]; exact this
      · intro s i hs
        simp only [push]
        split
        · rename_i hsn
          intro he
          cases he
          have := hx 0 (by simp) (by simp)
          simp only [Nat.add_zero] at this
          omega
        · exact h s i hs
  have hnone := key ws (Ring.empty α) hw (fun i h he => by simpa [Ring.empty] using hx i h he) (fun s i _ h => by cases h)
  intro hmem
  unfold getSince at hmem
  simp only [List.mem_filterMap] at hmem
  obtain ⟨i, _, hi⟩ := hmem
  cases hs : (pushes (Ring.empty α) ws).slot (((if (pushes (Ring.empty α) ws).n > b then (pushes (Ring.empty α) ws).n % b else 0) + i) % b) with
  | none => rw [hs] at hi; cases hi
  | some q =>
    obtain ⟨j, y⟩ := q
    rw [hs] at hi
    simp only [Option.map_some, Option.some.injEq] at hi
    subst hi
    exact hnone _ j (Nat.mod_lt _ hb) hs

/-! ## Concrete cases -/

example : getSince (pushes (Ring.empty Nat) ((List.range 5).map fun i => (3, i))) 3 0 = [2, 3, 4] := by decide
example : getSince (pushes (Ring.empty Nat) ((List.range 5).map fun i => (3, i))) 3 4 = [4] := by decide
example : getSince (pushes (Ring.empty Nat) ((List.range 5).map fun i => (3, i))) 8 0 = [3, 4, 2] := by decide
example : getSince (pushes (Ring.empty Nat) ((List.range 5).map fun i => (3, i))) 8 3 = [] := by decide
example : getSince (pushes (Ring.empty Nat) ((List.range 5).map fun i => (3, i))) 2 0 = [4, 3] := by decide
example : ∀ i, ∀ h : i < ((List.range 5).map fun i => ((3 : Nat), i)).length, (((List.range 5).map fun i => ((3 : Nat), i))[i]).2 = 2 → 2 ≤ i % 3 := by decide
example : (run (fun _ => 100) (fresh 0) [0, 1, 0, 1, 1, 0]).len = 51264 := by decide
example : (openAll (fun p => 100 + p) (fresh 0) [3, 0, 7]).len = total 107 := by decide

end Horus.LogAttach
