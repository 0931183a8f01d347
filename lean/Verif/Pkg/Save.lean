/-
Saving a file by writing a temporary one and renaming it.

Modelled source: horus_manager/src/lockfile.rs (180-193); the same protocol is
in horus_manager/src/manifest.rs (1214-1226, 1466-1475),
horus_manager/src/plugins/trust.rs (105-122),
horus_core/src/scheduling/launch.rs (241-260),
horus_core/src/core/presence.rs (455-474) and
horus_core/src/scheduling/record_replay.rs (235-268), all with one fixed
temporary name per file.
-/
import Verif.Ring.Common
import Mathlib.Tactic.Common

namespace Horus.Pkg.Save

open Horus.Ring (upd upd_same upd_ne)

/-! ### Model -/

/-- A directory with one live name, temporary names, and inodes.

Models the part of a POSIX file system the protocol relies on: names refer to
inodes, an open file keeps writing to its inode, `rename` moves a name. -/
structure Fs where
  data : Nat → List Nat
  live : Option Nat
  tmp : Nat → Option Nat
  next : Nat

/-- Where a saver is: not started, writing (inode, bytes already written), all
written, renamed, or stopped for good (a crash or an error). -/
inductive Pc where
  | start
  | writing (i off : Nat)
  | closed
  | done
  | dead
  deriving DecidableEq

/-- The system: the directory and every saver. -/
structure Sys where
  fs : Fs
  pc : Nat → Pc

/-- What each saver wants to write, and which temporary name it uses.  The
code uses one fixed name per file: `slot` is constant. -/
structure Cfg where
  content : Nat → List Nat
  slot : Nat → Nat

/-- Write bytes into a file at an offset, with zeros in any gap.

Models `write(2)` on the descriptor held by `fs::write`. -/
def writeAt (d : List Nat) (off : Nat) (b : List Nat) : List Nat :=
  (d ++ List.replicate (off - d.length) 0).take off ++ b ++ d.drop (off + b.length)

/-- One step of a saver.  `k` is how many more bytes than one the system call
takes.  A saver that has stopped does not move.

Models `fs::write` (open with create and truncate, write all, close) and
`fs::rename` at horus_manager/src/lockfile.rs:187-191. -/
def step (c : Cfg) (s k : Nat) (y : Sys) : Sys :=
  match y.pc s with
  | .start => match y.fs.tmp (c.slot s) with
    | none => ⟨⟨upd y.fs.data y.fs.next [], y.fs.live, upd y.fs.tmp (c.slot s) (some y.fs.next), y.fs.next + 1⟩, upd y.pc s (.writing y.fs.next 0)⟩
    | some i => ⟨{ y.fs with data := upd y.fs.data i [] }, upd y.pc s (.writing i 0)⟩
  | .writing i off =>
    if off < (c.content s).length then
      let b := ((c.content s).drop off).take (k + 1)
      ⟨{ y.fs with data := upd y.fs.data i (writeAt (y.fs.data i) off b) }, upd y.pc s (.writing i (off + b.length))⟩
    else ⟨y.fs, upd y.pc s .closed⟩
  | .closed => match y.fs.tmp (c.slot s) with
    | none => ⟨y.fs, upd y.pc s .dead⟩
    | some i => ⟨{ y.fs with live := some i, tmp := upd y.fs.tmp (c.slot s) none }, upd y.pc s .done⟩
  | .done => y
  | .dead => y

/-- A saver stops: the process is killed, or a write fails and the error is
returned.  The temporary file stays behind. -/
def stop (s : Nat) (y : Sys) : Sys := if y.pc s = .done then y else ⟨y.fs, upd y.pc s .dead⟩

/-- What a reader of the file sees: nothing, or its bytes. -/
def read (y : Sys) : Option (List Nat) := y.fs.live.map y.fs.data

/-- A saver holds its temporary name. -/
def active : Pc → Bool
  | .writing _ _ => true
  | .closed => true
  | _ => false

/-- No other saver with the same temporary name is in the middle of a save. -/
def Free (c : Cfg) (y : Sys) (s : Nat) : Prop := ∀ t, t ≠ s → c.slot t = c.slot s → active (y.pc t) = false

/-- The runs in which a saver starts only when no other saver is using its
temporary name.  Steps, partial writes and crashes are otherwise
unrestricted. -/
inductive Run (c : Cfg) (y0 : Sys) : Sys → Prop where
  | init : Run c y0 y0
  | step (s k : Nat) {y : Sys} : Run c y0 y → (y.pc s = .start → Free c y s) → Run c y0 (step c s k y)
  | stop (s : Nat) {y : Sys} : Run c y0 y → Run c y0 (stop s y)

/-- A directory before any of the savers starts: there may be an old file and
left-over temporary files, all different inodes. -/
structure Init (y : Sys) : Prop where
  idle : ∀ s, y.pc s = .start
  live_lt : ∀ i, y.fs.live = some i → i < y.fs.next
  tmp_lt : ∀ a i, y.fs.tmp a = some i → i < y.fs.next
  tmp_inj : ∀ a b i, y.fs.tmp a = some i → y.fs.tmp b = some i → a = b
  tmp_live : ∀ a i, y.fs.tmp a = some i → y.fs.live ≠ some i

/-! ### The invariant -/

structure Inv (c : Cfg) (old : Option (List Nat)) (y : Sys) : Prop where
  live_lt : ∀ i, y.fs.live = some i → i < y.fs.next
  tmp_lt : ∀ a i, y.fs.tmp a = some i → i < y.fs.next
  tmp_inj : ∀ a b i, y.fs.tmp a = some i → y.fs.tmp b = some i → a = b
  tmp_live : ∀ a i, y.fs.tmp a = some i → y.fs.live ≠ some i
  wr : ∀ s i off, y.pc s = .writing i off → y.fs.tmp (c.slot s) = some i ∧ y.fs.data i = (c.content s).take off ∧ off ≤ (c.content s).length
  cl : ∀ s, y.pc s = .closed → ∃ i, y.fs.tmp (c.slot s) = some i ∧ y.fs.data i = c.content s
  excl : ∀ s t, active (y.pc s) = true → active (y.pc t) = true → c.slot s = c.slot t → s = t
  seen : read y = old ∨ ∃ s, y.pc s = .done ∧ read y = some (c.content s)

theorem writeAt_prefix (l : List Nat) (off k : Nat) (h : off ≤ l.length) :
    writeAt (l.take off) off ((l.drop off).take (k + 1)) = l.take (off + ((l.drop off).take (k + 1)).length) := by
  unfold writeAt
  have h1 : (l.take off).length = off := by rw [List.length_take]; omega
  rw [h1, Nat.sub_self]
  simp only [List.replicate_zero, List.append_nil]
  rw [List.take_take, Nat.min_self, List.drop_of_length_le (l := l.take off) (by omega), List.append_nil]
  have h2 : ((l.drop off).take (k + 1)) = (l.drop off).take ((l.drop off).take (k + 1)).length := by
    rw [List.length_take, List.length_drop]
    rcases Nat.le_total (k + 1) (l.length - off) with h | h
    · rw [Nat.min_eq_left h]
    · rw [Nat.min_eq_right h, List.take_of_length_le (by rw [List.length_drop]; omega), List.take_of_length_le (by rw [List.length_drop]; exact Nat.le_refl _)]
  rw [List.take_add (i := off), ← h2]

theorem inv_init {c : Cfg} {y : Sys} (h : Init y) : Inv c (read y) y := by
  refine ⟨h.live_lt, h.tmp_lt, h.tmp_inj, h.tmp_live, ?_, ?_, ?_, Or.inl rfl⟩
  · intro s i off hs; rw [h.idle s] at hs; cases hs
  · intro s hs; rw [h.idle s] at hs; cases hs
  · intro s t hs _ _; rw [h.idle s] at hs; cases hs

theorem read_upd {y : Sys} {i : Nat} {d : List Nat} (h : y.fs.live ≠ some i) (f : Nat → Option Nat) (n : Nat) (p : Nat → Pc) :
    read ⟨⟨upd y.fs.data i d, y.fs.live, f, n⟩, p⟩ = read y := by
  unfold read
  show y.fs.live.map (upd y.fs.data i d) = y.fs.live.map y.fs.data
  cases hl : y.fs.live with
  | none => rfl
  | some j =>
    have : j ≠ i := fun e => h (by rw [hl, e])
    show some (upd y.fs.data i d j) = some (y.fs.data j)
    rw [upd_ne _ _ this]

/-- Keeping a finished saver finished keeps what a reader may see. -/
theorem seen_keep {c : Cfg} {old : Option (List Nat)} {y y' : Sys} (hr : read y' = read y) (hd : ∀ s, y.pc s = .done → y'.pc s = .done)
    (h : read y = old ∨ ∃ s, y.pc s = .done ∧ read y = some (c.content s)) :
    read y' = old ∨ ∃ s, y'.pc s = .done ∧ read y' = some (c.content s) := by
  rcases h with h | ⟨s, h1, h2⟩
  · exact Or.inl (hr.trans h)
  · exact Or.inr ⟨s, hd s h1, hr.trans h2⟩

theorem done_keep {y : Sys} {s : Nat} {p : Pc} (h : y.pc s ≠ .done) : ∀ t, y.pc t = .done → upd y.pc s p t = .done := by
  intro t ht
  have : t ≠ s := fun e => h (e ▸ ht)
  rw [upd_ne _ _ this, ht]

theorem inv_stop {c : Cfg} {old : Option (List Nat)} {y : Sys} (h : Inv c old y) (s : Nat) : Inv c old (stop s y) := by
  unfold stop
  split
  · exact h
  · rename_i hd
    refine ⟨h.live_lt, h.tmp_lt, h.tmp_inj, h.tmp_live, ?_, ?_, ?_, ?_⟩
    · intro t i off ht
      by_cases e : t = s
      · subst e; dsimp only at ht; rw [upd_same] at ht; cases ht
      · dsimp only at ht; rw [upd_ne _ _ e] at ht; exact h.wr t i off ht
    · intro t ht
      by_cases e : t = s
      · subst e; dsimp only at ht; rw [upd_same] at ht; cases ht
      · dsimp only at ht; rw [upd_ne _ _ e] at ht; exact h.cl t ht
    · intro t u ht hu
      by_cases e : t = s
      · subst e; dsimp only at ht; rw [upd_same] at ht; cases ht
      · by_cases e' : u = s
        · subst e'; dsimp only at hu; rw [upd_same] at hu; cases hu
        · dsimp only at ht hu; rw [upd_ne _ _ e] at ht; rw [upd_ne _ _ e'] at hu; exact h.excl t u ht hu
    · exact seen_keep (y := y) rfl (done_keep hd) h.seen

theorem inv_step {c : Cfg} {old : Option (List Nat)} {y : Sys} (h : Inv c old y) (s k : Nat) (hf : y.pc s = .start → Free c y s) :
    Inv c old (step c s k y) := by
  have other : ∀ {t : Nat}, t ≠ s → active (y.pc t) = true → active (y.pc s) = true → c.slot t ≠ c.slot s :=
    fun ht ha hs e => ht (h.excl _ _ ha hs e)
  unfold step
  cases hp : y.pc s with
  | start =>
    have hfree := hf hp
    dsimp only
    have excl' : ∀ (p : Pc) (t u : Nat), active (upd y.pc s p t) = true → active (upd y.pc s p u) = true → c.slot t = c.slot u → t = u := by
      intro p t u ht hu e
      by_cases e1 : t = s
      · by_cases e2 : u = s
        · rw [e1, e2]
        · rw [upd_ne _ _ e2] at hu
          have := hfree u e2 (by rw [← e, e1])
          rw [this] at hu; cases hu
      · rw [upd_ne _ _ e1] at ht
        by_cases e2 : u = s
        · have := hfree t e1 (by rw [e, e2])
          rw [this] at ht; cases ht
        · rw [upd_ne _ _ e2] at hu
          exact h.excl t u ht hu e
    cases ht : y.fs.tmp (c.slot s) with
    | none =>
      dsimp only
      have hnl : y.fs.live ≠ some y.fs.next := fun e => absurd (h.live_lt _ e) (Nat.lt_irrefl _)
      have hold : ∀ {a i : Nat}, upd y.fs.tmp (c.slot s) (some y.fs.next) a = some i → (a = c.slot s ∧ i = y.fs.next) ∨ (a ≠ c.slot s ∧ y.fs.tmp a = some i) := by
        intro a i ha
        by_cases e : a = c.slot s
        · subst e; rw [upd_same] at ha; exact Or.inl ⟨rfl, (Option.some.inj ha).symm⟩
        · rw [upd_ne _ _ e] at ha; exact Or.inr ⟨e, ha⟩
      refine ⟨fun i hi => Nat.lt_succ_of_lt (h.live_lt i hi), ?_, ?_, ?_, ?_, ?_, excl' _, ?_⟩
      · intro a i ha
        rcases hold ha with ⟨_, e⟩ | ⟨_, ha⟩
        · rw [e]; exact Nat.lt_succ_self _
        · exact Nat.lt_succ_of_lt (h.tmp_lt a i ha)
      · intro a b i ha hb
        rcases hold ha with ⟨e1, e2⟩ | ⟨_, ha⟩ <;> rcases hold hb with ⟨e3, e4⟩ | ⟨_, hb⟩
        · rw [e1, e3]
        · exact absurd (h.tmp_lt b i hb) (by rw [e2]; exact Nat.lt_irrefl _)
        · exact absurd (h.tmp_lt a i ha) (by rw [e4]; exact Nat.lt_irrefl _)
        · exact h.tmp_inj a b i ha hb
      · intro a i ha
        rcases hold ha with ⟨_, e⟩ | ⟨_, ha⟩
        · rw [e]; exact hnl
        · exact h.tmp_live a i ha
      · intro t i off hw
        by_cases e : t = s
        · subst e; dsimp only at hw ⊢; rw [upd_same] at hw; cases hw
          rw [upd_same, upd_same]
          exact ⟨rfl, rfl, Nat.zero_le _⟩
        · dsimp only at hw ⊢
          rw [upd_ne _ _ e] at hw
          obtain ⟨h1, h2, h3⟩ := h.wr t i off hw
          have hs : c.slot t ≠ c.slot s := by
            intro e2
            have := hfree t e e2
            rw [hw] at this; cases this
          have hi : i ≠ y.fs.next := Nat.ne_of_lt (h.tmp_lt _ _ h1)
          rw [upd_ne _ _ hs, upd_ne _ _ hi]
          exact ⟨h1, h2, h3⟩
      · intro t hw
        by_cases e : t = s
        · subst e; dsimp only at hw; rw [upd_same] at hw; cases hw
        · dsimp only at hw ⊢
          rw [upd_ne _ _ e] at hw
          obtain ⟨i, h1, h2⟩ := h.cl t hw
          have hs : c.slot t ≠ c.slot s := by
            intro e2
            have := hfree t e e2
            rw [hw] at this; cases this
          have hi : i ≠ y.fs.next := Nat.ne_of_lt (h.tmp_lt _ _ h1)
          refine ⟨i, ?_, ?_⟩
          · rw [upd_ne _ _ hs]; exact h1
          · rw [upd_ne _ _ hi]; exact h2
      · exact seen_keep (y := y) (read_upd hnl _ _ _) (done_keep (by rw [hp]; decide)) h.seen
    | some i =>
      dsimp only
      have hnl : y.fs.live ≠ some i := h.tmp_live _ _ ht
      refine ⟨h.live_lt, h.tmp_lt, h.tmp_inj, h.tmp_live, ?_, ?_, excl' _, ?_⟩
      · intro t j off hw
        by_cases e : t = s
        · subst e; dsimp only at hw ⊢; rw [upd_same] at hw; cases hw
          rw [upd_same]
          exact ⟨ht, rfl, Nat.zero_le _⟩
        · dsimp only at hw ⊢
          rw [upd_ne _ _ e] at hw
          obtain ⟨h1, h2, h3⟩ := h.wr t j off hw
          have hs : c.slot t ≠ c.slot s := by
            intro e2
            have := hfree t e e2
            rw [hw] at this; cases this
          have hi : j ≠ i := fun e2 => hs (h.tmp_inj _ _ j h1 (e2 ▸ ht))
          rw [upd_ne _ _ hi]
          exact ⟨h1, h2, h3⟩
      · intro t hw
        by_cases e : t = s
        · subst e; dsimp only at hw; rw [upd_same] at hw; cases hw
        · dsimp only at hw ⊢
          rw [upd_ne _ _ e] at hw
          obtain ⟨j, h1, h2⟩ := h.cl t hw
          have hs : c.slot t ≠ c.slot s := by
            intro e2
            have := hfree t e e2
            rw [hw] at this; cases this
          have hi : j ≠ i := fun e2 => hs (h.tmp_inj _ _ j h1 (e2 ▸ ht))
          exact ⟨j, h1, by rw [upd_ne _ _ hi]; exact h2⟩
      · exact seen_keep (y := y) (read_upd hnl _ _ _) (done_keep (by rw [hp]; decide)) h.seen
  | writing i off =>
    dsimp only
    obtain ⟨h1, h2, h3⟩ := h.wr s i off hp
    have excl' : ∀ (p : Pc) (t u : Nat), active (upd y.pc s p t) = true → active (upd y.pc s p u) = true → c.slot t = c.slot u → t = u := by
      intro p t u ht hu e
      have hs : active (y.pc s) = true := by rw [hp]; rfl
      by_cases e1 : t = s
      · by_cases e2 : u = s
        · rw [e1, e2]
        · rw [upd_ne _ _ e2] at hu
          exact h.excl t u (by rw [e1]; exact hs) hu e
      · rw [upd_ne _ _ e1] at ht
        by_cases e2 : u = s
        · exact h.excl t u ht (by rw [e2]; exact hs) e
        · rw [upd_ne _ _ e2] at hu
          exact h.excl t u ht hu e
    split
    · rename_i hlt
      have hnl : y.fs.live ≠ some i := h.tmp_live _ _ h1
      refine ⟨h.live_lt, h.tmp_lt, h.tmp_inj, h.tmp_live, ?_, ?_, excl' _, ?_⟩
      · intro t j o hw
        by_cases e : t = s
        · subst e; dsimp only at hw ⊢; rw [upd_same] at hw; cases hw
          rw [upd_same, h2, writeAt_prefix _ _ _ h3]
          refine ⟨h1, rfl, ?_⟩
          rw [List.length_take, List.length_drop]; omega
        · dsimp only at hw ⊢
          rw [upd_ne _ _ e] at hw
          obtain ⟨g1, g2, g3⟩ := h.wr t j o hw
          have hs := other e (by rw [hw]; rfl) (by rw [hp]; rfl)
          have hi : j ≠ i := fun e2 => hs (h.tmp_inj _ _ j g1 (e2 ▸ h1))
          rw [upd_ne _ _ hi]
          exact ⟨g1, g2, g3⟩
      · intro t hw
        by_cases e : t = s
        · subst e; dsimp only at hw; rw [upd_same] at hw; cases hw
        · dsimp only at hw ⊢
          rw [upd_ne _ _ e] at hw
          obtain ⟨j, g1, g2⟩ := h.cl t hw
          have hs := other e (by rw [hw]; rfl) (by rw [hp]; rfl)
          have hi : j ≠ i := fun e2 => hs (h.tmp_inj _ _ j g1 (e2 ▸ h1))
          exact ⟨j, g1, by rw [upd_ne _ _ hi]; exact g2⟩
      · exact seen_keep (y := y) (read_upd hnl _ _ _) (done_keep (by rw [hp]; simp)) h.seen
    · rename_i hge
      refine ⟨h.live_lt, h.tmp_lt, h.tmp_inj, h.tmp_live, ?_, ?_, excl' _, ?_⟩
      · intro t j o hw
        by_cases e : t = s
        · subst e; dsimp only at hw; rw [upd_same] at hw; cases hw
        · dsimp only at hw ⊢
          rw [upd_ne _ _ e] at hw
          exact h.wr t j o hw
      · intro t hw
        by_cases e : t = s
        · subst e
          exact ⟨i, h1, by rw [h2, List.take_of_length_le (by omega)]⟩
        · dsimp only at hw ⊢
          rw [upd_ne _ _ e] at hw
          exact h.cl t hw
      · exact seen_keep (y := y) rfl (done_keep (by rw [hp]; simp)) h.seen
  | closed =>
    obtain ⟨i, h1, h2⟩ := h.cl s hp
    dsimp only
    rw [h1]
    dsimp only
    have old' : ∀ {a j : Nat}, upd y.fs.tmp (c.slot s) none a = some j → a ≠ c.slot s ∧ y.fs.tmp a = some j := by
      intro a j ha
      by_cases e : a = c.slot s
      · subst e; rw [upd_same] at ha; cases ha
      · rw [upd_ne _ _ e] at ha; exact ⟨e, ha⟩
    refine ⟨?_, ?_, ?_, ?_, ?_, ?_, ?_, ?_⟩
    · intro j hj
      rw [← Option.some.inj hj]
      exact h.tmp_lt _ _ h1
    · intro a j ha
      exact h.tmp_lt _ _ (old' ha).2
    · intro a b j ha hb
      exact h.tmp_inj a b j (old' ha).2 (old' hb).2
    · intro a j ha e
      have := Option.some.inj e
      rw [this] at h1
      exact (old' ha).1 (h.tmp_inj _ _ j (old' ha).2 h1)
    · intro t j o hw
      by_cases e : t = s
      · subst e; dsimp only at hw; rw [upd_same] at hw; cases hw
      · dsimp only at hw ⊢
        rw [upd_ne _ _ e] at hw
        obtain ⟨g1, g2, g3⟩ := h.wr t j o hw
        have hs := other e (by rw [hw]; rfl) (by rw [hp]; rfl)
        rw [upd_ne _ _ hs]
        exact ⟨g1, g2, g3⟩
    · intro t hw
      by_cases e : t = s
      · subst e; dsimp only at hw; rw [upd_same] at hw; cases hw
      · dsimp only at hw ⊢
        rw [upd_ne _ _ e] at hw
        obtain ⟨j, g1, g2⟩ := h.cl t hw
        have hs := other e (by rw [hw]; rfl) (by rw [hp]; rfl)
        exact ⟨j, by rw [upd_ne _ _ hs]; exact g1, g2⟩
    · intro t u ht hu
      by_cases e : t = s
      · subst e; dsimp only at ht; rw [upd_same] at ht; cases ht
      · by_cases e' : u = s
        · subst e'; dsimp only at hu; rw [upd_same] at hu; cases hu
        · dsimp only at ht hu; rw [upd_ne _ _ e] at ht; rw [upd_ne _ _ e'] at hu; exact h.excl t u ht hu
    · refine Or.inr ⟨s, upd_same _ _ _, ?_⟩
      show some (y.fs.data i) = _
      rw [h2]
  | done => exact h
  | dead => exact h

theorem inv_run {c : Cfg} {y0 y : Sys} (h0 : Init y0) (h : Run c y0 y) : Inv c (read y0) y := by
  induction h with
  | init => exact inv_init h0
  | step s k _ hf ih => exact inv_step ih s k hf
  | stop s _ ih => exact inv_stop ih s

/-! ### Theorems -/

/-- **A reader never sees half a save.**  At every point of every run in which
no two savers use one temporary name at the same time — with any partial
writes, any crash points and left-over temporary files — the file holds the
old bytes, or all the bytes of a save that has finished. -/
theorem reader_sees_whole_partial {c : Cfg} {y0 y : Sys} (h0 : Init y0) (h : Run c y0 y) :
    read y = read y0 ∨ ∃ s, y.pc s = .done ∧ read y = some (c.content s) :=
  (inv_run h0 h).seen

/-- **A save that reports success has taken effect.**  The step that finishes
a save makes the file exactly that save's bytes. -/
theorem save_takes_effect_partial {c : Cfg} {y0 y : Sys} (h0 : Init y0) (h : Run c y0 y) (s k : Nat)
    (hn : y.pc s ≠ .done) (hd : (step c s k y).pc s = .done) : read (step c s k y) = some (c.content s) := by
  have inv := inv_run h0 h
  unfold step at hd ⊢
  cases hp : y.pc s with
  | start =>
    rw [hp] at hd; dsimp only at hd
    cases ht : y.fs.tmp (c.slot s) <;> rw [ht] at hd <;> dsimp only at hd <;> rw [upd_same] at hd <;> cases hd
  | writing i off =>
    rw [hp] at hd; dsimp only at hd
    split at hd <;> dsimp only at hd <;> rw [upd_same] at hd <;> cases hd
  | closed =>
    obtain ⟨i, h1, h2⟩ := inv.cl s hp
    dsimp only
    rw [h1]
    show some (y.fs.data i) = _
    rw [h2]
  | done => exact absurd hp hn
  | dead => rw [hp] at hd; dsimp only at hd; rw [hp] at hd; cases hd

/-- A saver on its own is never refused: while it holds its temporary name the
rename finds the file. -/
theorem rename_never_fails_partial {c : Cfg} {y0 y : Sys} (h0 : Init y0) (h : Run c y0 y) (s k : Nat)
    (hp : y.pc s = .closed) : (step c s k y).pc s = .done := by
  obtain ⟨i, h1, _⟩ := (inv_run h0 h).cl s hp
  unfold step
  rw [hp]; dsimp only; rw [h1]
  exact upd_same _ _ _

/-- With a different temporary name for every saver the condition on starting
always holds, so any interleaving at all is safe. -/
theorem own_names_safe {c : Cfg} (hs : ∀ s t, c.slot s = c.slot t → s = t) (y : Sys) (s : Nat) : Free c y s :=
  fun t ht e => absurd (hs t s e) ht

/-- Runs without any condition: the given savers step in the given order. -/
def play (c : Cfg) : List (Nat × Nat) → Sys → Sys
  | [], y => y
  | (s, k) :: r, y => play c r (step c s k y)

/-- An empty directory with one old file. -/
def oldFile (b : List Nat) : Sys := ⟨⟨upd (fun _ => []) 0 b, some 0, fun _ => none, 1⟩, fun _ => .start⟩

theorem oldFile_init (b : List Nat) : Init (oldFile b) := by
  refine ⟨fun _ => rfl, ?_, ?_, ?_, ?_⟩
  · intro i h; cases h; exact Nat.one_pos
  · intro a i h; cases h
  · intro a b i h; cases h
  · intro a i h; cases h

/-- **Finding.**  The code gives every saver of a file the same temporary
name.  Two savers at once: the second truncates the file the first is
writing, the first renames it, and the live file now holds neither version;
the second saver's rename then fails although all its bytes were written to
the live file. -/
theorem two_savers_tear : ∃ (c : Cfg) (p q : List (Nat × Nat)), (∀ s, c.slot s = 0) ∧
    c.content 0 = [1, 1, 1] ∧ c.content 1 = [2, 2, 2, 2] ∧
    read (play c p (oldFile [9])) = some [2, 2] ∧
    (play c p (oldFile [9])).pc 0 = .done ∧
    (play c (p ++ q) (oldFile [9])).pc 1 = .dead ∧ read (play c (p ++ q) (oldFile [9])) = some [2, 2, 2, 2] := by
  refine ⟨⟨fun s => if s = 0 then [1, 1, 1] else [2, 2, 2, 2], fun _ => 0⟩,
    [(0, 0), (0, 5), (0, 0), (1, 0), (1, 1), (0, 0)], [(1, 5), (1, 0), (1, 0)], fun _ => rfl, by decide, by decide, by decide +kernel, by decide +kernel, by decide +kernel, by decide +kernel⟩

/-- The same two savers can also leave bytes of both in the file. -/
theorem two_savers_mix : ∃ (c : Cfg) (p : List (Nat × Nat)), (∀ s, c.slot s = 0) ∧
    c.content 0 = [1, 1, 1] ∧ c.content 1 = [2, 2] ∧
    read (play c p (oldFile [9])) = some [2, 2, 1] ∧ (play c p (oldFile [9])).pc 0 = .done := by
  refine ⟨⟨fun s => if s = 0 then [1, 1, 1] else [2, 2], fun _ => 0⟩,
    [(0, 0), (0, 0), (1, 0), (0, 5), (0, 0), (1, 5), (0, 0)], fun _ => rfl, by decide, by decide, by decide +kernel, by decide +kernel⟩

/-- The hypotheses are met: one saver, killed half way, then another with the
same temporary name that finishes. -/
example : ∃ (c : Cfg) (y : Sys), (∀ s, c.slot s = 0) ∧ Run c (oldFile [9]) y ∧ y.pc 0 = .dead ∧ y.pc 1 = .done ∧ read y = some [2, 2] := by
  refine ⟨⟨fun s => if s = 0 then [1, 1, 1] else [2, 2], fun _ => 0⟩, _, fun _ => rfl,
    .step 1 0 (.step 1 0 (.step 1 5 (.step 1 0 (.stop 0 (.step 0 1 (.step 0 0 .init ?_) ?_)) ?_) ?_) ?_) ?_, by decide +kernel, by decide +kernel, by decide +kernel⟩
  · intro _ t _ _; rfl
  · intro h; exact absurd h (by decide +kernel)
  · intro _ t ht _
    by_cases e : t = 0
    · subst e; decide +kernel
    · simp [stop, step, oldFile, upd, e, active]
  · intro h; exact absurd h (by decide +kernel)
  · intro h; exact absurd h (by decide +kernel)
  · intro h; exact absurd h (by decide +kernel)

end Horus.Pkg.Save
