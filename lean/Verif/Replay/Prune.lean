import Mathlib.Data.List.Basic
import Mathlib.Data.Rat.Defs
import Mathlib.Data.List.Dedup
import Mathlib.Algebra.Order.Field.Rat
import Mathlib.Tactic.Linarith
import Mathlib.Tactic.NormNum
import Mathlib.Tactic.Positivity
/-
`horus record clean` and `horus record delete`.
Sources: /repo/horus_manager/src/commands/record.rs:170-286;
/repo/horus_core/src/scheduling/record_replay.rs:81-96 (names of sessions), 960-1050.
Simplifications: reading a number from text is an arbitrary function whose result is an exact rational
(no f64 rounding); reading a directory and removing one never fail.
-/
namespace Horus.RecordPrune

abbrev Name := List Char

/-- What `parse::<f64>` can give. -/
inductive F64
  | fin (q : Rat)
  | inf
  | nan

/-- `Duration::from_secs_f64`: panics on negative, infinite and undefined numbers. (It also panics on
finite ones beyond 2^64 seconds, which is left out.) -/
def duration : F64 → Option Rat
  | .fin q => if q < 0 then none else some q
  | _ => none

/-- The text `recording_`. -/
def prefixText : Name := "recording_".toList

/-- `strip_prefix`. -/
def strip (p s : Name) : Option Name := if p.isPrefixOf s then some (s.drop p.length) else none

/-- `split('_').next()`. -/
def firstPart (s : Name) : Name := s.takeWhile fun c => c ≠ '_'

/-- record.rs:219-240: whether a session is old enough to delete; `none` is a panic. `now` and the
maximal age are in seconds. A time in the future (`duration_since` fails) keeps the session. -/
def old (parse : Name → Option F64) (now maxAge : Rat) (s : Name) : Option Bool :=
  match strip prefixText s with
  | none => some false
  | some rest => match parse (firstPart rest) with
    | none => some false
    | some x => match duration x with
      | none => none
      | some created => if created ≤ now then some (decide (now - created > maxAge)) else some false

/-- record.rs:218: `days * 86400` in a `u64`; the release build wraps. -/
def maxAgeSecs (days : Nat) : Nat := (days * 86400) % 2 ^ 64

/-- The directories that are searched, first one first (record_replay.rs:966-970). -/
abbrev Disk := List (List Name)

/-- record_replay.rs:973-993 `list_sessions`: each name once. -/
def sessions (d : Disk) : List Name := d.flatten.dedup

/-- record_replay.rs:998-1008, 1042-1050 `delete_session`: the first directory that has the session. -/
def deleteOne : Disk → Name → Disk
  | [], _ => []
  | dir :: rest, s => if s ∈ dir then dir.filter (fun x => x ≠ s) :: rest else dir :: deleteOne rest s

/-- record.rs:216-244: which sessions are selected; `none` is a panic. -/
def select (parse : Name → Option F64) (now : Rat) (days : Option Nat) (l : List Name) : Option (List Name) :=
  match days with
  | none => some l
  | some n => l.foldr (fun s acc => match old parse now (maxAgeSecs n) s, acc with
      | some b, some t => some (if b then s :: t else t)
      | _, _ => none) (some [])

/-- record.rs:209-286 `run_clean`; `answer` is what is typed at the prompt. `none` is a panic. -/
def clean (parse : Name → Option F64) (now : Rat) (days : Option Nat) (dry force : Bool) (answer : Name) (d : Disk) :
    Option Disk :=
  match select parse now days (sessions d) with
  | none => none
  | some [] => some d
  | some l =>
    if dry = false ∧ force = false ∧ answer ≠ ['y'] ∧ answer ≠ ['Y'] then some d
    else if dry then some d
    else some (l.foldl deleteOne d)

/-- record.rs:170-206 `run_delete`; the flag is false when the session is not found. -/
def delete (s : Name) (force : Bool) (answer : Name) (d : Disk) : Bool × Disk :=
  if s ∈ sessions d then
    if force = false ∧ answer ≠ ['y'] ∧ answer ≠ ['Y'] then (true, d) else (true, deleteOne d s)
  else (false, d)

/-- Decimal digits. -/
def digits (n : Nat) : Name := Nat.toDigits 10 n

/-- record_replay.rs:84-95: the name of a session started at a time in seconds and milliseconds. -/
def sessionName (secs millis pid : Nat) : Name :=
  prefixText ++ (digits secs ++ '.' :: digits millis) ++ '_' :: 'p' :: digits pid

/- Specification. -/

/-- Reading a decimal number gives its value. -/
def ReadsDecimals (parse : Name → Option F64) : Prop :=
  ∀ a b, parse (digits a ++ '.' :: digits b) = some (.fin ((a : Rat) + (b : Rat) / 10 ^ (digits b).length))

/- Proofs. -/

theorem mem_sessions (d : Disk) (s : Name) : s ∈ sessions d ↔ ∃ dir ∈ d, s ∈ dir := by
  simp [sessions]

theorem deleteOne_flat {d : Disk} {s x : Name} (h : x ≠ s) : (∃ dir ∈ deleteOne d s, x ∈ dir) ↔ ∃ dir ∈ d, x ∈ dir := by
  induction d with
  | nil => simp [deleteOne]
  | cons dir rest ih =>
    unfold deleteOne
    by_cases hm : s ∈ dir
    · rw [if_pos hm]; simp [h]
    · rw [if_neg hm]
      simp only [List.mem_cons, exists_eq_or_imp, ih]

theorem deleteOne_sub (d : Disk) (s x : Name) : (∃ dir ∈ deleteOne d s, x ∈ dir) → ∃ dir ∈ d, x ∈ dir := by
  intro h
  by_cases e : x = s
  · subst e
    induction d with
    | nil => simp [deleteOne] at h
    | cons dir rest ih =>
      unfold deleteOne at h
      by_cases hm : x ∈ dir
      · exact ⟨dir, List.mem_cons_self, hm⟩
      · rw [if_neg hm] at h
        obtain ⟨e, he, hx⟩ := h
        rcases List.mem_cons.1 he with rfl | he
        · exact absurd hx hm
        · obtain ⟨e', h1, h2⟩ := ih ⟨e, he, hx⟩
          exact ⟨e', List.mem_cons_of_mem _ h1, h2⟩
  · exact (deleteOne_flat e).1 h

theorem foldl_keeps (l : List Name) (d : Disk) (x : Name) (h : x ∉ l) :
    x ∈ sessions (l.foldl deleteOne d) ↔ x ∈ sessions d := by
  induction l generalizing d with
  | nil => rfl
  | cons s t ih =>
    rw [List.foldl_cons, ih _ (fun hm => h (List.mem_cons_of_mem _ hm)), mem_sessions, mem_sessions]
    exact deleteOne_flat fun e => h (by rw [e]; exact List.mem_cons_self)

theorem foldl_sub (l : List Name) (d : Disk) (x : Name) :
    x ∈ sessions (l.foldl deleteOne d) → x ∈ sessions d := by
  induction l generalizing d with
  | nil => exact id
  | cons s t ih =>
    rw [List.foldl_cons]
    intro h
    have := ih _ h
    rw [mem_sessions] at this ⊢
    exact deleteOne_sub d s x this

theorem select_some {parse : Name → Option F64} {now : Rat} {n : Nat} {l r : List Name}
    (h : select parse now (some n) l = some r) :
    ∀ x, x ∈ r ↔ x ∈ l ∧ old parse now (maxAgeSecs n) x = some true := by
  induction l generalizing r with
  | nil =>
    simp only [select, List.foldr_nil, Option.some.injEq] at h
    subst h; simp
  | cons s t ih =>
    have hs : select parse now (some n) (s :: t) =
        match old parse now (maxAgeSecs n) s, select parse now (some n) t with
        | some b, some t => some (if b then s :: t else t)
        | _, _ => none := rfl
    rw [hs] at h
    cases ho : old parse now (maxAgeSecs n) s with
    | none => rw [ho] at h; simp at h
    | some b =>
      cases ht : select parse now (some n) t with
      | none => rw [ho, ht] at h; simp at h
      | some t' =>
        rw [ho, ht] at h
        dsimp only at h
        have := ih ht
        intro x
        cases b with
        | true =>
          rw [if_pos rfl] at h
          cases h
          rw [List.mem_cons, List.mem_cons, this]
          constructor
          · rintro (rfl | h)
            · exact ⟨Or.inl rfl, ho⟩
            · exact ⟨Or.inr h.1, h.2⟩
          · rintro ⟨rfl | h, h2⟩
            · exact Or.inl rfl
            · exact Or.inr ⟨h, h2⟩
        | false =>
          rw [if_neg (by simp)] at h
          cases h
          rw [List.mem_cons, this]
          constructor
          · rintro ⟨h1, h2⟩; exact ⟨Or.inr h1, h2⟩
          · rintro ⟨rfl | h, h2⟩
            · rw [ho] at h2; cases h2
            · exact ⟨h, h2⟩

/-- C203. A dry run, and a run whose question is not answered with yes, delete nothing. -/
theorem nothing_unasked (parse : Name → Option F64) (now : Rat) (days : Option Nat) (dry force : Bool) (answer : Name) (d d' : Disk)
    (h : clean parse now days dry force answer d = some d')
    (hq : dry = true ∨ (force = false ∧ answer ≠ ['y'] ∧ answer ≠ ['Y'])) : d' = d := by
  unfold clean at h
  split at h
  · cases h
  · cases h; rfl
  · rcases hq with rfl | ⟨rfl, h1, h2⟩
    · rw [if_neg (by simp), if_pos rfl] at h
      exact (Option.some.inj h).symm
    · cases dry with
      | true => rw [if_neg (by simp), if_pos rfl] at h; exact (Option.some.inj h).symm
      | false => rw [if_pos ⟨rfl, rfl, h1, h2⟩] at h; exact (Option.some.inj h).symm

/-- C203. A session that disappears was there, and with an age limit it was old by its name. No
session appears. -/
theorem only_old_deleted (parse : Name → Option F64) (now : Rat) (n : Nat) (dry force : Bool) (answer : Name) (d d' : Disk)
    (h : clean parse now (some n) dry force answer d = some d') (x : Name) :
    (x ∈ sessions d' → x ∈ sessions d) ∧
    (x ∈ sessions d → x ∉ sessions d' → old parse now (maxAgeSecs n) x = some true) := by
  unfold clean at h
  split at h
  · cases h
  · cases h; exact ⟨id, fun a b => absurd a b⟩
  · rename_i l hl hsel
    split at h
    · cases h; exact ⟨id, fun a b => absurd a b⟩
    · split at h
      · cases h; exact ⟨id, fun a b => absurd a b⟩
      · cases h
        refine ⟨foldl_sub _ _ _, fun hx hn => ?_⟩
        by_contra hc
        exact hn ((foldl_keeps _ _ x fun hm => hc ((select_some hsel x).1 hm).2).2 hx)

/-- C203. With an age limit, a session whose name does not start with `recording_` (one the user
named) is never deleted. -/
theorem named_kept (parse : Name → Option F64) (now : Rat) (n : Nat) (dry force : Bool) (answer : Name) (d d' : Disk)
    (h : clean parse now (some n) dry force answer d = some d') (x : Name) (hx : x ∈ sessions d)
    (hp : prefixText.isPrefixOf x = false) : x ∈ sessions d' := by
  by_contra hc
  have := (only_old_deleted parse now n dry force answer d d' h x).2 hx hc
  rw [old, strip, hp] at this
  simp at this

theorem digit_ne (n : Nat) : ∀ c ∈ digits n, c ≠ '_' := by
  intro c hc h
  have := Nat.isDigit_of_mem_toDigits (by omega) (by omega) hc
  rw [h] at this
  exact absurd this (by decide)

theorem firstPart_name (secs millis pid : Nat) :
    firstPart ((digits secs ++ '.' :: digits millis) ++ '_' :: 'p' :: digits pid) = digits secs ++ '.' :: digits millis := by
  have hall : ∀ c ∈ digits secs ++ '.' :: digits millis, decide (c ≠ '_') = true := by
    intro c hc
    simp only [List.mem_append, List.mem_cons] at hc
    rcases hc with hc | rfl | hc
    · simpa using digit_ne _ c hc
    · decide
    · simpa using digit_ne _ c hc
  unfold firstPart
  generalize digits secs ++ '.' :: digits millis = l at hall
  rw [List.takeWhile_append_of_pos hall]
  simp

theorem frac_bounds (millis : Nat) :
    (0 : Rat) ≤ (millis : Rat) / 10 ^ (digits millis).length ∧ (millis : Rat) / 10 ^ (digits millis).length < 1 := by
  have hp : (0 : Rat) < 10 ^ (digits millis).length := by positivity
  refine ⟨div_nonneg (by exact_mod_cast Nat.zero_le _) (le_of_lt hp), ?_⟩
  rw [div_lt_one hp]
  have h : millis < 10 ^ (digits millis).length := (Nat.length_toDigits_le_iff (by omega) Nat.length_toDigits_pos).1 (Nat.le_refl _)
  exact_mod_cast h

theorem old_session (parse : Name → Option F64) (hr : ReadsDecimals parse) (now maxAge : Rat) (secs millis pid : Nat) :
    old parse now maxAge (sessionName secs millis pid) =
      some (decide ((secs : Rat) + (millis : Rat) / 10 ^ (digits millis).length ≤ now ∧
        now - ((secs : Rat) + (millis : Rat) / 10 ^ (digits millis).length) > maxAge)) := by
  have hpre : strip prefixText (sessionName secs millis pid) =
      some ((digits secs ++ '.' :: digits millis) ++ '_' :: 'p' :: digits pid) := by
    unfold strip sessionName
    rw [List.append_assoc, if_pos (by rw [List.isPrefixOf_iff_prefix]; exact List.prefix_append _ _), List.drop_left]
  have hb := frac_bounds millis
  have h0 : ¬ ((secs : Rat) + (millis : Rat) / 10 ^ (digits millis).length < 0) := by
    have : (0 : Rat) ≤ secs := by exact_mod_cast Nat.zero_le _
    linarith
  unfold old
  rw [hpre]
  dsimp only
  rw [firstPart_name, hr]
  dsimp only [duration]
  rw [if_neg h0]
  dsimp only
  by_cases hc : (secs : Rat) + (millis : Rat) / 10 ^ (digits millis).length ≤ now
  · rw [if_pos hc]; simp [hc]
  · rw [if_neg hc]; simp [hc]

/-- C203. The age of a session that horus named is right to within a second: a session is not deleted
before its age exceeds the limit less one second, and is selected once its age exceeds the limit plus
one second. -/
theorem age_within_second (parse : Name → Option F64) (hr : ReadsDecimals parse) (now maxAge : Rat) (h0 : 0 ≤ maxAge) (secs millis pid : Nat)
    (hm : millis < 1000) :
    (old parse now maxAge (sessionName secs millis pid) = some true →
      now - ((secs : Rat) + millis / 1000) > maxAge - 1) ∧
    (now - ((secs : Rat) + millis / 1000) > maxAge + 1 →
      old parse now maxAge (sessionName secs millis pid) = some true) := by
  have hb := frac_bounds millis
  have h1 : (0 : Rat) ≤ (millis : Rat) / 1000 := div_nonneg (by exact_mod_cast Nat.zero_le _) (by norm_num)
  have h2 : (millis : Rat) / 1000 < 1 := by
    rw [div_lt_one (by norm_num)]; exact_mod_cast hm
  rw [old_session parse hr]
  constructor
  · intro h
    have := of_decide_eq_true (Option.some.inj h)
    linarith [this.2]
  · intro h
    congr 1
    apply decide_eq_true
    constructor <;> linarith

/-- C203 (finding). The milliseconds are written without leading zeros, so of two sessions started in
one second the later can be deleted while the earlier is kept. -/
theorem order_swapped (parse : Name → Option F64) (hr : ReadsDecimals parse) :
    old parse 1000 (9 + 6 / 10) (sessionName 990 5 1) = some false ∧
    old parse 1000 (9 + 6 / 10) (sessionName 990 100 1) = some true := by
  rw [old_session parse hr, old_session parse hr]
  have e1 : (digits 5).length = 1 := by decide +kernel
  have e2 : (digits 100).length = 3 := by decide +kernel
  rw [e1, e2]
  norm_num

/-- C203 (finding). A session named `recording_nan` (or `recording_inf`, or with a negative number)
makes every age-limited clean panic. -/
theorem bad_name_panics (parse : Name → Option F64) (hn : parse "nan".toList = some .nan) (now : Rat) (n : Nat)
    (dry force : Bool) (answer : Name) (d : Disk) (h : "recording_nan".toList ∈ sessions d) :
    clean parse now (some n) dry force answer d = none := by
  have ho : old parse now (maxAgeSecs n) "recording_nan".toList = none := by
    have h1 : strip prefixText "recording_nan".toList = some "nan".toList := by decide +kernel
    have h2 : firstPart "nan".toList = "nan".toList := by decide +kernel
    unfold old
    rw [h1]; dsimp only
    rw [h2, hn]; rfl
  have key : ∀ l : List Name, "recording_nan".toList ∈ l → select parse now (some n) l = none := by
    intro l hl
    cases hs : select parse now (some n) l with
    | none => rfl
    | some r =>
      exfalso
      clear h d
      induction l generalizing r with
      | nil => simp at hl
      | cons s t ih =>
        have e : select parse now (some n) (s :: t) =
            match old parse now (maxAgeSecs n) s, select parse now (some n) t with
            | some b, some t => some (if b then s :: t else t)
            | _, _ => none := rfl
        rw [e] at hs
        rcases List.mem_cons.1 hl with rfl | hl
        · rw [ho] at hs; simp at hs
        · cases ht : select parse now (some n) t with
          | none => rw [ht] at hs; split at hs <;> simp_all
          | some t' => exact ih hl t' ht
  unfold clean
  rw [key _ h]

/-- C203 (finding). An enormous age limit wraps around to a small one (release build), and the clean
deletes what it was asked to keep: with a limit of 213503982334602 days a session one day old is
selected. -/
theorem huge_limit_deletes (parse : Name → Option F64) (hr : ReadsDecimals parse) :
    old parse 1086400 (maxAgeSecs 213503982334602) (sessionName 1000000 0 1) = some true := by
  rw [old_session parse hr]
  have e1 : (digits 0).length = 1 := by decide +kernel
  have e2 : maxAgeSecs 213503982334602 = 61184 := by decide +kernel
  rw [e1, e2]
  norm_num

/-- C203. Deleting or cleaning everything removes each selected session from the first directory that
has it: with one directory it is gone, and nothing else changes. -/
theorem delete_gone (s : Name) (dir : List Name) (hs : s ∈ dir) (x : Name) :
    (delete s true [] [dir]).1 = true ∧
    (x ∈ sessions (delete s true [] [dir]).2 ↔ x ∈ dir ∧ x ≠ s) := by
  unfold delete
  have : s ∈ sessions [dir] := (mem_sessions _ _).2 ⟨dir, List.mem_cons_self, hs⟩
  rw [if_pos this, if_neg (by simp)]
  refine ⟨rfl, ?_⟩
  rw [mem_sessions, deleteOne, if_pos hs]
  simp

/-- C203. Cleaning everything with one directory leaves no session. -/
theorem clean_all (parse : Name → Option F64) (now : Rat) (dir : List Name) :
    ∃ d', clean parse now none false true [] [dir] = some d' ∧ sessions d' = [] := by
  have key : ∀ (l dir : List Name), (∀ x ∈ dir, x ∈ l) → sessions (l.foldl deleteOne [dir]) = [] := by
    intro l
    induction l with
    | nil =>
      intro dir h
      have : dir = [] := List.eq_nil_iff_forall_not_mem.2 fun x hx => by simpa using h x hx
      subst this; rfl
    | cons s t ih =>
      intro dir h
      rw [List.foldl_cons]
      by_cases hm : s ∈ dir
      · rw [deleteOne, if_pos hm]
        apply ih
        intro x hx
        rw [List.mem_filter] at hx
        rcases List.mem_cons.1 (h x hx.1) with rfl | h'
        · simp at hx
        · exact h'
      · rw [deleteOne, if_neg hm, deleteOne]
        apply ih
        intro x hx
        rcases List.mem_cons.1 (h x hx) with rfl | h'
        · exact absurd hx hm
        · exact h'
  unfold clean select
  dsimp only
  cases hl : sessions [dir] with
  | nil => exact ⟨[dir], rfl, hl⟩
  | cons a t =>
    refine ⟨(a :: t).foldl deleteOne [dir], ?_, ?_⟩
    · simp
    · apply key
      intro x hx
      rw [← hl]
      exact (mem_sessions _ _).2 ⟨dir, List.mem_cons_self, hx⟩

/-- C203 (finding). A session that lies in two of the searched directories is still listed after it was
deleted. -/
theorem shadow_remains (s : Name) (a b : List Name) (ha : s ∈ a) (hb : s ∈ b) :
    (delete s true [] [a, b]).1 = true ∧ s ∈ sessions (delete s true [] [a, b]).2 := by
  unfold delete
  have : s ∈ sessions [a, b] := (mem_sessions _ _).2 ⟨a, List.mem_cons_self, ha⟩
  rw [if_pos this, if_neg (by simp)]
  refine ⟨rfl, ?_⟩
  rw [mem_sessions, deleteOne, if_pos ha]
  exact ⟨b, by simp, hb⟩

/-- Non-vacuity: a reader of decimals. -/
def sampleParse (s : Name) : Option F64 :=
  let a := s.takeWhile fun c => c ≠ '.'
  let b := s.drop (a.length + 1)
  some (.fin ((Nat.ofDigitChars 10 a 0 : Rat) + (Nat.ofDigitChars 10 b 0 : Rat) / 10 ^ b.length))

theorem sample_reads : ReadsDecimals sampleParse := by
  intro a b
  have ht : (digits a ++ '.' :: digits b).takeWhile (fun c => decide (c ≠ '.')) = digits a := by
    have : ∀ c ∈ digits a, decide (c ≠ '.') = true := by
      intro c hc
      have := Nat.isDigit_of_mem_toDigits (by omega) (by omega) hc
      have hne : c ≠ '.' := by rintro rfl; exact absurd this (by decide)
      simpa using hne
    rw [List.takeWhile_append_of_pos this]; simp
  unfold sampleParse
  dsimp only
  rw [ht, List.drop_append]
  have : (digits a).drop ((digits a).length + 1) = [] := List.drop_eq_nil_of_le (by omega)
  rw [this]
  simp [digits, Nat.ofDigitChars_ten_toDigits]

example : old sampleParse 1000 5 (sessionName 990 0 1) = some true := by
  rw [old_session _ sample_reads]
  have e1 : (digits 0).length = 1 := by decide +kernel
  rw [e1]; norm_num

end Horus.RecordPrune
