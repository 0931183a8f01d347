import Mathlib.Data.List.Basic
import Mathlib.Tactic.Common
/-
"Did you mean ...?": the edit distance and the suggestion. Source: /repo/horus_core/src/utils.rs:31-82
(levenshtein_distance, suggest_similar), used with distance 3 by error.rs:181-227. A string is its list of
characters; what the code needs besides is the number of its UTF-8 bytes.
-/
namespace Horus.Similar

abbrev Str := List Char

/-- `str::len`: the number of UTF-8 bytes. -/
def blen (s : Str) : Nat := (s.map Char.utf8Size).sum

/-- utils.rs:49-54: one row. `left` is `curr[j]`, `row` is `prev[j..]`; gives `curr[j+1..]`. Entries of the row
beyond the characters of `b` are not written, and keep what `curr` held before (`old`, from the row before last). -/
def nextRow (x : Char) : Nat → List Nat → List Nat → Str → List Nat
  | left, d :: u :: row, _ :: old, y :: b =>
    let c := min (min (d + if x = y then 0 else 1) (u + 1)) (left + 1)
    c :: nextRow x c (u :: row) old b
  | _, _, old, _ => old

/-- utils.rs:47-56: all rows; `prev` and `curr` are swapped after each. -/
def rows (b : Str) : Nat → Str → List Nat → List Nat → List Nat
  | _, [], prev, _ => prev
  | i, x :: a, prev, curr => rows b (i + 1) a ((i + 1) :: nextRow x (i + 1) prev curr.tail b) prev

/-- utils.rs:31-59 `levenshtein_distance`: the rows have one entry per *byte* of `b`, plus one. -/
def distance (a b : Str) : Nat :=
  if blen a = 0 then blen b
  else if blen b = 0 then blen a
  else (rows b 0 a (List.range (blen b + 1)) (List.replicate (blen b + 1) 0)).getD (blen b) 0

/-- `Iterator::min_by_key`: the first of the least. -/
def firstMin : List (Str × Nat) → Option (Str × Nat)
  | [] => none
  | x :: xs => match firstMin xs with
    | none => some x
    | some y => if x.2 ≤ y.2 then some x else some y

/-- utils.rs:65-82 `suggest_similar`. -/
def suggest (q : Str) (cs : List Str) (max : Nat) : Option Str :=
  (firstMin (cs.filterMap fun c => let d := distance q c; if d > 0 ∧ d ≤ max then some (c, d) else none)).map Prod.fst

/-! ### Specification: editing one character at a time -/

/-- One edit: a character inserted, removed or replaced. -/
inductive Edit : Str → Str → Prop
  | ins (p : Str) (x : Char) (q : Str) : Edit (p ++ q) (p ++ x :: q)
  | del (p : Str) (x : Char) (q : Str) : Edit (p ++ x :: q) (p ++ q)
  | rep (p : Str) (x y : Char) (q : Str) : Edit (p ++ x :: q) (p ++ y :: q)

/-- `n` edits lead from one string to the other. -/
inductive Edits : Nat → Str → Str → Prop
  | refl (a : Str) : Edits 0 a a
  | step {n : Nat} {a b c : Str} : Edit a b → Edits n b c → Edits (n + 1) a c

/-- `d` is the least number of edits. -/
def IsDistance (d : Nat) (a b : Str) : Prop := Edits d a b ∧ ∀ n, Edits n a b → d ≤ n

/-- Only characters of one byte. -/
def Ascii (s : Str) : Prop := ∀ c ∈ s, c.utf8Size = 1

/-! ### The recursive distance -/

def lev : Str → Str → Nat
  | [], b => b.length
  | a, [] => a.length
  | x :: a, y :: b => min (min (lev a b + if x = y then 0 else 1) (lev a (y :: b) + 1)) (lev (x :: a) b + 1)
termination_by a b => a.length + b.length

theorem lev_nil_left (b : Str) : lev [] b = b.length := by rw [lev]

theorem lev_nil_right (a : Str) : lev a [] = a.length := by
  cases a with
  | nil => rw [lev]
  | cons x a => rw [lev]; simp

theorem lev_cons (x y : Char) (a b : Str) :
    lev (x :: a) (y :: b) = min (min (lev a b + if x = y then 0 else 1) (lev a (y :: b) + 1)) (lev (x :: a) b + 1) := by
  rw [lev]

theorem lev_le_ins (a : Str) (y : Char) (b : Str) : lev a (y :: b) ≤ lev a b + 1 := by
  cases a with
  | nil => rw [lev_nil_left, lev_nil_left]; simp
  | cons x a => rw [lev_cons]; omega

theorem lev_le_del (x : Char) (a b : Str) : lev (x :: a) b ≤ lev a b + 1 := by
  cases b with
  | nil => rw [lev_nil_right, lev_nil_right]; simp
  | cons y b => rw [lev_cons]; omega

/-- Removing a character changes the distance by at most one. -/
theorem lev_del_le (x : Char) : ∀ (n : Nat) (a b : Str), a.length + b.length ≤ n → lev a b ≤ lev (x :: a) b + 1 := by
  intro n
  induction n with
  | zero =>
    intro a b h
    have ha : a = [] := List.length_eq_zero_iff.mp (by omega)
    have hb : b = [] := List.length_eq_zero_iff.mp (by omega)
    subst ha; subst hb
    rw [lev_nil_left]; simp
  | succ n ih =>
    intro a b h
    cases b with
    | nil => rw [lev_nil_right, lev_nil_right]; simp; omega
    | cons y b =>
      rw [List.length_cons] at h
      have h1 := lev_le_ins a y b
      have h2 := ih a b (by omega)
      rw [lev_cons]
      have : lev a b + (if x = y then 0 else 1) ≥ lev a b := by omega
      omega

/-- Distances in the code's order of arguments are Lipschitz in the first string. -/
theorem lev_edit {a a' : Str} (h : Edit a a') (c : Str) : lev a c ≤ lev a' c + 1 := by
  have key : ∀ (p : Str) (q q' : Str), (∀ c, lev q c ≤ lev q' c + 1) → ∀ c, lev (p ++ q) c ≤ lev (p ++ q') c + 1 := by
    intro p q q' hq
    induction p with
    | nil => exact hq
    | cons x p ih =>
      intro c
      rw [List.cons_append, List.cons_append]
      induction c with
      | nil =>
        have := ih []
        rw [lev_nil_right, lev_nil_right] at this ⊢
        rw [List.length_cons, List.length_cons]
        omega
      | cons y c ihc =>
        rw [lev_cons, lev_cons]
        have h1 := ih c
        have h2 := ih (y :: c)
        omega
  cases h with
  | ins p x q => exact key p q (x :: q) (fun c => lev_del_le x _ q c (Nat.le_refl _)) c
  | del p x q => exact key p (x :: q) q (fun c => lev_le_del x q c) c
  | rep p x y q =>
    refine key p (x :: q) (y :: q) (fun c => ?_) c
    cases c with
    | nil => rw [lev_nil_right, lev_nil_right]; simp
    | cons z c =>
      induction c generalizing z with
      | nil =>
        rw [lev_cons, lev_cons, lev_nil_right, lev_nil_right, lev_nil_right, List.length_cons, List.length_cons]
        split_ifs <;> omega
      | cons w c ih =>
        have := ih w
        rw [lev_cons x z, lev_cons y z]
        split_ifs <;> omega

theorem lev_self (a : Str) : lev a a = 0 := by
  induction a with
  | nil => rw [lev_nil_left]; rfl
  | cons x a ih => rw [lev_cons, ih]; simp

theorem lev_le {n : Nat} {a b : Str} (h : Edits n a b) : lev a b ≤ n := by
  induction h with
  | refl a => exact Nat.le_of_eq (lev_self a)
  | step h _ ih => exact Nat.le_trans (lev_edit h _) (by omega)

theorem Edits.cons {n : Nat} {a b : Str} (x : Char) (h : Edits n a b) : Edits n (x :: a) (x :: b) := by
  induction h with
  | refl a => exact .refl _
  | step h _ ih =>
    refine .step ?_ ih
    cases h with
    | ins p y q => exact .ins (x :: p) y q
    | del p y q => exact .del (x :: p) y q
    | rep p y z q => exact .rep (x :: p) y z q

theorem edits_lev : ∀ (n : Nat) (a b : Str), a.length + b.length ≤ n → Edits (lev a b) a b := by
  intro n
  induction n with
  | zero =>
    intro a b h
    have ha : a = [] := List.length_eq_zero_iff.mp (by omega)
    have hb : b = [] := List.length_eq_zero_iff.mp (by omega)
    subst ha; subst hb
    rw [lev_self]; exact .refl _
  | succ n ih =>
    intro a b h
    cases a with
    | nil =>
      cases b with
      | nil => rw [lev_self]; exact .refl _
      | cons y b =>
        have := ih [] b (by simp only [List.length_cons, List.length_nil] at h ⊢; omega)
        rw [lev_nil_left] at this ⊢
        exact .step (.ins [] y []) (this.cons y)
    | cons x a =>
      cases b with
      | nil =>
        have := ih a [] (by simp only [List.length_cons, List.length_nil] at h ⊢; omega)
        rw [lev_nil_right] at this ⊢
        exact .step (.del [] x a) this
      | cons y b =>
        simp only [List.length_cons] at h
        have h1 := ih a b (by omega)
        have h2 := ih a (y :: b) (by simp only [List.length_cons]; omega)
        have h3 := ih (x :: a) b (by simp only [List.length_cons]; omega)
        rw [lev_cons]
        by_cases c1 : lev a b + (if x = y then 0 else 1) ≤ lev a (y :: b) + 1 ∧ lev a b + (if x = y then 0 else 1) ≤ lev (x :: a) b + 1
        · rw [Nat.min_eq_left (by omega : min _ _ ≤ _), Nat.min_eq_left c1.1]
          by_cases hxy : x = y
          · subst hxy
            rw [if_pos rfl]
            exact h1.cons x
          · rw [if_neg hxy]
            exact .step (.rep [] x y a) (h1.cons y)
        · by_cases c2 : lev a (y :: b) + 1 ≤ lev (x :: a) b + 1
          · rw [Nat.min_eq_left (by omega : min _ _ ≤ _), Nat.min_eq_right (by omega)]
            exact .step (.del [] x a) h2
          · rw [Nat.min_eq_right (by omega : _ ≤ min _ _)]
            exact .step (.ins [] y (x :: a)) (h3.cons y)

theorem lev_isDistance (a b : Str) : IsDistance (lev a b) a b := ⟨edits_lev _ a b (Nat.le_refl _), fun _ h => lev_le h⟩

theorem isDistance_unique {d e : Nat} {a b : Str} (h : IsDistance d a b) (h' : IsDistance e a b) : d = e :=
  Nat.le_antisymm (h.2 e h'.1) (h'.2 d h.1)

/-! ### The table

The code works from the front; `lev` takes strings apart at the front too, so the table is compared with `lev` of the
reversed strings, and reversing changes nothing. -/

theorem Edit.reverse {a b : Str} (h : Edit a b) : Edit a.reverse b.reverse := by
  cases h with
  | ins p x q => simpa using Edit.ins q.reverse x p.reverse
  | del p x q => simpa using Edit.del q.reverse x p.reverse
  | rep p x y q => simpa using Edit.rep q.reverse x y p.reverse

theorem Edits.reverse {n : Nat} {a b : Str} (h : Edits n a b) : Edits n a.reverse b.reverse := by
  induction h with
  | refl a => exact .refl _
  | step h _ ih => exact .step h.reverse ih

theorem lev_reverse (a b : Str) : lev a.reverse b.reverse = lev a b := by
  refine isDistance_unique (lev_isDistance _ _) ⟨(lev_isDistance a b).1.reverse, fun n h => ?_⟩
  have := h.reverse
  rw [List.reverse_reverse, List.reverse_reverse] at this
  exact (lev_isDistance a b).2 n this

/-- The entries of a row: distances to the prefixes of `b`, of which `done` (reversed) are behind. -/
def entries (ra : Str) : Str → Str → List Nat
  | done, [] => [lev ra done]
  | done, y :: b => lev ra done :: entries ra (y :: done) b

theorem entries_cons (ra done b : Str) : ∃ t, entries ra done b = lev ra done :: t := by
  cases b <;> exact ⟨_, rfl⟩

theorem entries_length (ra : Str) : ∀ (b done : Str), (entries ra done b).length = b.length + 1 := by
  intro b
  induction b with
  | nil => intro done; rfl
  | cons y b ih => intro done; simp [entries, ih]

theorem nextRow_entries (x : Char) (ra : Str) : ∀ (b done : Str) (old : List Nat), old.length = b.length →
    lev (x :: ra) done :: nextRow x (lev (x :: ra) done) (entries ra done b) old b = entries (x :: ra) done b := by
  intro b
  induction b with
  | nil =>
    intro done old h
    have : old = [] := List.length_eq_zero_iff.mp h
    subst this
    rfl
  | cons y b ih =>
    intro done old h
    cases old with
    | nil => simp at h
    | cons o old =>
      obtain ⟨t, ht⟩ := entries_cons ra (y :: done) b
      have hrow : entries ra done (y :: b) = lev ra done :: lev ra (y :: done) :: t := by
        rw [← ht]; rfl
      rw [hrow]
      unfold nextRow
      dsimp only
      have hc : min (min (lev ra done + if x = y then 0 else 1) (lev ra (y :: done) + 1)) (lev (x :: ra) done + 1) = lev (x :: ra) (y :: done) := by
        rw [lev_cons]
      rw [hc, ← ht, ih (y :: done) old (by simpa using h)]
      rfl

theorem rows_entries (b : Str) : ∀ (a ra : Str) (curr : List Nat), curr.length = b.length + 1 →
    rows b ra.length a (entries ra [] b) curr = entries (a.reverse ++ ra) [] b := by
  intro a
  induction a with
  | nil => intro ra curr _; rfl
  | cons x a ih =>
    intro ra curr hc
    unfold rows
    have h := nextRow_entries x ra b [] curr.tail (by rw [List.length_tail, hc]; rfl)
    have hl : lev (x :: ra) [] = ra.length + 1 := by rw [lev_nil_right]; rfl
    rw [hl] at h
    rw [h]
    have := ih (x :: ra) (entries ra [] b) (entries_length ra b [])
    rw [List.length_cons] at this
    rw [this, List.reverse_cons, List.append_assoc]
    rfl

theorem entries_last (ra : Str) : ∀ (b done : Str), (entries ra done b).getD b.length 0 = lev ra (b.reverse ++ done) := by
  intro b
  induction b with
  | nil => intro done; rfl
  | cons y b ih =>
    intro done
    rw [entries, List.length_cons, List.getD_cons_succ, ih, List.reverse_cons, List.append_assoc]
    rfl

theorem entries_nil : ∀ (b done : Str), entries [] done b = (List.range' done.length (b.length + 1)) := by
  intro b
  induction b with
  | nil => intro done; simp [entries, lev_nil_left, List.range']
  | cons y b ih =>
    intro done
    rw [entries, ih, lev_nil_left, List.length_cons, List.length_cons, List.range'_succ (n := b.length + 1)]

theorem blen_ascii {s : Str} (h : Ascii s) : blen s = s.length := by
  induction s with
  | nil => rfl
  | cons c s ih =>
    have h1 := h c List.mem_cons_self
    have h2 := ih fun x hx => h x (List.mem_cons_of_mem _ hx)
    unfold blen at h2 ⊢
    rw [List.map_cons, List.sum_cons, h1, h2, List.length_cons]
    omega

/-- **The distance is the least number of edits**, for a second string of one-byte characters. (The first may hold any
characters, but if it is the empty string the answer is the length in bytes.) -/
theorem distance_exact_partial (a b : Str) (ha : Ascii a) (hb : Ascii b) : IsDistance (distance a b) a b := by
  have h : distance a b = lev a b := by
    unfold distance
    rw [blen_ascii ha, blen_ascii hb]
    by_cases h1 : a.length = 0
    · rw [if_pos h1, List.length_eq_zero_iff.mp h1, lev_nil_left]
    · rw [if_neg h1]
      by_cases h2 : b.length = 0
      · rw [if_pos h2, List.length_eq_zero_iff.mp h2, lev_nil_right]
      · rw [if_neg h2]
        have hr : List.range (b.length + 1) = entries [] [] b := by
          rw [entries_nil, List.range_eq_range']; rfl
        have := rows_entries b a [] (List.replicate (b.length + 1) 0) (by simp)
        rw [List.length_nil, ← hr] at this
        rw [this, entries_last, List.append_nil, List.append_nil, lev_reverse]
  rw [h]
  exact lev_isDistance a b

/-! ### Suggestions -/

theorem firstMin_none {l : List (Str × Nat)} (h : firstMin l = none) : l = [] := by
  cases l with
  | nil => rfl
  | cons x xs =>
    unfold firstMin at h
    split at h
    · cases h
    · split_ifs at h

theorem firstMin_some : ∀ {l : List (Str × Nat)} {m : Str × Nat}, firstMin l = some m → m ∈ l ∧ ∀ x ∈ l, m.2 ≤ x.2 := by
  intro l
  induction l with
  | nil => intro m h; cases h
  | cons x xs ih =>
    intro m h
    unfold firstMin at h
    cases hf : firstMin xs with
    | none =>
      rw [hf] at h
      cases h
      rw [firstMin_none hf]
      simp
    | some y =>
      rw [hf] at h
      dsimp only at h
      obtain ⟨hy, hmin⟩ := ih hf
      by_cases hc : x.2 ≤ y.2
      · rw [if_pos hc] at h
        cases h
        refine ⟨List.mem_cons_self, fun z hz => ?_⟩
        rcases List.mem_cons.mp hz with hz | hz
        · exact Nat.le_of_eq (by rw [hz])
        · have := hmin z hz; omega
      · rw [if_neg hc] at h
        cases h
        refine ⟨List.mem_cons_of_mem _ hy, fun z hz => ?_⟩
        rcases List.mem_cons.mp hz with hz | hz
        · rw [hz]; omega
        · exact hmin z hz

/-- **The suggestion is a nearest other candidate.** Among one-byte names: it is one of the candidates, at a distance
between 1 and the maximum, and no other candidate but the name itself is nearer. -/
theorem suggestion_nearest_partial (q : Str) (cs : List Str) (max : Nat) (s : Str) (hq : Ascii q) (hcs : ∀ c ∈ cs, Ascii c)
    (h : suggest q cs max = some s) :
    s ∈ cs ∧ s ≠ q ∧ ∃ d, IsDistance d q s ∧ d ≤ max ∧ ∀ c ∈ cs, c ≠ q → ∀ e, IsDistance e q c → d ≤ e := by
  unfold suggest at h
  rw [Option.map_eq_some_iff] at h
  obtain ⟨m, hm, hs⟩ := h
  obtain ⟨h1, h2⟩ := firstMin_some hm
  obtain ⟨c, hc, hcd⟩ := List.mem_filterMap.mp h1
  dsimp only at hcd
  split_ifs at hcd with hd
  cases hcd
  dsimp only at hs h2
  subst hs
  have hdist := distance_exact_partial q c hq (hcs c hc)
  refine ⟨hc, ?_, _, hdist, hd.2, ?_⟩
  · intro e
    have := hdist.2 0 (by rw [e]; exact .refl q)
    omega
  · intro x hx hne e he
    have hex := isDistance_unique he (distance_exact_partial q x hq (hcs x hx))
    by_cases hxm : e ≤ max
    · have hpos : e > 0 := by
        rcases Nat.eq_zero_or_pos e with h0 | h0
        · rw [h0] at he
          have := he.1
          cases this
          exact absurd rfl hne
        · exact h0
      have := h2 (x, distance q x) (List.mem_filterMap.mpr ⟨x, hx, by rw [← hex, if_pos ⟨hpos, hxm⟩]⟩)
      rw [hex]
      exact this
    · have := hd.2
      omega

/-- **There is a suggestion whenever there is a candidate near enough.** -/
theorem suggestion_found_partial (q : Str) (cs : List Str) (max : Nat) (hq : Ascii q) (hcs : ∀ c ∈ cs, Ascii c) (c : Str) (hc : c ∈ cs)
    (hne : c ≠ q) (d : Nat) (hd : IsDistance d q c) (hm : d ≤ max) : (suggest q cs max).isSome := by
  have hex := isDistance_unique hd (distance_exact_partial q c hq (hcs c hc))
  have hpos : d > 0 := by
    rcases Nat.eq_zero_or_pos d with h0 | h0
    · rw [h0] at hd
      have := hd.1
      cases this
      exact absurd rfl hne
    · exact h0
  unfold suggest
  rw [Option.isSome_map]
  cases hf : firstMin (cs.filterMap fun c => let d := distance q c; if d > 0 ∧ d ≤ max then some (c, d) else none) with
  | some _ => rfl
  | none =>
    have := firstMin_none hf
    have hmem : (c, distance q c) ∈ cs.filterMap fun c => let d := distance q c; if d > 0 ∧ d ≤ max then some (c, d) else none :=
      List.mem_filterMap.mpr ⟨c, hc, by dsimp only; rw [← hex, if_pos ⟨hpos, hm⟩]⟩
    rw [this] at hmem
    cases hmem

/-! ### What goes wrong -/

/-- The table is as wide as the *bytes* of the second string, and only the columns of its characters are filled; the
last column is never written when there is a longer character, and holds what the two rows started with. -/
theorem rows_unfilled (b : Str) : ∀ (a : Str) (i : Nat) (prev curr : List Nat) (k : Nat), b.length < k → prev.length = k + 1 → curr.length = k + 1 →
    (rows b i a prev curr).getD k 0 = if a.length % 2 = 0 then prev.getD k 0 else curr.getD k 0 := by
  have hnext : ∀ (x : Char) (b : Str) (left : Nat) (row old : List Nat) (k : Nat), b.length ≤ k → row.length = k + 2 → old.length = k + 1 →
      (nextRow x left row old b).getD k 0 = old.getD k 0 ∧ (nextRow x left row old b).length = k + 1 := by
    intro x b
    induction b with
    | nil =>
      intro left row old k _ _ ho
      have : nextRow x left row old [] = old := by
        rcases row with _ | ⟨d, _ | ⟨u, row⟩⟩ <;> rcases old with _ | ⟨o, old⟩ <;> rfl
      rw [this]
      exact ⟨rfl, ho⟩
    | cons y b ih =>
      intro left row old k hk hr ho
      rw [List.length_cons] at hk
      match row, old, hr, ho with
      | d :: u :: row, o :: old, hr, ho =>
        unfold nextRow
        dsimp only
        obtain ⟨j, rfl⟩ : ∃ j, k = j + 1 := ⟨k - 1, by omega⟩
        rw [List.getD_cons_succ, List.getD_cons_succ]
        simp only [List.length_cons] at hr ho
        obtain ⟨h1, h2⟩ := ih (min (min (d + if x = y then 0 else 1) (u + 1)) (left + 1)) (u :: row) old j (by omega) (by simp only [List.length_cons]; omega) (by omega)
        exact ⟨h1, by rw [List.length_cons, h2]⟩
  intro a
  induction a with
  | nil => intro i prev curr k _ _ _; simp [rows]
  | cons x a ih =>
    intro i prev curr k hk hp hc
    obtain ⟨j, rfl⟩ : ∃ j, k = j + 1 := ⟨k - 1, by omega⟩
    unfold rows
    match curr, hc with
    | c0 :: curr, hc =>
      rw [List.tail_cons]
      simp only [List.length_cons] at hc
      obtain ⟨h1, h2⟩ := hnext x b (i + 1) prev curr j (by omega) (by omega) (by omega)
      rw [ih (i + 1) _ prev (j + 1) hk (by rw [List.length_cons, h2]) hp, List.getD_cons_succ, List.getD_cons_succ, h1, List.length_cons]
      rcases Nat.mod_two_eq_zero_or_one a.length with h | h
      · rw [if_pos h, if_neg (by omega)]
      · rw [if_neg (by omega), if_pos (by omega)]

/-- **With a longer character the distance is nonsense**: it is the number of bytes of the second string if the first has
an even number of characters, and 0 if it has an odd number, whatever the strings say. -/
theorem distance_multibyte (a b : Str) (ha : a ≠ []) (hb : b.length < blen b) :
    distance a b = if a.length % 2 = 0 then blen b else 0 := by
  have hpos : ∀ s : Str, s ≠ [] → blen s ≠ 0 := by
    intro s hs
    cases s with
    | nil => exact absurd rfl hs
    | cons c s =>
      unfold blen
      rw [List.map_cons, List.sum_cons]
      have := Char.utf8Size_pos c
      omega
  unfold distance
  rw [if_neg (hpos a ha), if_neg (by omega), rows_unfilled b a 0 _ _ (blen b) hb (by simp) (by simp)]
  congr 1
  · simp [List.getD]
  · simp [List.getD]

/-- So a candidate such as `é` is suggested for every name with an even number of characters and no near candidate, and a name that differs in one
letter is not suggested for a name of odd length. -/
theorem suggestion_nonsense :
    suggest "completely_different".toList ["é".toList] 3 = some "é".toList ∧
    suggest "caméra".toList ["câmera".toList, "camera".toList] 3 = some "camera".toList ∧
    suggest "moteur".toList ["moteùr".toList] 3 = none ∧ distance "gripper".toList "grippér".toList = 0 := by decide +kernel

/-! ### Non-vacuity -/

example : distance "base_lnk".toList "base_link".toList = 1 ∧ distance "kitten".toList "sitting".toList = 3 ∧
    suggest "cmd_vl".toList ["odom".toList, "cmd_vel".toList, "imu".toList] 3 = some "cmd_vel".toList ∧
    suggest "cmd_vel".toList ["cmd_vel".toList] 3 = none := by decide +kernel

example : Ascii "cmd_vel".toList := by unfold Ascii; decide

end Horus.Similar
