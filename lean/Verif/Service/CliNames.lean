import Verif.Region.Names
import Mathlib.Data.List.TakeWhile
/-
The names `horus service call` and `horus action send-goal` are given, what they are taken for, and the files they become.
Sources: /repo/horus_manager/src/commands/service.rs:276-346 (`resolve_service_name`, `camel_to_snake`), 432-449 (the check and the file
names), /repo/horus_manager/src/commands/action.rs:506-519 (`send_goal`), /repo/horus_core/src/services/macros.rs:94-113 (the name a
service is given).
Simplification: which characters are upper case is a parameter (`char::is_uppercase` knows more of them than ASCII).
-/
namespace Horus.CliNames
open Horus.Names

/-! ### Model -/

/-- service.rs:333-346 `camel_to_snake`, and macros.rs:100-111 `to_snake`, which is the same; `first`: at the first character. -/
def snakeFrom (up : Char → Bool) (first : Bool) : List Char → List Char
  | [] => []
  | c :: cs => (if up c then (if first then [c.toLower] else ['_', c.toLower]) else [c]) ++ snakeFrom up false cs

/-- service.rs:333. -/
def snake (up : Char → Bool) (n : List Char) : List Char := snakeFrom up true n

/-- The part behind the last '/' (`rsplit('/').next()`, service.rs:287). -/
def base (n : List Char) : List Char := (n.reverse.takeWhile (· != '/')).reverse

/-- service.rs:285-291: the name ends in '/' and this, or its last part is this. -/
def tailIs (u n : List Char) : Bool := ('/' :: u).isSuffixOf n || base n == u

/-- service.rs:276-327: the services found, in the order of their names. -/
def resolveName (up : Char → Bool) (found : List (List Char)) (u : List Char) : List Char :=
  match found.find? fun n => n == u with
  | some n => n
  | none =>
    match found.find? fun n => tailIs u n with
    | some n => n
    | none =>
      match found.find? fun n => n == snake up u with
      | some n => n
      | none =>
        match found.find? fun n => tailIs (snake up u) n with
        | some n => n
        | none => if snake up u ≠ u then snake up u else u

/-- Two dots in a row (`contains("..")`, service.rs:440). -/
def twoDots : List Char → Bool
  | a :: b :: rest => (a == '.' && b == '.') || twoDots (b :: rest)
  | _ => false

/-- service.rs:437-449. -/
def accepted (n : List Char) : Bool :=
  !n.isEmpty && !n.contains '/' && !n.contains '\\' && !twoDots n && !n.contains '\x00' && bytes n ≤ 128

/-- service.rs:450. -/
def requestFile (n id : List Char) : List Char := n ++ ".request.".toList ++ id ++ ".json".toList

/-- action.rs:515. -/
def goalFile (n : List Char) : List Char := n ++ ".goal.json".toList

/-- `call_service` up to the file: the name of the request file, or the refusal. -/
def callFile (up : Char → Bool) (found : List (List Char)) (u id : List Char) : Option (List Char) :=
  let n := resolveName up found u
  if accepted n then some (requestFile n id) else none

/-! ### Which service is called -/

theorem find_some_mem {p : List Char → Bool} {l : List (List Char)} {n : List Char} (h : l.find? p = some n) : n ∈ l ∧ p n = true :=
  ⟨List.mem_of_find?_eq_some h, List.find?_some h⟩

/-- **A name that is a running service means that service.** -/
theorem exact_first (up : Char → Bool) (found : List (List Char)) (u : List Char) (h : u ∈ found) : resolveName up found u = u := by
  unfold resolveName
  cases hf : found.find? fun n => n == u with
  | some n => simpa using (find_some_mem hf).2
  | none =>
    rw [List.find?_eq_none] at hf
    exact absurd (by simp) (hf u h)

/-- **A name means a running service, or itself in snake case.** -/
theorem resolve_known (up : Char → Bool) (found : List (List Char)) (u : List Char) :
    resolveName up found u ∈ found ∨ resolveName up found u = snake up u := by
  unfold resolveName
  split
  · exact Or.inl (find_some_mem (by assumption)).1
  · split
    · exact Or.inl (find_some_mem (by assumption)).1
    · split
      · exact Or.inl (find_some_mem (by assumption)).1
      · split
        · exact Or.inl (find_some_mem (by assumption)).1
        · right
          split
          · rfl
          · rename_i h; exact (not_not.mp h).symm

theorem base_noslash (n : List Char) (h : '/' ∉ n) : base n = n := by
  unfold base
  rw [List.takeWhile_eq_self_iff.mpr, List.reverse_reverse]
  intro c hc
  simp only [bne_iff_ne, ne_eq]
  rintro rfl
  exact h (by simpa using hc)

theorem tail_slash (u n : List Char) (h : tailIs u n = true) : n = u ∨ '/' ∈ n := by
  by_cases hs : '/' ∈ n
  · exact Or.inr hs
  · left
    unfold tailIs at h
    rw [Bool.or_eq_true] at h
    rcases h with h | h
    · rw [List.isSuffixOf_iff_suffix] at h
      exact absurd (h.subset (by simp)) hs
    · rw [base_noslash n hs] at h
      simpa using h

/-- **The call reaches only a service whose whole name was typed, as it is or in camel case**: the search by the last part of the name,
which there is for names like "robot/arm/move", only ever finds names that are refused afterwards. -/
theorem tail_search_useless (up : Char → Bool) (found : List (List Char)) (u id f : List Char) (h : callFile up found u id = some f) :
    f = requestFile u id ∨ f = requestFile (snake up u) id := by
  unfold callFile at h
  dsimp only at h
  split at h
  · rename_i ha
    have hns : '/' ∉ resolveName up found u := by
      intro hc
      unfold accepted at ha
      simp only [Bool.and_eq_true, Bool.not_eq_true', List.contains_eq_mem, decide_eq_false_iff_not] at ha
      exact ha.1.1.1.1.2 hc
    have hr : resolveName up found u = u ∨ resolveName up found u = snake up u := by
      revert hns
      unfold resolveName
      split
      · intro _; rename_i hf _; exact Or.inl (by have := (find_some_mem hf).2; simpa using this)
      · split
        · intro hns
          left
          rcases tail_slash _ _ (find_some_mem (by assumption)).2 with h | h
          · exact h
          · exact absurd h hns
        · split
          · intro _; rename_i hf _; exact Or.inr (by have := (find_some_mem hf).2; simpa using this)
          · split
            · intro hns
              right
              rcases tail_slash _ _ (find_some_mem (by assumption)).2 with h | h
              · exact h
              · exact absurd h hns
            · split <;> simp
    cases h
    rcases hr with hr | hr
    · exact Or.inl (by rw [hr])
    · exact Or.inr (by rw [hr])
  · cases h

theorem two_dots (n : List Char) : twoDots n = true ↔ ['.', '.'] <:+: n := by
  induction n with
  | nil => simp [twoDots]
  | cons a n ih =>
    cases n with
    | nil =>
      simp only [twoDots, Bool.false_eq_true, false_iff]
      intro h
      have := h.length_le
      simp at this
    | cons b rest =>
      rw [twoDots, Bool.or_eq_true, ih, show ['.', '.'] <:+: a :: b :: rest ↔ _ from List.infix_cons_iff]
      simp only [List.cons_prefix_cons, List.nil_prefix, and_true, Bool.and_eq_true, beq_iff_eq]
      constructor
      · rintro (⟨h1, h2⟩ | h)
        · exact Or.inl ⟨h1.symm, h2.symm⟩
        · exact Or.inr h
      · rintro (⟨h1, h2⟩ | h)
        · exact Or.inl ⟨h1.symm, h2.symm⟩
        · exact Or.inr h

/-- **A call goes out exactly when the name it resolves to** has a character, is at most 128 bytes, and has no separator, no two dots in a
row and no NUL; the request file is then named after it. -/
theorem call_exact (up : Char → Bool) (found : List (List Char)) (u id : List Char) :
    callFile up found u id = some (requestFile (resolveName up found u) id) ↔
      resolveName up found u ≠ [] ∧ '/' ∉ resolveName up found u ∧ '\\' ∉ resolveName up found u ∧ ¬ ['.', '.'] <:+: resolveName up found u ∧ '\x00' ∉ resolveName up found u ∧ bytes (resolveName up found u) ≤ 128 := by
  have ha : accepted (resolveName up found u) = true ↔ resolveName up found u ≠ [] ∧ '/' ∉ resolveName up found u ∧ '\\' ∉ resolveName up found u ∧ ¬ ['.', '.'] <:+: resolveName up found u ∧ '\x00' ∉ resolveName up found u ∧ bytes (resolveName up found u) ≤ 128 := by
    rw [← two_dots]
    simp [accepted, and_assoc]
  rw [← ha]
  unfold callFile
  dsimp only
  split
  · rename_i h; simp [h]
  · rename_i h; simp [h]

/-- **A running service with a '/' in its name cannot be called**, by any spelling that finds it. -/
theorem slash_uncallable (up : Char → Bool) (found : List (List Char)) (u id : List Char) (h : '/' ∈ resolveName up found u) : callFile up found u id = none := by
  unfold callFile
  dsimp only
  rw [if_neg]
  unfold accepted
  simp only [Bool.and_eq_true, Bool.not_eq_true', List.contains_eq_mem, decide_eq_false_iff_not]
  rintro ⟨⟨⟨⟨⟨_, h1⟩, _⟩, _⟩, _⟩, _⟩
  exact h1 h

/-- **A type name leads to the service the macro names after it**, running or not, unless a running service is called like the type or ends
in '/' and it. -/
theorem type_name_works (up : Char → Bool) (found : List (List Char)) (t : List Char) (h1 : t ∉ found) (h2 : ∀ n ∈ found, tailIs t n = false)
    (h3 : ∀ n ∈ found, n ≠ snake up t → tailIs (snake up t) n = false) : resolveName up found t = snake up t := by
  unfold resolveName
  rw [List.find?_eq_none.mpr (by intro n hn; simp only [beq_iff_eq]; rintro rfl; exact h1 hn)]
  dsimp only
  rw [List.find?_eq_none.mpr (by intro n hn; rw [h2 n hn]; simp)]
  dsimp only
  cases hf : found.find? fun n => n == snake up t with
  | some n => simpa using (find_some_mem hf).2
  | none =>
    dsimp only
    rw [List.find?_eq_none] at hf
    rw [List.find?_eq_none.mpr]
    · dsimp only
      split
      · rfl
      · rename_i h; exact (not_not.mp h).symm
    · intro n hn
      rw [h3 n hn (by simpa using hf n hn)]
      simp

/-- A name without capitals stays as it is. -/
theorem snake_plain (up : Char → Bool) (n : List Char) (h : ∀ c ∈ n, up c = false) : snake up n = n := by
  have : ∀ b, snakeFrom up b n = n := by
    induction n with
    | nil => intro b; rfl
    | cons c cs ih =>
      intro b
      rw [snakeFrom, if_neg (by rw [h c (by simp)]; simp), ih (fun x hx => h x (by simp [hx]))]
      rfl
  exact this true

/-! ### Where the file is -/

theorem splitBy_noslash (n : List Char) (h : '/' ∉ n) : splitBy slash n = [n] := by
  induction n with
  | nil => rfl
  | cons c cs ih =>
    have hc : slash c = false := by
      simp only [slash, beq_eq_false_iff_ne, ne_eq]
      rintro rfl
      exact h (by simp)
    rw [splitBy, hc, ih (fun hx => h (by simp [hx]))]
    rfl

/-- A file of that name is in the directory itself. -/
theorem in_directory (dir : List (List Char)) (n : List Char) (h : '/' ∉ n) (hl : 2 < n.length) : resolve dir n = dir ++ [n] := by
  have h0 : n.head? ≠ some '/' := by
    intro hh
    exact h (List.mem_of_mem_head? hh)
  have h1 : n ≠ [] := by rintro rfl; simp at hl
  have h2 : n ≠ ['.'] := by rintro rfl; simp at hl
  have h3 : n ≠ ['.', '.'] := by rintro rfl; simp at hl
  unfold resolve
  rw [if_neg h0, splitBy_noslash n h]
  simp [walk, h1, h2, h3]

/-- **Whatever name is typed, the request is written into the gateway's directory or nowhere** (the number is digits). -/
theorem request_contained (up : Char → Bool) (found : List (List Char)) (dir : List (List Char)) (u id f : List Char) (hid : '/' ∉ id)
    (h : callFile up found u id = some f) : resolve dir f = dir ++ [f] := by
  unfold callFile at h
  dsimp only at h
  split at h
  · rename_i ha
    cases h
    unfold accepted at ha
    simp only [Bool.and_eq_true, Bool.not_eq_true', List.contains_eq_mem, decide_eq_false_iff_not] at ha
    have hns := ha.1.1.1.1.2
    refine in_directory dir _ ?_ ?_
    · unfold requestFile
      simp only [List.mem_append, not_or]
      exact ⟨⟨⟨hns, by decide⟩, hid⟩, by decide⟩
    · unfold requestFile
      simp only [List.length_append]
      have : ".request.".toList.length = 9 := by decide
      omega
  · cases h

/-- **The name of an action is not looked at: the goal of "../x" is written beside the gateway's directory, and what was there under that
name is deleted first.** -/
theorem goal_escapes (dir : List (List Char)) (d x : List Char) (hx : '/' ∉ x) :
    resolve (dir ++ [d]) (goalFile ("../".toList ++ x)) = dir ++ [goalFile x] := by
  have e : goalFile ("../".toList ++ x) = '.' :: '.' :: '/' :: goalFile x := by simp [goalFile]
  have hs : '/' ∉ goalFile x := by
    unfold goalFile
    simp only [List.mem_append, not_or]
    exact ⟨hx, by decide⟩
  have h1 : splitBy slash ('.' :: '.' :: '/' :: goalFile x) = [['.', '.'], goalFile x] := by
    rw [splitBy, splitBy, splitBy, splitBy_noslash _ hs]
    rfl
  have hl : 2 < (goalFile x).length := by
    unfold goalFile
    rw [List.length_append]
    have : ".goal.json".toList.length = 10 := by decide
    omega
  have n1 : goalFile x ≠ [] := by intro h; rw [h] at hl; simp at hl
  have n2 : goalFile x ≠ ['.'] := by intro h; rw [h] at hl; simp at hl
  have n3 : goalFile x ≠ ['.', '.'] := by intro h; rw [h] at hl; simp at hl
  rw [e]
  unfold resolve
  rw [if_neg (by simp), h1]
  simp [walk, n1, n2, n3]

/-- And an absolute name leaves it altogether. -/
theorem goal_absolute (dir : List (List Char)) : resolve dir (goalFile "/home/u/x".toList) = ["home".toList, "u".toList, "x.goal.json".toList] := by
  have h : (goalFile "/home/u/x".toList).head? = some '/' := by decide
  unfold resolve
  rw [if_pos h]
  decide

/-! ### Cases -/

/-- The type name, the plain name, and a name below another one. -/
example : resolveName Char.isUpper ["get_status".toList, "robot/arm/move".toList] "GetStatus".toList = "get_status".toList ∧
    callFile Char.isUpper ["get_status".toList] "GetStatus".toList "7".toList = some "get_status.request.7.json".toList ∧
    resolveName Char.isUpper ["get_status".toList, "robot/arm/move".toList] "move".toList = "robot/arm/move".toList ∧
    callFile Char.isUpper ["get_status".toList, "robot/arm/move".toList] "move".toList "7".toList = none := by
  decide +kernel

/-- **A running service "arm/move" makes the service "Move" of a server that is not running yet uncallable by its type name**: the first is
found, and refused. -/
theorem neighbour_in_the_way : callFile Char.isUpper ["arm/move".toList] "Move".toList "7".toList = none ∧
    callFile Char.isUpper [] "Move".toList "7".toList = some "move.request.7.json".toList := by
  decide +kernel

end Horus.CliNames
