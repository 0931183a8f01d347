/-
Finding a project's manifest and saying where it is wrong: horus_manager/src/manifest.rs:1078-1113
(`line_col`, `table_header`) and 1190-1211 (`find_and_load_from`).

A manifest is its characters; offsets count the bytes of their UTF-8 form, as the toml crate gives them, and
fall between characters (the slice of the code would panic otherwise, and toml gives no other).  A directory
is the list of its names, the innermost first.  What the toml crate says of a manifest is a parameter.
-/
namespace Horus.ManPlace

abbrev Str := List Char

/-- The number of bytes of a text. -/
def size (s : Str) : Nat := (s.map Char.utf8Size).sum

/-- `content[..offset]`, with the offset cut to the length (manifest.rs:1079-1080): the characters that lie before
the offset. -/
def before : Str → Nat → Str
  | [], _ => []
  | c :: s, n => if n < c.utf8Size then [] else c :: before s (n - c.utf8Size)

/-- `rfind('\n')` (manifest.rs:1083): the byte at which the last line end begins. -/
def lastEnd : Str → Option Nat
  | [] => none
  | c :: s =>
    match lastEnd s with
    | some i => some (c.utf8Size + i)
    | none => if c = '\n' then some 0 else none

/-- `line_col` (manifest.rs:1078-1087). -/
def lineCol (content : Str) (offset : Nat) : Nat × Nat :=
  let off := min offset (size content)
  let b := before content off
  (b.count '\n' + 1, match lastEnd b with
    | some nl => off - nl
    | none => off + 1)

/-- `table_header` on the text of the span (manifest.rs:1100-1113); `trim_start` and `trim_end` on ASCII white space.
The first line ends at a line end. -/
def header (text : Str) : Option Str :=
  let t := text.dropWhile Char.isWhitespace
  if t.head? ≠ some '[' then none else
  let first := t.takeWhile (· ≠ '\n')
  let first := (first.reverse.dropWhile Char.isWhitespace).reverse
  if ']' ∈ first then
    let front := first.takeWhile (· ≠ ']')
    some (front ++ (first.drop front.length).takeWhile (· = ']'))
  else none

/-- `find_and_load_from` (manifest.rs:1190-1211) with the number of directories still looked at: what the first manifest
met on the way up gives, with its directory; `none` is "No horus.toml found". -/
def search (load : List String → Option ρ) : Nat → List String → Option (ρ × List String)
  | 0, _ => none
  | n + 1, d =>
    match load d with
    | some m => some (m, d)
    | none =>
      match d with
      | [] => none
      | _ :: p => search load n p

/-- The ten of manifest.rs:1193. -/
def find (load : List String → Option ρ) (start : List String) : Option (ρ × List String) := search load 10 start

/-! ### Where -/

theorem size_append (a b : Str) : size (a ++ b) = size a + size b := by simp [size]

theorem before_split (a b : Str) : before (a ++ b) (size a) = a := by
  induction a with
  | nil => cases b with
    | nil => rfl
    | cons c b => simp [before, size, Char.utf8Size_pos]
  | cons c a ih =>
    have : size (c :: a) = c.utf8Size + size a := rfl
    rw [List.cons_append, before, if_neg (by omega), this, Nat.add_sub_cancel_left, ih]

theorem lastEnd_none (b : Str) (h : '\n' ∉ b) : lastEnd b = none := by
  induction b with
  | nil => rfl
  | cons c b ih =>
    simp only [List.mem_cons, not_or] at h
    rw [lastEnd, ih h.2]
    simp [Ne.symm h.1]

theorem lastEnd_at (a b : Str) (h : '\n' ∉ b) : lastEnd (a ++ '\n' :: b) = some (size a) := by
  induction a with
  | nil => rw [List.nil_append, lastEnd, lastEnd_none b h]; rfl
  | cons c a ih => rw [List.cons_append, lastEnd, ih]; rfl

/-- The text before a place: whole lines, each with its end, then the part of the line the place is on. -/
def upTo (ls : List Str) (part : Str) : Str := (ls.flatMap fun l => l ++ ['\n']) ++ part

/-- Every text is of that form. -/
theorem upTo_all (s : Str) : ∃ ls part, s = upTo ls part ∧ (∀ l ∈ ls, '\n' ∉ l) ∧ '\n' ∉ part := by
  induction s with
  | nil => exact ⟨[], [], rfl, by simp, by simp⟩
  | cons c s ih =>
    obtain ⟨ls, part, rfl, h1, h2⟩ := ih
    by_cases hc : c = '\n'
    · subst hc
      exact ⟨[] :: ls, part, by simp [upTo], by simpa using h1, h2⟩
    · cases ls with
      | nil => exact ⟨[], c :: part, by simp [upTo], by simp, by simp [Ne.symm hc, h2]⟩
      | cons l ls =>
        refine ⟨(c :: l) :: ls, part, by simp [upTo], ?_, h2⟩
        intro x hx
        simp only [List.mem_cons] at hx
        rcases hx with rfl | hx
        · simp [Ne.symm hc, h1 l (by simp)]
        · exact h1 x (by simp [hx])

theorem count_upTo (ls : List Str) (part : Str) (h : ∀ l ∈ ls, '\n' ∉ l) (hp : '\n' ∉ part) : (upTo ls part).count '\n' = ls.length := by
  induction ls with
  | nil => simp [upTo, List.count_eq_zero.2 hp]
  | cons l ls ih =>
    have e : upTo (l :: ls) part = l ++ '\n' :: upTo ls part := by simp [upTo]
    rw [e, List.count_append, List.count_cons_self, ih fun x hx => h x (by simp [hx]), List.count_eq_zero.2 (h l (by simp))]
    simp

/-- **The place told is the place meant**: the line is the number of lines before it and one, the column the number of bytes before it on its
line and one. -/
theorem place (ls : List Str) (part after : Str) (h : ∀ l ∈ ls, '\n' ∉ l) (hp : '\n' ∉ part) :
    lineCol (upTo ls part ++ after) (size (upTo ls part)) = (ls.length + 1, size part + 1) := by
  unfold lineCol
  have hm : min (size (upTo ls part)) (size (upTo ls part ++ after)) = size (upTo ls part) := by rw [size_append]; omega
  simp only [hm, before_split, count_upTo ls part h hp]
  rcases List.eq_nil_or_concat ls with rfl | ⟨k, l, rfl⟩
  · simp [upTo, lastEnd_none part hp]
  · have e : upTo (k.concat l) part = upTo k l ++ '\n' :: part := by simp [upTo]
    rw [e, lastEnd_at _ _ hp, size_append]
    have : size ('\n' :: part) = 1 + size part := rfl
    simp only [this]
    congr 1
    omega

/-- An offset past the end is told as the end. -/
theorem past_end (s : Str) (n : Nat) (h : size s ≤ n) : lineCol s n = lineCol s (size s) := by
  unfold lineCol
  rw [Nat.min_eq_right h, Nat.min_self]

theorem lines_sizes (ls ls' : List Str) (part part' : Str) (h : ∀ l ∈ ls, '\n' ∉ l) (h' : ∀ l ∈ ls', '\n' ∉ l) (hl : ls.length = ls'.length)
    (after after' : Str) (e : upTo ls part ++ after = upTo ls' part' ++ after') : ls = ls' := by
  have key : ∀ (a b : Str) (x y : Str), '\n' ∉ a → '\n' ∉ b → a ++ '\n' :: x = b ++ '\n' :: y → a = b ∧ x = y := by
    intro a
    induction a with
    | nil =>
      intro b x y _ hb e
      cases b with
      | nil => simpa using e
      | cons c b => simp at e hb; exact absurd e.1 hb.1
    | cons c a ih =>
      intro b x y ha hb e
      cases b with
      | nil => simp at e ha; exact absurd e.1.symm ha.1
      | cons d b =>
        simp only [List.cons_append, List.cons.injEq] at e
        obtain ⟨e1, e2⟩ := ih b x y (fun h => ha (by simp [h])) (fun h => hb (by simp [h])) e.2
        exact ⟨by rw [e.1, e1], e2⟩
  induction ls generalizing ls' with
  | nil => cases ls' with
    | nil => rfl
    | cons l ls' => simp at hl
  | cons l ls ih =>
    cases ls' with
    | nil => simp at hl
    | cons l' ls' =>
      have e1 : upTo (l :: ls) part ++ after = l ++ '\n' :: (upTo ls part ++ after) := by simp [upTo]
      have e2 : upTo (l' :: ls') part' ++ after' = l' ++ '\n' :: (upTo ls' part' ++ after') := by simp [upTo]
      rw [e1, e2] at e
      obtain ⟨ha, hb⟩ := key _ _ _ _ (h l (by simp)) (h' l' (by simp)) e
      rw [ha, ih ls' (fun x hx => h x (by simp [hx])) (fun x hx => h' x (by simp [hx])) (by simpa using hl) hb]

/-- Two places of a manifest are never told alike. -/
theorem place_distinct (a x b y : Str) (e : a ++ x = b ++ y) (h : lineCol (a ++ x) (size a) = lineCol (b ++ y) (size b)) : size a = size b := by
  obtain ⟨ls, part, rfl, h1, h2⟩ := upTo_all a
  obtain ⟨ls', part', rfl, h1', h2'⟩ := upTo_all b
  rw [place ls part x h1 h2, place ls' part' y h1' h2'] at h
  simp only [Prod.mk.injEq, Nat.add_right_cancel_iff] at h
  have := lines_sizes ls ls' part part' h1 h1' h.1 x y e
  subst this
  unfold upTo
  rw [size_append, size_append, h.2]

theorem size_ge (s : Str) : s.length ≤ size s := by
  induction s with
  | nil => exact Nat.le_refl _
  | cons c s ih =>
    have h1 : size (c :: s) = c.utf8Size + size s := rfl
    have := Char.utf8Size_pos c
    simp only [List.length_cons]; omega

/-- The column is that of the characters exactly when the line has only ASCII before the place: behind any other character it is too
far to the right. -/
theorem column_iff (ls : List Str) (part after : Str) (h : ∀ l ∈ ls, '\n' ∉ l) (hp : '\n' ∉ part) :
    (lineCol (upTo ls part ++ after) (size (upTo ls part))).2 = part.length + 1 ↔ ∀ c ∈ part, c.utf8Size = 1 := by
  rw [place ls part after h hp]
  simp only [Nat.add_right_cancel_iff]
  clear hp
  induction part with
  | nil => simp [size]
  | cons c s ih =>
    have h1 : size (c :: s) = c.utf8Size + size s := rfl
    have := Char.utf8Size_pos c
    have := size_ge s
    simp only [List.length_cons, List.mem_cons, forall_eq_or_imp, ← ih, h1]
    omega

/-! ### Headers -/

theorem take_front (a z : Str) (h : ']' ∉ a) : (a ++ ']' :: z).takeWhile (· ≠ ']') = a := by
  induction a with
  | nil => simp
  | cons c a ih =>
    simp only [List.mem_cons, not_or] at h
    have hc : c ≠ ']' := fun e => h.1 e.symm
    have := ih h.2
    simp [hc] at this ⊢
    exact this

theorem take_line (a z : Str) (h : '\n' ∉ a) (hz : z = [] ∨ ∃ y, z = '\n' :: y) : (a ++ z).takeWhile (· ≠ '\n') = a := by
  induction a with
  | nil => rcases hz with rfl | ⟨y, rfl⟩ <;> simp
  | cons c a ih =>
    simp only [List.mem_cons, not_or] at h
    have hc : c ≠ '\n' := fun e => h.1 e.symm
    have := ih h.2
    simp [hc] at this ⊢
    exact this

theorem header_core (a : Str) (n : Nat) (rest : Str) (ha : ']' ∉ a) (hn : '\n' ∉ a) (hz : rest = [] ∨ ∃ y, rest = '\n' :: y) :
    header ('[' :: (a ++ (List.replicate (n + 1) ']' ++ rest))) = some ('[' :: (a ++ List.replicate (n + 1) ']')) := by
  have h0 : ('[' :: (a ++ (List.replicate (n + 1) ']' ++ rest))).dropWhile Char.isWhitespace = '[' :: (a ++ (List.replicate (n + 1) ']' ++ rest)) := by
    rw [List.dropWhile_cons_of_neg (by decide)]
  have h1 : ('[' :: (a ++ (List.replicate (n + 1) ']' ++ rest))).takeWhile (· ≠ '\n') = '[' :: (a ++ List.replicate (n + 1) ']') := by
    have := take_line ('[' :: (a ++ List.replicate (n + 1) ']')) rest (by
      simp only [List.mem_cons, List.mem_append, not_or]
      exact ⟨by decide, hn, fun h => absurd (List.eq_of_mem_replicate h) (by decide)⟩) hz
    simpa using this
  have h2 : (('[' :: (a ++ List.replicate (n + 1) ']')).reverse.dropWhile Char.isWhitespace).reverse = '[' :: (a ++ List.replicate (n + 1) ']') := by
    have : ('[' :: (a ++ List.replicate (n + 1) ']')).reverse = ']' :: ('[' :: (a ++ List.replicate n ']')).reverse := by
      rw [List.replicate_succ']; simp
    rw [this, List.dropWhile_cons_of_neg (by decide), ← this, List.reverse_reverse]
  have h3 : ('[' :: (a ++ List.replicate (n + 1) ']')).takeWhile (· ≠ ']') = '[' :: a := by
    rw [List.replicate_succ]
    exact take_front ('[' :: a) _ (by simp [ha])
  unfold header
  simp only [h0, h1, h2, h3]
  rw [if_neg (by simp), if_pos (by simp)]
  congr 1
  have : (('[' :: (a ++ List.replicate (n + 1) ']')).drop ('[' :: a).length) = List.replicate (n + 1) ']' := by simp
  rw [this]
  have : (List.replicate (n + 1) ']').takeWhile (· = ']') = List.replicate (n + 1) ']' := by
    rw [List.takeWhile_replicate]; simp
  rw [this]; rfl

/-- The header of a table is given as it is written. -/
theorem header_table (a rest : Str) (ha : ']' ∉ a) (hn : '\n' ∉ a) (hz : rest = [] ∨ ∃ y, rest = '\n' :: y) :
    header ('[' :: (a ++ ']' :: rest)) = some ('[' :: (a ++ [']'])) := header_core a 0 rest ha hn hz

/-- So is that of an array of tables. -/
theorem header_array (a rest : Str) (ha : ']' ∉ a) (hn : '\n' ∉ a) (hz : rest = [] ∨ ∃ y, rest = '\n' :: y) :
    header ('[' :: '[' :: (a ++ ']' :: ']' :: rest)) = some ('[' :: '[' :: (a ++ [']', ']'])) :=
  header_core ('[' :: a) 1 rest (by simp [ha]) (by simp [hn]) hz

/-- Nothing is made up for a span that is not a header. -/
theorem header_none (text : Str) (h : (text.dropWhile Char.isWhitespace).head? ≠ some '[') : header text = none := by
  unfold header
  simp only
  rw [if_pos h]

/-- A quoted name with a bracket in it is cut off in the middle. -/
theorem header_quoted : header "[sensors.\"a]b\"]".toList = some "[sensors.\"a]".toList := by decide +kernel

/-! ### The manifest found -/

theorem search_iff (load : List String → Option ρ) (n : Nat) (d : List String) (m : ρ) (e : List String) :
    search load n d = some (m, e) ↔ ∃ k, k < n ∧ k ≤ d.length ∧ e = d.drop k ∧ load e = some m ∧ ∀ j, j < k → load (d.drop j) = none := by
  induction n generalizing d with
  | zero => simp [search]
  | succ n ih =>
    unfold search
    cases hl : load d with
    | some a =>
      simp only [Option.some.injEq, Prod.mk.injEq]
      constructor
      · rintro ⟨rfl, rfl⟩
        exact ⟨0, by omega, by omega, rfl, hl, by omega⟩
      · rintro ⟨k, _, _, rfl, h1, h2⟩
        cases k with
        | zero => rw [List.drop_zero, hl] at h1; exact ⟨by simpa using h1, rfl⟩
        | succ k => have := h2 0 (by omega); rw [List.drop_zero, hl] at this; simp at this
    | none =>
      cases d with
      | nil =>
        simp only [reduceCtorEq, false_iff]
        rintro ⟨k, _, _, rfl, h1, _⟩
        rw [List.drop_nil, hl] at h1; simp at h1
      | cons c p =>
        simp only [ih]
        constructor
        · rintro ⟨k, h1, h2, h3, h4, h5⟩
          refine ⟨k + 1, by omega, by simpa using h2, h3, h4, ?_⟩
          intro j hj
          cases j with
          | zero => exact hl
          | succ j => exact h5 j (by omega)
        · rintro ⟨k, h1, h2, h3, h4, h5⟩
          cases k with
          | zero => rw [h3, List.drop_zero, hl] at h4; simp at h4
          | succ k => exact ⟨k, by omega, by simpa using h2, h3, h4, fun j hj => h5 (j + 1) (by omega)⟩

/-- The manifest used is the nearest one on the way up, among the directory itself and the nine above it. -/
theorem found_iff (load : List String → Option ρ) (d : List String) (m : ρ) (e : List String) :
    find load d = some (m, e) ↔ ∃ k, k < 10 ∧ k ≤ d.length ∧ e = d.drop k ∧ load e = some m ∧ ∀ j, j < k → load (d.drop j) = none :=
  search_iff load 10 d m e

/-- A project inside another is taken as itself, also when its manifest cannot be read. -/
theorem inner_wins (load : List String → Option ρ) (d : List String) (m : ρ) (h : load d = some m) : find load d = some (m, d) :=
  (found_iff load d m d).2 ⟨0, by omega, by omega, rfl, h, by omega⟩

/-- Ten directories or more below the manifest the project is not found. -/
theorem deep_lost (load : List String → Option ρ) (deep proj : List String) (hd : 10 ≤ deep.length) (h : ∀ e m, load e = some m → e = proj) :
    find load (deep ++ proj) = none := by
  cases hf : find load (deep ++ proj) with
  | none => rfl
  | some r =>
    obtain ⟨m, e⟩ := r
    obtain ⟨k, h1, h2, rfl, h4, _⟩ := (found_iff load _ m e).1 hf
    have := congrArg List.length (h _ _ h4)
    simp only [List.length_drop, List.length_append] at this
    omega

example : lineCol "[package]\nname = \"ä\"\nx = [".toList (size "[package]\nname = \"ä\"".toList) = (2, 12) := by decide +kernel
example : (lineCol "n = \"ü\" x".toList (size "n = \"ü\" ".toList)).2 = 10 := by decide +kernel
example : header "[[bin]]\npath = 1".toList = some "[[bin]]".toList := by decide +kernel
example : find (fun d => if d = ["robot", "home"] then some 1 else if d = ["home"] then some 2 else none) ["nodes", "src", "robot", "home"] = some (1, ["robot", "home"]) := by decide +kernel

end Horus.ManPlace
