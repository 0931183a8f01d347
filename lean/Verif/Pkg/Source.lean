/-
Where `horus install NAME` takes a package from: horus_manager/src/registry/install.rs 161-310, registry/mod.rs 258-265. The encoding of names is
also in Verif/Pkg/Verify.lean, on bytes.

The three servers are parameters: the answer to a request depends on its path, and a request may fail. A fragment or query
in an address is not part of the path (library behaviour of reqwest). What is typed is given with surrounding white
space removed.
-/
namespace Horus.PkgSource

abbrev Text := List Char

/-- What a server does with a request: success, another status (the server says no), or none (time-out, no network,
a server in trouble). -/
inductive Reply where
  | yes
  | no
  | failed
deriving DecidableEq

/-- `PackageSource`, the kinds that can be found (install.rs:176-178). -/
inductive Source where
  | registry
  | pypi
  | crates
deriving DecidableEq

/-- What `install_to_target` does (install.rs:161-187): install from a source, or stop because nothing was found or the user cancelled. -/
inductive Result where
  | from_ (s : Source)
  | notFound
  | cancelled
deriving DecidableEq

/-- `url_encode_package_name` (registry/mod.rs:258-265), character by character: the per cent sign is replaced first,
so the replacements do not meet. -/
def encodeC : Char → Text
  | '%' => "%25".toList
  | '@' => "%40".toList
  | '/' => "%2F".toList
  | ' ' => "%20".toList
  | '#' => "%23".toList
  | '?' => "%3F".toList
  | c => [c]

/-- The whole name (registry/mod.rs:258-265). -/
def encode (s : Text) : Text := s.flatMap encodeC

/-- The path of an address: up to a query or a fragment (library function, reqwest). -/
def pathOf (s : Text) : Text := s.takeWhile fun c => c != '?' && c != '#'

/-- The three servers, asked with the part of the path after their own prefix (install.rs:203, 248, 257). -/
structure Servers where
  registry : Text → Reply
  pypi : Text → Reply
  crates : Text → Reply

/-- What follows the name in the address of a package on PyPI (install.rs:248). -/
def json : Text := "/json".toList

/-- The request to the registry (install.rs:202-207). -/
def inRegistry (w : Servers) (n : Text) : Bool := w.registry (pathOf (encode n)) = .yes

/-- `check_pypi_exists` (install.rs:246-253): the name as it is, then `/json`. -/
def inPypi (w : Servers) (n : Text) : Bool := w.pypi (pathOf (n ++ json)) = .yes

/-- `check_crates_exists` (install.rs:255-267). -/
def inCrates (w : Servers) (n : Text) : Bool := w.crates (pathOf n) = .yes

/-- `prompt_package_source_choice` (install.rs:269-303); at the end of the input the line is empty. -/
def prompt (typed : Text) : Result :=
  if typed = ['1'] then .from_ .pypi
  else if typed = ['2'] then .from_ .crates
  else if typed = ['3'] then .cancelled
  else .from_ .pypi

/-- `detect_package_source` (install.rs:190-244). -/
def detect (w : Servers) (n typed : Text) : Result :=
  if n.head? = some '@' then .from_ .registry
  else if ['h', 'o', 'r', 'u', 's'].isPrefixOf n then .from_ .registry
  else if inRegistry w n then .from_ .registry
  else if inPypi w n && inCrates w n then prompt typed
  else if inCrates w n then .from_ .crates
  else if inPypi w n then .from_ .pypi
  else .notFound

/-! ### Specification -/

/-- Names of packages as the servers allow them. -/
def Plain (n : Text) : Prop := n ≠ [] ∧ ∀ c ∈ n, c.isAlphanum = true ∨ c = '-' ∨ c = '_' ∨ c = '.'

/-- Names kept for the registry. -/
def Ours (n : Text) : Prop := (∃ s, n = '@' :: s) ∨ ∃ s, n = 'h' :: 'o' :: 'r' :: 'u' :: 's' :: s

/-- The server answers, and says whether it has the package. -/
def Tells (r : Reply) (has : Prop) : Prop := (has → r = .yes) ∧ (¬ has → r = .no)

/-! ### Theorems -/

theorem ours_iff (w : Servers) (n typed : Text) (h : Ours n) : detect w n typed = .from_ .registry := by
  rcases h with ⟨s, rfl⟩ | ⟨s, rfl⟩
  · rfl
  · simp [detect]

theorem not_ours {n : Text} (h : ¬ Ours n) : n.head? ≠ some '@' ∧ ['h', 'o', 'r', 'u', 's'].isPrefixOf n = false := by
  constructor
  · intro e
    cases n with
    | nil => cases e
    | cons c s => cases e; exact h (.inl ⟨s, rfl⟩)
  · cases hp : ['h', 'o', 'r', 'u', 's'].isPrefixOf n with
    | false => rfl
    | true =>
      obtain ⟨s, rfl⟩ := List.isPrefixOf_iff_prefix.1 hp
      exact absurd (.inr ⟨s, rfl⟩) h

theorem plain_chars {n : Text} (h : Plain n) : ∀ c ∈ n, encodeC c = [c] ∧ (c != '?' && c != '#') = true := by
  intro c hc
  have hne : c ≠ '%' ∧ c ≠ '@' ∧ c ≠ '/' ∧ c ≠ ' ' ∧ c ≠ '#' ∧ c ≠ '?' := by
    refine ⟨?_, ?_, ?_, ?_, ?_, ?_⟩ <;> (rintro rfl; have := h.2 _ hc; revert this; decide)
  obtain ⟨h1, h2, h3, h4, h5, h6⟩ := hne
  refine ⟨?_, by simp [h5, h6]⟩
  unfold encodeC
  split <;> first | contradiction | rfl

theorem path_self (s : Text) (hs : ∀ c ∈ s, (c != '?' && c != '#') = true) : pathOf s = s := by
  unfold pathOf
  induction s with
  | nil => rfl
  | cons c s ih => rw [List.takeWhile_cons, hs c (by simp), if_pos rfl, ih (fun d hd => hs d (by simp [hd]))]

theorem plain_path {n : Text} (h : Plain n) : pathOf (encode n) = n ∧ pathOf n = n ∧ pathOf (n ++ json) = n ++ json := by
  have h0 := plain_chars h
  have he : encode n = n := by
    unfold encode
    clear h
    induction n with
    | nil => rfl
    | cons c s ih =>
      rw [List.flatMap_cons, (h0 c (by simp)).1, ih (fun d hd => h0 d (by simp [hd]))]
      rfl
  have tw : ∀ s : Text, (∀ c ∈ s, (c != '?' && c != '#') = true) → pathOf s = s := by
    intro s
    unfold pathOf
    induction s with
    | nil => intro _; rfl
    | cons c s ih => intro hs; rw [List.takeWhile_cons, hs c (by simp), if_pos rfl, ih (fun d hd => hs d (by simp [hd]))]
  refine ⟨by rw [he]; exact tw n fun c hc => (h0 c hc).2, tw n fun c hc => (h0 c hc).2, tw _ ?_⟩
  intro c hc
  rcases List.mem_append.1 hc with hc | hc
  · exact (h0 c hc).2
  · clear h h0 he tw
    exact (by decide : ∀ c ∈ json, (c != '?' && c != '#') = true) c ‹_›

/-- C297: if every server answers, a package is taken from the registry exactly if its name is kept for the registry
or the registry has it; else from the one public index that has it; if both have it the user is asked; if none has it
nothing is installed. -/
theorem detect_partial (w : Servers) (n typed : Text) (hn : Plain n) (R Y C : Prop)
    (hf : Tells (w.registry n) R ∧ Tells (w.pypi (n ++ json)) Y ∧ Tells (w.crates n) C) :
    (detect w n typed = .from_ .registry ↔ Ours n ∨ R) ∧
    (¬ Ours n → ¬ R →
      (Y → ¬ C → detect w n typed = .from_ .pypi) ∧
      (¬ Y → C → detect w n typed = .from_ .crates) ∧
      (¬ Y → ¬ C → detect w n typed = .notFound) ∧
      (Y → C →
        (typed = ['1'] → detect w n typed = .from_ .pypi) ∧ (typed = ['2'] → detect w n typed = .from_ .crates) ∧
        (typed = ['3'] → detect w n typed = .cancelled))) := by
  obtain ⟨⟨r1, r2⟩, ⟨y1, y2⟩, c1, c2⟩ := hf
  obtain ⟨p1, p2, p3⟩ := plain_path hn
  have hp : ∀ t, prompt t ≠ .from_ .registry := by
    intro t; unfold prompt; repeat' split
    all_goals decide
  constructor
  · by_cases ho : Ours n
    · simp [ours_iff w n typed ho, ho]
    · obtain ⟨a, b⟩ := not_ours ho
      unfold detect inRegistry inPypi inCrates
      rw [p1, p2, p3, if_neg a, b]
      simp only [Bool.false_eq_true, if_false, ho, false_or]
      by_cases hR : R
      · simp [hR, r1 hR]
      · have hr : w.registry n ≠ .yes := by rw [r2 hR]; decide
        simp only [hr, hR, decide_false, Bool.false_eq_true, if_false, iff_false]
        repeat' split
        · exact hp typed
        all_goals decide
  · intro ho hR
    obtain ⟨a, b⟩ := not_ours ho
    unfold detect inRegistry inPypi inCrates
    rw [p1, p2, p3, if_neg a, b, r2 hR]
    refine ⟨?_, ?_, ?_, ?_⟩
    · intro h1 h2; simp [y1 h1, c2 h2]
    · intro h1 h2; simp [y2 h1, c1 h2]
    · intro h1 h2; simp [y2 h1, c2 h2]
    · intro h1 h2
      refine ⟨?_, ?_, ?_⟩ <;> (rintro rfl; simp [y1 h1, c1 h2, prompt])

/-- C297: nothing is installed from a server that did not say it has the package, except names kept for the registry. -/
theorem found_there (w : Servers) (n typed : Text) (hn : Plain n) (s : Source) (h : detect w n typed = .from_ s) :
    (s = .registry → Ours n ∨ w.registry n = .yes) ∧ (s = .pypi → w.pypi (n ++ json) = .yes) ∧ (s = .crates → w.crates n = .yes) := by
  obtain ⟨p1, p2, p3⟩ := plain_path hn
  by_cases ho : Ours n
  · rw [ours_iff w n typed ho] at h
    cases h
    simp [ho]
  · obtain ⟨a, b⟩ := not_ours ho
    unfold detect inRegistry inPypi inCrates at h
    rw [p1, p2, p3, if_neg a, b] at h
    simp only [Bool.false_eq_true, if_false] at h
    by_cases hr : w.registry n = .yes <;> by_cases hy : w.pypi (n ++ json) = .yes <;> by_cases hc : w.crates n = .yes <;>
      simp [hr, hy, hc] at h <;> simp_all
    all_goals (cases s <;> simp_all)
    all_goals (unfold prompt at h; repeat' split at h)
    all_goals cases h

/-- C297, a disagreement: while the registry does not answer, a package it has is taken without a question from a public
index that has one of the same name. -/
theorem outage_shadow (w : Servers) (n typed : Text) (hn : Plain n) (ho : ¬ Ours n) (hr : w.registry n = .failed)
    (hy : w.pypi (n ++ json) = .yes) (hc : w.crates n ≠ .yes) : detect w n typed = .from_ .pypi := by
  obtain ⟨p1, p2, p3⟩ := plain_path hn
  obtain ⟨a, b⟩ := not_ours ho
  unfold detect inRegistry inPypi inCrates
  rw [p1, p2, p3, if_neg a, b]
  simp [hr, hy, hc]

/-- C297, a disagreement: while one index does not answer, a name both have is taken from the other without a
question. -/
theorem unasked (w : Servers) (n typed : Text) (hn : Plain n) (ho : ¬ Ours n) (hr : w.registry n = .no)
    (hy : w.pypi (n ++ json) = .failed) (hc : w.crates n = .yes) : detect w n typed = .from_ .crates := by
  obtain ⟨p1, p2, p3⟩ := plain_path hn
  obtain ⟨a, b⟩ := not_ours ho
  unfold detect inRegistry inPypi inCrates
  rw [p1, p2, p3, if_neg a, b]
  simp [hr, hy, hc]

/-- C297, a disagreement: any answer to the question but 1, 2 and 3 installs from PyPI: `q`, `n`, or no input at all. -/
theorem any_key (typed : Text) (h : typed ≠ ['1'] ∧ typed ≠ ['2'] ∧ typed ≠ ['3']) : prompt typed = .from_ .pypi := by
  simp [prompt, h]

/-- C297, a disagreement: every name that begins with `horus` goes to the registry, though only an index has it. -/
theorem prefix_taken (w : Servers) (s typed : Text) : detect w ("horus".toList ++ s) typed = .from_ .registry :=
  ours_iff w _ typed (.inr ⟨s, rfl⟩)

/-- C297: whatever the name, what the registry is asked for carries no query or fragment: the name reaches it whole. -/
theorem encode_whole (n : Text) : pathOf (encode n) = encode n := by
  refine path_self _ ?_
  unfold encode
  intro c hc
  obtain ⟨d, _, hd⟩ := List.mem_flatMap.1 hc
  revert hd
  unfold encodeC
  split
  case h_7 h1 h2 h3 h4 h5 h6 =>
    intro hd
    simp only [List.mem_singleton] at hd
    subst hd
    have a : c ≠ '#' := fun e => h5 e
    have b : c ≠ '?' := fun e => h6 e
    simp [a, b]
  all_goals (clear hc; revert c; decide)

theorem encodeC_cases (c : Char) : (c ≠ '%' ∧ encodeC c = [c]) ∨ ∃ x y, encodeC c = ['%', x, y] ∧
    ((x, y, c) ∈ [('2', '5', '%'), ('4', '0', '@'), ('2', 'F', '/'), ('2', '0', ' '), ('2', '3', '#'), ('3', 'F', '?')]) := by
  unfold encodeC
  split
  case h_7 h1 h2 h3 h4 h5 h6 => exact .inl ⟨h1, rfl⟩
  · exact .inr ⟨'2', '5', rfl, by decide⟩
  · exact .inr ⟨'4', '0', rfl, by decide⟩
  · exact .inr ⟨'2', 'F', rfl, by decide⟩
  · exact .inr ⟨'2', '0', rfl, by decide⟩
  · exact .inr ⟨'2', '3', rfl, by decide⟩
  · exact .inr ⟨'3', 'F', rfl, by decide⟩

/-- C297: the registry is asked for different packages by different names. -/
theorem encode_apart (a b : Text) (h : encode a = encode b) : a = b := by
  have key : ∀ c d s t, encodeC c ++ s = encodeC d ++ t → c = d ∧ s = t := by
    intro c d s t e
    rcases encodeC_cases c with ⟨hc, hc'⟩ | ⟨x, y, hc, hm⟩ <;> rcases encodeC_cases d with ⟨hd, hd'⟩ | ⟨x', y', hd, hm'⟩
    · rw [hc', hd'] at e; simpa using e
    · rw [hc', hd] at e; simp at e; exact absurd e.1 hc
    · rw [hc, hd'] at e; simp at e; exact absurd e.1.symm hd
    · rw [hc, hd] at e
      simp at e
      obtain ⟨rfl, rfl, rfl⟩ := e
      simp only [List.mem_cons, Prod.mk.injEq, List.not_mem_nil, or_false] at hm hm'
      refine ⟨?_, rfl⟩
      rcases hm with ⟨rfl, rfl, rfl⟩ | ⟨rfl, rfl, rfl⟩ | ⟨rfl, rfl, rfl⟩ | ⟨rfl, rfl, rfl⟩ | ⟨rfl, rfl, rfl⟩ | ⟨rfl, rfl, rfl⟩ <;>
        simp at hm' <;> exact hm'.symm
  have pos : ∀ c, encodeC c ≠ [] := by
    intro c
    rcases encodeC_cases c with ⟨_, hc⟩ | ⟨x, y, hc, _⟩ <;> simp [hc]
  unfold encode at h
  induction a generalizing b with
  | nil =>
    cases b with
    | nil => rfl
    | cons d b => rw [List.flatMap_cons] at h; exact absurd (List.append_eq_nil_iff.1 h.symm).1 (pos d)
  | cons c a ih =>
    cases b with
    | nil => rw [List.flatMap_cons] at h; exact absurd (List.append_eq_nil_iff.1 h).1 (pos c)
    | cons d b =>
      rw [List.flatMap_cons, List.flatMap_cons] at h
      obtain ⟨rfl, h2⟩ := key _ _ _ _ h
      rw [ih b h2]

/-- C297, a disagreement: the indexes are asked with the name as typed, so a name with a fragment or a query is found
there if the part before is, and it is this longer name that is then installed. -/
theorem fragment_found (w : Servers) (n s typed : Text) (hn : Plain n) (ho : ¬ Ours n) (hr : w.registry (n ++ "%23".toList ++ encode s) ≠ .yes)
    (hy : w.pypi n ≠ .yes) (hc : w.crates n = .yes) : detect w (n ++ '#' :: s) typed = .from_ .crates := by
  have hcut : ∀ t, pathOf (n ++ '#' :: t) = n := by
    intro t
    have h0 := plain_chars hn
    unfold pathOf
    rw [List.takeWhile_append_of_pos (fun c hc => (h0 c hc).2)]
    simp
  have henc : encode (n ++ '#' :: s) = n ++ "%23".toList ++ encode s := by
    have h0 := plain_chars hn
    have he : encode n = n := by
      unfold encode
      clear hn ho hr hy hc hcut
      induction n with
      | nil => rfl
      | cons c t ih => rw [List.flatMap_cons, (h0 c (by simp)).1, ih (fun d hd => h0 d (by simp [hd]))]; rfl
    unfold encode at he ⊢
    rw [List.flatMap_append, he, List.flatMap_cons, List.append_assoc]
    rfl
  have hno : ¬ Ours (n ++ '#' :: s) := by
    rintro (⟨t, h⟩ | ⟨t, h⟩)
    · cases n with
      | nil => exact hn.1 rfl
      | cons c n => injection h with h1 h2; exact ho (.inl ⟨n, by rw [h1]⟩)
    · match n, h with
      | [], h => exact hn.1 rfl
      | [a], h => simp at h
      | [a, b], h => simp at h
      | [a, b, c], h => simp at h
      | [a, b, c, d], h => simp at h
      | a :: b :: c :: d :: e :: n, h => simp at h; obtain ⟨rfl, rfl, rfl, rfl, rfl, _⟩ := h; exact ho (.inr ⟨n, rfl⟩)
  obtain ⟨a, b⟩ := not_ours hno
  have e1 : inRegistry w (n ++ '#' :: s) = false := by
    unfold inRegistry; rw [encode_whole, henc]; simpa using hr
  have e2 : inPypi w (n ++ '#' :: s) = false := by
    unfold inPypi; rw [List.append_assoc, List.cons_append, hcut]; simpa using hy
  have e3 : inCrates w (n ++ '#' :: s) = true := by
    unfold inCrates; rw [hcut]; simpa using hc
  unfold detect
  rw [if_neg a, b, e1, e2, e3]
  simp

/-! ### Examples -/

/-- Servers that know a package each, and `serde` in both indexes. -/
def servers1 : Servers :=
  ⟨fun n => if n = "lidar".toList then .yes else .no,
   fun n => if n = "numpy/json".toList ∨ n = "serde/json".toList then .yes else .no,
   fun n => if n = "tokio".toList ∨ n = "serde".toList then .yes else .no⟩

example : detect servers1 "lidar".toList [] = .from_ .registry ∧ detect servers1 "numpy".toList [] = .from_ .pypi ∧
    detect servers1 "tokio".toList [] = .from_ .crates ∧ detect servers1 "serde".toList ['3'] = .cancelled ∧
    detect servers1 "nothing".toList [] = .notFound ∧ detect servers1 "tokio#x".toList [] = .from_ .crates := by decide +kernel
example : Plain "lidar-2_d.x".toList := ⟨by decide, by decide +kernel⟩
example : ¬ Ours "lidar".toList := by rintro (⟨s, h⟩ | ⟨s, h⟩) <;> cases h
example : encode "@org/a b".toList = "%40org%2Fa%20b".toList := by decide +kernel

end Horus.PkgSource
