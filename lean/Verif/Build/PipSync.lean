import Verif.Build.NativeSync
import Mathlib.Data.List.TakeWhile
/-
`horus pip`, `horus conan`, `horus vcpkg`, and the Python requirements written from `horus.toml`. Sources: /repo/horus_manager/src/commands/proxy.rs:291-588,
673-790, pyproject_gen.rs:147-240. Texts are lists of characters.
-/
namespace Horus.PipSync
open Horus.NativeSync (Table get)

/-! ### PEP 508, the part with names, extras and versions -/

def nameChar (c : Char) : Bool := c.isAlphanum || c == '-' || c == '_' || c == '.'
def opChar (c : Char) : Bool := c == '>' || c == '<' || c == '=' || c == '!' || c == '~'
def verChar (c : Char) : Bool := nameChar c || opChar c || c == '*' || c == '+' || c == ',' || c == ' '

structure Req where
  name : List Char
  extras : List (List Char)
  version : Option (List Char)
  deriving DecidableEq

/-- Comma-separated parts. -/
def parts : List Char → List (List Char)
  | [] => [[]]
  | c :: s => if c = ',' then [] :: parts s else match parts s with | [] => [[c]] | p :: ps => (c :: p) :: ps

def endOf (n : List Char) (es : List (List Char)) : List Char → Option Req
  | [] => some ⟨n, es, none⟩
  | c :: v => if opChar c && (c :: v).all verChar then some ⟨n, es, some (c :: v)⟩ else none

/-- The requirement that Python's tools read from a text: name, extras in brackets, versions, in this order. -/
def pep (s : List Char) : Option Req :=
  let n := s.takeWhile nameChar
  if n = [] then none else
  match s.dropWhile nameChar with
  | '[' :: r =>
    let es := parts (r.takeWhile (· != ']'))
    match r.dropWhile (· != ']') with
    | _ :: v => if es.all (fun e => !e.isEmpty && e.all nameChar) then endOf n es v else none
    | [] => none
  | r => endOf n [] r

/-- A requirement as one would write it. -/
def join : List (List Char) → List Char
  | [] => []
  | [e] => e
  | e :: es => e ++ ',' :: join es

def Req.text (r : Req) : List Char := r.name ++ (if r.extras = [] then [] else '[' :: join r.extras ++ [']']) ++ r.version.getD []

def GoodName (n : List Char) : Prop := n ≠ [] ∧ n.all nameChar = true

def GoodVersion (v : List Char) : Prop := (∃ c w, v = c :: w ∧ opChar c = true) ∧ v.all verChar = true ∧ v.getLast? ≠ some ' '

structure Good (r : Req) : Prop where
  name : GoodName r.name
  extras : ∀ e ∈ r.extras, GoodName e
  version : ∀ v, r.version = some v → GoodVersion v

/-! ### HORUS's side -/

def space (c : Char) : Bool := c == ' ' || c == '\t' || c == '\n' || c == '\r'

/-- `str::trim` (for ASCII white space). -/
def trim (s : List Char) : List Char := ((s.dropWhile space).reverse.dropWhile space).reverse

def stop (c : Char) : Bool := opChar c || c == '['

/-- proxy.rs:556-588 (`parse_pip_spec`). -/
def parseSpec (s : List Char) : List Char × Option (List Char) × List (List Char) :=
  let s := trim s
  let name := trim (s.takeWhile fun c => !stop c)
  match s.dropWhile fun c => !stop c with
  | [] => (name, none, [])
  | '[' :: rest =>
    match rest.dropWhile (· != ']') with
    | [] => (name, none, [])
    | _ :: after =>
      (name, if (trim after).isEmpty then none else some (trim after), ((parts (rest.takeWhile (· != ']'))).map trim).filter fun e => !e.isEmpty)
  | rest => (name, some (trim rest), [])

/-- pyproject_gen.rs:207-236 (`format_pypi_dep`) for a detailed dependency: the extras come last. -/
def format (name : List Char) (version : Option (List Char)) (extras : List (List Char)) : List Char :=
  name ++ (match version with
    | none => []
    | some (c :: v) => if opChar c then c :: v else '=' :: '=' :: c :: v
    | some [] => ['=', '=']) ++ (if extras = [] then [] else '[' :: join extras ++ [']'])

theorem nameChar_not (c : Char) (h : nameChar c = true) : stop c = false ∧ space c = false ∧ c ≠ ',' ∧ c ≠ ']' ∧ c ≠ '[' := by
  refine ⟨?_, ?_, ?_, ?_, ?_⟩
  · cases hs : stop c with
    | false => rfl
    | true =>
      simp only [stop, opChar, Bool.or_eq_true, beq_iff_eq] at hs
      rcases hs with ((((rfl | rfl) | rfl) | rfl) | rfl) | rfl <;> revert h <;> decide
  · cases hs : space c with
    | false => rfl
    | true =>
      simp only [space, Bool.or_eq_true, beq_iff_eq] at hs
      rcases hs with ((rfl | rfl) | rfl) | rfl <;> revert h <;> decide
  · rintro rfl; revert h; decide
  · rintro rfl; revert h; decide
  · rintro rfl; revert h; decide

theorem opChar_not (c : Char) (h : opChar c = true) : space c = false ∧ nameChar c = false ∧ c ≠ '[' ∧ c ≠ ']' := by
  simp only [opChar, Bool.or_eq_true, beq_iff_eq] at h
  rcases h with (((rfl | rfl) | rfl) | rfl) | rfl <;> decide

theorem trim_id (s : List Char) (h1 : ∀ c, s.head? = some c → space c = false) (h2 : ∀ c, s.getLast? = some c → space c = false) : trim s = s := by
  unfold trim
  have e1 : s.dropWhile space = s := by
    cases s with
    | nil => rfl
    | cons c s => rw [List.dropWhile_cons_of_neg]; rw [h1 c rfl]; decide
  rw [e1]
  have e2 : s.reverse.dropWhile space = s.reverse := by
    cases hr : s.reverse with
    | nil => rfl
    | cons c t =>
      have : s.getLast? = some c := by rw [List.getLast?_eq_head?_reverse, hr]; rfl
      rw [List.dropWhile_cons_of_neg]
      rw [h2 c this]
      decide
  rw [e2, List.reverse_reverse]

theorem trim_name (n : List Char) (h : n.all nameChar = true) : trim n = n := by
  rw [List.all_eq_true] at h
  apply trim_id
  · intro c hc; exact (nameChar_not c (h c (List.mem_of_mem_head? hc))).2.1
  · intro c hc; exact (nameChar_not c (h c (List.mem_of_mem_getLast? hc))).2.1

theorem takeWhile_stop (p : Char → Bool) (a b : List Char) (ha : ∀ c ∈ a, p c = true) (hb : ∀ c, b.head? = some c → p c = false) : (a ++ b).takeWhile p = a ∧ (a ++ b).dropWhile p = b := by
  induction a with
  | nil =>
    cases b with
    | nil => exact ⟨rfl, rfl⟩
    | cons c b => simp [hb c rfl]
  | cons c a ih =>
    have hc := ha c (by simp)
    obtain ⟨i1, i2⟩ := ih fun x hx => ha x (by simp [hx])
    simp [hc, i1, i2]

theorem join_chars (es : List (List Char)) (h : ∀ e ∈ es, GoodName e) : ∀ c ∈ join es, c ≠ ']' := by
  induction es with
  | nil => intro c hc; cases hc
  | cons e es ih =>
    have he := (h e (by simp)).2
    rw [List.all_eq_true] at he
    cases es with
    | nil => intro c hc; exact (nameChar_not c (he c hc)).2.2.2.1
    | cons f es =>
      intro c hc
      unfold join at hc
      rw [List.mem_append, List.mem_cons] at hc
      rcases hc with hc | rfl | hc
      · exact (nameChar_not c (he c hc)).2.2.2.1
      · decide
      · exact ih (fun x hx => h x (by simp [hx])) c hc

theorem parts_append (e s : List Char) (h : ∀ c ∈ e, c ≠ ',') : parts (e ++ ',' :: s) = e :: parts s := by
  induction e with
  | nil => simp [parts]
  | cons c e ih =>
    rw [List.cons_append, parts, if_neg (h c (by simp)), ih fun x hx => h x (by simp [hx])]

theorem parts_one (e : List Char) (h : ∀ c ∈ e, c ≠ ',') : parts e = [e] := by
  induction e with
  | nil => rfl
  | cons c e ih =>
    unfold parts
    rw [if_neg (h c (by simp)), ih fun x hx => h x (by simp [hx])]

theorem parts_join (es : List (List Char)) (hne : es ≠ []) (h : ∀ e ∈ es, GoodName e) : parts (join es) = es := by
  induction es with
  | nil => exact absurd rfl hne
  | cons e es ih =>
    have he := (h e (by simp)).2
    rw [List.all_eq_true] at he
    have hc : ∀ c ∈ e, c ≠ ',' := fun c hc => (nameChar_not c (he c hc)).2.2.1
    cases es with
    | nil => exact parts_one e hc
    | cons f es =>
      unfold join
      rw [parts_append _ _ hc, ih (by simp) fun x hx => h x (by simp [hx])]

theorem endOf_good (n : List Char) (es : List (List Char)) (v : Option (List Char)) (h : ∀ w, v = some w → GoodVersion w) : endOf n es (v.getD []) = some ⟨n, es, v⟩ := by
  cases v with
  | none => rfl
  | some w =>
    obtain ⟨⟨c, t, rfl, hc⟩, hv, _⟩ := h w rfl
    simp only [Option.getD_some, endOf, hc, hv, Bool.and_self, if_true]

/-- Every good requirement is read as itself. -/
theorem pep_text (r : Req) (h : Good r) : pep r.text = some r := by
  obtain ⟨n, es, v⟩ := r
  obtain ⟨⟨hn0, hn⟩, hes, hv⟩ := h
  simp only at hn0 hn hes hv
  have hn' := hn
  rw [List.all_eq_true] at hn'
  unfold pep Req.text
  dsimp only
  by_cases he : es = []
  · subst he
    simp only [if_true, List.append_nil]
    have hb : ∀ c, (v.getD []).head? = some c → nameChar c = false := by
      intro c hc
      cases v with
      | none => cases hc
      | some w =>
        obtain ⟨⟨d, t, rfl, hd⟩, _, _⟩ := hv w rfl
        injection hc with hc
        subst hc
        exact (opChar_not d hd).2.1
    obtain ⟨t1, t2⟩ := takeWhile_stop nameChar n _ hn' hb
    rw [t1, t2, if_neg hn0]
    cases v with
    | none => rfl
    | some w =>
      obtain ⟨⟨d, t, rfl, hd⟩, _, _⟩ := hv w rfl
      have := endOf_good n [] (some (d :: t)) hv
      rw [Option.getD_some] at this ⊢
      split
      · rename_i heq
        injection heq with h1 _
        exact absurd h1 (opChar_not d hd).2.2.1
      · exact this
  · rw [if_neg he]
    rw [List.append_assoc, List.append_assoc]
    obtain ⟨t1, t2⟩ := takeWhile_stop nameChar n ('[' :: join es ++ ([']'] ++ v.getD [])) hn' (by intro c hc; simp only [List.cons_append, List.head?_cons, Option.some.injEq] at hc; subst hc; decide)
    rw [t1, t2, if_neg hn0]
    simp only [List.cons_append, List.nil_append]
    obtain ⟨u1, u2⟩ := takeWhile_stop (· != ']') (join es) (']' :: v.getD []) (fun c hc => by simpa using join_chars es hes c hc) (by intro c hc; simp at hc; subst hc; decide)
    rw [u1, u2, parts_join es he hes]
    simp only [List.cons_append, List.nil_append]
    rw [if_pos, endOf_good n es v hv]
    rw [List.all_eq_true]
    intro e hm
    obtain ⟨e1, e2⟩ := hes e hm
    simp [e1, e2]

/-- **Every good requirement given to `horus pip install` is understood**: name, extras and versions. -/
theorem spec_parsed (r : Req) (h : Good r) : parseSpec r.text = (r.name, r.version, r.extras) := by
  obtain ⟨n, es, v⟩ := r
  obtain ⟨⟨hn0, hn⟩, hes, hv⟩ := h
  simp only at hn0 hn hes hv
  have hn' := hn
  rw [List.all_eq_true] at hn'
  have hns : ∀ c ∈ n, (fun c => !stop c) c = true := fun c hc => by simp [(nameChar_not c (hn' c hc)).1]
  have hvt : ∀ w, v = some w → trim w = w := by
    intro w hw
    obtain ⟨⟨d, t, rfl, hd⟩, ha, hl⟩ := hv w hw
    apply trim_id
    · intro c hc; injection hc with hc; subst hc; exact (opChar_not d hd).1
    · intro c hc
      have hm := List.mem_of_mem_getLast? hc
      rw [List.all_eq_true] at ha
      have hvc := ha c hm
      have hne : c ≠ ' ' := fun e => hl (e ▸ hc)
      cases hs : space c with
      | false => rfl
      | true =>
        simp only [space, Bool.or_eq_true, beq_iff_eq] at hs
        rcases hs with ((rfl | rfl) | rfl) | rfl
        · exact absurd rfl hne
        all_goals revert hvc; decide
  have htrim : trim (Req.text ⟨n, es, v⟩) = Req.text ⟨n, es, v⟩ := by
    apply trim_id
    · intro c hc
      cases n with
      | nil => exact absurd rfl hn0
      | cons a n =>
        have : c = a := by simpa [Req.text] using hc.symm
        subst this
        exact (nameChar_not _ (hn' _ (by simp))).2.1
    · intro c hc
      cases v with
      | some w =>
        obtain ⟨⟨d, t, rfl, hd⟩, ha, hl⟩ := hv w rfl
        unfold Req.text at hc
        simp only [Option.getD_some] at hc
        rw [List.getLast?_append_of_ne_nil _ (by simp)] at hc
        have hm := List.mem_of_mem_getLast? hc
        rw [List.all_eq_true] at ha
        have hvc := ha c hm
        cases hs : space c with
        | false => rfl
        | true =>
          simp only [space, Bool.or_eq_true, beq_iff_eq] at hs
          rcases hs with ((rfl | rfl) | rfl) | rfl
          · exact absurd hc hl
          all_goals revert hvc; decide
      | none =>
        unfold Req.text at hc
        simp only [Option.getD_none, List.append_nil] at hc
        by_cases he : es = []
        · subst he
          simp only [if_true, List.append_nil] at hc
          exact (nameChar_not c (hn' c (List.mem_of_mem_getLast? hc))).2.1
        · rw [if_neg he, List.getLast?_append_of_ne_nil _ (by simp), List.getLast?_append_of_ne_nil _ (by simp)] at hc
          injection hc with hc
          subst hc
          decide
  unfold parseSpec
  dsimp only
  rw [htrim]
  unfold Req.text
  dsimp only
  by_cases he : es = []
  · subst he
    simp only [if_true, List.append_nil]
    have hb : ∀ c, (v.getD []).head? = some c → (fun c => !stop c) c = false := by
      intro c hc
      cases v with
      | none => cases hc
      | some w =>
        obtain ⟨⟨d, t, rfl, hd⟩, _, _⟩ := hv w rfl
        injection hc with hc
        subst hc
        simp [stop, hd]
    obtain ⟨t1, t2⟩ := takeWhile_stop (fun c => !stop c) n _ hns hb
    rw [t1, t2, trim_name n hn]
    cases v with
    | none => rfl
    | some w =>
      have ht := hvt w rfl
      obtain ⟨⟨d, t, rfl, hd⟩, _, _⟩ := hv w rfl
      rw [Option.getD_some]
      split
      · rename_i heq; cases heq
      · rename_i heq
        injection heq with h1 _
        exact absurd h1 (opChar_not d hd).2.2.1
      · rw [ht]
  · rw [if_neg he, List.append_assoc, List.append_assoc]
    obtain ⟨t1, t2⟩ := takeWhile_stop (fun c => !stop c) n ('[' :: join es ++ ([']'] ++ v.getD [])) hns (by intro c hc; simp only [List.cons_append, List.head?_cons, Option.some.injEq] at hc; subst hc; decide)
    rw [t1, t2]
    simp only [List.cons_append, List.nil_append]
    obtain ⟨u1, u2⟩ := takeWhile_stop (· != ']') (join es) (']' :: v.getD []) (fun c hc => by simpa using join_chars es hes c hc) (by intro c hc; simp at hc; subst hc; decide)
    rw [u1, u2, parts_join es he hes, trim_name n hn]
    simp only [List.cons_append, List.nil_append]
    have e1 : (es.map trim).filter (fun e => !e.isEmpty) = es := by
      have : es.map trim = es := by
        conv_rhs => rw [← List.map_id es]
        apply List.map_congr_left
        intro e hm
        exact trim_name e (hes e hm).2
      rw [this, List.filter_eq_self]
      intro e hm
      simp [(hes e hm).1]
    rw [e1]
    cases v with
    | none => rfl
    | some w =>
      have ht := hvt w rfl
      obtain ⟨⟨d, t, rfl, hd⟩, _, _⟩ := hv w rfl
      rw [Option.getD_some, ht]
      rfl

/-- **What was installed is what is required afterwards**: the requirement written from the entry in `horus.toml` is the one that was given, if it has a version
or extras, but not both. -/
theorem requirement_kept_partial (r : Req) (h : Good r) (hx : r.extras = [] ∨ r.version = none) :
    format (parseSpec r.text).1 (parseSpec r.text).2.1 (parseSpec r.text).2.2 = r.text ∧ pep r.text = some r := by
  refine ⟨?_, pep_text r h⟩
  rw [spec_parsed r h]
  obtain ⟨n, es, v⟩ := r
  unfold format Req.text
  dsimp only at hx ⊢
  rcases hx with rfl | rfl
  · cases v with
    | none => simp
    | some w =>
      obtain ⟨⟨d, t, rfl, hd⟩, _, _⟩ := h.version w rfl
      simp [hd]
  · simp

/-- **Disagreement: with a version and extras the requirement is written in the wrong order**, `uvicorn>=0.20[standard]`, which Python's tools refuse. -/
theorem extras_last_refused (r : Req) (h : Good r) (hx : r.extras ≠ []) (hv : r.version ≠ none) :
    pep (format (parseSpec r.text).1 (parseSpec r.text).2.1 (parseSpec r.text).2.2) = none := by
  rw [spec_parsed r h]
  obtain ⟨n, es, v⟩ := r
  obtain ⟨⟨hn0, hn⟩, hes, hvv⟩ := h
  dsimp only at hx hv hn0 hn hes hvv ⊢
  cases v with
  | none => exact absurd rfl hv
  | some w =>
    obtain ⟨⟨d, t, rfl, hd⟩, _, _⟩ := hvv w rfl
    unfold format
    simp only [hd, if_true, if_neg hx]
    rw [List.all_eq_true] at hn
    rw [List.append_assoc]
    obtain ⟨t1, t2⟩ := takeWhile_stop nameChar n (d :: t ++ ('[' :: join es ++ [']'])) hn (by intro c hc; simp only [List.cons_append, List.head?_cons, Option.some.injEq] at hc; subst hc; exact (opChar_not d hd).2.1)
    unfold pep
    dsimp only
    rw [t1, t2, if_neg hn0, List.cons_append]
    split
    · rename_i heq
      injection heq with h1 _
      exact absurd h1 (opChar_not d hd).2.2.1
    · unfold endOf
      dsimp only
      rw [if_neg]
      have h1 : verChar '[' = false := by decide
      simp [h1]

/-- Disagreement: a marker behind a bare name becomes part of the name. -/
theorem marker_in_name : parseSpec "tomli; python_version<'3.11'".toList = ("tomli; python_version".toList, some "<'3.11'".toList, []) := by decide +kernel

/-- Disagreement: a direct reference becomes part of the name. -/
theorem url_in_name : (parseSpec "pkg @ https://host/pkg.whl".toList).1 = "pkg @ https://host/pkg.whl".toList := by decide +kernel

/-- Disagreement: a comment behind a requirement in a file becomes part of the version. -/
theorem comment_in_version : (parseSpec "numpy==1.26  # pinned".toList).2.1 = some "==1.26  # pinned".toList := by decide +kernel

example : Good ⟨"uvicorn".toList, ["standard".toList], some ">=0.20".toList⟩ := by
  refine ⟨⟨by decide, by decide +kernel⟩, ?_, ?_⟩
  · intro e he; simp only [List.mem_singleton] at he; subst he; exact ⟨by decide, by decide +kernel⟩
  · intro v hv; injection hv with hv; subst hv; exact ⟨⟨'>', _, rfl, by decide⟩, by decide +kernel, by decide⟩
example : format "uvicorn".toList (some ">=0.20".toList) ["standard".toList] = "uvicorn>=0.20[standard]".toList := by decide +kernel

/-! ### The arguments -/

/-- proxy.rs:459-474. -/
def takesValue (o : String) : Bool :=
  o ∈ ["-c", "--constraint", "-e", "--editable", "-t", "--target", "-i", "--index-url", "--extra-index-url", "--prefix", "--root", "--src"]

def isOpt (s : String) : Bool := s.toList.head? == some '-'

/-- proxy.rs:446-457: the lines of a requirements file that count, already trimmed. -/
def reqLines (ls : List String) : List String := ls.filter fun l => !(l.isEmpty || l.toList.head? == some '#' || isOpt l)

/-- proxy.rs:433-482. -/
def collect (files : String → Option (List String)) : List String → List String
  | [] => []
  | a :: as =>
    if isOpt a then
      if a = "-r" ∨ a = "--requirement" then
        match as with
        | [] => []
        | f :: as => reqLines ((files f).getD []) ++ collect files as
      else if takesValue a then
        match as with
        | [] => []
        | _ :: as => collect files as
      else collect files as
    else a :: collect files as

/-- What a user means. -/
inductive Item
  | pkg (s : String)
  | flag (o : String)
  | value (o x : String)
  | file (short : Bool) (f : String)

def Item.args : Item → List String
  | .pkg s => [s]
  | .flag o => [o]
  | .value o x => [o, x]
  | .file short f => [if short then "-r" else "--requirement", f]

def Item.means (files : String → Option (List String)) : Item → List String
  | .pkg s => [s]
  | .flag _ => []
  | .value _ _ => []
  | .file _ f => reqLines ((files f).getD [])

/-- The options HORUS knows. -/
def Item.Ok : Item → Prop
  | .pkg s => isOpt s = false
  | .flag o => isOpt o = true ∧ o ≠ "-r" ∧ o ≠ "--requirement" ∧ takesValue o = false
  | .value o _ => isOpt o = true ∧ o ≠ "-r" ∧ o ≠ "--requirement" ∧ takesValue o = true
  | .file _ _ => True

theorem collect_cons (files : String → Option (List String)) (a : String) (as : List String) : collect files (a :: as) =
    if isOpt a then
      if a = "-r" ∨ a = "--requirement" then
        match as with
        | [] => []
        | f :: as => reqLines ((files f).getD []) ++ collect files as
      else if takesValue a then
        match as with
        | [] => []
        | _ :: as => collect files as
      else collect files as
    else a :: collect files as := by
  rw [collect.eq_def]

/-- **Exactly the packages on the command line and in the requirements files are recorded**, for options that take no value or are known to. -/
theorem collected_partial (files : String → Option (List String)) (is : List Item) (h : ∀ i ∈ is, i.Ok) : collect files (is.flatMap Item.args) = is.flatMap (Item.means files) := by
  induction is with
  | nil => rfl
  | cons i is ih =>
    have hi := h i (by simp)
    have ih := ih fun x hx => h x (by simp [hx])
    rw [List.flatMap_cons, List.flatMap_cons, ← ih]
    cases i with
    | pkg s =>
      have hi : isOpt s = false := hi
      simp [Item.args, Item.means, collect_cons, hi]
    | flag o =>
      obtain ⟨h1, h2, h3, h4⟩ := hi
      simp [Item.args, Item.means, collect_cons, h1, h2, h3, h4]
    | value o x =>
      obtain ⟨h1, h2, h3, h4⟩ := hi
      simp [Item.args, Item.means, collect_cons, h1, h2, h3, h4]
    | file short f =>
      have e1 : isOpt "-r" = true := by decide
      have e2 : isOpt "--requirement" = true := by decide
      cases short <;> simp [Item.args, Item.means, collect_cons, e1, e2]

/-- **Disagreement: the value of any other option is recorded as a dependency**: `--timeout 30` makes `30` a dependency. -/
theorem value_recorded (files : String → Option (List String)) (o x : String) (h1 : isOpt o = true) (h2 : o ≠ "-r" ∧ o ≠ "--requirement") (h3 : takesValue o = false) (hx : isOpt x = false) :
    collect files [o, x] = [x] := by
  simp [collect, h1, h2, h3, hx]

example (files : String → Option (List String)) : collect files ["--timeout", "30", "numpy"] = ["30", "numpy"] := by
  simp [collect, show isOpt "--timeout" = true by decide, show isOpt "30" = false by decide, show isOpt "numpy" = false by decide, show takesValue "--timeout" = false by decide]

/-! ### The entries -/

/-- proxy.rs:340-376: `specs` are the names with their entries, in order. -/
def install {α : Type} (upgrade : Bool) (man : Table α) : Table α → Table α
  | [] => man
  | (n, d) :: specs =>
    match get man n with
    | none => install upgrade ((n, d) :: man) specs
    | some _ => if upgrade then install upgrade ((n, d) :: man.filter fun x => x.1 != n) specs else install upgrade man specs

/-- **With `--upgrade` the last entry given for a name is the one kept; without it the one that was there first.** Other names are not touched. -/
theorem install_spec {α : Type} (upgrade : Bool) (specs man : Table α) (n : String) :
    get (install upgrade man specs) n = if upgrade then (get specs.reverse n).or (get man n) else (get man n).or (get specs n) := by
  induction specs generalizing man with
  | nil => cases upgrade <;> simp [install, Horus.NativeSync.get]
  | cons x specs ih =>
    obtain ⟨m, d⟩ := x
    unfold install
    have hrev : get (specs.reverse ++ [(m, d)]) n = (get specs.reverse n).or (if n = m then some d else none) := by
      rw [Horus.NativeSync.get_append, Horus.NativeSync.get_cons]; rfl
    rw [List.reverse_cons, hrev]
    cases hm : get man m with
    | none =>
      dsimp only
      rw [ih, Horus.NativeSync.get_cons, Horus.NativeSync.get_cons]
      by_cases h : n = m
      · subst h
        cases upgrade <;> simp [hm]
      · cases upgrade <;> simp [h]
    | some e =>
      dsimp only
      cases upgrade with
      | false =>
        simp only [Bool.false_eq_true, if_false]
        rw [ih, Horus.NativeSync.get_cons]
        simp only [Bool.false_eq_true, if_false]
        by_cases h : n = m
        · subst h; simp [hm]
        · simp [h]
      | true =>
        simp only [if_true]
        rw [ih, Horus.NativeSync.get_cons, Horus.NativeSync.get_filter (fun k => k != m)]
        simp only [if_true]
        by_cases h : n = m
        · subst h
          cases get specs.reverse n <;> simp
        · cases get specs.reverse n <;> simp [h]

/-- **Disagreement: another version installed without `--upgrade` is not recorded**: after `pip install numpy==2.0` over `numpy==1.26`, `horus.toml` still has 1.26. -/
theorem other_version_ignored {α : Type} (man : Table α) (n : String) (old new : α) (h : get man n = some old) : get (install false man [(n, new)]) n = some old := by
  rw [install_spec]; simp [h]

/-- proxy.rs:397-416: the given name, then in lower case with underscores, then with hyphens. -/
def uninstall {α : Type} (man : Table α) (n lower hyphen : String) : Table α :=
  if (get man n).isSome then man.filter fun x => x.1 != n
  else if (get man lower).isSome then man.filter fun x => x.1 != lower
  else man.filter fun x => x.1 != hyphen

/-- **At most one entry goes, under one of the three spellings.** -/
theorem uninstall_spec {α : Type} (man : Table α) (n lower hyphen m : String) (h : get (uninstall man n lower hyphen) m ≠ get man m) : m = n ∨ m = lower ∨ m = hyphen := by
  unfold uninstall at h
  by_contra hc
  push Not at hc
  obtain ⟨h1, h2, h3⟩ := hc
  apply h
  split
  · rw [Horus.NativeSync.get_filter (fun k => k != n)]; simp [h1]
  · split
    · rw [Horus.NativeSync.get_filter (fun k => k != lower)]; simp [h2]
    · rw [Horus.NativeSync.get_filter (fun k => k != hyphen)]; simp [h3]

/-- **Disagreement: `pip uninstall NAME` removes an entry of any language**, such as a Rust crate of that name. -/
theorem uninstall_any_source (man : Table Horus.NativeSync.Dep) (n lower hyphen : String) (d : Horus.NativeSync.Dep) (h : get man n = some d) : get (uninstall man n lower hyphen) n = none := by
  unfold uninstall
  rw [h]
  simp only [Option.isSome_some, if_true]
  rw [Horus.NativeSync.get_filter (fun k => k != n)]
  simp

/-- proxy.rs:729-739 (`parse_conan_ref`), on the parts between slashes. -/
def conanRef (ps : List (List Char)) : Option (List Char × List Char) :=
  match ps with
  | n :: v :: _ => let v := v.takeWhile (· != '@'); if n.isEmpty || v.isEmpty then none else some (n, v)
  | _ => none

/-- A reference `name/version@...` gives the name and the version. -/
theorem conan_ref (n v w : List Char) (more : List (List Char)) (hn : n ≠ []) (hv : v ≠ []) (h : '@' ∉ v) : conanRef (n :: (v ++ '@' :: w) :: more) = some (n, v) ∧ conanRef (n :: v :: more) = some (n, v) := by
  have hp : ∀ c ∈ v, (c != '@') = true := fun c hc => by simpa using fun e : c = '@' => h (e ▸ hc)
  have t1 := (takeWhile_stop (· != '@') v ('@' :: w) hp (by intro c hc; simp at hc; subst hc; decide)).1
  have t2 := (takeWhile_stop (· != '@') v [] hp (by intro c hc; cases hc)).1
  rw [List.append_nil] at t2
  simp [conanRef, t1, t2, hn, hv]

/-- **Neither an empty name nor an empty version is recorded.** -/
theorem conan_some (ps : List (List Char)) (n v : List Char) (h : conanRef ps = some (n, v)) : n ≠ [] ∧ v ≠ [] ∧ '@' ∉ v := by
  unfold conanRef at h
  split at h
  · dsimp only at h
    split at h
    · cases h
    · rename_i a b _ hne
      simp only [Bool.or_eq_true, List.isEmpty_iff, not_or] at hne
      simp only [Option.some.injEq, Prod.mk.injEq] at h
      obtain ⟨rfl, rfl⟩ := h
      refine ⟨hne.1, hne.2, fun hm => ?_⟩
      have := List.mem_takeWhile_imp hm
      simp at this
  · cases h

example : conanRef ["fmt".toList, "@".toList] = none := by decide +kernel

/-- **Disagreement: the path of a recipe is taken for a package**: `conan install ./conanfile.txt` records a dependency called `.`. -/
theorem conan_path : conanRef [".".toList, "conanfile.txt".toList] = some (".".toList, "conanfile.txt".toList) := by decide +kernel

end Horus.PipSync
