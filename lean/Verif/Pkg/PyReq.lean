import Mathlib.Tactic.Common
import Mathlib.Data.List.Basic
/-
A version requirement on its way to pip: `semver_req_to_pip` and the text given to `pip install`. Source:
/repo/horus_manager/src/registry/install.rs:17-30, 372-376, 1559-1577. Texts are lists of characters in which a number is one sign. The
`semver` crate (what a requirement means and how it is written) and pip (how it reads a requirement, after PEP 440 and PEP 508) are outside
the code; they are modelled here for released versions `x.y.z`, without pre-releases.
-/
namespace Horus.PyReq

/-- A sign of a text: a character, or a whole number in digits. -/
inductive Tok where
  | ch (c : Char)
  | num (n : Nat)
  deriving DecidableEq, Repr

abbrev Txt := List Tok

/-! ### The `semver` crate -/

inductive Op where
  | exact | gt | ge | lt | le | tilde | caret | wild
  deriving DecidableEq, Repr

/-- The numbers of a comparator: `1`, `1.2` or `1.2.3`. -/
inductive Part where
  | one (a : Nat)
  | two (a b : Nat)
  | three (a b c : Nat)
  deriving DecidableEq, Repr

structure Cmp where
  op : Op
  part : Part
  deriving DecidableEq, Repr

/-- A version. -/
structure Ver where
  a : Nat
  b : Nat
  c : Nat
  deriving DecidableEq, Repr

/-- `matches_exact` of the crate. -/
def eqM : Part → Ver → Bool
  | .one a, v => v.a = a
  | .two a b, v => v.a = a ∧ v.b = b
  | .three a b c, v => v.a = a ∧ v.b = b ∧ v.c = c

/-- `matches_greater`. -/
def gtM : Part → Ver → Bool
  | .one a, v => a < v.a
  | .two a b, v => if v.a ≠ a then a < v.a else b < v.b
  | .three a b c, v => if v.a ≠ a then a < v.a else if v.b ≠ b then b < v.b else c < v.c

/-- `matches_less`. -/
def ltM : Part → Ver → Bool
  | .one a, v => v.a < a
  | .two a b, v => if v.a ≠ a then v.a < a else v.b < b
  | .three a b c, v => if v.a ≠ a then v.a < a else if v.b ≠ b then v.b < b else v.c < c

/-- `matches_tilde`. -/
def tildeM : Part → Ver → Bool
  | .one a, v => v.a = a
  | .two a b, v => v.a = a ∧ v.b = b
  | .three a b c, v => v.a = a ∧ v.b = b ∧ c ≤ v.c

/-- `matches_caret`. -/
def caretM : Part → Ver → Bool
  | .one a, v => v.a = a
  | .two a b, v => v.a = a ∧ (if 0 < a then b ≤ v.b else v.b = b)
  | .three a b c, v =>
    v.a = a ∧ (if 0 < a then (b < v.b ∨ v.b = b ∧ c ≤ v.c) else if 0 < b then v.b = b ∧ c ≤ v.c else v.b = b ∧ v.c = c)

/-- What a comparator admits. -/
def Cmp.admits (k : Cmp) (v : Ver) : Bool :=
  match k.op with
  | .exact => eqM k.part v
  | .wild => eqM k.part v
  | .gt => gtM k.part v
  | .ge => eqM k.part v || gtM k.part v
  | .lt => ltM k.part v
  | .le => eqM k.part v || ltM k.part v
  | .tilde => tildeM k.part v
  | .caret => caretM k.part v

/-- A requirement admits what all its comparators admit. -/
def admits (r : List Cmp) (v : Ver) : Bool := r.all (·.admits v)

def nums : Part → Txt
  | .one a => [.num a]
  | .two a b => [.num a, .ch '.', .num b]
  | .three a b c => [.num a, .ch '.', .num b, .ch '.', .num c]

def sign : Op → Txt
  | .exact => [.ch '=']
  | .gt => [.ch '>']
  | .ge => [.ch '>', .ch '=']
  | .lt => [.ch '<']
  | .le => [.ch '<', .ch '=']
  | .tilde => [.ch '~']
  | .caret => [.ch '^']
  | .wild => []

/-- A wildcard ends in `.*`. -/
def tail : Op → Part → Txt
  | .wild, .one _ => [.ch '.', .ch '*']
  | .wild, .two _ _ => [.ch '.', .ch '*']
  | _, _ => []

/-- How the crate writes a comparator. -/
def Cmp.show (k : Cmp) : Txt := sign k.op ++ nums k.part ++ tail k.op k.part

/-- How the crate writes a requirement: separated by a comma and a space, `*` for no comparator. -/
def showReq : List Cmp → Txt
  | [] => [.ch '*']
  | [k] => k.show
  | k :: m :: l => k.show ++ .ch ',' :: .ch ' ' :: showReq (m :: l)

/-! ### The code -/

/-- `semver_req_to_pip` (install.rs:22-30). -/
def toPip (r : List Cmp) : Option Txt := if showReq r = [.ch '*'] then none else some (showReq r)

/-- What comes after the package name in the requirement for pip (install.rs:1559-1577); `none` is `"latest"`. -/
def request : Option Txt → Txt
  | none => []
  | some s =>
    if [.ch '>', .ch '='] <+: s ∨ [.ch '<', .ch '='] <+: s ∨ [.ch '>'] <+: s ∨ [.ch '<'] <+: s ∨ [.ch '=', .ch '='] <+: s ∨ [.ch '!', .ch '='] <+: s ∨ .ch ',' ∈ s
    then s else .ch '=' :: .ch '=' :: s

/-- What pip is asked for, for a dependency with a requirement (install.rs:372-376). -/
def asked (r : List Cmp) : Txt := request (toPip r)

/-! ### pip -/

/-- A clause as pip reads it. `same` is `===`, equality of texts. -/
inductive Clause where
  | eq (p : Part)
  | pre (p : Part)
  | gt (p : Part)
  | ge (p : Part)
  | lt (p : Part)
  | le (p : Part)
  | same (t : Txt)
  deriving DecidableEq, Repr

/-- A version's numbers, up to three; missing ones count as zero. -/
def numsOf : Txt → Option Part
  | [.num a] => some (.one a)
  | [.num a, .ch '.', .num b] => some (.two a b)
  | [.num a, .ch '.', .num b, .ch '.', .num c] => some (.three a b c)
  | _ => none

/-- The numbers before `.*`. -/
def starred : Txt → Option Part
  | [.num a, .ch '.', .ch '*'] => some (.one a)
  | [.num a, .ch '.', .num b, .ch '.', .ch '*'] => some (.two a b)
  | _ => none

/-- One clause of a requirement: an operator and a version. Other operators (`~=`, `!=`) do not come up. -/
def clause : Txt → Option Clause
  | .ch '=' :: .ch '=' :: .ch '=' :: s => some (.same s)
  | .ch '=' :: .ch '=' :: s => match numsOf s with
    | some p => some (.eq p)
    | none => (starred s).map .pre
  | .ch '>' :: .ch '=' :: s => (numsOf s).map .ge
  | .ch '<' :: .ch '=' :: s => (numsOf s).map .le
  | .ch '>' :: s => (numsOf s).map .gt
  | .ch '<' :: s => (numsOf s).map .lt
  | _ => none

/-- The text cut at its commas, with the spaces left out. -/
def pieces : Txt → List Txt
  | [] => [[]]
  | t :: s =>
    if t = .ch ',' then [] :: pieces s
    else if t = .ch ' ' then pieces s
    else match pieces s with
      | p :: ps => (t :: p) :: ps
      | [] => [[t]]

/-- What pip makes of the text after the package name; `none`: it refuses it. -/
def pip : Txt → Option (List Clause)
  | [] => some []
  | s => (pieces s).mapM clause

def full : Part → Nat × Nat × Nat
  | .one a => (a, 0, 0)
  | .two a b => (a, b, 0)
  | .three a b c => (a, b, c)

/-- `x` is less than `y`, number by number. -/
def less (x y : Nat × Nat × Nat) : Bool := x.1 < y.1 ∨ x.1 = y.1 ∧ (x.2.1 < y.2.1 ∨ x.2.1 = y.2.1 ∧ x.2.2 < y.2.2)

def Ver.t (v : Ver) : Nat × Nat × Nat := (v.a, v.b, v.c)

/-- What a clause takes. -/
def Clause.takes : Clause → Ver → Bool
  | .eq p, v => full p = v.t
  | .pre p, v => eqM p v
  | .gt p, v => less (full p) v.t
  | .ge p, v => !less v.t (full p)
  | .lt p, v => less v.t (full p)
  | .le p, v => !less (full p) v.t
  | .same t, v => t = nums (.three v.a v.b v.c)

def takes (l : List Clause) (v : Ver) : Bool := l.all (·.takes v)

/-! ### Theorems -/

/-- Comparators pip reads alike: at least, less than, and the others with all three numbers. -/
def Plain (k : Cmp) : Prop := k.op = .ge ∨ k.op = .lt ∨ (k.op = .gt ∨ k.op = .le) ∧ ∃ a b c, k.part = .three a b c

/-- The clause for a plain comparator. -/
def toClause (k : Cmp) : Clause :=
  match k.op with
  | .ge => .ge k.part
  | .lt => .lt k.part
  | .gt => .gt k.part
  | .le => .le k.part
  | _ => .eq k.part

theorem plain_takes (k : Cmp) (h : Plain k) (v : Ver) : (toClause k).takes v = k.admits v := by
  obtain ⟨op, part⟩ := k
  obtain ⟨x, y, z⟩ := v
  rcases h with h | h | ⟨h | h, a, b, c, hp⟩ <;> simp only at h
  · subst h
    cases part <;> simp only [toClause, Clause.takes, Cmp.admits, less, Ver.t, full, eqM, gtM] <;> grind
  · subst h
    cases part <;> simp only [toClause, Clause.takes, Cmp.admits, less, Ver.t, full, ltM] <;> grind
  · simp only at hp; subst h hp
    simp only [toClause, Clause.takes, Cmp.admits, less, Ver.t, full, gtM]; grind
  · simp only at hp; subst h hp
    simp only [toClause, Clause.takes, Cmp.admits, less, Ver.t, full, eqM, ltM]; grind

theorem show_clean (k : Cmp) : .ch ',' ∉ k.show ∧ .ch ' ' ∉ k.show ∧ k.show ≠ [] := by
  obtain ⟨op, part⟩ := k
  cases op <;> cases part <;> simp [Cmp.show, sign, nums, tail]

theorem pieces_clean (s : Txt) (h : .ch ',' ∉ s) (h' : .ch ' ' ∉ s) : pieces s = [s] := by
  induction s with
  | nil => rfl
  | cons t s ih =>
    simp only [List.mem_cons, not_or] at h h'
    rw [pieces, if_neg (Ne.symm h.1), if_neg (Ne.symm h'.1), ih h.2 h'.2]

theorem pieces_comma (s x : Txt) (h : .ch ',' ∉ s) (h' : .ch ' ' ∉ s) : pieces (s ++ .ch ',' :: .ch ' ' :: x) = s :: pieces x := by
  induction s with
  | nil => simp [pieces]
  | cons t s ih =>
    simp only [List.mem_cons, not_or] at h h'
    rw [List.cons_append, pieces, if_neg (Ne.symm h.1), if_neg (Ne.symm h'.1), ih h.2 h'.2]

theorem pieces_show (r : List Cmp) (h : r ≠ []) : pieces (showReq r) = r.map Cmp.show := by
  induction r with
  | nil => exact absurd rfl h
  | cons k l ih =>
    obtain ⟨h1, h2, _⟩ := show_clean k
    cases l with
    | nil => rw [showReq, pieces_clean _ h1 h2]; rfl
    | cons m l => rw [showReq, pieces_comma _ _ h1 h2, ih (by simp)]; rfl

theorem plain_clause (k : Cmp) (h : Plain k) : clause k.show = some (toClause k) := by
  obtain ⟨op, part⟩ := k
  rcases h with h | h | ⟨h | h, a, b, c, hp⟩ <;> simp only at h
  · subst h; cases part <;> simp [Cmp.show, sign, nums, tail, clause, numsOf, toClause]
  · subst h; cases part <;> simp [Cmp.show, sign, nums, tail, clause, numsOf, toClause]
  · simp only at hp; subst h hp; simp [Cmp.show, sign, nums, tail, clause, numsOf, toClause]
  · simp only at hp; subst h hp; simp [Cmp.show, sign, nums, tail, clause, numsOf, toClause]

theorem mapM_none {α β : Type} (f : α → Option β) (l : List α) : l.mapM f = none ↔ ∃ x ∈ l, f x = none := by
  induction l with
  | nil => simp
  | cons a l ih =>
    rw [List.mapM_cons]
    cases h : f a with
    | none => simp [h]
    | some b =>
      cases h2 : l.mapM f with
      | none => simpa [h, h2] using ih.1 h2
      | some c =>
        have : ¬ ∃ x ∈ l, f x = none := fun hx => by rw [ih.2 hx] at h2; cases h2
        simpa [h, h2] using this

theorem mapM_some {α β : Type} (f : α → Option β) (g : α → β) (l : List α) (h : ∀ x ∈ l, f x = some (g x)) : l.mapM f = some (l.map g) := by
  induction l with
  | nil => rfl
  | cons a l ih => rw [List.mapM_cons, h a List.mem_cons_self, ih fun x hx => h x (List.mem_cons_of_mem _ hx)]; rfl

theorem toPip_some (r : List Cmp) (h : r ≠ []) : toPip r = some (showReq r) := by
  unfold toPip
  rw [if_neg]
  cases r with
  | nil => exact absurd rfl h
  | cons k l =>
    obtain ⟨op, part⟩ := k
    cases l with
    | nil => cases op <;> cases part <;> simp [showReq, Cmp.show, sign, nums, tail]
    | cons m l =>
      intro he
      have : (Tok.ch ',') ∈ [Tok.ch '*'] := by rw [← he, showReq]; simp
      simp at this

theorem request_comma (s : Txt) (h : .ch ',' ∈ s) : request (some s) = s := by
  unfold request; dsimp only; rw [if_pos]; simp [h]

theorem pip_ne (s : Txt) (h : s ≠ []) : pip s = (pieces s).mapM clause := by
  cases s with
  | nil => exact absurd rfl h
  | cons t s => rfl

theorem comma_two (k m : Cmp) (l : List Cmp) : .ch ',' ∈ showReq (k :: m :: l) := by rw [showReq]; simp

theorem show_ne (r : List Cmp) (h : r ≠ []) : showReq r ≠ [] := by
  cases r with
  | nil => exact absurd rfl h
  | cons k l =>
    cases l with
    | nil => exact (show_clean k).2.2
    | cons m l => rw [showReq]; simp

/-- **A requirement of plain comparators means the same to pip.** -/
theorem kept_partial (r : List Cmp) (h : r ≠ []) (hp : ∀ k ∈ r, Plain k) :
    pip (asked r) = some (r.map toClause) ∧ ∀ v, takes (r.map toClause) v = admits r v := by
  constructor
  · have e : asked r = showReq r := by
      rw [asked, toPip_some r h]
      cases r with
      | nil => exact absurd rfl h
      | cons k l =>
        cases l with
        | cons m l => exact request_comma _ (comma_two k m l)
        | nil =>
          have hk := hp k (by simp)
          obtain ⟨op, part⟩ := k
          unfold request
          dsimp only
          rw [if_pos]
          rcases hk with hk | hk | ⟨hk | hk, _⟩ <;> simp only at hk <;> subst hk <;> simp [showReq, Cmp.show, sign]
    rw [e, pip_ne _ (show_ne r h), pieces_show r h]
    have := mapM_some (fun k : Cmp => clause k.show) toClause r fun k hk => plain_clause k (hp k hk)
    rw [← this]
    clear this e h hp
    induction r with
    | nil => rfl
    | cons k l ih => rw [List.map_cons, List.mapM_cons, List.mapM_cons, ih]
  · intro v
    unfold takes admits
    rw [List.all_map]
    rw [Bool.eq_iff_iff, List.all_eq_true, List.all_eq_true]
    exact forall₂_congr fun k hk => by rw [← plain_takes k (hp k hk) v]; rfl

/-- Any version is any version. -/
theorem any_kept (v : Ver) : pip (asked []) = some [] ∧ takes [] v = admits [] v := ⟨by decide, rfl⟩

/-- **An exact version is kept**, by equality of texts. -/
theorem exact_kept (a b c : Nat) : ∃ l, pip (asked [⟨.exact, .three a b c⟩]) = some l ∧ ∀ v, takes l v = admits [⟨.exact, .three a b c⟩] v := by
  refine ⟨[.same (nums (.three a b c))], ?_, ?_⟩
  · simp [asked, toPip, showReq, Cmp.show, sign, nums, tail, request, pip, pieces, clause]
  · rintro ⟨x, y, z⟩
    simp only [takes, admits, List.all_cons, List.all_nil, Clause.takes, Cmp.admits, eqM, nums, Bool.and_true]
    grind

/-- **A wildcard is kept.** -/
theorem wild_kept (p : Part) (h : ∀ a b c, p ≠ .three a b c) : ∃ l, pip (asked [⟨.wild, p⟩]) = some l ∧ ∀ v, takes l v = admits [⟨.wild, p⟩] v := by
  refine ⟨[.pre p], ?_, fun v => rfl⟩
  cases p with
  | one a => simp [asked, toPip, showReq, Cmp.show, sign, nums, tail, request, pip, pieces, clause, numsOf, starred]
  | two a b => simp [asked, toPip, showReq, Cmp.show, sign, nums, tail, request, pip, pieces, clause, numsOf, starred]
  | three a b c => exact absurd rfl (h a b c)

theorem clause_none (k : Cmp) : clause k.show = none ↔ k.op = .tilde ∨ k.op = .caret ∨ k.op = .exact ∨ k.op = .wild := by
  obtain ⟨op, part⟩ := k
  cases op <;> cases part <;> simp [Cmp.show, sign, nums, tail, clause, numsOf]

/-- **What pip refuses**: every requirement with a caret or a tilde, and every list with an exact version or a wildcard in it. -/
theorem refused_iff (r : List Cmp) :
    pip (asked r) = none ↔ (∃ k ∈ r, k.op = .tilde ∨ k.op = .caret) ∨ 2 ≤ r.length ∧ ∃ k ∈ r, k.op = .exact ∨ k.op = .wild := by
  match r with
  | [] => decide
  | [k] =>
    obtain ⟨op, part⟩ := k
    cases op <;> cases part <;> simp [asked, toPip, showReq, Cmp.show, sign, nums, tail, request, pip, pieces, clause, numsOf, starred]
  | k :: m :: l =>
    rw [asked, toPip_some _ (by simp), request_comma _ (comma_two k m l), pip_ne _ (show_ne _ (by simp)), pieces_show _ (by simp), mapM_none]
    generalize hr : k :: m :: l = r
    have h2 : 2 ≤ r.length := by rw [← hr]; simp
    simp only [h2, true_and]
    constructor
    · rintro ⟨x, hx, hn⟩
      obtain ⟨k, hk, rfl⟩ := List.mem_map.1 hx
      rcases (clause_none k).1 hn with h | h | h | h
      · exact .inl ⟨k, hk, .inl h⟩
      · exact .inl ⟨k, hk, .inr h⟩
      · exact .inr ⟨k, hk, .inl h⟩
      · exact .inr ⟨k, hk, .inr h⟩
    · rintro (⟨k, hk, h⟩ | ⟨k, hk, h⟩)
      · exact ⟨_, List.mem_map_of_mem hk, (clause_none k).2 (by tauto)⟩
      · exact ⟨_, List.mem_map_of_mem hk, (clause_none k).2 (by tauto)⟩

/-- **The usual requirement is refused**: `1.26`, which is `^1.26`, whatever the numbers. -/
theorem usual_refused (p : Part) : pip (asked [⟨.caret, p⟩]) = none := (refused_iff _).2 (.inl ⟨_, List.mem_singleton_self _, .inr rfl⟩)

/-- **An exact version of two numbers takes no version at all.** -/
theorem short_exact_none (a b : Nat) : ∃ l, pip (asked [⟨.exact, .two a b⟩]) = some l ∧ (∀ v, takes l v = false) ∧ admits [⟨.exact, .two a b⟩] ⟨a, b, 0⟩ = true := by
  refine ⟨[.same (nums (.two a b))], ?_, ?_, ?_⟩
  · simp [asked, toPip, showReq, Cmp.show, sign, nums, tail, request, pip, pieces, clause]
  · rintro ⟨x, y, z⟩; simp [takes, Clause.takes, nums]
  · simp [admits, Cmp.admits, eqM]

/-- **Greater than two numbers lets in too much, at most two numbers keeps out too much.** -/
theorem short_bounds (a b : Nat) :
    (∃ l, pip (asked [⟨.gt, .two a b⟩]) = some l ∧ takes l ⟨a, b, 1⟩ = true ∧ admits [⟨.gt, .two a b⟩] ⟨a, b, 1⟩ = false) ∧
    (∃ l, pip (asked [⟨.le, .two a b⟩]) = some l ∧ takes l ⟨a, b, 1⟩ = false ∧ admits [⟨.le, .two a b⟩] ⟨a, b, 1⟩ = true) := by
  refine ⟨⟨[.gt (.two a b)], ?_, ?_, ?_⟩, ⟨[.le (.two a b)], ?_, ?_, ?_⟩⟩
  · simp [asked, toPip, showReq, Cmp.show, sign, nums, tail, request, pip, pieces, clause, numsOf]
  · simp [takes, Clause.takes, less, full, Ver.t]
  · simp [admits, Cmp.admits, gtM]
  · simp [asked, toPip, showReq, Cmp.show, sign, nums, tail, request, pip, pieces, clause, numsOf]
  · simp [takes, Clause.takes, less, full, Ver.t]
  · simp [admits, Cmp.admits, eqM]

/-! ### Cases -/

/-- `>=1.2.0, <2` is kept. -/
example : pip (asked [⟨.ge, .three 1 2 0⟩, ⟨.lt, .one 2⟩]) = some [.ge (.three 1 2 0), .lt (.one 2)] := by decide
example : ∀ k ∈ [⟨.ge, .three 1 2 0⟩, (⟨.lt, .one 2⟩ : Cmp)], Plain k := by simp [Plain]
/-- `^1.26` becomes `==^1.26`. -/
example : asked [⟨.caret, .two 1 26⟩] = [.ch '=', .ch '=', .ch '^', .num 1, .ch '.', .num 26] := by decide
example : admits [⟨.caret, .two 1 26⟩] ⟨1, 26, 4⟩ = true := by decide

end Horus.PyReq
