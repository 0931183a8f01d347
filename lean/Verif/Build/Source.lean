import Verif.Build.SourceTable
import Mathlib.Data.List.Basic
import Mathlib.Tactic.Common
/-!
C211: where `horus add` and the build look for a package.

Source: /repo/horus_manager/src/source_resolver.rs:60-340, cargo_gen.rs:546-571, pyproject_gen.rs:147-167, manifest.rs:730-776.
Names are lists of characters. Simplification: lower case is that of ASCII; the reason given to the user is left out.
-/

namespace Horus.PkgSource

abbrev Str := List Char

/-! ### Model -/

/-- The order of `str`: byte for byte, which is the order of the characters. -/
def slt : Str → Str → Bool
  | _, [] => false
  | [], _ :: _ => true
  | a :: as, b :: bs => decide (a.toNat < b.toNat) || (decide (a.toNat = b.toNat) && slt as bs)

/-- The loop of `slice::binary_search`: `size` entries from `base` on are left. -/
def probe (t : List Str) (x : Str) (base size : Nat) : Nat :=
  if h : size ≤ 1 then base
  else
    let half := size / 2
    let mid := base + half
    probe t x (if slt x (t.getD mid []) then base else mid) (size - half)
termination_by size
decreasing_by omega

/-- `slice::binary_search(..).is_ok()` (source_resolver.rs:333-340). -/
def search (t : List Str) (x : Str) : Bool := if t.length = 0 then false else decide (t.getD (probe t x 0 t.length) [] = x)

def knownCrates : List Str := crateNames.map String.toList
def knownPypi : List Str := pypiNames.map String.toList

/-- manifest.rs `DepSource`. -/
inductive Src | registry | cratesIo | pypi | path | git | system
  deriving DecidableEq

inductive Lang | rust | python | cpp
  deriving DecidableEq

inductive Conf | low | medium | high
  deriving DecidableEq

/-- source_resolver.rs:62. -/
def normalize (n : Str) : Str := n.map fun c => if c.toLower = '-' then '_' else c.toLower

def endsWith (n s : String) (x : Str) : Bool := n.toList.isSuffixOf x || s.toList.isSuffixOf x
def startsWith (n s : String) (x : Str) : Bool := n.toList.isPrefixOf x || s.toList.isPrefixOf x

/-- source_resolver.rs:270-295. -/
def crateName (n : Str) : Bool :=
  let l := n.map Char.toLower
  "-sys".toList.isSuffixOf l || endsWith "-rs" "_rs" l || startsWith "cargo-" "cargo_" l

/-- source_resolver.rs:297-328. -/
def pypiName (n : Str) : Bool :=
  let l := n.map Char.toLower
  startsWith "python-" "python_" l || startsWith "py-" "py_" l || startsWith "django-" "django_" l || startsWith "flask-" "flask_" l || endsWith "-py" "_py" l

/-- source_resolver.rs:61-167 `resolve`. -/
def resolve (langs : List Lang) (n : Str) : Src × Conf :=
  let c := search knownCrates (normalize n)
  let p := search knownPypi (normalize n)
  let r := decide (Lang.rust ∈ langs)
  let y := decide (Lang.python ∈ langs)
  if c && p && (r && !y) then (.cratesIo, .high)
  else if c && p && (!r && y) then (.pypi, .high)
  else if c then (.cratesIo, .high)
  else if p then (.pypi, .high)
  else if crateName n then (.cratesIo, .medium)
  else if pypiName n then (.pypi, .medium)
  else if r && !y then (.cratesIo, .low)
  else if !r && y then (.pypi, .low)
  else (.registry, .low)

/-- source_resolver.rs:175-203: `onCrates`, `onPypi` are the answers of the two sites. -/
def resolveNet (langs : List Lang) (n : Str) (onCrates onPypi : Bool) : Src × Conf :=
  let r := resolve langs n
  if r.2 ≠ .low then r
  else if onCrates then (.cratesIo, .high)
  else if onPypi then (.pypi, .high)
  else r

/-- manifest.rs:730-776: what a dependency declares; `none` is a plain version. -/
def effective (declared : Option Src) : Src := declared.getD .registry

/-- source_resolver.rs:234-262: is a declared dependency reported as an error? -/
def flagged (langs : List Lang) (n : Str) (declared : Option Src) : Bool :=
  let r := resolve langs n
  decide (r.2 = .high ∧ ((effective declared = .pypi ∧ r.1 = .cratesIo) ∨ (effective declared = .cratesIo ∧ r.1 = .pypi)))

/-- cargo_gen.rs:557-571 (with the language Rust), pyproject_gen.rs:155-167 (with Python): where the build
takes a dependency from. -/
def buildSource (lang : Lang) (n : Str) (declared : Option Src) : Src :=
  match effective declared with
  | .registry => if (resolve [lang] n).2 = .high then (resolve [lang] n).1 else .registry
  | s => s

/-! ### Specification -/

/-- Well known on crates.io, on PyPI. -/
def OnCrates (n : Str) : Prop := normalize n ∈ knownCrates
def OnPypi (n : Str) : Prop := normalize n ∈ knownPypi

def RustOnly (l : List Lang) : Prop := Lang.rust ∈ l ∧ Lang.python ∉ l
def PythonOnly (l : List Lang) : Prop := Lang.python ∈ l ∧ Lang.rust ∉ l

/-! ### Proofs -/

theorem slt_irrefl (a : Str) : slt a a = false := by
  induction a with
  | nil => rfl
  | cons x a ih => simp [slt, ih]

theorem slt_trans {a b c : Str} (h1 : slt a b = true) (h2 : slt b c = true) : slt a c = true := by
  induction a generalizing b c with
  | nil =>
    cases b with
    | nil => simp [slt] at h1
    | cons y b => cases c with | nil => simp [slt] at h2 | cons z c => rfl
  | cons x a ih =>
    cases b with
    | nil => simp [slt] at h1
    | cons y b =>
      cases c with
      | nil => simp [slt] at h2
      | cons z c =>
        simp only [slt, Bool.or_eq_true, Bool.and_eq_true, decide_eq_true_eq] at *
        rcases h1 with h1 | ⟨h1, h1'⟩ <;> rcases h2 with h2 | ⟨h2, h2'⟩
        · left; omega
        · left; omega
        · left; omega
        · right; exact ⟨by omega, ih h1' h2'⟩

/-- Strictly increasing. -/
def Increasing (t : List Str) : Prop := t.Pairwise fun a b => slt a b = true

/-- Each entry before the next. -/
def chain : List Str → Bool
  | a :: b :: l => slt a b && chain (b :: l)
  | _ => true

theorem increasing_of_chain (t : List Str) (h : chain t = true) : Increasing t := by
  induction t with
  | nil => exact List.Pairwise.nil
  | cons a l ih =>
    cases l with
    | nil => exact List.pairwise_singleton _ _
    | cons b l =>
      simp only [chain, Bool.and_eq_true] at h
      have ih' := ih h.2
      refine List.pairwise_cons.2 ⟨?_, ih'⟩
      intro x hx
      rcases List.mem_cons.1 hx with rfl | hx
      · exact h.1
      · exact slt_trans h.1 ((List.pairwise_cons.1 ih').1 x hx)

theorem getD_eq (t : List Str) (i : Nat) (h : i < t.length) : t.getD i [] = t[i] := by
  simp [List.getD_eq_getElem?_getD, List.getElem?_eq_getElem h]

/-- The searched entry stays among those left. -/
theorem probe_inv (t : List Str) (ht : Increasing t) (x : Str) (i : Nat) (hi : i < t.length) (hx : t[i] = x) (base size : Nat)
    (h1 : base ≤ i) (h2 : i < base + size) (h3 : base + size ≤ t.length) : probe t x base size = i := by
  induction size using Nat.strongRecOn generalizing base with
  | _ size ih =>
    rw [probe]
    by_cases hs : size ≤ 1
    · rw [dif_pos hs]; omega
    · rw [dif_neg hs]
      dsimp only
      have hmid : base + size / 2 < t.length := by omega
      rw [getD_eq t _ hmid]
      by_cases hlt : slt x t[base + size / 2] = true
      · rw [if_pos hlt]
        have : i < base + size / 2 := by
          rcases Nat.lt_trichotomy i (base + size / 2) with h | h | h
          · exact h
          · subst h; rw [hx, slt_irrefl] at hlt; cases hlt
          · have := List.pairwise_iff_getElem.1 ht _ _ hmid hi h
            rw [hx] at this
            have := slt_trans hlt this
            rw [slt_irrefl] at this; cases this
        exact ih _ (by omega) base h1 (by omega) (by omega)
      · rw [if_neg hlt]
        have : base + size / 2 ≤ i := by
          by_contra hn
          have := List.pairwise_iff_getElem.1 ht _ _ hi hmid (by omega)
          rw [hx] at this
          exact hlt this
        exact ih _ (by omega) _ this (by omega) (by omega)

theorem probe_lt (t : List Str) (x : Str) (base size : Nat) (h0 : 0 < size) (h : base + size ≤ t.length) : probe t x base size < t.length := by
  induction size using Nat.strongRecOn generalizing base with
  | _ size ih =>
    rw [probe]
    by_cases hs : size ≤ 1
    · rw [dif_pos hs]; omega
    · rw [dif_neg hs]
      dsimp only
      split
      · exact ih _ (by omega) _ (by omega) (by omega)
      · exact ih _ (by omega) _ (by omega) (by omega)

/-- Binary search in a sorted table finds exactly its entries. -/
theorem search_iff (t : List Str) (ht : Increasing t) (x : Str) : search t x = true ↔ x ∈ t := by
  unfold search
  by_cases h0 : t.length = 0
  · rw [if_pos h0]; have := List.length_eq_zero_iff.1 h0; subst this; simp
  · rw [if_neg h0]
    have hlt := probe_lt t x 0 t.length (by omega) (by omega)
    constructor
    · intro h
      have h' := of_decide_eq_true h
      rw [getD_eq t _ hlt] at h'
      rw [← h']; exact List.getElem_mem hlt
    · intro h
      obtain ⟨i, hi, hx⟩ := List.mem_iff_getElem.1 h
      rw [probe_inv t ht x i hi hx 0 t.length (by omega) (by omega) (by omega), getD_eq t i hi, hx]
      simp

theorem crates_sorted : Increasing knownCrates := increasing_of_chain _ (by decide +kernel)
theorem pypi_sorted : Increasing knownPypi := increasing_of_chain _ (by decide +kernel)

/-- C211. A package is found to be well known exactly if it is in the table: both tables are sorted as
the search needs. -/
theorem known_iff (n : Str) : (search knownCrates (normalize n) = true ↔ OnCrates n) ∧ (search knownPypi (normalize n) = true ↔ OnPypi n) :=
  ⟨search_iff _ crates_sorted _, search_iff _ pypi_sorted _⟩

theorem search_false {n : Str} : (¬ OnCrates n → search knownCrates (normalize n) = false) ∧ (¬ OnPypi n → search knownPypi (normalize n) = false) :=
  ⟨fun h => Bool.eq_false_iff.2 fun e => h ((known_iff n).1.1 e), fun h => Bool.eq_false_iff.2 fun e => h ((known_iff n).2.1 e)⟩

/-- C211. A package well known in one place only is taken from there, whatever the project's languages. -/
theorem known_once (langs : List Lang) (n : Str) :
    (OnCrates n → ¬ OnPypi n → resolve langs n = (.cratesIo, .high)) ∧ (OnPypi n → ¬ OnCrates n → resolve langs n = (.pypi, .high)) := by
  constructor
  · intro h1 h2
    simp [resolve, (known_iff n).1.2 h1, search_false.2 h2]
  · intro h1 h2
    simp [resolve, (known_iff n).2.2 h1, search_false.1 h2]

/-- C211. A package well known in both places is taken from the place of the project's only language. -/
theorem known_twice (langs : List Lang) (n : Str) (h1 : OnCrates n) (h2 : OnPypi n) :
    (RustOnly langs → resolve langs n = (.cratesIo, .high)) ∧ (PythonOnly langs → resolve langs n = (.pypi, .high)) := by
  constructor
  · rintro ⟨a, b⟩; simp [resolve, (known_iff n).1.2 h1, (known_iff n).2.2 h2, a, b]
  · rintro ⟨a, b⟩; simp [resolve, (known_iff n).1.2 h1, (known_iff n).2.2 h2, a, b]

/-- C211. High confidence means that the package is in a table, and the place named has it. -/
theorem high_means_known (langs : List Lang) (n : Str) :
    ((resolve langs n).2 = .high ↔ OnCrates n ∨ OnPypi n) ∧ (resolve langs n = (.cratesIo, .high) → OnCrates n) ∧ (resolve langs n = (.pypi, .high) → OnPypi n) := by
  have hk := known_iff n
  unfold resolve
  dsimp only
  by_cases hc : OnCrates n <;> by_cases hp : OnPypi n
  · have e1 := hk.1.2 hc; have e2 := hk.2.2 hp
    refine ⟨⟨fun _ => Or.inl hc, fun _ => ?_⟩, fun _ => hc, fun _ => hp⟩
    rw [e1, e2]
    cases decide (Lang.rust ∈ langs) <;> cases decide (Lang.python ∈ langs) <;> rfl
  · have e1 := hk.1.2 hc; have e2 := search_false.2 hp
    rw [e1, e2]; simp [hc]
  · have e1 := search_false.1 hc; have e2 := hk.2.2 hp
    rw [e1, e2]; simp [hp]
  · have e1 := search_false.1 hc; have e2 := search_false.2 hp
    rw [e1, e2]
    simp only [hc, hp, or_self, iff_false]
    generalize crateName n = a
    generalize pypiName n = b
    generalize decide (Lang.rust ∈ langs) = r
    generalize decide (Lang.python ∈ langs) = y
    cases a <;> cases b <;> cases r <;> cases y <;> decide

/-- C211. Capitals, hyphens and underscores make no difference for well-known packages. -/
theorem spelling_known (langs : List Lang) (n m : Str) (h : normalize n = normalize m) (hk : OnCrates n ∨ OnPypi n) : resolve langs n = resolve langs m := by
  have hm : OnCrates m ∨ OnPypi m := by unfold OnCrates OnPypi at *; rwa [← h]
  have e : ∀ k, (OnCrates k ∨ OnPypi k) → resolve langs k =
      (if search knownCrates (normalize k) && search knownPypi (normalize k) && (decide (Lang.rust ∈ langs) && !decide (Lang.python ∈ langs)) then (.cratesIo, .high)
      else if search knownCrates (normalize k) && search knownPypi (normalize k) && (!decide (Lang.rust ∈ langs) && decide (Lang.python ∈ langs)) then (.pypi, .high)
      else if search knownCrates (normalize k) then (.cratesIo, .high) else (.pypi, .high)) := by
    intro k hk
    have hk' : search knownCrates (normalize k) = true ∨ search knownPypi (normalize k) = true :=
      hk.imp (known_iff k).1.2 (known_iff k).2.2
    unfold resolve
    dsimp only
    generalize search knownCrates (normalize k) = c at *
    generalize search knownPypi (normalize k) = p at *
    cases c <;> cases p <;> simp at hk' ⊢
  rw [e n hk, e m hm, h]

/-- C211. Sites on the network are asked only about packages in no table and without a telling name;
and without an answer nothing changes. -/
theorem network_last (langs : List Lang) (n : Str) (a b : Bool) :
    ((resolve langs n).2 ≠ .low → resolveNet langs n a b = resolve langs n) ∧ resolveNet langs n false false = resolve langs n := by
  unfold resolveNet
  dsimp only
  constructor
  · intro h; rw [if_pos h]
  · split <;> simp

/-- Disagreement. In a Python project a package unknown to the tables that exists on PyPI is still taken
from crates.io, with high confidence, if anything of that name is there. -/
theorem network_prefers_crates (n : Str) (b : Bool) (h : (resolve [.python] n).2 = .low) :
    (resolve [.python] n).1 = .pypi ∧ resolveNet [.python] n true b = (.cratesIo, .high) := by
  refine ⟨?_, by simp [resolveNet, h]⟩
  revert h
  unfold resolve
  dsimp only
  generalize search knownCrates (normalize n) = c
  generalize search knownPypi (normalize n) = p
  generalize crateName n = a
  generalize pypiName n = b
  cases c <;> cases p <;> cases a <;> cases b <;> decide

/-- Disagreement. In a project with both languages a package that is well known on both sites and is
declared, correctly, as one from PyPI is reported as an error. -/
theorem mixed_false_error (n : Str) (h1 : OnCrates n) (h2 : OnPypi n) :
    flagged [.rust, .python] n (some .pypi) = true ∧ flagged [.python] n (some .pypi) = false := by
  constructor
  · simp [flagged, resolve, effective, (known_iff n).1.2 h1, (known_iff n).2.2 h2]
  · simp [flagged, resolve, effective, (known_iff n).1.2 h1, (known_iff n).2.2 h2]

/-- C211. Apart from that, an error is reported only for a package that is not well known where it is
declared to come from. -/
theorem flagged_sound (langs : List Lang) (n : Str) (d : Option Src) (h : ¬ (OnCrates n ∧ OnPypi n)) (hf : flagged langs n d = true) :
    (effective d = .pypi ∧ ¬ OnPypi n) ∨ (effective d = .cratesIo ∧ ¬ OnCrates n) := by
  unfold flagged at hf
  dsimp only at hf
  rw [decide_eq_true_eq] at hf
  obtain ⟨h1, h2⟩ := hf
  have hm := high_means_known langs n
  rcases h2 with ⟨a, b⟩ | ⟨a, b⟩
  · left; exact ⟨a, fun hp => h ⟨hm.2.1 (Prod.ext b h1), hp⟩⟩
  · right; exact ⟨a, fun hc => h ⟨hc, hm.2.2 (Prod.ext b h1)⟩⟩

/-- C211. A declared source other than the registry is used by the build as declared. -/
theorem declared_kept (lang : Lang) (n : Str) (s : Src) (h : s ≠ .registry) : buildSource lang n (some s) = s := by
  unfold buildSource effective
  cases s <;> first | exact absurd rfl h | rfl

/-- C211. A plain dependency that is in no table comes from the registry. -/
theorem unknown_from_registry (lang : Lang) (n : Str) (h1 : ¬ OnCrates n) (h2 : ¬ OnPypi n) : buildSource lang n none = .registry := by
  have : (resolve [lang] n).2 ≠ .high := fun e => by rcases (high_means_known [lang] n).1.1 e with h | h <;> contradiction
  show (if (resolve [lang] n).2 = .high then (resolve [lang] n).1 else .registry) = .registry
  rw [if_neg this]

/-- Disagreement. A dependency declared with `source = "registry"` is taken from crates.io or PyPI all the
same if a package of that name is well known there: a package of one's own is replaced by a stranger's. -/
theorem explicit_registry_overridden (n : Str) (h : OnCrates n) (h2 : ¬ OnPypi n) : buildSource .rust n (some .registry) = .cratesIo := by
  show (if (resolve [.rust] n).2 = .high then (resolve [.rust] n).1 else .registry) = .cratesIo
  rw [(known_once [.rust] n).1 h h2, if_pos rfl]

/-- Disagreement. A plain dependency on a package that is well known on both sites is added to the Rust
and to the Python part of a project. -/
theorem dual_in_both (n : Str) (h1 : OnCrates n) (h2 : OnPypi n) : buildSource .rust n none = .cratesIo ∧ buildSource .python n none = .pypi := by
  have a := (known_twice [.rust] n h1 h2).1 ⟨by simp, by simp⟩
  have b := (known_twice [.python] n h1 h2).2 ⟨by simp, by simp⟩
  constructor
  · show (if (resolve [.rust] n).2 = .high then (resolve [.rust] n).1 else .registry) = .cratesIo
    rw [a, if_pos rfl]
  · show (if (resolve [.python] n).2 = .high then (resolve [.python] n).1 else .registry) = .pypi
    rw [b, if_pos rfl]

/-- Disagreement. `foo-sys` and `foo_sys` name the same crate and are resolved differently. -/
theorem sys_spelling : resolve [] "foo-sys".toList = (.cratesIo, .medium) ∧ resolve [] "foo_sys".toList = (.registry, .low) := by
  constructor <;> decide +kernel

/-- Non-vacuity: packages of every kind. -/
example : OnCrates "Serde-JSON".toList ∧ ¬ OnPypi "Serde-JSON".toList := by
  constructor
  · rw [← (known_iff _).1]; decide +kernel
  · rw [← (known_iff _).2]; decide +kernel
example : OnCrates "redis".toList ∧ OnPypi "redis".toList := by
  constructor
  · rw [← (known_iff _).1]; decide +kernel
  · rw [← (known_iff _).2]; decide +kernel
example : resolve [.python] "numpy".toList = (.pypi, .high) ∧ (resolve [.python] "my-robot".toList).2 = .low := by decide +kernel

end Horus.PkgSource
