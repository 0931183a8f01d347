import Verif.Params.Model
/-
C64, validation of values and the start-up layers (C82).
-/
namespace Horus.Params
open Horus

/-! ### Validation -/

/-- What a rule means: the specification. -/
def Satisfies : Rule → Val → Prop
  | .minValue m, v => ∃ n lo, v = .num n ∧ m = some lo ∧ lo ≤ n
  | .maxValue m, v => ∃ n hi, v = .num n ∧ m = some hi ∧ n ≤ hi
  | .range l h, v => ∃ n lo hi, v = .num n ∧ l = some lo ∧ h = some hi ∧ lo ≤ n ∧ n ≤ hi
  | .regex p, v => ∃ s f, v = .str s ∧ p = some f ∧ f s = true
  | .enum allowed, v => ∃ s, v = .str s ∧ s ∈ allowed
  | .minLength n, v => (∃ s, v = .str s ∧ n ≤ utf8Len s) ∨ (∃ l, v = .arr l ∧ n ≤ l)
  | .maxLength n, v => (∃ s, v = .str s ∧ utf8Len s ≤ n) ∨ (∃ l, v = .arr l ∧ l ≤ n)
  | .requiredKeys ks, v => ∃ h, v = .obj h ∧ ∀ k ∈ ks, k ∈ h

/-- The rule is one whose check looks at values of this kind: its bounds are numbers, a length rule
is used on a string or array, a key rule on an object. -/
def Fits : Rule → Val → Prop
  | .minValue m, _ => m ≠ none
  | .maxValue m, _ => m ≠ none
  | .range l h, _ => l ≠ none ∧ h ≠ none
  | .minLength _, v => (∃ s, v = .str s) ∨ ∃ l, v = .arr l
  | .maxLength _, v => (∃ s, v = .str s) ∨ ∃ l, v = .arr l
  | .requiredKeys _, v => ∃ h, v = .obj h
  | _, _ => True

theorem check_iff (r : Rule) (v : Val) (hf : Fits r v) : check r v = true ↔ Satisfies r v := by
  cases r with
  | minValue m =>
    cases m with
    | none => exact absurd rfl hf
    | some lo => cases v <;> simp [check, Val.asNum, Satisfies, ltBound]
  | maxValue m =>
    cases m with
    | none => exact absurd rfl hf
    | some hi => cases v <;> simp [check, Val.asNum, Satisfies, gtBound]
  | range l h =>
    cases l with
    | none => exact absurd rfl hf.1
    | some lo =>
      cases h with
      | none => exact absurd rfl hf.2
      | some hi => cases v <;> simp [check, Val.asNum, Satisfies, gtBound, ltBound]
  | regex p => cases v <;> cases p <;> simp [check, Val.asStr, Satisfies]
  | enum a => cases v <;> simp [check, Val.asStr, Satisfies]
  | minLength n =>
    rcases hf with ⟨s, rfl⟩ | ⟨l, rfl⟩ <;> simp only [check, Satisfies, Bool.not_eq_true', decide_eq_false_iff_not] <;> simp [Val.len]
  | maxLength n =>
    rcases hf with ⟨s, rfl⟩ | ⟨l, rfl⟩ <;> simp only [check, Satisfies, Bool.not_eq_true', decide_eq_false_iff_not] <;> simp [Val.len]
  | requiredKeys ks =>
    obtain ⟨h, rfl⟩ := hf
    simp [check, Satisfies]

theorem validate_all (rs : List Rule) (v : Val) : validate rs v = true ↔ ∀ r ∈ rs, check r v = true := by
  induction rs with
  | nil => simp [validate]
  | cons r rs ih =>
    by_cases h : check r v = true
    · simp [validate, h, ih]
    · simp [validate, h]

/-- A value is accepted exactly when it satisfies every rule, for rules that fit the value. Missing:
rules that do not fit (`requiredKeys_lets_numbers_pass`, `nan_bound_lets_all_pass`,
`maxLength_lets_objects_pass`). -/
theorem validate_iff_partial (rs : List Rule) (v : Val) (hf : ∀ r ∈ rs, Fits r v) :
    validate rs v = true ↔ ∀ r ∈ rs, Satisfies r v := by
  rw [validate_all]
  constructor
  · intro h r hr; exact (check_iff r v (hf r hr)).mp (h r hr)
  · intro h r hr; exact (check_iff r v (hf r hr)).mpr (h r hr)

example : validate [.range (some 0) (some 10), .minValue (some 3)] (.num 5) = true ∧
    validate [.range (some 0) (some 10), .minValue (some 3)] (.num 2) = false := by decide

/-- What is satisfied is never rejected, fitting or not. -/
theorem satisfying_accepted (rs : List Rule) (v : Val) (h : ∀ r ∈ rs, Satisfies r v) :
    validate rs v = true := by
  rw [validate_all]
  intro r hr
  have hs := h r hr
  apply (check_iff r v _).mpr hs
  cases r with
  | minValue m => obtain ⟨_, _, _, h2, _⟩ := hs; simp [Fits, h2]
  | maxValue m => obtain ⟨_, _, _, h2, _⟩ := hs; simp [Fits, h2]
  | range l h => obtain ⟨_, _, _, _, h2, h3, _⟩ := hs; simp [Fits, h2, h3]
  | regex p => trivial
  | enum a => trivial
  | minLength n => rcases hs with ⟨s, h1, _⟩ | ⟨s, h1, _⟩; exacts [Or.inl ⟨s, h1⟩, Or.inr ⟨s, h1⟩]
  | maxLength n => rcases hs with ⟨s, h1, _⟩ | ⟨s, h1, _⟩; exacts [Or.inl ⟨s, h1⟩, Or.inr ⟨s, h1⟩]
  | requiredKeys ks => obtain ⟨h, h1, _⟩ := hs; exact ⟨h, h1⟩

/-- A rule that requires keys accepts every value that is not an object at all. -/
theorem requiredKeys_lets_numbers_pass (ks : List Nat) (n : Int) :
    validate [.requiredKeys ks] (.num n) = true := rfl

/-- A bound that is not a number accepts every number. -/
theorem nan_bound_lets_all_pass (n : Int) : validate [.range none none] (.num n) = true := rfl

/-- A maximum length accepts every object, however many keys it has. -/
theorem maxLength_lets_objects_pass (m : Nat) (ks : List Nat) :
    validate [.maxLength m] (.obj ks) = true := by simp [validate, check, Val.len]

/-! ### Start-up layers -/

/-- The last entry for a key. -/
def lastFor {α : Type} (k : List Char) (l : List (List Char × α)) : Option α :=
  (l.reverse.find? fun x => x.1 = k).map Prod.snd

theorem lastFor_nil {α : Type} (k : List Char) : lastFor (α := α) k [] = none := rfl

theorem lastFor_cons {α : Type} (k k' : List Char) (v : α) (l : List (List Char × α)) :
    lastFor k ((k', v) :: l) = (lastFor k l).or (if k' = k then some v else none) := by
  unfold lastFor
  rw [List.reverse_cons, List.find?_append]
  cases h : List.find? (fun x => decide (x.1 = k)) l.reverse with
  | some x => simp
  | none => by_cases e : k' = k <;> simp [e]

/-- The parameter settings in the environment: name and parsed value, in order. -/
def envSettings {α : Type} (pv : List Char → α) (env : List (List Char × List Char)) : List (List Char × α) :=
  env.filterMap fun x => if envPrefix.isPrefixOf x.1 then some ((x.1.drop 12).map lower, pv x.2) else none

theorem fileLayer_get {α : Type} (l : List (List Char × α)) (m : Map (List Char) α) (k : List Char) :
    Map.get (fileLayer m l) k = (lastFor k l).or (Map.get m k) := by
  induction l generalizing m with
  | nil => simp [fileLayer, lastFor_nil]
  | cons x l ih =>
    obtain ⟨k', v⟩ := x
    rw [fileLayer, ih, lastFor_cons, Map.get_set]
    by_cases e : k' = k
    · subst e
      cases lastFor k' l <;> simp
    · have e' : k ≠ k' := fun h => e h.symm
      cases lastFor k l <;> simp [e, e']

theorem envLayer_get {α : Type} (pv : List Char → α) (env : List (List Char × List Char))
    (m : Map (List Char) α) (k : List Char) :
    Map.get (envLayer pv m env) k = (lastFor k (envSettings pv env)).or (Map.get m k) := by
  induction env generalizing m with
  | nil => simp [envLayer, envSettings, lastFor_nil]
  | cons x env ih =>
    obtain ⟨n, v⟩ := x
    unfold envLayer stripPrefix
    by_cases h : envPrefix.isPrefixOf n = true
    · have hs : envSettings pv ((n, v) :: env) = ((n.drop 12).map lower, pv v) :: envSettings pv env := by
        unfold envSettings
        rw [List.filterMap_cons]
        simp only [h, if_true]
      have hl : envPrefix.length = 12 := rfl
      rw [if_pos h, hs]
      simp only [hl]
      rw [ih, lastFor_cons, Map.get_set]
      by_cases e : (n.drop 12).map lower = k
      · subst e
        cases lastFor _ (envSettings pv env) <;> simp
      · have e' : k ≠ (n.drop 12).map lower := fun h => e h.symm
        rw [if_neg e, if_neg e]
        cases lastFor k (envSettings pv env) <;> simp
    · have hs : envSettings pv ((n, v) :: env) = envSettings pv env := by
        unfold envSettings
        rw [List.filterMap_cons]
        simp only [h, if_false, Bool.false_eq_true]
      rw [if_neg h, hs]
      exact ih m

/-- The settings a parameter file contributes; `none` when it is there but unusable. -/
def File.settings {α : Type} : File α → Option (List (List Char × α))
  | .absent => some []
  | .blank => some []
  | .good kvs => some kvs
  | .unreadable => none
  | .malformed => none

/-- Opening the parameters fails exactly when the file is there but unusable; otherwise every key
has the value of the last environment variable naming it, or else of the file, or else the built-in
one. -/
theorem new_layers {α : Type} (pv : List Char → α) (defaults : Map (List Char) α) (f : File α)
    (env : List (List Char × List Char)) :
    match f.settings, new pv defaults f env with
    | none, r => r = none
    | some kvs, some m => ∀ k, Map.get m k = ((lastFor k (envSettings pv env)).or (lastFor k kvs)).or (Map.get defaults k)
    | some _, none => False := by
  have key : ∀ kvs : List (List Char × α), ∀ k, Map.get (envLayer pv (fileLayer defaults kvs) env) k
      = ((lastFor k (envSettings pv env)).or (lastFor k kvs)).or (Map.get defaults k) := by
    intro kvs k
    rw [envLayer_get, fileLayer_get]
    cases lastFor k (envSettings pv env) <;> simp
  cases f with
  | absent => exact key []
  | unreadable => rfl
  | malformed => rfl
  | blank => exact key []
  | good kvs => exact key kvs

/-- No file and no environment makes a built-in parameter disappear. -/
theorem defaults_never_lost {α : Type} (pv : List Char → α) (defaults m : Map (List Char) α) (f : File α)
    (env : List (List Char × List Char)) (h : new pv defaults f env = some m) (k : List Char)
    (hk : Map.has defaults k = true) : Map.has m k = true := by
  have hl := new_layers pv defaults f env
  rw [h] at hl
  cases hs : f.settings with
  | none => rw [hs] at hl; cases hl
  | some kvs =>
    rw [hs] at hl
    unfold Map.has at hk ⊢
    rw [hl k]
    cases lastFor k (envSettings pv env) <;> cases lastFor k kvs <;> simp [hk]

/-- A settings source leaves the keys it does not name as they were. -/
theorem unnamed_key_untouched {α : Type} (pv : List Char → α) (defaults m : Map (List Char) α)
    (kvs : List (List Char × α)) (env : List (List Char × List Char))
    (h : new pv defaults (.good kvs) env = some m) (k : List Char) (h1 : ∀ x ∈ kvs, x.1 ≠ k)
    (h2 : ∀ x ∈ envSettings pv env, x.1 ≠ k) : Map.get m k = Map.get defaults k := by
  have hl := new_layers pv defaults (.good kvs) env
  rw [h] at hl
  have no : ∀ l : List (List Char × α), (∀ x ∈ l, x.1 ≠ k) → lastFor k l = none := by
    intro l hn
    unfold lastFor
    rw [Option.map_eq_none_iff, List.find?_eq_none]
    intro x hx
    simpa using hn x (by simpa using hx)
  have := hl k
  rw [no _ h1, no _ h2] at this
  simpa using this

/-- The fall-back constructor never fails, and never loses a built-in parameter. -/
theorem default_keeps {α : Type} (pv : List Char → α) (defaults : Map (List Char) α) (f : File α)
    (env : List (List Char × List Char)) (k : List Char) (hk : Map.has defaults k = true) :
    Map.has (default pv defaults f env) k = true := by
  unfold default
  cases h : new pv defaults f env with
  | none => exact hk
  | some m => exact defaults_never_lost pv defaults m f env h k hk

/-- On an unusable file the fall-back drops the environment's settings too: an operator's override
is ignored. -/
theorem default_ignores_env {α : Type} (pv : List Char → α) (defaults : Map (List Char) α)
    (env : List (List Char × List Char)) : default pv defaults .malformed env = defaults := rfl

theorem toNat_ofNat_small (n : Nat) (h : n < 256) : (Char.ofNat n).toNat = n := by
  have : ∀ m : Fin 256, (Char.ofNat m.val).toNat = m.val := by decide +kernel
  exact this ⟨n, h⟩

theorem lower_upper (c : Char) (h : ¬ (65 ≤ c.toNat ∧ c.toNat ≤ 90)) : lower (upper c) = c := by
  unfold upper
  by_cases hu : 97 ≤ c.toNat ∧ c.toNat ≤ 122
  · rw [if_pos hu]
    unfold lower
    have hv : (Char.ofNat (c.toNat - 32)).toNat = c.toNat - 32 := toNat_ofNat_small _ (by omega)
    rw [hv, if_pos (by omega)]
    have : c.toNat - 32 + 32 = c.toNat := by omega
    rw [this]
    exact Char.ofNat_toNat c
  · rw [if_neg hu]
    unfold lower
    rw [if_neg h]

theorem upper_dash (c : Char) : upper c = '-' ↔ c = '-' := by
  unfold upper
  by_cases hu : 97 ≤ c.toNat ∧ c.toNat ≤ 122
  · rw [if_pos hu]
    constructor
    · intro h
      have hv : (Char.ofNat (c.toNat - 32)).toNat = c.toNat - 32 := toNat_ofNat_small _ (by omega)
      rw [h] at hv
      have : ('-').toNat = 45 := rfl
      omega
    · intro h
      subst h
      have : ('-').toNat = 45 := rfl
      omega
  · rw [if_neg hu]

/-- A launch file's parameter reaches the parameter of its own name when the name has no upper case
letter and no dash. Missing: other names (`launch_dash`, `launch_upper`). -/
theorem launch_param_arrives_partial {α : Type} (pv : List Char → α) (k v : List Char)
    (h : ∀ c ∈ k, ¬ (65 ≤ c.toNat ∧ c.toNat ≤ 90) ∧ c ≠ '-') :
    envSettings pv [(launchVar k, v)] = [(k, pv v)] := by
  unfold envSettings launchVar
  have hp : envPrefix.isPrefixOf (envPrefix ++ (k.map upper).map fun c => if c = '-' then '_' else c) = true := by
    rw [List.isPrefixOf_iff_prefix]; exact List.prefix_append _ _
  simp only [List.filterMap_cons, hp, if_true, List.filterMap_nil]
  have hd : (envPrefix ++ (k.map upper).map fun c => if c = '-' then '_' else c).drop 12
      = (k.map upper).map fun c => if c = '-' then '_' else c := by
    exact List.drop_left' rfl
  rw [hd]
  congr 2
  rw [List.map_map, List.map_map]
  conv => rhs; rw [← List.map_id k]
  apply List.map_congr_left
  intro c hc
  obtain ⟨h1, h2⟩ := h c hc
  simp only [Function.comp]
  rw [if_neg (fun e => h2 ((upper_dash c).mp e))]
  exact lower_upper c h1

/-- A dash in a launch file's parameter name becomes an underscore: another parameter is set. -/
theorem launch_dash : envSettings (fun v => v) [(launchVar ['a', '-', 'b'], ['1'])] = [(['a', '_', 'b'], ['1'])] := by
  decide

/-- An upper case letter in a launch file's parameter name is lost: another parameter is set. -/
theorem launch_upper : envSettings (fun v => v) [(launchVar ['K', 'p'], ['1'])] = [(['k', 'p'], ['1'])] := by
  decide

/-- No environment variable reaches a parameter whose name has an ASCII upper case letter, so such a
parameter of the file cannot be overridden. -/
theorem upper_case_key_unreachable {α : Type} (pv : List Char → α) (env : List (List Char × List Char))
    (k : List Char) (c : Char) (hc : c ∈ k) (hu : 65 ≤ c.toNat ∧ c.toNat ≤ 90) :
    ∀ x ∈ envSettings pv env, x.1 ≠ k := by
  intro x hx e
  unfold envSettings at hx
  rw [List.mem_filterMap] at hx
  obtain ⟨y, _, hy⟩ := hx
  split at hy
  · simp only [Option.some.injEq] at hy
    rw [← hy] at e
    simp only at e
    rw [← e, List.mem_map] at hc
    obtain ⟨d, _, hd⟩ := hc
    rw [← hd] at hu
    unfold lower at hu
    by_cases h : 65 ≤ d.toNat ∧ d.toNat ≤ 90
    · rw [if_pos h] at hu
      have : (Char.ofNat (d.toNat + 32)).toNat = d.toNat + 32 := toNat_ofNat_small _ (by omega)
      omega
    · rw [if_neg h] at hu; exact h hu
  · cases hy

end Horus.Params
