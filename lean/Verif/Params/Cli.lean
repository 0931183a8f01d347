import Verif.Params.Validate
/-
The `horus param` commands: horus_manager/src/commands/param.rs, on the start-up layers of
`Params/Model` (horus_core/src/params.rs).

Modelled: what each command leaves in `.horus/config/params.yaml` and what a later `horus param get`
answers, for every environment of either command; the reading of the value's text; a crash while
the file is written; two commands at the same time.
Simplified: values in the file are read back as they were written (YAML library). A store opened by
a command has no rules and no callbacks (params.rs 190-196), so that setting is never refused.
The audit log is left out.
-/
namespace Horus.ParamCli
open Horus Horus.Params

abbrev Text := List Char

/-- The process environment: variables in the order it lists them. -/
abbrev Vars := List (Text × Text)

variable {α : Type}

/-- `get_param` (param.rs 135-156): `none` is an error. -/
def get (pv : Text → α) (defaults : Map Text α) (f : File α) (env : Vars) (k : Text) : Option α :=
  (new pv defaults f env).bind fun m => Map.get m k

/-- `set_param` (param.rs 159-208), with `save_to_disk` (params.rs 577-592): everything the store
holds goes to the file. `cv` reads the value's text. -/
def set (cv pv : Text → α) (defaults : Map Text α) (f : File α) (env : Vars) (k t : Text) : Option (File α) :=
  (new pv defaults f env).map fun m => .good (Map.set m k (cv t))

/-- `delete_param` (param.rs 211-233). -/
def delete (pv : Text → α) (defaults : Map Text α) (f : File α) (env : Vars) (k : Text) : Option (File α) :=
  (new pv defaults f env).bind fun m => if Map.has m k then some (.good (Map.del m k)) else none

/-- `reset_params` (param.rs 236-249), with `reset` and `set_defaults` (params.rs 212-217, 338-344):
without `--force` nothing is done. -/
def reset (pv : Text → α) (defaults : Map Text α) (f : File α) (env : Vars) (force : Bool) : Option (File α) :=
  if force then (new pv defaults f env).map fun _ => .good (fileLayer [] defaults) else some f

/-- `load_params` (param.rs 252-273), with `load_from_disk` (params.rs 595-604): the given file's
settings replace the store's. An empty file is not a map and is an error here. -/
def load (pv : Text → α) (defaults : Map Text α) (f : File α) (env : Vars) (g : File α) : Option (File α) :=
  match g with
  | .good kvs => (new pv defaults f env).map fun _ => .good (fileLayer [] kvs)
  | _ => none

/-- `save_params` without a file (param.rs 276-304). -/
def save (pv : Text → α) (defaults : Map Text α) (f : File α) (env : Vars) : Option (File α) :=
  (new pv defaults f env).map .good

/-- What a crash in `std::fs::write` (params.rs 590) leaves when the first `n` entries had been
written: the file is truncated first, and entries are whole lines. A crash inside a line is left
out. -/
def torn (n : Nat) : File α → File α
  | .good kvs => if n = 0 then .blank else .good (kvs.take n)
  | f => f

/-! ### Specification -/

/-- The environment says nothing about this parameter. -/
def Silent (pv : Text → α) (env : Vars) (k : Text) : Prop := lastFor k (envSettings pv env) = none

/-- The file is there but cannot be used. -/
def Broken (f : File α) : Prop := f.settings = none

/-! ### Proofs -/

theorem get_eq (pv : Text → α) (defaults : Map Text α) (f : File α) (env : Vars) (k : Text) (kvs : List (Text × α)) (h : f.settings = some kvs) :
    get pv defaults f env k = ((lastFor k (envSettings pv env)).or (lastFor k kvs)).or (Map.get defaults k) := by
  have hl := new_layers pv defaults f env
  rw [h] at hl
  unfold get
  cases hn : new pv defaults f env with
  | none => rw [hn] at hl; exact hl.elim
  | some m => rw [hn] at hl; exact hl k

theorem new_some (pv : Text → α) (defaults m : Map Text α) (f : File α) (env : Vars) (h : new pv defaults f env = some m) (k : Text) :
    Map.get m k = get pv defaults f env k := by
  unfold get; rw [h]; rfl

theorem new_none_iff (pv : Text → α) (defaults : Map Text α) (f : File α) (env : Vars) : new pv defaults f env = none ↔ Broken f := by
  unfold Broken
  cases f <;> simp [new, File.settings]

theorem ok_file (kvs : List (Text × α)) (m : Map Text α) (h : Map.Ok m) : Map.Ok (fileLayer m kvs) := by
  induction kvs generalizing m with
  | nil => exact h
  | cons x t ih => obtain ⟨a, b⟩ := x; exact ih _ (h.set a b)

theorem ok_env (pv : Text → α) (env : Vars) (m : Map Text α) (h : Map.Ok m) : Map.Ok (envLayer pv m env) := by
  induction env generalizing m with
  | nil => exact h
  | cons x t ih =>
    obtain ⟨a, b⟩ := x
    unfold envLayer
    split
    · exact ih _ (h.set _ _)
    · exact ih _ h

theorem ok_new (pv : Text → α) (defaults m : Map Text α) (f : File α) (env : Vars) (hd : Map.Ok defaults) (h : new pv defaults f env = some m) : Map.Ok m := by
  cases f with
  | absent => cases h; exact ok_env pv env _ hd
  | unreadable => cases h
  | malformed => cases h
  | blank => cases h; exact ok_env pv env _ (ok_file [] _ hd)
  | good kvs => cases h; exact ok_env pv env _ (ok_file kvs _ hd)

theorem lastFor_ok (m : Map Text α) (h : Map.Ok m) (k : Text) : lastFor k m = Map.get m k := by
  induction m with
  | nil => rfl
  | cons x t ih =>
    obtain ⟨a, b⟩ := x
    have hn : (a :: Map.keys t).Nodup := h
    rw [lastFor_cons, Map.get_cons, ih (List.nodup_cons.1 hn).2]
    by_cases e : a = k
    · subst e
      have : Map.get t a = none := by
        cases hg : Map.get t a with
        | none => rfl
        | some v => exact absurd ((Map.mem_keys_iff t a).2 (by rw [hg]; rfl)) (List.nodup_cons.1 hn).1
      simp [this]
    · simp [e]

theorem get_good (pv : Text → α) (defaults m : Map Text α) (env : Vars) (k : Text) (h : Map.Ok m) (hs : Silent pv env k) :
    get pv defaults (.good m) env k = (Map.get m k).or (Map.get defaults k) := by
  rw [get_eq pv defaults (.good m) env k m rfl, hs, lastFor_ok m h k]
  simp

/-- **The commands fail exactly if the parameter file is there and cannot be used**, and, for
`delete`, if there is no such parameter. -/
theorem fails_iff (cv pv : Text → α) (defaults : Map Text α) (f : File α) (env : Vars) (k t : Text) :
    (set cv pv defaults f env k t = none ↔ Broken f) ∧ (delete pv defaults f env k = none ↔ Broken f ∨ get pv defaults f env k = none) ∧
    (reset pv defaults f env true = none ↔ Broken f) ∧ (save pv defaults f env = none ↔ Broken f) := by
  have hb := new_none_iff pv defaults f env
  refine ⟨?_, ?_, ?_, ?_⟩
  · unfold set; rw [Option.map_eq_none_iff]; exact hb
  · unfold delete get
    cases hn : new pv defaults f env with
    | none => simp [hb.1 hn]
    | some m =>
      have : ¬ Broken f := fun h => by rw [hb.2 h] at hn; cases hn
      simp only [Option.bind_some, this, false_or]
      unfold Map.has
      cases Map.get m k <;> simp
  · unfold reset; rw [if_pos rfl, Option.map_eq_none_iff]; exact hb
  · unfold save; rw [Option.map_eq_none_iff]; exact hb

/-- **After setting a parameter, getting it answers the value given**, in this and any later
environment that does not name it.

Missing: environments that name it (`set_hidden`). -/
theorem set_get_partial (cv pv : Text → α) (defaults : Map Text α) (hd : Map.Ok defaults) (f f' : File α) (env env' : Vars) (k t : Text)
    (h : set cv pv defaults f env k t = some f') (hs : Silent pv env' k) : get pv defaults f' env' k = some (cv t) := by
  unfold set at h
  obtain ⟨m, hm, rfl⟩ := Option.map_eq_some_iff.1 h
  rw [get_good pv defaults _ env' k ((ok_new pv defaults m f env hd hm).set k _) hs, Map.get_set_self]
  rfl

/-- **Setting one parameter changes no other one**, as long as the environment stays as it is. -/
theorem set_others (cv pv : Text → α) (defaults : Map Text α) (hd : Map.Ok defaults) (f f' : File α) (env : Vars) (k k' t : Text)
    (h : set cv pv defaults f env k t = some f') (hk : k ≠ k') : get pv defaults f' env k' = get pv defaults f env k' := by
  unfold set at h
  obtain ⟨m, hm, rfl⟩ := Option.map_eq_some_iff.1 h
  have ho := ok_new pv defaults m f env hd hm
  have e := new_some pv defaults m f env hm k'
  rw [get_eq pv defaults (.good (Map.set m k (cv t))) env k' _ rfl, lastFor_ok _ (ho.set k _) k', Map.get_set_ne m _ hk, e]
  cases hf : f.settings with
  | none => rw [(new_none_iff pv defaults f env).2 hf] at hm; cases hm
  | some kvs =>
    rw [get_eq pv defaults f env k' kvs hf]
    cases lastFor k' (envSettings pv env) <;> cases lastFor k' kvs <;> cases Map.get defaults k' <;> rfl

/-- **Disagreement: with a variable set, setting its parameter has no effect one can see**: the
command reports the new value and `get` answers the variable's. -/
theorem set_hidden (cv pv : Text → α) (defaults : Map Text α) (f f' : File α) (env : Vars) (k t : Text) (v : α)
    (h : set cv pv defaults f env k t = some f') (hv : lastFor k (envSettings pv env) = some v) : get pv defaults f' env k = some v := by
  unfold set at h
  obtain ⟨m, _, rfl⟩ := Option.map_eq_some_iff.1 h
  rw [get_eq pv defaults _ env k _ rfl, hv]; rfl

/-- **Disagreement: an override of the environment becomes permanent.** Setting (or saving) any other
parameter while a variable names `k'` writes the variable's value to the file: it is in force later,
without the variable, in place of what the file said before. -/
theorem override_made_permanent (cv pv : Text → α) (defaults : Map Text α) (hd : Map.Ok defaults) (f f' : File α) (env env' : Vars) (k k' t : Text) (v : α)
    (h : set cv pv defaults f env k t = some f') (hk : k ≠ k') (hv : lastFor k' (envSettings pv env) = some v) (hs : Silent pv env' k') :
    get pv defaults f' env' k' = some v := by
  unfold set at h
  obtain ⟨m, hm, rfl⟩ := Option.map_eq_some_iff.1 h
  rw [get_good pv defaults _ env' k' ((ok_new pv defaults m f env hd hm).set k _) hs, Map.get_set_ne m _ hk, new_some pv defaults m f env hm k']
  cases hf : f.settings with
  | none => rw [(new_none_iff pv defaults f env).2 hf] at hm; cases hm
  | some kvs => rw [get_eq pv defaults f env k' kvs hf, hv]; rfl

/-- Built-in values are written too: after the first setting they no longer follow the built-in
ones of a later release. -/
theorem defaults_frozen (cv pv : Text → α) (defaults defaults' : Map Text α) (hd : Map.Ok defaults) (f f' : File α) (env env' : Vars) (k k' t : Text) (v : α)
    (h : set cv pv defaults f env k t = some f') (hk : k ≠ k') (hv : get pv defaults f env k' = some v) (hs : Silent pv env' k') :
    get pv defaults' f' env' k' = some v := by
  unfold set at h
  obtain ⟨m, hm, rfl⟩ := Option.map_eq_some_iff.1 h
  rw [get_good pv defaults' _ env' k' ((ok_new pv defaults m f env hd hm).set k _) hs, Map.get_set_ne m _ hk, new_some pv defaults m f env hm k', hv]
  rfl

/-- **After a delete, getting the parameter answers its built-in value, if it has one.** -/
theorem delete_gets (pv : Text → α) (defaults : Map Text α) (hd : Map.Ok defaults) (f f' : File α) (env env' : Vars) (k : Text)
    (h : delete pv defaults f env k = some f') (hs : Silent pv env' k) : get pv defaults f' env' k = Map.get defaults k := by
  unfold delete at h
  obtain ⟨m, hm, h⟩ := Option.bind_eq_some_iff.1 h
  by_cases hh : Map.has m k = true
  · rw [if_pos hh] at h; cases h
    rw [get_good pv defaults _ env' k ((ok_new pv defaults m f env hd hm).del k) hs, Map.get_del_self]
    rfl
  · rw [if_neg hh] at h; cases h

/-- **A deleted parameter is gone.**

Missing: built-in parameters (`deleted_default_back`) and parameters the environment names. -/
theorem delete_gone_partial (pv : Text → α) (defaults : Map Text α) (hd : Map.Ok defaults) (f f' : File α) (env env' : Vars) (k : Text)
    (h : delete pv defaults f env k = some f') (hs : Silent pv env' k) (hb : Map.get defaults k = none) : get pv defaults f' env' k = none := by
  rw [delete_gets pv defaults hd f f' env env' k h hs, hb]

/-- **Disagreement: a built-in parameter cannot be deleted**: the command says it is, and it is there
again at the next command, with its built-in value in place of the operator's. -/
theorem deleted_default_back (pv : Text → α) (defaults : Map Text α) (hd : Map.Ok defaults) (f f' : File α) (env env' : Vars) (k : Text) (v : α)
    (h : delete pv defaults f env k = some f') (hs : Silent pv env' k) (hb : Map.get defaults k = some v) : get pv defaults f' env' k = some v := by
  rw [delete_gets pv defaults hd f f' env env' k h hs, hb]

/-- **Deleting one parameter changes no other one.** -/
theorem delete_others (pv : Text → α) (defaults : Map Text α) (hd : Map.Ok defaults) (f f' : File α) (env : Vars) (k k' : Text)
    (h : delete pv defaults f env k = some f') (hk : k ≠ k') : get pv defaults f' env k' = get pv defaults f env k' := by
  unfold delete at h
  obtain ⟨m, hm, h⟩ := Option.bind_eq_some_iff.1 h
  by_cases hh : Map.has m k = true
  · rw [if_pos hh] at h; cases h
    have ho := ok_new pv defaults m f env hd hm
    rw [get_eq pv defaults (.good (Map.del m k)) env k' _ rfl, lastFor_ok _ (ho.del k) k', Map.get_del_ne m hk, new_some pv defaults m f env hm k']
    cases hf : f.settings with
    | none => rw [(new_none_iff pv defaults f env).2 hf] at hm; cases hm
    | some kvs =>
      rw [get_eq pv defaults f env k' kvs hf]
      cases lastFor k' (envSettings pv env) <;> cases lastFor k' kvs <;> cases Map.get defaults k' <;> rfl
  · rw [if_neg hh] at h; cases h

/-- **A forced reset brings back the built-in values and nothing else**; without `--force` nothing
changes. -/
theorem reset_gets (pv : Text → α) (defaults : Map Text α) (f f' : File α) (env env' : Vars) (k : Text) (force : Bool)
    (h : reset pv defaults f env force = some f') :
    (force = false → f' = f) ∧ (force = true → Map.Ok defaults → Silent pv env' k → get pv defaults f' env' k = Map.get defaults k) := by
  cases force with
  | false => exact ⟨fun _ => by unfold reset at h; rw [if_neg (by decide)] at h; cases h; rfl, fun e => nomatch e⟩
  | true =>
    refine ⟨fun e => (nomatch e), fun _ hd hs => ?_⟩
    unfold reset at h
    rw [if_pos rfl] at h
    obtain ⟨m, hm, rfl⟩ := Option.map_eq_some_iff.1 h
    rw [get_good pv defaults _ env' k (ok_file defaults [] Map.Ok.nil) hs, fileLayer_get, lastFor_ok defaults hd k]
    cases Map.get defaults k <;> rfl

/-- **After loading a file, getting a parameter answers the file's value, or else the built-in one.** -/
theorem load_gets (pv : Text → α) (defaults : Map Text α) (f f' : File α) (env env' : Vars) (kvs : List (Text × α)) (k : Text)
    (h : load pv defaults f env (.good kvs) = some f') (hs : Silent pv env' k) : get pv defaults f' env' k = (lastFor k kvs).or (Map.get defaults k) := by
  unfold load at h
  obtain ⟨m, hm, rfl⟩ := Option.map_eq_some_iff.1 h
  rw [get_good pv defaults _ env' k (ok_file kvs [] Map.Ok.nil) hs, fileLayer_get]
  cases lastFor k kvs <;> rfl

/-- **Disagreement: a broken parameter file cannot be repaired by the commands**: neither a reset nor
loading a good file gets past it. -/
theorem broken_stays (pv : Text → α) (defaults : Map Text α) (env : Vars) (g : File α) :
    reset pv defaults .malformed env true = none ∧ load pv defaults .malformed env g = none := by
  refine ⟨rfl, ?_⟩
  cases g <;> rfl

/-- **Disagreement: a crash while the file is written drops settings without a word**: the file opens,
and every parameter whose line was not yet written has its built-in value, or none. -/
theorem crash_drops (pv : Text → α) (defaults m : Map Text α) (hm : Map.Ok m) (n : Nat) (k : Text) (env' : Vars)
    (hk : k ∉ Map.keys (m.take n)) (hs : Silent pv env' k) : get pv defaults (torn n (.good m)) env' k = Map.get defaults k := by
  have hno : Map.get (m.take n) k = none := by
    cases hg : Map.get (m.take n) k with
    | none => rfl
    | some v => exact absurd ((Map.mem_keys_iff _ k).2 (by rw [hg]; rfl)) hk
  have hok : Map.Ok (m.take n) := by
    unfold Map.Ok Map.keys at hm ⊢
    rw [List.map_take]
    exact hm.sublist (List.take_sublist _ _)
  unfold torn
  dsimp only
  by_cases h0 : n = 0
  · rw [if_pos h0, get_eq pv defaults .blank env' k [] rfl, hs]; rfl
  · rw [if_neg h0, get_good pv defaults _ env' k hok hs, hno]; rfl

/-- **Disagreement: of two commands at the same time one is lost.** Both have read the file before
either writes; both report success. -/
theorem update_lost (cv pv : Text → α) (defaults : Map Text α) (hd : Map.Ok defaults) (f fa fb : File α) (env : Vars) (k k' t t' : Text)
    (_ha : set cv pv defaults f env k t = some fa) (hb : set cv pv defaults f env k' t' = some fb) (hk : k ≠ k') :
    get pv defaults fb env k = get pv defaults f env k := set_others cv pv defaults hd f fb env k' k t' hb (Ne.symm hk)

/-! ### What a value's text means -/

/-- A parameter value; finite doubles are any type `R`, arrays and objects any type `J`. -/
inductive Value (R J : Type) where
  | null
  | bool (b : Bool)
  | int (n : Int)
  | real (x : R)
  | str (t : Text)
  | nested (j : J)
  deriving DecidableEq

/-- The library's readers of texts: JSON, `i64`, and `f64`, whose result `some none` is an infinity or
not a number. -/
structure Readers (R J : Type) where
  json : Text → Option (Value R J)
  int : Text → Option Int
  real : Text → Option (Option R)

variable {R J : Type}

/-- The value `set_param` stores (param.rs 163-178). -/
def cliValue (p : Readers R J) (t : Text) : Value R J :=
  match p.json t with
  | some v => v
  | none =>
    if t = "true".toList then .bool true else if t = "false".toList then .bool false else
    match p.int t with
    | some n => .int n
    | none => match p.real t with
      | some (some x) => .real x
      | some none => .int 0
      | none => .str t

/-- `parse_env_value` (params.rs 648-660); a double that is not finite becomes null
(`Value::from(f64)`). -/
def envValue (p : Readers R J) (t : Text) : Value R J :=
  match p.int t with
  | some n => .int n
  | none => match p.real t with
    | some (some x) => .real x
    | some none => .null
    | none => if t = "true".toList then .bool true else if t = "false".toList then .bool false else .str t

/-- What is assumed of the readers: JSON agrees with the others on numbers and truth values. -/
structure Agree (p : Readers R J) : Prop where
  int : ∀ t n, p.int t = some n → p.json t = none ∨ p.json t = some (.int n)
  real : ∀ t x, p.int t = none → p.real t = some (some x) → p.json t = none ∨ p.json t = some (.real x)
  true_ : p.json "true".toList = some (.bool true) ∧ p.int "true".toList = none ∧ p.real "true".toList = none
  false_ : p.json "false".toList = some (.bool false) ∧ p.int "false".toList = none ∧ p.real "false".toList = none

/-- **A number or truth value means the same on the command line and in a variable, and so does any
text that is neither JSON nor a number.**

Missing: infinities and not-a-number (`nan_two_ways`), and other JSON (`json_two_ways`). -/
theorem values_agree_partial (p : Readers R J) (h : Agree p) (t : Text)
    (ht : (p.int t).isSome = true ∨ (∃ x, p.real t = some (some x)) ∨ t = "true".toList ∨ t = "false".toList ∨ (p.json t = none ∧ p.real t = none)) :
    cliValue p t = envValue p t := by
  by_cases h1 : t = "true".toList
  · subst h1; unfold cliValue envValue; rw [h.true_.1, h.true_.2.1, h.true_.2.2, if_pos rfl]
  by_cases h2 : t = "false".toList
  · subst h2; unfold cliValue envValue; rw [h.false_.1, h.false_.2.1, h.false_.2.2, if_neg h1, if_pos rfl]
  unfold cliValue envValue
  rw [if_neg h1, if_neg h2]
  cases hi : p.int t with
  | some n => rcases h.int t n hi with hj | hj <;> rw [hj]
  | none =>
    dsimp only
    cases hr : p.real t with
    | some o =>
      cases o with
      | some x => rcases h.real t x hi hr with hj | hj <;> rw [hj]
      | none =>
        rw [hi, hr] at ht
        rcases ht with e | ⟨x, e⟩ | e | e | ⟨_, e⟩
        · cases e
        · cases e
        · exact absurd e h1
        · exact absurd e h2
        · cases e
    | none =>
      rw [hi, hr] at ht
      rcases ht with e | ⟨x, e⟩ | e | e | ⟨e, _⟩
      · cases e
      · cases e
      · exact absurd e h1
      · exact absurd e h2
      · rw [e]; dsimp only; rw [if_neg h1, if_neg h2]

/-- **Disagreement: a text Rust reads as an infinity or not-a-number becomes zero on the command line
and null in a variable.** `nan`, `inf` and `infinity`, in any case, are such texts: also when they
are meant as names. -/
theorem nan_two_ways (p : Readers R J) (t : Text) (hj : p.json t = none) (hi : p.int t = none) (hr : p.real t = some none) (h1 : t ≠ "true".toList) (h2 : t ≠ "false".toList) :
    cliValue p t = .int 0 ∧ envValue p t = .null := by
  unfold cliValue envValue
  rw [hj, hi, hr, if_neg h1, if_neg h2]
  exact ⟨rfl, rfl⟩

/-- **Disagreement: JSON that is not a number is read on the command line only**: in a variable the
same text stays text. -/
theorem json_two_ways (p : Readers R J) (t : Text) (v : Value R J) (hj : p.json t = some v) (hi : p.int t = none) (hr : p.real t = none) (h1 : t ≠ "true".toList) (h2 : t ≠ "false".toList) :
    cliValue p t = v ∧ envValue p t = .str t := by
  unfold cliValue envValue
  rw [hj, hi, hr, if_neg h1, if_neg h2]
  exact ⟨rfl, rfl⟩

/-! ### The hypotheses are met -/

/-- A small set of readers: numbers of one digit, `nan`, and `null`. -/
def tiny : Readers Nat Nat where
  json t := if t = "true".toList then some (.bool true) else if t = "false".toList then some (.bool false) else if t = "null".toList then some .null else if t = "7".toList then some (.int 7) else none
  int t := if t = "7".toList then some 7 else none
  real t := if t = "nan".toList then some none else if t = "7.5".toList then some (some 75) else none

example : Agree tiny := by
  refine ⟨?_, ?_, by decide, by decide⟩
  · intro t n h
    unfold tiny at h ⊢
    dsimp only at h ⊢
    split at h
    · next e => subst e; cases h; right; decide
    · cases h
  · intro t x _ h
    unfold tiny at h ⊢
    dsimp only at h ⊢
    split at h
    · cases h
    · split at h
      · next e => subst e; left; decide
      · cases h

example : cliValue tiny "nan".toList = .int 0 ∧ envValue tiny "nan".toList = .null ∧ cliValue tiny "null".toList = .null ∧ envValue tiny "null".toList = .str "null".toList ∧
    cliValue tiny "7.5".toList = envValue tiny "7.5".toList := by decide

/-- One built-in parameter. -/
def oneDefault : Map Text Nat := [("max_speed".toList, 10)]

/-- A variable that overrides it. -/
def oneVar : Vars := [("HORUS_PARAM_MAX_SPEED".toList, "99".toList)]

/-- The length of the text stands for its value. -/
def size (t : Text) : Nat := t.length

/-- An operator's limit of 2 in the file; another parameter is set while a test override is
exported; from then on, without the variable, the override is in force. -/
example : (set size size oneDefault (.good [("max_speed".toList, 1)]) oneVar "x".toList "abc".toList).bind (fun f => get size oneDefault f [] "max_speed".toList) = some 2 ∧
    get size oneDefault (.good [("max_speed".toList, 1)]) [] "max_speed".toList = some 1 := by decide

/-- An operator's limit of 1 is lost in a crash: the built-in 10 is in force. -/
example : get size oneDefault (torn 1 (.good [("a".toList, 5), ("max_speed".toList, 1)])) [] "max_speed".toList = some 10 := by decide

example : (delete size oneDefault (.good [("max_speed".toList, 1)]) [] "max_speed".toList).bind (fun f => get size oneDefault f [] "max_speed".toList) = some 10 := by decide

end Horus.ParamCli
