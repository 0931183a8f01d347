import Mathlib.Data.List.Basic
import Mathlib.Tactic.Common
/-
Loading the `[hardware]` table of `horus.toml`. Source: /repo/horus_core/src/drivers/mod.rs:78-258 (`load_from`),
290-381 (`load_config_entries`), params.rs:58-205 (typed parameters), registry.rs:52-69 (the registry).
Text is `String`; a floating-point number is an opaque code `Nat`. The TOML file is already parsed.
-/
namespace Horus.Hardware

/-- A TOML value (`toml::Value`). A table is its entries in the order in which the code goes through them. -/
inductive Toml
  | str (s : String)
  | int (i : Int)
  | float (f : Nat)
  | bool (b : Bool)
  | arr (l : List Toml)
  | tbl (l : List (String × Toml))

abbrev Table := List (String × Toml)

/-- `toml::Value::as_str`, `as_integer`, `as_bool`, `as_array`, `as_table`. -/
def Toml.asStr : Toml → Option String
  | .str s => some s
  | _ => none

def Toml.asInt : Toml → Option Int
  | .int i => some i
  | _ => none

def Toml.asBool : Toml → Option Bool
  | .bool b => some b
  | _ => none

def Toml.asArr : Toml → Option (List Toml)
  | .arr l => some l
  | _ => none

def Toml.asTbl : Toml → Option Table
  | .tbl l => some l
  | _ => none

/-- `Table::get`. -/
def get (t : Table) (k : String) : Option Toml := t.lookup k

/-- mod.rs:87-92, 300-305: `[hardware]`, or if that is absent `[drivers]`; nothing if it is not a table. -/
def hwTable (file : Table) : Table := (((get file "hardware").orElse fun _ => get file "drivers").bind Toml.asTbl).getD []

/-- mod.rs:99-101. `falsy` compares with "false" whatever the case (`eq_ignore_ascii_case`). -/
def simMode (var : Option String) : Bool :=
  match var with
  | none => false
  | some v => !(v = "" || v = "0" || v.toList.map Char.toLower = "false".toList)

/-- `str::split(',')`: the pieces between commas, as they stand. -/
def splitComma : List Char → List (List Char)
  | [] => [[]]
  | c :: cs =>
    if c = ',' then [] :: splitComma cs
    else match splitComma cs with
      | [] => [[c]]
      | p :: ps => (c :: p) :: ps

/-- mod.rs:103-109. -/
def targets (mode : Bool) (var : Option String) : Option (List (List Char)) := if mode then var.map fun s => splitComma s.toList else none

/-- mod.rs:112-124, 307-319. -/
def reserved : List String := ["use", "sim", "args", "terra", "package", "node", "crate", "source", "pip", "exec", "simulated"]

/-- mod.rs:159-194, 330-364: which driver an entry names. -/
def useName (t : Table) : Option String :=
  ((get t "use").bind Toml.asStr).orElse fun _ =>
  ((get t "terra").bind Toml.asStr).orElse fun _ =>
  ((get t "node").bind Toml.asStr).orElse fun _ =>
  ((get t "package").bind Toml.asStr).orElse fun _ =>
  (((get t "exec").bind Toml.asStr).map fun s => "exec:" ++ s).orElse fun _ =>
  ((get t "pip").bind Toml.asStr).orElse fun _ =>
  ((get t "crate").bind Toml.asStr)

/-- mod.rs:208-212, 371-375. -/
def params (t : Table) : Table := t.filter fun e => !reserved.contains e.1

/-- A node that was loaded: a stub (mod.rs:148-153), an external program (217-229) or one made by a registered factory (232-233). -/
inductive Node
  | stub (name : String)
  | exec (path : List Char) (args : List String) (ps : Table)
  | made (type : String) (ps : Table)

/-- mod.rs:219-227: the arguments that are texts. -/
def execArgs (t : Table) : List String := (((get t "args").bind Toml.asArr).map fun l => l.filterMap Toml.asStr).getD []

/-- `str::strip_prefix("exec:")`. -/
def stripExec (s : String) : Option (List Char) := if "exec:".toList <+: s.toList then some (s.toList.drop 5) else none

/-- The environment: the two variables (`None` if unset) and what `registry::lookup` and the factory answer for a type and parameters:
`none` if the type is unknown, `some false` if the factory fails. -/
structure Env where
  sim : Option String
  simTargets : Option String
  factory : String → Table → Option Bool

/-- mod.rs:139-156: whether a stub takes the place of the driver. -/
def stubbed (e : Env) (name : String) (t : Table) : Bool :=
  simMode e.sim && ((get t "sim").bind Toml.asBool).getD false &&
    (match targets (simMode e.sim) e.simTargets with
     | some ts => ts.contains name.toList
     | none => true)

/-- mod.rs:217-248: the driver itself; `none` is an error. -/
def make (e : Env) (u : String) (t : Table) : Option Node :=
  match stripExec u with
  | some path => some (.exec path (execArgs t) (params t))
  | none => if e.factory u (params t) = some true then some (.made u (params t)) else none

/-- mod.rs:126-257: the loop. `none` is an error; nothing is loaded then. -/
def loadAll (e : Env) : Table → Option (List (String × Node))
  | [] => some []
  | (name, v) :: rest =>
    match v.asTbl with
    | none => loadAll e rest
    | some t =>
      if stubbed e name t then (loadAll e rest).map ((name, .stub name) :: ·)
      else match useName t with
        | none => loadAll e rest
        | some u =>
          match make e u t with
          | none => none
          | some n => (loadAll e rest).map ((name, n) :: ·)

/-- mod.rs:78-258 `load_from`. -/
def load (e : Env) (file : Table) : Option (List (String × Node)) := loadAll e (hwTable file)

/-- mod.rs:290-381 `load_config_entries`, what Python loads. -/
def entries (file : Table) : List (String × String × Table) :=
  (hwTable file).filterMap fun x => (x.2.asTbl).bind fun t => (useName t).map fun u => (x.1, u, params t)

/-! ### What is loaded -/

/-- What an entry should become. -/
inductive Becomes (e : Env) (name : String) (t : Table) : Node → Prop
  | stub : stubbed e name t = true → Becomes e name t (.stub name)
  | exec {u path} : stubbed e name t = false → useName t = some u → u.toList = "exec:".toList ++ path → Becomes e name t (.exec path (execArgs t) (params t))
  | made {u} : stubbed e name t = false → useName t = some u → ¬ "exec:".toList <+: u.toList → e.factory u (params t) = some true → Becomes e name t (.made u (params t))

/-- The entries that are loaded: tables that are simulated or name a driver. -/
def loadable (e : Env) (x : String × Toml) : Bool :=
  match x.2.asTbl with
  | none => false
  | some t => stubbed e x.1 t || (useName t).isSome

theorem make_becomes {e : Env} {name u : String} {t : Table} {n : Node} (hs : stubbed e name t = false) (hu : useName t = some u)
    (h : make e u t = some n) : Becomes e name t n := by
  unfold make stripExec at h
  by_cases hp : "exec:".toList <+: u.toList
  · rw [if_pos hp] at h
    dsimp only at h
    cases h
    refine .exec hs hu ?_
    obtain ⟨r, hr⟩ := hp
    rw [← hr]
    rfl
  · rw [if_neg hp] at h
    dsimp only at h
    split_ifs at h with hf
    cases h
    exact .made hs hu hp hf

/-- **Every entry that can be loaded is loaded once, in order, as what it should be.** -/
theorem load_each_partial (e : Env) (file : Table) (ns : List (String × Node)) (h : load e file = some ns) :
    List.Forall₂ (fun x n => n.1 = x.1 ∧ ∃ t, x.2 = .tbl t ∧ Becomes e x.1 t n.2) ((hwTable file).filter (loadable e)) ns := by
  have key : ∀ (l : Table) ns, loadAll e l = some ns →
      List.Forall₂ (fun x n => n.1 = x.1 ∧ ∃ t, x.2 = .tbl t ∧ Becomes e x.1 t n.2) (l.filter (loadable e)) ns := by
    intro l
    induction l with
    | nil => intro ns h; cases h; exact .nil
    | cons x l ih =>
      obtain ⟨name, v⟩ := x
      intro ns h
      simp only [loadAll] at h
      cases hv : v.asTbl with
      | none =>
        rw [hv] at h
        rw [List.filter_cons_of_neg (by simp [loadable, hv])]
        exact ih ns h
      | some t =>
        have hvt : v = .tbl t := by cases v <;> simp_all [Toml.asTbl]
        rw [hv] at h
        dsimp only at h
        cases hs : stubbed e name t with
        | true =>
          rw [hs, if_pos rfl] at h
          obtain ⟨r, hr, rfl⟩ := Option.map_eq_some_iff.1 h
          rw [List.filter_cons_of_pos (by simp [loadable, hv, hs])]
          exact .cons ⟨rfl, t, hvt, .stub hs⟩ (ih r hr)
        | false =>
          rw [hs, if_neg (by simp)] at h
          cases hu : useName t with
          | none =>
            rw [hu] at h
            rw [List.filter_cons_of_neg (by simp [loadable, hv, hs, hu])]
            exact ih ns h
          | some u =>
            rw [hu] at h
            dsimp only at h
            cases hm : make e u t with
            | none => rw [hm] at h; cases h
            | some n =>
              rw [hm] at h
              obtain ⟨r, hr, rfl⟩ := Option.map_eq_some_iff.1 h
              rw [List.filter_cons_of_pos (by simp [loadable, hv, hs, hu])]
              exact .cons ⟨rfl, t, hvt, make_becomes hs hu hm⟩ (ih r hr)
  exact key _ _ h

/-- **All or nothing.** Loading fails exactly if some entry that is not simulated names a type nobody registered, or whose factory
fails. -/
theorem load_fails_iff (e : Env) (file : Table) : load e file = none ↔
    ∃ name t u, (name, Toml.tbl t) ∈ hwTable file ∧ stubbed e name t = false ∧ useName t = some u ∧ ¬ "exec:".toList <+: u.toList ∧ e.factory u (params t) ≠ some true := by
  have key : ∀ l : Table, loadAll e l = none ↔ ∃ name t u, (name, Toml.tbl t) ∈ l ∧ stubbed e name t = false ∧ useName t = some u ∧
      ¬ "exec:".toList <+: u.toList ∧ e.factory u (params t) ≠ some true := by
    intro l
    induction l with
    | nil => constructor <;> intro h; · cases h
             · obtain ⟨_, _, _, h, _⟩ := h; cases h
    | cons x l ih =>
      obtain ⟨name, v⟩ := x
      simp only [loadAll]
      have skip : (∀ t, v = .tbl t → stubbed e name t = true ∨ useName t = none ∨ ∃ u n, useName t = some u ∧ make e u t = some n) →
          ((∃ name' t u, (name', Toml.tbl t) ∈ (name, v) :: l ∧ stubbed e name' t = false ∧ useName t = some u ∧ ¬ "exec:".toList <+: u.toList ∧ e.factory u (params t) ≠ some true) ↔ loadAll e l = none) := by
        intro hok
        rw [ih]
        constructor
        · rintro ⟨n', t, u, hm, h1, h2, h3, h4⟩
          rcases List.mem_cons.1 hm with heq | hm
          · injection heq with e1 e2
            subst e1
            rcases hok t e2.symm with h | h | ⟨u', n, h, h'⟩
            · rw [h] at h1; cases h1
            · rw [h] at h2; cases h2
            · rw [h] at h2
              cases h2
              unfold make stripExec at h'
              rw [if_neg h3] at h'
              dsimp only at h'
              rw [if_neg h4] at h'
              cases h'
          · exact ⟨n', t, u, hm, h1, h2, h3, h4⟩
        · rintro ⟨n', t, u, hm, h⟩
          exact ⟨n', t, u, List.mem_cons_of_mem _ hm, h⟩
      cases hv : v.asTbl with
      | none =>
        dsimp only
        rw [skip fun t ht => by rw [ht] at hv; cases hv]
      | some t =>
        have hvt : v = .tbl t := by cases v <;> simp_all [Toml.asTbl]
        dsimp only
        cases hs : stubbed e name t with
        | true =>
          rw [if_pos rfl, Option.map_eq_none_iff, skip fun t' ht => by rw [hvt] at ht; cases ht; exact .inl hs]
        | false =>
          rw [if_neg (by simp)]
          cases hu : useName t with
          | none =>
            dsimp only
            rw [skip fun t' ht => by rw [hvt] at ht; cases ht; exact .inr (.inl hu)]
          | some u =>
            dsimp only
            cases hm : make e u t with
            | none =>
              dsimp only
              refine ⟨fun _ => ⟨name, t, u, by rw [hvt]; exact List.mem_cons_self, hs, hu, ?_⟩, fun _ => rfl⟩
              unfold make stripExec at hm
              by_cases hp : "exec:".toList <+: u.toList
              · rw [if_pos hp] at hm; cases hm
              · rw [if_neg hp] at hm
                dsimp only at hm
                refine ⟨hp, fun hf => ?_⟩
                rw [if_pos hf] at hm
                cases hm
            | some n =>
              dsimp only
              rw [Option.map_eq_none_iff, skip fun t' ht => by rw [hvt] at ht; cases ht; exact .inr (.inr ⟨u, n, hu, hm⟩)]
  exact key _

/-- **A node's parameters are its entry's keys** that are not reserved, with the values written there, and nothing else. -/
theorem params_exact (t : Table) (k : String) : get (params t) k = if k ∈ reserved then none else get t k := by
  unfold get params
  induction t with
  | nil => simp
  | cons x t ih =>
    obtain ⟨k', v⟩ := x
    by_cases hr : k' ∈ reserved
    · rw [List.filter_cons_of_neg (by simpa using hr), ih]
      split_ifs with h
      · rfl
      · have hk : (k == k') = false := by
          simp only [beq_eq_false_iff_ne]
          rintro rfl
          exact h hr
        rw [List.lookup_cons, hk]
    · rw [List.filter_cons_of_pos (by simpa using hr), List.lookup_cons, List.lookup_cons, ih]
      by_cases hk : k = k'
      · subst hk
        rw [if_neg hr]
        simp [hr]
      · have : (k == k') = false := by simpa using hk
        rw [this]

/-- **Simulation stands in only for what asks for it**: without the mode, no entry is replaced by a stub; a falsy value is "off". -/
theorem sim_off (e : Env) (h : e.sim = none ∨ e.sim = some "" ∨ e.sim = some "0" ∨ e.sim = some "false" ∨ e.sim = some "FALSE") (name : String) (t : Table) :
    stubbed e name t = false := by
  have : simMode e.sim = false := by
    rcases h with h | h | h | h | h <;> rw [h] <;> decide
  unfold stubbed
  rw [this]
  rfl

theorem sim_only_marked (e : Env) (name : String) (t : Table) (h : stubbed e name t = true) : get t "sim" = some (.bool true) := by
  unfold stubbed at h
  simp only [Bool.and_eq_true] at h
  have h2 := h.1.2
  cases hg : get t "sim" with
  | none => rw [hg] at h2; cases h2
  | some v =>
    rw [hg] at h2
    cases v with
    | bool b =>
      have : b = true := by simpa [Toml.asBool] using h2
      rw [this]
    | _ => simp [Toml.asBool] at h2

/-! ### Typed parameters -/

/-- params.rs:132-172: an integer read as a type with the range `lo..hi`. -/
def fromInt (lo hi : Int) (v : Toml) : Option Int := v.asInt.bind fun i => if lo ≤ i ∧ i ≤ hi then some i else none

def i64 : Toml → Option Int := Toml.asInt
def i32 : Toml → Option Int := fromInt (-2147483648) 2147483647
def u64 : Toml → Option Int := fromInt 0 18446744073709551615
def u32 : Toml → Option Int := fromInt 0 4294967295
def u8 : Toml → Option Int := fromInt 0 255

/-- params.rs:192-205: an array of a type. -/
def vec {α : Type} (f : Toml → Option α) (v : Toml) : Option (List α) := v.asArr.bind fun l => l.mapM f

/-- params.rs:58-64 `get`. -/
def getReq {α : Type} (f : Toml → Option α) (t : Table) (k : String) : Option α := (get t k).bind f

/-- params.rs:74-79 `get_or`. -/
def getOr {α : Type} (f : Toml → Option α) (t : Table) (k : String) (d : α) : α := ((get t k).bind f).getD d

theorem fromInt_iff (lo hi : Int) (v : Toml) (i : Int) : fromInt lo hi v = some i ↔ v = .int i ∧ lo ≤ i ∧ i ≤ hi := by
  unfold fromInt
  cases v with
  | int j =>
    show (if lo ≤ j ∧ j ≤ hi then some j else none) = some i ↔ _
    split_ifs with h
    · constructor
      · intro h'; cases h'; exact ⟨rfl, h⟩
      · rintro ⟨h', _⟩; cases h'; rfl
    · constructor
      · intro h'; cases h'
      · rintro ⟨h', h''⟩; cases h'; exact absurd h'' h
  | _ => simp [Toml.asInt]

/-- **A required number is the one in the file or an error**: never wrapped, cut or rounded. -/
theorem get_u8_exact (t : Table) (k : String) (i : Int) : getReq u8 t k = some i ↔ get t k = some (.int i) ∧ 0 ≤ i ∧ i ≤ 255 := by
  unfold getReq u8
  rw [Option.bind_eq_some_iff]
  constructor
  · rintro ⟨v, h, h'⟩; rw [fromInt_iff] at h'; rw [h, h'.1]; exact ⟨rfl, h'.2⟩
  · rintro ⟨h, h'⟩; exact ⟨_, h, (fromInt_iff _ _ _ _).2 ⟨rfl, h'⟩⟩

theorem get_i32_exact (t : Table) (k : String) (i : Int) : getReq i32 t k = some i ↔ get t k = some (.int i) ∧ -2147483648 ≤ i ∧ i ≤ 2147483647 := by
  unfold getReq i32
  rw [Option.bind_eq_some_iff]
  constructor
  · rintro ⟨v, h, h'⟩; rw [fromInt_iff] at h'; rw [h, h'.1]; exact ⟨rfl, h'.2⟩
  · rintro ⟨h, h'⟩; exact ⟨_, h, (fromInt_iff _ _ _ _).2 ⟨rfl, h'⟩⟩

theorem get_u32_exact (t : Table) (k : String) (i : Int) : getReq u32 t k = some i ↔ get t k = some (.int i) ∧ 0 ≤ i ∧ i ≤ 4294967295 := by
  unfold getReq u32
  rw [Option.bind_eq_some_iff]
  constructor
  · rintro ⟨v, h, h'⟩; rw [fromInt_iff] at h'; rw [h, h'.1]; exact ⟨rfl, h'.2⟩
  · rintro ⟨h, h'⟩; exact ⟨_, h, (fromInt_iff _ _ _ _).2 ⟨rfl, h'⟩⟩

theorem get_u64_exact (t : Table) (k : String) (i : Int) : getReq u64 t k = some i ↔ get t k = some (.int i) ∧ 0 ≤ i ∧ i ≤ 18446744073709551615 := by
  unfold getReq u64
  rw [Option.bind_eq_some_iff]
  constructor
  · rintro ⟨v, h, h'⟩; rw [fromInt_iff] at h'; rw [h, h'.1]; exact ⟨rfl, h'.2⟩
  · rintro ⟨h, h'⟩; exact ⟨_, h, (fromInt_iff _ _ _ _).2 ⟨rfl, h'⟩⟩

/-- **An array is read whole or not at all**: no element is dropped. -/
theorem vec_exact {α : Type} (f : Toml → Option α) (v : Toml) (l : List α) :
    vec f v = some l ↔ ∃ vs, v = .arr vs ∧ List.Forall₂ (fun x a => f x = some a) vs l := by
  have key : ∀ (vs : List Toml) (l : List α), vs.mapM f = some l ↔ List.Forall₂ (fun x a => f x = some a) vs l := by
    intro vs
    induction vs with
    | nil =>
      intro l
      constructor
      · intro h; cases h; exact .nil
      · intro h; cases h; rfl
    | cons x vs ih =>
      intro l
      rw [List.mapM_cons]
      constructor
      · intro h
        cases hx : f x with
        | none => rw [hx] at h; cases h
        | some a =>
          rw [hx] at h
          cases hr : vs.mapM f with
          | none => rw [hr] at h; cases h
          | some r =>
            rw [hr] at h
            cases h
            exact .cons hx ((ih r).1 hr)
      · intro h
        cases h with
        | cons hx hr =>
          rw [hx, (ih _).2 hr]
          rfl
  unfold vec
  cases v with
  | arr vs =>
    show vs.mapM f = some l ↔ _
    rw [key]
    constructor
    · intro h; exact ⟨vs, rfl, h⟩
    · rintro ⟨vs', h, h'⟩; cases h; exact h'
  | _ => simp [Toml.asArr]

/-- `get_or` gives the value in the file whenever it has the type. -/
theorem getOr_value {α : Type} (f : Toml → Option α) (t : Table) (k : String) (d a : α) (h : getReq f t k = some a) : getOr f t k d = a := by
  unfold getOr
  unfold getReq at h
  rw [h]
  rfl

/-! ### Findings -/

/-- **`get_or` hides a mistake**: a value of another type, or out of range, gives the default, like a missing one. -/
theorem getOr_hides (d : Int) : getOr u32 [("baudrate", .str "9600")] "baudrate" d = d ∧ getOr u8 [("id", .int 256)] "id" d = d := ⟨rfl, rfl⟩

theorem splitComma_no_comma (cs : List Char) : ∀ p ∈ splitComma cs, ',' ∉ p := by
  induction cs with
  | nil => intro p hp; rw [List.mem_singleton.1 hp]; simp
  | cons c cs ih =>
    intro p hp
    unfold splitComma at hp
    split_ifs at hp with h
    · rcases List.mem_cons.1 hp with h' | h'
      · rw [h']; simp
      · exact ih p h'
    · cases hs : splitComma cs with
      | nil =>
        rw [hs] at hp
        rw [List.mem_singleton.1 hp]
        simp only [List.mem_singleton]
        exact fun h' => h h'.symm
      | cons q qs =>
        rw [hs] at hp
        rcases List.mem_cons.1 hp with h' | h'
        · rw [h']
          simp only [List.mem_cons, not_or]
          exact ⟨fun h' => h h'.symm, ih q (by rw [hs]; exact List.mem_cons_self)⟩
        · exact ih p (by rw [hs]; exact List.mem_cons_of_mem _ h')

/-- **A space after the comma takes the second target out of the simulation**: with targets "arm, gripper" the gripper that is marked
`sim = true` runs its real driver. -/
theorem target_space (factory : String → Table → Option Bool) (h : ∀ u p, factory u p = some true) :
    load ⟨some "1", some "arm, gripper", factory⟩ [("hardware", .tbl [("gripper", .tbl [("use", .str "Gripper"), ("sim", .bool true)])])]
      = some [("gripper", .made "Gripper" [])] ∧
    load ⟨some "1", some "arm,gripper", factory⟩ [("hardware", .tbl [("gripper", .tbl [("use", .str "Gripper"), ("sim", .bool true)])])]
      = some [("gripper", .stub "gripper")] := by
  refine ⟨?_, by simp [load, loadAll, hwTable, get, List.lookup, Toml.asTbl, Toml.asBool, stubbed, simMode, targets, splitComma]⟩
  have : make ⟨some "1", some "arm, gripper", factory⟩ "Gripper" [("use", .str "Gripper"), ("sim", .bool true)] = some (.made "Gripper" []) := by
    unfold make
    rw [show stripExec "Gripper" = none from rfl]
    dsimp only
    rw [if_pos (h _ _)]
    rfl
  unfold load
  show loadAll _ [("gripper", .tbl [("use", .str "Gripper"), ("sim", .bool true)])] = _
  unfold loadAll
  dsimp only [Toml.asTbl]
  rw [if_neg (by simp [get, List.lookup, Toml.asBool, stubbed, simMode, targets, splitComma])]
  rw [show useName [("use", Toml.str "Gripper"), ("sim", Toml.bool true)] = some "Gripper" from rfl]
  dsimp only
  rw [this]
  rfl

/-- **`sim = "true"` is not `sim = true`**: written as text the mark is ignored, whatever the mode. -/
theorem sim_text_ignored (e : Env) (name s : String) (t : Table) : stubbed e name (("sim", .str s) :: t) = false := by
  unfold stubbed
  have : ((get (("sim", .str s) :: t) "sim").bind Toml.asBool).getD false = false := rfl
  rw [this]
  simp

/-- **Python runs the real driver under `--sim`**: the entries it loads do not depend on the simulation mode and name the driver of a
simulated entry as of any other. -/
theorem python_ignores_sim (file : Table) (name u : String) (t : Table) (h : (name, Toml.tbl t) ∈ hwTable file) (hu : useName t = some u) :
    (name, u, params t) ∈ entries file := by
  unfold entries
  rw [List.mem_filterMap]
  exact ⟨_, h, by show (some t).bind _ = _; rw [Option.bind_some, hu]; rfl⟩

/-- **A misspelt entry vanishes**: without a key that names a driver (say `uses = …`) the entry is skipped, and loading succeeds. -/
theorem misspelt_skipped (e : Env) (name v : String) (file : Table) (h : hwTable file = [(name, .tbl [("uses", .str v)])]) : load e file = some [] := by
  have hs : stubbed e name [("uses", .str v)] = false := by
    unfold stubbed
    rw [show ((get [("uses", Toml.str v)] "sim").bind Toml.asBool).getD false = false from rfl]
    simp
  unfold load
  rw [h]
  unfold loadAll
  dsimp only [Toml.asTbl]
  rw [hs, if_neg (by simp)]
  rfl

/-- **An argument that is a number is dropped**: `args = ["--port", 8080]` starts the program with `--port` alone. -/
theorem number_arg_dropped : execArgs [("args", .arr [.str "--port", .int 8080])] = ["--port"] := rfl

/-- When all arguments are texts none is dropped. -/
theorem args_exact (t : Table) (as : List String) (h : get t "args" = some (.arr (as.map .str))) : execArgs t = as := by
  unfold execArgs
  rw [h]
  show (as.map Toml.str).filterMap Toml.asStr = as
  rw [List.filterMap_map]
  have : (Toml.asStr ∘ Toml.str) = some := rfl
  rw [this, List.filterMap_some]

/-- exec_driver.rs:100-104: an external program's node is named after the file, without its last extension. -/
def stem (path : List Char) : List Char :=
  let file := ((path.reverse.takeWhile (· ≠ '/')).reverse)
  if '.' ∈ file.drop 1 then (file.reverse.dropWhile (· ≠ '.')).tail.reverse else file

/-- **Two entries that run one program get one name**, and the file's extension does not tell them apart either. -/
theorem exec_names_collide : stem "./bin/cam.py".toList = "cam".toList ∧ stem "./bin/cam.sh".toList = "cam".toList := by decide

example : (load ⟨some "1", none, fun _ _ => some true⟩ [("hardware", .tbl [("arm", .tbl [("use", .str "Arm"), ("port", .str "/dev/ttyUSB0")]), ("cam", .tbl [("use", .str "exec:./cam"), ("sim", .bool true)])])])
    = some [("arm", .made "Arm" [("port", .str "/dev/ttyUSB0")]), ("cam", .stub "cam")] := by
  simp [load, loadAll, hwTable, get, List.lookup, Toml.asTbl, Toml.asStr, Toml.asBool, stubbed, simMode, targets, useName, make, stripExec, params, reserved]

example : getReq u8 [("id", .int 7)] "id" = some 7 := (get_u8_exact _ _ _).2 ⟨rfl, by decide, by decide⟩

/-- **The older `[drivers]` section is read exactly when there is no `[hardware]`.** -/
theorem legacy_section (file : Table) (t : Table) :
    (get file "hardware" = some (.tbl t) → hwTable file = t) ∧
    (get file "hardware" = none → get file "drivers" = some (.tbl t) → hwTable file = t) := by
  refine ⟨fun h => ?_, fun h h' => ?_⟩
  · unfold hwTable; rw [h]; rfl
  · unfold hwTable; rw [h, h']; rfl

example : hwTable [("drivers", .tbl [("arm", .tbl [("use", .str "dxl")])])] = [("arm", .tbl [("use", .str "dxl")])] :=
  (legacy_section _ _).2 rfl rfl

end Horus.Hardware
