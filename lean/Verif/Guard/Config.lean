import Verif.Util.Device

/-!
# The `[network]` section of a project and the configuration of its processes

`horus run` translates the section into environment variables of the processes it starts
(`horus_manager/src/commands/run/mod.rs:79-142`); the network runtime of each process reads its
configuration from them (`horus_net/src/config.rs`) and builds the guard, the heartbeat and the
optimizers from it (`horus_net/src/replicator.rs:113-142`).

Not modelled: variables that are not valid UTF-8 (read as unset), non-ASCII white space and case,
and the TOML parser, which produces the section.
-/

namespace Horus.NetConf

open Horus.Device (digits_all digits_fold)

/-- Text. -/
abbrev Text := List Char

/-- ASCII white space, as `str::trim` removes (library; the other Unicode blanks are left out). -/
def white (c : Char) : Bool := decide (c = ' ' ∨ c = '\t' ∨ c = '\n' ∨ c = '\r' ∨ c = '\x0b' ∨ c = '\x0c')

/-- `str::trim` (library). -/
def trim (s : Text) : Text := ((s.dropWhile white).reverse.dropWhile white).reverse

/-- `str::to_lowercase` on ASCII (library). -/
def lower (s : Text) : Text := s.map Char.toLower

/-- The value of `import` in the section (manifest.rs:285-286, a `toml::Value`): a string, an array
whose items are strings (`some`) or something else (`none`), or any other value. -/
inductive ImportVal
  | str (t : Text)
  | arr (items : List (Option Text))
  | other
deriving DecidableEq

/-- `NetworkConfig` with its `NetworkSafetyConfig` (manifest.rs:274-312). -/
structure Sect where
  enabled : Option Bool := none
  imports : Option ImportVal := none
  denyExport : Option (List Text) := none
  secret : Option Text := none
  optimize : Option (List Text) := none
  heartbeat : Option Nat := none
  missed : Option Nat := none
  onLost : Option Text := none
deriving DecidableEq

/-- The variables concerned (config.rs:88, 150-170, 199-224; `HORUS_NO_NETWORK`, `HORUS_NET_*`). -/
inductive Key
  | noNetwork | secret | denyExport | optimizers | imports | heartbeat | missed | onLost | peer
deriving DecidableEq

/-- An environment. -/
abbrev Env := Key → Option Text

/-- `join(",")` (library). -/
def join (l : List Text) : Text := List.intercalate [','] l

/-- The value rendered for `import` (run/mod.rs:114-127). -/
def renderImport : ImportVal → Option Text
  | .str t => some t
  | .arr items => let ps := items.filterMap id; if ps = [] then none else some (join ps)
  | .other => none

/-- A list that is passed on only when it is not empty (run/mod.rs:103-112). -/
def renderList : Option (List Text) → Option Text
  | none => none
  | some l => if l = [] then none else some (join l)

/-- What the section asks to set for each variable (run/mod.rs:97-141). -/
def wanted (n : Sect) : Key → Option Text
  | .noNetwork => if n.enabled = some false then some ['1'] else none
  | .secret => n.secret
  | .denyExport => renderList n.denyExport
  | .optimizers => renderList n.optimize
  | .imports => n.imports.bind renderImport
  | .heartbeat => n.heartbeat.map (Nat.toDigits 10)
  | .missed => n.missed.map (Nat.toDigits 10)
  | .onLost => n.onLost
  | .peer => none

/-- `apply_network_config` (run/mod.rs:79-142): `file` is the section of a manifest that exists and
loads. A variable the operator has set is left alone (run/mod.rs:91-95). -/
def apply (op : Env) (file : Option Sect) : Env := fun k =>
  match file with
  | none => op k
  | some n => match op k with
    | some v => some v
    | none => wanted n k

/-- How `horus run` is called (run/mod.rs:144-258): several files, or one target (a file, a
directory, a manifest, a workspace member). -/
inductive How
  | several | one
deriving DecidableEq

/-- The environment of the started process. Only `execute_multiple_files` applies the section
(run/mod.rs:618); the other targets start the program with the operator's environment
(run/mod.rs:306, run_rust.rs:496, 814, 915, run_python.rs:40, 69, run_cpp.rs:230). -/
def childEnv (how : How) (op : Env) (file : Option Sect) : Env :=
  match how with
  | .several => apply op file
  | .one => op

/-- `ImportConfig` (config.rs:66-75). -/
inductive Import
  | deny | auto
  | allow (l : List Text)
deriving DecidableEq

/-- `csv_env` and the list of `ImportConfig::parse` (config.rs:106-110, 229-239). -/
def csv (s : Text) : List Text := ((s.splitOn ',').map trim).filter fun p => p ≠ []

/-- `ImportConfig::parse` (config.rs:95-119). -/
def parseImport (raw : Text) : Import :=
  let t := trim raw
  if t = [] then .auto
  else if lower t = ['a', 'u', 't', 'o'] then .auto
  else if lower t = ['d', 'e', 'n', 'y'] ∨ lower t = ['n', 'o', 'n', 'e'] ∨ lower t = ['o', 'f', 'f'] ∨
      lower t = ['f', 'a', 'l', 's', 'e'] then .deny
  else if csv t = [] then .deny else .allow (csv t)

/-- The text after an optional plus sign (library, part of `parse`). -/
def unsigned (s : Text) : Text := if s.head? = some '+' then s.tail else s

/-- `str::parse::<u64>` and `<u32>` (library): an optional plus sign, digits, in range. -/
def parseUInt (bits : Nat) (s : Text) : Option Nat :=
  if unsigned s ≠ [] ∧ (unsigned s).all Char.isDigit = true then
    if (unsigned s).foldl (fun n c => n * 10 + (c.toNat - 48)) 0 < 2 ^ bits then some ((unsigned s).foldl (fun n c => n * 10 + (c.toNat - 48)) 0) else none
  else none

/-- `LinkLostAction` (heartbeat.rs:17-25). -/
inductive Lost
  | warn | safeState | stop
deriving DecidableEq

/-- `"safe_state"` (heartbeat.rs:31). -/
def kwSafe : Text := ['s', 'a', 'f', 'e', '_', 's', 't', 'a', 't', 'e']
/-- `"safestate"` (heartbeat.rs:31). -/
def kwSafe2 : Text := ['s', 'a', 'f', 'e', 's', 't', 'a', 't', 'e']
/-- `"stop"` (heartbeat.rs:32). -/
def kwStop : Text := ['s', 't', 'o', 'p']

/-- `LinkLostAction::from_str` (heartbeat.rs:29-35). -/
def lostOf (s : Text) : Lost :=
  if lower s = kwSafe ∨ lower s = kwSafe2 then .safeState else if lower s = kwStop then .stop else .warn

/-- `on_link_lost` (config.rs:164-168): trimmed, lower case, `warn` when empty; then
`LinkLostAction::from_str` (replicator.rs:128). -/
def lostEnv : Option Text → Lost
  | none => lostOf ['w', 'a', 'r', 'n']
  | some v => if lower (trim v) = [] then lostOf ['w', 'a', 'r', 'n'] else lostOf (lower (trim v))

/-- The optimizers of the chain (optimize/mod.rs:52-66). -/
inductive Opt
  | fusion | delta | spatial | predict
deriving DecidableEq

/-- The name of an optimizer (optimize/mod.rs:56-59). -/
def optOf (s : Text) : Option Opt :=
  if s = ['f', 'u', 's', 'i', 'o', 'n'] then some .fusion
  else if s = ['d', 'e', 'l', 't', 'a'] then some .delta
  else if s = ['s', 'p', 'a', 't', 'i', 'a', 'l'] then some .spatial
  else if s = ['p', 'r', 'e', 'd', 'i', 'c', 't'] then some .predict
  else none

/-- What a process runs with: `NetConfig` (config.rs:8-37, 197-227) with its parts as the replicator
uses them (replicator.rs:113-142). -/
structure Config where
  enabled : Bool
  secret : Option Text
  imports : Import
  /-- `None`: every topic is exported (`ExportMode::All`). -/
  denied : Option (List Text)
  opts : List Opt
  heartbeat : Nat
  missed : Nat
  lost : Lost
  peers : List Text
deriving DecidableEq

/-- `HORUS_NO_NETWORK` (config.rs:199-201). -/
def disabled : Option Text → Bool
  | none => false
  | some v => decide (v = ['1'] ∨ lower v = ['t', 'r', 'u', 'e'])

/-- A numeric setting: the variable when it parses, else the default (config.rs:150-158). -/
def number (bits dflt : Nat) (v : Option Text) : Nat := (v.bind (parseUInt bits)).getD dflt

/-- The list of a variable (config.rs:229-239). -/
def listEnv (v : Option Text) : List Text := (v.map csv).getD []

/-- `NetConfig::default` and `Replicator::new` (config.rs:143-227, replicator.rs:113-142); `wsl` is
`is_wsl2()`. -/
def load (wsl : Bool) (e : Env) : Config :=
  { enabled := !disabled (e .noNetwork), secret := e .secret, imports := (e .imports).elim .auto parseImport, denied := (if listEnv (e .denyExport) = [] then none else some (listEnv (e .denyExport))), opts := (listEnv (e .optimizers)).filterMap optOf, heartbeat := number 64 (if wsl then 200 else 50) (e .heartbeat), missed := number 32 (if wsl then 5 else 3) (e .missed), lost := lostEnv (e .onLost), peers := listEnv (e .peer) }

/-- `discovery_mode` (config.rs:250-263): `some` the addresses contacted, `none` for multicast;
`resolve` is `resolve_peer_addr`. -/
def discovery {α : Type} (resolve : Text → Option α) (c : Config) : Option (List α) :=
  if c.peers = [] then none else some (c.peers.filterMap resolve)

/-! ### Specification -/

/-- A pattern that survives a comma-separated list: not empty, no comma, no blanks around it. -/
def Plain (p : Text) : Prop := p ≠ [] ∧ ',' ∉ p ∧ (∀ c, p.head? = some c → white c = false) ∧ (∀ c, p.getLast? = some c → white c = false)

/-- The words with a meaning of their own as a whole `import` setting. -/
def words : List Text := [['a', 'u', 't', 'o'], ['d', 'e', 'n', 'y'], ['n', 'o', 'n', 'e'], ['o', 'f', 'f'], ['f', 'a', 'l', 's', 'e']]

/-- The import setting as documented: `auto`, `deny` or a non-empty list of patterns that is not a
single such word. -/
inductive Documented : ImportVal → Import → Prop
  | auto : Documented (.str ['a', 'u', 't', 'o']) .auto
  | deny : Documented (.str ['d', 'e', 'n', 'y']) .deny
  | list (l : List Text) : l ≠ [] → (∀ p ∈ l, Plain p) → (∀ p, l = [p] → lower p ∉ words) → Documented (.arr (l.map some)) (.allow l)

/-! ### Proofs -/

theorem dropWhile_id (p : Char → Bool) (s : Text) (h : ∀ c, s.head? = some c → p c = false) : s.dropWhile p = s := by
  cases s with
  | nil => rfl
  | cons a s => rw [List.dropWhile_cons, if_neg (by rw [h a rfl]; decide)]

theorem trim_plain (s : Text) (h1 : ∀ c, s.head? = some c → white c = false) (h2 : ∀ c, s.getLast? = some c → white c = false) : trim s = s := by
  unfold trim
  rw [dropWhile_id _ _ h1, dropWhile_id _ s.reverse, List.reverse_reverse]
  intro c hc
  rw [List.head?_reverse] at hc
  exact h2 c hc

theorem join_head (p : Text) (l : List Text) (hp : p ≠ []) : (join (p :: l)).head? = p.head? := by
  cases l with
  | nil => simp [join]
  | cons q l =>
    cases p with
    | nil => exact absurd rfl hp
    | cons a p => simp [join, List.intercalate]

theorem join_cons (p q : Text) (l : List Text) : join (p :: q :: l) = p ++ ',' :: join (q :: l) := by
  simp [join, List.intercalate]

theorem join_ne (p : Text) (l : List Text) (hp : p ≠ []) : join (p :: l) ≠ [] := by
  intro h
  have := join_head p l hp
  rw [h] at this
  cases p with
  | nil => exact hp rfl
  | cons a p => simp at this

theorem join_last (l : List Text) (hl : l ≠ []) (hp : ∀ p ∈ l, p ≠ []) : (join l).getLast? = (l.getLast hl).getLast? := by
  induction l with
  | nil => exact absurd rfl hl
  | cons p l ih =>
    cases l with
    | nil => simp [join]
    | cons q l =>
      rw [join_cons, List.getLast_cons (List.cons_ne_nil q l), ← ih (List.cons_ne_nil q l) fun x hx => hp x (List.mem_cons_of_mem _ hx)]
      rw [List.getLast?_append, List.getLast?_cons]
      have hne : join (q :: l) ≠ [] := join_ne q l (hp q (by simp))
      rw [List.getLast?_eq_some_getLast hne]
      simp

theorem trim_join (l : List Text) (hl : l ≠ []) (hp : ∀ p ∈ l, Plain p) : trim (join l) = join l := by
  apply trim_plain
  · cases l with
    | nil => exact absurd rfl hl
    | cons p l =>
      rw [join_head p l (hp p (by simp)).1]
      exact (hp p (by simp)).2.2.1
  · rw [join_last l hl fun p h => (hp p h).1]
    exact (hp _ (List.getLast_mem hl)).2.2.2

theorem split_join (l : List Text) (hl : l ≠ []) (hp : ∀ p ∈ l, Plain p) : (join l).splitOn ',' = l :=
  List.splitOn_intercalate ',' (fun p h => (hp p h).2.1) hl

theorem csv_join (l : List Text) (hl : l ≠ []) (hp : ∀ p ∈ l, Plain p) : csv (join l) = l := by
  unfold csv
  rw [split_join l hl hp]
  have hm : l.map trim = l := by
    conv => rhs; rw [← List.map_id l]
    exact List.map_congr_left fun p h => trim_plain p (hp p h).2.2.1 (hp p h).2.2.2
  rw [hm, List.filter_eq_self]
  intro p h
  simpa using (hp p h).1

theorem comma_mem (p q : Text) (l : List Text) : ',' ∈ join (p :: q :: l) := by rw [join_cons]; simp

theorem lower_comma (s : Text) (h : ',' ∈ s) : ',' ∈ lower s := List.mem_map.2 ⟨',', h, by decide⟩

theorem parse_list (l : List Text) (hl : l ≠ []) (hp : ∀ p ∈ l, Plain p) (hw : ∀ p, l = [p] → lower p ∉ words) : parseImport (join l) = .allow l := by
  have hne : join l ≠ [] := by
    cases l with
    | nil => exact absurd rfl hl
    | cons p l => exact join_ne p l (hp p (by simp)).1
  have hnw : lower (join l) ∉ words := by
    cases l with
    | nil => exact absurd rfl hl
    | cons p l =>
      cases l with
      | nil => simpa [join] using hw p rfl
      | cons q l =>
        have hc := lower_comma _ (comma_mem p q l)
        intro hm
        simp only [words, List.mem_cons, List.not_mem_nil, or_false] at hm
        rcases hm with h | h | h | h | h <;> · rw [h] at hc; revert hc; decide
  simp only [words, List.mem_cons, List.not_mem_nil, or_false, not_or] at hnw
  unfold parseImport
  dsimp only
  rw [trim_join l hl hp, if_neg hne, if_neg hnw.1, if_neg (by simp only [not_or]; exact hnw.2), csv_join l hl hp, if_neg hl]

theorem parse_digits (bits n : Nat) (h : n < 2 ^ bits) : parseUInt bits (Nat.toDigits 10 n) = some n := by
  have hd : unsigned (Nat.toDigits 10 n) = Nat.toDigits 10 n := by
    unfold unsigned
    rw [if_neg]
    intro hx
    have hc := List.all_eq_true.1 (digits_all n) '+' (List.mem_of_mem_head? hx)
    exact absurd hc (by decide)
  unfold parseUInt
  rw [hd, if_pos ⟨by simp, digits_all n⟩, digits_fold, if_pos h]

/-! ### C264 -/

/-- **The operator's environment wins.** Whatever the project file says and however the program is
run, a variable the operator has set reaches the process unchanged. -/
theorem operator_wins (how : How) (op : Env) (file : Option Sect) (k : Key) (v : Text) (h : op k = some v) : childEnv how op file k = some v := by
  cases how <;> cases file <;> simp [childEnv, apply, h]

/-- **A project without the section changes nothing**: the process sees exactly the operator's
environment; and a setting absent from the section leaves its variable as the operator left it. -/
theorem absent_changes_nothing (op : Env) :
    apply op none = op ∧ apply op (some {}) = op ∧
    ∀ (n : Sect), (n.imports = none → apply op (some n) .imports = op .imports) ∧ (n.denyExport = none → apply op (some n) .denyExport = op .denyExport) ∧ (n.secret = none → apply op (some n) .secret = op .secret) ∧ (n.optimize = none → apply op (some n) .optimizers = op .optimizers) ∧ (n.enabled = none → apply op (some n) .noNetwork = op .noNetwork) ∧ (n.onLost = none → apply op (some n) .onLost = op .onLost) ∧ apply op (some n) .peer = op .peer := by
  refine ⟨rfl, ?_, ?_⟩
  · funext k
    simp only [apply]
    cases h : op k with
    | some v => rfl
    | none => cases k <;> rfl
  · intro n
    refine ⟨?_, ?_, ?_, ?_, ?_, ?_, ?_⟩
    · intro h; simp only [apply, wanted, h]; cases op .imports <;> rfl
    · intro h; simp only [apply, wanted, h, renderList]; cases op .denyExport <;> rfl
    · intro h; simp only [apply, wanted, h]; cases op .secret <;> rfl
    · intro h; simp only [apply, wanted, h, renderList]; cases op .optimizers <;> rfl
    · intro h; simp only [apply, wanted, h]; cases op .noNetwork <;> simp
    · intro h; simp only [apply, wanted, h]; cases op .onLost <;> rfl
    · simp only [apply, wanted]; cases op .peer <;> rfl

/-- **The section takes effect**, in a run of several files: each setting the operator has not set,
written as documented, is the one each process runs with. -/
theorem applied_partial (wsl : Bool) (op : Env) (n : Sect) :
    (op .noNetwork = none → ((load wsl (childEnv .several op (some n))).enabled = false ↔ n.enabled = some false)) ∧
    (op .imports = none → ∀ v m, n.imports = some v → Documented v m → (load wsl (childEnv .several op (some n))).imports = m) ∧
    (op .denyExport = none → ∀ l, n.denyExport = some l → l ≠ [] → (∀ p ∈ l, Plain p) → (load wsl (childEnv .several op (some n))).denied = some l) ∧
    (op .optimizers = none → ∀ l, n.optimize = some l → (∀ p ∈ l, Plain p) → (load wsl (childEnv .several op (some n))).opts = l.filterMap optOf) ∧
    (op .secret = none → (load wsl (childEnv .several op (some n))).secret = n.secret) ∧
    (op .heartbeat = none → ∀ ms, n.heartbeat = some ms → ms < 2 ^ 64 → (load wsl (childEnv .several op (some n))).heartbeat = ms) ∧
    (op .missed = none → ∀ k, n.missed = some k → k < 2 ^ 32 → (load wsl (childEnv .several op (some n))).missed = k) ∧
    (op .onLost = none → ∀ t, n.onLost = some t → (load wsl (childEnv .several op (some n))).lost =
      if lower (trim t) = kwSafe ∨ lower (trim t) = kwSafe2 then .safeState else if lower (trim t) = kwStop then .stop else .warn) := by
  have hll : ∀ s : Text, lower (lower s) = lower s := by
    intro s
    unfold lower
    rw [List.map_map]
    refine List.map_congr_left fun c _ => ?_
    show c.toLower.toLower = c.toLower
    by_cases hu : 'A' ≤ c ∧ c ≤ 'Z'
    · have : ∀ m : Nat, m < 26 → (Char.ofNat (m + 65)).toLower.toLower = (Char.ofNat (m + 65)).toLower := by decide
      have h1 : 65 ≤ c.toNat := hu.1
      have h2 : c.toNat ≤ 90 := hu.2
      have h3 := this (c.toNat - 65) (by omega)
      rw [show c.toNat - 65 + 65 = c.toNat by omega, Char.ofNat_toNat] at h3
      exact h3
    · have : c.toLower = c := by
        unfold Char.toLower
        rw [dif_neg]
        intro hc
        exact hu ⟨hc.1, hc.2⟩
      rw [this, this]
  refine ⟨?_, ?_, ?_, ?_, ?_, ?_, ?_, ?_⟩
  · intro h
    simp only [load, childEnv, apply, h, wanted]
    by_cases he : n.enabled = some false
    · simp [he, disabled]
    · simp [he, disabled]
  · intro h v m hv hd
    simp only [load, childEnv, apply, h, wanted, hv]
    cases hd with
    | auto => decide
    | deny => decide
    | list l hl hp hw =>
      have : (l.map some).filterMap id = l := by simp [List.filterMap_map]
      simp only [Option.bind_some, renderImport, this, if_neg hl, Option.elim_some]
      exact parse_list l hl hp hw
  · intro h l hl hne hp
    simp only [load, childEnv, apply, h, wanted, hl, renderList, if_neg hne, listEnv, Option.map_some, Option.getD_some, csv_join l hne hp]
  · intro h l hl hp
    by_cases hne : l = []
    · subst hne
      simp [load, childEnv, apply, h, wanted, hl, renderList, listEnv]
    · simp only [load, childEnv, apply, h, wanted, hl, renderList, if_neg hne, listEnv, Option.map_some, Option.getD_some, csv_join l hne hp]
  · intro h
    simp only [load, childEnv, apply, h, wanted]
  · intro h ms hm hlt
    simp only [load, childEnv, apply, h, wanted, hm, Option.map_some, number, Option.bind_some, parse_digits 64 ms hlt, Option.getD_some]
  · intro h k hk hlt
    simp only [load, childEnv, apply, h, wanted, hk, Option.map_some, number, Option.bind_some, parse_digits 32 k hlt, Option.getD_some]
  · intro h t ht
    simp only [load, childEnv, apply, h, wanted, ht, lostEnv]
    by_cases hb : lower (trim t) = []
    · rw [if_pos hb, hb]; decide
    · rw [if_neg hb]; unfold lostOf; rw [hll]

/-- **When imports are unrestricted.** In a run of several files where the operator left the variable
unset, topics are imported automatically exactly when the section has no import setting, or it is
neither a string nor a list, or a list without strings, or its text is blank or `auto`. -/
theorem auto_iff (wsl : Bool) (op : Env) (n : Sect) (h : op .imports = none) :
    (load wsl (childEnv .several op (some n))).imports = .auto ↔
      n.imports = none ∨ n.imports = some .other ∨ (∃ items, n.imports = some (.arr items) ∧ ∀ i ∈ items, i = none) ∨
      (∃ t, n.imports = some (.str t) ∧ (trim t = [] ∨ lower (trim t) = ['a', 'u', 't', 'o'])) ∨
      (∃ items, n.imports = some (.arr items) ∧ (trim (join (items.filterMap id)) = [] ∨ lower (trim (join (items.filterMap id))) = ['a', 'u', 't', 'o'])) := by
  have key : ∀ t, parseImport t = .auto ↔ trim t = [] ∨ lower (trim t) = ['a', 'u', 't', 'o'] := by
    intro t
    unfold parseImport
    dsimp only
    by_cases h1 : trim t = []
    · simp [h1]
    · by_cases h2 : lower (trim t) = ['a', 'u', 't', 'o']
      · simp [h1, h2]
      · rw [if_neg h1, if_neg h2]
        constructor
        · intro hh; split at hh
          · cases hh
          · split at hh <;> cases hh
        · rintro (hh | hh)
          · exact absurd hh h1
          · exact absurd hh h2
  have hload : (load wsl (childEnv .several op (some n))).imports = ((n.imports.bind renderImport).elim .auto parseImport) := by
    simp only [load, childEnv, apply, h, wanted]
  rw [hload]
  cases hn : n.imports with
  | none => simp
  | some v =>
    cases v with
    | other => simp [renderImport]
    | str t => simp [renderImport, key]
    | arr items =>
      have hnil : items.filterMap id = [] ↔ ∀ i ∈ items, i = none := by simp [List.filterMap_eq_nil_iff]
      by_cases hi : items.filterMap id = []
      · simp only [Option.bind_some, renderImport, hi, if_true, Option.elim_none, true_iff]
        exact Or.inr (Or.inr (Or.inl ⟨items, rfl, hnil.1 hi⟩))
      · simp only [Option.bind_some, renderImport, if_neg hi, Option.elim_some, key]
        constructor
        · intro hh; exact Or.inr (Or.inr (Or.inr (Or.inr ⟨items, rfl, hh⟩)))
        · rintro (hh | hh | ⟨it, hh, ha⟩ | ⟨t, hh, _⟩ | ⟨it, hh, ha⟩)
          · cases hh
          · cases hh
          · cases hh; exact absurd (hnil.2 ha) hi
          · cases hh
          · cases hh; exact ha

/-- **Networking is off exactly as documented**: the variable is `1` or `true` in any case. -/
theorem enabled_iff (wsl : Bool) (e : Env) : (load wsl e).enabled = false ↔ e .noNetwork = some ['1'] ∨ ∃ v, e .noNetwork = some v ∧ lower v = ['t', 'r', 'u', 'e'] := by
  simp only [load]
  cases h : e .noNetwork with
  | none => simp [disabled]
  | some v =>
    simp only [disabled, Bool.not_eq_false', decide_eq_true_eq, Option.some.injEq]
    constructor
    · rintro (hv | hv)
      · exact Or.inl hv
      · exact Or.inr ⟨v, rfl, hv⟩
    · rintro (hv | ⟨w, rfl, hv⟩)
      · exact Or.inl hv
      · exact Or.inr hv

/-- **Explicit peers are never widened**: with peers configured, only those that resolve are
contacted, in order, and multicast is not used even if none resolves. -/
theorem peers_only {α : Type} (resolve : Text → Option α) (wsl : Bool) (e : Env) :
    (discovery resolve (load wsl e) = none ↔ (load wsl e).peers = []) ∧
    ∀ l, discovery resolve (load wsl e) = some l → l = (load wsl e).peers.filterMap resolve ∧ (∀ a ∈ l, ∃ p ∈ (load wsl e).peers, resolve p = some a) := by
  unfold discovery
  by_cases h : (load wsl e).peers = []
  · rw [if_pos h]; simp [h]
  · rw [if_neg h]
    refine ⟨by simp [h], ?_⟩
    intro l hl
    have := (Option.some.inj hl).symm
    subst this
    exact ⟨rfl, fun a ha => List.mem_filterMap.1 ha⟩

/-- **Finding: one target ignores the section.** A program run as one file, directory, manifest or
workspace member gets none of it: the configuration is the same for every section. -/
theorem one_target_ignores (wsl : Bool) (op : Env) (n m : Option Sect) : load wsl (childEnv .one op n) = load wsl (childEnv .one op m) ∧ childEnv .one op n = op :=
  ⟨rfl, rfl⟩

/-- A section that turns networking off, denies imports and asks for the safe state. -/
def strict : Sect := { enabled := some false, imports := some (.str ['d', 'e', 'n', 'y']), onLost := some kwSafe, denyExport := some [['c', 'a', 'm', '.', '*']] }

/-- The same section, in the two kinds of run. -/
theorem one_target_witness :
    (load false (childEnv .one (fun _ => none) (some strict)) = load false (fun _ => none)) ∧
    (load false (childEnv .one (fun _ => none) (some strict))).enabled = true ∧
    (load false (childEnv .one (fun _ => none) (some strict))).lost = .warn ∧
    (load false (childEnv .several (fun _ => none) (some strict))).enabled = false ∧
    (load false (childEnv .several (fun _ => none) (some strict))).imports = .deny ∧
    (load false (childEnv .several (fun _ => none) (some strict))).lost = .safeState ∧
    (load false (childEnv .several (fun _ => none) (some strict))).denied = some [['c', 'a', 'm', '.', '*']] := by
  refine ⟨rfl, ?_, ?_, ?_, ?_, ?_, ?_⟩ <;> decide +kernel

/-- **Finding: an empty allow-list imports everything subscribed**, and so does `import = false`;
the one-element lists `["auto"]` and `["off"]` are read as modes. -/
theorem import_surprises :
    (load false (childEnv .several (fun _ => none) (some { imports := some (.arr []) }))).imports = .auto ∧
    (load false (childEnv .several (fun _ => none) (some { imports := some .other }))).imports = .auto ∧
    (load false (childEnv .several (fun _ => none) (some { imports := some (.arr [some ['a', 'u', 't', 'o']]) }))).imports = .auto ∧
    (load false (childEnv .several (fun _ => none) (some { imports := some (.arr [some ['o', 'f', 'f']]) }))).imports = .deny := by
  refine ⟨rfl, rfl, ?_, ?_⟩ <;> decide +kernel

/-- **Finding: a pattern with a comma becomes two**, for what is imported and for what is denied. -/
theorem comma_splits :
    (load false (childEnv .several (fun _ => none) (some { imports := some (.arr [some ['a', ',', '*']]), denyExport := some [['b', ',', 'c']] }))).imports = .allow [['a'], ['*']] ∧
    (load false (childEnv .several (fun _ => none) (some { imports := some (.arr [some ['a', ',', '*']]), denyExport := some [['b', ',', 'c']] }))).denied = some [['b'], ['c']] := by
  refine ⟨?_, ?_⟩ <;> decide +kernel

/-- **Finding: a misspelt action warns.** `on_link_lost = "safe-state"` is accepted and only warns. -/
theorem misspelt_warns : (load false (childEnv .several (fun _ => none) (some { onLost := some ['s', 'a', 'f', 'e', '-', 's', 't', 'a', 't', 'e'] }))).lost = .warn := by
  decide +kernel

/-- The hypotheses of `applied_partial` are met by a section with every setting. -/
example : Documented (.arr [some ['a', '.', '*'], some ['b']]) (.allow [['a', '.', '*'], ['b']]) ∧
    (load false (childEnv .several (fun _ => none) (some { imports := some (.arr [some ['a', '.', '*'], some ['b']]), heartbeat := some 120, optimize := some [['d', 'e', 'l', 't', 'a'], ['x']] }))) = { enabled := true, secret := none, imports := .allow [['a', '.', '*'], ['b']], denied := none, opts := [.delta], heartbeat := 120, missed := 3, lost := .warn, peers := [] } := by
  refine ⟨.list [['a', '.', '*'], ['b']] (by decide) ?_ (by intro p h; cases h), by decide +kernel⟩
  intro p hp
  simp only [List.mem_cons, List.not_mem_nil, or_false] at hp
  rcases hp with rfl | rfl <;> refine ⟨by decide, by decide, ?_, ?_⟩ <;> intro c hc <;> simp at hc <;> subst hc <;> decide

/-- The operator sets one variable, the section another. -/
example : childEnv .several (fun k => if k = .imports then some ['d', 'e', 'n', 'y'] else none) (some { imports := some (.str ['a', 'u', 't', 'o']), secret := some ['k'] }) .imports = some ['d', 'e', 'n', 'y'] ∧
    childEnv .several (fun k => if k = .imports then some ['d', 'e', 'n', 'y'] else none) (some { imports := some (.str ['a', 'u', 't', 'o']), secret := some ['k'] }) .secret = some ['k'] := by decide

/-- Two of three peers resolve. -/
example : discovery (fun p => if p = ['b'] then none else some p.length) (load false fun k => if k = .peer then some ['a', 'a', ',', 'b', ',', 'c'] else none) = some [2, 1] := by decide +kernel

end Horus.NetConf
