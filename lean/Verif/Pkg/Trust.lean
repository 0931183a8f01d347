/-
Which plugin binaries `horus <command>` will run.

Modelled source: horus_manager/src/plugins/executor.rs (33-41, 93-126, 135-165,
224-315, 329-405), horus_manager/src/plugins/resolver.rs (87-128),
horus_manager/src/plugins/registry.rs (284-340),
horus_manager/src/plugins/trust.rs (93-153) and
horus_manager/src/commands/pkg.rs (475-566, 617-749, 797-882).
-/
import Verif.Ring.Common
import Mathlib.Tactic.Common

namespace Horus.Pkg.Trust

open Horus.Ring (upd upd_same upd_ne)

/-! ### Model -/

/-- A file: its bytes (a number stands for the byte string) and whether it may
be executed. -/
structure File where
  content : Nat
  exec : Bool
  deriving DecidableEq

/-- A registered plugin: the path of its binary and the recorded checksum,
`none` for the empty string.

Models `PluginEntry` at horus_manager/src/plugins/registry.rs:60-96; the other
fields take no part in the decisions modelled here. -/
structure Entry where
  binary : Nat
  checksum : Option Nat
  deriving DecidableEq

/-- A `plugins.lock`.  Models `PluginRegistry` at
horus_manager/src/plugins/registry.rs:18-45. -/
structure Reg where
  plugins : Nat → Option Entry
  disabled : Nat → Option Entry
  inherit : Bool

/-- Everything the decision depends on.  Paths and commands are numbers.
`links` are symbolic links; `projBin c`, `globBin c` and the members of `path`
are the path of `horus-<c>` in the project's bin directory, in the global one
and in the directories of `PATH`.  `store` is the trust store, `none` when its
file does not parse. -/
structure World where
  files : Nat → Option File
  links : Nat → Option Nat
  global : Reg
  project : Option Reg
  root : Bool
  projBin : Nat → Nat
  globBin : Nat → Nat
  path : List (Nat → Nat)
  store : Option (Nat → Option Nat)

/-- The file a path leads to. -/
def look (w : World) (p : Nat) : Option File := match w.links p with
  | some q => w.files q
  | none => w.files p

/-- Where a binary came from.  Models `PluginOrigin` at
horus_manager/src/plugins/executor.rs:22-31. -/
inductive Origin where
  | trusted
  | project
  deriving DecidableEq

/-- What running a command comes to: it is not a plugin, it is refused with an
error, or the binary at this path is run. -/
inductive Outcome where
  | notPlugin
  | refused
  | ran (p : Nat)
  deriving DecidableEq

/-- Find the registered entry, project first.

Models `resolve_with_scope` at horus_manager/src/plugins/resolver.rs:87-105
composed with `PluginOrigin::from_scope` at executor.rs:35-40. -/
def resolve (w : World) (c : Nat) : Option (Entry × Origin) :=
  match w.project with
  | some r => match r.plugins c with
    | some e => some (e, .project)
    | none => if r.inherit then (w.global.plugins c).map (fun e => (e, .trusted)) else none
  | none => (w.global.plugins c).map (fun e => (e, .trusted))

/-- Whether the command is disabled in either registry.  Models `is_disabled`
at horus_manager/src/plugins/resolver.rs:118-128. -/
def isDisabled (w : World) (c : Nat) : Bool :=
  (match w.project with
    | some r => (r.disabled c).isSome
    | none => false) || (w.global.disabled c).isSome

/-- A path holds something executable.  Models `exists() && is_executable()`
at horus_manager/src/plugins/executor.rs:141. -/
def runnable (w : World) (p : Nat) : Bool := match look w p with
  | some f => f.exec
  | none => false

/-- Look for `horus-<command>` in the project's bin directory, the global one
and `PATH`.  Models `discover_plugin_binary` at
horus_manager/src/plugins/executor.rs:135-165. -/
def discover (w : World) (c : Nat) : Option (Nat × Origin) :=
  if w.root && runnable w (w.projBin c) then some (w.projBin c, .project)
  else if runnable w (w.globBin c) then some (w.globBin c, .trusted)
  else (w.path.find? (fun d => runnable w (d c))).map (fun d => (d c, .trusted))

/-- The trust store holds this checksum.  An unreadable store holds nothing.
Models `load_trust_store` at executor.rs:300-315 and `TrustStore::contains` at
trust.rs:125-127. -/
def inStore (w : World) (h : Nat) : Bool := match w.store with
  | some s => (s h).isSome
  | none => false

/-- The gate every execution passes.  `H` is the checksum of a byte string.
Models `ensure_execution_allowed` at
horus_manager/src/plugins/executor.rs:224-288. -/
def allowed (H : Nat → Nat) (w : World) (p : Nat) (e : Option Entry) (o : Origin) : Bool :=
  match o with
  | .trusted => match e with
    | none => true
    | some e => match look w p with
      | none => false
      | some f => decide (e.checksum = some (H f.content))
  | .project => match look w p with
    | none => false
    | some f => inStore w (H f.content)

/-- Pass the gate and start the process, which fails if the file is missing or
not executable.  Models `execute_binary` at
horus_manager/src/plugins/executor.rs:329-369 (the sandbox is not modelled). -/
def execute (H : Nat → Nat) (w : World) (p : Nat) (e : Option Entry) (o : Origin) : Outcome :=
  if allowed H w p e o && runnable w p then .ran p else .refused

/-- `horus <command>`.  Models `try_execute` at
horus_manager/src/plugins/executor.rs:93-126. -/
def tryExecute (H : Nat → Nat) (w : World) (c : Nat) : Outcome :=
  match resolve w c with
  | none => match discover w c with
    | some (p, o) => execute H w p none o
    | none => .notPlugin
  | some (e, o) => if isDisabled w c then .refused else execute H w e.binary (some e) o

/-- Start a plugin in the background, as `horus run --sim` does with the
simulator named in the project's manifest.  Models `spawn_background` at
horus_manager/src/plugins/executor.rs:378-458. -/
def spawn (H : Nat → Nat) (w : World) (c : Nat) : Outcome :=
  match resolve w c with
  | some (e, o) => execute H w e.binary (some e) o
  | none => match discover w c with
    | some (p, o) => execute H w p none o
    | none => .refused

/-- The binary `horus plugin trust` records.  Models `locate_plugin_binary` at
horus_manager/src/commands/pkg.rs:495-516. -/
def locate (w : World) (c : Nat) : Option Nat :=
  match resolve w c with
  | some (e, _) => some e.binary
  | none =>
    if w.root && runnable w (w.projBin c) then some (w.projBin c)
    else if runnable w (w.globBin c) then some (w.globBin c)
    else none

/-- The store that is loaded before a change: an unreadable one counts as
empty.  Models `TrustStore::load(..).unwrap_or_default()` at
horus_manager/src/commands/pkg.rs:526. -/
def storeOf (w : World) : Nat → Option Nat := w.store.getD (fun _ => none)

/-- Record a checksum under a command's name.  Models `TrustStore::trust` at
trust.rs:132-145 and the save after it. -/
def grant (h c : Nat) (w : World) : World := { w with store := some (upd (storeOf w) h (some c)) }

/-- `horus plugin trust <command>`.  Models `trust_plugin` at
horus_manager/src/commands/pkg.rs:520-540. -/
def trustCmd (H : Nat → Nat) (c : Nat) (w : World) : World :=
  match locate w c with
  | none => w
  | some p => match look w p with
    | none => w
    | some f => grant (H f.content) c w

/-- Whether any record carries this label decides whether the store is saved;
either way the result is the store without those records.  Models
`untrust_plugin` at horus_manager/src/commands/pkg.rs:544-565 with
`untrust_command` at trust.rs:149-153. -/
def untrustCmd (c : Nat) (w : World) : World :=
  match w.store with
  | none => w
  | some s => { w with store := some (fun h => match s h with
    | some l => if l = c then none else some l
    | none => none) }

/-- Add an entry to a registry and take it off the disabled list.  Models
`register_plugin` at horus_manager/src/plugins/registry.rs:284-292. -/
def register (r : Reg) (c : Nat) (e : Entry) : Reg := { r with disabled := upd r.disabled c none, plugins := upd r.plugins c (some e) }

/-- The registration step of `horus install` for a package whose plugin binary
is at `p`: record it with its checksum and link it into the global bin
directory.  Models the global branch of `register_plugin_after_install` at
horus_manager/src/commands/pkg.rs:617-749. -/
def installGlobal (H : Nat → Nat) (c p : Nat) (w : World) : World :=
  match look w p with
  | none => w
  | some f => { w with global := register w.global c ⟨p, some (H f.content)⟩, links := upd w.links (w.globBin c) (some p) }

/-- The same into the project: the checksum goes into the trust store.  Models
the local branch of `register_plugin_after_install` at
horus_manager/src/commands/pkg.rs:617-749. -/
def installLocal (H : Nat → Nat) (c p : Nat) (w : World) : World :=
  match look w p with
  | none => w
  | some f =>
    let r := w.project.getD ⟨fun _ => none, fun _ => none, true⟩
    grant (H f.content) c { w with project := some (register r c ⟨p, some (H f.content)⟩), links := upd w.links (w.projBin c) (some p) }

/-- Move an entry to the disabled list.  Models `disable_plugin` at
horus_manager/src/plugins/registry.rs:301-318. -/
def disableIn (r : Reg) (c : Nat) (e : Entry) : Reg := { r with plugins := upd r.plugins c none, disabled := upd r.disabled c (some e) }

/-- Move it back.  Models `enable_plugin` at
horus_manager/src/plugins/registry.rs:321-330. -/
def enableIn (r : Reg) (c : Nat) (e : Entry) : Reg := { r with disabled := upd r.disabled c none, plugins := upd r.plugins c (some e) }

/-- `horus plugin disable <command>`: in the project if it is there, else
globally.  Models `disable_plugin` at
horus_manager/src/commands/pkg.rs:846-882. -/
def disableCmd (c : Nat) (w : World) : World :=
  match w.project.bind (fun r => (r.plugins c).map (fun e => (r, e))) with
  | some (r, e) => { w with project := some (disableIn r c e) }
  | none => match w.global.plugins c with
    | some e => { w with global := disableIn w.global c e }
    | none => w

/-- `horus plugin enable <command>`.  Models `enable_plugin` at
horus_manager/src/commands/pkg.rs:797-843. -/
def enableCmd (c : Nat) (w : World) : World :=
  match w.project.bind (fun r => (r.disabled c).map (fun e => (r, e))) with
  | some (r, e) => { w with project := some (enableIn r c e) }
  | none => match w.global.disabled c with
    | some e => { w with global := enableIn w.global c e }
    | none => w

/-- What can happen on the machine.  The first six are commands of the user;
`checkout` is a repository being cloned or changed — it may put any registry
and any files anywhere outside the user's own configuration — and `edit` is
anyone changing any file. -/
inductive Act where
  | trust (c : Nat)
  | untrust (c : Nat)
  | installGlobal (c p : Nat)
  | installLocal (c p : Nat)
  | disable (c : Nat)
  | enable (c : Nat)
  | checkout (project : Option Reg) (files : Nat → Option File) (links : Nat → Option Nat)
  | edit (p : Nat) (f : Option File)

/-- The effect of an action. -/
def act (H : Nat → Nat) (w : World) : Act → World
  | .trust c => trustCmd H c w
  | .untrust c => untrustCmd c w
  | .installGlobal c p => installGlobal H c p w
  | .installLocal c p => installLocal H c p w
  | .disable c => disableCmd c w
  | .enable c => enableCmd c w
  | .checkout r f l => { w with project := r, files := f, links := l, root := true }
  | .edit p f => { w with files := upd w.files p f }

/-! ### Specification -/

/-- The checksum of the bytes the user has deliberately accepted by an action:
trusting a command accepts the bytes it then leads to, installing a package
accepts the bytes of its binary. -/
def accepted (H : Nat → Nat) (w : World) : Act → Option Nat
  | .trust c => ((locate w c).bind (look w)).map (fun f => H f.content)
  | .installGlobal _ p => (look w p).map (fun f => H f.content)
  | .installLocal _ p => (look w p).map (fun f => H f.content)
  | _ => none

/-- All checksums accepted over a history. -/
def acceptedBy (H : Nat → Nat) : List Act → World → List Nat
  | [], _ => []
  | a :: r, w => (accepted H w a).toList ++ acceptedBy H r (act H w a)

/-- A machine on which nothing has been trusted or installed yet. -/
structure Fresh (w : World) : Prop where
  store : ∀ h, inStore w h = false
  plugins : ∀ c, w.global.plugins c = none
  disabled : ∀ c, w.global.disabled c = none

/-! ### What may run -/

theorem execute_ran {H : Nat → Nat} {w : World} {p q : Nat} {e : Option Entry} {o : Origin} (h : execute H w p e o = .ran q) :
    q = p ∧ allowed H w p e o = true ∧ runnable w p = true := by
  unfold execute at h
  split at h
  · rename_i hc
    rw [Bool.and_eq_true] at hc
    cases h
    exact ⟨rfl, hc.1, hc.2⟩
  · cases h

theorem runnable_file {w : World} {p : Nat} (h : runnable w p = true) : ∃ f, look w p = some f ∧ f.exec = true := by
  unfold runnable at h
  cases hl : look w p with
  | none => rw [hl] at h; cases h
  | some f => rw [hl] at h; exact ⟨f, rfl, h⟩

theorem resolve_trusted {w : World} {c : Nat} {e : Entry} (h : resolve w c = some (e, .trusted)) : w.global.plugins c = some e := by
  unfold resolve at h
  split at h
  · split at h
    · cases h
    · split at h
      · obtain ⟨x, hx, hy⟩ := Option.map_eq_some_iff.1 h; cases hy; exact hx
      · cases h
  · obtain ⟨x, hx, hy⟩ := Option.map_eq_some_iff.1 h; cases hy; exact hx

theorem discover_trusted {w : World} {c p : Nat} (h : discover w c = some (p, .trusted)) : p = w.globBin c ∨ ∃ d ∈ w.path, p = d c := by
  unfold discover at h
  split at h
  · cases h
  · split at h
    · cases h; exact Or.inl rfl
    · obtain ⟨d, hd, he⟩ := Option.map_eq_some_iff.1 h
      cases he
      exact Or.inr ⟨d, List.mem_of_find?_eq_some hd, rfl⟩

/-- What it takes for a binary at `p` to be run as command `c`: its checksum
is in the trust store, or the global registry records exactly this checksum
for this path, or it sits in the global bin directory or on `PATH`. -/
def Justified (H : Nat → Nat) (w : World) (c p : Nat) : Prop :=
  ∃ f, look w p = some f ∧ f.exec = true ∧
    (inStore w (H f.content) = true ∨
      w.global.plugins c = some ⟨p, some (H f.content)⟩ ∨
      p = w.globBin c ∨ ∃ d ∈ w.path, p = d c)

theorem justified_entry {H : Nat → Nat} {w : World} {c p : Nat} {e : Entry} {o : Origin} (hr : resolve w c = some (e, o))
    (h : execute H w e.binary (some e) o = .ran p) : Justified H w c p := by
  obtain ⟨rfl, ha, hx⟩ := execute_ran h
  obtain ⟨f, hf, hfx⟩ := runnable_file hx
  refine ⟨f, hf, hfx, ?_⟩
  cases o with
  | trusted =>
    refine Or.inr (Or.inl ?_)
    unfold allowed at ha
    dsimp only at ha
    rw [hf] at ha
    have : e.checksum = some (H f.content) := of_decide_eq_true ha
    rw [resolve_trusted hr, ← this]
  | project =>
    unfold allowed at ha
    dsimp only at ha
    rw [hf] at ha
    exact Or.inl ha

theorem justified_found {H : Nat → Nat} {w : World} {c p q : Nat} {o : Origin} (hd : discover w c = some (q, o))
    (h : execute H w q none o = .ran p) : Justified H w c p := by
  obtain ⟨rfl, ha, hx⟩ := execute_ran h
  obtain ⟨f, hf, hfx⟩ := runnable_file hx
  refine ⟨f, hf, hfx, ?_⟩
  cases o with
  | trusted => exact Or.inr (Or.inr (discover_trusted hd))
  | project =>
    unfold allowed at ha
    dsimp only at ha
    rw [hf] at ha
    exact Or.inl ha

/-- Nothing runs that is not justified, in the foreground or the
background. -/
theorem runs_justified {H : Nat → Nat} {w : World} {c p : Nat} (h : tryExecute H w c = .ran p ∨ spawn H w c = .ran p) : Justified H w c p := by
  rcases h with h | h
  · unfold tryExecute at h
    cases hr : resolve w c with
    | none =>
      rw [hr] at h
      dsimp only at h
      cases hd : discover w c with
      | none => rw [hd] at h; cases h
      | some x => rw [hd] at h; exact justified_found (o := x.2) hd h
    | some x =>
      rw [hr] at h
      dsimp only at h
      split at h
      · cases h
      · exact justified_entry (o := x.2) hr h
  · unfold spawn at h
    cases hr : resolve w c with
    | none =>
      rw [hr] at h
      dsimp only at h
      cases hd : discover w c with
      | none => rw [hd] at h; cases h
      | some x => rw [hd] at h; exact justified_found (o := x.2) hd h
    | some x =>
      rw [hr] at h
      exact justified_entry (o := x.2) hr h

/-! ### Histories -/

/-- Everything the machine vouches for was accepted by the user. -/
structure Vouched (acc : List Nat) (w : World) : Prop where
  store : ∀ h, inStore w h = true → h ∈ acc
  plugins : ∀ c e, w.global.plugins c = some e → ∃ h ∈ acc, e.checksum = some h
  disabled : ∀ c e, w.global.disabled c = some e → ∃ h ∈ acc, e.checksum = some h

theorem vouched_mono {a b : List Nat} {w : World} (hs : ∀ x ∈ a, x ∈ b) (h : Vouched a w) : Vouched b w :=
  ⟨fun x hx => hs x (h.store x hx), fun c e he => (h.plugins c e he).imp fun x hx => ⟨hs x hx.1, hx.2⟩,
    fun c e he => (h.disabled c e he).imp fun x hx => ⟨hs x hx.1, hx.2⟩⟩

theorem inStore_grant {h c x : Nat} {w : World} (hx : inStore (grant h c w) x = true) : x = h ∨ inStore w x = true := by
  by_cases e : x = h
  · exact Or.inl e
  · right
    unfold inStore grant at hx
    dsimp only at hx
    rw [upd_ne _ _ e] at hx
    unfold inStore
    unfold storeOf at hx
    cases hs : w.store with
    | none => rw [hs] at hx; cases hx
    | some s => rw [hs] at hx; exact hx

theorem vouched_grant {acc : List Nat} {w : World} (h c : Nat) (hv : Vouched acc w) : Vouched (acc ++ [h]) (grant h c w) := by
  refine ⟨fun x hx => ?_, fun d e he => ?_, fun d e he => ?_⟩
  · rcases inStore_grant hx with e | hx
    · rw [e]; exact List.mem_append_right _ (List.mem_singleton_self _)
    · exact List.mem_append_left _ (hv.store x hx)
  · exact (hv.plugins d e he).imp fun x hx => ⟨List.mem_append_left _ hx.1, hx.2⟩
  · exact (hv.disabled d e he).imp fun x hx => ⟨List.mem_append_left _ hx.1, hx.2⟩

theorem vouched_act {H : Nat → Nat} {acc : List Nat} {w : World} (a : Act) (hv : Vouched acc w) :
    Vouched (acc ++ (accepted H w a).toList) (act H w a) := by
  have mono : Vouched (acc ++ (accepted H w a).toList) w := vouched_mono (fun x hx => List.mem_append_left _ hx) hv
  cases a with
  | trust c =>
    show Vouched _ (trustCmd H c w)
    unfold trustCmd
    cases hl : locate w c with
    | none => exact mono
    | some p =>
      dsimp only
      cases hf : look w p with
      | none => exact mono
      | some f =>
        have : (accepted H w (.trust c)).toList = [H f.content] := by simp [accepted, hl, hf]
        rw [this]
        exact vouched_grant _ c hv
  | untrust c =>
    show Vouched _ (untrustCmd c w)
    unfold untrustCmd
    cases hs : w.store with
    | none => exact mono
    | some s =>
      dsimp only
      refine ⟨fun x hx => mono.store x ?_, mono.plugins, mono.disabled⟩
      unfold inStore at hx ⊢
      dsimp only at hx
      rw [hs]
      cases hsx : s x with
      | none => rw [hsx] at hx; cases hx
      | some l => dsimp only; rw [hsx]; rfl
  | installGlobal c p =>
    show Vouched _ (installGlobal H c p w)
    unfold installGlobal
    cases hf : look w p with
    | none => exact mono
    | some f =>
      have hacc : (accepted H w (.installGlobal c p)).toList = [H f.content] := by simp [accepted, hf]
      refine ⟨mono.store, fun d e he => ?_, fun d e he => ?_⟩
      · by_cases hd : d = c
        · subst hd
          have he' : upd w.global.plugins d (some (⟨p, some (H f.content)⟩ : Entry)) d = some e := he
          rw [upd_same] at he'
          cases he'
          exact ⟨H f.content, by rw [hacc]; exact List.mem_append_right _ (List.mem_singleton_self _), rfl⟩
        · have he' : upd w.global.plugins c (some (⟨p, some (H f.content)⟩ : Entry)) d = some e := he
          rw [upd_ne _ _ hd] at he'
          exact mono.plugins d e he'
      · by_cases hd : d = c
        · subst hd
          have he' : upd w.global.disabled d none d = some e := he
          rw [upd_same] at he'
          cases he'
        · have he' : upd w.global.disabled c none d = some e := he
          rw [upd_ne _ _ hd] at he'
          exact mono.disabled d e he'
  | installLocal c p =>
    show Vouched _ (installLocal H c p w)
    unfold installLocal
    cases hf : look w p with
    | none => exact mono
    | some f =>
      have hacc : (accepted H w (.installLocal c p)).toList = [H f.content] := by simp [accepted, hf]
      rw [hacc]
      dsimp only
      refine vouched_grant _ c ?_
      exact ⟨hv.store, hv.plugins, hv.disabled⟩
  | disable c =>
    show Vouched _ (disableCmd c w)
    unfold disableCmd
    split
    · exact ⟨mono.store, mono.plugins, mono.disabled⟩
    · cases hg : w.global.plugins c with
      | none => exact mono
      | some e0 =>
        dsimp only
        refine ⟨mono.store, fun d e he => ?_, fun d e he => ?_⟩
        · have he' : upd w.global.plugins c none d = some e := he
          by_cases hd : d = c
          · subst hd; rw [upd_same] at he'; cases he'
          · rw [upd_ne _ _ hd] at he'; exact mono.plugins d e he'
        · have he' : upd w.global.disabled c (some e0) d = some e := he
          by_cases hd : d = c
          · subst hd; rw [upd_same] at he'; cases he'; exact mono.plugins d _ hg
          · rw [upd_ne _ _ hd] at he'; exact mono.disabled d e he'
  | enable c =>
    show Vouched _ (enableCmd c w)
    unfold enableCmd
    split
    · exact ⟨mono.store, mono.plugins, mono.disabled⟩
    · cases hg : w.global.disabled c with
      | none => exact mono
      | some e0 =>
        dsimp only
        refine ⟨mono.store, fun d e he => ?_, fun d e he => ?_⟩
        · have he' : upd w.global.plugins c (some e0) d = some e := he
          by_cases hd : d = c
          · subst hd; rw [upd_same] at he'; cases he'; exact mono.disabled d _ hg
          · rw [upd_ne _ _ hd] at he'; exact mono.plugins d e he'
        · have he' : upd w.global.disabled c none d = some e := he
          by_cases hd : d = c
          · subst hd; rw [upd_same] at he'; cases he'
          · rw [upd_ne _ _ hd] at he'; exact mono.disabled d e he'
  | checkout r f l => exact ⟨mono.store, mono.plugins, mono.disabled⟩
  | edit p f => exact ⟨mono.store, mono.plugins, mono.disabled⟩

theorem vouched_run {H : Nat → Nat} (as : List Act) : ∀ (w : World) (acc : List Nat), Vouched acc w →
    Vouched (acc ++ acceptedBy H as w) (as.foldl (act H) w) := by
  induction as with
  | nil => intro w acc h; show Vouched (acc ++ []) w; rw [List.append_nil]; exact h
  | cons a r ih =>
    intro w acc h
    have := ih (act H w a) _ (vouched_act (H := H) a h)
    show Vouched (acc ++ ((accepted H w a).toList ++ acceptedBy H r (act H w a))) _
    rw [← List.append_assoc]
    exact this

theorem bins_fixed {H : Nat → Nat} (w : World) (a : Act) : (act H w a).globBin = w.globBin ∧ (act H w a).path = w.path := by
  cases a <;> simp only [act, trustCmd, untrustCmd, installGlobal, installLocal, disableCmd, enableCmd, grant]
  all_goals repeat' split
  all_goals first | exact ⟨rfl, rfl⟩ | exact ⟨trivial, trivial⟩

theorem bins_fixed_run {H : Nat → Nat} (as : List Act) : ∀ w : World, (as.foldl (act H) w).globBin = w.globBin ∧ (as.foldl (act H) w).path = w.path := by
  induction as with
  | nil => intro w; exact ⟨rfl, rfl⟩
  | cons a r ih =>
    intro w
    obtain ⟨h1, h2⟩ := ih (act H w a)
    obtain ⟨h3, h4⟩ := bins_fixed (H := H) w a
    exact ⟨h1.trans h3, h2.trans h4⟩

/-- **Only accepted bytes run.**  Start from a machine with nothing installed
and let anything happen: repositories bring any registry and any files, files
change, the user trusts, installs, disables.  If `horus <c>` then runs a
binary — in the foreground or the background — the checksum of the bytes it
runs is that of bytes the user accepted before, or the binary is the one in
the global bin directory or on the user's `PATH`. -/
theorem only_accepted_runs {H : Nat → Nat} {w : World} (hw : Fresh w) (as : List Act) (c p : Nat)
    (h : tryExecute H (as.foldl (act H) w) c = .ran p ∨ spawn H (as.foldl (act H) w) c = .ran p) :
    (∃ f, look (as.foldl (act H) w) p = some f ∧ f.exec = true ∧ H f.content ∈ acceptedBy H as w) ∨
      p = w.globBin c ∨ ∃ d ∈ w.path, p = d c := by
  have hv0 : Vouched [] w := by
    refine ⟨?_, ?_, ?_⟩
    · intro x hx; rw [hw.store x] at hx; cases hx
    · intro c e he; rw [hw.plugins c] at he; cases he
    · intro c e he; rw [hw.disabled c] at he; cases he
  have hv := vouched_run (H := H) as w [] hv0
  rw [List.nil_append] at hv
  obtain ⟨h1, h2⟩ := bins_fixed_run (H := H) as w
  obtain ⟨f, hf, hx, hj⟩ := runs_justified h
  rcases hj with hj | hj | hj | hj
  · exact Or.inl ⟨f, hf, hx, hv.store _ hj⟩
  · obtain ⟨x, hxm, hxe⟩ := hv.plugins _ _ hj
    refine Or.inl ⟨f, hf, hx, ?_⟩
    rw [Option.some.inj hxe]
    exact hxm
  · rw [h1] at hj; exact Or.inr (Or.inl hj)
  · rw [h2] at hj; exact Or.inr (Or.inr hj)

/-- **Cloning is not enough.**  If the user has accepted nothing, no command
runs anything outside the global bin directory and `PATH`, whatever a
repository ships. -/
theorem cloning_runs_nothing {H : Nat → Nat} {w : World} (hw : Fresh w) (as : List Act) (hn : acceptedBy H as w = []) (c p : Nat)
    (h1 : p ≠ w.globBin c) (h2 : ∀ d ∈ w.path, p ≠ d c) :
    tryExecute H (as.foldl (act H) w) c ≠ .ran p ∧ spawn H (as.foldl (act H) w) c ≠ .ran p := by
  constructor <;> intro h
  · rcases only_accepted_runs hw as c p (Or.inl h) with ⟨f, _, _, hm⟩ | hm | ⟨d, hd, hm⟩
    · rw [hn] at hm; cases hm
    · exact h1 hm
    · exact h2 d hd hm
  · rcases only_accepted_runs hw as c p (Or.inr h) with ⟨f, _, _, hm⟩ | hm | ⟨d, hd, hm⟩
    · rw [hn] at hm; cases hm
    · exact h1 hm
    · exact h2 d hd hm

/-- **An unreadable store trusts nothing.**  Then no binary of the project
runs. -/
theorem unreadable_store_closed {H : Nat → Nat} {w : World} (hs : w.store = none) (p : Nat) (e : Option Entry) :
    execute H w p e .project = .refused := by
  unfold execute allowed inStore
  rw [hs]
  cases look w p <;> rfl

/-- **A tampered plugin is refused.**  While a globally installed plugin is
enabled and not shadowed by the project, it runs only if its bytes still have
the recorded checksum. -/
theorem tampered_refused_partial {H : Nat → Nat} {w : World} {c : Nat} {e : Entry} (hr : resolve w c = some (e, .trusted))
    {f : File} (hf : look w e.binary = some f) (hm : e.checksum ≠ some (H f.content)) (p : Nat) :
    tryExecute H w c ≠ .ran p ∧ spawn H w c ≠ .ran p := by
  have hx : execute H w e.binary (some e) .trusted = .refused := by
    have ha : allowed H w e.binary (some e) .trusted = false := by
      unfold allowed
      rw [hf]
      exact decide_eq_false hm
    unfold execute
    rw [ha]
    rfl
  constructor
  · unfold tryExecute
    rw [hr]
    dsimp only
    split
    · simp
    · rw [hx]; simp
  · unfold spawn
    rw [hr]
    dsimp only
    rw [hx]; simp

/-- **Untrusting removes the command's records and no other.** -/
theorem untrust_exact (c : Nat) (w : World) (s : Nat → Option Nat) (hs : w.store = some s) (h : Nat) :
    inStore (untrustCmd c w) h = true ↔ ∃ l, s h = some l ∧ l ≠ c := by
  unfold untrustCmd
  rw [hs]
  unfold inStore
  dsimp only
  cases s h with
  | none => simp
  | some l =>
    by_cases e : l = c
    · simp [e]
    · simp [e]

/-- Trusting a command makes the binary it leads to runnable from the
project. -/
theorem trust_takes_effect {H : Nat → Nat} {w : World} {c p : Nat} {f : File} (hl : locate w c = some p) (hf : look w p = some f) :
    inStore (trustCmd H c w) (H f.content) = true := by
  unfold trustCmd
  rw [hl]; dsimp only
  rw [hf]; dsimp only
  unfold inStore grant
  dsimp only
  rw [upd_same]; rfl

/-- **Disabling, as far as it goes.**  A disabled command does not run in the
foreground if no executable of its name is in the project's bin directory, the
global one or on `PATH`. -/
theorem disabled_refused_partial {H : Nat → Nat} {w : World} {c : Nat} (hd : isDisabled w c = true) (hn : discover w c = none) (p : Nat) :
    tryExecute H w c ≠ .ran p := by
  unfold tryExecute
  cases hr : resolve w c with
  | none => dsimp only; rw [hn]; simp
  | some x => dsimp only; rw [if_pos hd]; simp

/-- A disabled command that is still registered elsewhere is refused. -/
theorem disabled_elsewhere_refused {H : Nat → Nat} {w : World} {c : Nat} (hd : isDisabled w c = true) {x : Entry × Origin} (hr : resolve w c = some x) :
    tryExecute H w c = .refused := by
  unfold tryExecute
  rw [hr]
  dsimp only
  rw [if_pos hd]

/-- **Enabling undoes disabling.** -/
theorem enable_restores {w : World} {c : Nat} {e : Entry} {o : Origin} (hr : resolve w c = some (e, o)) (hd : isDisabled w c = false) :
    resolve (enableCmd c (disableCmd c w)) c = some (e, o) ∧ isDisabled (enableCmd c (disableCmd c w)) c = false := by
  have hgd : w.global.disabled c = none := by
    unfold isDisabled at hd
    rw [Bool.or_eq_false_iff] at hd
    cases h : w.global.disabled c with
    | none => rfl
    | some x => rw [h] at hd; cases hd.2
  cases hp : w.project with
  | none =>
    have hg : w.global.plugins c = some e ∧ o = .trusted := by
      unfold resolve at hr
      rw [hp] at hr
      obtain ⟨x, hx, hy⟩ := Option.map_eq_some_iff.1 hr
      cases hy; exact ⟨hx, rfl⟩
    have h1 : disableCmd c w = { w with global := disableIn w.global c e } := by
      unfold disableCmd; rw [hp]; dsimp only [Option.bind]; rw [hg.1]
    have h2 : enableCmd c (disableCmd c w) = { w with global := enableIn (disableIn w.global c e) c e } := by
      rw [h1]; unfold enableCmd; dsimp only; rw [hp]; dsimp only [Option.bind, disableIn]; rw [upd_same]
    rw [h2]
    constructor
    · unfold resolve enableIn; dsimp only; rw [hp]; dsimp only; rw [upd_same, hg.2]; rfl
    · unfold isDisabled enableIn; dsimp only; rw [hp]; dsimp only; rw [upd_same]; rfl
  | some r =>
    have hrd : r.disabled c = none := by
      unfold isDisabled at hd
      rw [hp, Bool.or_eq_false_iff] at hd
      dsimp only at hd
      cases h : r.disabled c with
      | none => rfl
      | some x => rw [h] at hd; cases hd.1
    cases hrp : r.plugins c with
    | some e' =>
      have he : e' = e ∧ o = .project := by
        unfold resolve at hr
        rw [hp] at hr; dsimp only at hr
        rw [hrp] at hr
        cases hr; exact ⟨rfl, rfl⟩
      obtain ⟨rfl, rfl⟩ := he
      have h1 : disableCmd c w = { w with project := some (disableIn r c e') } := by
        unfold disableCmd; rw [hp]; dsimp only [Option.bind]; rw [hrp]; rfl
      have h2 : enableCmd c (disableCmd c w) = { w with project := some (enableIn (disableIn r c e') c e') } := by
        rw [h1]; unfold enableCmd; dsimp only [Option.bind, disableIn]; rw [upd_same]; rfl
      rw [h2]
      constructor
      · unfold resolve enableIn; dsimp only; rw [upd_same]
      · unfold isDisabled enableIn; dsimp only; rw [upd_same, hgd]; rfl
    | none =>
      have hg : r.inherit = true ∧ w.global.plugins c = some e ∧ o = .trusted := by
        unfold resolve at hr
        rw [hp] at hr; dsimp only at hr
        rw [hrp] at hr; dsimp only at hr
        split at hr
        · rename_i hi
          obtain ⟨x, hx, hy⟩ := Option.map_eq_some_iff.1 hr
          cases hy; exact ⟨hi, hx, rfl⟩
        · cases hr
      have h1 : disableCmd c w = { w with global := disableIn w.global c e } := by
        unfold disableCmd; rw [hp]; dsimp only [Option.bind]; rw [hrp]; dsimp only [Option.map]; rw [hg.2.1]
      have h2 : enableCmd c (disableCmd c w) = { w with global := enableIn (disableIn w.global c e) c e } := by
        rw [h1]; unfold enableCmd; dsimp only; rw [hp]; dsimp only [Option.bind]; rw [hrd]; dsimp only [Option.map, disableIn]; rw [upd_same]
      rw [h2]
      constructor
      · unfold resolve enableIn; dsimp only; rw [hp]; dsimp only; rw [hrp]; dsimp only; rw [if_pos hg.1, upd_same, hg.2.2]; rfl
      · unfold isDisabled enableIn; dsimp only; rw [hp]; dsimp only; rw [upd_same, hrd]; rfl

/-! ### Findings -/

/-- A machine: package binaries at paths 100 and up, the global bin directory
at `10 + c`, the project's at `50 + c`, nothing on `PATH`. -/
def machine : World :=
  ⟨fun p => if p = 100 ∨ p = 101 then some ⟨7, true⟩ else none, fun _ => none, ⟨fun _ => none, fun _ => none, true⟩, none, false,
    fun c => 50 + c, fun c => 10 + c, [], some (fun _ => none)⟩

theorem machine_fresh : Fresh machine := ⟨fun _ => rfl, fun _ => rfl, fun _ => rfl⟩

/-- The hypotheses are met: a cloned project's plugin is refused, and runs
once the user has trusted it. -/
example : tryExecute id (act id machine (.checkout (some ⟨fun _ => some ⟨200, some 9⟩, fun _ => none, true⟩) (fun _ => some ⟨9, true⟩) (fun _ => none))) 1 = .refused := by decide +kernel
example : tryExecute id ([Act.checkout (some ⟨fun _ => some ⟨200, some 9⟩, fun _ => none, true⟩) (fun _ => some ⟨9, true⟩) (fun _ => none), .trust 1].foldl (act id) machine) 1 = .ran 200 := by decide +kernel
example : tryExecute id ([Act.installGlobal 1 100].foldl (act id) machine) 1 = .ran 100 := by decide +kernel
example : tryExecute id ([Act.installGlobal 1 100, .edit 100 (some ⟨8, true⟩)].foldl (act id) machine) 1 = .refused := by decide +kernel

/-- **Finding.**  A disabled plugin still runs: disabling takes it off the
registry, the lookup then falls through to the bin directory, and the link
made at installation is still there. -/
theorem disabled_still_runs :
    isDisabled ([Act.installGlobal 1 100, .disable 1].foldl (act id) machine) 1 = true ∧
      tryExecute id ([Act.installGlobal 1 100, .disable 1].foldl (act id) machine) 1 = .ran 11 ∧
      look ([Act.installGlobal 1 100, .disable 1].foldl (act id) machine) 11 = some ⟨7, true⟩ := by decide +kernel

/-- **Finding.**  And it runs without the checksum test: a binary changed
after installation is refused while the plugin is enabled, and run once it is
disabled. -/
theorem disabling_skips_checksum :
    tryExecute id ([Act.installGlobal 1 100, .edit 100 (some ⟨8, true⟩)].foldl (act id) machine) 1 = .refused ∧
      tryExecute id ([Act.installGlobal 1 100, .edit 100 (some ⟨8, true⟩), .disable 1].foldl (act id) machine) 1 = .ran 11 ∧
      look ([Act.installGlobal 1 100, .edit 100 (some ⟨8, true⟩), .disable 1].foldl (act id) machine) 11 = some ⟨8, true⟩ := by
  decide +kernel

/-- **Finding.**  Starting in the background does not look at the disabled
list at all. -/
theorem spawn_ignores_disabled :
    isDisabled ([Act.installGlobal 1 100, .disable 1, .installLocal 1 101].foldl (act id) machine) 1 = true ∧
      tryExecute id ([Act.installGlobal 1 100, .disable 1, .installLocal 1 101].foldl (act id) machine) 1 = .refused ∧
      spawn id ([Act.installGlobal 1 100, .disable 1, .installLocal 1 101].foldl (act id) machine) 1 = .ran 101 := by decide +kernel

/-- **Finding.**  Trust is per bytes, the label is the last command's: of two
commands with the same binary, untrusting the first removes nothing, and it
still runs. -/
theorem untrust_misses_shared_bytes :
    tryExecute id ([Act.installLocal 1 100, .installLocal 2 101, .untrust 1].foldl (act id) machine) 1 = .ran 100 := by decide +kernel

/-- **Finding.**  The gate reads the file and the process is started from the
path afterwards: bytes exchanged in between run unchecked. -/
theorem checked_bytes_not_run_bytes : ∃ w w' : World, (∃ p f, w' = act id w (.edit p f)) ∧
    allowed id w 100 (some ⟨100, some 7⟩) .project = true ∧ runnable w' 100 = true ∧ allowed id w' 100 (some ⟨100, some 7⟩) .project = false :=
  ⟨act id machine (.installLocal 1 100), _, ⟨100, some ⟨8, true⟩, rfl⟩, by decide +kernel, by decide +kernel, by decide +kernel⟩

end Horus.Pkg.Trust
