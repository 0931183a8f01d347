import Verif.Params.Validate
import Mathlib.Data.List.Nodup
import Mathlib.Data.List.Perm.Basic
import Mathlib.Tactic.Common
/-
C64: the parameter store with concurrent users.
-/
namespace Horus.Params
open Horus Horus.Ring

/-- The thread has written its value but not yet bumped the version. -/
def Pc.mid : Pc → Option Nat
  | .bump k => some k
  | .vbump k => some k
  | _ => none

/-- The thread holds the versions lock. -/
def Pc.holds : Pc → Bool
  | .vwrite .. => true
  | .vbump .. => true
  | _ => false

/-- The update a thread is carrying, checked against the metadata. -/
def Pc.carries : Pc → Option (Nat × Val)
  | .old k v => some (k, v)
  | .calls k v _ => some (k, v)
  | .write k v _ _ => some (k, v)
  | .vlock k v _ => some (k, v)
  | .vwrite k v _ => some (k, v)
  | _ => none

/-- Invariant of the store: versions count completed writes, and the version lock has one holder. -/
structure Inv (env : Env) (s : St) : Prop where
  ver : ∀ k, version s k = s.done.count k
  mid : ∃ m : List (Nat × Nat), m.Nodup ∧ (∀ t k, (t, k) ∈ m ↔ (s.pc t).mid = some k) ∧
    (s.log.map (fun x => x.1)).Perm (s.done ++ m.map Prod.snd)
  lock : ∀ t, s.vlocked = some t ↔ (s.pc t).holds = true
  exp : ∀ t k v e, s.pc t = .vwrite k v e → version s k = e
  adm : ∀ t k v, (s.pc t).carries = some (k, v) → admits env k v = true
  cbok : ∀ t k v o n, s.pc t = .write k v o n → accepted env n k o v = true
  logadm : ∀ x ∈ s.log, admits env x.1 x.2.1 = true
  logcb : ∀ x ∈ s.log, ∀ o n, x.2.2 = .set o n → accepted env n x.1 o x.2.1 = true

theorem inv_opened (env : Env) (m : Map Nat Val) : Inv env (opened m) := by
  constructor <;> simp [opened, version, Map.get, Pc.mid, Pc.holds, Pc.carries]

theorem version_set (s s' : St) (k k' : Nat) (n : Nat) (h : s'.versions = Map.set s.versions k n) :
    version s' k' = if k' = k then n else version s k' := by
  unfold version
  rw [h, Map.get_set]
  by_cases e : k = k'
  · subst e; simp
  · have e' : ¬ k' = k := fun h => e h.symm
    simp [e, e']

/-- The invariant when one thread moves between positions outside the critical ones, and nothing
else but the parameters changes. -/
theorem inv_move {env : Env} {s s' : St} (h : Inv env s) (t : Nat) (q : Pc)
    (hv : s'.versions = s.versions) (hl : s'.vlocked = s.vlocked) (hp : s'.pc = upd s.pc t q)
    (hg : s'.log = s.log) (hd : s'.done = s.done) (hm : (s.pc t).mid = none) (hm' : q.mid = none)
    (hh : (s.pc t).holds = false) (hh' : q.holds = false)
    (ha : ∀ k v, q.carries = some (k, v) → admits env k v = true)
    (hc : ∀ k v o n, q = .write k v o n → accepted env n k o v = true) : Inv env s' := by
  have hver : ∀ k, version s' k = version s k := by intro k; unfold version; rw [hv]
  have pcs : ∀ u, s'.pc u = if u = t then q else s.pc u := by
    intro u; rw [hp]; by_cases e : u = t
    · subst e; simp
    · rw [upd_ne _ _ e, if_neg e]
  refine ⟨?_, ?_, ?_, ?_, ?_, ?_, ?_, ?_⟩
  · intro k; rw [hver, hd]; exact h.ver k
  · obtain ⟨m, h1, h2, h3⟩ := h.mid
    refine ⟨m, h1, ?_, by rw [hg, hd]; exact h3⟩
    intro u k
    rw [pcs, h2]
    by_cases e : u = t
    · subst e; simp [hm, hm']
    · simp [e]
  · intro u
    rw [hl, h.lock, pcs]
    by_cases e : u = t
    · subst e; simp [hh, hh']
    · simp [e]
  · intro u k v e hu
    rw [pcs] at hu
    by_cases e' : u = t
    · simp only [e', if_true] at hu
      rw [hu] at hh'; cases hh'
    · simp only [e', if_false] at hu
      rw [hver]; exact h.exp u k v e hu
  · intro u k v hu
    rw [pcs] at hu
    by_cases e' : u = t
    · simp only [e', if_true] at hu
      exact ha k v hu
    · simp only [e', if_false] at hu
      exact h.adm u k v hu
  · intro u k v o n hu
    rw [pcs] at hu
    by_cases e' : u = t
    · simp only [e', if_true] at hu
      exact hc k v o n hu
    · simp only [e', if_false] at hu
      exact h.cbok u k v o n hu
  · intro x hx; rw [hg] at hx; exact h.logadm x hx
  · intro x hx o n e; rw [hg] at hx; exact h.logcb x hx o n e

/-- The invariant when a thread writes its value. -/
theorem inv_write {env : Env} {s s' : St} (h : Inv env s) (t k : Nat) (v : Val) (how : How) (q : Pc)
    (hv : s'.versions = s.versions) (hl : s'.vlocked = s.vlocked) (hp : s'.pc = upd s.pc t q)
    (hg : s'.log = s.log ++ [(k, v, how)]) (hd : s'.done = s.done) (hm : (s.pc t).mid = none)
    (hm' : q.mid = some k) (hh : (s.pc t).holds = q.holds)
    (hc : (s.pc t).carries = some (k, v))
    (hcb : ∀ o n, how = .set o n → accepted env n k o v = true) : Inv env s' := by
  have hver : ∀ k, version s' k = version s k := by intro k; unfold version; rw [hv]
  have pcs : ∀ u, s'.pc u = if u = t then q else s.pc u := by
    intro u; rw [hp]; by_cases e : u = t
    · subst e; simp
    · rw [upd_ne _ _ e, if_neg e]
  refine ⟨?_, ?_, ?_, ?_, ?_, ?_, ?_, ?_⟩
  · intro k; rw [hver, hd]; exact h.ver k
  · obtain ⟨m, h1, h2, h3⟩ := h.mid
    refine ⟨(t, k) :: m, ?_, ?_, ?_⟩
    · rw [List.nodup_cons]
      refine ⟨?_, h1⟩
      rw [h2, hm]; simp
    · intro u k'
      rw [pcs, List.mem_cons, h2]
      by_cases e : u = t
      · subst e; simp [hm, hm']
        exact eq_comm
      · simp [e]
    · rw [hg, hd, List.map_append, List.map_cons, List.map_nil, List.map_cons]
      have e1 : (s.log.map (fun x => x.1) ++ [k]).Perm (k :: s.log.map (fun x => x.1)) :=
        List.perm_append_comm
      have e2 : (s.done ++ k :: m.map Prod.snd).Perm (k :: (s.done ++ m.map Prod.snd)) :=
        List.perm_middle
      exact e1.trans ((List.Perm.cons k h3).trans e2.symm)
  · intro u
    rw [hl, h.lock, pcs]
    by_cases e : u = t
    · subst e; simp [hh]
    · simp [e]
  · intro u k' v' e hu
    rw [pcs] at hu
    by_cases e' : u = t
    · simp only [e', if_true] at hu
      rw [hu] at hm'; cases hm'
    · simp only [e', if_false] at hu
      rw [hver]; exact h.exp u k' v' e hu
  · intro u k' v' hu
    rw [pcs] at hu
    by_cases e' : u = t
    · simp only [e', if_true] at hu
      cases q <;> simp_all [Pc.mid, Pc.carries]
    · simp only [e', if_false] at hu
      exact h.adm u k' v' hu
  · intro u k' v' o n hu
    rw [pcs] at hu
    by_cases e' : u = t
    · simp only [e', if_true] at hu
      rw [hu] at hm'; cases hm'
    · simp only [e', if_false] at hu
      exact h.cbok u k' v' o n hu
  · intro x hx; rw [hg] at hx
    rw [List.mem_append, List.mem_singleton] at hx
    rcases hx with hx | rfl
    · exact h.logadm x hx
    · exact h.adm t k v hc
  · intro x hx o n e; rw [hg] at hx
    rw [List.mem_append, List.mem_singleton] at hx
    rcases hx with hx | rfl
    · exact h.logcb x hx o n e
    · exact hcb o n e

/-- The invariant when a thread bumps the version and finishes; nobody else holds the lock. -/
theorem inv_bump {env : Env} {s s' : St} (h : Inv env s) (t k : Nat)
    (hv : s'.versions = Map.set s.versions k (version s k + 1)) (hl : s'.vlocked = none)
    (hp : s'.pc = upd s.pc t .idle) (hg : s'.log = s.log) (hd : s'.done = s.done ++ [k])
    (hm : (s.pc t).mid = some k) (hno : ∀ u, u ≠ t → (s.pc u).holds = false) : Inv env s' := by
  have hver := version_set s s' k
  have pcs : ∀ u, s'.pc u = if u = t then .idle else s.pc u := by
    intro u; rw [hp]; by_cases e : u = t
    · subst e; simp
    · rw [upd_ne _ _ e, if_neg e]
  refine ⟨?_, ?_, ?_, ?_, ?_, ?_, ?_, ?_⟩
  · intro k'
    rw [hver k' _ hv, hd, List.count_append]
    by_cases e : k' = k
    · subst e; simp [h.ver]
    · have e' : ¬ k = k' := fun h => e h.symm
      simp [e, e', h.ver]
  · obtain ⟨m, h1, h2, h3⟩ := h.mid
    have hmem : (t, k) ∈ m := (h2 t k).mpr hm
    refine ⟨m.erase (t, k), h1.erase _, ?_, ?_⟩
    · intro u k'
      rw [pcs, h1.mem_erase_iff, h2]
      by_cases e : u = t
      · subst e
        simp only [if_true, hm]
        simp [Pc.mid]
        intro h4 h5; exact absurd h5.symm h4
      · simp [e]
    · rw [hg, hd]
      have e1 : m.Perm ((t, k) :: m.erase (t, k)) := List.perm_cons_erase hmem
      have e2 := e1.map Prod.snd
      rw [List.map_cons] at e2
      have e3 := (List.Perm.refl s.done).append e2
      refine h3.trans (e3.trans ?_)
      rw [List.append_assoc]
      exact List.Perm.refl _
  · intro u
    rw [hl, pcs]
    by_cases e : u = t
    · simp [e, Pc.holds]
    · simp [e, hno u e]
  · intro u k' v' e hu
    rw [pcs] at hu
    by_cases e' : u = t
    · simp only [e', if_true] at hu; cases hu
    · simp only [e', if_false] at hu
      have := hno u e'
      rw [hu] at this; cases this
  · intro u k' v' hu
    rw [pcs] at hu
    by_cases e' : u = t
    · simp only [e', if_true] at hu; cases hu
    · simp only [e', if_false] at hu
      exact h.adm u k' v' hu
  · intro u k' v' o n hu
    rw [pcs] at hu
    by_cases e' : u = t
    · simp only [e', if_true] at hu; cases hu
    · simp only [e', if_false] at hu
      exact h.cbok u k' v' o n hu
  · intro x hx; rw [hg] at hx; exact h.logadm x hx
  · intro x hx o n e; rw [hg] at hx; exact h.logcb x hx o n e

theorem no_holder {env : Env} {s : St} (h : Inv env s) (hl : s.vlocked = none) (u : Nat) :
    (s.pc u).holds = false := by
  cases hu : (s.pc u).holds with
  | false => rfl
  | true => rw [(h.lock u).mpr hu] at hl; cases hl

theorem only_holder {env : Env} {s : St} (h : Inv env s) {t : Nat} (ht : (s.pc t).holds = true) (u : Nat)
    (hu : u ≠ t) : (s.pc u).holds = false := by
  cases hh : (s.pc u).holds with
  | false => rfl
  | true =>
    have h1 := (h.lock u).mpr hh
    rw [(h.lock t).mpr ht] at h1
    cases h1; exact absurd rfl hu

theorem inv_step {env : Env} {s : St} (a : Act) (h : Inv env s) : Inv env (step env s a) := by
  cases a with
  | set t k v =>
    simp only [step]
    split
    · rename_i hi
      split
      · rename_i ha
        refine inv_move h t (.old k v) rfl rfl rfl rfl rfl (by rw [hi]; rfl) rfl (by rw [hi]; rfl) rfl ?_ ?_
        · intro k' v' e; simp only [Pc.carries, Option.some.injEq, Prod.mk.injEq] at e
          rw [← e.1, ← e.2]; exact ha
        · intro k' v' o n e; cases e
      · exact h
    · exact h
  | setv t k v e =>
    simp only [step]
    split
    · rename_i hi
      split
      · rename_i ha
        refine inv_move h t (.vlock k v e) rfl rfl rfl rfl rfl (by rw [hi]; rfl) rfl (by rw [hi]; rfl) rfl ?_ ?_
        · intro k' v' e; simp only [Pc.carries, Option.some.injEq, Prod.mk.injEq] at e
          rw [← e.1, ← e.2]; exact ha
        · intro k' v' o n e; cases e
      · exact h
    · exact h
  | go t =>
    simp only [step]
    cases hpc : s.pc t with
    | idle => exact h
    | old k v =>
      refine inv_move h t (.calls k v (Map.get s.params k)) rfl rfl rfl rfl rfl (by rw [hpc]; rfl) rfl (by rw [hpc]; rfl) rfl ?_ ?_
      · intro k' v' e; simp only [Pc.carries, Option.some.injEq, Prod.mk.injEq] at e
        rw [← e.1, ← e.2]; exact h.adm t k v (by rw [hpc]; rfl)
      · intro k' v' o n e; cases e
    | calls k v o =>
      simp only
      split
      · rename_i ha
        refine inv_move h t (.write k v o s.cbs) rfl rfl rfl rfl rfl (by rw [hpc]; rfl) rfl (by rw [hpc]; rfl) rfl ?_ ?_
        · intro k' v' e; simp only [Pc.carries, Option.some.injEq, Prod.mk.injEq] at e
          rw [← e.1, ← e.2]; exact h.adm t k v (by rw [hpc]; rfl)
        · intro k' v' o' n e; cases e; exact ha
      · exact inv_move h t .idle rfl rfl rfl rfl rfl (by rw [hpc]; rfl) rfl (by rw [hpc]; rfl) rfl
          (by intro k' v' e; cases e) (by intro k' v' o n e; cases e)
    | write k v o n =>
      refine inv_write h t k v (.set o n) (.bump k) rfl rfl rfl rfl rfl (by rw [hpc]; rfl) rfl
        (by rw [hpc]; rfl) (by rw [hpc]; rfl) ?_
      intro o' n' e; cases e
      exact h.cbok t k v o n hpc
    | bump k =>
      simp only
      split
      · rename_i hl
        exact inv_bump h t k rfl hl rfl rfl rfl (by rw [hpc]; rfl) (fun u _ => no_holder h hl u)
      · exact h
    | vlock k v e =>
      simp only
      split
      · rename_i hl
        split
        · rename_i hver
          have pcs : ∀ u, upd s.pc t (.vwrite k v e) u = if u = t then .vwrite k v e else s.pc u := by
            intro u; by_cases e : u = t
            · subst e; simp
            · rw [upd_ne _ _ e, if_neg e]
          refine ⟨h.ver, ?_, ?_, ?_, ?_, ?_, h.logadm, h.logcb⟩
          · obtain ⟨m, h1, h2, h3⟩ := h.mid
            refine ⟨m, h1, ?_, h3⟩
            intro u k'
            simp only [pcs]
            rw [h2]
            by_cases e' : u = t
            · subst e'; simp [hpc, Pc.mid]
            · simp [e']
          · intro u
            simp only [pcs]
            by_cases e' : u = t
            · simp [e', Pc.holds]
            · have := no_holder h hl u
              simp only [e', if_false, this]
              simp
              intro e''; exact e' e''.symm
          · intro u k' v' e' hu
            simp only [pcs] at hu
            by_cases e'' : u = t
            · simp only [e'', if_true] at hu
              cases hu; exact hver
            · simp only [e'', if_false] at hu
              have := no_holder h hl u
              rw [hu] at this; cases this
          · intro u k' v' hu
            simp only [pcs] at hu
            by_cases e'' : u = t
            · simp only [e'', if_true, Pc.carries, Option.some.injEq, Prod.mk.injEq] at hu
              rw [← hu.1, ← hu.2]
              exact h.adm t k v (by rw [hpc]; rfl)
            · simp only [e'', if_false] at hu
              exact h.adm u k' v' hu
          · intro u k' v' o n hu
            simp only [pcs] at hu
            by_cases e'' : u = t
            · simp only [e'', if_true] at hu; cases hu
            · simp only [e'', if_false] at hu
              exact h.cbok u k' v' o n hu
        · exact inv_move h t .idle rfl rfl rfl rfl rfl (by rw [hpc]; rfl) rfl (by rw [hpc]; rfl) rfl
            (by intro k' v' e; cases e) (by intro k' v' o n e; cases e)
      · exact h
    | vwrite k v e =>
      exact inv_write h t k v (.versioned e) (.vbump k) rfl rfl rfl rfl rfl (by rw [hpc]; rfl) rfl
        (by rw [hpc]; rfl) (by rw [hpc]; rfl) (by intro o n e; cases e)
    | vbump k =>
      exact inv_bump h t k rfl rfl rfl rfl rfl (by rw [hpc]; rfl) (only_holder h (by rw [hpc]; rfl))
  | remove k => exact ⟨h.ver, h.mid, h.lock, h.exp, h.adm, h.cbok, h.logadm, h.logcb⟩
  | load m => exact ⟨h.ver, h.mid, h.lock, h.exp, h.adm, h.cbok, h.logadm, h.logcb⟩
  | clear => exact ⟨h.ver, h.mid, h.lock, h.exp, h.adm, h.cbok, h.logadm, h.logcb⟩
  | register => exact ⟨h.ver, h.mid, h.lock, h.exp, h.adm, h.cbok, h.logadm, h.logcb⟩

theorem inv_run (env : Env) (as : List Act) (s : St) (h : Inv env s) : Inv env (run env s as) := by
  unfold run
  induction as generalizing s with
  | nil => exact h
  | cons a as ih => exact ih _ (inv_step a h)

/-! ### Theorems for every history -/

/-- The version of a parameter is the number of updates of it that have completed. -/
theorem version_counts_updates (env : Env) (m : Map Nat Val) (as : List Act) (k : Nat) :
    version (run env (opened m) as) k = (run env (opened m) as).done.count k :=
  (inv_run env as _ (inv_opened env m)).ver k

/-- When no update is in progress, the version of a parameter is the number of values written. -/
theorem version_counts_writes (env : Env) (m : Map Nat Val) (as : List Act) (k : Nat)
    (hq : ∀ t, (run env (opened m) as).pc t = .idle) :
    version (run env (opened m) as) k = ((run env (opened m) as).log.map (fun x => x.1)).count k := by
  have h := inv_run env as _ (inv_opened env m)
  obtain ⟨l, h1, h2, h3⟩ := h.mid
  have : l = [] := by
    cases l with
    | nil => rfl
    | cons x l =>
      have := (h2 x.1 x.2).mp (by simp)
      rw [hq] at this; cases this
  subst this
  rw [h.ver, h3.count_eq]
  simp

/-- Every value ever written satisfies the parameter's rules, and the parameter is not read-only. -/
theorem written_is_valid (env : Env) (m : Map Nat Val) (as : List Act) (x : Nat × Val × How)
    (hx : x ∈ (run env (opened m) as).log) (md : Meta) (hm : env.md x.1 = some md) :
    md.readOnly = false ∧ validate md.rules x.2.1 = true := by
  have := (inv_run env as _ (inv_opened env m)).logadm x hx
  unfold admits at this
  rw [hm] at this
  simp only at this
  cases hr : md.readOnly with
  | true => rw [hr] at this; simp at this
  | false => rw [hr] at this; exact ⟨rfl, by simpa using this⟩

/-- Every value written by an unversioned set was accepted by each callback registered when the
callbacks were asked. -/
theorem written_was_accepted (env : Env) (m : Map Nat Val) (as : List Act) (k : Nat) (v : Val)
    (o : Option Val) (n : Nat) (hx : (k, v, How.set o n) ∈ (run env (opened m) as).log) (i : Nat) (hi : i < n) :
    env.cb i k o v = true := by
  have := (inv_run env as _ (inv_opened env m)).logcb _ hx o n rfl
  unfold accepted at this
  rw [List.all_eq_true] at this
  exact this i (List.mem_range.mpr hi)

/-- A versioned set that reaches its write finds exactly the version it expects, and no other
versioned set is between its check and its bump. -/
theorem versioned_write_is_current (env : Env) (m : Map Nat Val) (as : List Act) (t k : Nat) (v : Val)
    (e : Nat) (h : (run env (opened m) as).pc t = .vwrite k v e) :
    version (run env (opened m) as) k = e ∧
    ∀ u, u ≠ t → ((run env (opened m) as).pc u).holds = false := by
  have hi := inv_run env as _ (inv_opened env m)
  exact ⟨hi.exp t k v e h, only_holder hi (by rw [h]; rfl)⟩

/-! ### Only versioned updates -/

/-- The value written last for a key. -/
def lastWrite (k : Nat) (log : List (Nat × Val × How)) : Option Val :=
  ((log.filter fun x => x.1 = k).getLast?).map fun x => x.2.1

/-- The updates written for a key. -/
def updates (s : St) (k : Nat) : List (Nat × Val × How) := s.log.filter fun x => x.1 = k

/-- The history leaves parameters to `set` and `set_with_version`. -/
def NoBypass : Act → Prop
  | .remove _ => False
  | .load _ => False
  | .clear => False
  | _ => True

/-- The history changes parameters by `set_with_version` only. -/
def OnlyVersioned : Act → Prop
  | .set .. => False
  | .remove _ => False
  | .load _ => False
  | .clear => False
  | _ => True

theorem filter_snoc (l : List (Nat × Val × How)) (k k' : Nat) (v : Val) (how : How) :
    (l ++ [(k, v, how)]).filter (fun x => x.1 = k') =
      (l.filter fun x => x.1 = k') ++ if k = k' then [(k, v, how)] else [] := by
  rw [List.filter_append]
  by_cases e : k = k' <;> simp [e]

/-- Without removal, loading and resetting, a parameter's value is the one written last, or the one
it was opened with. -/
theorem value_is_last_write (env : Env) (m : Map Nat Val) (as : List Act) (hb : ∀ a ∈ as, NoBypass a)
    (k : Nat) :
    Map.get (run env (opened m) as).params k
      = (lastWrite k (run env (opened m) as).log).or (Map.get m k) := by
  have key : ∀ (as : List Act) (s : St), (∀ a ∈ as, NoBypass a) →
      Map.get s.params k = (lastWrite k s.log).or (Map.get m k) →
      Map.get (run env s as).params k = (lastWrite k (run env s as).log).or (Map.get m k) := by
    intro as
    induction as with
    | nil => intro s _ h; exact h
    | cons a as ih =>
      intro s hb h
      unfold run
      rw [List.foldl_cons]
      apply ih _ (fun a ha => hb a (List.mem_cons_of_mem _ ha))
      have hwrite : ∀ (k' : Nat) (v : Val) (how : How), Map.get (Map.set s.params k' v) k
          = (lastWrite k (s.log ++ [(k', v, how)])).or (Map.get m k) := by
        intro k' v how
        rw [Map.get_set]
        unfold lastWrite
        rw [filter_snoc]
        by_cases e : k' = k
        · simp [e]
        · simp only [e, if_false, List.append_nil]; exact h
      have ha := hb a List.mem_cons_self
      cases a with
      | set t k' v => simp only [step]; split <;> [split; skip] <;> exact h
      | setv t k' v e => simp only [step]; split <;> [split; skip] <;> exact h
      | go t =>
        simp only [step]
        cases s.pc t with
        | idle => exact h
        | old k' v => exact h
        | calls k' v o => simp only; split <;> exact h
        | write k' v o n => exact hwrite k' v _
        | bump k' => simp only; split <;> exact h
        | vlock k' v e => simp only; split <;> [split; skip] <;> exact h
        | vwrite k' v e => exact hwrite k' v _
        | vbump k' => exact h
      | remove k' => exact absurd ha (by simp [NoBypass])
      | load m' => exact absurd ha (by simp [NoBypass])
      | clear => exact absurd ha (by simp [NoBypass])
      | register => exact h
  exact key as (opened m) hb (by simp [opened, lastWrite])

/-- A read-only parameter keeps the value it was opened with. Missing: removal, loading and reset
do not look at the flag (`remove_ignores_read_only`, `load_ignores_read_only`). -/
theorem read_only_kept_partial (env : Env) (m : Map Nat Val) (as : List Act) (hb : ∀ a ∈ as, NoBypass a)
    (k : Nat) (md : Meta) (hm : env.md k = some md) (hr : md.readOnly = true) :
    Map.get (run env (opened m) as).params k = Map.get m k := by
  rw [value_is_last_write env m as hb k]
  have : (run env (opened m) as).log.filter (fun x => x.1 = k) = [] := by
    rw [List.filter_eq_nil_iff]
    intro x hx e
    have e' : x.1 = k := by simpa using e
    have := (written_is_valid env m as x hx md (by rw [e']; exact hm)).1
    rw [hr] at this; cases this
  unfold lastWrite
  rw [this]
  simp

/-- The expectation a logged update was made under. -/
def How.expected : How → Option Nat
  | .versioned e => some e
  | .set _ _ => none

/-- Which position is in `set`. -/
def Pc.plain : Pc → Bool
  | .old .. => true
  | .calls .. => true
  | .write .. => true
  | .bump .. => true
  | _ => false

open Classical in
/-- Invariant of histories of versioned updates: the `i`-th update of a key expected version `i`, and
there is one more update than the version exactly while the lock holder is between write and bump. -/
structure VInv (s : St) : Prop where
  noPlain : ∀ t, (s.pc t).plain = false
  len : ∀ k, (updates s k).length = version s k + (if ∃ t, s.pc t = .vbump k then 1 else 0)
  exps : ∀ k, (updates s k).map (fun x => x.2.2.expected) = (List.range (updates s k).length).map some

open Classical in
theorem vinv_step {env : Env} {s : St} (a : Act) (ha : OnlyVersioned a) (h : Inv env s) (hv : VInv s) :
    VInv (step env s a) := by
  -- a thread moves between positions that are not `vbump` and not in `set`
  have move : ∀ (s' : St) (t : Nat) (q : Pc), s'.pc = upd s.pc t q → s'.log = s.log → s'.versions = s.versions →
      (∀ k, s.pc t ≠ .vbump k) → (∀ k, q ≠ .vbump k) → q.plain = false → VInv s' := by
    intro s' t q hp hl hver h1 h2 h3
    have hvn : ∀ k, version s' k = version s k := by intro k; unfold version; rw [hver]
    have hu : ∀ k, updates s' k = updates s k := by intro k; unfold updates; rw [hl]
    have hex : ∀ k, (∃ u, s'.pc u = .vbump k) ↔ ∃ u, s.pc u = .vbump k := by
      intro k
      rw [hp]
      constructor
      · rintro ⟨u, hu⟩
        by_cases e : u = t
        · subst e; rw [upd_same] at hu; exact absurd hu (h2 k)
        · rw [upd_ne _ _ e] at hu; exact ⟨u, hu⟩
      · rintro ⟨u, hu⟩
        have e : u ≠ t := by intro e; subst e; exact h1 k hu
        exact ⟨u, by rw [upd_ne _ _ e]; exact hu⟩
    refine ⟨?_, ?_, ?_⟩
    · intro u
      rw [hp]
      by_cases e : u = t
      · subst e; rw [upd_same]; exact h3
      · rw [upd_ne _ _ e]; exact hv.noPlain u
    · intro k
      rw [hu, hvn, hv.len k]
      simp only [hex]
    · intro k; rw [hu]; exact hv.exps k
  cases a with
  | set t k v => exact absurd ha (by simp [OnlyVersioned])
  | remove k' => exact absurd ha (by simp [OnlyVersioned])
  | load m' => exact absurd ha (by simp [OnlyVersioned])
  | clear => exact absurd ha (by simp [OnlyVersioned])
  | register => exact ⟨hv.noPlain, hv.len, hv.exps⟩
  | setv t k v e =>
    simp only [step]
    split
    · rename_i hi
      split
      · exact move _ t (.vlock k v e) rfl rfl rfl (by rw [hi]; intro k h; cases h) (by intro k h; cases h) rfl
      · exact hv
    · exact hv
  | go t =>
    simp only [step]
    cases hpc : s.pc t with
    | idle => exact hv
    | old k v => have := hv.noPlain t; rw [hpc] at this; cases this
    | calls k v o => have := hv.noPlain t; rw [hpc] at this; cases this
    | write k v o n => have := hv.noPlain t; rw [hpc] at this; cases this
    | bump k => have := hv.noPlain t; rw [hpc] at this; cases this
    | vlock k v e =>
      simp only
      split
      · split
        · exact move _ t (.vwrite k v e) rfl rfl rfl (by rw [hpc]; intro k h; cases h) (by intro k h; cases h) rfl
        · exact move _ t .idle rfl rfl rfl (by rw [hpc]; intro k h; cases h) (by intro k h; cases h) rfl
      · exact hv
    | vwrite k v e =>
      have hver := h.exp t k v e hpc
      have hno : ∀ k', ¬ ∃ u, s.pc u = .vbump k' := by
        rintro k' ⟨u, hu⟩
        by_cases e : u = t
        · subst e; rw [hpc] at hu; cases hu
        · have := only_holder h (t := t) (by rw [hpc]; rfl) u e
          rw [hu] at this; cases this
      have hu : ∀ k', updates { s with params := Map.set s.params k v, pc := upd s.pc t (.vbump k), log := s.log ++ [(k, v, .versioned e)] } k'
          = updates s k' ++ if k = k' then [(k, v, .versioned e)] else [] := by
        intro k'; exact filter_snoc s.log k k' v _
      have hex : ∀ k', (∃ u, upd s.pc t (.vbump k) u = .vbump k') ↔ k = k' := by
        intro k'
        constructor
        · rintro ⟨u, hu⟩
          by_cases e : u = t
          · subst e; rw [upd_same] at hu; cases hu; rfl
          · rw [upd_ne _ _ e] at hu; exact absurd ⟨u, hu⟩ (hno k')
        · rintro rfl; exact ⟨t, by rw [upd_same]⟩
      refine ⟨?_, ?_, ?_⟩
      · intro u
        simp only
        by_cases e : u = t
        · subst e; rw [upd_same]; rfl
        · rw [upd_ne _ _ e]; exact hv.noPlain u
      · intro k'
        rw [hu]
        have hl := hv.len k'
        rw [if_neg (hno k')] at hl
        simp only [hex]
        have hvv : version { s with params := Map.set s.params k v, pc := upd s.pc t (.vbump k), log := s.log ++ [(k, v, .versioned e)] } k' = version s k' := rfl
        rw [hvv]
        by_cases e : k = k'
        · simp [e]; omega
        · simp [e]; omega
      · intro k'
        rw [hu]
        by_cases e' : k = k'
        · subst e'
          have hl := hv.len k
          rw [if_neg (hno k)] at hl
          simp only [if_true, List.map_append, List.length_append, List.map_cons, List.map_nil, List.length_cons, List.length_nil]
          rw [hv.exps, List.range_succ, List.map_append]
          simp [How.expected]
          omega
        · simp only [e', if_false, List.append_nil]; exact hv.exps k'
    | vbump k =>
      have honly : ∀ u k', s.pc u = .vbump k' → u = t := by
        intro u k' hu
        by_contra e
        have := only_holder h (t := t) (by rw [hpc]; rfl) u e
        rw [hu] at this; cases this
      have hex : ∀ k', ¬ ∃ u, upd s.pc t .idle u = .vbump k' := by
        rintro k' ⟨u, hu⟩
        by_cases e : u = t
        · subst e; rw [upd_same] at hu; cases hu
        · rw [upd_ne _ _ e] at hu; exact e (honly u k' hu)
      have hex0 : ∀ k', (∃ u, s.pc u = .vbump k') ↔ k = k' := by
        intro k'
        constructor
        · rintro ⟨u, hu⟩
          have := honly u k' hu
          subst this; rw [hpc] at hu; cases hu; rfl
        · rintro rfl; exact ⟨t, hpc⟩
      refine ⟨?_, ?_, hv.exps⟩
      · intro u
        simp only
        by_cases e : u = t
        · subst e; rw [upd_same]; rfl
        · rw [upd_ne _ _ e]; exact hv.noPlain u
      · intro k'
        have hl := hv.len k'
        simp only [hex0] at hl
        simp only [hex, if_false, Nat.add_zero]
        rw [version_set s _ k k' (version s k + 1) rfl]
        change (updates s k').length = _
        rw [hl]
        by_cases e : k = k'
        · subst e; simp
        · have e' : ¬ k' = k := fun h => e h.symm
          simp [e, e']

theorem vinv_run {env : Env} (as : List Act) (s : St) (ha : ∀ a ∈ as, OnlyVersioned a) (h : Inv env s)
    (hv : VInv s) : Inv env (run env s as) ∧ VInv (run env s as) := by
  unfold run
  induction as generalizing s with
  | nil => exact ⟨h, hv⟩
  | cons a as ih =>
    exact ih _ (fun b hb => ha b (List.mem_cons_of_mem _ hb)) (inv_step a h)
      (vinv_step a (ha a List.mem_cons_self) h hv)

theorem vinv_opened (m : Map Nat Val) : VInv (opened m) := by
  constructor <;> simp [opened, Pc.plain, updates, version, Map.get]

/-- Optimistic locking: with versioned updates only, the `i`-th successful update of a parameter is
one that expected version `i` — no two updates succeed on the same version, and none is lost. -/
theorem one_update_per_version_partial (env : Env) (m : Map Nat Val) (as : List Act)
    (ha : ∀ a ∈ as, OnlyVersioned a) (k : Nat) :
    (updates (run env (opened m) as) k).map (fun x => x.2.2.expected)
      = (List.range (updates (run env (opened m) as) k).length).map some :=
  (vinv_run as _ ha (inv_opened env m) (vinv_opened m)).2.exps k

theorem log_grows (env : Env) (as : List Act) (s : St) : s.log <+: (run env s as).log := by
  unfold run
  induction as generalizing s with
  | nil => exact List.prefix_refl _
  | cons a as ih =>
    rw [List.foldl_cons]
    refine List.IsPrefix.trans ?_ (ih _)
    cases a with
    | set t k' v => simp only [step]; split <;> [split; skip] <;> exact List.prefix_refl _
    | setv t k' v e => simp only [step]; split <;> [split; skip] <;> exact List.prefix_refl _
    | go t =>
      simp only [step]
      cases s.pc t with
      | idle => exact List.prefix_refl _
      | old k' v => exact List.prefix_refl _
      | calls k' v o => simp only; split <;> exact List.prefix_refl _
      | write k' v o n => exact List.prefix_append _ _
      | bump k' => simp only; split <;> exact List.prefix_refl _
      | vlock k' v e => simp only; split <;> [split; skip] <;> exact List.prefix_refl _
      | vwrite k' v e => exact List.prefix_append _ _
      | vbump k' => exact List.prefix_refl _
    | remove k' => exact List.prefix_refl _
    | load m' => exact List.prefix_refl _
    | clear => exact List.prefix_refl _
    | register => exact List.prefix_refl _

/-- Read-modify-write: with versioned updates only, if a user reads the version (which needs the
versions lock), then reads the value at any later moment, and then finds the same version when its
update takes the lock, the value it read is still the current one. -/
theorem value_read_is_current_partial (env : Env) (m : Map Nat Val) (as bs cs : List Act)
    (ha : ∀ a ∈ as ++ bs ++ cs, OnlyVersioned a) (k : Nat)
    (h0 : (run env (opened m) as).vlocked = none) (h2 : (run env (opened m) (as ++ bs ++ cs)).vlocked = none)
    (hver : version (run env (opened m) as) k = version (run env (opened m) (as ++ bs ++ cs)) k) :
    Map.get (run env (opened m) (as ++ bs)).params k = Map.get (run env (opened m) (as ++ bs ++ cs)).params k := by
  have nb : ∀ l : List Act, (∀ a ∈ l, OnlyVersioned a) → ∀ a ∈ l, NoBypass a := by
    intro l h a hl
    have := h a hl
    cases a <;> simp_all [OnlyVersioned, NoBypass]
  have ha1 : ∀ a ∈ as, OnlyVersioned a := fun a h => ha a (by simp [h])
  have ha2 : ∀ a ∈ as ++ bs, OnlyVersioned a := fun a h => ha a (by simp at h ⊢; tauto)
  rw [value_is_last_write env m _ (nb _ ha2), value_is_last_write env m _ (nb _ ha)]
  have len : ∀ l : List Act, (∀ a ∈ l, OnlyVersioned a) → (run env (opened m) l).vlocked = none →
      (updates (run env (opened m) l) k).length = version (run env (opened m) l) k := by
    intro l hl hn
    obtain ⟨i1, i2⟩ := vinv_run (env := env) l _ hl (inv_opened env m) (vinv_opened m)
    have := i2.len k
    rw [if_neg] at this
    · exact this
    · rintro ⟨u, hu⟩
      have := no_holder i1 hn u
      rw [hu] at this; cases this
  have l0 := len as ha1 h0
  have l2 := len _ ha h2
  have p1 : (run env (opened m) as).log <+: (run env (opened m) (as ++ bs)).log := by
    have := log_grows env bs (run env (opened m) as)
    unfold run at this ⊢
    rwa [List.foldl_append]
  have p2 : (run env (opened m) (as ++ bs)).log <+: (run env (opened m) (as ++ bs ++ cs)).log := by
    have := log_grows env cs (run env (opened m) (as ++ bs))
    unfold run at this ⊢
    rwa [List.foldl_append (l := as ++ bs) (l' := cs)]
  have q1 : updates (run env (opened m) as) k <+: updates (run env (opened m) (as ++ bs)) k := p1.filter _
  have q2 : updates (run env (opened m) (as ++ bs)) k <+: updates (run env (opened m) (as ++ bs ++ cs)) k := p2.filter _
  have e : updates (run env (opened m) (as ++ bs)) k = updates (run env (opened m) (as ++ bs ++ cs)) k := by
    apply q2.eq_of_length
    have a1 := q1.length_le
    have a2 := q2.length_le
    omega
  unfold lastWrite
  unfold updates at e
  rw [e]

/-! ### Where it fails -/

/-- No metadata, all callbacks accept. -/
def free : Env := ⟨fun _ => none, fun _ _ _ _ => true⟩

/-- A history of two versioned updates, the second refused for its stale version. -/
def race : List Act := [.setv 1 7 (.num 5) 0, .setv 2 7 (.num 6) 0, .go 1, .go 2, .go 1, .go 1, .go 2]

example : (∀ a ∈ race, OnlyVersioned a) ∧
    (run free (opened [(7, .num 1)]) race).log = [(7, .num 5, .versioned 0)] ∧
    version (run free (opened [(7, .num 1)]) race) 7 = 1 := by
  refine ⟨?_, by decide, by decide⟩
  intro a ha
  simp only [race, List.mem_cons, List.not_mem_nil, or_false] at ha
  rcases ha with rfl | rfl | rfl | rfl | rfl | rfl | rfl <;> trivial

/-- An ordinary `set` writes its value before it bumps the version: a versioned update prepared
before that value was written still succeeds, and the value is lost without anyone being told. -/
theorem plain_set_is_lost :
    let s := run free (opened [(7, .num 1)])
      [.set 1 7 (.num 5), .go 1, .go 1, .go 1, .setv 2 7 (.num 2) 0, .go 2, .go 2, .go 2, .go 1]
    s.log = [(7, .num 5, .set (some (.num 1)) 0), (7, .num 2, .versioned 0)] ∧
    Map.get s.params 7 = some (.num 2) ∧ version s 7 = 2 ∧ s.pc 1 = .idle ∧ s.pc 2 = .idle := by
  decide

/-- A versioned update is not shown to the callbacks: one that refuses everything does not stop it. -/
theorem versioned_skips_callbacks :
    let env : Env := ⟨fun _ => none, fun _ _ _ _ => false⟩
    let s := run env (opened [(7, .num 1)]) [.register, .setv 1 7 (.num 5) 0, .go 1, .go 1, .go 1]
    Map.get s.params 7 = some (.num 5) := by
  decide

/-- Two concurrent sets: the old value shown to the second one's callbacks is not the one it
replaces. -/
theorem callback_sees_stale_value :
    (run free (opened [(7, .num 1)])
      [.set 1 7 (.num 5), .go 1, .set 2 7 (.num 6), .go 2, .go 2, .go 2, .go 2, .go 1, .go 1]).log
      = [(7, .num 6, .set (some (.num 1)) 0), (7, .num 5, .set (some (.num 1)) 0)] := by
  decide

/-- Everything is read-only. -/
def frozen : Env := ⟨fun _ => some ⟨[], true⟩, fun _ _ _ _ => true⟩

/-- Removing a read-only parameter succeeds, and leaves its version as it was. -/
theorem remove_ignores_read_only :
    let s := run frozen (opened [(7, .num 1)]) [.remove 7]
    Map.get s.params 7 = none ∧ version s 7 = 0 := by
  decide

/-- Loading a file replaces read-only parameters, without validation, callbacks or a new version. -/
theorem load_ignores_read_only :
    let s := run frozen (opened [(7, .num 1)]) [.load [(7, .num 2)]]
    Map.get s.params 7 = some (.num 2) ∧ version s 7 = 0 := by
  decide

/-! ### Reset -/

/-- A built-in value that `set` refuses on an empty store. -/
def refused (env : Env) (n : Nat) (d : Nat × Val) : Bool :=
  !(admits env d.1 d.2 && accepted env n d.1 none d.2)

theorem takeWhile_none_refused (env : Env) (n : Nat) {ds : List (Nat × Val)}
    (h : ∀ d ∈ ds, refused env n d = false) : (ds.takeWhile fun d => !refused env n d) = ds := by
  induction ds with
  | nil => rfl
  | cons d ds ih =>
    rw [List.takeWhile_cons, h d List.mem_cons_self]
    simp only [Bool.not_false, if_true]
    rw [ih (fun x hx => h x (List.mem_cons_of_mem _ hx))]

theorem setAll_spec (env : Env) (ds : List (Nat × Val)) (s : St) (hn : (ds.map Prod.fst).Nodup)
    (hno : ∀ d ∈ ds, Map.get s.params d.1 = none) :
    (setAll env ds s).2 = !(ds.any (refused env s.cbs)) ∧
    ∀ k, Map.get (setAll env ds s).1.params k
      = (Map.get (ds.takeWhile fun d => !refused env s.cbs d) k).or (Map.get s.params k) := by
  induction ds generalizing s with
  | nil => simp [setAll, Map.get]
  | cons d ds ih =>
    obtain ⟨dk, dv⟩ := d
    rw [List.map_cons, List.nodup_cons] at hn
    have h0 := hno (dk, dv) List.mem_cons_self
    simp only at h0
    unfold setAll setNow
    by_cases h1 : admits env dk dv = true
    · by_cases h2 : accepted env s.cbs dk none dv = true
      · have hr : refused env s.cbs (dk, dv) = false := by simp [refused, h1, h2]
        simp only [h1, h0, h2, if_true]
        have hs := ih { s with params := Map.set s.params dk dv, versions := Map.set s.versions dk (version s dk + 1) } hn.2 (by
          intro d hd
          simp only
          rw [Map.get_set]
          have hne : dk ≠ d.1 := by
            intro e; exact hn.1 (List.mem_map.mpr ⟨d, hd, e.symm⟩)
          rw [if_neg hne]
          exact hno d (List.mem_cons_of_mem _ hd))
        refine ⟨?_, ?_⟩
        · rw [hs.1]; simp [hr]
        · intro k
          rw [hs.2 k]
          simp only [List.takeWhile_cons, hr, Bool.not_false, if_true]
          rw [Map.get_cons, Map.get_set]
          by_cases e : dk = k
          · subst e
            simp only [if_true]
            have : Map.get (ds.takeWhile fun d => !refused env s.cbs d) dk = none := by
              cases hg : Map.get (ds.takeWhile fun d => !refused env s.cbs d) dk with
              | none => rfl
              | some v =>
                exfalso
                apply hn.1
                have := Map.mem_of_get hg
                exact List.mem_map.mpr ⟨_, (List.takeWhile_sublist _).subset this, rfl⟩
            rw [this]; simp
          · simp [e]
      · have hr : refused env s.cbs (dk, dv) = true := by simp [refused, h2]
        simp only [h1, h0, h2, if_true]
        refine ⟨by simp [hr], ?_⟩
        intro k
        simp [hr, Map.get]
    · have hr : refused env s.cbs (dk, dv) = true := by simp [refused, h1]
      simp only [h1]
      refine ⟨by simp [hr], ?_⟩
      intro k
      simp [hr, Map.get]

/-- After a reset the store holds exactly the built-in parameters up to the first one that is refused,
and nothing else; the reset succeeds exactly when none is refused. -/
theorem reset_spec (env : Env) (ds : List (Nat × Val)) (s : St) (hn : (ds.map Prod.fst).Nodup) :
    (reset env ds s).2 = !(ds.any (refused env s.cbs)) ∧
    ∀ k, Map.get (reset env ds s).1.params k = Map.get (ds.takeWhile fun d => !refused env s.cbs d) k := by
  have := setAll_spec env ds { s with params := [] } hn (by simp [Map.get])
  refine ⟨this.1, ?_⟩
  intro k
  unfold reset
  rw [this.2 k]
  simp [Map.get]

/-- With no metadata and no objecting callback a reset restores exactly the built-in parameters. -/
theorem reset_restores_defaults (env : Env) (ds : List (Nat × Val)) (s : St) (hn : (ds.map Prod.fst).Nodup)
    (hok : ∀ d ∈ ds, refused env s.cbs d = false) :
    (reset env ds s).2 = true ∧ ∀ k, Map.get (reset env ds s).1.params k = Map.get ds k := by
  obtain ⟨h1, h2⟩ := reset_spec env ds s hn
  refine ⟨?_, ?_⟩
  · rw [h1]
    have : ds.any (refused env s.cbs) = false := by
      rw [List.any_eq_false]
      intro d hd; rw [hok d hd]; simp
    rw [this]; rfl
  · intro k
    rw [h2]
    congr 1
    exact takeWhile_none_refused _ _ hok

example : (reset free [(1, .num 30), (2, .num 512)] (opened [(1, .num 7), (9, .num 8)])).1.params
    = [(1, .num 30), (2, .num 512)] := by decide

/-- A reset refused at its first parameter leaves the store empty: every parameter, safety limits
included, is gone. -/
theorem refused_reset_empties (env : Env) (d : Nat × Val) (ds : List (Nat × Val)) (s : St)
    (hn : ((d :: ds).map Prod.fst).Nodup) (h : refused env s.cbs d = true) :
    (reset env (d :: ds) s).2 = false ∧ ∀ k, Map.get (reset env (d :: ds) s).1.params k = none := by
  obtain ⟨h1, h2⟩ := reset_spec env (d :: ds) s hn
  refine ⟨by rw [h1]; simp [h], ?_⟩
  intro k
  rw [h2]
  simp [h, Map.get]

end Horus.Params
