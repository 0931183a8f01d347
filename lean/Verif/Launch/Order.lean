import Mathlib.Logic.Relation
import Mathlib.Data.List.Nodup
import Mathlib.Data.List.Perm.Subperm
import Mathlib.Tactic.Common
/-
`horus launch`: the order in which the nodes of a launch file are started, and what is left running when
starting them goes wrong. Source: /repo/horus_manager/src/commands/launch.rs:424-538 (run_launch) and
1054-1106 (sort_by_dependencies). Names are numbers; of a node's other fields only a tag is kept, to tell
two nodes of the same name apart. Whether a process can be spawned is decided by the environment.
-/
namespace Horus.Launch

/-- launch.rs:32-90 LaunchNode: the name, the names it depends on, the rest. -/
structure Node where
  name : Nat
  deps : List Nat
  tag : Nat
deriving DecidableEq

/-- launch.rs:1060 `node_map`: of several nodes with one name the last is found. -/
def lookup (nodes : List Node) (d : Nat) : Option Node := nodes.reverse.find? fun n => n.name == d

/-- How a visit ends. `fuel` stands for a recursion deeper than the bound given, and is shown not to occur
(`sort_total`). -/
inductive Res
  | ok (r : List Node)
  | cycle
  | fuel
deriving DecidableEq

/-- A loop whose body may fail (`?`, launch.rs:1085-1090, 1100-1106). -/
def each {α : Type} (f : α → List Node → Res) : List α → List Node → Res
  | [], r => .ok r
  | a :: as, r => match f a r with
    | .ok r' => each f as r'
    | e => e

/-- launch.rs:1062-1097 `visit`. `temp` is the set of nodes being visited; the set of visited names is the
set of names of the result, as both grow together (1093-1094). -/
def visit (nodes : List Node) : Nat → Node → List Nat → List Node → Res
  | 0, _, _, _ => .fuel
  | f + 1, n, temp, r =>
    if n.name ∈ temp then .cycle
    else if n.name ∈ r.map Node.name then .ok r
    else match each (fun d r => match lookup nodes d with
        | some m => visit nodes f m (n.name :: temp) r
        | none => .ok r) n.deps r with
      | .ok r' => .ok (r' ++ [n])
      | e => e

/-- launch.rs:1055-1106 `sort_by_dependencies`. -/
def sort (nodes : List Node) : Res := each (fun n r => visit nodes (nodes.length + 1) n [] r) nodes []

/-- How starting ends: all up, a dependency not started, or a process that could not be spawned; with the
processes that are running then. -/
inductive Start
  | up (running : List Node)
  | missing (n : Node) (running : List Node)
  | failed (n : Node) (running : List Node)
deriving DecidableEq

/-- launch.rs:440-528: check the dependencies, spawn, remember; a spawn that fails kills what was started
(510-524), a missing dependency does not (443-449). -/
def startAll (spawns : Node → Bool) : List Node → List Node → Start
  | [], up => .up up
  | n :: ns, up =>
    if n.deps.any fun d => d ∉ up.map Node.name then .missing n up
    else if spawns n then startAll spawns ns (up ++ [n])
    else .failed n []

/-- `horus launch` up to the point where everything runs; `none` is a dependency cycle (nothing started). -/
def launch (spawns : Node → Bool) (nodes : List Node) : Option Start :=
  match sort nodes with
  | .ok r => some (startAll spawns r [])
  | _ => none

/-! ### Specification -/

/-- `a` depends on `b`, and both are in the file. -/
def Dep (nodes : List Node) (a b : Nat) : Prop := ∃ n ∈ nodes, n.name = a ∧ b ∈ n.deps ∧ ∃ m ∈ nodes, m.name = b

/-- Some node depends on itself, directly or through others. -/
def Cyclic (nodes : List Node) : Prop := ∃ a, Relation.TransGen (Dep nodes) a a

/-- Everything a node depends on within the file comes before it. -/
def Ordered (nodes r : List Node) : Prop :=
  ∀ p n q, r = p ++ n :: q → ∀ d ∈ n.deps, (∃ m ∈ nodes, m.name = d) → d ∈ p.map Node.name

/-! ### Sorting -/

theorem lookup_some {nodes : List Node} {d : Nat} {m : Node} (h : lookup nodes d = some m) : m ∈ nodes ∧ m.name = d := by
  unfold lookup at h
  have h1 := List.mem_of_find?_eq_some h
  have h2 := List.find?_some h
  exact ⟨List.mem_reverse.mp h1, by simpa using h2⟩

theorem lookup_none {nodes : List Node} {d : Nat} (h : lookup nodes d = none) : ¬ ∃ m ∈ nodes, m.name = d := by
  unfold lookup at h
  rw [List.find?_eq_none] at h
  rintro ⟨m, hm, e⟩
  exact h m (List.mem_reverse.mpr hm) (by simpa using e)

/-- What a partial result satisfies. -/
structure Good (nodes r : List Node) : Prop where
  sub : ∀ n ∈ r, n ∈ nodes
  nodup : (r.map Node.name).Nodup
  ord : Ordered nodes r

theorem good_nil (nodes : List Node) : Good nodes [] :=
  ⟨by simp, by simp, by intro p n q h; simp at h⟩

theorem ordered_snoc {nodes r : List Node} {n : Node} (h : Ordered nodes r)
    (hd : ∀ d ∈ n.deps, (∃ m ∈ nodes, m.name = d) → d ∈ r.map Node.name) : Ordered nodes (r ++ [n]) := by
  intro p m q e
  rcases List.eq_nil_or_concat q with hq | ⟨q', x, hq⟩
  · rw [hq] at e
    have := List.append_inj' e rfl
    obtain ⟨e1, e2⟩ := this
    cases e2
    rw [← e1]
    exact hd
  · rw [hq, List.concat_eq_append, ← List.cons_append, ← List.append_assoc] at e
    obtain ⟨e1, _⟩ := List.append_inj' e rfl
    exact h p m q' e1

theorem visit_ok (nodes : List Node) : ∀ (f : Nat) (n : Node) (temp : List Nat) (r r' : List Node), n ∈ nodes → Good nodes r →
    visit nodes f n temp r = .ok r' →
    Good nodes r' ∧ n.name ∈ r'.map Node.name ∧ r <+: r' ∧ (∀ t ∈ temp, t ∈ r'.map Node.name → t ∈ r.map Node.name) := by
  intro f
  induction f with
  | zero => intro n temp r r' _ _ h; simp [visit] at h
  | succ f ih =>
    intro n temp r r' hn hg h
    unfold visit at h
    split_ifs at h with h1 h2
    · cases h
      exact ⟨hg, h2, List.prefix_refl _, fun _ _ h => h⟩
    · -- the loop over the dependencies
      have loop : ∀ (ds : List Nat) (r r' : List Node), Good nodes r →
          each (fun d r => match lookup nodes d with
            | some m => visit nodes f m (n.name :: temp) r
            | none => .ok r) ds r = .ok r' →
          Good nodes r' ∧ r <+: r' ∧ (∀ t ∈ n.name :: temp, t ∈ r'.map Node.name → t ∈ r.map Node.name) ∧
          (∀ d ∈ ds, (∃ m ∈ nodes, m.name = d) → d ∈ r'.map Node.name) := by
        intro ds
        induction ds with
        | nil =>
          intro r r' hg h
          simp only [each, Res.ok.injEq] at h
          subst h
          exact ⟨hg, List.prefix_refl _, fun _ _ h => h, by simp⟩
        | cons d ds ihd =>
          intro r r' hg h
          simp only [each] at h
          cases hl : lookup nodes d with
          | none =>
            rw [hl] at h
            obtain ⟨a, b, c, e⟩ := ihd r r' hg h
            refine ⟨a, b, c, ?_⟩
            intro x hx hex
            rcases List.mem_cons.mp hx with hx | hx
            · subst hx
              exact absurd hex (lookup_none hl)
            · exact e x hx hex
          | some m =>
            rw [hl] at h
            dsimp only at h
            cases hv : visit nodes f m (n.name :: temp) r with
            | cycle => rw [hv] at h; cases h
            | fuel => rw [hv] at h; cases h
            | ok r1 =>
              rw [hv] at h
              dsimp only at h
              obtain ⟨hm, hmn⟩ := lookup_some hl
              obtain ⟨a1, a2, a3, a4⟩ := ih m _ r r1 hm hg hv
              obtain ⟨b1, b2, b3, b4⟩ := ihd r1 r' a1 h
              refine ⟨b1, a3.trans b2, fun t ht htr => a4 t ht (b3 t ht htr), ?_⟩
              intro x hx hex
              rcases List.mem_cons.mp hx with hx | hx
              · subst hx
                rw [← hmn]
                exact (b2.map Node.name).subset a2
              · exact b4 x hx hex
      split at h
      · rename_i r1 hr1
        cases h
        obtain ⟨a1, a2, a3, a4⟩ := loop n.deps r r1 hg hr1
        have hnew : n.name ∉ r1.map Node.name := fun hh => h2 (a3 _ List.mem_cons_self hh)
        refine ⟨⟨?_, ?_, ordered_snoc a1.ord a4⟩, by simp, a2.trans (List.prefix_append _ _), ?_⟩
        · intro x hx
          rcases List.mem_append.mp hx with hx | hx
          · exact a1.sub x hx
          · rw [List.mem_singleton.mp hx]; exact hn
        · rw [List.map_append, List.nodup_append]
          refine ⟨a1.nodup, by simp, ?_⟩
          intro x hx y hy
          simp only [List.map_cons, List.map_nil, List.mem_singleton] at hy
          rw [hy]
          exact fun e => hnew (e ▸ hx)
        · intro t ht htr
          rw [List.map_append, List.mem_append] at htr
          rcases htr with htr | htr
          · exact a3 t (List.mem_cons_of_mem _ ht) htr
          · simp only [List.map_cons, List.map_nil, List.mem_singleton] at htr
            exact absurd (htr ▸ ht) h1
      · rename_i e he
        exact absurd h (he r')

theorem visit_cycle (nodes : List Node) : ∀ (f : Nat) (n : Node) (temp : List Nat) (r : List Node), n ∈ nodes →
    (∀ t ∈ temp, Relation.TransGen (Dep nodes) t n.name) → visit nodes f n temp r = .cycle → Cyclic nodes := by
  intro f
  induction f with
  | zero => intro n temp r _ _ h; simp [visit] at h
  | succ f ih =>
    intro n temp r hn ht h
    unfold visit at h
    split_ifs at h with h1 h2
    · exact ⟨n.name, ht _ h1⟩
    · have loop : ∀ (ds : List Nat) (r : List Node), (∀ d ∈ ds, d ∈ n.deps) →
          each (fun d r => match lookup nodes d with
            | some m => visit nodes f m (n.name :: temp) r
            | none => .ok r) ds r = .cycle → Cyclic nodes := by
        intro ds
        induction ds with
        | nil => intro r _ h; simp [each] at h
        | cons d ds ihd =>
          intro r hd h
          simp only [each] at h
          have hd' : ∀ x ∈ ds, x ∈ n.deps := fun x hx => hd x (List.mem_cons_of_mem _ hx)
          cases hl : lookup nodes d with
          | none => rw [hl] at h; exact ihd r hd' h
          | some m =>
            rw [hl] at h
            dsimp only at h
            obtain ⟨hm, hmn⟩ := lookup_some hl
            cases hv : visit nodes f m (n.name :: temp) r with
            | ok r1 => rw [hv] at h; exact ihd r1 hd' h
            | fuel => rw [hv] at h; cases h
            | cycle =>
              have hdep : Dep nodes n.name m.name := ⟨n, hn, rfl, hmn ▸ hd d List.mem_cons_self, m, hm, rfl⟩
              refine ih m _ r hm ?_ hv
              intro t htm
              rcases List.mem_cons.mp htm with e | htm
              · rw [e]; exact .single hdep
              · exact (ht t htm).tail hdep
      split at h
      · cases h
      · exact loop n.deps r (fun _ h => h) h

theorem visit_fuel (nodes : List Node) : ∀ (f : Nat) (n : Node) (temp : List Nat) (r : List Node), n ∈ nodes → temp.Nodup →
    (∀ t ∈ temp, t ∈ nodes.map Node.name) → nodes.length < f + temp.length → visit nodes f n temp r ≠ .fuel := by
  intro f
  induction f with
  | zero =>
    intro n temp r _ h1 h2 h3
    have := (h1.subperm h2).length_le
    rw [List.length_map] at this
    omega
  | succ f ih =>
    intro n temp r hn h1 h2 h3 h
    unfold visit at h
    split_ifs at h with g1 g2
    · have loop : ∀ (ds : List Nat) (r : List Node),
          each (fun d r => match lookup nodes d with
            | some m => visit nodes f m (n.name :: temp) r
            | none => .ok r) ds r ≠ .fuel := by
        intro ds
        induction ds with
        | nil => intro r h; simp [each] at h
        | cons d ds ihd =>
          intro r h
          simp only [each] at h
          cases hl : lookup nodes d with
          | none => rw [hl] at h; exact ihd r h
          | some m =>
            rw [hl] at h
            dsimp only at h
            obtain ⟨hm, hmn⟩ := lookup_some hl
            cases hv : visit nodes f m (n.name :: temp) r with
            | ok r1 => rw [hv] at h; exact ihd r1 h
            | cycle => rw [hv] at h; cases h
            | fuel =>
              refine ih m (n.name :: temp) r hm (List.nodup_cons.mpr ⟨g1, h1⟩) ?_ (by rw [List.length_cons]; omega) hv
              intro t ht
              rcases List.mem_cons.mp ht with e | ht
              · rw [e]; exact List.mem_map_of_mem hn
              · exact h2 t ht
      split at h
      · cases h
      · exact loop n.deps r h

theorem sort_ok {nodes r : List Node} (h : sort nodes = .ok r) : Good nodes r ∧ ∀ n ∈ nodes, n.name ∈ r.map Node.name := by
  have loop : ∀ (ns : List Node) (r r' : List Node), (∀ n ∈ ns, n ∈ nodes) → Good nodes r →
      each (fun n r => visit nodes (nodes.length + 1) n [] r) ns r = .ok r' →
      Good nodes r' ∧ r <+: r' ∧ ∀ n ∈ ns, n.name ∈ r'.map Node.name := by
    intro ns
    induction ns with
    | nil =>
      intro r r' _ hg h
      simp only [each, Res.ok.injEq] at h
      subst h
      exact ⟨hg, List.prefix_refl _, by simp⟩
    | cons n ns ih =>
      intro r r' hs hg h
      simp only [each] at h
      cases hv : visit nodes (nodes.length + 1) n [] r with
      | cycle => rw [hv] at h; cases h
      | fuel => rw [hv] at h; cases h
      | ok r1 =>
        rw [hv] at h
        obtain ⟨a1, a2, a3, _⟩ := visit_ok nodes _ n [] r r1 (hs n List.mem_cons_self) hg hv
        obtain ⟨b1, b2, b3⟩ := ih r1 r' (fun x hx => hs x (List.mem_cons_of_mem _ hx)) a1 h
        refine ⟨b1, a3.trans b2, ?_⟩
        intro x hx
        rcases List.mem_cons.mp hx with e | hx
        · rw [e]; exact (b2.map Node.name).subset a2
        · exact b3 x hx
  obtain ⟨a, _, c⟩ := loop nodes [] r (fun _ h => h) (good_nil nodes) h
  exact ⟨a, c⟩

theorem sort_cycle {nodes : List Node} (h : sort nodes = .cycle) : Cyclic nodes := by
  have loop : ∀ (ns : List Node) (r : List Node), (∀ n ∈ ns, n ∈ nodes) →
      each (fun n r => visit nodes (nodes.length + 1) n [] r) ns r = .cycle → Cyclic nodes := by
    intro ns
    induction ns with
    | nil => intro r _ h; simp [each] at h
    | cons n ns ih =>
      intro r hs h
      simp only [each] at h
      cases hv : visit nodes (nodes.length + 1) n [] r with
      | ok r1 => rw [hv] at h; exact ih r1 (fun x hx => hs x (List.mem_cons_of_mem _ hx)) h
      | fuel => rw [hv] at h; cases h
      | cycle => exact visit_cycle nodes _ n [] r (hs n List.mem_cons_self) (by simp) hv
  exact loop nodes [] (fun _ h => h) h

/-- The recursion is never deeper than the number of nodes, so the sort always answers. -/
theorem sort_total (nodes : List Node) : sort nodes ≠ .fuel := by
  have loop : ∀ (ns : List Node) (r : List Node), (∀ n ∈ ns, n ∈ nodes) →
      each (fun n r => visit nodes (nodes.length + 1) n [] r) ns r ≠ .fuel := by
    intro ns
    induction ns with
    | nil => intro r _ h; simp [each] at h
    | cons n ns ih =>
      intro r hs h
      simp only [each] at h
      cases hv : visit nodes (nodes.length + 1) n [] r with
      | ok r1 => rw [hv] at h; exact ih r1 (fun x hx => hs x (List.mem_cons_of_mem _ hx)) h
      | cycle => rw [hv] at h; cases h
      | fuel => exact visit_fuel nodes _ n [] r (hs n List.mem_cons_self) List.nodup_nil (by simp) (by simp) hv
  exact loop nodes [] fun _ h => h

theorem name_inj {nodes : List Node} (hd : (nodes.map Node.name).Nodup) {a b : Node} (ha : a ∈ nodes) (hb : b ∈ nodes)
    (e : a.name = b.name) : a = b := List.inj_on_of_nodup_map hd ha hb e

/-- A result puts every edge in order. -/
theorem ordered_before {nodes r : List Node} (hg : Good nodes r) (hd : (nodes.map Node.name).Nodup)
    (ha : ∀ n ∈ nodes, n.name ∈ r.map Node.name) {a b : Nat} (h : Dep nodes a b) :
    (r.map Node.name).idxOf b < (r.map Node.name).idxOf a := by
  obtain ⟨n, hn, e, hb, m, hm, e'⟩ := h
  obtain ⟨x, hx, ex⟩ := List.mem_map.mp (ha n hn)
  have hxn : x = n := name_inj hd (hg.sub x hx) hn ex
  obtain ⟨p, q, hpq⟩ := List.append_of_mem (hxn ▸ hx)
  have hbp := hg.ord p n q hpq b hb ⟨m, hm, e'⟩
  have hnd := hg.nodup
  rw [hpq, List.map_append, List.map_cons] at hnd ⊢
  have hnp : a ∉ p.map Node.name := by
    intro hap
    rw [List.nodup_append] at hnd
    exact hnd.2.2 a hap n.name List.mem_cons_self e.symm
  rw [List.idxOf_append_of_mem hbp, List.idxOf_append_of_notMem hnp]
  have := List.idxOf_lt_length_iff.mpr hbp
  omega

/-- **Which files can be launched.** With distinct names, sorting succeeds exactly when no node depends on itself
through the others. -/
theorem sort_iff (nodes : List Node) (hd : (nodes.map Node.name).Nodup) : (∃ r, sort nodes = .ok r) ↔ ¬ Cyclic nodes := by
  constructor
  · rintro ⟨r, h⟩ ⟨a, hc⟩
    obtain ⟨hg, ha⟩ := sort_ok h
    have : ∀ b, Relation.TransGen (Dep nodes) a b → (r.map Node.name).idxOf b < (r.map Node.name).idxOf a := by
      intro b hb
      induction hb with
      | single h => exact ordered_before hg hd ha h
      | tail _ h ih => exact Nat.lt_trans (ordered_before hg hd ha h) ih
    exact Nat.lt_irrefl _ (this a hc)
  · intro h
    cases hs : sort nodes with
    | ok r => exact ⟨r, rfl⟩
    | cycle => exact absurd (sort_cycle hs) h
    | fuel => exact absurd hs (sort_total nodes)

/-- **Every node once, dependencies first.** With distinct names, the order is a rearrangement of the file in
which everything a node depends on comes before it. -/
theorem sort_perm_partial (nodes r : List Node) (hd : (nodes.map Node.name).Nodup) (h : sort nodes = .ok r) :
    r.Perm nodes ∧ Ordered nodes r := by
  obtain ⟨hg, ha⟩ := sort_ok h
  refine ⟨?_, hg.ord⟩
  rw [List.perm_ext_iff_of_nodup hg.nodup.of_map hd.of_map]
  intro x
  refine ⟨hg.sub x, fun hx => ?_⟩
  obtain ⟨y, hy, e⟩ := List.mem_map.mp (ha x hx)
  exact name_inj hd (hg.sub y hy) hx e ▸ hy

/-! ### Starting -/

theorem startAll_spec (spawns : Node → Bool) : ∀ (ns up : List Node),
    (∀ p n q, up = p ++ n :: q → ∀ d ∈ n.deps, d ∈ p.map Node.name) →
    match startAll spawns ns up with
    | .up run => run = up ++ ns ∧ (∀ n ∈ ns, spawns n = true) ∧ (∀ p n q, run = p ++ n :: q → ∀ d ∈ n.deps, d ∈ p.map Node.name)
    | .missing n run => ∃ p q, ns = p ++ n :: q ∧ run = up ++ p ∧ (∃ d ∈ n.deps, d ∉ run.map Node.name) ∧ (∀ m ∈ p, spawns m = true) ∧
        (∀ p n q, run = p ++ n :: q → ∀ d ∈ n.deps, d ∈ p.map Node.name)
    | .failed n run => n ∈ ns ∧ spawns n = false ∧ run = [] := by
  intro ns
  induction ns with
  | nil =>
    intro up h
    simp only [startAll, List.append_nil, List.not_mem_nil, false_implies, implies_true, true_and]
    exact h
  | cons n ns ih =>
    intro up h
    unfold startAll
    by_cases h1 : (n.deps.any fun d => d ∉ up.map Node.name) = true
    · rw [if_pos h1]
      refine ⟨[], ns, rfl, by simp, ?_, by simp, h⟩
      obtain ⟨d, hd, hd'⟩ := List.any_eq_true.mp h1
      exact ⟨d, hd, by simpa using hd'⟩
    · rw [if_neg h1]
      have hall : ∀ d ∈ n.deps, d ∈ up.map Node.name := by
        intro d hd
        by_contra hc
        exact h1 (List.any_eq_true.mpr ⟨d, hd, by simpa using hc⟩)
      by_cases h2 : spawns n = true
      · rw [if_pos h2]
        have hup : ∀ p m q, up ++ [n] = p ++ m :: q → ∀ d ∈ m.deps, d ∈ p.map Node.name := by
          intro p m q e
          rcases List.eq_nil_or_concat q with hq | ⟨q', x, hq⟩
          · rw [hq] at e
            obtain ⟨e1, e2⟩ := List.append_inj' e rfl
            cases e2
            rw [← e1]
            exact hall
          · rw [hq, List.concat_eq_append, ← List.cons_append, ← List.append_assoc] at e
            obtain ⟨e1, _⟩ := List.append_inj' e rfl
            exact h p m q' e1
        have := ih (up ++ [n]) hup
        revert this
        cases startAll spawns ns (up ++ [n]) with
        | up run =>
          rintro ⟨a, b, c⟩
          refine ⟨by rw [a]; simp, ?_, c⟩
          intro x hx
          rcases List.mem_cons.mp hx with e | hx
          · rw [e]; exact h2
          · exact b x hx
        | missing m run =>
          rintro ⟨p, q, a, b, c, d, e⟩
          refine ⟨n :: p, q, by rw [a]; rfl, by rw [b]; simp, c, ?_, e⟩
          intro x hx
          rcases List.mem_cons.mp hx with e | hx
          · rw [e]; exact h2
          · exact d x hx
        | failed m run =>
          rintro ⟨a, b, c⟩
          exact ⟨List.mem_cons_of_mem _ a, b, c⟩
      · rw [if_neg h2]
        exact ⟨List.mem_cons_self, by simpa using h2, rfl⟩

/-- **A good file starts completely.** Distinct names, every dependency in the file, no cycle and no spawn failure:
every node runs, each started after everything it depends on. -/
theorem launch_complete (spawns : Node → Bool) (nodes : List Node) (hd : (nodes.map Node.name).Nodup)
    (hin : ∀ n ∈ nodes, ∀ d ∈ n.deps, ∃ m ∈ nodes, m.name = d) (hc : ¬ Cyclic nodes) (hs : ∀ n ∈ nodes, spawns n = true) :
    ∃ run, launch spawns nodes = some (.up run) ∧ run.Perm nodes ∧
      ∀ p n q, run = p ++ n :: q → ∀ d ∈ n.deps, d ∈ p.map Node.name := by
  obtain ⟨r, hr⟩ := (sort_iff nodes hd).mpr hc
  obtain ⟨hp, ho⟩ := sort_perm_partial nodes r hd hr
  have h := startAll_spec spawns r [] (by intro p n q e; simp at e)
  unfold launch
  rw [hr]
  dsimp only
  revert h
  cases startAll spawns r [] with
  | up run =>
    rintro ⟨a, _, c⟩
    exact ⟨run, rfl, by rw [a, List.nil_append]; exact hp, c⟩
  | missing n run =>
    rintro ⟨p, q, a, b, ⟨d, hd1, hd2⟩, _, _⟩
    have hn : n ∈ nodes := hp.subset (by rw [a]; simp)
    rw [b, List.nil_append] at hd2
    exact absurd (ho p n q a d hd1 (hin n hn d hd1)) hd2
  | failed n run =>
    rintro ⟨a, b, _⟩
    rw [hs n (hp.subset a)] at b
    cases b

/-- **A failed launch leaves nothing behind**, if what failed was spawning a process; and a dependency cycle is
reported before anything is started. -/
theorem failed_launch_clean_partial (spawns : Node → Bool) (nodes : List Node) :
    (∀ n run, launch spawns nodes = some (.failed n run) → run = [] ∧ spawns n = false) ∧
    (launch spawns nodes = none → Cyclic nodes) := by
  unfold launch
  constructor
  · intro n run h
    cases hs : sort nodes with
    | cycle => rw [hs] at h; cases h
    | fuel => rw [hs] at h; cases h
    | ok r =>
      rw [hs] at h
      have := startAll_spec spawns r [] (by intro p n q e; simp at e)
      rw [Option.some.inj h] at this
      exact ⟨this.2.2, this.2.1⟩
  · intro h
    cases hs : sort nodes with
    | ok r => rw [hs] at h; cases h
    | cycle => exact sort_cycle hs
    | fuel => exact absurd hs (sort_total nodes)

/-- Whatever is running, everything it depends on was started before it. -/
theorem running_after_deps (spawns : Node → Bool) (nodes : List Node) (st : Start) (h : launch spawns nodes = some st) :
    let run := match st with
      | .up r => r
      | .missing _ r => r
      | .failed _ r => r
    ∀ p n q, run = p ++ n :: q → ∀ d ∈ n.deps, d ∈ p.map Node.name := by
  unfold launch at h
  cases hs : sort nodes with
  | cycle => rw [hs] at h; cases h
  | fuel => rw [hs] at h; cases h
  | ok r =>
    rw [hs] at h
    have := startAll_spec spawns r [] (by intro p n q e; simp at e)
    rw [Option.some.inj h] at this
    cases st with
    | up run => exact this.2.2
    | missing n run =>
      obtain ⟨_, _, _, _, _, _, h⟩ := this
      exact h
    | failed n run =>
      dsimp only
      rw [this.2.2]
      intro p n q e
      simp at e

/-! ### What goes wrong -/

/-- **A dependency that is not in the file orphans what was started.** Nothing is said before; when the order
reaches the node, `horus launch` returns an error and every node started until then keeps running, with nobody
watching or stopping it. -/
theorem missing_dependency_orphans (spawns : Node → Bool) (nodes : List Node) (n : Node) (run : List Node)
    (h : launch spawns nodes = some (.missing n run)) :
    ∃ order q, sort nodes = .ok order ∧ order = run ++ n :: q ∧ (∃ d ∈ n.deps, d ∉ run.map Node.name) ∧ ∀ m ∈ run, spawns m = true := by
  unfold launch at h
  cases hs : sort nodes with
  | cycle => rw [hs] at h; cases h
  | fuel => rw [hs] at h; cases h
  | ok r =>
    rw [hs] at h
    have := startAll_spec spawns r [] (by intro p n q e; simp at e)
    rw [Option.some.inj h] at this
    obtain ⟨p, q, a, b, c, d, _⟩ := this
    rw [List.nil_append] at b
    subst b
    exact ⟨r, q, rfl, a, c, d⟩

/-- A driver that runs, and a planner that depends on a misspelt node. -/
example : launch (fun _ => true) [⟨1, [], 0⟩, ⟨2, [9], 0⟩] = some (.missing ⟨2, [9], 0⟩ [⟨1, [], 0⟩]) := by decide

/-- **Two nodes of one name: one is never started**, and which one depends on whether something listed earlier
depends on the name. -/
theorem duplicate_name_dropped :
    launch (fun _ => true) [⟨1, [], 10⟩, ⟨1, [], 20⟩] = some (.up [⟨1, [], 10⟩]) ∧
    launch (fun _ => true) [⟨2, [1], 0⟩, ⟨1, [], 10⟩, ⟨1, [], 20⟩] = some (.up [⟨1, [], 20⟩, ⟨2, [1], 0⟩]) := by decide

/-! ### Non-vacuity -/

example : launch (fun _ => true) [⟨3, [1, 2], 0⟩, ⟨2, [1], 0⟩, ⟨1, [], 0⟩] = some (.up [⟨1, [], 0⟩, ⟨2, [1], 0⟩, ⟨3, [1, 2], 0⟩]) ∧
    (([⟨3, [1, 2], 0⟩, ⟨2, [1], 0⟩, ⟨1, [], 0⟩] : List Node).map Node.name).Nodup := by decide

example : launch (fun _ => true) [⟨1, [2], 0⟩, ⟨2, [1], 0⟩] = none := by decide

example : launch (fun n => n.name != 2) [⟨1, [], 0⟩, ⟨2, [1], 0⟩] = some (.failed ⟨2, [1], 0⟩ []) := by decide

end Horus.Launch
