import Verif.Sched.Graph
import Mathlib.Logic.Relation
import Mathlib.Data.List.Range
import Mathlib.Data.List.Dedup
import Mathlib.Data.List.Sort
import Mathlib.Data.List.Nodup
import Mathlib.Data.Fintype.Card
import Mathlib.Order.WellFounded
import Mathlib.Data.Fintype.EquivFin
/-
C50, C51: execution steps respect topic dependencies, resp. `.order()` tiers.
-/
namespace Horus.Sched.Graph
open Horus.Ring (upd upd_same upd_ne)

/-! ### Specification -/

/-- Node `c` consumes a topic that another node `p` produces. -/
def DependsOn (nodes : List NodeDecl) (p c : Nat) : Prop :=
  p < nodes.length ∧ c < nodes.length ∧ p ≠ c ∧
    ∃ t, t ∈ (nodeAt nodes p).pubs ∧ t ∈ (nodeAt nodes c).subs

/-- A chain of dependencies leads from a node back to itself. -/
def OnCycle (nodes : List NodeDecl) (i : Nat) : Prop := Relation.TransGen (DependsOn nodes) i i

/-- Node `a` is in an earlier step than node `b`. -/
def Earlier (steps : List (List Nat)) (a b : Nat) : Prop :=
  ∃ s1 s2 s3 x y, steps = s1 ++ x :: (s2 ++ y :: s3) ∧ a ∈ x ∧ b ∈ y

/-! ### Edges -/

theorem mem_producers (nodes : List NodeDecl) (t : String) (p : Nat) :
    p ∈ producers nodes t ↔ p < nodes.length ∧ t ∈ (nodeAt nodes p).pubs := by
  unfold producers
  simp only [List.mem_flatMap, List.mem_range, List.mem_map, List.mem_filter, decide_eq_true_eq]
  constructor
  · rintro ⟨i, hi, x, ⟨hx, rfl⟩, rfl⟩; exact ⟨hi, hx⟩
  · rintro ⟨h1, h2⟩; exact ⟨p, h1, t, ⟨h2, rfl⟩, rfl⟩

theorem mem_attempts (nodes : List NodeDecl) (p c : Nat) :
    (p, c) ∈ attempts nodes ↔ p < nodes.length ∧ c < nodes.length ∧
      ∃ t, t ∈ (nodeAt nodes p).pubs ∧ t ∈ (nodeAt nodes c).subs := by
  unfold attempts
  simp only [List.mem_flatMap, List.mem_range, List.mem_map, mem_producers, Prod.mk.injEq]
  constructor
  · rintro ⟨i, hi, t, ht, q, ⟨hq, hq2⟩, rfl, rfl⟩; exact ⟨hq, hi, t, hq2, ht⟩
  · rintro ⟨h1, h2, t, h3, h4⟩; exact ⟨c, h2, t, h4, p, ⟨h1, h3⟩, rfl, rfl⟩

theorem addEdge_mem (e : Nat → List Nat) (pc : Nat × Nat) (p c : Nat) :
    c ∈ addEdge e pc p ↔ c ∈ e p ∨ ((p, c) = pc ∧ p ≠ c) := by
  unfold addEdge
  obtain ⟨a, b⟩ := pc
  simp only [Prod.mk.injEq]
  by_cases h : a ≠ b ∧ b ∉ e a
  · rw [if_pos h]
    by_cases hp : p = a
    · subst hp
      simp only [upd_same, List.mem_append, List.mem_singleton, true_and]
      constructor
      · rintro (h1 | rfl)
        · exact .inl h1
        · exact .inr ⟨rfl, h.1⟩
      · rintro (h1 | ⟨rfl, _⟩)
        · exact .inl h1
        · exact .inr rfl
    · rw [upd_ne _ _ hp]; simp [hp]
  · rw [if_neg h]
    constructor
    · exact .inl
    · rintro (h1 | ⟨⟨rfl, rfl⟩, h3⟩)
      · exact h1
      · by_contra h4; exact h ⟨h3, h4⟩

theorem foldl_addEdge_mem (l : List (Nat × Nat)) (e : Nat → List Nat) (p c : Nat) :
    c ∈ l.foldl addEdge e p ↔ c ∈ e p ∨ ((p, c) ∈ l ∧ p ≠ c) := by
  induction l generalizing e with
  | nil => simp
  | cons x l ih =>
    rw [List.foldl_cons, ih, addEdge_mem, List.mem_cons]
    tauto

theorem addEdge_nodup (e : Nat → List Nat) (pc : Nat × Nat) (h : ∀ p, (e p).Nodup) (p : Nat) :
    (addEdge e pc p).Nodup := by
  unfold addEdge
  split
  · next hc =>
    by_cases hp : p = pc.1
    · subst hp; rw [upd_same]
      exact List.Nodup.append (h _) (by simp) (by simpa [List.disjoint_singleton] using hc.2)
    · rw [upd_ne _ _ hp]; exact h p
  · exact h p

theorem edges_nodup (nodes : List NodeDecl) (p : Nat) : (edges nodes p).Nodup := by
  unfold edges
  have : ∀ (l : List (Nat × Nat)) (e : Nat → List Nat), (∀ p, (e p).Nodup) →
      ∀ p, (l.foldl addEdge e p).Nodup := by
    intro l
    induction l with
    | nil => intro e h; exact h
    | cons x l ih => intro e h; exact ih _ (addEdge_nodup e x h)
  exact this _ _ (by simp) p

/-- The successor lists are exactly the dependencies. -/
theorem mem_edges (nodes : List NodeDecl) (p c : Nat) :
    c ∈ edges nodes p ↔ DependsOn nodes p c := by
  unfold edges DependsOn
  rw [foldl_addEdge_mem, mem_attempts]
  simp only [List.not_mem_nil, false_or]
  tauto

/-! ### Counting predecessors -/

/-- Number of nodes below `n` selected by `r` that have an edge to `c`. -/
def predCount (e : Nat → List Nat) (n : Nat) (r : Nat → Bool) (c : Nat) : Nat :=
  (List.range n).countP fun p => r p && decide (c ∈ e p)

theorem countP_split {l : List Nat} (hn : l.Nodup) {i : Nat} (hi : i ∈ l) (f : Nat → Bool) :
    l.countP f = l.countP (fun p => f p && !(p == i)) + (if f i then 1 else 0) := by
  induction l with
  | nil => simp at hi
  | cons a l ih =>
    rw [List.nodup_cons] at hn
    rw [List.countP_cons, List.countP_cons]
    by_cases ha : a = i
    · subst ha
      have : l.countP f = l.countP (fun p => f p && !(p == a)) := by
        apply List.countP_congr
        intro x hx
        have : x ≠ a := fun h => hn.1 (h ▸ hx)
        simp [this]
      rw [this]; simp
    · have hi' : i ∈ l := by
        rcases List.mem_cons.1 hi with h | h
        · exact absurd h.symm ha
        · exact h
      rw [ih hn.2 hi']
      simp [ha]; omega

theorem predCount_upd (e : Nat → List Nat) (n : Nat) (r : Nat → Bool) {i : Nat} (hi : i < n)
    (hr : r i = true) (c : Nat) :
    predCount e n r c = predCount e n (upd r i false) c + (if c ∈ e i then 1 else 0) := by
  unfold predCount
  rw [countP_split List.nodup_range (List.mem_range.2 hi)]
  congr 1
  · apply List.countP_congr
    intro x _
    by_cases hx : x = i
    · subst hx; simp
    · simp [upd_ne _ _ hx, hx]
  · simp [hr]

theorem foldl_incr (l : List Nat) (h : l.Nodup) (d : Nat → Nat) (c : Nat) :
    l.foldl (fun d c => upd d c (d c + 1)) d c = d c + (if c ∈ l then 1 else 0) := by
  induction l generalizing d with
  | nil => simp
  | cons a l ih =>
    rw [List.nodup_cons] at h
    rw [List.foldl_cons, ih h.2]
    by_cases hc : c = a
    · subst hc; simp [h.1]
    · rw [upd_ne _ _ hc]; simp [hc]

theorem inDegree_eq (e : Nat → List Nat) (hn : ∀ p, (e p).Nodup) (n c : Nat) :
    inDegree e n c = predCount e n (fun _ => true) c := by
  unfold inDegree predCount
  have : ∀ (l : List Nat) (d : Nat → Nat),
      l.foldl (fun d p => (e p).foldl (fun d c => upd d c (d c + 1)) d) d c
        = d c + l.countP (fun p => true && decide (c ∈ e p)) := by
    intro l
    induction l with
    | nil => simp
    | cons a l ih =>
      intro d
      rw [List.foldl_cons, ih, foldl_incr _ (hn a), List.countP_cons]
      simp; omega
  rw [this]; simp

theorem decAll_spec (l : List Nat) (hn : l.Nodup) (d : Nat → Nat) (h : ∀ c ∈ l, 0 < d c) :
    ∃ d', decAll d l = some d' ∧ ∀ c, d' c + (if c ∈ l then 1 else 0) = d c := by
  induction l generalizing d with
  | nil => exact ⟨d, rfl, by simp⟩
  | cons a l ih =>
    rw [List.nodup_cons] at hn
    have ha := h a (by simp)
    obtain ⟨d', h1, h2⟩ := ih hn.2 (upd d a (d a - 1)) (by
      intro c hc
      have : c ≠ a := fun e => hn.1 (e ▸ hc)
      rw [upd_ne _ _ this]; exact h c (by simp [hc]))
    refine ⟨d', by simp [decAll, Nat.pos_iff_ne_zero.1 ha, h1], ?_⟩
    intro c
    have := h2 c
    by_cases hc : c = a
    · subst hc
      simp only [hn.1, if_false, upd_same] at this
      simp; omega
    · rw [upd_ne _ _ hc] at this
      simpa [hc] using this

/-! ### The sort -/

/-- Edges stay below `n`, are listed once, and are not loops. -/
structure EdgesOk (e : Nat → List Nat) (n : Nat) : Prop where
  nodup : ∀ p, (e p).Nodup
  bound : ∀ p c, c ∈ e p → p < n ∧ c < n

theorem edgesOk (nodes : List NodeDecl) : EdgesOk (edges nodes) nodes.length where
  nodup := edges_nodup nodes
  bound := fun p c h => ((mem_edges nodes p c).1 h) |> fun h => ⟨h.1, h.2.1⟩

/-- Loop invariant of the sort. -/
structure KInv (e : Nat → List Nat) (n : Nat) (k : Kahn) : Prop where
  deg : ∀ c, k.deg c = predCount e n k.rem c
  flat : k.steps.flatten.Nodup
  mem : ∀ i, i ∈ k.steps.flatten ↔ i < n ∧ k.rem i = false
  proc : k.processed = k.steps.flatten.length
  ord : ∀ p c, c ∈ e p → k.rem c = false → Earlier k.steps p c
  tight : ∀ s1 s2 x y, k.steps = s1 ++ x :: y :: s2 → ∀ c ∈ y, ∃ p ∈ x, c ∈ e p
  last : ∀ s x, k.steps = s ++ [x] → ∀ c, k.rem c = true → c < n → k.deg c = 0 → ∃ p ∈ x, c ∈ e p
  remout : ∀ i, n ≤ i → k.rem i = true

/-- What one round of removals does. -/
theorem removeAll_spec (e : Nat → List Nat) (n : Nat) (he : EdgesOk e n) (is : List Nat) (k : Kahn)
    (hn : is.Nodup) (hr : ∀ i ∈ is, i < n ∧ k.rem i = true)
    (hd : ∀ c, k.deg c = predCount e n k.rem c) :
    ∃ k', removeAll e k is = some k' ∧ k'.steps = k.steps ∧ k'.processed = k.processed + is.length ∧
      (∀ i, k'.rem i = (k.rem i && decide (i ∉ is))) ∧
      ∀ c, k'.deg c = predCount e n k'.rem c := by
  induction is generalizing k with
  | nil => exact ⟨k, rfl, rfl, by simp, by simp, hd⟩
  | cons i is ih =>
    rw [List.nodup_cons] at hn
    have hi := hr i (by simp)
    obtain ⟨d', hd1, hd2⟩ := decAll_spec (e i) (he.nodup i) k.deg (by
      intro c hc
      rw [hd c, predCount_upd e n k.rem hi.1 hi.2]
      simp [hc])
    obtain ⟨k', h1, h2, h3, h4, h5⟩ := ih
      { k with deg := d', rem := upd k.rem i false, processed := k.processed + 1 } hn.2 (by
        intro j hj
        have : j ≠ i := fun e => hn.1 (e ▸ hj)
        have := hr j (by simp [hj])
        refine ⟨this.1, ?_⟩
        show upd k.rem i false j = true
        rw [upd_ne _ _ ‹j ≠ i›]; exact this.2) (by
        intro c
        show d' c = predCount e n (upd k.rem i false) c
        have a := hd2 c
        rw [hd c, predCount_upd e n k.rem hi.1 hi.2] at a
        omega)
    refine ⟨k', by simp [removeAll, hd1, h1], h2, by rw [h3]; simp; omega, ?_, h5⟩
    intro j
    rw [h4]
    show (upd k.rem i false j && decide (j ∉ is)) = _
    by_cases hj : j = i
    · subst hj; simp
    · rw [upd_ne _ _ hj]; simp [hj]

theorem predCount_zero (e : Nat → List Nat) (n : Nat) (r : Nat → Bool) (c : Nat) :
    predCount e n r c = 0 ↔ ∀ p, p < n → r p = true → c ∉ e p := by
  unfold predCount
  rw [List.countP_eq_zero]
  simp only [List.mem_range, Bool.and_eq_true, decide_eq_true_eq, not_and]

theorem Earlier.snoc {steps : List (List Nat)} {a b : Nat} (h : Earlier steps a b) (s : List Nat) :
    Earlier (steps ++ [s]) a b := by
  obtain ⟨s1, s2, s3, x, y, rfl, ha, hb⟩ := h
  exact ⟨s1, s2, s3 ++ [s], x, y, by simp, ha, hb⟩

theorem Earlier.last {steps : List (List Nat)} {a b : Nat} {s : List Nat} (h : a ∈ steps.flatten)
    (hb : b ∈ s) : Earlier (steps ++ [s]) a b := by
  obtain ⟨x, hx, ha⟩ := List.mem_flatten.1 h
  obtain ⟨s1, s2, rfl⟩ := List.append_of_mem hx
  exact ⟨s1, s2, [], x, s, by simp, ha, hb⟩

theorem snoc_pair {steps s1 s2 : List (List Nat)} {x y s : List Nat}
    (h : steps ++ [s] = s1 ++ x :: y :: s2) :
    (∃ s2', s2 = s2' ++ [s] ∧ steps = s1 ++ x :: y :: s2') ∨ (s2 = [] ∧ y = s ∧ steps = s1 ++ [x]) := by
  rcases List.eq_nil_or_concat s2 with rfl | ⟨s2', z, rfl⟩
  · right
    have : steps ++ [s] = (s1 ++ [x]) ++ [y] := by simpa using h
    have := List.append_inj' this (by simp)
    exact ⟨rfl, by simpa using this.2.symm, this.1⟩
  · left
    have : steps ++ [s] = (s1 ++ x :: y :: s2') ++ [z] := by simpa using h
    have := List.append_inj' this (by simp)
    have hz : s = z := by simpa using this.2
    subst hz
    exact ⟨s2', by simp, this.1⟩

theorem nextStep_mem {n : Nat} {k : Kahn} {i : Nat} :
    i ∈ nextStep n k ↔ i < n ∧ k.rem i = true ∧ k.deg i = 0 := by
  unfold nextStep; simp [List.mem_filter]

theorem round (e : Nat → List Nat) (n : Nat) (he : EdgesOk e n) (k : Kahn) (h : KInv e n k)
    (hs : nextStep n k ≠ []) :
    ∃ k', removeAll e k (nextStep n k) = some k' ∧
      KInv e n { k' with steps := k'.steps ++ [nextStep n k] } ∧ k.processed < k'.processed := by
  have hnd : (nextStep n k).Nodup := List.Nodup.filter _ List.nodup_range
  obtain ⟨k', h1, h2, h3, h4, h5⟩ := removeAll_spec e n he (nextStep n k) k hnd
    (fun i hi => ⟨(nextStep_mem.1 hi).1, (nextStep_mem.1 hi).2.1⟩) h.deg
  have hlen : 0 < (nextStep n k).length := List.length_pos_iff.2 hs
  refine ⟨k', h1, ?_, by omega⟩
  have hfl : ((k'.steps ++ [nextStep n k]).flatten) = k.steps.flatten ++ nextStep n k := by
    rw [h2]; simp
  refine { deg := h5, flat := ?_, mem := ?_, proc := ?_, ord := ?_, tight := ?_, last := ?_, remout := ?_ }
  · rw [hfl]
    refine List.Nodup.append h.flat hnd ?_
    intro i hi hi2
    have := ((h.mem i).1 hi).2
    have := (nextStep_mem.1 hi2).2.1
    simp_all
  · intro i
    show i ∈ (k'.steps ++ [nextStep n k]).flatten ↔ i < n ∧ k'.rem i = false
    rw [hfl, List.mem_append, h.mem, h4]
    by_cases hi : i ∈ nextStep n k
    · have := nextStep_mem.1 hi
      simp [hi, this.1]
    · simp [hi]
  · show k'.processed = ((k'.steps ++ [nextStep n k]).flatten).length
    rw [hfl, h3, h.proc]; simp
  · intro p c hpc hc
    replace hc : k'.rem c = false := hc
    show Earlier (k'.steps ++ [nextStep n k]) p c
    rw [h2]
    rw [h4] at hc
    by_cases hk : k.rem c = false
    · exact (h.ord p c hpc hk).snoc _
    · have hk' : k.rem c = true := by simpa using hk
      have hin : c ∈ nextStep n k := by simpa [hk'] using hc
      have hz := (nextStep_mem.1 hin).2.2
      rw [h.deg, predCount_zero] at hz
      have hb := he.bound p c hpc
      have hp : k.rem p = false := by
        by_contra hne
        exact hz p hb.1 (by simpa using hne) hpc
      exact Earlier.last ((h.mem p).2 ⟨hb.1, hp⟩) hin
  · intro s1 s2 x y hst c hc
    replace hst : k'.steps ++ [nextStep n k] = s1 ++ x :: y :: s2 := hst
    rw [h2] at hst
    rcases snoc_pair hst with ⟨s2', _, he'⟩ | ⟨_, rfl, he'⟩
    · exact h.tight s1 s2' x y he' c hc
    · have := nextStep_mem.1 hc
      exact h.last s1 x he' c this.2.1 this.1 this.2.2
  · intro s x hst c hrem hcn hdeg
    replace hst : k'.steps ++ [nextStep n k] = s ++ [x] := hst
    replace hrem : k'.rem c = true := hrem
    replace hdeg : k'.deg c = 0 := hdeg
    have := List.append_inj' hst (by simp)
    have hx : nextStep n k = x := by simpa using this.2
    subst hx
    rw [h4] at hrem
    have hrem' : k.rem c = true ∧ c ∉ nextStep n k := by simpa using hrem
    have hpos : k.deg c ≠ 0 := fun hz => hrem'.2 (nextStep_mem.2 ⟨hcn, hrem'.1, hz⟩)
    rw [h.deg] at hpos
    rw [h5, predCount_zero] at hdeg
    by_contra hno
    apply hpos
    rw [predCount_zero]
    intro p hp hpr hpc
    have hpn : p ∉ nextStep n k := fun hin => hno ⟨p, hin, hpc⟩
    exact hdeg p hp (by rw [h4]; simp [hpr, hpn]) hpc
  · intro i hi
    show k'.rem i = true
    rw [h4, h.remout i hi]
    have : i ∉ nextStep n k := fun hin => by have := (nextStep_mem.1 hin).1; omega
    simp [this]

theorem processed_le (e : Nat → List Nat) (n : Nat) (k : Kahn) (h : KInv e n k) : k.processed ≤ n := by
  rw [h.proc]
  have : k.steps.flatten ⊆ List.range n := fun i hi => List.mem_range.2 ((h.mem i).1 hi).1
  simpa using (List.subperm_of_subset h.flat this).length_le

/-- What the finished sort guarantees. -/
def Sorted (e : Nat → List Nat) (n : Nat) (steps : List (List Nat)) : Prop :=
  steps.flatten.Nodup ∧ (∀ i, i ∈ steps.flatten ↔ i < n) ∧ (∀ p c, c ∈ e p → Earlier steps p c) ∧
  ∀ s1 s2 x y, steps = s1 ++ x :: y :: s2 → ∀ c ∈ y, ∃ p ∈ x, c ∈ e p

/-- What a reported cycle guarantees: some nodes, all real, are left over, each depends on another
one left over, and every left-out node has no left-over predecessor. -/
def Stuck (e : Nat → List Nat) (n : Nat) (inv : List Nat) : Prop :=
  inv ≠ [] ∧ (∀ i ∈ inv, i < n) ∧ (∀ c ∈ inv, ∃ p ∈ inv, c ∈ e p) ∧
    ∃ steps : List (List Nat), (∀ i, i < n → (i ∈ inv ↔ i ∉ steps.flatten)) ∧ steps.flatten.Nodup ∧
      (∀ p c, c ∈ e p → c ∉ inv → Earlier steps p c)

theorem kahnLoop_spec (e : Nat → List Nat) (n : Nat) (he : EdgesOk e n) (fuel : Nat) (k : Kahn)
    (h : KInv e n k) (hf : n < fuel + k.processed) :
    (∃ steps, kahnLoop e n fuel k = .ok steps ∧ Sorted e n steps) ∨
      ∃ inv, kahnLoop e n fuel k = .cycle inv ∧ Stuck e n inv := by
  induction fuel generalizing k with
  | zero => have := processed_le e n k h; omega
  | succ fuel ih =>
    unfold kahnLoop
    simp only
    by_cases hs : nextStep n k = []
    · rw [if_pos hs]
      have hno : ∀ i, i < n → k.rem i = true → k.deg i ≠ 0 := by
        intro i h1 h2 h3
        have : i ∈ nextStep n k := nextStep_mem.2 ⟨h1, h2, h3⟩
        rw [hs] at this; simp at this
      have hsub : k.steps.flatten ⊆ List.range n := fun i hi => List.mem_range.2 ((h.mem i).1 hi).1
      by_cases hp : k.processed < n
      · rw [if_pos hp]
        right
        refine ⟨_, rfl, ?_, ?_, ?_, k.steps, ?_, h.flat, ?_⟩
        · intro hnil
          have : List.range n ⊆ k.steps.flatten := by
            intro i hi
            have hin := List.mem_range.1 hi
            refine (h.mem i).2 ⟨hin, ?_⟩
            by_contra hr
            have : i ∈ (List.range n).filter k.rem := List.mem_filter.2 ⟨hi, by simpa using hr⟩
            rw [hnil] at this; simp at this
          have := (List.subperm_of_subset List.nodup_range this).length_le
          rw [← h.proc] at this; simp at this; omega
        · intro i hi; exact List.mem_range.1 (List.mem_filter.1 hi).1
        · intro c hc
          rw [List.mem_filter] at hc
          have := hno c (List.mem_range.1 hc.1) hc.2
          rw [h.deg] at this
          by_contra hne
          apply this
          rw [predCount_zero]
          intro p hp hpr hpc
          exact hne ⟨p, List.mem_filter.2 ⟨List.mem_range.2 hp, hpr⟩, hpc⟩
        · intro i hi
          rw [h.mem, List.mem_filter, List.mem_range]
          simp [hi]
        · intro p c hpc hc
          apply h.ord p c hpc
          have := (he.bound p c hpc).2
          by_contra hr
          exact hc (List.mem_filter.2 ⟨List.mem_range.2 this, by simpa using hr⟩)
      · rw [if_neg hp]
        left
        have hlen : n ≤ k.steps.flatten.length := by rw [← h.proc]; omega
        have hall : ∀ i, i < n → i ∈ k.steps.flatten := by
          intro i hi
          have hperm := (List.subperm_of_subset h.flat hsub).perm_of_length_le (by simpa using hlen)
          exact hperm.mem_iff.2 (List.mem_range.2 hi)
        refine ⟨_, rfl, h.flat, ?_, ?_, h.tight⟩
        · intro i; exact ⟨fun hi => ((h.mem i).1 hi).1, hall i⟩
        · intro p c hpc
          exact h.ord p c hpc ((h.mem c).1 (hall c (he.bound p c hpc).2)).2
    · rw [if_neg hs]
      obtain ⟨k', h1, h2, h3⟩ := round e n he k h hs
      rw [h1]
      exact ih _ h2 (by show n < fuel + k'.processed; omega)

theorem kinv_init (e : Nat → List Nat) (n : Nat) (he : EdgesOk e n) :
    KInv e n { deg := inDegree e n, rem := fun _ => true, steps := [], processed := 0 } where
  deg := fun c => inDegree_eq e he.nodup n c
  flat := by simp
  mem := by simp
  proc := by simp
  ord := by simp
  tight := by simp
  last := by simp
  remout := by simp

theorem topoSort_spec (e : Nat → List Nat) (n : Nat) (he : EdgesOk e n) :
    (∃ steps, topoSort e n = .ok steps ∧ Sorted e n steps) ∨
      ∃ inv, topoSort e n = .cycle inv ∧ Stuck e n inv :=
  kahnLoop_spec e n he (n + 1) _ (kinv_init e n he) (by simp)

/-! ### Steps as a strict order -/

/-- The step number of a node. -/
def stepOf (steps : List (List Nat)) (i : Nat) : Nat := steps.findIdx (fun s => decide (i ∈ s))

theorem stepOf_append_left {s1 s2 : List (List Nat)} {i : Nat} (h : i ∉ s1.flatten) :
    stepOf (s1 ++ s2) i = s1.length + stepOf s2 i := by
  unfold stepOf
  induction s1 with
  | nil => simp
  | cons a s1 ih =>
    simp only [List.flatten_cons, List.mem_append, not_or] at h
    simp only [List.cons_append, List.findIdx_cons, h.1, decide_false, cond_false, ih h.2,
      List.length_cons]
    omega

theorem stepOf_at {s1 s2 : List (List Nat)} {x : List Nat} {i : Nat}
    (h : (s1 ++ x :: s2).flatten.Nodup) (hi : i ∈ x) : stepOf (s1 ++ x :: s2) i = s1.length := by
  rw [stepOf_append_left]
  · unfold stepOf; simp [List.findIdx_cons, hi]
  · simp only [List.flatten_append, List.flatten_cons] at h
    intro hin
    exact (List.disjoint_of_nodup_append h) hin (by simp [hi])

theorem Earlier.lt {steps : List (List Nat)} {a b : Nat} (hn : steps.flatten.Nodup)
    (h : Earlier steps a b) : stepOf steps a < stepOf steps b := by
  obtain ⟨s1, s2, s3, x, y, rfl, ha, hb⟩ := h
  rw [stepOf_at hn ha]
  have : s1 ++ x :: (s2 ++ y :: s3) = (s1 ++ x :: s2) ++ y :: s3 := by simp
  rw [this] at hn ⊢
  rw [stepOf_at hn hb]; simp

/-! ### Cycles -/

theorem cycle_of_stuck {S : List Nat} {R : Nat → Nat → Prop} (hne : S ≠ [])
    (h : ∀ c ∈ S, ∃ p ∈ S, R p c) : ∀ c ∈ S, ∃ j ∈ S, Relation.TransGen R j j ∧ Relation.ReflTransGen R j c := by
  classical
  -- walk backwards from `c`; after more steps than there are nodes some node repeats
  choose! f hf using h
  intro c hc
  let w : Nat → Nat := fun k => f^[k] c
  have hw : ∀ k, w k ∈ S := by
    intro k
    induction k with
    | zero => exact hc
    | succ k ih => show f^[k + 1] c ∈ S; rw [Function.iterate_succ_apply']; exact (hf _ ih).1
  have hstep : ∀ k, R (w (k + 1)) (w k) := by
    intro k
    show R (f^[k + 1] c) (f^[k] c)
    rw [Function.iterate_succ_apply']; exact (hf _ (hw k)).2
  have hpath : ∀ d k, Relation.ReflTransGen R (w (k + d)) (w k) := by
    intro d
    induction d with
    | zero => intro k; exact .refl
    | succ d ih => intro k; exact .head (hstep (k + d)) (ih k)
  have hrep : ∃ a b, a < b ∧ w a = w b := by
    by_contra hno
    have hinj : Function.Injective w := by
      intro a b hab
      by_contra hne
      rcases Nat.lt_or_gt_of_ne hne with hlt | hlt
      · exact hno ⟨a, b, hlt, hab⟩
      · exact hno ⟨b, a, hlt, hab.symm⟩
    have hsub : (List.range (S.length + 1)).map w ⊆ S := by
      intro x hx
      obtain ⟨k, _, rfl⟩ := List.mem_map.1 hx
      exact hw k
    have := (List.subperm_of_subset (List.Nodup.map hinj List.nodup_range) hsub).length_le
    simp at this
    omega
  obtain ⟨a, b, hab, hr⟩ := hrep
  refine ⟨w a, hw a, ?_, by have := hpath a 0; rwa [Nat.zero_add] at this⟩
  obtain ⟨d, rfl⟩ := Nat.exists_eq_add_of_lt hab
  have h1 : Relation.ReflTransGen R (w (a + d + 1)) (w (a + 1)) := by
    have := hpath d (a + 1); rwa [show a + 1 + d = a + d + 1 by omega] at this
  have h2 := Relation.TransGen.tail' h1 (hstep a)
  rw [hr]
  rw [hr] at h2
  exact h2

theorem no_cycle_of_sorted {e : Nat → List Nat} {n : Nat} {steps : List (List Nat)}
    (h : Sorted e n steps) (i : Nat) : ¬ Relation.TransGen (fun p c => c ∈ e p) i i := by
  have : ∀ a b, Relation.TransGen (fun p c => c ∈ e p) a b → stepOf steps a < stepOf steps b := by
    intro a b hab
    induction hab with
    | single h' => exact (h.2.2.1 _ _ h').lt h.1
    | tail _ h' ih => exact Nat.lt_trans ih ((h.2.2.1 _ _ h').lt h.1)
  exact fun hc => Nat.lt_irrefl _ (this i i hc)

theorem dep_rel (nodes : List NodeDecl) : DependsOn nodes = fun p c => c ∈ edges nodes p := by
  funext p c; exact propext (mem_edges nodes p c).symm

theorem hasMetadata_of_dep {nodes : List NodeDecl} {p c : Nat} (h : DependsOn nodes p c) :
    hasMetadata nodes = true ∧ nodes ≠ [] := by
  obtain ⟨h1, h2, _, t, h3, _⟩ := h
  refine ⟨?_, by intro e; subst e; simp at h1⟩
  unfold hasMetadata
  rw [List.any_eq_true]
  refine ⟨nodes[p], List.getElem_mem h1, ?_⟩
  have : nodeAt nodes p = nodes[p] := by unfold nodeAt; simp [List.getD, h1]
  rw [this] at h3
  cases hp : (nodes[p]).pubs with
  | nil => rw [hp] at h3; simp at h3
  | cons a l => simp

/-! ### C50 -/

/-- Building the graph always ends, without an arithmetic panic, in an order or a reported cycle. -/
theorem build_ends (nodes : List NodeDecl) :
    (∃ g, build nodes = .ok g) ∨ ∃ inv, build nodes = .cycle inv := by
  unfold build
  by_cases h0 : nodes = []
  · rw [if_pos h0]; exact .inl ⟨_, rfl⟩
  · rw [if_neg h0]
    by_cases hm : hasMetadata nodes = true
    · rw [if_pos hm]
      rcases topoSort_spec (edges nodes) nodes.length (edgesOk nodes) with ⟨s, hs, _⟩ | ⟨s, hs, _⟩
      · rw [hs]; exact .inl ⟨_, rfl⟩
      · rw [hs]; exact .inr ⟨_, rfl⟩
    · rw [if_neg hm]; exact .inl ⟨_, rfl⟩

theorem build_topics {nodes : List NodeDecl} {g : Graph} (h : build nodes = .ok g)
    (hm : g.fromTopics = true) :
    Sorted (edges nodes) nodes.length g.steps ∧ g.successors = edges nodes ∧
      g.depCounts = inDegree (edges nodes) nodes.length := by
  unfold build at h
  by_cases h0 : nodes = []
  · rw [if_pos h0] at h; injection h with h; subst h; simp at hm
  · rw [if_neg h0] at h
    by_cases hmd : hasMetadata nodes = true
    · rw [if_pos hmd] at h
      rcases topoSort_spec (edges nodes) nodes.length (edgesOk nodes) with ⟨s, hs, hs2⟩ | ⟨s, hs, _⟩
      · rw [hs] at h; injection h with h; subst h; exact ⟨hs2, rfl, rfl⟩
      · rw [hs] at h; simp at h
    · rw [if_neg hmd] at h; injection h with h; subst h; simp [buildFromOrder] at hm

theorem build_order_mode {nodes : List NodeDecl} {g : Graph} (h : build nodes = .ok g)
    (hm : g.fromTopics = false) : (nodes = [] ∧ g.steps = []) ∨ g = buildFromOrder nodes := by
  unfold build at h
  by_cases h0 : nodes = []
  · rw [if_pos h0] at h; injection h with h; subst h; exact .inl ⟨h0, rfl⟩
  · rw [if_neg h0] at h
    by_cases hmd : hasMetadata nodes = true
    · rw [if_pos hmd] at h
      rcases topoSort_spec (edges nodes) nodes.length (edgesOk nodes) with ⟨s, hs, hs2⟩ | ⟨s, hs, _⟩
      · rw [hs] at h; injection h with h; subst h; simp at hm
      · rw [hs] at h; simp at h
    · rw [if_neg hmd] at h; injection h with h; exact .inr h.symm

/-- Topic information decides as soon as any node declares any topic; `.order()` is used only
otherwise. -/
theorem topics_used_iff {nodes : List NodeDecl} {g : Graph} (h : build nodes = .ok g) :
    g.fromTopics = true ↔ ∃ d ∈ nodes, d.pubs ≠ [] ∨ d.subs ≠ [] := by
  have hmd : hasMetadata nodes = true ↔ ∃ d ∈ nodes, d.pubs ≠ [] ∨ d.subs ≠ [] := by
    unfold hasMetadata; simp [List.any_eq_true]
  rw [← hmd]
  unfold build at h
  by_cases h0 : nodes = []
  · rw [if_pos h0] at h; injection h with h; subst h; subst h0; simp [hasMetadata]
  · rw [if_neg h0] at h
    by_cases hc : hasMetadata nodes = true
    · rw [if_pos hc] at h
      cases ht : topoSort (edges nodes) nodes.length with
      | ok s => rw [ht] at h; injection h with h; subst h; simp [hc]
      | cycle s => rw [ht] at h; simp at h
      | panic => rw [ht] at h; simp at h
      | diverge => rw [ht] at h; simp at h
    · rw [if_neg hc] at h; injection h with h; subst h; simp [hc, buildFromOrder]

/-- Every producer is in an earlier step than each of its consumers. -/
theorem producers_first {nodes : List NodeDecl} {g : Graph} (h : build nodes = .ok g) {p c : Nat}
    (hd : DependsOn nodes p c) : Earlier g.steps p c := by
  have hm : g.fromTopics = true := by
    by_contra hne
    have hf : g.fromTopics = false := by simpa using hne
    have := (hasMetadata_of_dep hd)
    unfold build at h
    rw [if_neg this.2, if_pos this.1] at h
    cases ht : topoSort (edges nodes) nodes.length with
    | ok s => rw [ht] at h; injection h with h; subst h; simp at hf
    | cycle s => rw [ht] at h; simp at h
    | panic => rw [ht] at h; simp at h
    | diverge => rw [ht] at h; simp at h
  exact (build_topics h hm).1.2.2.1 p c ((mem_edges nodes p c).2 hd)

/-- Nothing is delayed needlessly: a node in a later step depends directly on one in the step just
before. -/
theorem steps_tight {nodes : List NodeDecl} {g : Graph} (h : build nodes = .ok g)
    (hm : g.fromTopics = true) {s1 s2 : List (List Nat)} {x y : List Nat}
    (hs : g.steps = s1 ++ x :: y :: s2) {c : Nat} (hc : c ∈ y) : ∃ p ∈ x, DependsOn nodes p c := by
  obtain ⟨p, hp, hpc⟩ := (build_topics h hm).1.2.2.2 s1 s2 x y hs c hc
  exact ⟨p, hp, (mem_edges nodes p c).1 hpc⟩

/-- Scheduling by topics fails exactly when the declarations contain a dependency cycle. -/
theorem fails_iff_cycle (nodes : List NodeDecl) :
    (∃ inv, build nodes = .cycle inv) ↔ ∃ i, OnCycle nodes i := by
  constructor
  · rintro ⟨inv, h⟩
    unfold build at h
    by_cases h0 : nodes = []
    · rw [if_pos h0] at h; simp at h
    · rw [if_neg h0] at h
      by_cases hm : hasMetadata nodes = true
      · rw [if_pos hm] at h
        rcases topoSort_spec (edges nodes) nodes.length (edgesOk nodes) with ⟨s, hs, _⟩ | ⟨s, hs, hs2⟩
        · rw [hs] at h; simp at h
        · obtain ⟨a, ha⟩ := List.exists_mem_of_ne_nil _ hs2.1
          obtain ⟨j, _, hj, _⟩ := cycle_of_stuck (R := fun p c => c ∈ edges nodes p) hs2.1 hs2.2.2.1 a ha
          exact ⟨j, by unfold OnCycle; rw [dep_rel]; exact hj⟩
      · rw [if_neg hm] at h; simp at h
  · rintro ⟨i, hi⟩
    rcases build_ends nodes with ⟨g, hg⟩ | h
    · exfalso
      obtain ⟨b, hb⟩ : ∃ b, DependsOn nodes i b := by
        obtain ⟨b, hb, _⟩ := Relation.TransGen.head'_iff.1 hi; exact ⟨b, hb⟩
      have hmeta := hasMetadata_of_dep hb
      unfold build at hg
      rw [if_neg hmeta.2, if_pos hmeta.1] at hg
      rcases topoSort_spec (edges nodes) nodes.length (edgesOk nodes) with ⟨s, hs, hs2⟩ | ⟨s, hs, _⟩
      · unfold OnCycle at hi; rw [dep_rel] at hi
        exact no_cycle_of_sorted hs2 i hi
      · rw [hs] at hg; simp at hg
    · exact h

/-- The nodes named in the error are exactly those on a cycle or downstream of one. -/
theorem involved_iff {nodes : List NodeDecl} {inv : List Nat} (h : build nodes = .cycle inv) (i : Nat) :
    i ∈ inv ↔ ∃ j, OnCycle nodes j ∧ Relation.ReflTransGen (DependsOn nodes) j i := by
  unfold build at h
  by_cases h0 : nodes = []
  · rw [if_pos h0] at h; simp at h
  rw [if_neg h0] at h
  by_cases hm : hasMetadata nodes = true
  · rw [if_pos hm] at h
    rcases topoSort_spec (edges nodes) nodes.length (edgesOk nodes) with ⟨s, hs, _⟩ | ⟨s, hs, hst⟩
    · rw [hs] at h; simp at h
    · rw [hs] at h; injection h with h; subst h
      constructor
      · intro hi
        obtain ⟨j, _, hj, hji⟩ := cycle_of_stuck (R := fun p c => c ∈ edges nodes p) hst.1 hst.2.2.1 i hi
        unfold OnCycle; rw [dep_rel]; exact ⟨j, hj, hji⟩
      · rintro ⟨j, hj, hji⟩
        unfold OnCycle at hj; rw [dep_rel] at hj hji
        obtain ⟨_, hbd, _, steps, hmem, hnd, hord⟩ := hst
        -- going down from a left-over node stays left over
        have hdown : ∀ p c, c ∈ edges nodes p → c ∉ s → p ∉ s := by
          intro p c hpc hc hp
          obtain ⟨s1, s2, s3, x, y, e, ha, _⟩ := hord p c hpc hc
          have : p ∈ steps.flatten := by rw [e]; simp [ha]
          exact ((hmem p (((edgesOk nodes).bound p c hpc).1)).1 hp) this
        have hrank : ∀ a b, Relation.TransGen (fun p c => c ∈ edges nodes p) a b → b ∉ s →
            a ∉ s ∧ stepOf steps a < stepOf steps b := by
          intro a b hab
          induction hab with
          | single h' => intro hb; exact ⟨hdown _ _ h' hb, (hord _ _ h' hb).lt hnd⟩
          | tail _ h' ih =>
            intro hb
            have h1 := hdown _ _ h' hb
            have h2 := ih h1
            exact ⟨h2.1, Nat.lt_trans h2.2 ((hord _ _ h' hb).lt hnd)⟩
        have hjs : j ∈ s := by
          by_contra hno
          exact Nat.lt_irrefl _ (hrank j j hj hno).2
        clear hj
        induction hji with
        | refl => exact hjs
        | tail _ h' ih =>
          by_contra hc
          exact hdown _ _ h' hc ih
  · rw [if_neg hm] at h; simp at h

/-- Dispatch data: the successor lists are the dependencies, each once, and the counts their number. -/
theorem dispatch_data {nodes : List NodeDecl} {g : Graph} (h : build nodes = .ok g)
    (hm : g.fromTopics = true) :
    (∀ p c, c ∈ g.successors p ↔ DependsOn nodes p c) ∧ (∀ p, (g.successors p).Nodup) ∧
    ∀ c, g.depCounts c = (List.range nodes.length).countP (fun p => decide (c ∈ g.successors p)) := by
  obtain ⟨_, h2, h3⟩ := build_topics h hm
  rw [h2, h3]
  refine ⟨mem_edges nodes, edges_nodup nodes, ?_⟩
  intro c
  rw [inDegree_eq _ (edges_nodup nodes)]
  simp [predCount]

/-! ### C51 -/

theorem mem_dedupAdjacent (l : List Nat) (x : Nat) : x ∈ dedupAdjacent l ↔ x ∈ l := by
  induction l using dedupAdjacent.induct with
  | case1 b l ih => rw [dedupAdjacent, if_pos rfl, ih]; simp
  | case2 a b l h ih => rw [dedupAdjacent, if_neg h, List.mem_cons, ih]; simp
  | case3 l h => rw [dedupAdjacent]; exact h

theorem dedupAdjacent_sorted (l : List Nat) (h : l.Pairwise (· ≤ ·)) :
    (dedupAdjacent l).Pairwise (· < ·) := by
  induction l using dedupAdjacent.induct with
  | case1 b l ih =>
    rw [dedupAdjacent, if_pos rfl]; exact ih (List.pairwise_cons.1 h).2
  | case2 a b l he ih =>
    rw [dedupAdjacent, if_neg he, List.pairwise_cons]
    rw [List.pairwise_cons] at h
    refine ⟨?_, ih h.2⟩
    intro x hx
    rw [mem_dedupAdjacent] at hx
    have h1 := h.1 b (by simp)
    rcases List.mem_cons.1 hx with rfl | hx
    · omega
    · have := (List.pairwise_cons.1 h.2).1 x hx
      omega
  | case3 l hl =>
    rw [dedupAdjacent]
    · match l, hl with
      | [], _ => simp
      | [a], _ => simp
      | a :: b :: l, hl => exact absurd rfl (hl a b l)
    · exact hl

theorem orderValues_sorted (nodes : List NodeDecl) : (orderValues nodes).Pairwise (· < ·) := by
  apply dedupAdjacent_sorted
  exact List.pairwise_insertionSort (· ≤ ·) _

theorem mem_orderValues (nodes : List NodeDecl) (o : Nat) :
    o ∈ orderValues nodes ↔ ∃ i, i < nodes.length ∧ (nodeAt nodes i).order = o := by
  unfold orderValues
  rw [mem_dedupAdjacent, List.mem_insertionSort, List.mem_map]
  constructor
  · rintro ⟨d, hd, rfl⟩
    obtain ⟨i, hi, rfl⟩ := List.mem_iff_getElem.1 hd
    exact ⟨i, hi, by unfold nodeAt; simp [List.getD, hi]⟩
  · rintro ⟨i, hi, rfl⟩
    exact ⟨nodes[i], List.getElem_mem hi, by unfold nodeAt; simp [List.getD, hi]⟩

theorem mem_orderStep (nodes : List NodeDecl) (o i : Nat) :
    i ∈ (List.range nodes.length).filter (fun i => (nodeAt nodes i).order == o) ↔
      i < nodes.length ∧ (nodeAt nodes i).order = o := by simp [List.mem_filter]

theorem orderSteps_nodup (nodes : List NodeDecl) : (orderSteps nodes).flatten.Nodup := by
  unfold orderSteps
  rw [List.nodup_flatten]
  constructor
  · intro l hl
    obtain ⟨o, _, rfl⟩ := List.mem_map.1 hl
    exact List.Nodup.filter _ List.nodup_range
  · rw [List.pairwise_map]
    refine (orderValues_sorted nodes).imp ?_
    intro a b hab x hx hy
    rw [mem_orderStep] at hx hy
    omega

theorem mem_orderSteps (nodes : List NodeDecl) (i : Nat) :
    i ∈ (orderSteps nodes).flatten ↔ i < nodes.length := by
  unfold orderSteps
  simp only [List.mem_flatten, List.mem_map]
  constructor
  · rintro ⟨l, ⟨o, _, rfl⟩, hi⟩; exact ((mem_orderStep nodes o i).1 hi).1
  · intro hi
    exact ⟨_, ⟨(nodeAt nodes i).order, (mem_orderValues nodes _).2 ⟨i, hi, rfl⟩, rfl⟩,
      (mem_orderStep nodes _ i).2 ⟨hi, rfl⟩⟩

/-- Every node is in exactly one step, in both modes. -/
theorem steps_cover_once {nodes : List NodeDecl} {g : Graph} (h : build nodes = .ok g) :
    g.steps.flatten.Perm (List.range nodes.length) := by
  rw [List.perm_ext_iff_of_nodup]
  · intro i
    rw [List.mem_range]
    by_cases hm : g.fromTopics = true
    · exact (build_topics h hm).1.2.1 i
    · rcases build_order_mode h (by simpa using hm) with ⟨e, e2⟩ | e
      · subst e; rw [e2]; simp
      · subst e; exact mem_orderSteps nodes i
  · by_cases hm : g.fromTopics = true
    · exact (build_topics h hm).1.1
    · rcases build_order_mode h (by simpa using hm) with ⟨_, e2⟩ | e
      · rw [e2]; simp
      · subst e; exact orderSteps_nodup nodes
  · exact List.nodup_range

theorem orderSteps_earlier (nodes : List NodeDecl) {a b : Nat} (ha : a < nodes.length)
    (hb : b < nodes.length) (h : (nodeAt nodes a).order < (nodeAt nodes b).order) :
    Earlier (orderSteps nodes) a b := by
  have h1 := (mem_orderValues nodes _).2 ⟨a, ha, rfl⟩
  have h2 := (mem_orderValues nodes _).2 ⟨b, hb, rfl⟩
  have hs := orderValues_sorted nodes
  obtain ⟨l1, l2, e⟩ := List.append_of_mem h1
  rw [e, List.mem_append, List.mem_cons] at h2
  rw [e, List.pairwise_append, List.pairwise_cons] at hs
  rcases h2 with h2 | h2 | h2
  · have := hs.2.2 _ h2 _ (List.mem_cons_self ..); omega
  · omega
  · obtain ⟨l3, l4, e2⟩ := List.append_of_mem h2
    let F : Nat → List Nat := fun o => (List.range nodes.length).filter fun i => (nodeAt nodes i).order == o
    refine ⟨l1.map F, l3.map F, l4.map F, _, _, ?_, (mem_orderStep nodes _ a).2 ⟨ha, rfl⟩, (mem_orderStep nodes _ b).2 ⟨hb, rfl⟩⟩
    unfold orderSteps
    rw [e, e2]; simp [F]

theorem orderSteps_same_iff (nodes : List NodeDecl) {a b : Nat} (ha : a < nodes.length)
    (hb : b < nodes.length) : (nodeAt nodes a).order = (nodeAt nodes b).order ↔
      ∃ s ∈ orderSteps nodes, a ∈ s ∧ b ∈ s := by
  constructor
  · intro he
    refine ⟨_, List.mem_map.2 ⟨_, (mem_orderValues nodes _).2 ⟨a, ha, rfl⟩, rfl⟩,
      (mem_orderStep nodes _ a).2 ⟨ha, rfl⟩, (mem_orderStep nodes _ b).2 ⟨hb, he.symm⟩⟩
  · rintro ⟨s, hs, h1, h2⟩
    obtain ⟨o, _, rfl⟩ := List.mem_map.1 hs
    rw [mem_orderStep] at h1 h2
    omega

theorem orderSteps_earlier_iff (nodes : List NodeDecl) {a b : Nat} (ha : a < nodes.length)
    (hb : b < nodes.length) :
    (nodeAt nodes a).order < (nodeAt nodes b).order ↔ Earlier (orderSteps nodes) a b := by
  have hnd := orderSteps_nodup nodes
  refine ⟨orderSteps_earlier nodes ha hb, ?_⟩
  intro he
  rcases Nat.lt_trichotomy (nodeAt nodes a).order (nodeAt nodes b).order with h1 | h1 | h1
  · exact h1
  · exfalso
    obtain ⟨s, hs, h2, h3⟩ := (orderSteps_same_iff nodes ha hb).1 h1
    obtain ⟨l1, l2, e⟩ := List.append_of_mem hs
    have hlt' := he.lt hnd
    rw [e] at hlt' hnd
    rw [stepOf_at hnd h2, stepOf_at hnd h3] at hlt'
    omega
  · have h1 := (orderSteps_earlier nodes hb ha h1).lt hnd
    have h2 := he.lt hnd
    omega

/-- Without topic declarations, lower `.order()` values come in strictly earlier steps, and equal
values share a step. -/
theorem order_tiers {nodes : List NodeDecl} {g : Graph} (h : build nodes = .ok g)
    (hm : g.fromTopics = false) {a b : Nat} (ha : a < nodes.length) (hb : b < nodes.length) :
    ((nodeAt nodes a).order < (nodeAt nodes b).order ↔ Earlier g.steps a b) ∧
    ((nodeAt nodes a).order = (nodeAt nodes b).order ↔ ∃ s ∈ g.steps, a ∈ s ∧ b ∈ s) := by
  rcases build_order_mode h hm with ⟨e, _⟩ | e
  · subst e; simp at ha
  subst e
  exact ⟨orderSteps_earlier_iff nodes ha hb, orderSteps_same_iff nodes ha hb⟩

/-- The successors of a node in `.order()` mode are exactly the nodes of the next tier. -/
theorem mem_tierPairs (ts : List (List Nat)) (p c : Nat) :
    (p, c) ∈ tierPairs ts ↔ ∃ s1 s2 x y, ts = s1 ++ x :: y :: s2 ∧ p ∈ x ∧ c ∈ y := by
  induction ts using tierPairs.induct with
  | case1 a b rest ih =>
    rw [tierPairs, List.mem_append, ih]
    simp only [List.mem_flatMap, List.mem_map, Prod.mk.injEq]
    constructor
    · rintro (⟨q, hq, d, hd, rfl, rfl⟩ | ⟨s1, s2, x, y, e, h1, h2⟩)
      · exact ⟨[], rest, a, b, rfl, hq, hd⟩
      · exact ⟨a :: s1, s2, x, y, by rw [e]; rfl, h1, h2⟩
    · rintro ⟨s1, s2, x, y, e, h1, h2⟩
      match s1, e with
      | [], e =>
        simp only [List.nil_append, List.cons.injEq] at e
        obtain ⟨rfl, rfl, rfl⟩ := e
        exact .inl ⟨p, h1, c, h2, rfl, rfl⟩
      | z :: s1, e =>
        simp only [List.cons_append, List.cons.injEq] at e
        exact .inr ⟨s1, s2, x, y, e.2, h1, h2⟩
  | case2 t h =>
    rw [tierPairs]
    · constructor
      · intro h'; simp at h'
      · rintro ⟨s1, s2, x, y, e, _⟩
        match s1, e with
        | [], e => exact absurd e (h _ _ _)
        | [z], e => exact absurd e (h _ _ _)
        | z :: w :: s1, e => exact absurd e (h _ _ _)
    · exact h

/-! ### Non-vacuity -/

/-- imu and camera drivers, a SLAM node and a controller. -/
def robot : List NodeDecl :=
  [⟨["imu"], [], 0⟩, ⟨["image"], [], 0⟩, ⟨["pose"], ["image"], 5⟩, ⟨["cmd"], ["imu", "pose"], 9⟩]

example : (match build robot with | .ok g => g.steps | _ => []) = [[0, 1], [2], [3]] := by decide +kernel
example : DependsOn robot 2 3 := by refine ⟨by decide, by decide, by decide, "pose", by decide, by decide⟩
/-- Two nodes feeding each other: reported as a cycle, along with the node downstream. -/
example : (match build [⟨["a"], ["b"], 0⟩, ⟨["b"], ["a"], 0⟩, ⟨[], ["a"], 0⟩, ⟨["z"], [], 0⟩] with
    | .cycle inv => inv | _ => []) = [0, 1, 2] := by decide +kernel
example : (match build [⟨[], [], 7⟩, ⟨[], [], 2⟩, ⟨[], [], 7⟩] with | .ok g => g.steps | _ => []) = [[1], [0, 2]] := by
  decide +kernel

/-- Disagreement with the documentation of the chain grouping (dependency_graph.rs:204-208): two
real-time nodes connected by a dependency are put in different chains. -/
theorem chains_split_dependent_nodes (g : Graph) (a b : Nat) (rt : List Nat) (hab : a ≠ b)
    (_ha : a ∈ rt) (_hb : b ∈ rt) : ¬ ∃ ch ∈ independentChains g rt, a ∈ ch ∧ b ∈ ch := by
  rintro ⟨ch, hch, h1, h2⟩
  obtain ⟨x, _, rfl⟩ := List.mem_map.1 hch
  simp only [List.mem_singleton] at h1 h2
  exact hab (h1.trans h2.symm)

end Horus.Sched.Graph
