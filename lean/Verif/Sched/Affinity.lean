import Mathlib.Data.List.Basic
import Mathlib.Data.List.Range
import Mathlib.Data.List.SplitOn
import Mathlib.Data.List.TakeWhile
import Mathlib.Data.List.Nodup
import Mathlib.Tactic.Common
/-
Which CPU a real-time thread runs on. Sources: /repo/horus_core/src/scheduling/rt.rs:81-101, /repo/horus_sys/src/rt/mod.rs:134-175, 340-358,
/repo/horus_core/src/core/rt_config.rs:201-283, 477-529, scheduling/rt_executor.rs:86-115, 680-740, scheduling/scheduler/mod.rs:1279-1297, 1372-1443, 2725-2738,
/repo/horus_sys/src/rt/linux.rs:270-304.
A thread has an affinity mask, the ascending list of CPUs it may run on; threads inherit it from the thread that makes them (sched_setaffinity(2)).
`core_affinity::get_core_ids` is the mask of the calling thread, and setting the affinity to a CPU of the mask succeeds.
-/
namespace Horus.Affinity

/-- The CPUs a thread may run on, ascending. -/
abbrev Mask := List Nat

/-- rt.rs:81-101 and sys/rt/mod.rs:158-175: the CPU chosen; `none` is the error. -/
def pin (m : Mask) : List Nat → Option Nat
  | [] => none
  | c :: cs => match m[c]? with | some x => some x | none => pin m cs

/-- The mask of the thread afterwards. -/
def after (m : Mask) (cores : List Nat) : Mask := match pin m cores with | some x => [x] | none => m

/-- Masks are ascending. -/
def Ascending (m : Mask) : Prop := m.Pairwise (· < ·)

theorem nth_iff (m : Mask) (k c : Nat) (hs : Ascending m) (hk : ∀ x ∈ m, k ≤ x) : m[c]? = some (k + c) ↔ ∀ i ≤ c, k + i ∈ m := by
  induction m generalizing k c with
  | nil => 
    simp only [List.getElem?_nil, List.not_mem_nil]
    constructor
    · intro h; cases h
    · intro h; exact (h 0 (Nat.zero_le c)).elim
  | cons a t ih =>
    unfold Ascending at hs
    rw [List.pairwise_cons] at hs
    have ha := hk a (by simp)
    have hfirst : k ∈ a :: t → a = k := by
      intro h
      rcases List.mem_cons.1 h with h | h
      · exact h.symm
      · have := hs.1 k h; omega
    cases c with
    | zero =>
      simp only [List.getElem?_cons_zero, Option.some.injEq, Nat.add_zero, Nat.le_zero_eq, forall_eq]
      exact ⟨fun h => by rw [h]; simp, hfirst⟩
    | succ c =>
      rw [List.getElem?_cons_succ, show k + (c + 1) = (k + 1) + c by omega, ih (k + 1) c hs.2 (fun x hx => by have := hs.1 x hx; omega)]
      constructor
      · intro h i hi
        cases i with
        | zero =>
          have := hs.1 _ (h 0 (by omega))
          have : a = k := by omega
          rw [this]; simp
        | succ i =>
          have := h i (by omega)
          rw [show k + 1 + i = k + (i + 1) by omega] at this
          exact List.mem_cons_of_mem _ this
      · intro h i hi
        have h0 := hfirst (h 0 (by omega))
        have := h (i + 1) (by omega)
        rcases List.mem_cons.1 this with h1 | h1
        · omega
        · rw [show k + 1 + i = k + (i + 1) by omega]; exact h1

/-- **Asked for CPU `c`, a thread gets it exactly if all CPUs from 0 to `c` are in its mask.** -/
theorem pinned_iff (m : Mask) (hs : Ascending m) (c : Nat) : pin m [c] = some c ↔ ∀ i ≤ c, i ∈ m := by
  have := nth_iff m 0 c hs (fun _ _ => Nat.zero_le _)
  simp only [Nat.zero_add] at this
  rw [← this]
  unfold pin
  cases h : m[c]? <;> simp [pin]

/-- On a machine where the process may use all CPUs each one can be had. -/
theorem pinned_unrestricted (n c : Nat) (h : c < n) : after (List.range n) [c] = [c] := by
  have : pin (List.range n) [c] = some c := by
    simp [pin, h]
  unfold after
  rw [this]

theorem pin_mem (m : Mask) (cores : List Nat) (x : Nat) (h : pin m cores = some x) : x ∈ m := by
  induction cores with
  | nil => cases h
  | cons c cs ih =>
    unfold pin at h
    split at h
    · rename_i y hy; cases h; exact List.mem_of_getElem? hy
    · exact ih h

/-- **Disagreement: a CPU that was set aside for real-time work with `isolcpus` is never used**: it is not in the mask a process starts with, and whatever
is asked for, the thread stays inside its mask. -/
theorem isolated_never_used (m : Mask) (cores : List Nat) (c : Nat) (hc : c ∉ m) : c ∉ after m cores := by
  unfold after
  split
  · rename_i x hx
    intro h
    rw [List.mem_singleton] at h
    exact hc (h ▸ pin_mem m cores x hx)
  · exact hc

/-- **Disagreement: with CPU 1 isolated, a thread asked to run on it is put on CPU 2**, and the success is reported. -/
theorem wrong_cpu : pin [0, 2, 3] [1] = some 2 := rfl

/-- With the last CPUs isolated, asking for one of them is an error. -/
theorem last_isolated_fails (k c : Nat) (h : k ≤ c) : pin (List.range k) [c] = none := by
  have : (List.range k)[c]? = none := by rw [List.getElem?_eq_none]; simpa using h
  simp [pin, this]

/-! ### The CPUs recommended -/

/-- rt_config.rs:481-528: the four loops are one over the lists one behind the other, with the early return. -/
def go (count : Nat) : List Nat → List Nat → List Nat
  | acc, [] => acc
  | acc, c :: cs => if c ∈ acc then go count acc cs else if (acc ++ [c]).length ≥ count then acc ++ [c] else go count (acc ++ [c]) cs

/-- `get_rt_recommended_cpus` (rt_config.rs:477-529); `n` is `available_parallelism`. -/
def recommended (isolated nohz : List Nat) (n count : Nat) : List Nat :=
  go count [] (isolated.filter (fun c => decide (c ∈ nohz)) ++ isolated ++ nohz ++ (List.range n).reverse)

/-- The order of preference of its documentation (rt_config.rs:455-459). -/
def rank (isolated nohz : List Nat) (c : Nat) : Nat :=
  if c ∈ isolated ∧ c ∈ nohz then 0 else if c ∈ isolated then 1 else if c ∈ nohz then 2 else 3

/-- Each element is an old one or ranks behind all before it. -/
def Fits (r : Nat → Nat) : List Nat → List Nat → Prop
  | _, [] => True
  | pre, c :: cs => (c ∈ pre ∨ ∀ a ∈ pre, r a ≤ r c) ∧ Fits r (pre ++ [c]) cs

theorem fits_append (r : Nat → Nat) (pre l k : List Nat) : Fits r pre (l ++ k) ↔ Fits r pre l ∧ Fits r (pre ++ l) k := by
  induction l generalizing pre with
  | nil => simp [Fits]
  | cons c l ih =>
    simp only [List.cons_append, Fits, ih, List.append_assoc, List.nil_append, and_assoc]

theorem fits_block (r : Nat → Nat) (k : Nat) (pre l : List Nat) (h1 : ∀ a ∈ pre ++ l, r a ≤ k) (h2 : ∀ c ∈ l, r c < k → c ∈ pre) : Fits r pre l := by
  induction l generalizing pre with
  | nil => trivial
  | cons c l ih =>
    refine ⟨?_, ih _ (fun a ha => h1 a (by simpa using ha)) (fun d hd hr => by simp [h2 d (by simp [hd]) hr])⟩
    have hc := h1 c (by simp)
    rcases Nat.lt_or_ge (r c) k with h | h
    · exact Or.inl (h2 c (by simp) h)
    · right
      intro a ha
      have := h1 a (by simp [ha])
      omega

theorem go_spec (r : Nat → Nat) (count : Nat) (l : List Nat) : ∀ (acc pre : List Nat), acc.Nodup → acc.length < count → (∀ x, x ∈ acc ↔ x ∈ pre) →
    acc.Pairwise (fun a b => r a ≤ r b) → Fits r pre l →
    (go count acc l).Nodup ∧ (go count acc l).length ≤ count ∧ (go count acc l).Pairwise (fun a b => r a ≤ r b) ∧ (∀ x ∈ go count acc l, x ∈ acc ∨ x ∈ l) ∧
    ((go count acc l).length < count → ∀ x, x ∈ acc ∨ x ∈ l → x ∈ go count acc l) := by
  induction l with
  | nil =>
    intro acc pre hn hl hm hp _
    exact ⟨hn, Nat.le_of_lt hl, hp, fun x hx => Or.inl hx, fun _ x hx => by rcases hx with hx | hx; exact hx; cases hx⟩
  | cons c cs ih =>
    intro acc pre hn hl hm hp hf
    obtain ⟨hf1, hf2⟩ := hf
    by_cases hin : c ∈ acc
    · have e : go count acc (c :: cs) = go count acc cs := by rw [go, if_pos hin]
      rw [e]
      obtain ⟨a1, a2, a3, a4, a5⟩ := ih acc (pre ++ [c]) hn hl (fun x => by
        rw [hm]; simp only [List.mem_append, List.mem_singleton]
        exact ⟨Or.inl, fun h => h.elim id fun h => h ▸ (hm c).1 hin⟩) hp hf2
      refine ⟨a1, a2, a3, fun x hx => (a4 x hx).imp id (List.mem_cons_of_mem _), fun h x hx => a5 h x ?_⟩
      rcases hx with hx | hx
      · exact Or.inl hx
      · rcases List.mem_cons.1 hx with hx | hx
        · exact Or.inl (hx ▸ hin)
        · exact Or.inr hx
    · have hr : ∀ a ∈ acc, r a ≤ r c := by
        rcases hf1 with h | h
        · exact (hin ((hm c).2 h)).elim
        · exact fun a ha => h a ((hm a).1 ha)
      have hn' : (acc ++ [c]).Nodup := by
        rw [List.nodup_append]
        refine ⟨hn, by simp, ?_⟩
        intro a ha b hb
        rw [List.mem_singleton] at hb
        intro he
        exact hin (hb ▸ he ▸ ha)
      have hp' : (acc ++ [c]).Pairwise (fun a b => r a ≤ r b) := by
        rw [List.pairwise_append]
        refine ⟨hp, by simp, ?_⟩
        intro a ha b hb
        rw [List.mem_singleton] at hb
        exact hb ▸ hr a ha
      by_cases hfull : (acc ++ [c]).length ≥ count
      · have e : go count acc (c :: cs) = acc ++ [c] := by rw [go, if_neg hin, if_pos hfull]
        rw [e]
        refine ⟨hn', by simp; omega, hp', ?_, fun h => absurd h (by omega)⟩
        intro x hx
        rcases List.mem_append.1 hx with hx | hx
        · exact Or.inl hx
        · exact Or.inr (by rw [List.mem_singleton.1 hx]; simp)
      · have e : go count acc (c :: cs) = go count (acc ++ [c]) cs := by rw [go, if_neg hin, if_neg hfull]
        rw [e]
        obtain ⟨a1, a2, a3, a4, a5⟩ := ih (acc ++ [c]) (pre ++ [c]) hn' (by omega) (fun x => by simp [hm x]) hp' hf2
        refine ⟨a1, a2, a3, fun x hx => ?_, fun h x hx => a5 h x ?_⟩
        · rcases a4 x hx with h | h
          · rcases List.mem_append.1 h with h | h
            · exact Or.inl h
            · exact Or.inr (by rw [List.mem_singleton.1 h]; simp)
          · exact Or.inr (List.mem_cons_of_mem _ h)
        · rcases hx with hx | hx
          · exact Or.inl (by simp [hx])
          · rcases List.mem_cons.1 hx with hx | hx
            · exact Or.inl (by simp [hx])
            · exact Or.inr hx

/-- **The recommendation lists no CPU twice, at most as many as wanted, the better ones first, and leaves out one that is isolated, tickless or usable
only when it is full.** -/
theorem recommended_spec (iso nohz : List Nat) (n count : Nat) (hc : 0 < count) :
    (recommended iso nohz n count).Nodup ∧ (recommended iso nohz n count).length ≤ count ∧
    (recommended iso nohz n count).Pairwise (fun a b => rank iso nohz a ≤ rank iso nohz b) ∧
    (∀ x ∈ recommended iso nohz n count, x ∈ iso ∨ x ∈ nohz ∨ x < n) ∧
    ((recommended iso nohz n count).length < count → ∀ x, x ∈ iso ∨ x ∈ nohz ∨ x < n → x ∈ recommended iso nohz n count) := by
  have hr3 : ∀ x, rank iso nohz x ≤ 3 := by intro x; unfold rank; split <;> (try split) <;> (try split) <;> omega
  have hfit : Fits (rank iso nohz) [] (iso.filter (fun c => decide (c ∈ nohz)) ++ iso ++ nohz ++ (List.range n).reverse) := by
    rw [fits_append, fits_append, fits_append]
    refine ⟨⟨⟨?_, ?_⟩, ?_⟩, ?_⟩
    · apply fits_block _ 0
      · intro a ha
        simp only [List.nil_append, List.mem_filter, decide_eq_true_eq] at ha
        unfold rank
        rw [if_pos ha]
      · intro c _ h; omega
    · apply fits_block _ 1
      · intro a ha
        have : a ∈ iso := by
          simp only [List.nil_append, List.mem_append, List.mem_filter] at ha
          exact ha.elim (·.1) id
        unfold rank
        split
        · omega
        · omega
      · intro c hc h
        unfold rank at h
        split at h
        · rename_i h2; simp [h2.1, h2.2]
        · omega
    · apply fits_block _ 2
      · intro a ha
        unfold rank
        split
        · omega
        · split
          · omega
          · rename_i h2
            have : a ∈ nohz := by
              simp only [List.nil_append, List.mem_append, List.mem_filter] at ha
              rcases ha with (h | h) | h
              · exact absurd h.1 h2
              · exact absurd h h2
              · exact h
            rw [if_pos this]
      · intro c hc h
        unfold rank at h
        split at h
        · rename_i h2; simp [h2.1]
        · split at h
          · rename_i h2; simp [h2]
          · omega
    · apply fits_block _ 3 _ _ (fun a _ => hr3 a)
      intro c _ h
      unfold rank at h
      split at h
      · rename_i h2; simp [h2.1]
      · split at h
        · rename_i h2; simp [h2]
        · split at h
          · rename_i h2; simp [h2]
          · omega
  obtain ⟨a1, a2, a3, a4, a5⟩ := go_spec (rank iso nohz) count _ [] [] List.nodup_nil (by simpa using hc) (by simp) List.Pairwise.nil hfit
  refine ⟨a1, a2, a3, ?_, ?_⟩
  · intro x hx
    have := a4 x hx
    simp only [List.not_mem_nil, List.mem_append, List.mem_filter, List.mem_reverse, List.mem_range, false_or] at this
    rcases this with ((h | h) | h) | h
    · exact Or.inl h.1
    · exact Or.inl h
    · exact Or.inr (Or.inl h)
    · exact Or.inr (Or.inr h)
  · intro h x hx
    apply a5 h x
    right
    simp only [List.mem_append, List.mem_reverse, List.mem_range]
    rcases hx with h | h | h
    · exact Or.inl (Or.inl (Or.inr h))
    · exact Or.inl (Or.inr h)
    · exact Or.inr h

/-! ### The threads of a scheduler -/

/-- scheduler/mod.rs:1391-1393, 2725-2738: with `.cores()` the main thread is pinned, and then makes the others. -/
def mainMask (m : Mask) (cores : Option (List Nat)) : Mask := match cores with | some cs => after m cs | none => m

/-- rt_executor.rs:113-117, 684-692: what real-time thread `i`, whose node asks for `own`, asks for. -/
def wants (rt : List Nat) (i : Nat) (own : Option Nat) : List Nat :=
  match own with
  | some c => [c]
  | none => match rt[i % rt.length]? with | some c => [c] | none => []

/-- The mask of real-time thread `i`. -/
def thread (m : Mask) (cores : Option (List Nat)) (rec : List Nat) (i : Nat) (own : Option Nat) : Mask :=
  after (mainMask m cores) (wants (cores.getD rec) i own)

/-- **Without `.cores()`, where the process may use all CPUs, a node with `.core(c)` runs on `c`.** -/
theorem own_core_partial (n c i : Nat) (rec : List Nat) (h : c < n) : thread (List.range n) none rec i (some c) = [c] := pinned_unrestricted n c h

/-- **Every thread asks for one core of the list, in turn**: thread `i` for the one at place `i`, and threads as far apart as the list is long share one. -/
theorem in_turn (rt : List Nat) (h : rt ≠ []) (i : Nat) :
    (∃ c ∈ rt, wants rt i none = [c]) ∧ wants rt (i + rt.length) none = wants rt i none ∧ (∀ hi : i < rt.length, wants rt i none = [rt[i]]) := by
  have hl : 0 < rt.length := List.length_pos_iff.2 h
  have hm : i % rt.length < rt.length := Nat.mod_lt _ hl
  refine ⟨⟨rt[i % rt.length], List.getElem_mem hm, ?_⟩, ?_, ?_⟩
  · unfold wants
    simp only [List.getElem?_eq_getElem hm]
  · unfold wants
    simp only [Nat.add_mod_right]
  · intro hi
    unfold wants
    simp only [Nat.mod_eq_of_lt hi, List.getElem?_eq_getElem hi]

example : wants [3, 2] 5 none = [2] := by decide

theorem recommended_plain (n : Nat) (h : 0 < n) : recommended [] [] n n = (List.range n).reverse := by
  have key : ∀ (l acc : List Nat), (acc ++ l).Nodup → acc.length < n → acc.length + l.length ≤ n → go n acc l = acc ++ l := by
    intro l
    induction l with
    | nil => intro acc _ _ _; simp [go]
    | cons c l ih =>
      intro acc hd hl ht
      have hin : c ∉ acc := by
        intro hc
        rw [List.nodup_append] at hd
        exact hd.2.2 c hc c (by simp) rfl
      rw [go, if_neg hin]
      simp only [List.length_cons] at ht
      by_cases hf : (acc ++ [c]).length ≥ n
      · rw [if_pos hf]
        have : l = [] := by
          simp only [List.length_append, List.length_singleton] at hf
          exact List.length_eq_zero_iff.1 (by omega)
        rw [this]
      · rw [if_neg hf, ih (acc ++ [c]) (by simpa using hd) (by omega) (by simp; omega)]
        simp
  unfold recommended
  simp only [List.filter_nil, List.nil_append]
  rw [key _ [] (by simpa using List.nodup_reverse.2 List.nodup_range) (by simpa using h) (by simp)]
  simp

/-- **Up to as many real-time nodes as there are CPUs run on a CPU each, if nothing was configured and the process may use all CPUs.** -/
theorem default_apart (n i j : Nat) (hi : i < n) (hj : j < n) (hij : i ≠ j) :
    thread (List.range n) none (recommended [] [] n n) i none = [n - 1 - i] ∧
    thread (List.range n) none (recommended [] [] n n) i none ≠ thread (List.range n) none (recommended [] [] n n) j none := by
  have one : ∀ k, k < n → thread (List.range n) none (recommended [] [] n n) k none = [n - 1 - k] := by
    intro k hk
    have hw : wants (recommended [] [] n n) k none = [n - 1 - k] := by
      rw [recommended_plain n (by omega)]
      unfold wants
      simp only [List.length_reverse, List.length_range, Nat.mod_eq_of_lt hk]
      rw [List.getElem?_reverse (by simpa using hk)]
      simp only [List.length_range]
      rw [List.getElem?_range (by omega)]
    unfold thread
    simp only [Option.getD_none, hw]
    exact pinned_unrestricted n _ (by omega)
  refine ⟨one i hi, ?_⟩
  rw [one i hi, one j hj]
  intro h
  simp only [List.cons.injEq, and_true] at h
  omega

/-- A thread whose mask is one CPU stays there, whatever it asks for. -/
theorem after_one (x : Nat) (cores : List Nat) : after [x] cores = [x] := by
  unfold after
  split
  · rename_i y hy
    have := pin_mem [x] cores y hy
    rw [List.mem_singleton] at this
    rw [this]
  · rfl

/-- **Disagreement: `.cores(&[2, 3])` puts all threads on one CPU.** The main thread is pinned to the first of them, every thread it makes inherits that
mask, and none can leave it: neither the threads meant for the other cores nor nodes with a `.core()` of their own. -/
theorem cores_collapse (m : Mask) (cs rec : List Nat) (x i : Nat) (own : Option Nat) (h : pin m cs = some x) : thread m (some cs) rec i own = [x] := by
  unfold thread mainMask
  have : after m cs = [x] := by unfold after; rw [h]
  simp only [this]
  exact after_one x _

/-! ### Interrupts -/

/-- `move_irqs_off_cpus` (linux.rs:275-307) in a thread with mask `m`, of which `available_parallelism` is the size (CPU quotas not modelled): the CPUs
all interrupts are sent to, if they are moved. -/
def irqs (m : Mask) (cpus : List Nat) : Option (List Nat) :=
  let l := (List.range (min m.length 64)).filter fun c => decide (c ∉ cpus)
  if l.isEmpty then none else some l

/-- A thread does not send interrupts to the CPU it asked for. -/
theorem irqs_not_own (m : Mask) (cpus t : List Nat) (c : Nat) (hc : c ∈ cpus) (h : irqs m cpus = some t) : c ∉ t := by
  unfold irqs at h
  dsimp only at h
  split at h
  · cases h
  · cases h
    simp [hc]

/-- **Disagreement: interrupts are moved onto real-time CPUs.** The count of CPUs is taken after the thread was pinned, when it is one, so all interrupts go
to CPU 0, or, from a thread that asked for CPU 0, nowhere: with real-time threads on CPU 0 and another one they end on CPU 0. -/
theorem irqs_onto_zero (x c : Nat) : irqs [x] [c] = if c = 0 then none else some [0] := by
  unfold irqs
  by_cases h : c = 0
  · subst h; rfl
  · have : (decide (0 ∉ [c])) = true := by simp; omega
    simp only [List.length_singleton, show min 1 64 = 1 from rfl, List.range_one, List.filter_cons, this, if_true, List.filter_nil]
    rw [if_neg h]
    rfl

/-! ### require_rt -/

/-- rt_config.rs:201-283 with scheduler/mod.rs:1379-1443: what is missing, with its weight. -/
inductive Sev | low | medium | high
  deriving DecidableEq

/-- What the system grants. -/
structure World where
  preemptRt : Bool
  lock : Bool
  fifo : Bool
  mask : Mask

/-- The degradations recorded. A priority of 50 is never clamped. -/
def missing (lock fifo : Bool) (cores : Option (List Nat)) (w : World) : List Sev :=
  (if fifo && !w.preemptRt then [.medium] else []) ++ (if lock && !w.lock then [.high] else []) ++ (if fifo && !w.fifo then [.high] else []) ++
  match cores with | some cs => if cs = [] ∨ (pin w.mask cs).isSome then [] else [.medium] | none => []

/-- scheduler/mod.rs:598-614, 1279-1297, 2143: the builder's panic needs both missing; a high one makes `run` fail. -/
def refused (cores : Option (List Nat)) (canLock canFifo : Bool) (w : World) : Bool := (!canLock && !canFifo) || (missing true true cores w).contains .high

/-- **With `require_rt` the scheduler runs only with locked memory and a real-time scheduling class, and always then.** -/
theorem require_iff (cores : Option (List Nat)) (w : World) : refused cores w.lock w.fifo w = false ↔ w.lock = true ∧ w.fifo = true := by
  have hc : (match cores with | some cs => if cs = [] ∨ (pin w.mask cs).isSome then [] else [Sev.medium] | none => []).contains Sev.high = false := by
    cases cores with
    | none => rfl
    | some cs => dsimp only; split <;> rfl
  unfold refused missing
  rw [List.contains_append, hc]
  cases w.lock <;> cases w.fifo <;> cases w.preemptRt <;> decide

/-- **Disagreement: `require_rt` is met by a kernel without real-time preemption and without the cores asked for.** -/
theorem require_without_cores : refused (some [2]) true true ⟨false, true, true, [0, 1]⟩ = false := by decide

/-! ### CPU lists -/

/-- A decimal number. -/
def num (s : List Char) : Option Nat := if s ≠ [] ∧ s.all Char.isDigit then some (s.foldl (fun n c => n * 10 + (c.toNat - 48)) 0) else none

/-- sys/rt/mod.rs:343-355, one part. Blanks inside the list, which the kernel does not write, are not modelled. -/
def part (s : List Char) : List Nat :=
  match s.dropWhile (· != '-') with
  | _ :: e => match num (s.takeWhile (· != '-')), num e with | some a, some b => List.range' a (b + 1 - a) | _, _ => []
  | [] => match num s with | some n => [n] | none => []

/-- `parse_cpu_list` (sys/rt/mod.rs:340-358). -/
def parse (s : List Char) : List Nat := ((s.splitOn ',').filter fun p => !p.isEmpty).flatMap part

/-- The kernel's notation: single CPUs and ranges. -/
inductive Item
  | one (n : Nat)
  | range (a b : Nat)

def Item.text : Item → List Char
  | .one n => Nat.toDigits 10 n
  | .range a b => Nat.toDigits 10 a ++ '-' :: Nat.toDigits 10 b

/-- `c` is in the list. -/
def Item.Has (c : Nat) : Item → Prop
  | .one n => c = n
  | .range a b => a ≤ c ∧ c ≤ b

theorem digits_ne (n : Nat) : Nat.toDigits 10 n ≠ [] := by simp

theorem digits_all (n : Nat) : (Nat.toDigits 10 n).all Char.isDigit = true :=
  List.all_eq_true.2 fun _ h => Nat.isDigit_of_mem_toDigits (b := 10) (by decide) (by decide) h

theorem num_digits (n : Nat) : num (Nat.toDigits 10 n) = some n := by
  unfold num
  rw [if_pos ⟨digits_ne n, digits_all n⟩]
  have := Nat.ofDigitChars_ten_toDigits (n := n)
  rw [Nat.ofDigitChars_eq_foldl] at this
  conv => rhs; rw [← this]
  congr 2
  funext a c
  rw [Nat.mul_comm]; rfl

theorem not_in_digits (n : Nat) (c : Char) (h : c.isDigit = false) : c ∉ Nat.toDigits 10 n := by
  intro hm
  have := List.all_eq_true.1 (digits_all n) c hm
  rw [h] at this; cases this

theorem part_text (i : Item) (c : Nat) : c ∈ part i.text ↔ i.Has c := by
  cases i with
  | one n =>
    have h : (Nat.toDigits 10 n).dropWhile (· != '-') = [] := by
      apply List.dropWhile_eq_nil_iff.2
      intro x hx
      have : x ≠ '-' := fun e => not_in_digits n '-' (by decide) (e ▸ hx)
      simpa using this
    unfold part Item.text Item.Has
    dsimp only
    rw [h]
    simp [num_digits]
  | range a b =>
    have hd : ∀ x ∈ Nat.toDigits 10 a, (x != '-') = true := by
      intro x hx
      have : x ≠ '-' := fun e => not_in_digits a '-' (by decide) (e ▸ hx)
      simpa using this
    unfold part Item.text Item.Has
    dsimp only
    rw [List.dropWhile_append_of_pos hd, List.takeWhile_append_of_pos hd]
    simp only [List.dropWhile_cons, List.takeWhile_cons, bne_self_eq_false, Bool.false_eq_true, if_false, List.append_nil, num_digits]
    rw [List.mem_range'_1]
    omega

/-- **The CPUs of a list of the kernel are the ones it names.** -/
theorem parse_text (is : List Item) (h : is ≠ []) (c : Nat) : c ∈ parse (List.intercalate [','] (is.map Item.text)) ↔ ∃ i ∈ is, i.Has c := by
  have hs : (List.intercalate [','] (is.map Item.text)).splitOn ',' = is.map Item.text := by
    apply List.splitOn_intercalate
    · intro l hl
      obtain ⟨i, _, rfl⟩ := List.mem_map.1 hl
      cases i with
      | one n => exact not_in_digits n ',' (by decide)
      | range a b =>
        unfold Item.text
        simp only [List.mem_append, List.mem_cons, not_or]
        exact ⟨not_in_digits a ',' (by decide), by decide, not_in_digits b ',' (by decide)⟩
    · simpa using h
  unfold parse
  rw [hs]
  simp only [List.mem_flatMap, List.mem_filter, List.mem_map]
  constructor
  · rintro ⟨_, ⟨⟨i, hi, rfl⟩, _⟩, hc⟩
    exact ⟨i, hi, (part_text i c).1 hc⟩
  · rintro ⟨i, hi, hc⟩
    refine ⟨_, ⟨⟨i, hi, rfl⟩, ?_⟩, (part_text i c).2 hc⟩
    cases i with
    | one n => unfold Item.text; simp
    | range a b => unfold Item.text; simp

/-! ### Cases that meet the hypotheses -/

example : Ascending [0, 2, 3] := by unfold Ascending; decide
example : pin (List.range 8) [9, 2, 3] = some 2 := by decide
example : thread (List.range 8) (some [2, 3]) [] 1 (some 5) = [2] := cores_collapse _ _ _ 2 _ _ (by decide)
example : recommended [2, 3] [3] 4 4 = [3, 2, 1, 0] := by decide
example : parse "0-2,5".toList = [0, 1, 2, 5] := by decide
example : refused none true true ⟨true, true, true, [0, 1]⟩ = false := by decide

end Horus.Affinity
