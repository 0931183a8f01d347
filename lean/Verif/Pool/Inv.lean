import Verif.Pool.Model
import Mathlib.Tactic.Common
import Mathlib.Data.List.Nodup
/-
The invariant of the tensor pool model: see `Inv`. Every proper action preserves it (`inv_step`).
-/
namespace Horus.Pool
open Horus.Ring (upd upd_same upd_ne)

/-- The list is linked through the `next` words. -/
def chain (slot : Nat → Slot) : List Nat → Prop
  | [] => True
  | a :: l => (slot a).next = l.head? ∧ chain slot l

/-- The slot a thread disposes of. -/
def holds : Pc → Option Nat
  | .claimOwner _ i | .claimFlags _ i | .choose _ i | .reuseGen _ i | .setSize _ i _ | .bumpLoad _ i
  | .bumpCas _ i _ | .freshGen _ i _ | .fields _ i _ _ | .setOwner _ i _ _ | .setRc _ i _ _
  | .setFlags _ i _ _ | .retZero i | .retOwner i | .retFlags i | .pushHead i _ | .pushNext i _ _ _
  | .pushCas i _ _ _ => some i
  | _ => none

/-- The slot of whose count a thread has one unit. -/
def custody : Pc → Option Nat
  | .setFlags _ i _ _ => some i
  | .relGen d | .relLoad d | .relCas d _ | .keepGen d | .keepLoad d | .keepCas d _ | .tryCheck d
  | .tryUndo d => some d.slot
  | _ => none

/-- The region a thread has taken from the bump allocator and not yet recorded. -/
def pend (c : Cfg) : Pc → Option (Nat × Nat)
  | .freshGen r _ o | .fields r _ _ o => some (o, c.roundUp r)
  | _ => none

/-- The thread has not yet cleared the region of the slot it holds. -/
def unscrubbed : Pc → Bool
  | .retZero _ => true
  | _ => false

/-- Regions `[o, o+a)` and `[p, p+b)` do not overlap. -/
def apart (o a p b : Nat) : Prop := o + a ≤ p ∨ p + b ≤ o

/-- The slot carries generation `g`, newer than that of any descriptor issued for it. -/
def freshGenOk (s : St) (i g : Nat) : Prop := (s.slot i).gen = g ∧ ∀ d ∈ s.issued, d.slot = i → d.gen < g

/-- What a thread in the middle of an operation knows. -/
def PcInv (c : Cfg) (s : St) : Pc → Prop
  | .popNext _ _ tag i => tag ≤ s.head.1 ∧ (tag = s.head.1 → s.stk.head? = some i)
  | .popCas _ _ tag i nx => tag ≤ s.head.1 ∧ (tag = s.head.1 → s.stk.head? = some i ∧ nx = (s.slot i).next)
  | .reuseGen r i => c.roundUp r ≤ (s.slot i).cap
  | .setSize r i g => c.roundUp r ≤ (s.slot i).cap ∧ freshGenOk s i g
  | .bumpCas r _ cur => c.roundUp cur + c.roundUp r ≤ c.size
  | .fields _ i g _ => freshGenOk s i g
  | .setOwner r i g o | .setRc r i g o | .setFlags r i g o =>
    freshGenOk s i g ∧ (s.slot i).offset = o ∧ (s.slot i).size = r
  | .relGen d | .relLoad d | .keepGen d | .keepLoad d => (s.slot d.slot).gen = d.gen ∧ d ∈ s.issued
  | .relCas d cur | .keepCas d cur => (s.slot d.slot).gen = d.gen ∧ d ∈ s.issued ∧ 0 < cur
  | .tryGen d | .tryLoad d | .tryCheck d | .tryUndo d => d ∈ s.issued
  | .tryCas d cur => d ∈ s.issued ∧ 0 < cur
  | .pushNext _ _ tag h => tag ≤ s.head.1 ∧ (tag = s.head.1 → h = s.stk.head?)
  | .pushCas i _ tag h => tag ≤ s.head.1 ∧ (tag = s.head.1 → h = s.stk.head?) ∧ (s.slot i).next = h
  | .scanCas _ _ _ | .scanRc _ _ _ | .scanClear _ _ _ | .scanGen _ _ _ => False
  | _ => True

/-- The invariant of the pool. -/
structure Inv (c : Cfg) (s : St) : Prop where
  -- the free stack
  nodup : s.stk.Nodup
  free : ∀ i, i ∈ s.stk ↔ i < c.slots ∧ s.own i = .free
  hd : s.head.2 = s.stk.head?
  chn : chain s.slot s.stk
  -- slots in the hands of a thread
  holds : ∀ t i, holds (s.thr t) = some i → s.own i = .held t ∧ i < c.slots
  held : ∀ i t, s.own i = .held t → Pool.holds (s.thr t) = some i
  -- reference counts
  cust : ∀ t i, custody (s.thr t) = some i → t ∈ s.busy i
  busy : ∀ t i, t ∈ s.busy i → custody (s.thr t) = some i
  busyND : ∀ i, (s.busy i).Nodup
  rc : ∀ i, (s.slot i).rc = s.refs.countP (fun d => decide (d.slot = i)) + (s.busy i).length
  live : ∀ i, s.own i = .live → i < c.slots ∧ 0 < (s.slot i).rc
  noRef : ∀ i, s.own i ≠ .live → ∀ d ∈ s.refs, d.slot ≠ i
  freeIdle : ∀ i, s.own i = .free → s.busy i = []
  heldIdle : ∀ i t, s.own i = .held t → custody (s.thr t) ≠ some i → s.busy i = []
  refs : ∀ d ∈ s.refs, d ∈ s.issued ∧ d.gen = (s.slot d.slot).gen
  issued : ∀ d ∈ s.issued, d.gen ≤ (s.slot d.slot).gen ∧
    (d.gen = (s.slot d.slot).gen → d.offset = (s.slot d.slot).offset ∧ d.size = (s.slot d.slot).size)
  -- regions
  below : ∀ i, (s.slot i).offset + (s.slot i).cap ≤ s.bump
  fits : ∀ i, (s.slot i).size ≤ (s.slot i).cap
  disj : ∀ i j, i ≠ j → apart (s.slot i).offset (s.slot i).cap (s.slot j).offset (s.slot j).cap
  pendBelow : ∀ t o a, pend c (s.thr t) = some (o, a) → o + a ≤ s.bump
  pendSlot : ∀ t o a, pend c (s.thr t) = some (o, a) → ∀ i, apart o a (s.slot i).offset (s.slot i).cap
  pendPend : ∀ t t' o a o' a', t ≠ t' → pend c (s.thr t) = some (o, a) → pend c (s.thr t') = some (o', a') →
    apart o a o' a'
  bumpLe : s.bump ≤ c.size
  -- contents
  above : ∀ x, s.bump ≤ x → s.mem x = 0
  dirt : ∀ i x, (s.slot i).offset + (s.slot i).size ≤ x → x < (s.slot i).offset + (s.slot i).cap → s.mem x = 0
  cleanFree : ∀ i x, i < c.slots → s.own i = .free → (s.slot i).offset ≤ x → x < (s.slot i).offset + (s.slot i).cap → s.mem x = 0
  cleanHeld : ∀ i t x, s.own i = .held t → unscrubbed (s.thr t) = false →
    (s.slot i).offset ≤ x → x < (s.slot i).offset + (s.slot i).cap → s.mem x = 0
  pendClean : ∀ t o a x, pend c (s.thr t) = some (o, a) → o ≤ x → x < o + a → s.mem x = 0
  pc : ∀ t, PcInv c s (s.thr t)
  flag : ∀ i, s.own i = .live → (s.slot i).alloc = true

/-! ### Arithmetic -/

theorem le_roundUp (c : Cfg) (n : Nat) : n ≤ c.roundUp n := by
  unfold Cfg.roundUp
  split
  · exact Nat.le_refl _
  · rename_i h
    have := Nat.div_add_mod (n + (c.align - 1)) c.align
    have h2 := Nat.mod_lt (n + (c.align - 1)) (by omega : c.align > 0)
    rw [Nat.mul_comm] at this
    omega

theorem chain_congr {f g : Nat → Slot} {l : List Nat} (h : ∀ i ∈ l, (g i).next = (f i).next) (hc : chain f l) :
    chain g l := by
  induction l with
  | nil => trivial
  | cons a l ih =>
    refine ⟨?_, ih (fun i hi => h i (List.mem_cons_of_mem _ hi)) hc.2⟩
    rw [h a List.mem_cons_self]; exact hc.1

theorem chain_init (n : Nat) : chain (St.init ⟨n, 0, 0, fun _ => 0⟩).slot (initStack n) := by
  induction n with
  | zero => trivial
  | succ n ih =>
    have e : initStack (n + 1) = n :: initStack n := by
      unfold initStack; rw [List.range_succ, List.reverse_append]; rfl
    rw [e]
    refine ⟨?_, ih⟩
    cases n with
    | zero => rfl
    | succ n =>
      have e : initStack (n + 1) = n :: initStack n := by
        unfold initStack; rw [List.range_succ, List.reverse_append]; rfl
      rw [e]; simp [St.init]

theorem inv_init (c : Cfg) : Inv c (St.init c) := by
  have hc := chain_init c.slots
  refine
    { nodup := ?_, free := ?_, hd := rfl, chn := hc, holds := ?_, held := ?_, cust := ?_, busy := ?_
      busyND := fun _ => List.nodup_nil, rc := fun _ => rfl, live := ?_, noRef := ?_, freeIdle := fun _ _ => rfl
      heldIdle := fun _ _ _ _ => rfl, refs := ?_, issued := ?_, below := fun _ => Nat.le_refl _
      fits := fun _ => Nat.le_refl _, disj := fun _ _ _ => Or.inl (Nat.le_refl _), pendBelow := ?_
      pendSlot := ?_, pendPend := ?_, bumpLe := Nat.zero_le _, above := fun _ _ => rfl
      dirt := fun _ _ _ _ => rfl, cleanFree := fun _ _ _ _ _ _ => rfl, cleanHeld := fun _ _ _ _ _ _ _ => rfl
      pendClean := fun _ _ _ _ _ _ _ => rfl, pc := fun _ => trivial, flag := fun _ h => by simp [St.init] at h }
  · exact List.nodup_reverse.mpr List.nodup_range
  · intro i
    show i ∈ (List.range c.slots).reverse ↔ _
    rw [List.mem_reverse, List.mem_range]
    exact ⟨fun h => ⟨h, rfl⟩, fun h => h.1⟩
  all_goals (intros; simp_all [St.init, Pool.holds, custody, pend])

/-! ### Threads other than the one that moves -/

theorem pcInv_frame {c : Cfg} {s s' : St} {pc : Pc} (h : PcInv c s pc)
    (htag : (s'.head = s.head ∧ s'.stk = s.stk ∧
      ∀ i, s.stk.head? = some i → (s'.slot i).next = (s.slot i).next) ∨ s.head.1 < s'.head.1)
    (hgen : ∀ i, holds pc = some i ∨ custody pc = some i → (s'.slot i).gen = (s.slot i).gen)
    (hslot : ∀ i, holds pc = some i → (s'.slot i).offset = (s.slot i).offset ∧
      (s'.slot i).size = (s.slot i).size ∧ (s'.slot i).cap = (s.slot i).cap ∧ (s'.slot i).next = (s.slot i).next)
    (hiss : ∀ d ∈ s.issued, d ∈ s'.issued)
    (hiss2 : ∀ d ∈ s'.issued, d ∈ s.issued ∨ holds pc ≠ some d.slot) : PcInv c s' pc := by
  have fresh : ∀ i g, holds pc = some i → freshGenOk s i g → freshGenOk s' i g := by
    intro i g hi hf
    refine ⟨by rw [hgen i (Or.inl hi)]; exact hf.1, fun d hd hdi => ?_⟩
    rcases hiss2 d hd with h1 | h1
    · exact hf.2 d h1 hdi
    · exact absurd (hdi ▸ hi) h1
  cases pc with
  | popNext r ag tag i =>
    obtain ⟨h1, h2⟩ := h
    rcases htag with ⟨e1, e2, _⟩ | hl
    · simp only [PcInv, e1, e2]; exact ⟨h1, h2⟩
    · exact ⟨by omega, fun e => by omega⟩
  | popCas r ag tag i nx =>
    obtain ⟨h1, h2⟩ := h
    rcases htag with ⟨e1, e2, e3⟩ | hl
    · simp only [PcInv, e1, e2]
      exact ⟨h1, fun e => ⟨(h2 e).1, by rw [e3 i (h2 e).1]; exact (h2 e).2⟩⟩
    · exact ⟨by omega, fun e => by omega⟩
  | pushNext i k tag hh =>
    obtain ⟨h1, h2⟩ := h
    rcases htag with ⟨e1, e2, _⟩ | hl
    · simp only [PcInv, e1, e2]; exact ⟨h1, h2⟩
    · exact ⟨by omega, fun e => by omega⟩
  | pushCas i k tag hh =>
    obtain ⟨h1, h2, h3⟩ := h
    have e4 := (hslot i rfl).2.2.2
    rcases htag with ⟨e1, e2, e3⟩ | hl
    · simp only [PcInv, e1, e2]; exact ⟨h1, h2, by rw [e4]; exact h3⟩
    · exact ⟨by omega, fun e => by omega, by rw [e4]; exact h3⟩
  | reuseGen r i => simp only [PcInv, (hslot i rfl).2.2.1]; exact h
  | setSize r i g => simp only [PcInv, (hslot i rfl).2.2.1]; exact ⟨h.1, fresh i g rfl h.2⟩
  | fields r i g o => exact fresh i g rfl h
  | setOwner r i g o | setRc r i g o | setFlags r i g o =>
    obtain ⟨h1, h2, h3⟩ := h
    obtain ⟨e1, e2, _, _⟩ := hslot i rfl
    exact ⟨fresh i g rfl h1, by rw [e1]; exact h2, by rw [e2]; exact h3⟩
  | relGen d | relLoad d | keepGen d | keepLoad d =>
    exact ⟨by rw [hgen d.slot (Or.inr rfl)]; exact h.1, hiss d h.2⟩
  | relCas d cur | keepCas d cur =>
    exact ⟨by rw [hgen d.slot (Or.inr rfl)]; exact h.1, hiss d h.2.1, h.2.2⟩
  | tryGen d | tryLoad d | tryCheck d | tryUndo d => exact hiss d h
  | tryCas d cur => exact ⟨hiss d h.1, h.2⟩
  | _ => exact h

/-- Only the place of thread `t` changes. -/
theorem inv_pc {c : Cfg} {s : St} {t : Nat} {pc' : Pc} (h : Inv c s)
    (e1 : holds pc' = holds (s.thr t)) (e2 : custody pc' = custody (s.thr t))
    (e3 : pend c pc' = pend c (s.thr t)) (e4 : unscrubbed pc' = unscrubbed (s.thr t))
    (hp : PcInv c s pc') : Inv c (setThr s t pc') := by
  have A : ∀ {β : Type} (f : Pc → β), f pc' = f (s.thr t) → ∀ u, f (upd s.thr t pc' u) = f (s.thr u) := by
    intro β f e u
    by_cases hu : u = t
    · subst hu; rw [upd_same]; exact e
    · rw [upd_ne _ _ hu]
  have a1 := A holds e1
  have a2 := A custody e2
  have a3 := A (pend c) e3
  have a4 := A unscrubbed e4
  constructor
  · exact h.nodup
  · exact h.free
  · exact h.hd
  · exact h.chn
  · intro u i; show holds (upd s.thr t pc' u) = _ → _; rw [a1]; exact h.holds u i
  · intro i u hi; show holds (upd s.thr t pc' u) = _; rw [a1]; exact h.held i u hi
  · intro u i; show custody (upd s.thr t pc' u) = _ → _; rw [a2]; exact h.cust u i
  · intro u i hi; show custody (upd s.thr t pc' u) = _; rw [a2]; exact h.busy u i hi
  · exact h.busyND
  · exact h.rc
  · exact h.live
  · exact h.noRef
  · exact h.freeIdle
  · intro i u hi; show custody (upd s.thr t pc' u) ≠ _ → _; rw [a2]; exact h.heldIdle i u hi
  · exact h.refs
  · exact h.issued
  · exact h.below
  · exact h.fits
  · exact h.disj
  · intro u o a; show pend c (upd s.thr t pc' u) = _ → _; rw [a3]; exact h.pendBelow u o a
  · intro u o a; show pend c (upd s.thr t pc' u) = _ → _; rw [a3]; exact h.pendSlot u o a
  · intro u v o a o' a' huv; show pend c (upd s.thr t pc' u) = _ → pend c (upd s.thr t pc' v) = _ → _
    rw [a3, a3]; exact h.pendPend u v o a o' a' huv
  · exact h.bumpLe
  · exact h.above
  · exact h.dirt
  · exact h.cleanFree
  · intro i u x hi; show unscrubbed (upd s.thr t pc' u) = _ → _; rw [a4]; exact h.cleanHeld i u x hi
  · intro u o a x; show pend c (upd s.thr t pc' u) = _ → _; rw [a3]; exact h.pendClean u o a x
  · intro u
    show PcInv c _ (upd s.thr t pc' u)
    by_cases hu : u = t
    · subst hu; rw [upd_same]
      exact pcInv_frame hp (Or.inl ⟨rfl, rfl, fun _ _ => rfl⟩) (fun _ _ => rfl) (fun _ _ => ⟨rfl, rfl, rfl, rfl⟩)
        (fun _ hd => hd) (fun _ hd => Or.inl hd)
    · rw [upd_ne _ _ hu]
      exact pcInv_frame (h.pc u) (Or.inl ⟨rfl, rfl, fun _ _ => rfl⟩) (fun _ _ => rfl) (fun _ _ => ⟨rfl, rfl, rfl, rfl⟩)
        (fun _ hd => hd) (fun _ hd => Or.inl hd)
  · exact h.flag

end Horus.Pool
