import Mathlib.Data.List.Basic
import Mathlib.Data.List.Nodup
import Mathlib.Data.List.Count
import Mathlib.Tactic.Common
/-
Tensors, images and point clouds of the C++ API. Source: /repo/horus_cpp/include/horus/pool.hpp:43-170 (the classes),
/repo/horus_cpp/src/c_api.rs:828-1043, /repo/horus_cpp/src/pool_ffi.rs:29-179, /repo/horus_core/src/memory/mod.rs:223-227
(images and clouds release on drop), /repo/horus_core/src/memory/tensor_pool.rs:705-870 (alloc), 1092-1125 (release),
1206-1239 (data_ptr), 1482-1507 (stats), 1591-1650 (the free stack). The pool is seen by one program, one call after the
other; its interleavings are the subject of Verif/Pool. No owner of a slot dies, so nothing is reclaimed.
-/
namespace Horus.FfiPool

/-! ### The model -/

/-- tensor_pool.rs:166-215: a slot's header; `marked` is the flag ALLOCATED. -/
structure Slot where
  rc : Nat
  gen : Nat
  off : Nat
  size : Nat
  cap : Nat
  marked : Bool
deriving DecidableEq

/-- A descriptor (types/tensor.rs:45-83), as far as the pool looks at it. -/
structure Desc where
  slot : Nat
  gen : Nat
  off : Nat
  size : Nat
deriving DecidableEq

/-- tensor_pool.rs:112-160, backend.rs:195-225: the pool; `free` is the free stack, `bump` the next unused offset. -/
structure Pool where
  n : Nat
  total : Nat
  align : Nat
  slot : Nat → Slot
  free : List Nat
  bump : Nat

/-- tensor_pool.rs:1876-1887, backend.rs:229-231 `align_up`, without overflow (Verif/Pool/Shape has the arithmetic). -/
def up (a n : Nat) : Nat := if a ≤ 1 then n else (n + (a - 1)) / a * a

def Pool.set (p : Pool) (i : Nat) (s : Slot) : Pool := { p with slot := fun j => if j = i then s else p.slot j }

/-- tensor_pool.rs:705-870 `alloc` of a number of bytes: pop a slot, reuse its memory if that is large enough, else take new
memory; without memory the slot is put back, still marked (815-818, 1642-1643). -/
def Pool.alloc (p : Pool) (bytes : Nat) : Option Desc × Pool :=
  match p.free with
  | [] => (none, p)
  | i :: fr =>
    if 0 < (p.slot i).cap ∧ up p.align bytes ≤ (p.slot i).cap then
      (some ⟨i, (p.slot i).gen + 1, (p.slot i).off, bytes⟩, { p.set i ⟨1, (p.slot i).gen + 1, (p.slot i).off, bytes, (p.slot i).cap, true⟩ with free := fr })
    else if p.total < up p.align p.bump + up p.align bytes then (none, p.set i { p.slot i with marked := true })
    else
      (some ⟨i, (p.slot i).gen + 1, up p.align p.bump, bytes⟩,
        { p.set i ⟨1, (p.slot i).gen + 1, up p.align p.bump, bytes, up p.align bytes, true⟩ with free := fr, bump := up p.align p.bump + up p.align bytes })

/-- tensor_pool.rs:1092-1125 `release`. -/
def Pool.release (p : Pool) (d : Desc) : Pool :=
  if (p.slot d.slot).gen ≠ d.gen then p
  else if (p.slot d.slot).rc = 0 then p
  else if (p.slot d.slot).rc = 1 then { p.set d.slot { p.slot d.slot with rc := 0, marked := false } with free := d.slot :: p.free }
  else p.set d.slot { p.slot d.slot with rc := (p.slot d.slot).rc - 1 }

/-- tensor_pool.rs:1206-1239 `data_ptr`: the offset, if the range lies in the pool. The generation is not looked at. -/
def Pool.data (p : Pool) (d : Desc) : Option Nat := if p.total < d.off + d.size then none else some d.off

/-- tensor_pool.rs:1482-1494: the number of slots reported as allocated. -/
def Pool.allocated (p : Pool) : Nat := ((List.range p.n).filter fun i => (p.slot i).marked).length

/-- What a C++ variable holds: a `Tensor` (pool.hpp:76-105), or an `Image` or `PointCloud` (109-170). -/
inductive Obj
  | tensor (d : Desc)
  | image (d : Desc)
deriving DecidableEq

def Obj.desc : Obj → Desc
  | .tensor d => d
  | .image d => d

/-- The program: its pool and its variables (`none` is a null handle). -/
structure World where
  pool : Pool
  var : Nat → Option Obj

/-- What the program does: assign a new object to a variable, call `release()`, end a variable's life, move. -/
inductive Op
  | tensor (v bytes : Nat)
  | image (v bytes : Nat)
  | release (v : Nat)
  | destroy (v : Nat)
  | move (v w : Nat)

/-- c_api.rs:931-935, 989-993, 1036-1040: destroying a tensor frees the handle only, an image or cloud releases its slot. -/
def Pool.dropObj (p : Pool) : Option Obj → Pool
  | some (.image d) => p.release d
  | _ => p

def World.put (w : World) (v : Nat) (o : Option Obj) : World := { w with var := fun x => if x = v then o else w.var x }

/-- Assignment (pool.hpp:86-89, 118-121): the new object exists before the old one is destroyed. -/
def World.step (w : World) : Op → World
  | .tensor v b => ({ w with pool := ((w.pool.alloc b).2).dropObj (w.var v) } : World).put v ((w.pool.alloc b).1.map Obj.tensor)
  | .image v b => ({ w with pool := ((w.pool.alloc b).2).dropObj (w.var v) } : World).put v ((w.pool.alloc b).1.map Obj.image)
  | .release v => match w.var v with
    | some (.tensor d) => { w with pool := w.pool.release d }
    | _ => w
  | .destroy v => ({ w with pool := w.pool.dropObj (w.var v) } : World).put v none
  | .move v x => if v = x then w else (({ w with pool := w.pool.dropObj (w.var x) } : World).put x (w.var v)).put v none

def World.run (w : World) (ops : List Op) : World := ops.foldl World.step w

/-- A new pool (c_api.rs:828-837, tensor_pool.rs:540-640): every slot free and unused. -/
def World.new (n total align : Nat) : World := ⟨⟨n, total, align, fun _ => ⟨0, 0, 0, 0, 0, false⟩, (List.range n).reverse, 0⟩, fun _ => none⟩

/-- pool_ffi.rs:125-127 `image_data_size`: a product of 32-bit numbers (the release build drops what does not fit). -/
def imageSize (w h c : Nat) : Nat := w * h % 4294967296 * c % 4294967296

/-! ### C217 -/

/-- A descriptor is current: its slot is in use under this generation. -/
def Pool.Current (p : Pool) (d : Desc) : Prop := (p.slot d.slot).rc = 1 ∧ (p.slot d.slot).gen = d.gen

/-- What holds of every pool reached. -/
structure Pool.Good (p : Pool) : Prop where
  nodup : p.free.Nodup
  inFree : ∀ i, i ∈ p.free ↔ i < p.n ∧ (p.slot i).rc = 0
  one : ∀ i, (p.slot i).rc ≤ 1
  range : ∀ i, (p.slot i).rc = 1 → i < p.n
  marked : ∀ i, (p.slot i).rc = 1 → (p.slot i).marked = true
  fits : ∀ i, (p.slot i).off + (p.slot i).cap ≤ p.bump
  size : ∀ i, (p.slot i).rc = 1 → (p.slot i).size ≤ (p.slot i).cap
  apart : ∀ i j, i ≠ j → (p.slot i).off + (p.slot i).cap ≤ (p.slot j).off ∨ (p.slot j).off + (p.slot j).cap ≤ (p.slot i).off ∨
    (p.slot i).cap = 0 ∨ (p.slot j).cap = 0
  inside : p.bump ≤ p.total

theorem le_up (a n : Nat) : n ≤ up a n := by
  unfold up
  split
  · exact Nat.le_refl _
  · have h := Nat.div_add_mod (n + (a - 1)) a
    have h2 := Nat.mod_lt (n + (a - 1)) (show a > 0 by omega)
    rw [Nat.mul_comm] at h
    omega

theorem set_slot (p : Pool) (i j : Nat) (s : Slot) : (p.set i s).slot j = if j = i then s else p.slot j := rfl

/-- What a successful allocation gives: a free slot under a new generation, with memory of the size asked for. -/
theorem alloc_spec (p : Pool) (hg : p.Good) (b : Nat) :
    (p.alloc b).2.Good ∧
    (∀ d, (p.alloc b).1 = some d → d.slot < p.n ∧ (p.slot d.slot).rc = 0 ∧ d.gen = (p.slot d.slot).gen + 1 ∧ (p.alloc b).2.Current d ∧ d.size = b ∧
      ((p.alloc b).2.slot d.slot).off = d.off ∧ ((p.alloc b).2.slot d.slot).size = b ∧ ∀ j, j ≠ d.slot → (p.alloc b).2.slot j = p.slot j) ∧
    ((p.alloc b).1 = none → ∀ j, ((p.alloc b).2.slot j).rc = (p.slot j).rc ∧ ((p.alloc b).2.slot j).gen = (p.slot j).gen ∧ ((p.alloc b).2.slot j).off = (p.slot j).off ∧ ((p.alloc b).2.slot j).size = (p.slot j).size) ∧
    (p.alloc b).2.n = p.n ∧ (p.alloc b).2.total = p.total := by
  unfold Pool.alloc
  cases hf : p.free with
  | nil => exact ⟨hg, fun d h => (nomatch h), fun _ j => ⟨rfl, rfl, rfl, rfl⟩, rfl, rfl⟩
  | cons i fr =>
    have hi := (hg.inFree i).mp (by rw [hf]; exact List.mem_cons_self)
    have hnd := hg.nodup
    rw [hf] at hnd
    have hifr := (List.nodup_cons.mp hnd).1
    have hfree : ∀ j, j ∈ fr ↔ j ≠ i ∧ j < p.n ∧ (p.slot j).rc = 0 := by
      intro j
      rw [← hg.inFree j, hf, List.mem_cons]
      constructor
      · intro h; exact ⟨fun e => hifr (e ▸ h), Or.inr h⟩
      · rintro ⟨h1, h2 | h2⟩
        · exact absurd h2 h1
        · exact h2
    dsimp only
    by_cases h1 : 0 < (p.slot i).cap ∧ up p.align b ≤ (p.slot i).cap
    · rw [if_pos h1]
      refine ⟨?_, ?_, fun h => (nomatch h), rfl, rfl⟩
      · have key : ∀ j, ((p.set i ⟨1, (p.slot i).gen + 1, (p.slot i).off, b, (p.slot i).cap, true⟩).slot j).off = (p.slot j).off ∧
            ((p.set i ⟨1, (p.slot i).gen + 1, (p.slot i).off, b, (p.slot i).cap, true⟩).slot j).cap = (p.slot j).cap := by
          intro j; rw [set_slot]; by_cases hj : j = i
          · subst hj; simp
          · simp [hj]
        constructor
        · exact (List.nodup_cons.mp hnd).2
        · intro j
          show j ∈ fr ↔ j < p.n ∧ ((p.set i _).slot j).rc = 0
          rw [hfree, set_slot]
          by_cases hj : j = i
          · simp [hj]
          · simp [hj]
        · intro j
          show ((p.set i _).slot j).rc ≤ 1
          rw [set_slot]; split
          · exact Nat.le_refl _
          · exact hg.one j
        · intro j
          show ((p.set i _).slot j).rc = 1 → j < p.n
          rw [set_slot]; split
          · rename_i e; intro _; rw [e]; exact hi.1
          · exact hg.range j
        · intro j
          show ((p.set i _).slot j).rc = 1 → ((p.set i _).slot j).marked = true
          rw [set_slot]; split
          · intro _; rfl
          · exact hg.marked j
        · intro j
          show ((p.set i _).slot j).off + ((p.set i _).slot j).cap ≤ p.bump
          rw [(key j).1, (key j).2]; exact hg.fits j
        · intro j
          show ((p.set i _).slot j).rc = 1 → ((p.set i _).slot j).size ≤ ((p.set i _).slot j).cap
          rw [set_slot]; split
          · intro _; exact Nat.le_trans (le_up _ _) h1.2
          · exact hg.size j
        · intro j k hjk
          show ((p.set i _).slot j).off + ((p.set i _).slot j).cap ≤ ((p.set i _).slot k).off ∨ _
          have := hg.apart j k hjk
          show _ ∨ ((p.set i _).slot k).off + ((p.set i _).slot k).cap ≤ ((p.set i _).slot j).off ∨ ((p.set i _).slot j).cap = 0 ∨ ((p.set i _).slot k).cap = 0
          rw [(key j).1, (key j).2, (key k).1, (key k).2]; exact this
        · exact hg.inside
      · intro d hd
        cases hd
        refine ⟨hi.1, hi.2, rfl, ⟨?_, ?_⟩, rfl, ?_, ?_, ?_⟩
        · show ((p.set i _).slot i).rc = 1; simp [set_slot]
        · show ((p.set i _).slot i).gen = _; simp [set_slot]
        · show ((p.set i _).slot i).off = _; simp [set_slot]
        · show ((p.set i _).slot i).size = _; simp [set_slot]
        · intro j hj; show (p.set i _).slot j = _; rw [set_slot, if_neg hj]
    · rw [if_neg h1]
      by_cases h2 : p.total < up p.align p.bump + up p.align b
      · rw [if_pos h2]
        have key : ∀ j, ((p.set i { p.slot i with marked := true }).slot j).rc = (p.slot j).rc ∧ ((p.set i { p.slot i with marked := true }).slot j).gen = (p.slot j).gen ∧
            ((p.set i { p.slot i with marked := true }).slot j).off = (p.slot j).off ∧ ((p.set i { p.slot i with marked := true }).slot j).size = (p.slot j).size ∧
            ((p.set i { p.slot i with marked := true }).slot j).cap = (p.slot j).cap := by
          intro j; rw [set_slot]; by_cases hj : j = i
          · subst hj; simp
          · simp [hj]
        refine ⟨?_, fun d h => (nomatch h), fun _ j => ⟨(key j).1, (key j).2.1, (key j).2.2.1, (key j).2.2.2.1⟩, rfl, rfl⟩
        constructor
        · exact hg.nodup
        · intro j
          show j ∈ p.free ↔ _
          rw [(key j).1]; exact hg.inFree j
        · intro j; rw [(key j).1]; exact hg.one j
        · intro j; rw [(key j).1]; exact hg.range j
        · intro j; rw [(key j).1]; intro h; rw [set_slot]; split
          · rfl
          · exact hg.marked j h
        · intro j; rw [(key j).2.2.1, (key j).2.2.2.2]; exact hg.fits j
        · intro j; rw [(key j).1, (key j).2.2.2.1, (key j).2.2.2.2]; exact hg.size j
        · intro j k; rw [(key j).2.2.1, (key j).2.2.2.2, (key k).2.2.1, (key k).2.2.2.2]; exact hg.apart j k
        · exact hg.inside
      · rw [if_neg h2]
        have hb := le_up p.align p.bump
        have hbb := le_up p.align b
        refine ⟨?_, ?_, fun h => (nomatch h), rfl, rfl⟩
        · constructor
          · exact (List.nodup_cons.mp hnd).2
          · intro j
            show j ∈ fr ↔ j < p.n ∧ ((p.set i _).slot j).rc = 0
            rw [hfree, set_slot]
            by_cases hj : j = i
            · simp [hj]
            · simp [hj]
          · intro j
            show ((p.set i _).slot j).rc ≤ 1
            rw [set_slot]; split
            · exact Nat.le_refl _
            · exact hg.one j
          · intro j
            show ((p.set i _).slot j).rc = 1 → j < p.n
            rw [set_slot]; split
            · rename_i e; intro _; rw [e]; exact hi.1
            · exact hg.range j
          · intro j
            show ((p.set i _).slot j).rc = 1 → ((p.set i _).slot j).marked = true
            rw [set_slot]; split
            · intro _; rfl
            · exact hg.marked j
          · intro j
            show ((p.set i _).slot j).off + ((p.set i _).slot j).cap ≤ up p.align p.bump + up p.align b
            rw [set_slot]; split
            · exact Nat.le_refl _
            · have := hg.fits j; omega
          · intro j
            show ((p.set i _).slot j).rc = 1 → ((p.set i _).slot j).size ≤ ((p.set i _).slot j).cap
            rw [set_slot]; split
            · intro _; exact hbb
            · exact hg.size j
          · intro j k hjk
            show ((p.set i _).slot j).off + ((p.set i _).slot j).cap ≤ ((p.set i _).slot k).off ∨
              ((p.set i _).slot k).off + ((p.set i _).slot k).cap ≤ ((p.set i _).slot j).off ∨ ((p.set i _).slot j).cap = 0 ∨ ((p.set i _).slot k).cap = 0
            have fj := hg.fits j
            have fk := hg.fits k
            rw [set_slot, set_slot]
            by_cases hj : j = i
            · have hk : k ≠ i := fun h => hjk (hj.trans h.symm)
              rw [if_pos hj, if_neg hk]
              right; left
              show _ ≤ up p.align p.bump
              omega
            · rw [if_neg hj]
              by_cases hk : k = i
              · rw [if_pos hk]; left
                show _ ≤ up p.align p.bump
                omega
              · rw [if_neg hk]; exact hg.apart j k hjk
          · show up p.align p.bump + up p.align b ≤ p.total
            omega
        · intro d hd
          cases hd
          refine ⟨hi.1, hi.2, rfl, ⟨?_, ?_⟩, rfl, ?_, ?_, ?_⟩
          · show ((p.set i _).slot i).rc = 1; simp [set_slot]
          · show ((p.set i _).slot i).gen = _; simp [set_slot]
          · show ((p.set i _).slot i).off = _; simp [set_slot]
          · show ((p.set i _).slot i).size = _; simp [set_slot]
          · intro j hj; show (p.set i _).slot j = _; rw [set_slot, if_neg hj]

/-- Releasing a current descriptor frees its slot and nothing else; releasing any other changes nothing. -/
theorem release_spec (p : Pool) (hg : p.Good) (d : Desc) :
    (p.release d).Good ∧ (p.release d).n = p.n ∧ (p.release d).total = p.total ∧
    (¬ p.Current d → p.release d = p) ∧
    (p.Current d → ((p.release d).slot d.slot).rc = 0 ∧ ((p.release d).slot d.slot).marked = false ∧ ∀ j, j ≠ d.slot → (p.release d).slot j = p.slot j) ∧
    ∀ j, ((p.release d).slot j).gen = (p.slot j).gen ∧ ((p.release d).slot j).off = (p.slot j).off ∧ ((p.release d).slot j).size = (p.slot j).size ∧ ((p.release d).slot j).cap = (p.slot j).cap := by
  have h1 := hg.one d.slot
  by_cases hc : p.Current d
  · have hr : p.release d = { p.set d.slot { p.slot d.slot with rc := 0, marked := false } with free := d.slot :: p.free } := by
      unfold Pool.release
      rw [if_neg (fun h => h hc.2), if_neg (by rw [hc.1]; decide), if_pos hc.1]
    have hn : d.slot ∉ p.free := fun h => by have := ((hg.inFree _).mp h).2; rw [hc.1] at this; cases this
    have key : ∀ j, ((p.release d).slot j).gen = (p.slot j).gen ∧ ((p.release d).slot j).off = (p.slot j).off ∧ ((p.release d).slot j).size = (p.slot j).size ∧ ((p.release d).slot j).cap = (p.slot j).cap := by
      intro j; rw [hr]
      show ((p.set d.slot _).slot j).gen = _ ∧ ((p.set d.slot _).slot j).off = _ ∧ ((p.set d.slot _).slot j).size = _ ∧ ((p.set d.slot _).slot j).cap = _
      rw [set_slot]; by_cases hj : j = d.slot
      · subst hj; simp
      · simp [hj]
    have hrc : ∀ j, ((p.release d).slot j).rc = if j = d.slot then 0 else (p.slot j).rc := by
      intro j; rw [hr]
      show ((p.set d.slot _).slot j).rc = _
      rw [set_slot]; by_cases hj : j = d.slot
      · simp [hj]
      · simp [hj]
    have hfix : ∀ j, j ≠ d.slot → (p.release d).slot j = p.slot j := by
      intro j hj; rw [hr]; show (p.set d.slot _).slot j = _; rw [set_slot, if_neg hj]
    refine ⟨?_, by rw [hr]; rfl, by rw [hr]; rfl, fun h => absurd hc h, fun _ => ⟨by rw [hrc, if_pos rfl], ?_, hfix⟩, key⟩
    · have hbump : (p.release d).bump = p.bump := by rw [hr]; rfl
      have htot : (p.release d).total = p.total := by rw [hr]; rfl
      constructor
      · rw [hr]; exact List.nodup_cons.mpr ⟨hn, hg.nodup⟩
      · intro j
        have : (p.release d).free = d.slot :: p.free := by rw [hr]
        have hnn : (p.release d).n = p.n := by rw [hr]; rfl
        rw [this, List.mem_cons, hg.inFree, hrc, hnn]
        by_cases hj : j = d.slot
        · simp [hj, hg.range _ hc.1]
        · simp [hj]
      · intro j; rw [hrc]; split
        · exact Nat.zero_le _
        · exact hg.one j
      · intro j; rw [hrc]
        have hnn : (p.release d).n = p.n := by rw [hr]; rfl
        rw [hnn]; split
        · intro h; cases h
        · exact hg.range j
      · intro j; rw [hrc]; split
        · intro h; cases h
        · rename_i hj; rw [hfix j hj]; exact hg.marked j
      · intro j; rw [(key j).2.1, (key j).2.2.2, hbump]; exact hg.fits j
      · intro j; rw [hrc]; split
        · intro h; cases h
        · rename_i hj; rw [hfix j hj]; exact hg.size j
      · intro j k; rw [(key j).2.1, (key j).2.2.2, (key k).2.1, (key k).2.2.2]; exact hg.apart j k
      · rw [hbump, htot]; exact hg.inside
    · rw [hr]; show ((p.set d.slot _).slot d.slot).marked = false; simp [set_slot]
  · have hr : p.release d = p := by
      unfold Pool.release
      by_cases hgn : (p.slot d.slot).gen = d.gen
      · rw [if_neg (fun h => h hgn)]
        have : (p.slot d.slot).rc = 0 := by
          have : (p.slot d.slot).rc ≠ 1 := fun h => hc ⟨h, hgn⟩
          omega
        rw [if_pos this]
      · rw [if_pos hgn]
    rw [hr]
    exact ⟨hg, rfl, rfl, fun _ => rfl, fun h => absurd h hc, fun j => ⟨rfl, rfl, rfl, rfl⟩⟩

/-- A descriptor the program may hold: of a generation already given out; if still current, it says where the memory is. -/
def Pool.Held (p : Pool) (d : Desc) : Prop :=
  d.gen ≤ (p.slot d.slot).gen ∧ ((p.slot d.slot).gen = d.gen → (p.slot d.slot).off = d.off ∧ (p.slot d.slot).size = d.size)

/-- What holds of every program state. -/
structure World.Good (w : World) : Prop where
  pool : w.pool.Good
  held : ∀ v o, w.var v = some o → w.pool.Held o.desc
  distinct : ∀ v x o q, w.var v = some o → w.var x = some q → o.desc.slot = q.desc.slot → o.desc.gen = q.desc.gen → v = x
  image : ∀ v d, w.var v = some (.image d) → w.pool.Current d

theorem held_release {p : Pool} (hg : p.Good) (d e : Desc) (h : p.Held e) : (p.release d).Held e := by
  obtain ⟨_, _, _, _, _, key⟩ := release_spec p hg d
  obtain ⟨k1, k2, k3, _⟩ := key e.slot
  unfold Pool.Held
  rw [k1, k2, k3]; exact h

theorem current_release {p : Pool} (hg : p.Good) (d e : Desc) (h : p.Current e) (hne : ¬ (d.slot = e.slot ∧ d.gen = e.gen)) : (p.release d).Current e := by
  obtain ⟨_, _, _, h1, h2, key⟩ := release_spec p hg d
  by_cases hc : p.Current d
  · have hs : e.slot ≠ d.slot := fun hs => hne ⟨hs.symm, by rw [← hc.2, ← hs, h.2]⟩
    have := (h2 hc).2.2 e.slot hs
    exact ⟨by rw [this]; exact h.1, by rw [this]; exact h.2⟩
  · rw [h1 hc]; exact h

theorem held_alloc {p : Pool} (hg : p.Good) (b : Nat) (e : Desc) (h : p.Held e) : (p.alloc b).2.Held e ∧ (p.Current e → (p.alloc b).2.Current e) ∧
    ∀ d, (p.alloc b).1 = some d → ¬ (d.slot = e.slot ∧ d.gen = e.gen) := by
  obtain ⟨_, h1, h2, _⟩ := alloc_spec p hg b
  cases hd : (p.alloc b).1 with
  | none =>
    obtain ⟨a1, a2, a3, a4⟩ := h2 hd e.slot
    refine ⟨by unfold Pool.Held; rw [a2, a3, a4]; exact h, fun hc => ⟨by rw [a1]; exact hc.1, by rw [a2]; exact hc.2⟩, fun d h => (nomatch h)⟩
  | some d =>
    obtain ⟨_, b2, b3, b4, _, _, _, b8⟩ := h1 d hd
    refine ⟨?_, ?_, ?_⟩
    · by_cases hs : e.slot = d.slot
      · have hge : ((p.alloc b).2.slot e.slot).gen = (p.slot e.slot).gen + 1 := by rw [hs, b4.2, b3]
        have := h.1
        unfold Pool.Held
        rw [hge]
        exact ⟨by omega, fun h => by omega⟩
      · unfold Pool.Held; rw [b8 _ hs]; exact h
    · intro hc
      have hs : e.slot ≠ d.slot := fun hs => by have := hc.1; rw [hs, b2] at this; cases this
      exact ⟨by rw [b8 _ hs]; exact hc.1, by rw [b8 _ hs]; exact hc.2⟩
    · intro d' hd'
      cases hd'
      rintro ⟨s1, s2⟩
      have := h.1
      rw [← s2, ← s1, b3] at this
      omega

/-- Destroying an object the program holds leaves the others as they were. -/
theorem drop_keeps (p : Pool) (hg : p.Good) (o : Option Obj) :
    (p.dropObj o).Good ∧ (∀ e, p.Held e → (p.dropObj o).Held e) ∧
    ∀ e, p.Current e → (∀ q, o = some q → ¬ (q.desc.slot = e.slot ∧ q.desc.gen = e.gen)) → (p.dropObj o).Current e := by
  rcases o with _ | d | d
  · exact ⟨hg, fun _ h => h, fun _ h _ => h⟩
  · exact ⟨hg, fun _ h => h, fun _ h _ => h⟩
  · exact ⟨(release_spec p hg d).1, fun e h => held_release hg d e h, fun e h hn => current_release hg d e h (hn _ rfl)⟩

theorem put_var (w : World) (v x : Nat) (o : Option Obj) : (w.put v o).var x = if x = v then o else w.var x := rfl

theorem good_new (n total align : Nat) : (World.new n total align).Good := by
  constructor
  · constructor
    · exact List.nodup_reverse.mpr List.nodup_range
    · intro i; simp [World.new]
    · intro i; exact Nat.zero_le _
    · intro i h; cases h
    · intro i h; cases h
    · intro i; exact Nat.le_refl _
    · intro i h; cases h
    · intro i j _; right; right; left; rfl
    · exact Nat.zero_le _
  · intro v o h; cases h
  · intro v x o q h; cases h
  · intro v d h; cases h

/-- A new object in a variable. -/
theorem good_assign (w : World) (hw : w.Good) (v b : Nat) (mk : Desc → Obj) (hmk : ∀ d, (mk d).desc = d) :
    (({ w with pool := ((w.pool.alloc b).2).dropObj (w.var v) } : World).put v ((w.pool.alloc b).1.map mk)).Good := by
  obtain ⟨a1, a2, a3, _⟩ := alloc_spec w.pool hw.pool b
  obtain ⟨d1, d2, d3⟩ := drop_keeps (w.pool.alloc b).2 a1 (w.var v)
  have hnew : ∀ d, (w.pool.alloc b).1 = some d → ((w.pool.alloc b).2.dropObj (w.var v)).Current d ∧ ((w.pool.alloc b).2.dropObj (w.var v)).Held d := by
    intro d hd
    obtain ⟨_, _, _, b4, b5, b6, b7, _⟩ := a2 d hd
    refine ⟨d3 d b4 ?_, d2 d ⟨Nat.le_of_eq b4.2.symm, fun _ => ⟨b6, by rw [b7, b5]⟩⟩⟩
    intro q hq hsame
    exact (held_alloc hw.pool b q.desc (hw.held v q hq)).2.2 d hd ⟨hsame.1.symm, hsame.2.symm⟩
  constructor
  · exact d1
  · intro x o hx
    rw [put_var] at hx
    by_cases hxv : x = v
    · rw [if_pos hxv] at hx
      obtain ⟨d, hd, rfl⟩ := Option.map_eq_some_iff.mp hx
      rw [hmk]; exact (hnew d hd).2
    · rw [if_neg hxv] at hx
      exact d2 _ (held_alloc hw.pool b o.desc (hw.held x o hx)).1
  · intro x y o q hx hy hs hgn
    rw [put_var] at hx hy
    by_cases hxv : x = v
    · by_cases hyv : y = v
      · rw [hxv, hyv]
      · rw [if_pos hxv] at hx; rw [if_neg hyv] at hy
        obtain ⟨d, hd, rfl⟩ := Option.map_eq_some_iff.mp hx
        rw [hmk] at hs hgn
        exact absurd ⟨hs, hgn⟩ ((held_alloc hw.pool b q.desc (hw.held y q hy)).2.2 d hd)
    · rw [if_neg hxv] at hx
      by_cases hyv : y = v
      · rw [if_pos hyv] at hy
        obtain ⟨d, hd, rfl⟩ := Option.map_eq_some_iff.mp hy
        rw [hmk] at hs hgn
        exact absurd ⟨hs.symm, hgn.symm⟩ ((held_alloc hw.pool b o.desc (hw.held x o hx)).2.2 d hd)
      · rw [if_neg hyv] at hy; exact hw.distinct x y o q hx hy hs hgn
  · intro x d hx
    rw [put_var] at hx
    by_cases hxv : x = v
    · rw [if_pos hxv] at hx
      obtain ⟨d', hd', he⟩ := Option.map_eq_some_iff.mp hx
      have : d' = d := by have := hmk d'; rw [he] at this; exact this.symm
      rw [← this]; exact (hnew d' hd').1
    · rw [if_neg hxv] at hx
      refine d3 d ((held_alloc hw.pool b d (hw.held x _ hx)).2.1 (hw.image x d hx)) ?_
      intro q hq hsame
      exact hxv (hw.distinct v x q _ hq hx hsame.1 hsame.2).symm

theorem good_step (w : World) (hw : w.Good) (op : Op) : (w.step op).Good := by
  cases op with
  | tensor v b => exact good_assign w hw v b Obj.tensor fun _ => rfl
  | image v b => exact good_assign w hw v b Obj.image fun _ => rfl
  | release v =>
    unfold World.step
    dsimp only
    split
    · rename_i d hv
      refine ⟨(release_spec _ hw.pool d).1, fun x o hx => held_release hw.pool d _ (hw.held x o hx), hw.distinct, ?_⟩
      intro x e hx
      refine current_release hw.pool d e (hw.image x e hx) ?_
      rintro ⟨s1, s2⟩
      have := hw.distinct v x _ _ hv hx s1 s2
      subst this
      rw [hv] at hx; cases hx
    · exact hw
  | destroy v =>
    obtain ⟨d1, d2, d3⟩ := drop_keeps w.pool hw.pool (w.var v)
    refine ⟨d1, ?_, ?_, ?_⟩
    · intro x o hx
      have hx : (if x = v then none else w.var x) = some o := hx
      by_cases hxv : x = v
      · rw [if_pos hxv] at hx; cases hx
      · rw [if_neg hxv] at hx; exact d2 _ (hw.held x o hx)
    · intro x y o q hx hy
      have hx : (if x = v then none else w.var x) = some o := hx
      have hy : (if y = v then none else w.var y) = some q := hy
      by_cases hxv : x = v
      · rw [if_pos hxv] at hx; cases hx
      · by_cases hyv : y = v
        · rw [if_pos hyv] at hy; cases hy
        · rw [if_neg hxv] at hx; rw [if_neg hyv] at hy; exact hw.distinct x y o q hx hy
    · intro x d hx
      have hx : (if x = v then none else w.var x) = some (.image d) := hx
      by_cases hxv : x = v
      · rw [if_pos hxv] at hx; cases hx
      · rw [if_neg hxv] at hx
        refine d3 d (hw.image x d hx) fun q hq hsame => hxv (hw.distinct v x q _ hq hx hsame.1 hsame.2).symm
  | move v x =>
    unfold World.step
    dsimp only
    by_cases hvx : v = x
    · rw [if_pos hvx]; exact hw
    · rw [if_neg hvx]
      obtain ⟨d1, d2, d3⟩ := drop_keeps w.pool hw.pool (w.var x)
      -- the variable an object was in before
      let src : Nat → Nat := fun y => if y = x then v else y
      have hsrc : ∀ y o, (if y = v then none else if y = x then w.var v else w.var y) = some o → w.var (src y) = some o ∧ y ≠ v ∧ (src y ≠ x) := by
        intro y o hy
        by_cases hyv : y = v
        · rw [if_pos hyv] at hy; cases hy
        · rw [if_neg hyv] at hy
          by_cases hyx : y = x
          · rw [if_pos hyx] at hy; simp only [src, if_pos hyx]; exact ⟨hy, hyv, hvx⟩
          · rw [if_neg hyx] at hy; simp only [src, if_neg hyx]; exact ⟨hy, hyv, hyx⟩
      have hinj : ∀ y z, y ≠ v → z ≠ v → src y = src z → y = z := by
        intro y z hy hz h
        simp only [src] at h
        by_cases hyx : y = x
        · by_cases hzx : z = x
          · rw [hyx, hzx]
          · rw [if_pos hyx, if_neg hzx] at h; exact absurd h.symm hz
        · by_cases hzx : z = x
          · rw [if_neg hyx, if_pos hzx] at h; exact absurd h hy
          · rw [if_neg hyx, if_neg hzx] at h; exact h
      refine ⟨d1, ?_, ?_, ?_⟩
      · intro y o hy
        exact d2 _ (hw.held _ o (hsrc y o hy).1)
      · intro y z o q hy hz hs hgn
        obtain ⟨y1, y2, _⟩ := hsrc y o hy
        obtain ⟨z1, z2, _⟩ := hsrc z q hz
        exact hinj y z y2 z2 (hw.distinct _ _ o q y1 z1 hs hgn)
      · intro y d hy
        obtain ⟨y1, _, y3⟩ := hsrc y _ hy
        exact d3 d (hw.image _ d y1) fun q hq hsame => y3 (hw.distinct x _ q _ hq y1 hsame.1 hsame.2).symm

theorem good_run (n total align : Nat) (ops : List Op) : ((World.new n total align).run ops).Good := by
  have : ∀ (ops : List Op) (w : World), w.Good → (w.run ops).Good := by
    intro ops
    induction ops with
    | nil => intro w h; exact h
    | cons op ops ih => intro w h; exact ih _ (good_step w h op)
  exact this ops _ (good_new n total align)

/-- The memory of a variable's object, as `data()` and `nbytes()` give it. -/
def World.memory (w : World) (v : Nat) : Option (Nat × Nat) := (w.var v).bind fun o => (w.pool.data o.desc).map fun a => (a, o.desc.size)

/-- The variable's tensor has not been released (an image is in use as long as it lives). -/
def World.InUse (w : World) (v : Nat) : Prop := ∃ o, w.var v = some o ∧ w.pool.Current o.desc

/-- Objects in use have memory inside the pool, of the size asked for, that no other object in use shares. -/
theorem memory_exclusive (n total align : Nat) (ops : List Op) (v x : Nat) (hvx : v ≠ x) (hv : ((World.new n total align).run ops).InUse v)
    (hx : ((World.new n total align).run ops).InUse x) :
    ∃ a l b m, ((World.new n total align).run ops).memory v = some (a, l) ∧ ((World.new n total align).run ops).memory x = some (b, m) ∧
      a + l ≤ ((World.new n total align).run ops).pool.total ∧ (a + l ≤ b ∨ b + m ≤ a ∨ l = 0 ∨ m = 0) := by
  have hw := good_run n total align ops
  generalize (World.new n total align).run ops = w at *
  obtain ⟨o, ho, hoc⟩ := hv
  obtain ⟨q, hq, hqc⟩ := hx
  have key : ∀ y (r : Obj), w.var y = some r → w.pool.Current r.desc → w.memory y = some (r.desc.off, r.desc.size) ∧ r.desc.off + r.desc.size ≤ w.pool.total ∧
      (w.pool.slot r.desc.slot).off = r.desc.off ∧ r.desc.size ≤ (w.pool.slot r.desc.slot).cap := by
    intro y r hr hc
    obtain ⟨e1, e2⟩ := (hw.held y r hr).2 hc.2
    have s1 := hw.pool.size _ hc.1
    have s2 := hw.pool.fits r.desc.slot
    have s3 := hw.pool.inside
    have htot : ¬ w.pool.total < r.desc.off + r.desc.size := by omega
    refine ⟨?_, by omega, e1, by omega⟩
    unfold World.memory Pool.data
    rw [hr, Option.bind_some, if_neg htot]; rfl
  obtain ⟨o1, o2, o3, o4⟩ := key v o ho hoc
  obtain ⟨q1, q2, q3, q4⟩ := key x q hq hqc
  refine ⟨_, _, _, _, o1, q1, o2, ?_⟩
  have hne : o.desc.slot ≠ q.desc.slot := fun hs => hvx (hw.distinct v x o q ho hq hs (by rw [← hoc.2, ← hqc.2, hs]))
  have := hw.pool.apart _ _ hne
  omega

/-- Images and point clouds are in use as long as they live, whatever else the program does with its tensors. -/
theorem image_in_use (n total align : Nat) (ops : List Op) (v : Nat) (d : Desc) (h : ((World.new n total align).run ops).var v = some (.image d)) :
    ((World.new n total align).run ops).InUse v := ⟨_, h, (good_run n total align ops).image v d h⟩

/-- Releasing a tensor that is no longer in use changes nothing: a second `release()` harms nobody. -/
theorem double_release (n total align : Nat) (ops : List Op) (v : Nat) (h : ¬ ((World.new n total align).run ops).InUse v) :
    ((World.new n total align).run ops).step (.release v) = (World.new n total align).run ops := by
  have hw := good_run n total align ops
  generalize (World.new n total align).run ops = w at *
  unfold World.step
  dsimp only
  split
  · rename_i d hv
    rw [(release_spec _ hw.pool d).2.2.2.1 fun hc => h ⟨_, hv, hc⟩]
  · rfl

theorem release_once (n total align : Nat) (ops : List Op) (v : Nat) (d : Desc) (h : ((World.new n total align).run ops).var v = some (.tensor d)) :
    ¬ (((World.new n total align).run ops).step (.release v)).InUse v := by
  have hw := good_run n total align ops
  generalize (World.new n total align).run ops = w at *
  rintro ⟨o, ho, hc⟩
  have hs : w.step (.release v) = { w with pool := w.pool.release d } := by unfold World.step; dsimp only; rw [h]
  rw [hs] at ho hc
  have : o = .tensor d := by
    have : w.var v = some o := ho
    rw [h] at this; exact (Option.some.inj this).symm
  subst this
  by_cases hcur : w.pool.Current d
  · have h0 := ((release_spec _ hw.pool d).2.2.2.2.1 hcur).1
    have h1 : ((w.pool.release d).slot d.slot).rc = 1 := hc.1
    rw [h0] at h1; cases h1
  · have := (release_spec _ hw.pool d).2.2.2.1 hcur
    exact hcur (by have h2 : (w.pool.release d).Current d := hc; rw [this] at h2; exact h2)

/-- A slot is taken by something the program can still give back. -/
def World.Accounted (w : World) : Prop := ∀ i, (w.pool.slot i).rc = 1 → ∃ v o, w.var v = some o ∧ o.desc.slot = i ∧ w.pool.Current o.desc

/-- The program destroys, overwrites or moves onto no tensor that is still in use. -/
def Careful (w : World) : Op → Prop
  | .tensor v _ | .image v _ | .destroy v | .move _ v => ∀ d, w.var v = some (.tensor d) → ¬ w.pool.Current d
  | .release _ => True

def CarefulRun : World → List Op → Prop
  | _, [] => True
  | w, op :: ops => Careful w op ∧ CarefulRun (w.step op) ops

/-- After dropping an object that is an image or a tensor no longer in use, its slot is free; others are as they were. -/
theorem drop_frees (w : World) (hw : w.Good) (p : Pool) (hp : p.Good) (hh : ∀ v o, w.var v = some o → p.Held o.desc ∧ (w.pool.Current o.desc → p.Current o.desc)) (v : Nat)
    (hc : ∀ d, w.var v = some (.tensor d) → ¬ w.pool.Current d) (i : Nat) (h1 : ((p.dropObj (w.var v)).slot i).rc = 1) :
    (p.slot i).rc = 1 ∧ (p.dropObj (w.var v)).slot i = p.slot i ∧ ∀ o, w.var v = some o → w.pool.Current o.desc → o.desc.slot ≠ i := by
  cases hv : w.var v with
  | none => rw [hv] at h1; exact ⟨h1, rfl, fun o h => (nomatch h)⟩
  | some o =>
    rw [hv] at h1
    cases o with
    | tensor d => exact ⟨h1, rfl, fun o h hcur => by cases h; exact absurd hcur (hc d hv)⟩
    | image d =>
      have hcur := (hh v _ hv).2 (hw.image v d hv)
      have h0 := (release_spec p hp d).2.2.2.2.1 hcur
      have hi : i ≠ d.slot := by
        intro hi
        have h1 : ((p.release d).slot i).rc = 1 := h1
        rw [hi, h0.1] at h1; cases h1
      have e := h0.2.2 i hi
      have h1 : ((p.release d).slot i).rc = 1 := h1
      rw [e] at h1
      exact ⟨h1, e, fun o h _ => by cases h; exact fun h => hi h.symm⟩

theorem accounted_assign (w : World) (hw : w.Good) (ha : w.Accounted) (v b : Nat) (hc : ∀ d, w.var v = some (.tensor d) → ¬ w.pool.Current d)
    (mk : Desc → Obj) (hmk : ∀ d, (mk d).desc = d) :
    (({ w with pool := ((w.pool.alloc b).2).dropObj (w.var v) } : World).put v ((w.pool.alloc b).1.map mk)).Accounted := by
  obtain ⟨a1, a2, a3, _⟩ := alloc_spec w.pool hw.pool b
  intro i hi
  have hi : (((w.pool.alloc b).2.dropObj (w.var v)).slot i).rc = 1 := hi
  obtain ⟨f1, f2, f3⟩ := drop_frees w hw _ a1 (fun x o hx => ⟨(held_alloc hw.pool b _ (hw.held x o hx)).1, (held_alloc hw.pool b _ (hw.held x o hx)).2.1⟩) v hc i hi
  have hold : (w.pool.slot i).rc = 1 → (w.pool.alloc b).2.slot i = (w.pool.alloc b).2.slot i → ((w.pool.alloc b).2.slot i).gen = (w.pool.slot i).gen →
      ∃ x o, (({ w with pool := ((w.pool.alloc b).2).dropObj (w.var v) } : World).put v ((w.pool.alloc b).1.map mk)).var x = some o ∧ o.desc.slot = i ∧
        ((w.pool.alloc b).2.dropObj (w.var v)).Current o.desc := by
    intro hr _ hgn
    obtain ⟨x, o, hx, hs, hcur⟩ := ha i hr
    have hxv : x ≠ v := fun e => f3 o (e ▸ hx) hcur hs
    refine ⟨x, o, by rw [put_var, if_neg hxv]; exact hx, hs, ?_, ?_⟩
    · rw [hs]; exact hi
    · rw [hs, f2, hgn, ← hs]; exact hcur.2
  cases hd : (w.pool.alloc b).1 with
  | none =>
    obtain ⟨k1, k2, _⟩ := a3 hd i
    have := hold (by rw [← k1]; exact f1) rfl k2
    rw [hd] at this
    exact this
  | some d =>
    obtain ⟨_, _, _, b4, _, _, _, b8⟩ := a2 d hd
    by_cases hid : i = d.slot
    · refine ⟨v, mk d, by rw [put_var, if_pos rfl]; rfl, by rw [hmk]; exact hid.symm, ?_⟩
      rw [hmk]
      exact ⟨by rw [← hid]; exact hi, by rw [← hid]; show ((((w.pool.alloc b).2).dropObj (w.var v)).slot i).gen = d.gen; rw [f2, hid]; exact b4.2⟩
    · have e := b8 i hid
      have := hold (by rw [← e]; exact f1) rfl (by rw [e])
      rw [hd] at this
      exact this

theorem accounted_step (w : World) (hw : w.Good) (ha : w.Accounted) (op : Op) (hc : Careful w op) : (w.step op).Accounted := by
  have hself : ∀ v o, w.var v = some o → w.pool.Held o.desc ∧ (w.pool.Current o.desc → w.pool.Current o.desc) := fun v o h => ⟨hw.held v o h, id⟩
  cases op with
  | tensor v b => exact accounted_assign w hw ha v b hc Obj.tensor fun _ => rfl
  | image v b => exact accounted_assign w hw ha v b hc Obj.image fun _ => rfl
  | release v =>
    unfold World.step
    dsimp only
    split
    · rename_i d hv
      intro i hi
      have hi : ((w.pool.release d).slot i).rc = 1 := hi
      obtain ⟨_, _, _, h1, h2, _⟩ := release_spec _ hw.pool d
      by_cases hcur : w.pool.Current d
      · have hid : i ≠ d.slot := fun e => by rw [e, (h2 hcur).1] at hi; cases hi
        have e := (h2 hcur).2.2 i hid
        rw [e] at hi
        obtain ⟨x, o, hx, hs, hoc⟩ := ha i hi
        exact ⟨x, o, hx, hs, by show ((w.pool.release d).slot _).rc = 1; rw [hs, e]; exact hi, by show ((w.pool.release d).slot _).gen = _; rw [hs, e, ← hs]; exact hoc.2⟩
      · rw [h1 hcur] at hi
        obtain ⟨x, o, hx, hs, hoc⟩ := ha i hi
        exact ⟨x, o, hx, hs, by show (w.pool.release d).Current _; rw [h1 hcur]; exact hoc⟩
    · exact ha
  | destroy v =>
    intro i hi
    have hi : ((w.pool.dropObj (w.var v)).slot i).rc = 1 := hi
    obtain ⟨f1, f2, f3⟩ := drop_frees w hw w.pool hw.pool hself v hc i hi
    obtain ⟨x, o, hx, hs, hoc⟩ := ha i f1
    have hxv : x ≠ v := fun e => f3 o (e ▸ hx) hoc hs
    exact ⟨x, o, by show (if x = v then none else w.var x) = _; rw [if_neg hxv]; exact hx, hs,
      by show ((w.pool.dropObj (w.var v)).slot _).rc = 1; rw [hs]; exact hi, by show ((w.pool.dropObj (w.var v)).slot _).gen = _; rw [hs, f2, ← hs]; exact hoc.2⟩
  | move v x =>
    unfold World.step
    dsimp only
    by_cases hvx : v = x
    · rw [if_pos hvx]; exact ha
    · rw [if_neg hvx]
      intro i hi
      have hi : ((w.pool.dropObj (w.var x)).slot i).rc = 1 := hi
      obtain ⟨f1, f2, f3⟩ := drop_frees w hw w.pool hw.pool hself x hc i hi
      obtain ⟨y, o, hy, hs, hoc⟩ := ha i f1
      have hyx : y ≠ x := fun e => f3 o (e ▸ hy) hoc hs
      have hcur : ((w.pool.dropObj (w.var x)).slot o.desc.slot).rc = 1 ∧ ((w.pool.dropObj (w.var x)).slot o.desc.slot).gen = o.desc.gen :=
        ⟨by rw [hs]; exact hi, by rw [hs, f2, ← hs]; exact hoc.2⟩
      by_cases hyv : y = v
      · refine ⟨x, o, ?_, hs, hcur⟩
        show (if x = v then none else if x = x then w.var v else w.var x) = _
        rw [if_neg (fun h => hvx h.symm), if_pos rfl, ← hyv]; exact hy
      · refine ⟨y, o, ?_, hs, hcur⟩
        show (if y = v then none else if y = x then w.var v else w.var y) = _
        rw [if_neg hyv, if_neg hyx]; exact hy

/-- A program that releases each tensor before the variable ends loses no slot: when no variable holds an object in use,
every slot is free again. Programs without tensors are always of this kind. -/
theorem all_returned (n total align : Nat) (ops : List Op) (hc : CarefulRun (World.new n total align) ops)
    (hend : ∀ v, ¬ ((World.new n total align).run ops).InUse v) : ∀ i < n, i ∈ ((World.new n total align).run ops).pool.free := by
  have key : ∀ (ops : List Op) (w : World), w.Good → w.Accounted → CarefulRun w ops → (w.run ops).Accounted := by
    intro ops
    induction ops with
    | nil => intro w _ h _; exact h
    | cons op ops ih => intro w hw ha hc; exact ih _ (good_step w hw op) (accounted_step w hw ha op hc.1) hc.2
  have hn : ∀ (ops : List Op) (w : World), w.Good → (w.run ops).pool.n = w.pool.n := by
    intro ops
    induction ops with
    | nil => intro w _; rfl
    | cons op ops ih =>
      intro w hw
      refine (ih _ (good_step w hw op)).trans ?_
      have hdrop : ∀ (p : Pool), p.Good → ∀ o, (p.dropObj o).n = p.n := by
        intro p hp o
        rcases o with _ | d | d
        · rfl
        · rfl
        · exact (release_spec p hp d).2.1
      obtain ⟨a1, _, _, a4, _⟩ := alloc_spec w.pool hw.pool
        (match op with | .tensor _ b => b | .image _ b => b | _ => 0)
      cases op with
      | tensor v b => exact (hdrop _ a1 _).trans a4
      | image v b => exact (hdrop _ a1 _).trans a4
      | release v =>
        unfold World.step
        dsimp only
        split
        · exact (release_spec _ hw.pool _).2.1
        · rfl
      | destroy v => exact hdrop _ hw.pool _
      | move v x =>
        unfold World.step
        dsimp only
        split
        · rfl
        · exact hdrop _ hw.pool _
  have ha := key ops _ (good_new n total align) (fun i h => by cases h) hc
  have hw := good_run n total align ops
  intro i hi
  rw [hw.pool.inFree]
  refine ⟨by rw [hn ops _ (good_new n total align)]; exact hi, ?_⟩
  by_contra h
  have h1 := hw.pool.one i
  obtain ⟨v, o, hv, _, hcur⟩ := ha i (by omega)
  exact hend v ⟨o, hv, hcur⟩

/-- A program without tensors. -/
def NoTensor : Op → Prop
  | .tensor _ _ => False
  | _ => True

theorem images_careful (n total align : Nat) (ops : List Op) (h : ∀ op ∈ ops, NoTensor op) : CarefulRun (World.new n total align) ops := by
  have key : ∀ (ops : List Op) (w : World), (∀ v d, w.var v ≠ some (.tensor d)) → (∀ op ∈ ops, NoTensor op) → CarefulRun w ops := by
    intro ops
    induction ops with
    | nil => intro w _ _; trivial
    | cons op ops ih =>
      intro w hw hn
      refine ⟨?_, ih _ ?_ fun o ho => hn o (List.mem_cons_of_mem _ ho)⟩
      · cases op <;> first | trivial | exact fun d hd => absurd hd (hw _ d)
      · intro y d
        cases op with
        | tensor v b => exact absurd (hn _ List.mem_cons_self) (fun h => h)
        | image v b =>
          show (if y = v then (w.pool.alloc b).1.map Obj.image else w.var y) ≠ _
          split
          · intro h
            obtain ⟨_, _, h⟩ := Option.map_eq_some_iff.mp h
            cases h
          · exact hw y d
        | release v =>
          unfold World.step
          dsimp only
          split
          · exact hw y d
          · exact hw y d
        | destroy v =>
          show (if y = v then none else w.var y) ≠ _
          split
          · intro h; cases h
          · exact hw y d
        | move v x =>
          unfold World.step
          dsimp only
          split
          · exact hw y d
          · show (if y = v then none else if y = x then w.var v else w.var y) ≠ _
            split
            · intro h; cases h
            · split
              · exact hw v d
              · exact hw y d
  exact key ops _ (fun v d h => by cases h) h

/-- A slot no variable knows of is never given back. -/
theorem lost_for_good (ops : List Op) : ∀ (w : World), w.Good → ∀ i, (w.pool.slot i).rc = 1 → (∀ v o, w.var v = some o → o.desc.slot = i → ¬ w.pool.Current o.desc) →
    ((w.run ops).pool.slot i).rc = 1 ∧ ∀ v o, (w.run ops).var v = some o → o.desc.slot = i → ¬ (w.run ops).pool.Current o.desc := by
  induction ops with
  | nil => intro w _ i h1 h2; exact ⟨h1, h2⟩
  | cons op ops ih =>
    intro w hw i h1 h2
    have hrel : ∀ (p : Pool), p.Good → p.slot i = w.pool.slot i → ∀ d : Desc, (d.slot = i → ¬ w.pool.Current d) → (p.release d).slot i = p.slot i := by
      intro p hp he d hd
      obtain ⟨_, _, _, r1, r2, _⟩ := release_spec p hp d
      by_cases hc : p.Current d
      · by_cases hs : i = d.slot
        · exact absurd (show w.pool.Current d from ⟨by have := hc.1; rw [← hs, he] at this; rw [← hs]; exact this, by have := hc.2; rw [← hs, he] at this; rw [← hs]; exact this⟩) (hd hs.symm)
        · exact (r2 hc).2.2 i hs
      · rw [r1 hc]
    have hdrop : ∀ (p : Pool), p.Good → p.slot i = w.pool.slot i → ∀ v, (p.dropObj (w.var v)).slot i = p.slot i := by
      intro p hp he v
      cases hv : w.var v with
      | none => rfl
      | some o =>
        cases o with
        | tensor d => rfl
        | image d => exact hrel p hp he d (fun hs => h2 v _ hv hs)
    have hassign : ∀ v b (mk : Desc → Obj), (∀ d, (mk d).desc = d) →
        ((({ w with pool := ((w.pool.alloc b).2).dropObj (w.var v) } : World).put v ((w.pool.alloc b).1.map mk)).pool.slot i).rc = 1 ∧
        ∀ x o, (({ w with pool := ((w.pool.alloc b).2).dropObj (w.var v) } : World).put v ((w.pool.alloc b).1.map mk)).var x = some o → o.desc.slot = i →
          ¬ (({ w with pool := ((w.pool.alloc b).2).dropObj (w.var v) } : World).put v ((w.pool.alloc b).1.map mk)).pool.Current o.desc := by
      intro v b mk hmk
      obtain ⟨a1, a2, a3, _⟩ := alloc_spec w.pool hw.pool b
      have hrg : ((w.pool.alloc b).2.slot i).rc = 1 ∧ ((w.pool.alloc b).2.slot i).gen = (w.pool.slot i).gen ∧ ∀ d, (w.pool.alloc b).1 = some d → d.slot ≠ i := by
        cases hd : (w.pool.alloc b).1 with
        | none => obtain ⟨k1, k2, _⟩ := a3 hd i; exact ⟨by rw [k1]; exact h1, k2, fun d h => (nomatch h)⟩
        | some d =>
          obtain ⟨_, b2, _, _, _, _, _, b8⟩ := a2 d hd
          have hs : i ≠ d.slot := fun e => by rw [e, b2] at h1; cases h1
          rw [b8 i hs]
          exact ⟨h1, rfl, fun d' hd' => by cases hd'; exact fun e => hs e.symm⟩
      have hcur : ∀ d : Desc, d.slot = i → (((w.pool.alloc b).2.dropObj (w.var v)).slot i).gen = (w.pool.slot i).gen ∧ (((w.pool.alloc b).2.dropObj (w.var v)).slot i).rc = 1 := by
        intro _ _
        have hrc : ((w.pool.alloc b).2.dropObj (w.var v)).slot i = (w.pool.alloc b).2.slot i := by
          cases hv : w.var v with
          | none => rfl
          | some o =>
            cases o with
            | tensor d => rfl
            | image d =>
              obtain ⟨_, _, _, r1, r2, _⟩ := release_spec _ a1 d
              by_cases hc : (w.pool.alloc b).2.Current d
              · by_cases hs : i = d.slot
                · exact absurd (show w.pool.Current d from ⟨by rw [← hs]; exact h1, by have := hc.2; rw [← hs, hrg.2.1] at this; rw [← hs]; exact this⟩) (h2 v _ hv hs.symm)
                · exact (r2 hc).2.2 i hs
              · show ((w.pool.alloc b).2.release d).slot i = _
                rw [r1 hc]
        rw [hrc]; exact ⟨hrg.2.1, hrg.1⟩
      refine ⟨(hcur ⟨i, 0, 0, 0⟩ rfl).2, ?_⟩
      intro x o hx hs hc
      rw [put_var] at hx
      by_cases hxv : x = v
      · rw [if_pos hxv] at hx
        obtain ⟨d, hd, rfl⟩ := Option.map_eq_some_iff.mp hx
        rw [hmk] at hs
        exact hrg.2.2 d hd hs
      · rw [if_neg hxv] at hx
        refine h2 x o hx hs ⟨by rw [hs]; exact h1, ?_⟩
        have hc2 : ((((w.pool.alloc b).2).dropObj (w.var v)).slot o.desc.slot).gen = o.desc.gen := hc.2
        rw [hs, (hcur o.desc hs).1] at hc2
        rw [hs]; exact hc2
    refine ih (w.step op) (good_step w hw op) i ?_ ?_
    · cases op with
      | tensor v b => exact (hassign v b Obj.tensor fun _ => rfl).1
      | image v b => exact (hassign v b Obj.image fun _ => rfl).1
      | release v =>
        unfold World.step
        dsimp only
        split
        · rename_i d hv
          show ((w.pool.release d).slot i).rc = 1
          rw [hrel _ hw.pool rfl d fun hs => h2 v _ hv hs]; exact h1
        · exact h1
      | destroy v => show ((w.pool.dropObj (w.var v)).slot i).rc = 1; rw [hdrop _ hw.pool rfl]; exact h1
      | move v x =>
        unfold World.step
        dsimp only
        split
        · exact h1
        · show ((w.pool.dropObj (w.var x)).slot i).rc = 1; rw [hdrop _ hw.pool rfl]; exact h1
    · have hcurr : ∀ (p : Pool), p.slot i = w.pool.slot i → ∀ y o, w.var y = some o → o.desc.slot = i → ¬ p.Current o.desc := by
        intro p he y o hy hs hc
        exact h2 y o hy hs ⟨by rw [hs, ← he, ← hs]; exact hc.1, by rw [hs, ← he, ← hs]; exact hc.2⟩
      intro y o hy hs
      cases op with
      | tensor v b => exact (hassign v b Obj.tensor fun _ => rfl).2 y o hy hs
      | image v b => exact (hassign v b Obj.image fun _ => rfl).2 y o hy hs
      | release v =>
        cases hv : w.var v with
        | none =>
          have e : w.step (.release v) = w := by unfold World.step; dsimp only; rw [hv]
          rw [e] at hy ⊢; exact h2 y o hy hs
        | some q =>
          cases q with
          | image d =>
            have e : w.step (.release v) = w := by unfold World.step; dsimp only; rw [hv]
            rw [e] at hy ⊢; exact h2 y o hy hs
          | tensor d =>
            have e : w.step (.release v) = { w with pool := w.pool.release d } := by unfold World.step; dsimp only; rw [hv]
            rw [e] at hy ⊢
            exact hcurr _ (hrel _ hw.pool rfl d fun hs => h2 v _ hv hs) y o hy hs
      | destroy v =>
        have hy : (if y = v then none else w.var y) = some o := hy
        by_cases hyv : y = v
        · rw [if_pos hyv] at hy; cases hy
        · rw [if_neg hyv] at hy
          exact hcurr _ (hdrop _ hw.pool rfl v) y o hy hs
      | move v x =>
        unfold World.step at hy ⊢
        dsimp only at hy ⊢
        by_cases hvx : v = x
        · rw [if_pos hvx] at hy ⊢; exact h2 y o hy hs
        · rw [if_neg hvx] at hy ⊢
          have hy : (if y = v then none else if y = x then w.var v else w.var y) = some o := hy
          by_cases hyv : y = v
          · rw [if_pos hyv] at hy; cases hy
          · rw [if_neg hyv] at hy
            by_cases hyx : y = x
            · rw [if_pos hyx] at hy; exact hcurr _ (hdrop _ hw.pool rfl x) v o hy hs
            · rw [if_neg hyx] at hy; exact hcurr _ (hdrop _ hw.pool rfl x) y o hy hs

/-- The code disagrees: a C++ `Tensor` that goes out of scope without `release()` takes its slot with it, for good. -/
theorem tensor_leaks (n total align : Nat) (before after : List Op) (v : Nat) (d : Desc) (hv : ((World.new n total align).run before).var v = some (.tensor d))
    (hc : ((World.new n total align).run before).pool.Current d) :
    d.slot ∉ ((World.new n total align).run (before ++ .destroy v :: after)).pool.free := by
  have hw := good_run n total align before
  have e : (World.new n total align).run (before ++ .destroy v :: after) = (((World.new n total align).run before).step (.destroy v)).run after := by
    simp [World.run, List.foldl_append]
  have hg : ((World.new n total align).run (before ++ .destroy v :: after)).Good := good_run n total align _
  rw [e] at hg ⊢
  generalize (World.new n total align).run before = w at *
  have hp : (w.step (.destroy v)).pool = w.pool := by unfold World.step; dsimp only; rw [hv]; rfl
  have hl := lost_for_good after (w.step (.destroy v)) (good_step w hw _) d.slot (by rw [hp]; exact hc.1) (by
    intro x o hx hs hcur
    have hx : (if x = v then none else w.var x) = some o := hx
    by_cases hxv : x = v
    · rw [if_pos hxv] at hx; cases hx
    · rw [if_neg hxv] at hx
      rw [hp] at hcur
      exact hxv (hw.distinct x v o _ hx hv hs (by show o.desc.gen = d.gen; rw [← hcur.2, ← hc.2, hs])))
  rw [hg.pool.inFree]
  rintro ⟨_, h0⟩
  rw [hl.1] at h0; cases h0

/-- Two frames through a pool of two slots, each tensor ending its scope unreleased: the third one is null. -/
theorem leak_exhausts : ((World.new 2 1000 1).run [.tensor 0 10, .destroy 0, .tensor 0 10, .destroy 0, .tensor 0 10]).var 0 = none := by decide +kernel

/-- The code disagrees: `data()` of a released tensor is the memory of the tensor that came after it. -/
theorem released_data_shared : ((World.new 2 1000 1).run [.tensor 0 10, .release 0, .tensor 1 10]).memory 0 = some (0, 10) ∧
    ((World.new 2 1000 1).run [.tensor 0 10, .release 0, .tensor 1 10]).memory 1 = some (0, 10) ∧
    ((World.new 2 1000 1).run [.tensor 0 10, .release 0, .tensor 1 10]).InUse 1 := by
  refine ⟨by decide +kernel, by decide +kernel, _, rfl, ?_⟩
  constructor <;> decide +kernel

/-- The code disagrees: after an allocation that found no memory one slot more is reported as allocated. -/
theorem failure_counted : ((World.new 2 1000 1).run [.tensor 0 2000]).var 0 = none ∧ ((World.new 2 1000 1).run [.tensor 0 2000]).pool.allocated = 1 := by decide +kernel

/-- `data_size()` is the size of the image as long as that is below 4 GiB. -/
theorem imageSize_partial (w h c : Nat) (hl : w * h * c < 4294967296) (hc : 0 < c) : imageSize w h c = w * h * c := by
  unfold imageSize
  have : w * h < 4294967296 := Nat.lt_of_le_of_lt (Nat.le_mul_of_pos_right _ hc) hl
  rw [Nat.mod_eq_of_lt this, Nat.mod_eq_of_lt hl]

/-- The code disagrees: a pool may hold a larger image, whose size is then reported wrongly. -/
theorem large_image_size : imageSize 40000 40000 3 ≠ 40000 * 40000 * 3 ∧
    ((World.new 1 8000000000 64).run [.image 0 (40000 * 40000 * 3)]).memory 0 = some (0, 4800000000) := by decide +kernel

/-! ### The hypotheses are met -/

example : CarefulRun (World.new 2 1000 1) [.tensor 0 10, .image 1 20, .release 0, .destroy 0, .destroy 1] ∧
    ((World.new 2 1000 1).run [.tensor 0 10, .image 1 20]).memory 0 = some (0, 10) ∧ ((World.new 2 1000 1).run [.tensor 0 10, .image 1 20]).memory 1 = some (10, 20) := by
  refine ⟨⟨fun d h => (nomatch h), fun d h => (nomatch h), trivial, ?_, ?_, trivial⟩, by decide +kernel, by decide +kernel⟩
  · intro d h hc
    cases h
    exact absurd hc.1 (by decide +kernel)
  · intro d h
    exact absurd h (by show some (Obj.image _) ≠ _; intro h; cases h)

example : ((World.new 2 1000 1).run [.tensor 0 10, .image 1 20]).InUse 0 := ⟨_, rfl, by constructor <;> decide +kernel⟩

end Horus.FfiPool
