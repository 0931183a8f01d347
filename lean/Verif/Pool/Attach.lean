import Mathlib.Tactic.Common
import Mathlib.Tactic.Ring
/-
Model of how a process attaches to a tensor pool: `TensorPool::new`, `TensorPool::open`,
`initialize`, `validate` and `validate_fields` of horus_core/src/memory/tensor_pool.rs.

A pool file is its length and the fields of its header. Sizes are natural numbers; `usize` is 64 bits.
In `new`, whose additions are unchecked, sizes that overflow 64 bits are left out (`Fits`).
The wait for a creator's magic (tensor_pool.rs:631-648) is left out: the header is the one seen at
the end of the wait. File permissions are not modelled.
-/
namespace Horus.PoolAttach

/-- tensor_pool.rs:86 `POOL_MAGIC`. -/
def poolMagic : Nat := 0x484F5255535F5450
/-- tensor_pool.rs:102 `POOL_VERSION`. -/
def poolVersion : Nat := 4
/-- tensor_pool.rs:109 `INVALID_SLOT`. -/
def invalidSlot : Nat := 2 ^ 32 - 1
/-- Size of `PoolHeader` (tensor_pool.rs:126-138, repr(C)): 8+4+4+8+4+4+8+8+16. -/
def headerSize : Nat := 64
/-- Size of `SlotHeader` (tensor_pool.rs:149-187, repr(C)), as its comment says. -/
def slotSize : Nat := 56

/-- tensor_pool.rs:126-138 `PoolHeader`. -/
structure Header where
  magic : Nat
  version : Nat
  poolId : Nat
  poolSize : Nat
  maxSlots : Nat
  align : Nat
  nextAlloc : Nat
  /-- slot half of `free_stack_head` -/
  top : Nat
  deriving DecidableEq, Repr

/-- The fields have the widths of tensor_pool.rs:126-138. -/
def Header.Ok (h : Header) : Prop :=
  h.magic < 2 ^ 64 ∧ h.version < 2 ^ 32 ∧ h.poolId < 2 ^ 32 ∧ h.poolSize < 2 ^ 64 ∧ h.maxSlots < 2 ^ 32 ∧
  h.align < 2 ^ 32 ∧ h.nextAlloc < 2 ^ 64 ∧ h.top < 2 ^ 32

/-- A pool file under `tensors/tensor_pool_<id>`. Source: tensor_pool.rs:267-352. -/
structure PoolFile where
  len : Nat
  hdr : Header
  deriving DecidableEq, Repr

/-- tensor_pool.rs:205-214 `TensorPoolConfig`. -/
structure Cfg where
  poolSize : Nat
  maxSlots : Nat
  align : Nat
  deriving DecidableEq, Repr

/-- What a process uses to turn slots and offsets into addresses: tensor_pool.rs:235-247
(`config`, `slots_offset` = 64, `data_offset`) and the length of its mapping. -/
structure Geo where
  cfg : Cfg
  dataOff : Nat
  mapLen : Nat
  deriving DecidableEq, Repr

/-- tensor_pool.rs:1876-1888 `align_up`: `value.wrapping_add(a - 1) & !(a - 1)` on 64 bits. -/
def alignUp (v a : Nat) : Nat :=
  if a ≤ 1 then v else ((v + (a - 1)) % 2 ^ 64) &&& (2 ^ 64 - 1 - (a - 1))

/-- `usize::is_power_of_two` (std), as used at tensor_pool.rs:404. -/
def isPow2 (n : Nat) : Bool := n != 0 && n == 2 ^ n.log2

/-- tensor_pool.rs:278-281: the data offset `new` computes from its own configuration. -/
def layout (c : Cfg) : Nat := alignUp (headerSize + c.maxSlots * slotSize) c.align

/-- tensor_pool.rs:355-466 `open` of a file that exists: each refusal is `none`. -/
def openPool (f : PoolFile) : Option Geo :=
  if f.len = 0 then none   -- mapping an empty file fails
  else if f.hdr.magic ≠ poolMagic then none
  else if f.hdr.version ≠ poolVersion then none
  else if f.hdr.align = 0 ∨ isPow2 f.hdr.align = false then none
  else if 2 ^ 64 ≤ f.hdr.maxSlots * slotSize then none
  else if 2 ^ 64 ≤ headerSize + f.hdr.maxSlots * slotSize then none
  else
    let off := alignUp (headerSize + f.hdr.maxSlots * slotSize) f.hdr.align
    if 2 ^ 64 ≤ off + f.hdr.poolSize then none
    else if f.len < off + f.hdr.poolSize then none
    else some { cfg := ⟨f.hdr.poolSize, f.hdr.maxSlots, f.hdr.align⟩, dataOff := off, mapLen := f.len }

/-- tensor_pool.rs:557-617 `initialize`: the header written by the creator; `as u32` truncates.
All slots are linked, the last on top. -/
def initHeader (id : Nat) (c : Cfg) : Header :=
  { magic := poolMagic, version := poolVersion, poolId := id, poolSize := c.poolSize,
    maxSlots := c.maxSlots % 2 ^ 32, align := c.align % 2 ^ 32, nextAlloc := 0,
    top := if c.maxSlots = 0 then invalidSlot else (c.maxSlots - 1) % 2 ^ 32 }

/-- tensor_pool.rs:627-673 `validate`/`validate_fields`. -/
def validate (id : Nat) (h : Header) : Bool :=
  h.magic == poolMagic && h.version == poolVersion && h.poolId == id

/-- tensor_pool.rs:267-352 `new`: creates the file, or attaches to the one there after lengthening it
to what its own configuration needs. The result is the file afterwards and the attachment. -/
def newPool (id : Nat) (c : Cfg) : Option PoolFile → PoolFile × Option Geo
  | none =>
    let n := layout c + c.poolSize
    (⟨n, initHeader id c⟩, some ⟨c, layout c, n⟩)
  | some f =>
    let n := layout c + c.poolSize
    let f' := if f.len < n then { f with len := n } else f
    (f', if validate id f'.hdr then some ⟨c, layout c, n⟩ else none)

/-- tensor_pool.rs:1560-1564 `slot`: the file offset of slot `i`'s header. -/
def slotAt (i : Nat) : Nat := headerSize + i * slotSize

/-- tensor_pool.rs:1206-1240 `data_ptr` (mmap backend, `offset` and `size` from a descriptor of this
pool): the file offset the pointer refers to, `none` = null. -/
def Geo.resolve (g : Geo) (off size : Nat) : Option Nat :=
  if 2 ^ 64 ≤ off + size then none
  else if g.cfg.poolSize < off + size then none
  else some (g.dataOff + off)

theorem resolve_some (g : Geo) (off size a : Nat) (h : g.resolve off size = some a) :
    a = g.dataOff + off ∧ off + size ≤ g.cfg.poolSize := by
  unfold Geo.resolve at h
  split at h
  · cases h
  · split at h
    · cases h
    · injection h with h
      exact ⟨h.symm, by omega⟩

/-- tensor_pool.rs:1624-1633, the first read of `pop_and_claim`: the file offset it reads `next_free`
from (last 8 bytes of the slot header). -/
def popReads (f : PoolFile) : Option Nat :=
  if f.hdr.top = invalidSlot then none else some (slotAt f.hdr.top)

/-- The sizes of `new` do not overflow `usize`. Source: tensor_pool.rs:275-283. -/
def Cfg.Fits (c : Cfg) : Prop := headerSize + c.maxSlots * slotSize + c.align + c.poolSize < 2 ^ 64

/-! ### Alignment -/

theorem or_le (a : Nat) : ∀ b, a ||| b ≤ a + b := by
  induction a using Nat.strongRecOn with
  | ind a ih =>
    intro b
    by_cases ha : a = 0
    · subst ha; simp
    · have h1 := ih (a / 2) (by omega) (b / 2)
      have h2 : (a ||| b) / 2 = a / 2 ||| b / 2 := Nat.or_div_two
      have h3 : (a ||| b) % 2 ≤ a % 2 + b % 2 := by
        have e := Nat.or_mod_two_pow (a := a) (b := b) (n := 1)
        rw [Nat.pow_one] at e
        rw [e]
        rcases Nat.mod_two_eq_zero_or_one a with h | h <;> rcases Nat.mod_two_eq_zero_or_one b with h' | h' <;>
          rw [h, h'] <;> decide
      omega

theorem and_le_sub (x m : Nat) (hx : x < 2 ^ 64) (hm : m < 2 ^ 64) : x ≤ (x &&& (2 ^ 64 - 1 - m)) + m := by
  refine Nat.le_trans (Nat.le_of_testBit fun i hi => ?_) (or_le (x &&& (2 ^ 64 - 1 - m)) m)
  have hb : (2 ^ 64 - 1 - m).testBit i = (decide (i < 64) && !m.testBit i) := by
    have := Nat.testBit_two_pow_sub_succ (n := 64) (x := m) hm i
    rw [show 2 ^ 64 - 1 - m = 2 ^ 64 - (m + 1) by omega]
    exact this
  have h64 : i < 64 := by
    by_contra h
    have : x.testBit i = false := by
      apply Nat.testBit_lt_two_pow
      calc x < 2 ^ 64 := hx
        _ ≤ 2 ^ i := Nat.pow_le_pow_right (by omega) (by omega)
    rw [this] at hi
    cases hi
  rw [Nat.testBit_or, Nat.testBit_and, hb, hi]
  simp only [h64, decide_true, Bool.true_and]
  cases m.testBit i <;> rfl

/-- Whatever the alignment, the data region never starts inside the metadata. -/
theorem le_alignUp (v a : Nat) (h : v + a < 2 ^ 64) : v ≤ alignUp v a ∧ alignUp v a ≤ v + a := by
  unfold alignUp
  by_cases ha : a ≤ 1
  · rw [if_pos ha]; omega
  · rw [if_neg ha, Nat.mod_eq_of_lt (by omega)]
    have h1 := and_le_sub (v + (a - 1)) (a - 1) (by omega) (by omega)
    have h2 : (v + (a - 1)) &&& (2 ^ 64 - 1 - (a - 1)) ≤ v + (a - 1) := Nat.and_le_left
    omega

theorem pow2_iff (n : Nat) : isPow2 n = true ↔ ∃ k, n = 2 ^ k := by
  unfold isPow2
  rw [Bool.and_eq_true, bne_iff_ne, beq_iff_eq]
  constructor
  · rintro ⟨_, h⟩; exact ⟨_, h⟩
  · rintro ⟨k, rfl⟩
    exact ⟨(Nat.two_pow_pos k).ne', by rw [Nat.log2_two_pow]⟩

/-- With a power of two, the data region starts at a multiple of it. -/
theorem alignUp_dvd (v k : Nat) (hk : k < 64) : 2 ^ k ∣ alignUp v (2 ^ k) := by
  unfold alignUp
  by_cases h0 : 2 ^ k ≤ 1
  · have : 2 ^ k = 1 := by have := Nat.two_pow_pos k; omega
    rw [this]
    exact Nat.one_dvd _
  · rw [if_neg h0]
    have hlt : 2 ^ k - 1 < 2 ^ 64 := by
      have : 2 ^ k ≤ 2 ^ 64 := Nat.pow_le_pow_right (by omega) (by omega)
      omega
    rw [Nat.dvd_iff_mod_eq_zero, ]
    apply Nat.eq_of_testBit_eq
    intro i
    rw [Nat.testBit_mod_two_pow, Nat.zero_testBit, Nat.testBit_and]
    have hb : (2 ^ 64 - 1 - (2 ^ k - 1)).testBit i = (decide (i < 64) && !(2 ^ k - 1).testBit i) := by
      have := Nat.testBit_two_pow_sub_succ (n := 64) (x := 2 ^ k - 1) hlt i
      rw [show 2 ^ 64 - 1 - (2 ^ k - 1) = 2 ^ 64 - (2 ^ k - 1 + 1) by omega]
      exact this
    rw [hb, Nat.testBit_two_pow_sub_one]
    by_cases hi : i < k <;> simp [hi]

/-! ### C241: opening any file -/

/-- C241: whatever the file's contents, if `open` accepts it then every slot header below the slot
count lies between the header and the data region, slots do not overlap, the data region lies inside
the mapping and starts at a multiple of the alignment. -/
theorem open_in_bounds (f : PoolFile) (g : Geo) (hok : f.hdr.Ok) (h : openPool f = some g) :
    (∀ i < g.cfg.maxSlots, headerSize ≤ slotAt i ∧ slotAt i + slotSize ≤ g.dataOff) ∧
    (∀ i j, i < j → slotAt i + slotSize ≤ slotAt j) ∧
    (∀ off size a, g.resolve off size = some a → g.dataOff ≤ a ∧ a + size ≤ g.mapLen) ∧
    g.cfg.align ∣ g.dataOff ∧ g.mapLen = f.len := by
  unfold openPool at h
  split at h
  · cases h
  · split at h
    · cases h
    · split at h
      · cases h
      · split at h
        · cases h
        · rename_i hal
          split at h
          · cases h
          · split at h
            · cases h
            · rename_i hm
              dsimp only at h
              split at h
              · cases h
              · split at h
                · cases h
                · rename_i hover hlen
                  injection h with h
                  subst h
                  dsimp only
                  obtain ⟨_, _, _, _, hms, hal32, _⟩ := hok
                  have hle := le_alignUp (headerSize + f.hdr.maxSlots * slotSize) f.hdr.align
                    (by unfold headerSize slotSize; omega)
                  refine ⟨?_, ?_, ?_, ?_, rfl⟩
                  · intro i hi
                    unfold slotAt
                    have : i * slotSize + slotSize ≤ f.hdr.maxSlots * slotSize := by
                      have := Nat.mul_le_mul_right slotSize (Nat.succ_le_of_lt hi)
                      rw [Nat.succ_mul] at this
                      exact this
                    omega
                  · intro i j hij
                    unfold slotAt
                    have := Nat.mul_le_mul_right slotSize (Nat.succ_le_of_lt hij)
                    rw [Nat.succ_mul] at this
                    omega
                  · intro off size a ho
                    obtain ⟨e, hs⟩ := resolve_some _ _ _ _ ho
                    dsimp only at e hs
                    omega
                  · have hp : isPow2 f.hdr.align = true := by
                      cases hq : isPow2 f.hdr.align with
                      | true => rfl
                      | false => exact absurd (Or.inr hq) hal
                    obtain ⟨k, hk⟩ := (pow2_iff _).1 hp
                    rw [hk]
                    apply alignUp_dvd
                    rw [hk] at hal32
                    by_contra hk64
                    have : 2 ^ 32 ≤ 2 ^ k := Nat.pow_le_pow_right (by omega) (by omega)
                    omega

/-- C241: a file of another version, or that is no pool, is never opened. -/
theorem open_only_own (f : PoolFile) (g : Geo) (h : openPool f = some g) :
    f.hdr.magic = poolMagic ∧ f.hdr.version = poolVersion ∧ g.cfg.maxSlots = f.hdr.maxSlots ∧ g.cfg.poolSize = f.hdr.poolSize := by
  unfold openPool at h
  split at h
  · cases h
  · split at h
    · cases h
    · split at h
      · cases h
      · rename_i h1 h2
        split at h
        · cases h
        · split at h
          · cases h
          · split at h
            · cases h
            · dsimp only at h
              split at h
              · cases h
              · split at h
                · cases h
                · cases h
                  exact ⟨by simpa using h1, by simpa using h2, rfl, rfl⟩

/-- An ordinary configuration: a power-of-two alignment and a slot count that fit 32 bits, and sizes
that fit 64. Source: tensor_pool.rs:205-226. -/
def Cfg.Plain (c : Cfg) : Prop := c.Fits ∧ c.maxSlots < 2 ^ 32 ∧ c.align < 2 ^ 32 ∧ isPow2 c.align = true

/-- C241: in a pool made by `new` with an ordinary configuration, the first slot handed out lies between the header
and the data region. -/
theorem first_slot_inside (id : Nat) (c : Cfg) (hc : c.Plain) (a : Nat) (h : popReads (newPool id c none).1 = some a) :
    headerSize ≤ a ∧ a + slotSize ≤ layout c := by
  obtain ⟨hf, hm, ha, hp⟩ := hc
  unfold Cfg.Fits at hf
  have hl := (le_alignUp (headerSize + c.maxSlots * slotSize) c.align (by omega)).1
  unfold popReads newPool initHeader at h
  dsimp only at h
  by_cases h0 : c.maxSlots = 0
  · rw [if_pos h0, if_pos rfl] at h; cases h
  · rw [if_neg h0] at h
    split at h
    · cases h
    · cases h
      rw [Nat.mod_eq_of_lt (by omega)]
      unfold layout slotAt
      refine ⟨by omega, ?_⟩
      have : (c.maxSlots - 1) * slotSize + slotSize = c.maxSlots * slotSize := by
        obtain ⟨n, hn⟩ : ∃ n, c.maxSlots = n + 1 := ⟨c.maxSlots - 1, by omega⟩
        rw [hn]; simp [Nat.succ_mul]
      omega

example : popReads (newPool 1 ⟨4096, 4, 64⟩ none).1 = some 232 := by decide +kernel

/-- C241: a pool made by `new` with an ordinary configuration is opened by any other process with
exactly the same geometry, so both resolve every slot and every offset to the same bytes. -/
theorem open_agrees (id : Nat) (c : Cfg) (hc : c.Plain) :
    openPool (newPool id c none).1 = (newPool id c none).2 := by
  obtain ⟨hf, hm, ha, hp⟩ := hc
  unfold Cfg.Fits at hf
  obtain ⟨k, hk⟩ := (pow2_iff _).1 hp
  have hpos : 0 < c.align := by rw [hk]; exact Nat.two_pow_pos k
  have hle := le_alignUp (headerSize + c.maxSlots * slotSize) c.align (by omega)
  have hh : 0 < headerSize := by decide
  have hnal : ¬ (c.align = 0 ∨ isPow2 c.align = false) := by
    rw [hp]
    rintro (h | h)
    · omega
    · cases h
  unfold newPool openPool initHeader layout
  dsimp only
  rw [Nat.mod_eq_of_lt hm, Nat.mod_eq_of_lt ha]
  rw [if_neg (by omega), if_neg (by simp), if_neg (by simp), if_neg hnal,
    if_neg (by omega), if_neg (by omega), if_neg (by omega), if_neg (by omega)]

/-- C241: a second `new` with the same slot count and alignment resolves every offset to the same byte
as the creator, whatever pool size it asks for (an offset past either pool is refused), and leaves the
header as it was. -/
theorem attach_agrees_partial (id : Nat) (c1 c2 : Cfg) (hs : c1.maxSlots = c2.maxSlots) (ha : c1.align = c2.align) :
    let f := (newPool id c1 none).1
    (newPool id c2 (some f)).1.hdr = f.hdr ∧ f.len ≤ (newPool id c2 (some f)).1.len ∧
    ∃ g1 g2, (newPool id c1 none).2 = some g1 ∧ (newPool id c2 (some f)).2 = some g2 ∧
      (∀ off size a b, g1.resolve off size = some a → g2.resolve off size = some b → a = b) ∧
      (c1.poolSize ≤ c2.poolSize → ∀ off size a, g1.resolve off size = some a → g2.resolve off size = some a) := by
  have hl : layout c2 = layout c1 := by unfold layout; rw [hs, ha]
  have hv : validate id (initHeader id c1) = true := by
    simp [validate, initHeader]
  have hr : ∀ (g1 g2 : Geo), g1.cfg = c1 → g2.cfg = c2 → g1.dataOff = layout c1 → g2.dataOff = layout c2 →
      (∀ off size a b, g1.resolve off size = some a → g2.resolve off size = some b → a = b) ∧
      (c1.poolSize ≤ c2.poolSize → ∀ off size a, g1.resolve off size = some a → g2.resolve off size = some a) := by
    intro g1 g2 e1 e2 d1 d2
    refine ⟨fun off size a b h1 h2 => ?_, fun hle off size a h1 => ?_⟩
    · have := (resolve_some _ _ _ _ h1).1
      have := (resolve_some _ _ _ _ h2).1
      omega
    · unfold Geo.resolve at h1 ⊢
      rw [e1, d1] at h1
      rw [e2, d2, hl]
      split at h1
      · cases h1
      · rename_i h64
        split at h1
        · cases h1
        · rw [if_neg h64, if_neg (by omega)]
          exact h1
  unfold newPool
  dsimp only
  by_cases h : layout c1 + c1.poolSize < layout c2 + c2.poolSize
  · rw [if_pos h]
    dsimp only
    rw [hv]
    exact ⟨rfl, by omega, _, _, rfl, rfl, hr _ _ rfl rfl rfl rfl⟩
  · rw [if_neg h]
    dsimp only
    rw [hv]
    exact ⟨rfl, by omega, _, _, rfl, rfl, hr _ _ rfl rfl rfl rfl⟩

/-- C241: `new` never attaches to a file with another magic, version or pool id, and never shortens or
rewrites the file it attaches to. -/
theorem attach_checked (id : Nat) (c : Cfg) (f : PoolFile) :
    ((newPool id c (some f)).2.isSome = true ↔
      f.hdr.magic = poolMagic ∧ f.hdr.version = poolVersion ∧ f.hdr.poolId = id) ∧
    (newPool id c (some f)).1.hdr = f.hdr ∧ f.len ≤ (newPool id c (some f)).1.len ∧
    layout c + c.poolSize ≤ (newPool id c (some f)).1.len := by
  have hh : (if f.len < layout c + c.poolSize then { f with len := layout c + c.poolSize } else f).hdr = f.hdr := by
    split <;> rfl
  have hl : f.len ≤ (if f.len < layout c + c.poolSize then { f with len := layout c + c.poolSize } else f).len ∧
      layout c + c.poolSize ≤ (if f.len < layout c + c.poolSize then { f with len := layout c + c.poolSize } else f).len := by
    split
    · dsimp only; omega
    · omega
  unfold newPool
  dsimp only
  refine ⟨?_, hh, hl.1, hl.2⟩
  rw [hh]
  have hv : validate id f.hdr = true ↔ f.hdr.magic = poolMagic ∧ f.hdr.version = poolVersion ∧ f.hdr.poolId = id := by
    simp [validate, and_assoc]
  rw [← hv]
  cases validate id f.hdr <;> simp

/-! ### C241: what fails -/

/-- Two configurations that differ in the slot count. Literals; fields as in tensor_pool.rs:205-226. -/
def small : Cfg := ⟨4096, 4, 64⟩
/-- The other one. Literals; fields as in tensor_pool.rs:205-226. -/
def large : Cfg := ⟨4096, 16, 64⟩

/-- C241 fails: the geometry of an existing pool is never compared with the configuration asked for.
For every pair of ordinary configurations whose layouts differ, the second process attaches without
error and resolves every offset to a different byte of the file than the creator: a tensor sent from
one to the other shows other data. -/
theorem attach_disagrees (id : Nat) (c1 c2 : Cfg) (hne : layout c1 ≠ layout c2) :
    ∃ g1 g2, (newPool id c1 none).2 = some g1 ∧
      (newPool id c2 (some (newPool id c1 none).1)).2 = some g2 ∧
      ∀ off size a b, g1.resolve off size = some a → g2.resolve off size = some b → a ≠ b := by
  have hv : validate id (initHeader id c1) = true := by simp [validate, initHeader]
  have hsome : (newPool id c2 (some (newPool id c1 none).1)).2 = some ⟨c2, layout c2, layout c2 + c2.poolSize⟩ := by
    unfold newPool
    dsimp only
    split <;> simp only [hv, if_true]
  refine ⟨_, _, rfl, hsome, fun off size a b h1 h2 => ?_⟩
  have e1 := (resolve_some _ _ _ _ h1).1
  have e2 := (resolve_some _ _ _ _ h2).1
  dsimp only at e1 e2
  omega

/-- C241 fails: with more slots than the creator's, the second process's slot headers lie in the
creator's data region, on top of its tensors. -/
theorem slots_over_data (id : Nat) :
    ∃ g1 g2, (newPool id small none).2 = some g1 ∧
      (newPool id large (some (newPool id small none).1)).2 = some g2 ∧
      ∃ i < g2.cfg.maxSlots, ∃ off, g1.resolve off slotSize = some (slotAt i) := by
  obtain ⟨g1, g2, h1, h2, _⟩ := attach_disagrees id small large (by decide +kernel)
  refine ⟨g1, g2, h1, h2, ?_⟩
  have e1 : g1 = ⟨small, layout small, layout small + small.poolSize⟩ := (Option.some.inj h1).symm
  have e2 : g2.cfg.maxSlots = 16 := by
    have hs : (newPool id large (some (newPool id small none).1)).2 =
        some ⟨large, layout large, layout large + large.poolSize⟩ := by
      have hv : validate id (initHeader id small) = true := by simp [validate, initHeader]
      unfold newPool
      dsimp only
      split <;> simp only [hv, if_true]
    rw [hs] at h2
    rw [← Option.some.inj h2]
    rfl
  refine ⟨10, by omega, 304, ?_⟩
  rw [e1]
  decide +kernel

/-- C241 fails: the free list is not looked at, so a file whose geometry is accepted can send the first
allocation outside the mapping. -/
theorem wild_free_list : ∃ f : PoolFile, f.hdr.Ok ∧ (∃ g, openPool f = some g ∧
    ∃ o, popReads f = some o ∧ g.mapLen < o) := by
  refine ⟨⟨8192, { initHeader 1 small with top := 1000 }⟩, ?_, ⟨small, 320, 8192⟩, ?_, 56064, ?_, ?_⟩
  · unfold Header.Ok; decide +kernel
  · decide +kernel
  · decide +kernel
  · decide +kernel

/-- C241 fails: `new` takes alignments that are not powers of two, which no other process can then
`open`. -/
theorem odd_alignment_unopenable (id : Nat) (c : Cfg) (h32 : c.align < 2 ^ 32) (hp : isPow2 c.align = false) :
    (newPool id c none).2.isSome = true ∧ openPool (newPool id c none).1 = none := by
  refine ⟨rfl, ?_⟩
  unfold newPool openPool initHeader
  dsimp only
  rw [Nat.mod_eq_of_lt h32]
  by_cases h0 : layout c + c.poolSize = 0
  · rw [if_pos h0]
  · rw [if_neg h0, if_neg (by simp), if_neg (by simp), if_pos (Or.inr hp)]

example : isPow2 100 = false ∧ (newPool 1 ⟨4096, 4, 100⟩ none).2.isSome = true := by decide +kernel
example : small.Plain ∧ large.Plain ∧ layout small = 320 ∧ layout large = 960 := by
  unfold Cfg.Plain Cfg.Fits; decide +kernel
example : ∃ g, openPool (newPool 3 large none).1 = some g ∧ g.mapLen = 5056 := ⟨_, open_agrees 3 large (by unfold Cfg.Plain Cfg.Fits; decide +kernel), by decide +kernel⟩

end Horus.PoolAttach
