import Mathlib.Tactic.Common
import Mathlib.Data.Nat.Init
/-
Shared pieces of the ring models. Messages are lists of machine words of the fixed width of the
topic's type; words are written and read one at a time, so a torn value is expressible.
-/
namespace Horus.Ring

/-- Function update. No source: model infrastructure. -/
def upd {α : Type} (f : Nat → α) (i : Nat) (v : α) : Nat → α := fun j => if j = i then v else f j

@[simp] theorem upd_same {α : Type} (f : Nat → α) (i : Nat) (v : α) : upd f i v i = v := by simp [upd]

theorem upd_ne {α : Type} (f : Nat → α) {i j : Nat} (v : α) (h : j ≠ i) : upd f i v j = f j := by
  simp [upd, h]

/-- Shape of a ring: capacity `2 ^ logCap` slots (header.rs:351-353 rounds it up to a power of two,
mask = capacity - 1) of `width` words each. -/
structure Cfg where
  logCap : Nat
  width : Nat

/-- header.rs:352 -/
def Cfg.cap (c : Cfg) : Nat := 2 ^ c.logCap

/-- dispatch.rs: `(seq & mask) as usize`. -/
def Cfg.idx (c : Cfg) (seq : Nat) : Nat := seq &&& (c.cap - 1)

theorem Cfg.cap_pos (c : Cfg) : 0 < c.cap := Nat.two_pow_pos _

theorem Cfg.idx_eq (c : Cfg) (seq : Nat) : c.idx seq = seq % c.cap := by
  unfold Cfg.idx Cfg.cap; exact Nat.and_two_pow_sub_one_eq_mod seq c.logCap

theorem Cfg.idx_lt (c : Cfg) (seq : Nat) : c.idx seq < c.cap := by
  rw [c.idx_eq]; exact Nat.mod_lt _ c.cap_pos

theorem Cfg.idx_ne (c : Cfg) {a b : Nat} (h1 : a < b) (h2 : b < a + c.cap) : c.idx a ≠ c.idx b := by
  rw [c.idx_eq, c.idx_eq]
  intro h
  have e : (b - a) % c.cap = 0 := Nat.sub_mod_eq_zero_of_mod_eq h.symm
  rw [Nat.mod_eq_of_lt (by omega)] at e
  omega

theorem Cfg.idx_add_cap (c : Cfg) (a : Nat) : c.idx (a + c.cap) = c.idx a := by
  rw [c.idx_eq, c.idx_eq]; simp

/-- dispatch.rs:1196, 1258 `flush_interval`. -/
def Cfg.flushInterval (c : Cfg) : Nat := max (c.cap / 2) 1

/-- dispatch.rs:1197-1205 `new_tail & flush_mask == 0` (the interval is a power of two, so the mask
is the interval minus one). -/
def Cfg.flushDue (c : Cfg) (newTail : Nat) : Bool := newTail &&& (c.flushInterval - 1) == 0

theorem Cfg.flushInterval_pow (c : Cfg) : ∃ k, c.flushInterval = 2 ^ k := by
  unfold Cfg.flushInterval Cfg.cap
  cases c.logCap with
  | zero => exact ⟨0, rfl⟩
  | succ n =>
    refine ⟨n, ?_⟩
    rw [Nat.pow_succ, Nat.mul_div_cancel _ (by omega)]
    have := Nat.two_pow_pos n
    omega

theorem Cfg.flushDue_iff (c : Cfg) (n : Nat) : c.flushDue n = true ↔ n % c.flushInterval = 0 := by
  obtain ⟨k, hk⟩ := c.flushInterval_pow
  unfold Cfg.flushDue
  rw [hk, Nat.and_two_pow_sub_one_eq_mod]
  simp

theorem Cfg.flushInterval_pos (c : Cfg) : 0 < c.flushInterval := by
  unfold Cfg.flushInterval; omega

end Horus.Ring
