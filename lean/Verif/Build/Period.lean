import Verif.Time.Clock
import Mathlib.Tactic.Positivity
/-
Model of how the scheduler chooses the length of a tick cycle: from the global rate, and from the
fastest node.

Source: horus_core/src/scheduling/scheduler/mod.rs:1973-1991 (`adjust_tick_period_for_node_rates`),
2346-2358 (`finalize_config`), 2063-2068 (`finalize_and_init`), 1888-1899 (on adding a node).

Rates are exact rationals (`f64` in the source). A period of less than a microsecond makes the current
rate infinite in the source; here that is the branch `us = 0`.
-/
namespace Horus.TickPeriod
open Horus.Clocks (nanos)

/-- `Duration::from_micros((1_000_000.0 / rate) as u64)` (scheduler/mod.rs:2350-2353), in nanoseconds. -/
def fromGlobal (hz : Rat) : Nat := ⌊1000000 / hz⌋.toNat * 1000

/-- `max_node_rate` (scheduler/mod.rs:1975-1979). -/
def fastest (rates : List Rat) : Rat := rates.foldl max 0

/-- `adjust_tick_period_for_node_rates` (scheduler/mod.rs:1973-1991): `as_micros` drops the
sub-microsecond part of the period. -/
def adjust (rates : List Rat) (p : Nat) : Nat :=
  let us := p / 1000
  if us = 0 then p
  else if fastest rates > 1000000 / (us : Rat) then Horus.Clocks.period (fastest rates) else p

/-- `finalize_config` then `finalize_and_init`: the period is set from the global rate and adjusted
twice (scheduler/mod.rs:2067-2068, 2350-2358). -/
def settle (hz : Rat) (rates : List Rat) : Nat := adjust rates (adjust rates (fromGlobal hz))

theorem le_fastest {rates : List Rat} {r : Rat} (h : r ∈ rates) : r ≤ fastest rates := by
  have key : ∀ (l : List Rat) (a : Rat), a ≤ l.foldl max a ∧ ∀ x ∈ l, x ≤ l.foldl max a := by
    intro l
    induction l with
    | nil => intro a; simp
    | cons y ys ih =>
      intro a
      obtain ⟨h1, h2⟩ := ih (max a y)
      simp only [List.foldl_cons]
      refine ⟨le_trans (le_max_left _ _) h1, ?_⟩
      intro x hx
      rcases List.mem_cons.1 hx with rfl | hx
      · exact le_trans (le_max_right _ _) h1
      · exact h2 x hx
  exact (key rates 0).2 r h

theorem fastest_mem (rates : List Rat) : fastest rates = 0 ∨ fastest rates ∈ rates := by
  have key : ∀ (l : List Rat) (a : Rat), l.foldl max a = a ∨ l.foldl max a ∈ l := by
    intro l
    induction l with
    | nil => intro a; simp
    | cons y ys ih =>
      intro a
      simp only [List.foldl_cons]
      rcases ih (max a y) with h | h
      · rw [h]
        rcases max_choice a y with h2 | h2
        · rw [h2]; exact Or.inl rfl
        · rw [h2]; exact Or.inr (List.mem_cons_self ..)
      · exact Or.inr (List.mem_cons_of_mem _ h)
  exact key rates 0

theorem fromGlobal_le (hz : Rat) (h : 0 < hz) : (fromGlobal hz : Rat) ≤ 1000000000 / hz ∧ 1000000000 / hz < fromGlobal hz + 1000 := by
  unfold fromGlobal
  have h0 : (0 : Int) ≤ ⌊1000000 / hz⌋ := Int.floor_nonneg.2 (by positivity)
  have h1 := Int.floor_le (1000000 / hz)
  have h2 := Int.lt_floor_add_one (1000000 / hz)
  have e : ((⌊1000000 / hz⌋.toNat : Nat) : Rat) = (⌊1000000 / hz⌋ : Rat) := by
    have : ((⌊1000000 / hz⌋.toNat : Nat) : Int) = ⌊1000000 / hz⌋ := Int.toNat_of_nonneg h0
    exact_mod_cast this
  have e2 : 1000000000 / hz = (1000000 / hz) * 1000 := by field_simp; norm_num
  push_cast
  rw [e, e2]
  constructor <;> linarith

theorem nanos_le (s : Rat) (h : 0 ≤ s) : (nanos s : Rat) ≤ s * 1000000000 + 1 / 2 := by
  unfold nanos
  have h0 : (0 : Int) ≤ ⌊s * 1000000000 + 1 / 2⌋ := Int.floor_nonneg.2 (by positivity)
  have h1 := Int.floor_le (s * 1000000000 + 1 / 2)
  have e : ((⌊s * 1000000000 + 1 / 2⌋.toNat : Nat) : Rat) = (⌊s * 1000000000 + 1 / 2⌋ : Rat) := by
    have : ((⌊s * 1000000000 + 1 / 2⌋.toNat : Nat) : Int) = ⌊s * 1000000000 + 1 / 2⌋ := Int.toNat_of_nonneg h0
    exact_mod_cast this
  rw [e]; exact h1

theorem period_le (hz : Rat) (h : 0 < hz) : (Horus.Clocks.period hz : Rat) ≤ 1000000000 / hz + 1 / 2 := by
  have := nanos_le (1 / hz) (by positivity)
  unfold Horus.Clocks.period
  have e : 1000000000 / hz = 1 / hz * 1000000000 := by field_simp
  rw [e]; exact this

/-- After an adjustment, a cycle is at most a microsecond too long for every node. -/
theorem adjust_fits (rates : List Rat) (p : Nat) {r : Rat} (hr : r ∈ rates) (hpos : 0 < r) :
    (adjust rates p : Rat) < 1000000000 / r + 1000 := by
  have hle := le_fastest hr
  have hf : 0 < fastest rates := lt_of_lt_of_le hpos hle
  have hmono : 1000000000 / fastest rates ≤ 1000000000 / r := by
    apply div_le_div_of_nonneg_left (by norm_num) hpos hle
  have hrpos : 0 < 1000000000 / r := by positivity
  unfold adjust
  dsimp only
  split_ifs with h1 h2
  · have : p < 1000 := by omega
    have : (p : Rat) < 1000 := by exact_mod_cast this
    linarith
  · have := period_le (fastest rates) hf
    linarith
  · have hus : (0 : Rat) < (p / 1000 : Nat) := by exact_mod_cast Nat.pos_of_ne_zero h1
    have h3 : r ≤ 1000000 / ((p / 1000 : Nat) : Rat) := le_trans hle (not_lt.1 h2)
    rw [le_div_iff₀ hus] at h3
    have h4 : ((p / 1000 : Nat) : Rat) ≤ 1000000 / r := by
      rw [le_div_iff₀ hpos]; linarith
    have h5 : p < (p / 1000) * 1000 + 1000 := by omega
    have h6 : (p : Rat) < ((p / 1000 : Nat) : Rat) * 1000 + 1000 := by exact_mod_cast h5
    have e : 1000000000 / r = 1000000 / r * 1000 := by field_simp; norm_num
    rw [e]; linarith

/-- An adjustment of a period of whole microseconds fits every node to half a nanosecond, and never
lengthens the cycle by more than that either. -/
theorem adjust_whole (rates : List Rat) (p : Nat) (hp : p % 1000 = 0) :
    (∀ r ∈ rates, 0 < r → (adjust rates p : Rat) ≤ 1000000000 / r + 1 / 2) ∧
    ((adjust rates p : Rat) ≤ p + 1 / 2) := by
  have hpe : p = (p / 1000) * 1000 := by omega
  constructor
  · intro r hr hpos
    have hle := le_fastest hr
    have hf : 0 < fastest rates := lt_of_lt_of_le hpos hle
    have hmono : 1000000000 / fastest rates ≤ 1000000000 / r := by
      apply div_le_div_of_nonneg_left (by norm_num) hpos hle
    have hrpos : 0 < 1000000000 / r := by positivity
    unfold adjust
    dsimp only
    split_ifs with h1 h2
    · have : p = 0 := by omega
      rw [this]; simp; linarith
    · have := period_le (fastest rates) hf
      linarith
    · have hus : (0 : Rat) < (p / 1000 : Nat) := by exact_mod_cast Nat.pos_of_ne_zero h1
      have h3 : r ≤ 1000000 / ((p / 1000 : Nat) : Rat) := le_trans hle (not_lt.1 h2)
      rw [le_div_iff₀ hus] at h3
      have h4 : ((p / 1000 : Nat) : Rat) ≤ 1000000 / r := by
        rw [le_div_iff₀ hpos]; linarith
      have h6 : (p : Rat) = ((p / 1000 : Nat) : Rat) * 1000 := by exact_mod_cast hpe
      have e : 1000000000 / r = 1000000 / r * 1000 := by field_simp; norm_num
      rw [e, h6]; linarith
  · unfold adjust
    dsimp only
    split_ifs with h1 h2
    · linarith
    · have hus : (0 : Rat) < (p / 1000 : Nat) := by exact_mod_cast Nat.pos_of_ne_zero h1
      have hf : 0 < fastest rates := lt_trans (by positivity) h2
      have h3 := period_le (fastest rates) hf
      have h4 : 1000000 / ((p / 1000 : Nat) : Rat) < fastest rates := h2
      rw [div_lt_iff₀ hus] at h4
      have h5 : 1000000 / fastest rates < ((p / 1000 : Nat) : Rat) := by
        rw [div_lt_iff₀ hf]; linarith
      have h6 : (p : Rat) = ((p / 1000 : Nat) : Rat) * 1000 := by exact_mod_cast hpe
      have e : 1000000000 / fastest rates = 1000000 / fastest rates * 1000 := by field_simp; norm_num
      rw [h6]; linarith
    · linarith

/-- A second adjustment with the same nodes changes nothing. -/
theorem adjust_again (rates : List Rat) (p : Nat) : adjust rates (adjust rates p) = adjust rates p := by
  by_cases h1 : p / 1000 = 0
  · have e : adjust rates p = p := by unfold adjust; simp [h1]
    rw [e, e]
  · by_cases h2 : fastest rates > 1000000 / ((p / 1000 : Nat) : Rat)
    · have e : adjust rates p = Horus.Clocks.period (fastest rates) := by
        unfold adjust; simp only; rw [if_neg h1, if_pos h2]
      rw [e]
      unfold adjust
      dsimp only
      split_ifs <;> rfl
    · have e : adjust rates p = p := by unfold adjust; simp only; rw [if_neg h1, if_neg h2]
      rw [e, e]

theorem period_ge (hz : Rat) (h : 0 < hz) : 1000000000 / hz - 1 / 2 < (Horus.Clocks.period hz : Rat) := by
  unfold Horus.Clocks.period nanos
  have e1 : 1 / hz * 1000000000 = 1000000000 / hz := by field_simp
  have h0 : (0 : Int) ≤ ⌊1 / hz * 1000000000 + 1 / 2⌋ := Int.floor_nonneg.2 (by positivity)
  have h1 := Int.lt_floor_add_one (1 / hz * 1000000000 + 1 / 2)
  have e : ((⌊1 / hz * 1000000000 + 1 / 2⌋.toNat : Nat) : Rat) = (⌊1 / hz * 1000000000 + 1 / 2⌋ : Rat) := by
    have : ((⌊1 / hz * 1000000000 + 1 / 2⌋.toNat : Nat) : Int) = ⌊1 / hz * 1000000000 + 1 / 2⌋ := Int.toNat_of_nonneg h0
    exact_mod_cast this
  rw [e]; linarith

theorem settle_eq (hz : Rat) (rates : List Rat) : settle hz rates = adjust rates (fromGlobal hz) :=
  adjust_again rates _

/-- The cycle the scheduler starts with is never longer (beyond rounding to the nanosecond) than the
configured rate and every node's rate ask for. -/
theorem fast_enough (hz : Rat) (h : 0 < hz) (rates : List Rat) :
    (settle hz rates : Rat) ≤ 1000000000 / hz + 1 / 2 ∧
    ∀ r ∈ rates, 0 < r → (settle hz rates : Rat) ≤ 1000000000 / r + 1 / 2 := by
  rw [settle_eq]
  have hw : fromGlobal hz % 1000 = 0 := by unfold fromGlobal; omega
  obtain ⟨h1, h2⟩ := adjust_whole rates _ hw
  have h3 := (fromGlobal_le hz h).1
  exact ⟨by linarith, h1⟩

/-- It is shorter than what the fastest of them asks for by less than a microsecond. -/
theorem not_much_faster_partial (hz : Rat) (h : 0 < hz) (rates : List Rat) (hr : ∀ r ∈ rates, 0 < r) :
    ∃ r, (r = hz ∨ r ∈ rates) ∧ 1000000000 / r - 1000 < (settle hz rates : Rat) := by
  rw [settle_eq]
  unfold adjust
  dsimp only
  have h3 := (fromGlobal_le hz h).2
  split_ifs with h1 h2
  · exact ⟨hz, Or.inl rfl, by linarith⟩
  · have hf : 0 < fastest rates := by
      have hus : (0 : Rat) < (fromGlobal hz / 1000 : Nat) := by exact_mod_cast Nat.pos_of_ne_zero h1
      exact lt_trans (by positivity) h2
    refine ⟨fastest rates, Or.inr ?_, ?_⟩
    · rcases fastest_mem rates with h4 | h4
      · rw [h4] at hf; exact absurd hf (lt_irrefl _)
      · exact h4
    · have := period_ge (fastest rates) hf
      linarith
  · exact ⟨hz, Or.inl rfl, by linarith⟩

/-- Without a faster node, the cycle is exactly the period of the configured rate when that is a whole
number of microseconds. -/
theorem exact_whole_partial (us : Nat) (hus : 0 < us) (rates : List Rat) (hr : ∀ r ∈ rates, r ≤ 1000000 / us) :
    settle (1000000 / us) rates = us * 1000 := by
  have hq : (0 : Rat) < us := by exact_mod_cast hus
  have e : fromGlobal (1000000 / us) = us * 1000 := by
    unfold fromGlobal
    have : (1000000 : Rat) / (1000000 / us) = (us : Rat) := by field_simp
    rw [this]; simp
  rw [settle_eq, e]
  unfold adjust
  dsimp only
  have h1 : us * 1000 / 1000 = us := by omega
  rw [h1, if_neg (by omega), if_neg]
  rw [not_lt]
  rcases fastest_mem rates with h4 | h4
  · rw [h4]; positivity
  · exact hr _ h4

theorem adjust_none (p : Nat) : adjust [] p = p := by
  unfold adjust
  dsimp only
  split_ifs with h1 h2
  · rfl
  · have hus : (0 : Rat) < (p / 1000 : Nat) := by exact_mod_cast Nat.pos_of_ne_zero h1
    have h3 : (0 : Rat) < 1000000 / ((p / 1000 : Nat) : Rat) := by positivity
    have h4 : fastest [] = 0 := rfl
    rw [h4] at h2
    exact absurd h2 (not_lt.2 h3.le)
  · rfl

/-- The code's gap: the period is cut down to whole microseconds, so the loop runs faster than
configured; above 1 MHz the period is zero. -/
theorem faster_than_configured :
    settle 300000 [] = 3000 ∧ settle 600 [] = 1666000 ∧ ∀ hz : Rat, 1000000 < hz → settle hz [] = 0 := by
  refine ⟨?_, ?_, ?_⟩
  · rw [settle_eq, adjust_none]; unfold fromGlobal
    have : ⌊(1000000 : Rat) / 300000⌋ = 3 := by rw [Int.floor_eq_iff]; norm_num
    rw [this]; rfl
  · rw [settle_eq, adjust_none]; unfold fromGlobal
    have : ⌊(1000000 : Rat) / 600⌋ = 1666 := by rw [Int.floor_eq_iff]; norm_num
    rw [this]; rfl
  · intro hz h
    rw [settle_eq]
    have e : fromGlobal hz = 0 := by
      unfold fromGlobal
      have h0 : 0 < hz := lt_trans (by norm_num) h
      have h1 : 1000000 / hz < 1 := by rw [div_lt_one h0]; exact h
      have h2 : ⌊1000000 / hz⌋ ≤ 0 := by
        by_contra hc
        have h5 : (1 : Int) ≤ ⌊1000000 / hz⌋ := by omega
        have h4 := Int.le_floor.1 h5
        push_cast at h4
        linarith
      have : ⌊1000000 / hz⌋.toNat = 0 := by omega
      rw [this]
    rw [e]; rfl

/-- A 1 kHz node in a 100 Hz scheduler: a 1 ms cycle. -/
example : settle 100 [1000, 50] = 1000000 := by
  rw [settle_eq]
  have e : fromGlobal 100 = 10000000 := by unfold fromGlobal; norm_num; rfl
  have e2 : fastest [1000, 50] = 1000 := by unfold fastest; norm_num
  have e3 : Horus.Clocks.period 1000 = 1000000 := by simp only [Horus.Clocks.period, nanos]; norm_num; rfl
  unfold adjust
  rw [e, e2, e3]
  norm_num

end Horus.TickPeriod
