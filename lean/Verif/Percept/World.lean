import Verif.Percept.Grid
import Mathlib.Data.Rat.Floor
import Mathlib.Tactic.Linarith
import Mathlib.Tactic.Ring
import Mathlib.Tactic.FieldSimp

/-
World ↔ grid coordinates of occupancy grids and cost maps.

Sources: horus_core/src/memory/occupancy_grid.rs:193-246, horus_core/src/memory/costmap.rs:378-404
(the same two functions again).

`f32`/`f64` values are exact rationals: rounding, infinities and NaN are not modelled.  The casts
are: `floor() as i32` saturates, `width as i32` keeps the low 32 bits.
-/
namespace Horus.Percept

/-- `f64 as i32` of an integral value: saturating (Rust cast semantics). -/
def satI32 (n : Int) : Int := max (-2147483648) (min n 2147483647)

/-- `u32 as i32`: same bits, two's complement (occupancy_grid.rs:200, 202). -/
def asI32 (n : Nat) : Int := if n % 4294967296 < 2147483648 then (n % 4294967296 : Nat) else (n % 4294967296 : Nat) - 4294967296

/-- Where a grid lies: its size, resolution (metres per cell), origin and orientation.  The angle is
given by its cosine and sine (occupancy_grid.rs:76-126, descriptor fields). -/
structure Frame where
  w : Nat
  h : Nat
  res : ℚ
  ox : ℚ
  oy : ℚ
  cosT : ℚ
  sinT : ℚ

/-- `EPSILON` (occupancy_grid.rs:194, costmap.rs:379). -/
def eps : ℚ := 1 / 1000000

/-- `(resolution as f64).max(1e-9)` (occupancy_grid.rs:195, costmap.rs:380). -/
def Frame.step (f : Frame) : ℚ := max f.res (1 / 1000000000)

/-- One axis of `world_to_grid` (occupancy_grid.rs:196-197, costmap.rs:381-382). -/
def axis (step o x : ℚ) : Int := satI32 ⌊(x - o) / step + eps⌋

/-- `world_to_grid` (occupancy_grid.rs:193-208, costmap.rs:378-393). -/
def Frame.worldToGrid (f : Frame) (x y : ℚ) : Option (Nat × Nat) :=
  let gx := axis f.step f.ox x
  let gy := axis f.step f.oy y
  if 0 ≤ gx ∧ gx < asI32 f.w ∧ 0 ≤ gy ∧ gy < asI32 f.h then some (gx.toNat, gy.toNat) else none

/-- `grid_to_world` (occupancy_grid.rs:211-219, costmap.rs:396-404). -/
def Frame.gridToWorld (f : Frame) (x y : Nat) : Option (ℚ × ℚ) :=
  if x < f.w ∧ y < f.h then some (f.ox + (x + 1 / 2) * f.res, f.oy + (y + 1 / 2) * f.res) else none

/-- `is_free` (occupancy_grid.rs:224-231). -/
def isFree (f : Frame) (g : Grid) (x y : ℚ) : Bool :=
  match f.worldToGrid x y with
  | some (gx, gy) => match g.get gx gy with
    | some o => decide (0 ≤ o ∧ o < 50)
    | none => false
  | none => false

/-- `is_occupied` (occupancy_grid.rs:234-241). -/
def isOccupied (f : Frame) (g : Grid) (x y : ℚ) : Bool :=
  match f.worldToGrid x y with
  | some (gx, gy) => match g.get gx gy with
    | some o => decide (o ≥ 50)
    | none => false
  | none => false

/-! ### Specification

For an unrotated map, cell `(i, j)` is the square `[ox + i·res, ox + (i+1)·res) × [oy + j·res, …)`.
For a map turned by θ about its origin the square's centre is turned with it. -/

/-- The point lies in cell `(i, j)` of an unrotated map. -/
def InCell (f : Frame) (x y : ℚ) (i j : Nat) : Prop :=
  f.ox + i * f.res ≤ x ∧ x < f.ox + (i + 1) * f.res ∧ f.oy + j * f.res ≤ y ∧ y < f.oy + (j + 1) * f.res

/-- The centre of cell `(i, j)` of a map turned by its orientation. -/
def centre (f : Frame) (i j : Nat) : ℚ × ℚ :=
  (f.ox + f.cosT * ((i + 1 / 2) * f.res) - f.sinT * ((j + 1 / 2) * f.res),
   f.oy + f.sinT * ((i + 1 / 2) * f.res) + f.cosT * ((j + 1 / 2) * f.res))

theorem asI32_small {n : Nat} (h : n < 2147483648) : asI32 n = n := by
  unfold asI32
  rw [Nat.mod_eq_of_lt (by omega), if_pos h]

theorem satI32_small {n : Int} (h0 : -2147483648 ≤ n) (h1 : n ≤ 2147483647) : satI32 n = n := by
  unfold satI32; omega

theorem step_pos (f : Frame) : 0 < f.step := by
  unfold Frame.step
  exact lt_of_lt_of_le (by norm_num) (le_max_right _ _)

theorem step_eq {f : Frame} (h : 1 / 1000000000 ≤ f.res) : f.step = f.res := max_eq_left h

theorem axis_eq {s o x : ℚ} (hs : 0 < s) {i : Nat} (hi : i < 2147483648)
    (h1 : o + i * s ≤ x + eps * s) (h2 : x + eps * s < o + (i + 1) * s) : axis s o x = i := by
  have hd : (x - o) / s + eps = (x - o + eps * s) / s := by field_simp
  have hf : ⌊(x - o) / s + eps⌋ = (i : Int) := by
    rw [Int.floor_eq_iff, hd]
    constructor
    · rw [le_div_iff₀ hs]; push_cast; linarith
    · rw [div_lt_iff₀ hs]; push_cast; linarith
  unfold axis
  rw [hf, satI32_small (by omega) (by omega)]

theorem axis_bounds {s o x : ℚ} (hs : 0 < s) {i : Nat} (hi : i < 2147483647)
    (h : axis s o x = i) : o + i * s ≤ x + eps * s ∧ x + eps * s < o + (i + 1) * s := by
  have hf : ⌊(x - o) / s + eps⌋ = (i : Int) := by
    unfold axis satI32 at h; omega
  have hd : (x - o) / s + eps = (x - o + eps * s) / s := by field_simp
  rw [Int.floor_eq_iff, hd, le_div_iff₀ hs, div_lt_iff₀ hs] at hf
  push_cast at hf
  constructor <;> linarith [hf.1, hf.2]

/-! ### C126: world and grid coordinates agree -/

/-- Whatever `world_to_grid` returns can be used as a cell address: it is inside the grid. -/
theorem world_cell_in_bounds (f : Frame) (hw : f.w < 4294967296) (hh : f.h < 4294967296) (x y : ℚ) (i j : Nat)
    (h : f.worldToGrid x y = some (i, j)) : i < f.w ∧ j < f.h := by
  unfold Frame.worldToGrid at h
  simp only at h
  split at h
  · rename_i hc
    have hle : ∀ n : Nat, n < 4294967296 → asI32 n ≤ n := by
      intro n hn; unfold asI32; split <;> omega
    have := hle f.w hw
    have := hle f.h hh
    simp only [Option.some.injEq, Prod.mk.injEq] at h
    omega
  · cases h

/-- A cell's centre, as given by `grid_to_world`, is mapped back to that cell, for every cell of a
map with a resolution of at least a nanometre and fewer than 2^31 cells a side. -/
theorem centre_round_trip_partial (f : Frame) (hr : 1 / 1000000000 ≤ f.res) (hw : f.w < 2147483648)
    (hh : f.h < 2147483648) (i j : Nat) (hi : i < f.w) (hj : j < f.h) :
    ∃ x y, f.gridToWorld i j = some (x, y) ∧ f.worldToGrid x y = some (i, j) := by
  have hp : 0 < f.res := lt_of_lt_of_le (by norm_num) hr
  have key : ∀ (o : ℚ) (k : Nat), k < 2147483648 → axis f.step o (o + (k + 1 / 2) * f.res) = k := by
    intro o k hk
    rw [step_eq hr]
    refine axis_eq hp hk ?_ ?_ <;> unfold eps <;> nlinarith
  refine ⟨_, _, by unfold Frame.gridToWorld; rw [if_pos ⟨hi, hj⟩], ?_⟩
  unfold Frame.worldToGrid
  simp only
  rw [key f.ox i (by omega), key f.oy j (by omega), asI32_small hw, asI32_small hh, if_pos (by omega)]
  simp

/-- Any point of an unrotated map that is more than a millionth of a cell away from its cell's upper
edges is given exactly that cell. -/
theorem point_gets_its_cell_partial (f : Frame) (hr : 1 / 1000000000 ≤ f.res) (hw : f.w < 2147483648)
    (hh : f.h < 2147483648) (x y : ℚ) (i j : Nat) (hi : i < f.w) (hj : j < f.h) (hc : InCell f x y i j)
    (hx : x < f.ox + (i + 1) * f.res - eps * f.res) (hy : y < f.oy + (j + 1) * f.res - eps * f.res) :
    f.worldToGrid x y = some (i, j) := by
  have hp : 0 < f.res := lt_of_lt_of_le (by norm_num) hr
  have he : 0 < eps * f.res := mul_pos (by unfold eps; norm_num) hp
  unfold Frame.worldToGrid
  simp only
  rw [step_eq hr, axis_eq hp (by omega : i < 2147483648) (by linarith [hc.1]) (by linarith),
    axis_eq hp (by omega : j < 2147483648) (by linarith [hc.2.2.1]) (by linarith),
    asI32_small hw, asI32_small hh, if_pos (by omega)]
  simp

/-- Conversely, a point that is given a cell is in that cell, or within a millionth of a cell below
its lower edges. -/
theorem given_cell_contains_partial (f : Frame) (hr : 1 / 1000000000 ≤ f.res) (hw : f.w < 2147483648)
    (hh : f.h < 2147483648) (x y : ℚ) (i j : Nat) (h : f.worldToGrid x y = some (i, j)) :
    f.ox + i * f.res - eps * f.res ≤ x ∧ x < f.ox + (i + 1) * f.res ∧
      f.oy + j * f.res - eps * f.res ≤ y ∧ y < f.oy + (j + 1) * f.res := by
  have hp : 0 < f.res := lt_of_lt_of_le (by norm_num) hr
  have he : 0 < eps * f.res := mul_pos (by unfold eps; norm_num) hp
  unfold Frame.worldToGrid at h
  simp only at h
  split at h
  · rename_i hc
    rw [asI32_small hw, asI32_small hh] at hc
    simp only [Option.some.injEq, Prod.mk.injEq] at h
    rw [step_eq hr] at h hc
    have hx := axis_bounds (o := f.ox) (x := x) hp (by omega : i < 2147483647) (by omega)
    have hy := axis_bounds (o := f.oy) (x := y) hp (by omega : j < 2147483647) (by omega)
    refine ⟨by linarith [hx.1], by linarith [hx.2], by linarith [hy.1], by linarith [hy.2]⟩
  · cases h

/-- A point outside the map by more than a millionth of a cell gets no cell. -/
theorem outside_gets_none (f : Frame) (hr : 1 / 1000000000 ≤ f.res) (hw : f.w < 2147483648)
    (hh : f.h < 2147483648) (x y : ℚ)
    (h : x < f.ox - eps * f.res ∨ f.ox + f.w * f.res ≤ x ∨ y < f.oy - eps * f.res ∨ f.oy + f.h * f.res ≤ y) :
    f.worldToGrid x y = none := by
  have hp : 0 < f.res := lt_of_lt_of_le (by norm_num) hr
  cases hg : f.worldToGrid x y with
  | none => rfl
  | some c =>
    obtain ⟨i, j⟩ := c
    obtain ⟨a, b, c, d⟩ := given_cell_contains_partial f hr hw hh x y i j hg
    obtain ⟨hi, hj⟩ := world_cell_in_bounds f (by omega) (by omega) x y i j hg
    have hi' : ((i : ℚ) + 1) ≤ f.w := by exact_mod_cast hi
    have hj' : ((j : ℚ) + 1) ≤ f.h := by exact_mod_cast hj
    have h1 : ((i : ℚ) + 1) * f.res ≤ f.w * f.res := mul_le_mul_of_nonneg_right hi' hp.le
    have h2 : ((j : ℚ) + 1) * f.res ≤ f.h * f.res := mul_le_mul_of_nonneg_right hj' hp.le
    have h3 : 0 ≤ (i : ℚ) * f.res := mul_nonneg (by positivity) hp.le
    have h4 : 0 ≤ (j : ℚ) * f.res := mul_nonneg (by positivity) hp.le
    rcases h with h | h | h | h <;> exfalso <;> linarith

/-- The margin is real: a point of cell (0, 0) just below its upper edge is given cell (1, 0), and
one in the last column is given no cell at all although it is on the map. -/
theorem edge_point_wrong_cell :
    let f : Frame := ⟨2, 1, 1, 0, 0, 1, 0⟩
    (InCell f (1 - 1 / 2000000) 0 0 0 ∧ f.worldToGrid (1 - 1 / 2000000) 0 = some (1, 0)) ∧
    (InCell f (2 - 1 / 2000000) 0 1 0 ∧ f.worldToGrid (2 - 1 / 2000000) 0 = none) := by
  refine ⟨⟨?_, ?_⟩, ?_, ?_⟩
  · unfold InCell; norm_num
  · decide +kernel
  · unfold InCell; norm_num
  · decide +kernel

/-- A map 2^31 or more cells wide or high never gives any point a cell. -/
theorem huge_map_no_cells (f : Frame) (hw : f.w < 4294967296) (hh : f.h < 4294967296)
    (hb : 2147483648 ≤ f.w ∨ 2147483648 ≤ f.h) (x y : ℚ) : f.worldToGrid x y = none := by
  have neg : ∀ n : Nat, n < 4294967296 → 2147483648 ≤ n → asI32 n < 0 := by
    intro n h1 h2
    unfold asI32
    rw [Nat.mod_eq_of_lt h1, if_neg (by omega)]
    omega
  unfold Frame.worldToGrid
  simp only
  rw [if_neg]
  rintro ⟨h1, h2, h3, h4⟩
  rcases hb with h | h
  · have := neg f.w hw h; omega
  · have := neg f.h hh h; omega

/-- The map's orientation takes no part: the centre `grid_to_world` gives is the turned centre only
when the map is not turned; on a map turned by a quarter turn it is a different point. -/
theorem orientation_ignored :
    (∀ f : Frame, f.cosT = 1 → f.sinT = 0 → ∀ i j, i < f.w → j < f.h → f.gridToWorld i j = some (centre f i j)) ∧
    (∀ (f : Frame) (c s : ℚ) (x y : ℚ), ({ f with cosT := c, sinT := s } : Frame).worldToGrid x y = f.worldToGrid x y) ∧
    (let f : Frame := ⟨4, 4, 1, 0, 0, 0, 1⟩
     f.gridToWorld 2 1 = some (5 / 2, 3 / 2) ∧ centre f 2 1 = (-3 / 2, 5 / 2)) := by
  refine ⟨?_, fun _ _ _ _ _ => rfl, ?_, ?_⟩
  · intro f hc hs i j hi hj
    unfold Frame.gridToWorld centre
    rw [if_pos ⟨hi, hj⟩, hc, hs]
    congr 2 <;> ring
  · unfold Frame.gridToWorld
    norm_num
  · unfold centre
    norm_num

/-- A resolution below a nanometre (zero included) breaks the round trip: cells are addressed with a
nanometre but centred with the real value. -/
theorem tiny_resolution_no_round_trip :
    let f : Frame := ⟨4, 4, 0, 0, 0, 1, 0⟩
    f.gridToWorld 2 1 = some (0, 0) ∧ f.worldToGrid 0 0 = some (0, 0) := by
  refine ⟨?_, ?_⟩
  · unfold Frame.gridToWorld; norm_num
  · decide +kernel

/-- A point is never both free and occupied, and it is neither when it is off the map or its cell is
unknown; on a map whose cells are in range and known, it is one of the two. -/
theorem free_xor_occupied (f : Frame) (g : Grid) (x y : ℚ) :
    ¬ (isFree f g x y = true ∧ isOccupied f g x y = true) ∧
    (f.worldToGrid x y = none → isFree f g x y = false ∧ isOccupied f g x y = false) ∧
    (∀ i j, f.worldToGrid x y = some (i, j) → g.get i j = some (-1) → isFree f g x y = false ∧ isOccupied f g x y = false) ∧
    (∀ i j o, f.worldToGrid x y = some (i, j) → g.get i j = some o → 0 ≤ o →
      (isOccupied f g x y = true ↔ 50 ≤ o) ∧ (isFree f g x y = true ↔ o < 50)) := by
  unfold isFree isOccupied
  refine ⟨?_, ?_, ?_, ?_⟩
  · cases f.worldToGrid x y with
    | none => simp
    | some c =>
      obtain ⟨i, j⟩ := c
      simp only
      cases g.get i j with
      | none => simp
      | some o => simp only [decide_eq_true_eq]; omega
  · intro h; rw [h]; exact ⟨rfl, rfl⟩
  · intro i j h hg; rw [h]; simp only [hg]; exact ⟨rfl, rfl⟩
  · intro i j o h hg ho; rw [h]; simp only [hg, decide_eq_true_eq]
    exact ⟨trivial, ⟨fun k => k.2, fun k => ⟨ho, k⟩⟩⟩

/-- A point is reported occupied exactly when the last value written to the cell that contains it is
at least 50, for points away from cell edges by the margin. -/
theorem occupied_iff_written (f : Frame) (hs : f.w * f.h ≤ 4294967296) (hr : 1 / 1000000000 ≤ f.res)
    (hw : f.w < 2147483648) (hh : f.h < 2147483648) (ops : List GOp) (x y : ℚ) (i j : Nat) (hi : i < f.w)
    (hj : j < f.h) (hc : InCell f x y i j) (hx : x < f.ox + (i + 1) * f.res - eps * f.res)
    (hy : y < f.oy + (j + 1) * f.res - eps * f.res) :
    (isOccupied f ((Grid.new f.w f.h).run ops) x y = true ↔ 50 ≤ wantCell ops i j) ∧
    (isFree f ((Grid.new f.w f.h).run ops) x y = true ↔ 0 ≤ wantCell ops i j ∧ wantCell ops i j < 50) := by
  unfold isFree isOccupied
  rw [point_gets_its_cell_partial f hr hw hh x y i j hi hj hc hx hy]
  simp only
  rw [grid_reads_last_write_partial f.w f.h hs, if_pos ⟨hi, hj⟩]
  simp

/-- The hypotheses are met: a 10 by 10 map with 5 cm cells and a shifted origin. -/
example : let f : Frame := ⟨10, 10, 1 / 20, -1, 2, 1, 0⟩
    (1 / 1000000000 : ℚ) ≤ f.res ∧ InCell f (-4 / 5) (21 / 10) 4 2 ∧ f.worldToGrid (-4 / 5) (21 / 10) = some (4, 2) ∧
    f.worldToGrid (-11 / 10) 2 = none := by
  refine ⟨by norm_num, ?_, ?_, ?_⟩
  · unfold InCell; norm_num
  · decide +kernel
  · decide +kernel

end Horus.Percept
