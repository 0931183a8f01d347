import Mathlib.Tactic.Common

/-
Occupancy grids and cost maps: cell access and the bulk operations.

Sources: horus_core/src/memory/occupancy_grid.rs, horus_core/src/memory/costmap.rs.

A cell store is the `i8` (or `u8`) slice over the tensor's bytes; it is a list of integers, one per
cell, as long as `width * height` (occupancy_grid.rs:62-63, costmap.rs:92-95; the pool that hands
out the bytes is the Pool area).  Widths, heights and coordinates are `u32`; index arithmetic is
done in `u32`, so it is reduced modulo 2^32 here, as a release build does (a debug build panics
instead).  Shared access from several processes to the same cells is not modelled: the caller is
the only writer.
-/
namespace Horus.Percept

/-- `u32` arithmetic wraps (release profile, Cargo.toml:119-120 sets no overflow checks). -/
def u32 (n : Nat) : Nat := n % 4294967296

/-- `(grid_y * self.width() + grid_x) as usize` (occupancy_grid.rs:167, 180; costmap.rs:315, 325,
338, 348). -/
def cellIndex (w x y : Nat) : Nat := u32 (u32 (y * w) + x)

/-- `get_cell` / `get_occupancy` / `get_cost` (occupancy_grid.rs:165-172, costmap.rs:313-320,
336-343): bounds test, index, `slice.get`. -/
def getCell {α : Type} (w h : Nat) (cells : List α) (x y : Nat) : Option α :=
  if x < w ∧ y < h then cells[cellIndex w x y]? else none

/-- `set_cell` / `set_occupancy` / `set_cost` after the clamp (occupancy_grid.rs:178-188,
costmap.rs:323-333, 346-356): the returned flag and the cells afterwards. -/
def setCell {α : Type} (w h : Nat) (cells : List α) (x y : Nat) (v : α) : Bool × List α :=
  if x < w ∧ y < h then
    if cellIndex w x y < cells.length then (true, cells.set (cellIndex w x y) v) else (false, cells)
  else (false, cells)

/-- `value.clamp(-1, 100)` (occupancy_grid.rs:183, costmap.rs:328). -/
def clampOcc (v : Int) : Int := if v < -1 then -1 else if v > 100 then 100 else v

/-! ### Occupancy grid -/

/-- An occupancy grid's size and cells (occupancy_grid.rs:36-39 and the descriptor's width/height). -/
structure Grid where
  w : Nat
  h : Nat
  cells : List Int

/-- `OccupancyGrid::new_on` (occupancy_grid.rs:55-74): all cells -1. -/
def Grid.new (w h : Nat) : Grid := ⟨w, h, List.replicate (h * w) (-1)⟩

/-- Mutating calls on a grid. -/
inductive GOp where
  /-- `set_cell` (occupancy_grid.rs:178-188). -/
  | set (x y : Nat) (v : Int)
  /-- `fill` (occupancy_grid.rs:249-253). -/
  | fill (v : Int)
  /-- `clear` (occupancy_grid.rs:256-258). -/
  | clear
  /-- `reset` (occupancy_grid.rs:261-263). -/
  | reset

/-- The effect of one call (occupancy_grid.rs:178-188, 249-263). -/
def Grid.step (g : Grid) : GOp → Grid
  | .set x y v => { g with cells := (setCell g.w g.h g.cells x y (clampOcc v)).2 }
  | .fill v => { g with cells := g.cells.map fun _ => v }
  | .clear => { g with cells := g.cells.map fun _ => 0 }
  | .reset => { g with cells := g.cells.map fun _ => -1 }

/-- A sequence of calls. -/
def Grid.run (g : Grid) (ops : List GOp) : Grid := ops.foldl Grid.step g

/-- `get_cell` (occupancy_grid.rs:165-172). -/
def Grid.get (g : Grid) (x y : Nat) : Option Int := getCell g.w g.h g.cells x y

/-- `row` (occupancy_grid.rs:266-275): index arithmetic in `usize`. -/
def Grid.row (g : Grid) (y : Nat) : Option (List Int) :=
  if y < g.h then
    if y * g.w + g.w ≤ g.cells.length then some ((g.cells.drop (y * g.w)).take g.w) else none
  else none

/-! ### Specification of a grid: the last write to a cell wins, and nothing else touches it -/

/-- Value of cell `(x, y)` after one call, given its value before it. -/
def GOp.cellAfter (x y : Nat) (old : Int) : GOp → Int
  | .set x' y' v => if x' = x ∧ y' = y then max (-1) (min v 100) else old
  | .fill v => v
  | .clear => 0
  | .reset => -1

/-- Value of cell `(x, y)` after a sequence of calls on a new grid (unknown, -1, to begin with). -/
def wantCell (ops : List GOp) (x y : Nat) : Int := ops.foldl (fun v o => o.cellAfter x y v) (-1)

/-! ### Lemmas on the index -/

theorem cellIndex_eq {w h x y : Nat} (hs : w * h ≤ 4294967296) (hx : x < w) (hy : y < h) :
    cellIndex w x y = y * w + x ∧ y * w + x < h * w := by
  have h1 : y * w + w ≤ h * w := by
    calc y * w + w = (y + 1) * w := by rw [Nat.add_mul, Nat.one_mul]
      _ ≤ h * w := Nat.mul_le_mul_right w hy
  have h2 : h * w = w * h := Nat.mul_comm ..
  have h3 : y * w < 4294967296 := by omega
  unfold cellIndex u32
  rw [Nat.mod_eq_of_lt h3, Nat.mod_eq_of_lt (by omega)]
  exact ⟨rfl, by omega⟩

theorem index_inj {w x y x' y' : Nat} (hx : x < w) (hx' : x' < w) (e : y * w + x = y' * w + x') :
    x = x' ∧ y = y' := by
  have hw : 0 < w := by omega
  have a : (y * w + x) / w = y := by
    rw [Nat.mul_comm, Nat.mul_add_div hw, Nat.div_eq_of_lt hx]; omega
  have b : (y' * w + x') / w = y' := by
    rw [Nat.mul_comm, Nat.mul_add_div hw, Nat.div_eq_of_lt hx']; omega
  have hy : y = y' := by rw [← a, ← b, e]
  subst hy
  omega

/-- Cell stores that agree with a function of the coordinates. -/
def Holds {α : Type} (w h : Nat) (cells : List α) (f : Nat → Nat → α) : Prop :=
  cells.length = h * w ∧ ∀ x y, x < w → y < h → cells[y * w + x]? = some (f x y)

theorem holds_get {α : Type} {w h : Nat} {cells : List α} {f : Nat → Nat → α} (hs : w * h ≤ 4294967296)
    (hh : Holds w h cells f) (x y : Nat) :
    getCell w h cells x y = if x < w ∧ y < h then some (f x y) else none := by
  unfold getCell
  by_cases hb : x < w ∧ y < h
  · rw [if_pos hb, if_pos hb, (cellIndex_eq hs hb.1 hb.2).1]
    exact hh.2 x y hb.1 hb.2
  · rw [if_neg hb, if_neg hb]

theorem holds_set {α : Type} {w h : Nat} {cells : List α} {f : Nat → Nat → α} (hs : w * h ≤ 4294967296)
    (hh : Holds w h cells f) (x y : Nat) (v : α) :
    (setCell w h cells x y v).1 = decide (x < w ∧ y < h) ∧
      Holds w h (setCell w h cells x y v).2 (fun x' y' => if x = x' ∧ y = y' then v else f x' y') := by
  unfold setCell
  by_cases hb : x < w ∧ y < h
  · obtain ⟨e, lt⟩ := cellIndex_eq hs hb.1 hb.2
    rw [if_pos hb, e, if_pos (by rw [hh.1]; exact lt)]
    refine ⟨by simp [hb], ?_, ?_⟩
    · show (cells.set _ v).length = _
      rw [List.length_set]; exact hh.1
    · intro x' y' hx' hy'
      show (cells.set (y * w + x) v)[y' * w + x']? = some (if x = x' ∧ y = y' then v else f x' y')
      rw [List.getElem?_set]
      by_cases hc : y * w + x = y' * w + x'
      · obtain ⟨h1, h2⟩ := index_inj hb.1 hx' hc
        rw [if_pos hc, if_pos (by rw [hh.1]; exact lt), if_pos ⟨h1, h2⟩]
      · rw [if_neg hc, if_neg (by rintro ⟨rfl, rfl⟩; exact hc rfl)]
        exact hh.2 x' y' hx' hy'
  · rw [if_neg hb]
    refine ⟨by simp [hb], hh.1, ?_⟩
    intro x' y' hx' hy'
    show cells[y' * w + x']? = some (if x = x' ∧ y = y' then v else f x' y')
    rw [if_neg (by rintro ⟨rfl, rfl⟩; exact hb ⟨hx', hy'⟩)]
    exact hh.2 x' y' hx' hy'

theorem holds_map {α β : Type} {w h : Nat} {cells : List α} {f : Nat → Nat → α} (k : α → β)
    (hh : Holds w h cells f) : Holds w h (cells.map k) (fun x y => k (f x y)) := by
  refine ⟨by rw [List.length_map]; exact hh.1, ?_⟩
  intro x y hx hy
  rw [List.getElem?_map, hh.2 x y hx hy]; rfl

theorem clampOcc_eq (v : Int) : clampOcc v = max (-1) (min v 100) := by
  unfold clampOcc
  split
  · omega
  · split <;> omega

theorem holds_run {w h : Nat} (hs : w * h ≤ 4294967296) (ops : List GOp) :
    ((Grid.new w h).run ops).w = w ∧ ((Grid.new w h).run ops).h = h ∧
      Holds w h ((Grid.new w h).run ops).cells (wantCell ops) := by
  have base : Holds w h (Grid.new w h).cells (fun _ _ => (-1 : Int)) := by
    refine ⟨by simp [Grid.new], ?_⟩
    intro x y hx hy
    have := (cellIndex_eq hs hx hy).2
    simp [Grid.new, this]
  have gen : ∀ (ops : List GOp) (g : Grid) (f : Nat → Nat → Int), g.w = w → g.h = h →
      Holds w h g.cells f → (g.run ops).w = w ∧ (g.run ops).h = h ∧
        Holds w h (g.run ops).cells (fun x y => ops.foldl (fun v o => o.cellAfter x y v) (f x y)) := by
    intro ops
    induction ops with
    | nil => intro g f h1 h2 h3; exact ⟨h1, h2, h3⟩
    | cons o os ih =>
      intro g f h1 h2 h3
      have hw : (g.step o).w = w := by cases o <;> exact h1
      have hhh : (g.step o).h = h := by cases o <;> exact h2
      refine ih (g.step o) (fun x y => o.cellAfter x y (f x y)) hw hhh ?_
      cases o with
      | set x y v =>
        have := (holds_set hs h3 x y (clampOcc v)).2
        rw [clampOcc_eq] at this
        simp only [Grid.step, h1, h2, clampOcc_eq]
        exact this
      | fill v => exact holds_map (fun _ => v) h3
      | clear => exact holds_map (fun _ => 0) h3
      | reset => exact holds_map (fun _ => -1) h3
  exact gen ops (Grid.new w h) (fun _ _ => -1) rfl rfl base

/-! ### C124: cells read back what was last written to them -/

/-- On a grid of at most 2^32 cells, after any sequence of calls, every in-range cell reads the last
value written to it (clamped when written by `set_cell`), whatever was written to other cells, and
every coordinate outside the grid reads `None`. -/
theorem grid_reads_last_write_partial (w h : Nat) (hs : w * h ≤ 4294967296) (ops : List GOp) (x y : Nat) :
    ((Grid.new w h).run ops).get x y = if x < w ∧ y < h then some (wantCell ops x y) else none := by
  obtain ⟨h1, h2, h3⟩ := holds_run hs ops
  have := holds_get hs h3 x y
  unfold Grid.get
  rw [h1, h2]
  exact this

/-- `set_cell` says `true` exactly for coordinates inside the grid. -/
theorem set_reports_bounds (w h : Nat) (hs : w * h ≤ 4294967296) (ops : List GOp) (x y : Nat) (v : Int) :
    (setCell w h ((Grid.new w h).run ops).cells x y (clampOcc v)).1 = decide (x < w ∧ y < h) :=
  (holds_set hs (holds_run hs ops).2.2 x y (clampOcc v)).1

/-- A row is its cells, left to right; no row is missing, and there is none past the last. -/
theorem row_is_cells (w h : Nat) (hs : w * h ≤ 4294967296) (ops : List GOp) (y : Nat) :
    ((Grid.new w h).run ops).row y =
      if y < h then some ((List.range w).map fun x => wantCell ops x y) else none := by
  obtain ⟨h1, h2, h3⟩ := holds_run hs ops
  unfold Grid.row
  rw [h1, h2]
  by_cases hy : y < h
  · have hl : y * w + w ≤ h * w := by
      calc y * w + w = (y + 1) * w := by rw [Nat.add_mul, Nat.one_mul]
        _ ≤ h * w := Nat.mul_le_mul_right w hy
    rw [if_pos hy, if_pos hy, if_pos (by rw [h3.1]; exact hl)]
    congr 1
    apply List.ext_getElem?
    intro i
    rw [List.getElem?_take]
    by_cases hi : i < w
    · rw [if_pos hi, List.getElem?_drop, h3.2 i y hi hy]
      simp [hi]
    · rw [if_neg hi]
      simp [Nat.le_of_not_lt hi]
  · rw [if_neg hy, if_neg hy]

/-- Values written one cell at a time, or by `clear`/`reset`, always stay within -1..100. -/
theorem cells_in_range (w h : Nat) (hs : w * h ≤ 4294967296) (ops : List GOp)
    (hf : ∀ v, GOp.fill v ∈ ops → -1 ≤ v ∧ v ≤ 100) (x y : Nat) (v : Int)
    (hv : ((Grid.new w h).run ops).get x y = some v) : -1 ≤ v ∧ v ≤ 100 := by
  rw [grid_reads_last_write_partial w h hs] at hv
  split at hv
  · have gen : ∀ (ops : List GOp), (∀ v, GOp.fill v ∈ ops → -1 ≤ v ∧ v ≤ 100) → ∀ a : Int, -1 ≤ a ∧ a ≤ 100 →
        -1 ≤ ops.foldl (fun v o => o.cellAfter x y v) a ∧ ops.foldl (fun v o => o.cellAfter x y v) a ≤ 100 := by
      intro ops
      induction ops with
      | nil => intro _ a ha; exact ha
      | cons o os ih =>
        intro hf a ha
        refine ih (fun v hv => hf v (List.mem_cons_of_mem _ hv)) _ ?_
        cases o with
        | set x' y' v' => simp only [GOp.cellAfter]; split <;> omega
        | fill v' => exact hf v' (List.mem_cons_self ..)
        | clear => simp [GOp.cellAfter]
        | reset => simp [GOp.cellAfter]
    cases hv
    exact gen ops hf (-1) (by omega)
  · cases hv

/-- `fill` does not clamp: a grid can hold values outside -1..100. -/
theorem fill_not_clamped :
    ((Grid.new 2 2).run [.fill 120]).get 1 1 = some 120 ∧ ((Grid.new 2 2).run [.fill (-7)]).get 0 1 = some (-7) := by
  decide +kernel

/-- Above 2^32 cells the claim is false: in a grid 65536 wide and 65537 high, writing the first cell
of the last row changes the first cell of the first row, and is not seen by a row read. -/
theorem big_grid_cells_alias :
    ∃ w h x y x' y', w < 4294967296 ∧ h < 4294967296 ∧ x < w ∧ y < h ∧ x' < w ∧ y' < h ∧ (x, y) ≠ (x', y') ∧
      ∀ v, 0 ≤ v → v ≤ 100 → ((Grid.new w h).run [.set x y v]).get x' y' = some v ∧
        (Grid.new w h).get x' y' = some (-1) := by
  refine ⟨65536, 65537, 0, 65536, 0, 0, by decide, by decide, by decide, by decide, by decide, by decide, by decide, ?_⟩
  intro v h0 h1
  have hc : clampOcc v = v := by rw [clampOcc_eq]; omega
  have hi : cellIndex 65536 0 65536 = 0 := by decide
  have hj : cellIndex 65536 0 0 = 0 := by decide
  have hlen : ∀ n : Nat, 0 < n → ∀ c : List Int, c.length = n → (c.set 0 v)[0]? = some v := by
    intro n hn c e
    rw [List.getElem?_set, if_pos rfl, if_pos (by omega)]
  have hset : ∀ n : Nat, 0 < n → ∀ c : List Int, c.length = n →
      ((Grid.mk 65536 65537 c).run [.set 0 65536 v]).get 0 0 = some v := by
    intro n hn c e
    show getCell 65536 65537 (setCell 65536 65537 c 0 65536 (clampOcc v)).2 0 0 = some v
    unfold getCell setCell
    rw [if_pos ⟨by decide, by decide⟩, if_pos ⟨by decide, by decide⟩, hi, hj, hc, if_pos (by omega)]
    exact hlen n hn c e
  constructor
  · exact hset (65537 * 65536) (by decide) _ (List.length_replicate ..)
  · show getCell 65536 65537 (List.replicate (65537 * 65536) (-1)) 0 0 = some (-1)
    unfold getCell
    rw [if_pos ⟨by decide, by decide⟩, hj, List.getElem?_replicate, if_pos (by decide)]

/-- The hypotheses are met: a 3×2 grid, two writes, one of them out of range. -/
example : 3 * 2 ≤ 4294967296 ∧
    ((Grid.new 3 2).run [.set 2 1 250, .set 3 0 7, .set 0 1 40]).get 2 1 = some 100 ∧
    ((Grid.new 3 2).run [.set 2 1 250, .set 3 0 7, .set 0 1 40]).get 0 1 = some 40 ∧
    ((Grid.new 3 2).run [.set 2 1 250, .set 3 0 7, .set 0 1 40]).get 1 0 = some (-1) ∧
    ((Grid.new 3 2).run [.set 2 1 250, .set 3 0 7, .set 0 1 40]).get 3 0 = none ∧
    ((Grid.new 3 2).run [.set 2 1 250, .set 3 0 7, .set 0 1 40]).row 1 = some [40, -1, 100] := by
  decide +kernel

/-! ### Cost map -/

/-- A cost map: an occupancy layer, a cost layer and the lethal threshold (costmap.rs:33-36 and the
descriptor). -/
structure CostMap where
  w : Nat
  h : Nat
  occ : List Int
  cost : List Nat
  lethal : Nat

/-- `CostMap::new_on` (costmap.rs:84-118): occupancy -1, costs 0, threshold 254
(costmap_descriptor.rs:151). -/
def CostMap.new (w h : Nat) : CostMap := ⟨w, h, List.replicate (h * w) (-1), List.replicate (h * w) 0, 254⟩

/-- Mutating calls on a cost map.  `setLethal` is the descriptor's `set_lethal_cost`
(costmap_descriptor.rs:256-258). -/
inductive COp where
  | setOcc (x y : Nat) (v : Int)
  | setCost (x y : Nat) (v : Nat)
  | clearCosts
  | resetOcc
  | apply
  | setLethal (v : Nat)

/-- `apply_from_occupancy`'s loop (costmap.rs:423-434): index by index over both layers. -/
def applyCosts (lethal : Nat) : List Int → List Nat → List Nat
  | o :: os, _ :: cs => (if o ≥ 50 then lethal else 0) :: applyCosts lethal os cs
  | _, cs => cs

/-- The effect of one call (costmap.rs:323-333, 346-356, 409-434). -/
def CostMap.step (m : CostMap) : COp → CostMap
  | .setOcc x y v => { m with occ := (setCell m.w m.h m.occ x y (clampOcc v)).2 }
  | .setCost x y v => { m with cost := (setCell m.w m.h m.cost x y v).2 }
  | .clearCosts => { m with cost := m.cost.map fun _ => 0 }
  | .resetOcc => { m with occ := m.occ.map fun _ => -1 }
  | .apply => { m with cost := applyCosts m.lethal m.occ m.cost }
  | .setLethal v => { m with lethal := v }

/-- A sequence of calls. -/
def CostMap.run (m : CostMap) (ops : List COp) : CostMap := ops.foldl CostMap.step m

/-- `get_occupancy` (costmap.rs:313-320). -/
def CostMap.getOcc (m : CostMap) (x y : Nat) : Option Int := getCell m.w m.h m.occ x y

/-- `get_cost` (costmap.rs:336-343). -/
def CostMap.getCost (m : CostMap) (x y : Nat) : Option Nat := getCell m.w m.h m.cost x y

/-- `is_lethal` (costmap.rs:361-364). -/
def CostMap.isLethal (m : CostMap) (x y : Nat) : Bool :=
  match m.getCost x y with
  | some c => decide (c ≥ m.lethal)
  | none => false

/-- `is_traversable` (costmap.rs:367-373). -/
def CostMap.isTraversable (m : CostMap) (x y : Nat) : Bool :=
  (match m.getCost x y with | some c => decide (c < m.lethal) | none => false) &&
  (match m.getOcc x y with | some o => decide (o ≥ 0) | none => false)

/-! Specification: what one cell, and the threshold, are after each call. -/

/-- One cell's occupancy and cost, and the map's threshold. -/
structure CellView where
  occ : Int
  cost : Nat
  lethal : Nat

/-- One call seen from the cell `(x, y)`. -/
def COp.cellAfter (x y : Nat) (c : CellView) : COp → CellView
  | .setOcc x' y' v => if x' = x ∧ y' = y then { c with occ := max (-1) (min v 100) } else c
  | .setCost x' y' v => if x' = x ∧ y' = y then { c with cost := v } else c
  | .clearCosts => { c with cost := 0 }
  | .resetOcc => { c with occ := -1 }
  | .apply => { c with cost := if c.occ ≥ 50 then c.lethal else 0 }
  | .setLethal v => { c with lethal := v }

/-- One cell after a sequence of calls on a new map. -/
def wantCost (ops : List COp) (x y : Nat) : CellView := ops.foldl (fun c o => o.cellAfter x y c) ⟨-1, 0, 254⟩

theorem applyCosts_length (lethal : Nat) (os : List Int) (cs : List Nat) :
    (applyCosts lethal os cs).length = cs.length := by
  induction os generalizing cs with
  | nil => simp [applyCosts]
  | cons o os ih => cases cs with
    | nil => simp [applyCosts]
    | cons c cs => simp [applyCosts, ih]

theorem applyCosts_get (lethal : Nat) (os : List Int) (cs : List Nat) (hl : os.length = cs.length) (i : Nat) :
    (applyCosts lethal os cs)[i]? = os[i]?.map fun o => if o ≥ 50 then lethal else 0 := by
  induction os generalizing cs i with
  | nil => cases cs with
    | nil => simp [applyCosts]
    | cons c cs => simp at hl
  | cons o os ih => cases cs with
    | nil => simp at hl
    | cons c cs =>
      cases i with
      | zero => simp [applyCosts]
      | succ i => simpa [applyCosts] using ih cs (by simpa using hl) i

theorem cost_holds_run {w h : Nat} (hs : w * h ≤ 4294967296) (ops : List COp) :
    ((CostMap.new w h).run ops).w = w ∧ ((CostMap.new w h).run ops).h = h ∧
      Holds w h ((CostMap.new w h).run ops).occ (fun x y => (wantCost ops x y).occ) ∧
      Holds w h ((CostMap.new w h).run ops).cost (fun x y => (wantCost ops x y).cost) ∧
      ∀ x y, (wantCost ops x y).lethal = ((CostMap.new w h).run ops).lethal := by
  have rep : ∀ {α : Type} (a : α), Holds w h (List.replicate (h * w) a) (fun _ _ => a) := by
    intro α a
    refine ⟨by simp, ?_⟩
    intro x y hx hy
    have := (cellIndex_eq hs hx hy).2
    simp [this]
  have gen : ∀ (ops : List COp) (m : CostMap) (f : Nat → Nat → CellView), m.w = w → m.h = h →
      Holds w h m.occ (fun x y => (f x y).occ) → Holds w h m.cost (fun x y => (f x y).cost) →
      (∀ x y, (f x y).lethal = m.lethal) →
      (m.run ops).w = w ∧ (m.run ops).h = h ∧
        Holds w h (m.run ops).occ (fun x y => (ops.foldl (fun c o => o.cellAfter x y c) (f x y)).occ) ∧
        Holds w h (m.run ops).cost (fun x y => (ops.foldl (fun c o => o.cellAfter x y c) (f x y)).cost) ∧
        ∀ x y, (ops.foldl (fun c o => o.cellAfter x y c) (f x y)).lethal = (m.run ops).lethal := by
    intro ops
    induction ops with
    | nil => intro m f h1 h2 h3 h4 h5; exact ⟨h1, h2, h3, h4, h5⟩
    | cons o os ih =>
      intro m f h1 h2 h3 h4 h5
      have hw : (m.step o).w = w := by cases o <;> exact h1
      have hhh : (m.step o).h = h := by cases o <;> exact h2
      refine ih (m.step o) (fun x y => o.cellAfter x y (f x y)) hw hhh ?_ ?_ ?_
      · cases o with
        | setOcc x y v =>
          have := (holds_set hs h3 x y (clampOcc v)).2
          simp only [CostMap.step, h1, h2]
          refine ⟨this.1, fun x' y' hx hy => (this.2 x' y' hx hy).trans ?_⟩
          simp only [COp.cellAfter, clampOcc_eq]
          split <;> rfl
        | setCost x y v =>
          refine ⟨h3.1, fun x' y' hx hy => (h3.2 x' y' hx hy).trans ?_⟩
          simp only [COp.cellAfter]
          split <;> rfl
        | clearCosts => exact h3
        | resetOcc => exact holds_map (fun _ => -1) h3
        | apply => exact h3
        | setLethal v => exact h3
      · cases o with
        | setOcc x y v =>
          refine ⟨h4.1, fun x' y' hx hy => (h4.2 x' y' hx hy).trans ?_⟩
          simp only [COp.cellAfter]
          split <;> rfl
        | setCost x y v =>
          have := (holds_set hs h4 x y v).2
          simp only [CostMap.step, h1, h2]
          refine ⟨this.1, fun x' y' hx hy => (this.2 x' y' hx hy).trans ?_⟩
          simp only [COp.cellAfter]
          split <;> rfl
        | clearCosts => exact holds_map (fun _ => 0) h4
        | resetOcc => exact h4
        | apply =>
          refine ⟨by simp only [CostMap.step, applyCosts_length]; exact h4.1, ?_⟩
          intro x y hx hy
          simp only [CostMap.step]
          rw [applyCosts_get _ _ _ (by rw [h3.1, h4.1]), h3.2 x y hx hy]
          simp only [COp.cellAfter, Option.map_some, h5]
        | setLethal v => exact h4
      · intro x y
        cases o with
        | setOcc x' y' v => simp only [COp.cellAfter]; split <;> exact h5 x y
        | setCost x' y' v => simp only [COp.cellAfter]; split <;> exact h5 x y
        | clearCosts => exact h5 x y
        | resetOcc => exact h5 x y
        | apply => exact h5 x y
        | setLethal v => rfl
  exact gen ops (CostMap.new w h) (fun _ _ => ⟨-1, 0, 254⟩) rfl rfl (rep _) (rep _) (fun _ _ => rfl)

/-! ### C125: cost map cells -/

/-- On a map of at most 2^32 cells, after any sequence of calls, both layers of every cell hold what
the calls made of that one cell: writes to one layer leave the other alone, writes to other cells
leave both alone, and `apply_from_occupancy` sets each cost from the same cell's occupancy and the
current threshold. -/
theorem cost_reads_last_write_partial (w h : Nat) (hs : w * h ≤ 4294967296) (ops : List COp) (x y : Nat) :
    ((CostMap.new w h).run ops).getOcc x y = (if x < w ∧ y < h then some (wantCost ops x y).occ else none) ∧
    ((CostMap.new w h).run ops).getCost x y = (if x < w ∧ y < h then some (wantCost ops x y).cost else none) := by
  obtain ⟨h1, h2, h3, h4, _⟩ := cost_holds_run hs ops
  unfold CostMap.getOcc CostMap.getCost
  rw [h1, h2]
  exact ⟨holds_get hs h3 x y, holds_get hs h4 x y⟩

/-- A cell is never both lethal and traversable, and no cell outside the map is either. -/
theorem lethal_not_traversable (m : CostMap) (x y : Nat) (hl : m.isLethal x y = true) :
    m.isTraversable x y = false ∧ x < m.w ∧ y < m.h := by
  unfold CostMap.isLethal at hl
  unfold CostMap.isTraversable
  cases hc : m.getCost x y with
  | none => simp [hc] at hl
  | some c =>
    simp only [hc, decide_eq_true_eq] at hl
    constructor
    · have : ¬ c < m.lethal := by omega
      simp [this]
    · unfold CostMap.getCost getCell at hc
      split at hc
      · assumption
      · cases hc

/-- A traversable cell is inside the map, costs less than the threshold and is not unknown. -/
theorem traversable_known (m : CostMap) (x y : Nat) (ht : m.isTraversable x y = true) :
    x < m.w ∧ y < m.h ∧ ∃ c o, m.getCost x y = some c ∧ c < m.lethal ∧ m.getOcc x y = some o ∧ 0 ≤ o := by
  unfold CostMap.isTraversable at ht
  cases hc : m.getCost x y with
  | none => simp [hc] at ht
  | some c =>
    cases ho : m.getOcc x y with
    | none => simp [ho] at ht
    | some o =>
      simp only [hc, ho, Bool.and_eq_true, decide_eq_true_eq] at ht
      refine ⟨?_, ?_, c, o, rfl, ht.1, rfl, ht.2⟩ <;>
      · unfold CostMap.getCost getCell at hc
        split at hc
        · rename_i hb; first | exact hb.1 | exact hb.2
        · cases hc

/-- Right after `apply_from_occupancy`, every cell at or above 50 is lethal (hence not traversable),
and, with a threshold above 0, every cell below 50 is not lethal and is traversable exactly when it
is known. -/
theorem applied_occupied_lethal (w h : Nat) (hs : w * h ≤ 4294967296) (ops : List COp) (x y : Nat) (o : Int)
    (ho : ((CostMap.new w h).run ops).getOcc x y = some o) :
    (50 ≤ o → (((CostMap.new w h).run ops).step .apply).isLethal x y = true) ∧
    (o < 50 → 0 < ((CostMap.new w h).run ops).lethal →
      (((CostMap.new w h).run ops).step .apply).isLethal x y = false ∧
      (((CostMap.new w h).run ops).step .apply).isTraversable x y = decide (0 ≤ o)) := by
  have hr : ((CostMap.new w h).run ops).step .apply = (CostMap.new w h).run (ops ++ [.apply]) := by
    simp [CostMap.run]
  have hlet : (((CostMap.new w h).run ops).step .apply).lethal = ((CostMap.new w h).run ops).lethal := rfl
  have hocc := (cost_reads_last_write_partial w h hs ops x y).1
  have hl := (cost_holds_run hs ops).2.2.2.2 x y
  rw [ho] at hocc
  split at hocc
  · rename_i hb
    have ho' : (wantCost ops x y).occ = o := by simpa using hocc.symm
    have hw : wantCost (ops ++ [.apply]) x y =
        { wantCost ops x y with cost := if o ≥ 50 then ((CostMap.new w h).run ops).lethal else 0 } := by
      simp only [wantCost, List.foldl_append, List.foldl]
      show COp.cellAfter x y (wantCost ops x y) .apply = _
      rw [← hl, ← ho']
      rfl
    have h2 := cost_reads_last_write_partial w h hs (ops ++ [.apply]) x y
    rw [if_pos hb, if_pos hb, hw, ← hr] at h2
    unfold CostMap.isLethal CostMap.isTraversable
    rw [h2.1, h2.2, hlet]
    constructor
    · intro h50
      simp [h50]
    · intro h50 hp
      have : ¬ (o ≥ 50) := by omega
      have hne : ¬ ((CostMap.new w h).run ops).lethal = 0 := by omega
      simp [this, ho', hp, hne]
  · cases hocc

/-- Occupancy alone does not make a cell untraversable: before `apply_from_occupancy`, a cell marked
fully occupied is traversable, as far as the cost map is concerned. -/
theorem occupied_traversable_until_applied :
    ((CostMap.new 2 2).run [.setOcc 1 0 100]).isTraversable 1 0 = true ∧
    ((CostMap.new 2 2).run [.setOcc 1 0 100, .apply]).isTraversable 1 0 = false := by decide +kernel

/-- `apply_from_occupancy` also erases costs set by hand, including on unknown cells. -/
theorem apply_overwrites_costs :
    ((CostMap.new 2 2).run [.setCost 1 0 254]).isLethal 1 0 = true ∧
    ((CostMap.new 2 2).run [.setCost 1 0 254, .apply]).isLethal 1 0 = false := by decide +kernel

/-- The hypotheses are met by a map with both layers written. -/
example : ((CostMap.new 3 2).run [.setOcc 2 1 80, .setCost 0 0 9, .apply, .setCost 1 1 7]).getCost 2 1 = some 254 ∧
    ((CostMap.new 3 2).run [.setOcc 2 1 80, .setCost 0 0 9, .apply, .setCost 1 1 7]).getCost 0 0 = some 0 ∧
    ((CostMap.new 3 2).run [.setOcc 2 1 80, .setCost 0 0 9, .apply, .setCost 1 1 7]).getCost 1 1 = some 7 ∧
    ((CostMap.new 3 2).run [.setOcc 2 1 80, .setCost 0 0 9, .apply, .setCost 1 1 7]).getOcc 1 1 = some (-1) := by
  decide +kernel

end Horus.Percept
