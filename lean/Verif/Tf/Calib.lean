import Mathlib.Analysis.Real.Sqrt
import Mathlib.Tactic.Ring
import Mathlib.Tactic.Linarith
import Mathlib.Tactic.FieldSimp
import Mathlib.Tactic.LinearCombination
import Mathlib.Tactic.NormNum
import Mathlib.Tactic.Positivity
/-
`horus tf calibrate`: the rigid transform from pairs of points. Source: /repo/horus_manager/src/commands/tf.rs:1764-1929. Numbers
are real numbers here; reading the file and printing are left out. `Transform` belongs to another crate: it normalises its
quaternion and turns points by it.
-/
namespace Horus.Calib

@[ext] structure V3 where
  x : ℝ
  y : ℝ
  z : ℝ

/-- A quaternion in Horn's order (tf.rs:1905: the scalar comes first). -/
@[ext] structure Q4 where
  w : ℝ
  x : ℝ
  y : ℝ
  z : ℝ

/-- Differences, sums and products of vectors (tf.rs:1831-1837, 1912-1916). -/
def V3.sub (a b : V3) : V3 := ⟨a.x - b.x, a.y - b.y, a.z - b.z⟩
def V3.add (a b : V3) : V3 := ⟨a.x + b.x, a.y + b.y, a.z + b.z⟩
def V3.dot (a b : V3) : ℝ := a.x * b.x + a.y * b.y + a.z * b.z
def Q4.sq (q : Q4) : ℝ := q.w * q.w + q.x * q.x + q.y * q.y + q.z * q.z
def Q4.dot (a b : Q4) : ℝ := a.w * b.w + a.x * b.x + a.y * b.y + a.z * b.z
def Q4.smul (k : ℝ) (q : Q4) : Q4 := ⟨k * q.w, k * q.x, k * q.y, k * q.z⟩
def Q4.add (a b : Q4) : Q4 := ⟨a.w + b.w, a.x + b.x, a.y + b.y, a.z + b.z⟩

/-- The centroid (tf.rs:1814-1826). -/
noncomputable def centroid (l : List V3) : V3 := ⟨(l.map V3.x).sum / l.length, (l.map V3.y).sum / l.length, (l.map V3.z).sum / l.length⟩

/-- The centred pairs (tf.rs:1828-1848). -/
noncomputable def centred (l : List (V3 × V3)) : List (V3 × V3) :=
  l.map fun p => (p.1.sub (centroid (l.map (·.1))), p.2.sub (centroid (l.map (·.2))))

/-- The cross-covariance (tf.rs:1850-1874). -/
structure Cov where
  xx : ℝ
  xy : ℝ
  xz : ℝ
  yx : ℝ
  yy : ℝ
  yz : ℝ
  zx : ℝ
  zy : ℝ
  zz : ℝ

def cov (l : List (V3 × V3)) : Cov where
  xx := (l.map fun p => p.1.x * p.2.x).sum
  xy := (l.map fun p => p.1.x * p.2.y).sum
  xz := (l.map fun p => p.1.x * p.2.z).sum
  yx := (l.map fun p => p.1.y * p.2.x).sum
  yy := (l.map fun p => p.1.y * p.2.y).sum
  yz := (l.map fun p => p.1.y * p.2.z).sum
  zx := (l.map fun p => p.1.z * p.2.x).sum
  zy := (l.map fun p => p.1.z * p.2.y).sum
  zz := (l.map fun p => p.1.z * p.2.z).sum

/-- Horn's matrix times a quaternion (tf.rs:1876-1882, 1887-1892). -/
def horn (h : Cov) (q : Q4) : Q4 where
  w := (h.xx + h.yy + h.zz) * q.w + (h.yz - h.zy) * q.x + (h.zx - h.xz) * q.y + (h.xy - h.yx) * q.z
  x := (h.yz - h.zy) * q.w + (h.xx - h.yy - h.zz) * q.x + (h.xy + h.yx) * q.y + (h.zx + h.xz) * q.z
  y := (h.zx - h.xz) * q.w + (h.xy + h.yx) * q.x + (-h.xx + h.yy - h.zz) * q.y + (h.yz + h.zy) * q.z
  z := (h.xy - h.yx) * q.w + (h.zx + h.xz) * q.x + (h.yz + h.zy) * q.y + (-h.xx - h.yy + h.zz) * q.z

/-- One round of the power iteration (tf.rs:1886-1902). -/
noncomputable def round (h : Cov) (q : Q4) : Q4 :=
  let n := √(horn h q).sq
  if (1e-15 : ℝ) < n then ⟨(horn h q).w / n, (horn h q).x / n, (horn h q).y / n, (horn h q).z / n⟩ else horn h q

/-- The first guess (tf.rs:1885). -/
def guess : Q4 := ⟨1, 0, 0, 0⟩

/-- The rounds (tf.rs:1885-1903). -/
noncomputable def rounds (h : Cov) : Nat → Q4
  | 0 => guess
  | k + 1 => round h (rounds h k)

/-- A vector turned by a quaternion, without normalising. -/
def turn (q : Q4) (p : V3) : V3 where
  x := (q.w * q.w + q.x * q.x - q.y * q.y - q.z * q.z) * p.x + 2 * (q.x * q.y - q.w * q.z) * p.y + 2 * (q.x * q.z + q.w * q.y) * p.z
  y := 2 * (q.x * q.y + q.w * q.z) * p.x + (q.w * q.w - q.x * q.x + q.y * q.y - q.z * q.z) * p.y + 2 * (q.y * q.z - q.w * q.x) * p.z
  z := 2 * (q.x * q.z - q.w * q.y) * p.x + 2 * (q.y * q.z + q.w * q.x) * p.y + (q.w * q.w - q.x * q.x - q.y * q.y + q.z * q.z) * p.z

/-- `Transform::new([0, 0, 0], q).transform_point(p)` (tf.rs:1907-1911): the quaternion is normalised. -/
noncomputable def rotate (q : Q4) (p : V3) : V3 := ⟨(turn q p).x / q.sq, (turn q p).y / q.sq, (turn q p).z / q.sq⟩

/-- `calibrate_from_points` (tf.rs:1805-1918): the rotation and the translation, or an error with fewer than three pairs. -/
noncomputable def calibrate (l : List (V3 × V3)) : Option (Q4 × V3) :=
  if l.length < 3 then none
  else
    let q := rounds (cov (centred l)) 100
    some (q, (centroid (l.map (·.2))).sub (rotate q (centroid (l.map (·.1)))))

/-- Where the answer puts a point of the sensor (tf.rs:1920-1923). -/
noncomputable def place (a : Q4 × V3) (p : V3) : V3 := (rotate a.1 p).add a.2

/-! ### Specification -/

/-- Exact measurements: the world points are the sensor points, turned by the unit quaternion `v` and moved by `t`. -/
def Exact (l : List (V3 × V3)) (v : Q4) (t : V3) : Prop := v.sq = 1 ∧ ∀ p ∈ l, p.2 = (turn v p.1).add t

/-- Squared distance of the sensor points from the plane through their centroid with unit normal `u`, added up. -/
noncomputable def offPlane (l : List (V3 × V3)) (u : V3) : ℝ := ((centred l).map fun p => p.1.dot u * p.1.dot u).sum

/-- Squared distance of the sensor points from their centroid, added up. -/
noncomputable def spread (l : List (V3 × V3)) : ℝ := ((centred l).map fun p => p.1.dot p.1).sum

/-! ### Quaternions -/

/-- The Hamilton product. -/
def Q4.mul (a b : Q4) : Q4 where
  w := a.w * b.w - a.x * b.x - a.y * b.y - a.z * b.z
  x := a.w * b.x + a.x * b.w + a.y * b.z - a.z * b.y
  y := a.w * b.y - a.x * b.z + a.y * b.w + a.z * b.x
  z := a.w * b.z + a.x * b.y - a.y * b.x + a.z * b.w

theorem sq_mul (a b : Q4) : (a.mul b).sq = a.sq * b.sq := by simp only [Q4.sq, Q4.mul]; ring
theorem sq_smul (k : ℝ) (a : Q4) : (a.smul k).sq = k * k * a.sq := by simp only [Q4.sq, Q4.smul]; ring
theorem sq_nonneg' (a : Q4) : 0 ≤ a.sq := by unfold Q4.sq; nlinarith [mul_self_nonneg a.w, mul_self_nonneg a.x, mul_self_nonneg a.y, mul_self_nonneg a.z]
theorem mul_smul (k : ℝ) (a b : Q4) : a.mul (b.smul k) = (a.mul b).smul k := by ext <;> simp only [Q4.mul, Q4.smul] <;> ring
theorem smul_smul (j k : ℝ) (a : Q4) : (a.smul k).smul j = a.smul (j * k) := by ext <;> simp only [Q4.smul] <;> ring
theorem horn_smul (h : Cov) (k : ℝ) (a : Q4) : horn h (a.smul k) = (horn h a).smul k := by ext <;> simp only [horn, Q4.smul] <;> ring

/-- The six sums of products of the centred sensor points. -/
structure Sym where
  xx : ℝ
  yy : ℝ
  zz : ℝ
  xy : ℝ
  xz : ℝ
  yz : ℝ

def sym (l : List V3) : Sym where
  xx := (l.map fun p => p.x * p.x).sum
  yy := (l.map fun p => p.y * p.y).sum
  zz := (l.map fun p => p.z * p.z).sum
  xy := (l.map fun p => p.x * p.y).sum
  xz := (l.map fun p => p.x * p.z).sum
  yz := (l.map fun p => p.y * p.z).sum

def Sym.tr (m : Sym) : ℝ := m.xx + m.yy + m.zz
def Sym.app (m : Sym) (u : V3) : V3 := ⟨m.xx * u.x + m.xy * u.y + m.xz * u.z, m.xy * u.x + m.yy * u.y + m.yz * u.z, m.xz * u.x + m.yz * u.y + m.zz * u.z⟩
def Sym.form (m : Sym) (u : V3) : ℝ := (m.app u).dot u

/-- What a round does to the error of the vector part. -/
def Sym.refl (m : Sym) (u : V3) : V3 := ⟨2 * (m.app u).x - m.tr * u.x, 2 * (m.app u).y - m.tr * u.y, 2 * (m.app u).z - m.tr * u.z⟩

/-- What a round does, seen from the true rotation. -/
def Sym.step (m : Sym) (s : Q4) : Q4 := ⟨m.tr * s.w, (m.refl ⟨s.x, s.y, s.z⟩).x, (m.refl ⟨s.x, s.y, s.z⟩).y, (m.refl ⟨s.x, s.y, s.z⟩).z⟩

theorem horn_exact (l : List (V3 × V3)) (v : Q4) (hv : v.sq = 1) (h : ∀ p ∈ l, p.2 = turn v p.1) (s : Q4) :
    horn (cov l) (v.mul s) = v.mul ((sym (l.map (·.1))).step s) := by
  induction l with
  | nil => ext <;> simp [horn, cov, sym, Sym.step, Sym.refl, Sym.app, Sym.tr, Q4.mul]
  | cons p l ih =>
    have ih := ih fun q hq => h q (List.mem_cons_of_mem _ hq)
    have hp := h p List.mem_cons_self
    obtain ⟨a, b⟩ := p
    dsimp only at hp
    subst hp
    have one : horn (cov [(a, turn v a)]) (v.mul s) = (v.mul ((sym [a]).step s)).smul v.sq := by
      ext <;> simp [horn, cov, sym, Sym.step, Sym.refl, Sym.app, Sym.tr, Q4.mul, Q4.smul, turn, Q4.sq] <;> ring
    rw [hv] at one
    have add : horn (cov ((a, turn v a) :: l)) (v.mul s) = (horn (cov [(a, turn v a)]) (v.mul s)).add (horn (cov l) (v.mul s)) := by
      ext <;> simp [horn, cov, Q4.add] <;> ring
    have add' : v.mul ((sym (((a, turn v a) :: l).map (·.1))).step s) = ((v.mul ((sym [a]).step s)).smul 1).add (v.mul ((sym (l.map (·.1))).step s)) := by
      ext <;> simp [sym, Sym.step, Sym.refl, Sym.app, Sym.tr, Q4.mul, Q4.add, Q4.smul] <;> ring
    rw [add, add', ih, one]

/-- The rounds give a positive multiple of the powers of the matrix. -/
noncomputable def power (h : Cov) : Nat → Q4
  | 0 => guess
  | k + 1 => horn h (power h k)

theorem rounds_power (h : Cov) (k : Nat) : ∃ c : ℝ, 0 < c ∧ rounds h k = (power h k).smul c := by
  induction k with
  | zero => exact ⟨1, one_pos, by ext <;> simp [rounds, power, Q4.smul]⟩
  | succ k ih =>
    obtain ⟨c, hc, hk⟩ := ih
    simp only [rounds, power, round, hk, horn_smul]
    split
    · rename_i hn
      have hn : 0 < √(((horn h (power h k)).smul c).sq) := lt_trans (by norm_num) hn
      refine ⟨c / √(((horn h (power h k)).smul c).sq), by positivity, ?_⟩
      ext <;> simp only [Q4.smul] <;> ring
    · exact ⟨c, hc, rfl⟩

/-- The powers, seen from the true rotation. -/
def steps (m : Sym) (s : Q4) : Nat → Q4
  | 0 => s
  | k + 1 => m.step (steps m s k)

def Q4.conj (q : Q4) : Q4 := ⟨q.w, -q.x, -q.y, -q.z⟩

theorem power_steps (l : List (V3 × V3)) (v : Q4) (hv : v.sq = 1) (h : ∀ p ∈ l, p.2 = turn v p.1) (k : Nat) :
    power (cov l) k = v.mul (steps (sym (l.map (·.1))) v.conj k) := by
  induction k with
  | zero =>
    unfold Q4.sq at hv
    ext <;> simp only [power, guess, steps, Q4.mul, Q4.conj] <;> linarith
  | succ k ih => rw [power, ih, horn_exact l v hv h, steps]

theorem steps_w (m : Sym) (s : Q4) (k : Nat) : (steps m s k).w = m.tr ^ k * s.w := by
  induction k with
  | zero => simp [steps]
  | succ k ih => rw [steps, Sym.step, ih]; ring

/-! ### The centred points -/

theorem sum_turn (v : Q4) (t : V3) (l : List V3) :
    ((l.map fun p => ((turn v p).add t).x).sum = (turn v ⟨(l.map V3.x).sum, (l.map V3.y).sum, (l.map V3.z).sum⟩).x + l.length * t.x) ∧
    ((l.map fun p => ((turn v p).add t).y).sum = (turn v ⟨(l.map V3.x).sum, (l.map V3.y).sum, (l.map V3.z).sum⟩).y + l.length * t.y) ∧
    ((l.map fun p => ((turn v p).add t).z).sum = (turn v ⟨(l.map V3.x).sum, (l.map V3.y).sum, (l.map V3.z).sum⟩).z + l.length * t.z) := by
  induction l with
  | nil => simp [turn]
  | cons p l ih =>
    obtain ⟨h1, h2, h3⟩ := ih
    simp only [List.map_cons, List.sum_cons, h1, h2, h3, List.length_cons, Nat.cast_add, Nat.cast_one]
    refine ⟨?_, ?_, ?_⟩ <;> simp only [turn, V3.add] <;> ring

theorem centroid_exact (l : List (V3 × V3)) (v : Q4) (t : V3) (hl : l ≠ []) (h : ∀ p ∈ l, p.2 = (turn v p.1).add t) :
    centroid (l.map (·.2)) = (turn v (centroid (l.map (·.1)))).add t := by
  have hn : (l.length : ℝ) ≠ 0 := by simpa using hl
  have e : l.map (·.2) = (l.map (·.1)).map fun p => (turn v p).add t := by
    rw [List.map_map]; exact List.map_congr_left fun p hp => h p hp
  obtain ⟨h1, h2, h3⟩ := sum_turn v t (l.map (·.1))
  rw [e]
  unfold centroid
  simp only [List.map_map, Function.comp_def, List.length_map] at h1 h2 h3 ⊢
  simp only [h1, h2, h3]
  generalize (l.map fun x => x.1.x).sum = a
  generalize (l.map fun x => x.1.y).sum = b
  generalize (l.map fun x => x.1.z).sum = d
  ext <;> simp only [turn, V3.add] <;> field_simp

theorem centred_exact (l : List (V3 × V3)) (v : Q4) (t : V3) (h : ∀ p ∈ l, p.2 = (turn v p.1).add t) : ∀ p ∈ centred l, p.2 = turn v p.1 := by
  intro p hp
  obtain ⟨q, hq, rfl⟩ := List.mem_map.1 hp
  rw [centroid_exact l v t (List.ne_nil_of_mem hq) h, h q hq]
  ext <;> simp only [V3.sub, turn, V3.add] <;> ring

theorem form_sum (l : List V3) (u : V3) : (sym l).form u = (l.map fun p => p.dot u * p.dot u).sum := by
  induction l with
  | nil => simp [sym, Sym.form, Sym.app, V3.dot]
  | cons p l ih =>
    rw [List.map_cons, List.sum_cons, ← ih]
    simp only [sym, Sym.form, Sym.app, V3.dot, List.map_cons, List.sum_cons]
    ring

theorem tr_sum (l : List V3) : (sym l).tr = (l.map fun p => p.dot p).sum := by
  induction l with
  | nil => simp [sym, Sym.tr]
  | cons p l ih =>
    rw [List.map_cons, List.sum_cons, ← ih]
    simp only [sym, Sym.tr, V3.dot, List.map_cons, List.sum_cons]
    ring

/-- A round shrinks the error when the points are in no plane. -/
theorem shrink (m : Sym) (c : ℝ) (hc : 0 < c) (h : ∀ u : V3, c * u.dot u ≤ m.form u) (u : V3) :
    (m.refl u).dot (m.refl u) ≤ (m.tr * m.tr - 8 * (c * c)) * u.dot u := by
  have hd : ∀ a : V3, 0 ≤ a.dot a := fun a => by unfold V3.dot; nlinarith [mul_self_nonneg a.x, mul_self_nonneg a.y, mul_self_nonneg a.z]
  have upper : ∀ a : V3, m.form a ≤ (m.tr - 2 * c) * a.dot a := by
    intro a
    have h1 := h ⟨0, -a.z, a.y⟩
    have h2 := h ⟨a.z, 0, -a.x⟩
    have h3 := h ⟨-a.y, a.x, 0⟩
    simp only [Sym.form, Sym.app, Sym.tr, V3.dot] at h1 h2 h3 ⊢
    nlinarith
  have hL : 0 < m.tr - 2 * c := by
    have h1 := h ⟨1, 0, 0⟩
    have h2 := upper ⟨1, 0, 0⟩
    have e : (⟨1, 0, 0⟩ : V3).dot ⟨1, 0, 0⟩ = 1 := by simp [V3.dot]
    rw [e] at h1 h2
    linarith
  have key : (m.app u).dot (m.app u) ≤ (m.tr - 2 * c) * m.form u := by
    have h1 := h ⟨(m.tr - 2 * c) * u.x - (m.app u).x, (m.tr - 2 * c) * u.y - (m.app u).y, (m.tr - 2 * c) * u.z - (m.app u).z⟩
    have h0 := mul_nonneg hc.le (hd ⟨(m.tr - 2 * c) * u.x - (m.app u).x, (m.tr - 2 * c) * u.y - (m.app u).y, (m.tr - 2 * c) * u.z - (m.app u).z⟩)
    have h2 := upper (m.app u)
    have e : m.form ⟨(m.tr - 2 * c) * u.x - (m.app u).x, (m.tr - 2 * c) * u.y - (m.app u).y, (m.tr - 2 * c) * u.z - (m.app u).z⟩ =
        (m.tr - 2 * c) * (m.tr - 2 * c) * m.form u - 2 * (m.tr - 2 * c) * (m.app u).dot (m.app u) + m.form (m.app u) := by
      simp only [Sym.form, Sym.app, V3.dot]; ring
    rw [e] at h1
    have : 0 ≤ (m.tr - 2 * c) * ((m.tr - 2 * c) * m.form u - (m.app u).dot (m.app u)) := by nlinarith
    have := nonneg_of_mul_nonneg_right this hL
    linarith
  have low := h u
  have e : (m.refl u).dot (m.refl u) = m.tr * m.tr * u.dot u - 4 * (m.tr * m.form u - (m.app u).dot (m.app u)) := by
    simp only [Sym.refl, Sym.form, V3.dot]; ring
  rw [e]
  nlinarith

theorem steps_vec (m : Sym) (c : ℝ) (hc : 0 < c) (h : ∀ u : V3, c * u.dot u ≤ m.form u) (s : Q4) (k : Nat) :
    (⟨0, (steps m s k).x, (steps m s k).y, (steps m s k).z⟩ : Q4).sq ≤ (m.tr * m.tr - 8 * (c * c)) ^ k * (⟨0, s.x, s.y, s.z⟩ : Q4).sq := by
  have hr : 0 ≤ m.tr * m.tr - 8 * (c * c) := by
    have h1 := shrink m c hc h ⟨1, 0, 0⟩
    have e : (⟨1, 0, 0⟩ : V3).dot ⟨1, 0, 0⟩ = 1 := by simp [V3.dot]
    have h2 : 0 ≤ (m.refl ⟨1, 0, 0⟩).dot (m.refl ⟨1, 0, 0⟩) := by
      unfold V3.dot
      nlinarith [mul_self_nonneg (m.refl ⟨1, 0, 0⟩).x, mul_self_nonneg (m.refl ⟨1, 0, 0⟩).y, mul_self_nonneg (m.refl ⟨1, 0, 0⟩).z]
    rw [e] at h1
    linarith
  induction k with
  | zero => simp [steps]
  | succ k ih =>
    have h1 := shrink m c hc h ⟨(steps m s k).x, (steps m s k).y, (steps m s k).z⟩
    have h2 := mul_le_mul_of_nonneg_left ih hr
    rw [steps, pow_succ]
    simp only [Q4.sq, V3.dot, Sym.step] at h1 h2 ⊢
    linarith

/-- **The answer is near the true rotation.** From exact measurements of points that lie in no plane (at least `c` off each), when
the true rotation is no half turn, the answer is a multiple of the true quaternion plus an error that shrinks with each of the
hundred rounds. -/
theorem near_partial (l : List (V3 × V3)) (v : Q4) (t : V3) (c : ℝ) (he : Exact l v t) (hl : 3 ≤ l.length) (hc : 0 < c)
    (hp : ∀ u : V3, c * u.dot u ≤ offPlane l u) (hw : v.w ≠ 0) :
    ∃ q t', calibrate l = some (q, t') ∧ ∃ k : ℝ, ∃ e : Q4, k ≠ 0 ∧ q = (v.add e).smul k ∧
      e.sq ≤ (1 - 8 * (c / spread l) ^ 2) ^ 100 * ((1 - v.w ^ 2) / v.w ^ 2) := by
  obtain ⟨hv, hx⟩ := he
  obtain ⟨k, hk, hq⟩ := rounds_power (cov (centred l)) 100
  rw [power_steps _ v hv (centred_exact l v t hx)] at hq
  obtain ⟨m, hm⟩ : ∃ m, m = sym ((centred l).map (·.1)) := ⟨_, rfl⟩
  have hf : ∀ u : V3, c * u.dot u ≤ m.form u := by
    intro u
    rw [hm, form_sum, List.map_map]
    exact hp u
  have htr : m.tr = spread l := by rw [hm, tr_sum, List.map_map]; rfl
  rw [← hm] at hq
  have ht : 0 < m.tr := by
    have h1 := hf ⟨1, 0, 0⟩
    have h2 := hf ⟨0, 1, 0⟩
    have h3 := hf ⟨0, 0, 1⟩
    simp only [Sym.form, Sym.app, V3.dot, Sym.tr] at h1 h2 h3 ⊢
    linarith
  have hs := steps_vec m c hc hf v.conj 100
  have hws := steps_w m v.conj 100
  generalize steps m v.conj 100 = s at hq hs hws
  have hT : m.tr ^ 100 * v.w ≠ 0 := mul_ne_zero (pow_ne_zero _ ht.ne') hw
  refine ⟨_, _, if_neg (by omega), k * (m.tr ^ 100 * v.w), (v.mul ⟨0, s.x, s.y, s.z⟩).smul (1 / (m.tr ^ 100 * v.w)), mul_ne_zero hk.ne' hT, ?_, ?_⟩
  · have e : v.mul s = (v.smul (m.tr ^ 100 * v.w)).add (v.mul ⟨0, s.x, s.y, s.z⟩) := by
      have hws : s.w = m.tr ^ 100 * v.w := hws
      ext <;> simp only [Q4.mul, Q4.smul, Q4.add, hws] <;> ring
    rw [hq, e]
    generalize m.tr ^ 100 * v.w = d at hT
    ext <;> simp only [Q4.smul, Q4.add] <;> field_simp
  · rw [sq_smul, sq_mul, hv, one_mul, ← htr]
    have e1 : (⟨0, v.conj.x, v.conj.y, v.conj.z⟩ : Q4).sq = 1 - v.w ^ 2 := by
      rw [← hv]; simp only [Q4.sq, Q4.conj]; ring
    have e2 : (m.tr * m.tr - 8 * (c * c)) = m.tr ^ 2 * (1 - 8 * (c / m.tr) ^ 2) := by field_simp
    rw [e1, e2, mul_pow] at hs
    have hd : 0 < 1 / (m.tr ^ 100 * v.w) * (1 / (m.tr ^ 100 * v.w)) := by
      have := mul_self_pos.2 (one_div_ne_zero hT)
      exact this
    have := mul_le_mul_of_nonneg_left hs hd.le
    refine this.trans (le_of_eq ?_)
    have hne := ht.ne'
    generalize (1 - 8 * (c / m.tr) ^ 2) ^ 100 = r
    field_simp

/-- **A point set keeps its middle.** The answer always puts the centroid of the sensor points on the centroid of the world points. -/
theorem centroid_placed (l : List (V3 × V3)) (a : Q4 × V3) (h : calibrate l = some a) :
    place a (centroid (l.map (·.1))) = centroid (l.map (·.2)) := by
  unfold calibrate at h
  split at h
  · cases h
  · cases h
    ext <;> simp only [place, V3.add, V3.sub] <;> ring

/-- An answer is given exactly for three pairs or more. -/
theorem answered_iff (l : List (V3 × V3)) : (calibrate l).isSome ↔ 3 ≤ l.length := by
  unfold calibrate
  split <;> simp <;> omega

/-- **The right rotation places every point.** From exact measurements, when the answer's quaternion is a multiple of the true one,
each sensor point is put on its world point. -/
theorem right_places_all (l : List (V3 × V3)) (v : Q4) (t : V3) (he : Exact l v t) (a : Q4 × V3) (h : calibrate l = some a) (k : ℝ) (hk : k ≠ 0)
    (ha : a.1 = v.smul k) : ∀ p ∈ l, place a p.1 = p.2 := by
  obtain ⟨hv, hx⟩ := he
  have hr : ∀ p, rotate a.1 p = turn v p := by
    intro p
    unfold rotate
    rw [ha, sq_smul, hv]
    ext <;> simp only [turn, Q4.smul] <;> field_simp
  intro p hp
  have hc := centroid_exact l v t (List.ne_nil_of_mem hp) hx
  unfold calibrate at h
  split at h
  · cases h
  · cases h
    rw [hx p hp]
    simp only [place, hr] at hc ⊢
    rw [hc]
    ext <;> simp only [turn, V3.add, V3.sub] <;> ring

theorem steps_flat (m : Sym) (hxz : m.xz = 0) (hyz : m.yz = 0) (hzz : m.zz = 0) (a b : ℝ) (k : Nat) :
    steps m ⟨a, 0, 0, b⟩ k = ⟨m.tr ^ k * a, 0, 0, (-m.tr) ^ k * b⟩ := by
  induction k with
  | zero => simp [steps]
  | succ k ih =>
    rw [steps, ih]
    ext <;> simp only [Sym.step, Sym.refl, Sym.app, hxz, hyz, hzz] <;> ring

/-- **A flat turn is lost.** When the sensor points lie at one height and the world points are the same points turned about the
vertical by any angle and moved, the answer's rotation is no rotation at all, whatever the angle was. -/
theorem flat_turn_lost (l : List (V3 × V3)) (v : Q4) (t : V3) (z : ℝ) (he : Exact l v t) (hl : 3 ≤ l.length) (hvx : v.x = 0) (hvy : v.y = 0)
    (hz : ∀ p ∈ l, p.1.z = z) (hs : 0 < spread l) : ∃ q t', calibrate l = some (q, t') ∧ ∀ p, rotate q p = p := by
  obtain ⟨hv, hx⟩ := he
  obtain ⟨k, hk, hq⟩ := rounds_power (cov (centred l)) 100
  rw [power_steps _ v hv (centred_exact l v t hx)] at hq
  have htr : (sym ((centred l).map (·.1))).tr = spread l := by rw [tr_sum, List.map_map]; rfl
  have hne : l ≠ [] := by rintro rfl; simp at hl
  have hn : (l.length : ℝ) ≠ 0 := by simpa using hne
  have hcz : (centroid (l.map (·.1))).z = z := by
    have e : (l.map (·.1)).map V3.z = List.replicate l.length z := by
      rw [List.map_map]
      exact List.eq_replicate_iff.2 ⟨by simp, fun b hb => by obtain ⟨p, hp, rfl⟩ := List.mem_map.1 hb; exact hz p hp⟩
    simp only [centroid, e, List.sum_replicate, List.length_map, nsmul_eq_mul]
    field_simp
  have h0 : ∀ p ∈ (centred l).map (·.1), p.z = 0 := by
    intro p hp
    obtain ⟨a, ha, rfl⟩ := List.mem_map.1 hp
    obtain ⟨b, hb, rfl⟩ := List.mem_map.1 ha
    simp only [V3.sub, hcz, hz b hb, sub_self]
  generalize (centred l).map (·.1) = m at hq htr h0
  have zero : ∀ f : V3 → ℝ, (∀ p ∈ m, f p = 0) → (m.map f).sum = 0 := fun f hf =>
    List.sum_eq_zero fun x hx => by obtain ⟨p, hp, rfl⟩ := List.mem_map.1 hx; exact hf p hp
  have hc : v.conj = ⟨v.w, 0, 0, -v.z⟩ := by simp [Q4.conj, hvx, hvy]
  rw [hc, steps_flat _ (zero _ fun p hp => by simp [h0 p hp]) (zero _ fun p hp => by simp [h0 p hp]) (zero _ fun p hp => by simp [h0 p hp]), htr] at hq
  refine ⟨_, _, if_neg (by omega), fun p => ?_⟩
  have hd : k * spread l ^ 100 ≠ 0 := mul_ne_zero hk.ne' (pow_ne_zero _ hs.ne')
  have e : rounds (cov (centred l)) 100 = (⟨k * spread l ^ 100, 0, 0, 0⟩ : Q4) := by
    rw [hq]
    have hv : v.w * v.w + v.z * v.z = 1 := by rw [← hv]; simp [Q4.sq, hvx, hvy]
    have e1 : (-spread l) ^ 100 = spread l ^ 100 := Even.neg_pow (by decide) _
    rw [e1]
    ext <;> simp only [Q4.smul, Q4.mul, hvx, hvy]
    · linear_combination (k * spread l ^ 100) * hv
    · ring
    · ring
    · ring
  rw [e]
  generalize k * spread l ^ 100 = d at hd
  ext <;> simp only [rotate, turn, Q4.sq] <;> field_simp <;> ring

/-- **A half turn is lost.** When the true rotation is a half turn, about any axis and whatever the points, the answer's quaternion is
at right angles to the true one. -/
theorem half_turn_lost (l : List (V3 × V3)) (v : Q4) (t : V3) (he : Exact l v t) (hw : v.w = 0) (a : Q4 × V3) (h : calibrate l = some a) :
    a.1.dot v = 0 ∧ ∃ p, rotate a.1 p ≠ turn v p := by
  obtain ⟨hv, hx⟩ := he
  obtain ⟨k, hk, hq⟩ := rounds_power (cov (centred l)) 100
  rw [power_steps _ v hv (centred_exact l v t hx)] at hq
  have hws := steps_w (sym ((centred l).map (·.1))) v.conj 100
  generalize steps (sym ((centred l).map (·.1))) v.conj 100 = s at hq hws
  have hs : s.w = 0 := by rw [hws]; simp [Q4.conj, hw]
  unfold calibrate at h
  split at h
  · cases h
  cases h
  have hd : (rounds (cov (centred l)) 100).dot v = 0 := by
    have e : ((v.mul s).smul k).dot v = k * s.w * v.sq := by simp only [Q4.dot, Q4.mul, Q4.smul, Q4.sq]; ring
    rw [hq, e, hs]; ring
  refine ⟨hd, ?_⟩
  by_contra hcon
  push Not at hcon
  generalize rounds (cov (centred l)) 100 = q at hd hcon
  have h1 := hcon ⟨1, 0, 0⟩
  have h2 := hcon ⟨0, 1, 0⟩
  have h3 := hcon ⟨0, 0, 1⟩
  have len : (turn v ⟨1, 0, 0⟩).dot (turn v ⟨1, 0, 0⟩) = v.sq * v.sq := by simp only [turn, V3.dot, Q4.sq]; ring
  have len2 : (turn v ⟨0, 1, 0⟩).dot (turn v ⟨0, 1, 0⟩) = v.sq * v.sq := by simp only [turn, V3.dot, Q4.sq]; ring
  have len3 : (turn v ⟨0, 0, 1⟩).dot (turn v ⟨0, 0, 1⟩) = v.sq * v.sq := by simp only [turn, V3.dot, Q4.sq]; ring
  have tr : (turn q ⟨1, 0, 0⟩).dot (turn v ⟨1, 0, 0⟩) + (turn q ⟨0, 1, 0⟩).dot (turn v ⟨0, 1, 0⟩) + (turn q ⟨0, 0, 1⟩).dot (turn v ⟨0, 0, 1⟩) =
      4 * (q.dot v * q.dot v) - q.sq * v.sq := by simp only [turn, V3.dot, Q4.dot, Q4.sq]; ring
  have dv : ∀ p, (rotate q p).dot (turn v p) = (turn q p).dot (turn v p) / q.sq := fun p => by simp only [rotate, V3.dot]; ring
  rw [hd, hv] at tr
  rw [hv] at len len2 len3
  have d1 := dv ⟨1, 0, 0⟩
  have d2 := dv ⟨0, 1, 0⟩
  have d3 := dv ⟨0, 0, 1⟩
  rw [h1, len] at d1
  rw [h2, len2] at d2
  rw [h3, len3] at d3
  have : (3 : ℝ) = (4 * (0 * 0) - q.sq * 1) / q.sq := by rw [← tr, add_div, add_div, ← d1, ← d2, ← d3]; norm_num
  rcases eq_or_ne q.sq 0 with h0 | h0
  · rw [h0] at this; norm_num at this
  · rw [eq_div_iff h0] at this
    have := sq_nonneg' q
    have : 0 < q.sq := lt_of_le_of_ne this (Ne.symm h0)
    linarith

/-! ### Cases -/

/-- Exact measurements of some points. -/
def measured (ps : List V3) (v : Q4) (t : V3) : List (V3 × V3) := ps.map fun p => (p, (turn v p).add t)

theorem measured_exact (ps : List V3) (v : Q4) (t : V3) (hv : v.sq = 1) : Exact (measured ps v t) v t :=
  ⟨hv, fun p hp => by obtain ⟨q, _, rfl⟩ := List.mem_map.1 hp; rfl⟩

theorem measured_fst (ps : List V3) (v : Q4) (t : V3) : (measured ps v t).map (·.1) = ps := by simp [measured, List.map_map, Function.comp_def]

/-- Six points, two on each axis. -/
def six : List V3 := [⟨1, 0, 0⟩, ⟨-1, 0, 0⟩, ⟨0, 1, 0⟩, ⟨0, -1, 0⟩, ⟨0, 0, 1⟩, ⟨0, 0, -1⟩]

/-- Four points on the floor. -/
def four : List V3 := [⟨1, 0, 0⟩, ⟨-1, 0, 0⟩, ⟨0, 1, 0⟩, ⟨0, -1, 0⟩]

/-- A turn about the vertical: the cosine is -7/25 and the sine 24/25. -/
noncomputable def yaw : Q4 := ⟨3 / 5, 0, 0, 4 / 5⟩

theorem yaw_unit : yaw.sq = 1 := by simp only [yaw, Q4.sq]; norm_num

theorem six_centroid : centroid six = ⟨0, 0, 0⟩ := by simp [centroid, six]
theorem four_centroid : centroid four = ⟨0, 0, 0⟩ := by simp [centroid, four]

theorem six_off (v : Q4) (t u : V3) : offPlane (measured six v t) u = 2 * u.dot u := by
  have e : ((centred (measured six v t)).map fun p => p.1.dot u * p.1.dot u) = six.map fun p => p.dot u * p.dot u := by
    rw [centred, measured_fst, six_centroid, measured, List.map_map, List.map_map]
    refine List.map_congr_left fun p _ => ?_
    simp only [Function.comp_def, V3.sub, V3.dot, sub_zero]
  rw [offPlane, e]
  simp [six, V3.dot]
  ring

theorem six_spread (v : Q4) (t : V3) : spread (measured six v t) = 6 := by
  have e : ((centred (measured six v t)).map fun p => p.1.dot p.1) = six.map fun p => p.dot p := by
    rw [centred, measured_fst, six_centroid, measured, List.map_map, List.map_map]
    refine List.map_congr_left fun p _ => ?_
    simp only [Function.comp_def, V3.sub, V3.dot, sub_zero]
  rw [spread, e]
  simp [six, V3.dot]
  norm_num

theorem four_spread (v : Q4) (t : V3) : spread (measured four v t) = 4 := by
  have e : ((centred (measured four v t)).map fun p => p.1.dot p.1) = four.map fun p => p.dot p := by
    rw [centred, measured_fst, four_centroid, measured, List.map_map, List.map_map]
    refine List.map_congr_left fun p _ => ?_
    simp only [Function.comp_def, V3.sub, V3.dot, sub_zero]
  rw [spread, e]
  simp [four, V3.dot]
  norm_num

/-- For the six points the error of the answer is below one part in 9 to the 99th. -/
example (t : V3) : ∃ q t', calibrate (measured six yaw t) = some (q, t') ∧ ∃ k : ℝ, ∃ e : Q4, k ≠ 0 ∧ q = (yaw.add e).smul k ∧ e.sq ≤ (1 / 9) ^ 99 := by
  obtain ⟨q, t', h, k, e, hk, hq, he⟩ := near_partial (measured six yaw t) yaw t 2 (measured_exact _ _ _ yaw_unit) (by simp [measured, six]) (by norm_num)
    (fun u => (six_off _ _ u).ge) (by simp [yaw])
  refine ⟨q, t', h, k, e, hk, hq, he.trans ?_⟩
  rw [six_spread]
  norm_num [yaw]

/-- **Four points on the floor, turned, come back unturned.** The answer leaves every direction as it is, though the true turn takes
the first point elsewhere. -/
theorem floor_turn_lost (t : V3) : ∃ q t', calibrate (measured four yaw t) = some (q, t') ∧ (∀ p, rotate q p = p) ∧ turn yaw ⟨1, 0, 0⟩ = ⟨-7 / 25, 24 / 25, 0⟩ := by
  obtain ⟨q, t', h, hr⟩ := flat_turn_lost (measured four yaw t) yaw t 0 (measured_exact _ _ _ yaw_unit) (by simp [measured, four]) rfl rfl
    (by simp [measured, four]) (by rw [four_spread]; norm_num)
  refine ⟨q, t', h, hr, ?_⟩
  ext <;> norm_num [turn, yaw]

/-- A half turn about the vertical, of points in no plane. -/
example (t : V3) : ∃ a, calibrate (measured six ⟨0, 0, 0, 1⟩ t) = some a ∧ ∃ p, rotate a.1 p ≠ turn ⟨0, 0, 0, 1⟩ p := by
  obtain ⟨a, ha⟩ := Option.isSome_iff_exists.1 ((answered_iff (measured six ⟨0, 0, 0, 1⟩ t)).2 (by simp [measured, six]))
  exact ⟨a, ha, (half_turn_lost _ _ t (measured_exact _ _ _ (by simp [Q4.sq])) rfl a ha).2⟩

/-- No turn at all is found exactly, and every point is put on its place. -/
theorem unturned_exact (l : List (V3 × V3)) (t : V3) (he : Exact l guess t) (hs : 0 < spread l) (a : Q4 × V3) (h : calibrate l = some a) :
    ∀ p ∈ l, place a p.1 = p.2 := by
  obtain ⟨hv, hx⟩ := he
  obtain ⟨k, hk, hq⟩ := rounds_power (cov (centred l)) 100
  rw [power_steps _ guess hv (centred_exact l guess t hx)] at hq
  have htr : (sym ((centred l).map (·.1))).tr = spread l := by rw [tr_sum, List.map_map]; rfl
  have hst : ∀ (m : Sym) k, steps m guess.conj k = guess.smul (m.tr ^ k) := by
    intro m k
    induction k with
    | zero => ext <;> simp [steps, guess, Q4.conj, Q4.smul]
    | succ k ih => rw [steps, ih]; ext <;> simp [Sym.step, Sym.refl, Sym.app, guess, Q4.smul]; ring
  rw [hst, htr, mul_smul, smul_smul] at hq
  have e : guess.mul guess = guess := by ext <;> simp [Q4.mul, guess]
  rw [e] at hq
  refine right_places_all l guess t ⟨hv, hx⟩ a h (k * spread l ^ 100) (mul_ne_zero hk.ne' (pow_ne_zero _ hs.ne')) ?_
  unfold calibrate at h
  split at h
  · cases h
  · cases h
    exact hq

example (t : V3) (a : Q4 × V3) (h : calibrate (measured four guess t) = some a) : ∀ p ∈ measured four guess t, place a p.1 = p.2 :=
  unturned_exact _ t (measured_exact _ _ _ (by simp [Q4.sq, guess])) (by rw [four_spread]; norm_num) a h

end Horus.Calib
