import Verif.Tf.Calib
import Mathlib.Analysis.SpecialFunctions.Trigonometric.Inverse
import Mathlib.Analysis.SpecialFunctions.Trigonometric.Bounds
/-
`horus tf hand-eye`: the pose of a sensor on the hand of a robot, from poses of the hand and poses of the sensor. Source:
/repo/horus_manager/src/commands/tf.rs:2005-2142, 2296-2436. Numbers are real numbers here; reading the files (2263-2294), printing
the matrix as a quaternion and angles, and the residual (2144-2255) are left out.
-/
namespace Horus.HandEye
open Horus.Calib

/-- A 3×3 matrix by rows. -/
@[ext] structure M3 where
  r0 : V3
  r1 : V3
  r2 : V3

def M3.app (m : M3) (p : V3) : V3 := ⟨m.r0.dot p, m.r1.dot p, m.r2.dot p⟩
def M3.trace (m : M3) : ℝ := m.r0.x + m.r1.y + m.r2.z
def ident : M3 := ⟨⟨1, 0, 0⟩, ⟨0, 1, 0⟩, ⟨0, 0, 1⟩⟩

/-- A pose: a translation and a quaternion (tf.rs:2260-2261). -/
structure Pose where
  t : V3
  q : Q4

/-- `rotation_to_matrix` (tf.rs:2332-2354). -/
noncomputable def matOf (q : Q4) : M3 :=
  let n := max (√q.sq) 1e-12
  let x := q.x / n
  let y := q.y / n
  let z := q.z / n
  let w := q.w / n
  ⟨⟨1 - 2 * (y * y + z * z), 2 * (x * y - z * w), 2 * (x * z + y * w)⟩, ⟨2 * (x * y + z * w), 1 - 2 * (x * x + z * z), 2 * (y * z - x * w)⟩,
    ⟨2 * (x * z - y * w), 2 * (y * z + x * w), 1 - 2 * (x * x + y * y)⟩⟩

/-- `invert_pose` (tf.rs:2357-2370). -/
noncomputable def invert (a : Pose) : Pose :=
  ⟨⟨-((matOf a.q.conj).app a.t).x, -((matOf a.q.conj).app a.t).y, -((matOf a.q.conj).app a.t).z⟩, a.q.conj⟩

/-- `multiply_poses` (tf.rs:2373-2390). -/
noncomputable def compose (a b : Pose) : Pose := ⟨((matOf a.q).app b.t).add a.t, a.q.mul b.q⟩

/-- The motions between consecutive poses (tf.rs:2038-2052). -/
noncomputable def motions : List Pose → List Pose
  | a :: b :: l => compose (invert a) b :: motions (b :: l)
  | _ => []

/-- `rotation_to_modified_rodrigues` (tf.rs:2297-2329). -/
noncomputable def rodrigues (r : M3) : V3 :=
  let th := Real.arccos (max (-1) (min 1 ((r.trace - 1) / 2)))
  if |th| < 1e-10 then ⟨0, 0, 0⟩
  else if |Real.pi - th| < 1e-10 then
    let ax := √(max ((r.r0.x + 1) / 2) 0)
    let ay := √(max ((r.r1.y + 1) / 2) 0)
    let az := √(max ((r.r2.z + 1) / 2) 0)
    let ay := if r.r0.y + r.r1.x < 0 then -ay else ay
    let az := if r.r0.z + r.r2.x < 0 then -az else az
    ⟨ax * 1e6, ay * 1e6, az * 1e6⟩
  else
    let k := 1 / (2 * Real.sin th)
    let ht := Real.tan (th / 2)
    ⟨k * (r.r2.y - r.r1.z) * ht, k * (r.r0.z - r.r2.x) * ht, k * (r.r1.x - r.r0.y) * ht⟩

/-- The determinant of the normal matrix (tf.rs:2410-2412); the matrix is symmetric. -/
def det (m : Sym) : ℝ := m.xx * (m.yy * m.zz - m.yz * m.yz) - m.xy * (m.xy * m.zz - m.yz * m.xz) + m.xz * (m.xy * m.yz - m.yy * m.xz)

/-- The right-hand side of the normal equations (tf.rs:2398-2407). -/
def atb (rows : List (V3 × ℝ)) : V3 :=
  ⟨(rows.map fun r => r.1.x * r.2).sum, (rows.map fun r => r.1.y * r.2).sum, (rows.map fun r => r.1.z * r.2).sum⟩

/-- `solve_3x3_least_squares` (tf.rs:2394-2436): the rows with their right-hand sides. -/
noncomputable def solve (rows : List (V3 × ℝ)) : V3 :=
  let m := sym (rows.map (·.1))
  let b := atb rows
  if |det m| < 1e-15 then ⟨0, 0, 0⟩
  else
    let i := 1 / det m
    ⟨i * (b.x * (m.yy * m.zz - m.yz * m.yz) - m.xy * (b.y * m.zz - m.yz * b.z) + m.xz * (b.y * m.yz - m.yy * b.z)),
      i * (m.xx * (b.y * m.zz - m.yz * b.z) - b.x * (m.xy * m.zz - m.yz * m.xz) + m.xz * (m.xy * b.z - b.y * m.xz)),
      i * (m.xx * (m.yy * b.z - b.y * m.yz) - m.xy * (m.xy * b.z - b.y * m.xz) + b.x * (m.xy * m.yz - m.yy * m.xz))⟩

/-- The rows for the rotation (tf.rs:2062-2078). -/
noncomputable def rotRows (ms : List (Pose × Pose)) : List (V3 × ℝ) :=
  ms.flatMap fun m =>
    let pa := rodrigues (matOf m.1.q)
    let pb := rodrigues (matOf m.2.q)
    let s := pa.add pb
    [(⟨0, -s.z, s.y⟩, pb.x - pa.x), (⟨s.z, 0, -s.x⟩, pb.y - pa.y), (⟨-s.y, s.x, 0⟩, pb.z - pa.z)]

/-- The rotation from its parameters (tf.rs:2084-2102). -/
noncomputable def cayley (p : V3) : M3 :=
  let k := 1 / (1 + p.dot p)
  ⟨⟨k * (1 + p.x * p.x - p.y * p.y - p.z * p.z), k * 2 * (p.x * p.y - p.z), k * 2 * (p.x * p.z + p.y)⟩,
    ⟨k * 2 * (p.x * p.y + p.z), k * (1 - p.x * p.x + p.y * p.y - p.z * p.z), k * 2 * (p.y * p.z - p.x)⟩,
    ⟨k * 2 * (p.x * p.z - p.y), k * 2 * (p.y * p.z + p.x), k * (1 - p.x * p.x - p.y * p.y + p.z * p.z)⟩⟩

/-- The rows for the translation (tf.rs:2111-2140). -/
noncomputable def transRows (rx : M3) (ms : List (Pose × Pose)) : List (V3 × ℝ) :=
  ms.flatMap fun m =>
    let ra := matOf m.1.q
    let d := (rx.app m.2.t).sub m.1.t
    [(⟨ra.r0.x - 1, ra.r0.y, ra.r0.z⟩, d.x), (⟨ra.r1.x, ra.r1.y - 1, ra.r1.z⟩, d.y), (⟨ra.r2.x, ra.r2.y, ra.r2.z - 1⟩, d.z)]

/-- `hand_eye_calibration` (tf.rs:2005-2142): the rotation and translation of the sensor on the hand, or an error. -/
noncomputable def handEye (robot sensor : List Pose) : Option (M3 × V3) :=
  if robot.length ≠ sensor.length then none
  else if robot.length < 3 then none
  else
    let ms := (motions robot).zip (motions sensor)
    let rx := cayley (solve (rotRows ms))
    some (rx, solve (transRows rx ms))

/-! ### Specification -/

/-- Rigid motions composed: first `b`, then `a`. -/
def after (a b : Pose) : Pose := ⟨(turn a.q b.t).add a.t, a.q.mul b.q⟩

/-- The same rigid motion: a quaternion and its opposite turn alike. -/
def Same (a b : Pose) : Prop := a.t = b.t ∧ (a.q = b.q ∨ a.q = b.q.smul (-1))

/-- Exact poses: with the sensor fixed on the hand by `x` and the sensor's poses given in a frame that stands at `w` in the robot's, both
ways to the sensor agree at each pose. -/
def Exact (robot sensor : List Pose) (x w : Pose) : Prop :=
  x.q.sq = 1 ∧ w.q.sq = 1 ∧ (∀ p ∈ robot, p.q.sq = 1) ∧ (∀ p ∈ sensor, p.q.sq = 1) ∧ List.Forall₂ (fun r s => Same (after r x) (after w s)) robot sensor

/-- The angle of a rotation. -/
noncomputable def angle (q : Q4) : ℝ := Real.arccos (2 * (q.w * q.w) - 1)

/-! ### Solving -/

theorem atb_exact (rows : List (V3 × ℝ)) (x : V3) (h : ∀ r ∈ rows, r.2 = r.1.dot x) : atb rows = (sym (rows.map (·.1))).app x := by
  induction rows with
  | nil => ext <;> simp [atb, sym, Sym.app]
  | cons r l ih =>
    have ih := ih fun q hq => h q (List.mem_cons_of_mem _ hq)
    have hr := h r List.mem_cons_self
    obtain ⟨a, b⟩ := r
    dsimp only at hr
    subst hr
    have e : atb ((a, a.dot x) :: l) = (V3.add ⟨a.x * a.dot x, a.y * a.dot x, a.z * a.dot x⟩ (atb l)) := by
      ext <;> simp [atb, V3.add]
    rw [e, ih]
    ext <;> simp only [sym, Sym.app, V3.add, V3.dot, List.map_cons, List.sum_cons] <;> ring

/-- **Equations with a solution are solved.** When all rows are met by `x` and the determinant is not taken for zero, the answer is `x`. -/
theorem solve_exact (rows : List (V3 × ℝ)) (x : V3) (h : ∀ r ∈ rows, r.2 = r.1.dot x) (hd : 1e-15 ≤ |det (sym (rows.map (·.1)))|) : solve rows = x := by
  unfold solve
  rw [atb_exact rows x h]
  simp only
  rw [if_neg (not_lt.2 hd)]
  generalize sym (rows.map (·.1)) = m at hd
  have h0 : det m ≠ 0 := by intro h; rw [h] at hd; norm_num at hd
  have e1 : ((m.app x).x * (m.yy * m.zz - m.yz * m.yz) - m.xy * ((m.app x).y * m.zz - m.yz * (m.app x).z) + m.xz * ((m.app x).y * m.yz - m.yy * (m.app x).z)) = det m * x.x := by
    simp only [Sym.app, det]; ring
  have e2 : (m.xx * ((m.app x).y * m.zz - m.yz * (m.app x).z) - (m.app x).x * (m.xy * m.zz - m.yz * m.xz) + m.xz * (m.xy * (m.app x).z - (m.app x).y * m.xz)) = det m * x.y := by
    simp only [Sym.app, det]; ring
  have e3 : (m.xx * (m.yy * (m.app x).z - (m.app x).y * m.yz) - m.xy * (m.xy * (m.app x).z - (m.app x).y * m.xz) + (m.app x).x * (m.xy * m.yz - m.yy * m.xz)) = det m * x.z := by
    simp only [Sym.app, det]; ring
  rw [e1, e2, e3]
  ext <;> simp only <;> field_simp

/-- **Equations without one solution are answered with zero.** -/
theorem solve_singular (rows : List (V3 × ℝ)) (hd : det (sym (rows.map (·.1))) = 0) : solve rows = ⟨0, 0, 0⟩ := by
  unfold solve
  simp only [hd, abs_zero]
  rw [if_pos (by norm_num)]

/-! ### Quaternions and matrices -/

theorem mul_assoc' (a b c : Q4) : (a.mul b).mul c = a.mul (b.mul c) := by ext <;> simp only [Q4.mul] <;> ring
theorem turn_mul (a b : Q4) (p : V3) : turn (a.mul b) p = turn a (turn b p) := by ext <;> simp only [turn, Q4.mul] <;> ring
theorem conj_mul (a : Q4) (h : a.sq = 1) : a.conj.mul a = guess := by
  unfold Q4.sq at h
  ext <;> simp only [Q4.conj, Q4.mul, guess] <;> linarith
theorem mul_conj (a : Q4) (h : a.sq = 1) : a.mul a.conj = guess := by
  unfold Q4.sq at h
  ext <;> simp only [Q4.conj, Q4.mul, guess] <;> linarith
theorem sq_conj (a : Q4) : a.conj.sq = a.sq := by simp only [Q4.conj, Q4.sq]; ring
theorem guess_mul (a : Q4) : guess.mul a = a := by ext <;> simp [guess, Q4.mul]
theorem mul_guess (a : Q4) : a.mul guess = a := by ext <;> simp [guess, Q4.mul]
theorem turn_guess (p : V3) : turn guess p = p := by ext <;> simp [guess, turn]
theorem smul_mul (k : ℝ) (a b : Q4) : (a.smul k).mul b = (a.mul b).smul k := by ext <;> simp only [Q4.mul, Q4.smul] <;> ring

theorem app_unit (q : Q4) (h : q.sq = 1) (p : V3) : (matOf q).app p = turn q p := by
  have hn : max (√q.sq) (1e-12 : ℝ) = 1 := by rw [h, Real.sqrt_one]; exact max_eq_left (by norm_num)
  unfold matOf
  simp only [hn, div_one]
  unfold Q4.sq at h
  ext <;> simp only [M3.app, V3.dot, turn]
  · linear_combination (-p.x) * h
  · linear_combination (-p.y) * h
  · linear_combination (-p.z) * h

/-- The parameters of a rotation that is no half turn. -/
theorem rodrigues_unit (q : Q4) (h : q.sq = 1) (ha : angle q = 0 ∨ 1e-10 ≤ angle q ∧ angle q ≤ Real.pi - 1e-10) :
    q.w ≠ 0 ∧ rodrigues (matOf q) = ⟨q.x / q.w, q.y / q.w, q.z / q.w⟩ := by
  have hw1 : q.w * q.w ≤ 1 := by unfold Q4.sq at h; nlinarith [mul_self_nonneg q.x, mul_self_nonneg q.y, mul_self_nonneg q.z]
  have hw0 := mul_self_nonneg q.w
  have hn : max (√q.sq) (1e-12 : ℝ) = 1 := by rw [h, Real.sqrt_one]; exact max_eq_left (by norm_num)
  have htr : ((matOf q).trace - 1) / 2 = 2 * (q.w * q.w) - 1 := by
    unfold matOf M3.trace
    simp only [hn, div_one]
    unfold Q4.sq at h
    linear_combination (-2) * h
  have hcl : max (-1) (min 1 (((matOf q).trace - 1) / 2)) = 2 * (q.w * q.w) - 1 := by
    rw [htr, min_eq_right (by linarith), max_eq_right (by linarith)]
  have hw : q.w ≠ 0 := by
    intro hw
    have : angle q = Real.pi := by simp [angle, hw]
    rw [this] at ha
    have := Real.pi_pos
    rcases ha with ha | ⟨_, ha⟩
    · linarith
    · norm_num at ha
  refine ⟨hw, ?_⟩
  unfold rodrigues
  rw [hcl]
  simp only
  change (if |angle q| < 1e-10 then _ else if |Real.pi - angle q| < 1e-10 then _ else _) = _
  have hcos : Real.cos (angle q) = 2 * (q.w * q.w) - 1 := Real.cos_arccos (by linarith) (by linarith)
  rcases ha with ha | ⟨h1, h2⟩
  · rw [if_pos (by rw [ha]; norm_num)]
    rw [ha, Real.cos_zero] at hcos
    have hs : q.x * q.x + q.y * q.y + q.z * q.z = 0 := by unfold Q4.sq at h; linarith
    have hx : q.x = 0 := mul_self_eq_zero.1 (by nlinarith [mul_self_nonneg q.x, mul_self_nonneg q.y, mul_self_nonneg q.z])
    have hy : q.y = 0 := mul_self_eq_zero.1 (by nlinarith [mul_self_nonneg q.x, mul_self_nonneg q.y, mul_self_nonneg q.z])
    have hz : q.z = 0 := mul_self_eq_zero.1 (by nlinarith [mul_self_nonneg q.x, mul_self_nonneg q.y, mul_self_nonneg q.z])
    simp [hx, hy, hz]
  · have h1' : (0 : ℝ) < angle q := lt_of_lt_of_le (by norm_num) h1
    have h2' : angle q < Real.pi := lt_of_le_of_lt h2 (by norm_num)
    rw [if_neg (by rw [abs_of_pos h1']; exact not_lt.2 h1), if_neg (by rw [abs_of_pos (by linarith)]; exact not_lt.2 (by linarith))]
    have hsin : Real.sin (angle q) = 2 * Real.sin (angle q / 2) * Real.cos (angle q / 2) := by
      rw [← Real.sin_two_mul]; congr 1; ring
    have hc2 : Real.cos (angle q) = 2 * Real.cos (angle q / 2) ^ 2 - 1 := by
      rw [← Real.cos_two_mul]; congr 1; ring
    have hsp : 0 < Real.sin (angle q / 2) := Real.sin_pos_of_pos_of_lt_pi (by linarith) (by linarith)
    have hcp : 0 < Real.cos (angle q / 2) := Real.cos_pos_of_mem_Ioo ⟨by linarith, by linarith⟩
    have hcw : Real.cos (angle q / 2) ^ 2 = q.w * q.w := by linarith
    have key : ∀ d : ℝ, 1 / (2 * Real.sin (angle q)) * (4 * (d * q.w)) * Real.tan (angle q / 2) = d / q.w := by
      intro d
      rw [Real.tan_eq_sin_div_cos, hsin]
      field_simp
      linear_combination (-4 * d) * hcw
    have v1 : (matOf q).r2.y - (matOf q).r1.z = 4 * (q.x * q.w) := by unfold matOf; simp only [hn, div_one]; ring
    have v2 : (matOf q).r0.z - (matOf q).r2.x = 4 * (q.y * q.w) := by unfold matOf; simp only [hn, div_one]; ring
    have v3 : (matOf q).r1.x - (matOf q).r0.y = 4 * (q.z * q.w) := by unfold matOf; simp only [hn, div_one]; ring
    rw [v1, v2, v3]
    ext <;> exact key _

theorem cayley_unit (q : Q4) (h : q.sq = 1) (hw : q.w ≠ 0) : cayley ⟨q.x / q.w, q.y / q.w, q.z / q.w⟩ = matOf q := by
  have hn : max (√q.sq) (1e-12 : ℝ) = 1 := by rw [h, Real.sqrt_one]; exact max_eq_left (by norm_num)
  have hk : 1 / (1 + (⟨q.x / q.w, q.y / q.w, q.z / q.w⟩ : V3).dot ⟨q.x / q.w, q.y / q.w, q.z / q.w⟩) = q.w * q.w := by
    have : 1 + (⟨q.x / q.w, q.y / q.w, q.z / q.w⟩ : V3).dot ⟨q.x / q.w, q.y / q.w, q.z / q.w⟩ = 1 / (q.w * q.w) := by
      unfold Q4.sq at h
      simp only [V3.dot]
      field_simp
      linear_combination h
    rw [this, one_div_one_div]
  unfold cayley matOf
  simp only [hk, hn, div_one]
  unfold Q4.sq at h
  ext <;> simp only <;> field_simp <;> linear_combination h

/-! ### The motions -/

/-- What the two motions between consecutive poses have to do with each other. -/
structure Linked (x : Pose) (m : Pose × Pose) : Prop where
  ua : m.1.q.sq = 1
  ub : m.2.q.sq = 1
  rot : m.1.q.mul x.q = x.q.mul m.2.q ∨ m.1.q.mul x.q = (x.q.mul m.2.q).smul (-1)
  tr : (turn m.1.q x.t).add m.1.t = (turn x.q m.2.t).add x.t

theorem rel_t (a b : Pose) (h : a.q.sq = 1) : (compose (invert a) b).t = turn a.q.conj (b.t.sub a.t) := by
  have hc : a.q.conj.sq = 1 := by rw [sq_conj, h]
  simp only [compose, invert, app_unit _ hc]
  ext <;> simp only [turn, V3.add, V3.sub] <;> ring

theorem linked (r r' s s' x w : Pose) (hr : r.q.sq = 1) (hr' : r'.q.sq = 1) (hs : s.q.sq = 1) (hs' : s'.q.sq = 1)
    (h : Same (after r x) (after w s)) (h' : Same (after r' x) (after w s')) : Linked x (compose (invert r) r', compose (invert s) s') := by
  obtain ⟨ht, hq⟩ := h
  obtain ⟨ht', hq'⟩ := h'
  simp only [after] at ht hq ht' hq'
  have flip : r.q.conj.mul w.q = x.q.mul s.q.conj ∨ r.q.conj.mul w.q = (x.q.mul s.q.conj).smul (-1) := by
    have e1 : r.q.conj.mul ((r.q.mul x.q).mul s.q.conj) = x.q.mul s.q.conj := by rw [mul_assoc', ← mul_assoc', conj_mul _ hr, guess_mul]
    have e2 : r.q.conj.mul ((w.q.mul s.q).mul s.q.conj) = r.q.conj.mul w.q := by rw [mul_assoc', mul_conj _ hs, mul_guess]
    rcases hq with hq | hq
    · left; rw [← e1, ← e2, hq]
    · right; rw [← e1, ← e2, hq, smul_mul, mul_smul, smul_smul]; ext <;> simp [Q4.smul]
  have flipT : ∀ p, turn (r.q.conj.mul w.q) p = turn (x.q.mul s.q.conj) p := by
    intro p
    rcases flip with h | h
    · rw [h]
    · rw [h]; ext <;> simp only [turn, Q4.smul] <;> ring
  refine ⟨?_, ?_, ?_, ?_⟩
  · show (r.q.conj.mul r'.q).sq = 1
    rw [sq_mul, sq_conj, hr, hr', one_mul]
  · show (s.q.conj.mul s'.q).sq = 1
    rw [sq_mul, sq_conj, hs, hs', one_mul]
  · show (r.q.conj.mul r'.q).mul x.q = x.q.mul (s.q.conj.mul s'.q) ∨ (r.q.conj.mul r'.q).mul x.q = (x.q.mul (s.q.conj.mul s'.q)).smul (-1)
    rw [mul_assoc', ← mul_assoc' x.q]
    rcases hq' with hq' | hq' <;> rw [hq'] <;> rcases flip with h | h
    · left; rw [← mul_assoc', h]
    · right; rw [← mul_assoc', h, smul_mul]
    · right; rw [mul_smul, ← mul_assoc', h]
    · left; rw [mul_smul, ← mul_assoc', h, smul_mul, smul_smul]; ext <;> simp [Q4.smul]
  · show (turn (r.q.conj.mul r'.q) x.t).add (compose (invert r) r').t = (turn x.q (compose (invert s) s').t).add x.t
    rw [rel_t _ _ hr, rel_t _ _ hs, ← turn_mul x.q, ← flipT, turn_mul, turn_mul]
    have hxt : x.t = turn r.q.conj (turn r.q x.t) := by rw [← turn_mul, conj_mul _ hr, turn_guess]
    have e : ∀ (q : Q4) (a b : V3), turn q (a.add b) = (turn q a).add (turn q b) := fun q a b => by ext <;> simp only [turn, V3.add] <;> ring
    conv_rhs => rw [hxt]
    rw [← e, ← e]
    congr 1
    have hd : turn w.q (s'.t.sub s.t) = (turn w.q s'.t).sub (turn w.q s.t) := by ext <;> simp only [turn, V3.sub] <;> ring
    rw [hd]
    have a1 := congrArg V3.x ht; have a2 := congrArg V3.y ht; have a3 := congrArg V3.z ht
    have b1 := congrArg V3.x ht'; have b2 := congrArg V3.y ht'; have b3 := congrArg V3.z ht'
    simp only [V3.add] at a1 a2 a3 b1 b2 b3
    ext <;> simp only [V3.add, V3.sub] <;> linarith

theorem motions_linked (x w : Pose) : ∀ (robot sensor : List Pose), (∀ p ∈ robot, p.q.sq = 1) → (∀ p ∈ sensor, p.q.sq = 1) →
    List.Forall₂ (fun r s => Same (after r x) (after w s)) robot sensor → ∀ m ∈ (motions robot).zip (motions sensor), Linked x m
  | [], _, _, _, _ => by simp [motions]
  | [_], _, _, _, _ => by simp [motions]
  | r :: r' :: l, sensor, h1, h2, h => by
    cases h with
    | cons ha h =>
      rename_i s ss
      cases h with
      | cons hb h =>
        rename_i s' l'
        intro m hm
        simp only [motions, List.zip_cons_cons, List.mem_cons] at hm
        rcases hm with rfl | hm
        · exact linked r r' s s' x w (h1 _ (by simp)) (h1 _ (by simp)) (h2 _ (by simp)) (h2 _ (by simp)) ha hb
        · exact motions_linked x w (r' :: l) (s' :: l') (fun p hp => h1 p (List.mem_cons_of_mem _ hp)) (fun p hp => h2 p (List.mem_cons_of_mem _ hp)) (.cons hb h) m hm

/-- The angle is fit for the parameters: none at all, or neither tiny nor close to a half turn. -/
def Fit (q : Q4) : Prop := angle q = 0 ∨ 1e-10 ≤ angle q ∧ angle q ≤ Real.pi - 1e-10

theorem rotRows_met (x : Pose) (hx : x.q.sq = 1) (hw : x.q.w ≠ 0) (ms : List (Pose × Pose)) (h : ∀ m ∈ ms, Linked x m ∧ Fit m.1.q ∧ Fit m.2.q) :
    ∀ r ∈ rotRows ms, r.2 = r.1.dot ⟨x.q.x / x.q.w, x.q.y / x.q.w, x.q.z / x.q.w⟩ := by
  intro r hr
  obtain ⟨m, hm, hr⟩ := List.mem_flatMap.1 hr
  obtain ⟨⟨ua, ub, rot, _⟩, fa, fb⟩ := h m hm
  obtain ⟨wa, ea⟩ := rodrigues_unit _ ua fa
  obtain ⟨wb, eb⟩ := rodrigues_unit _ ub fb
  simp only [ea, eb, V3.add] at hr
  obtain ⟨xt, xw, xx, xy, xz⟩ := x
  obtain ⟨⟨at_, aw, ax, ay, az⟩, ⟨bt, bw, bx, by_, bz⟩⟩ := m
  simp only [Q4.sq] at *
  rcases rot with rot | rot
  · have e0 := congrArg Q4.w rot; have e1 := congrArg Q4.x rot; have e2 := congrArg Q4.y rot; have e3 := congrArg Q4.z rot
    simp only [Q4.mul] at e0 e1 e2 e3
    have e : bw = aw := by linear_combination (-xw) * e0 - xx * e1 - xy * e2 - xz * e3 + (aw - bw) * hx
    subst e
    simp only [List.mem_cons, List.not_mem_nil, or_false] at hr
    rcases hr with rfl | rfl | rfl <;> simp only [V3.dot] <;> field_simp
    · linear_combination (-1) * e1
    · linear_combination (-1) * e2
    · linear_combination (-1) * e3
  · have e0 := congrArg Q4.w rot; have e1 := congrArg Q4.x rot; have e2 := congrArg Q4.y rot; have e3 := congrArg Q4.z rot
    simp only [Q4.mul, Q4.smul] at e0 e1 e2 e3
    have e : bw = -aw := by linear_combination (xw) * e0 + xx * e1 + xy * e2 + xz * e3 - (aw + bw) * hx
    subst e
    simp only [List.mem_cons, List.not_mem_nil, or_false] at hr
    rcases hr with rfl | rfl | rfl <;> simp only [V3.dot] <;> field_simp
    · linear_combination (-1) * e1
    · linear_combination (-1) * e2
    · linear_combination (-1) * e3

theorem transRows_met (x : Pose) (hx : x.q.sq = 1) (ms : List (Pose × Pose)) (h : ∀ m ∈ ms, Linked x m) : ∀ r ∈ transRows (matOf x.q) ms, r.2 = r.1.dot x.t := by
  intro r hr
  obtain ⟨m, hm, hr⟩ := List.mem_flatMap.1 hr
  obtain ⟨ua, ub, _, tr⟩ := h m hm
  rw [← app_unit _ ua, ← app_unit _ hx] at tr
  have e1 := congrArg V3.x tr; have e2 := congrArg V3.y tr; have e3 := congrArg V3.z tr
  simp only [V3.add, M3.app, V3.dot] at e1 e2 e3
  simp only [List.mem_cons, List.not_mem_nil, or_false, V3.sub, M3.app] at hr
  rcases hr with rfl | rfl | rfl <;> simp only [V3.dot] <;> linarith

/-- **The pose of the sensor is found.** From exact poses, when the sensor's rotation on the hand is no half turn, the motions are neither
tiny nor close to half turns, and the two determinants are not taken for zero, the answer is exactly the sensor's rotation and translation. -/
theorem found_partial (robot sensor : List Pose) (x w : Pose) (he : Exact robot sensor x w) (hl : 3 ≤ robot.length) (hw : x.q.w ≠ 0)
    (hf : ∀ m ∈ (motions robot).zip (motions sensor), Fit m.1.q ∧ Fit m.2.q)
    (hd : 1e-15 ≤ |det (sym ((rotRows ((motions robot).zip (motions sensor))).map (·.1)))|)
    (hd' : 1e-15 ≤ |det (sym ((transRows (matOf x.q) ((motions robot).zip (motions sensor))).map (·.1)))|) :
    ∃ rx, handEye robot sensor = some (rx, x.t) ∧ ∀ p, rx.app p = turn x.q p := by
  obtain ⟨hx, _, h1, h2, h3⟩ := he
  have hm := motions_linked x w robot sensor h1 h2 h3
  refine ⟨matOf x.q, ?_, app_unit _ hx⟩
  unfold handEye
  rw [if_neg (by rw [not_not]; exact h3.length_eq), if_neg (by omega)]
  simp only
  rw [solve_exact _ _ (rotRows_met x hx hw _ fun m h => ⟨hm m h, hf m h⟩) hd, cayley_unit _ hx hw, solve_exact _ _ (transRows_met x hx _ hm) hd']

/-- **A half turn is never the answer.** -/
theorem half_turn_never (robot sensor : List Pose) (a : M3 × V3) (h : handEye robot sensor = some a) : -1 < a.1.trace := by
  unfold handEye at h
  split at h
  · cases h
  split at h
  · cases h
  cases h
  generalize solve (rotRows ((motions robot).zip (motions sensor))) = p
  have hp : 0 < 1 + p.dot p := by unfold V3.dot; nlinarith [mul_self_nonneg p.x, mul_self_nonneg p.y, mul_self_nonneg p.z]
  have : (cayley p).trace = (3 - p.dot p) / (1 + p.dot p) := by
    simp only [cayley, M3.trace, V3.dot] at hp ⊢
    field_simp
    ring
  rw [this, lt_div_iff₀ hp]
  linarith

/-- The command answers exactly for as many poses of the hand as of the sensor, at least three. -/
theorem answered_iff (robot sensor : List Pose) : (handEye robot sensor).isSome ↔ robot.length = sensor.length ∧ 3 ≤ robot.length := by
  unfold handEye
  split
  · simp_all
  · split <;> simp <;> omega

theorem motions_vertical (l : List Pose) (h : ∀ p ∈ l, p.q.sq = 1 ∧ p.q.x = 0 ∧ p.q.y = 0) : ∀ m ∈ motions l, m.q.sq = 1 ∧ m.q.x = 0 ∧ m.q.y = 0 := by
  induction l with
  | nil => simp [motions]
  | cons a l ih =>
    cases l with
    | nil => simp [motions]
    | cons b l =>
      intro m hm
      simp only [motions, List.mem_cons] at hm
      rcases hm with rfl | hm
      · obtain ⟨ha, hax, hay⟩ := h a (by simp)
        obtain ⟨hb, hbx, hby⟩ := h b (by simp)
        refine ⟨?_, ?_, ?_⟩
        · show (a.q.conj.mul b.q).sq = 1
          rw [sq_mul, sq_conj, ha, hb, one_mul]
        · show (a.q.conj.mul b.q).x = 0
          simp [Q4.mul, Q4.conj, hax, hay, hbx, hby]
        · show (a.q.conj.mul b.q).y = 0
          simp [Q4.mul, Q4.conj, hax, hay, hbx, hby]
      · exact ih (fun p hp => h p (List.mem_cons_of_mem _ hp)) m hm

/-- **Turning about one axis is answered with nothing, without a word.** When the hand and the sensor only turn about the vertical, however
they move, the answer is no rotation and no translation, and it is no error. -/
theorem one_axis_silent (robot sensor : List Pose) (hl : robot.length = sensor.length) (h3 : 3 ≤ robot.length)
    (hr : ∀ p ∈ robot, p.q.sq = 1 ∧ p.q.x = 0 ∧ p.q.y = 0) (hs : ∀ p ∈ sensor, p.q.sq = 1 ∧ p.q.x = 0 ∧ p.q.y = 0)
    (hf : ∀ m ∈ (motions robot).zip (motions sensor), Fit m.1.q ∧ Fit m.2.q) : handEye robot sensor = some (ident, ⟨0, 0, 0⟩) := by
  have hm : ∀ m ∈ (motions robot).zip (motions sensor), (m.1.q.sq = 1 ∧ m.1.q.x = 0 ∧ m.1.q.y = 0) ∧ (m.2.q.sq = 1 ∧ m.2.q.x = 0 ∧ m.2.q.y = 0) := fun m h =>
    ⟨motions_vertical robot hr _ (List.of_mem_zip h).1, motions_vertical sensor hs _ (List.of_mem_zip h).2⟩
  have zero : ∀ (rows : List (V3 × ℝ)), (∀ r ∈ rows, r.1.z = 0) → det (sym (rows.map (·.1))) = 0 := by
    intro rows hz
    have s0 : ∀ f : V3 → ℝ, (∀ p : V3, p.z = 0 → f p = 0) → ((rows.map (·.1)).map f).sum = 0 := fun f hf' =>
      List.sum_eq_zero fun x hx => by
        obtain ⟨p, hp, rfl⟩ := List.mem_map.1 hx
        obtain ⟨r, hr, rfl⟩ := List.mem_map.1 hp
        exact hf' _ (hz r hr)
    have e1 : (sym (rows.map (·.1))).xz = 0 := s0 _ fun p h => by rw [h, mul_zero]
    have e2 : (sym (rows.map (·.1))).yz = 0 := s0 _ fun p h => by rw [h, mul_zero]
    have e3 : (sym (rows.map (·.1))).zz = 0 := s0 _ fun p h => by rw [h, mul_zero]
    rw [det, e1, e2, e3]; ring
  unfold handEye
  rw [if_neg (by simp [hl]), if_neg (by omega)]
  simp only
  rw [solve_singular _ (zero _ ?_), solve_singular _ (zero _ ?_)]
  · have : cayley ⟨0, 0, 0⟩ = ident := by ext <;> simp [cayley, ident, V3.dot]
    rw [this]
  · intro r hr
    obtain ⟨m, hm', hr⟩ := List.mem_flatMap.1 hr
    obtain ⟨⟨ua, xa, ya⟩, _⟩ := hm m hm'
    have hn : max (√m.1.q.sq) (1e-12 : ℝ) = 1 := by rw [ua, Real.sqrt_one]; exact max_eq_left (by norm_num)
    simp only [List.mem_cons, List.not_mem_nil, or_false] at hr
    rcases hr with rfl | rfl | rfl <;> simp [matOf, hn, xa, ya]
  · intro r hr
    obtain ⟨m, hm', hr⟩ := List.mem_flatMap.1 hr
    obtain ⟨⟨ua, xa, ya⟩, ub, xb, yb⟩ := hm m hm'
    obtain ⟨fa, fb⟩ := hf m hm'
    obtain ⟨_, ea⟩ := rodrigues_unit _ ua fa
    obtain ⟨_, eb⟩ := rodrigues_unit _ ub fb
    simp only [ea, eb, V3.add, xa, ya, xb, yb, List.mem_cons, List.not_mem_nil, or_false] at hr
    rcases hr with rfl | rfl | rfl <;> simp

/-- **The axis of a half turn is mirrored.** For a half turn about an axis at right angles to the first with parts of opposite sign, the
parameters point along another axis. -/
theorem half_axis_mirrored (a b : ℝ) (ha : 0 < a) (hb : 0 < b) (h : a * a + b * b = 1) :
    rodrigues (matOf ⟨0, 0, a, -b⟩) = ⟨0, a * 1e6, b * 1e6⟩ := by
  have hs : (⟨0, 0, a, -b⟩ : Q4).sq = 1 := by simp only [Q4.sq]; linarith
  have hn : max (√(⟨0, 0, a, -b⟩ : Q4).sq) (1e-12 : ℝ) = 1 := by rw [hs, Real.sqrt_one]; exact max_eq_left (by norm_num)
  have htr : ((matOf ⟨0, 0, a, -b⟩).trace - 1) / 2 = -1 := by
    unfold matOf M3.trace
    simp only [hn, div_one]
    linear_combination (-2) * h
  have hcl : max (-1) (min 1 (((matOf ⟨0, 0, a, -b⟩).trace - 1) / 2)) = -1 := by rw [htr]; norm_num
  unfold rodrigues
  rw [hcl]
  simp only [Real.arccos_neg_one, sub_self, abs_zero]
  have := Real.two_le_pi
  rw [if_neg (by rw [abs_of_pos Real.pi_pos]; norm_num; linarith), if_pos (by norm_num)]
  have d0 : ((matOf ⟨0, 0, a, -b⟩).r0.x + 1) / 2 = 0 := by unfold matOf; simp only [hn, div_one]; linear_combination (-1) * h
  have d1 : ((matOf ⟨0, 0, a, -b⟩).r1.y + 1) / 2 = a * a := by unfold matOf; simp only [hn, div_one]; linear_combination (-1) * h
  have d2 : ((matOf ⟨0, 0, a, -b⟩).r2.z + 1) / 2 = b * b := by unfold matOf; simp only [hn, div_one]; linear_combination (-1) * h
  have o1 : (matOf ⟨0, 0, a, -b⟩).r0.y + (matOf ⟨0, 0, a, -b⟩).r1.x = 0 := by unfold matOf; simp only [hn, div_one]; ring
  have o2 : (matOf ⟨0, 0, a, -b⟩).r0.z + (matOf ⟨0, 0, a, -b⟩).r2.x = 0 := by unfold matOf; simp only [hn, div_one]; ring
  rw [d0, d1, d2, o1, o2, max_eq_left (mul_self_nonneg a), max_eq_left (mul_self_nonneg b), Real.sqrt_mul_self ha.le, Real.sqrt_mul_self hb.le]
  simp

/-! ### A case -/

noncomputable def qa : Q4 := ⟨3 / 5, 4 / 5, 0, 0⟩
noncomputable def qb : Q4 := ⟨3 / 5, 0, 4 / 5, 0⟩

/-- Three poses of a hand that turns about two axes. -/
noncomputable def hand : List Pose := [⟨⟨0, 0, 0⟩, guess⟩, ⟨⟨1, 0, 0⟩, qa⟩, ⟨⟨1, 1, 0⟩, qa.mul qb⟩]

/-- The sensor on the hand. -/
noncomputable def mount : Pose := ⟨⟨1, 2, 3⟩, ⟨4 / 5, 0, 0, 3 / 5⟩⟩

/-- The poses of the sensor, given in the frame of the robot. -/
noncomputable def eyes : List Pose := hand.map fun r => after r mount

theorem qa_unit : qa.sq = 1 := by norm_num [qa, Q4.sq]
theorem qb_unit : qb.sq = 1 := by norm_num [qb, Q4.sq]
theorem mount_unit : mount.q.sq = 1 := by norm_num [mount, Q4.sq]

theorem hand_exact : Exact hand eyes mount ⟨⟨0, 0, 0⟩, guess⟩ := by
  have hg : guess.sq = 1 := by simp [guess, Q4.sq]
  have hu : ∀ p ∈ hand, p.q.sq = 1 := by
    intro p hp
    simp only [hand, List.mem_cons, List.not_mem_nil, or_false] at hp
    rcases hp with rfl | rfl | rfl
    · exact hg
    · exact qa_unit
    · show (qa.mul qb).sq = 1
      rw [sq_mul, qa_unit, qb_unit, one_mul]
  refine ⟨mount_unit, hg, hu, ?_, ?_⟩
  · intro p hp
    obtain ⟨r, hr, rfl⟩ := List.mem_map.1 hp
    show (r.q.mul mount.q).sq = 1
    rw [sq_mul, hu r hr, mount_unit, one_mul]
  · rw [eyes, List.forall₂_map_right_iff, List.forall₂_same]
    intro r _
    refine ⟨?_, Or.inl ?_⟩
    · show _ = (turn guess _).add ⟨0, 0, 0⟩
      rw [turn_guess]; ext <;> simp [V3.add]
    · show _ = guess.mul _
      rw [guess_mul]

theorem fit_case (q : Q4) (h : q.w = 3 / 5) : Fit q := by
  right
  have hc : angle q = Real.pi - Real.arccos (7 / 25) := by
    rw [← Real.arccos_neg, angle, h]; norm_num
  have h1 : Real.arccos (7 / 25) ≤ Real.pi / 2 := Real.arccos_le_pi_div_two.2 (by norm_num)
  have h2 : (1e-10 : ℝ) ≤ Real.arccos (7 / 25) := by
    have hc := Real.one_sub_sq_div_two_le_cos (x := 1e-10)
    have e : Real.arccos (Real.cos 1e-10) = 1e-10 := Real.arccos_cos (by norm_num) (by have := Real.two_le_pi; norm_num; linarith)
    rw [← e]
    exact Real.arccos_le_arccos (le_trans (by norm_num) hc)
  have := Real.two_le_pi
  rw [hc]
  constructor
  · norm_num; linarith
  · linarith

theorem case_q : ((motions hand).zip (motions eyes)).map (fun m => (m.1.q, m.2.q)) =
    [(qa, ⟨3 / 5, 28 / 125, -96 / 125, 0⟩), (qb, ⟨3 / 5, 96 / 125, 28 / 125, 0⟩)] := by
  simp only [hand, eyes, List.map_cons, List.map_nil, motions, List.zip_cons_cons, compose, invert, after, List.zip_nil_right]
  congr 1
  · refine Prod.ext ?_ ?_
    · ext <;> norm_num [guess, qa, Q4.conj, Q4.mul]
    · ext <;> norm_num [guess, qa, Q4.conj, Q4.mul, mount]
  · congr 1
    refine Prod.ext ?_ ?_
    · ext <;> norm_num [qb, qa, Q4.conj, Q4.mul]
    · ext <;> norm_num [qb, qa, Q4.conj, Q4.mul, mount]

theorem rotRows_q (ms : List (Pose × Pose)) : rotRows ms = (ms.map fun m => (m.1.q, m.2.q)).flatMap fun m =>
    let pa := rodrigues (matOf m.1)
    let pb := rodrigues (matOf m.2)
    let s := pa.add pb
    [(⟨0, -s.z, s.y⟩, pb.x - pa.x), (⟨s.z, 0, -s.x⟩, pb.y - pa.y), (⟨-s.y, s.x, 0⟩, pb.z - pa.z)] := by
  rw [rotRows, List.flatMap_map]

theorem transRows_q (rx : M3) (ms : List (Pose × Pose)) : (transRows rx ms).map (·.1) = (ms.map fun m => (m.1.q, m.2.q)).flatMap fun m =>
    let ra := matOf m.1
    [⟨ra.r0.x - 1, ra.r0.y, ra.r0.z⟩, ⟨ra.r1.x, ra.r1.y - 1, ra.r1.z⟩, ⟨ra.r2.x, ra.r2.y, ra.r2.z - 1⟩] := by
  rw [transRows, List.flatMap_map, List.map_flatMap]
  rfl

/-- The sensor on the hand is found. -/
theorem hand_found : ∃ rx, handEye hand eyes = some (rx, ⟨1, 2, 3⟩) ∧ ∀ p, rx.app p = turn mount.q p := by
  refine found_partial hand eyes mount _ hand_exact (by simp [hand]) (by norm_num [mount]) ?_ ?_ ?_
  · intro m hm
    have := List.mem_map_of_mem (f := fun m : Pose × Pose => (m.1.q, m.2.q)) hm
    rw [case_q] at this
    simp only [List.mem_cons, List.not_mem_nil, or_false, Prod.mk.injEq] at this
    rcases this with ⟨h1, h2⟩ | ⟨h1, h2⟩ <;> rw [h1, h2] <;> exact ⟨fit_case _ rfl, fit_case _ rfl⟩
  · rw [rotRows_q, case_q]
    have u1 : (⟨3 / 5, 28 / 125, -96 / 125, 0⟩ : Q4).sq = 1 := by norm_num [Q4.sq]
    have u2 : (⟨3 / 5, 96 / 125, 28 / 125, 0⟩ : Q4).sq = 1 := by norm_num [Q4.sq]
    simp only [List.flatMap_cons, List.flatMap_nil, (rodrigues_unit _ qa_unit (fit_case _ rfl)).2, (rodrigues_unit _ qb_unit (fit_case _ rfl)).2,
      (rodrigues_unit _ u1 (fit_case _ rfl)).2, (rodrigues_unit _ u2 (fit_case _ rfl)).2]
    norm_num [det, sym, V3.add, qa, qb]
  · rw [transRows_q, case_q]
    have hn : ∀ q : Q4, q.sq = 1 → max (√q.sq) (1e-12 : ℝ) = 1 := fun q h => by rw [h, Real.sqrt_one]; exact max_eq_left (by norm_num)
    simp only [List.flatMap_cons, List.flatMap_nil, matOf, hn _ qa_unit, hn _ qb_unit]
    norm_num [det, sym, qa, qb]

/-- A hand that turns about the vertical only, with a sensor turned and moved on it: the answer says neither. -/
example : handEye [⟨⟨0, 0, 0⟩, guess⟩, ⟨⟨1, 0, 0⟩, yaw⟩, ⟨⟨1, 1, 0⟩, yaw.mul yaw⟩]
    ([⟨⟨0, 0, 0⟩, guess⟩, ⟨⟨1, 0, 0⟩, yaw⟩, ⟨⟨1, 1, 0⟩, yaw.mul yaw⟩].map fun r => after r mount) = some (ident, ⟨0, 0, 0⟩) := by
  have hg : guess.sq = 1 := by simp [guess, Q4.sq]
  have hx : ∀ p ∈ ([⟨⟨0, 0, 0⟩, guess⟩, ⟨⟨1, 0, 0⟩, yaw⟩, ⟨⟨1, 1, 0⟩, yaw.mul yaw⟩] : List Pose), p.q.sq = 1 ∧ p.q.x = 0 ∧ p.q.y = 0 := by
    intro p hp
    simp only [List.mem_cons, List.not_mem_nil, or_false] at hp
    rcases hp with rfl | rfl | rfl
    · exact ⟨hg, rfl, rfl⟩
    · exact ⟨yaw_unit, rfl, rfl⟩
    · refine ⟨?_, ?_, ?_⟩
      · show (yaw.mul yaw).sq = 1
        rw [sq_mul, yaw_unit, one_mul]
      · norm_num [yaw, Q4.mul]
      · norm_num [yaw, Q4.mul]
  refine one_axis_silent _ _ (by simp) (by simp) hx ?_ ?_
  · intro p hp
    obtain ⟨r, hr, rfl⟩ := List.mem_map.1 hp
    obtain ⟨h1, h2, h3⟩ := hx r hr
    refine ⟨?_, ?_, ?_⟩
    · show (r.q.mul mount.q).sq = 1
      rw [sq_mul, h1, mount_unit, one_mul]
    · show (r.q.mul mount.q).x = 0
      simp [Q4.mul, mount, h2, h3]
    · show (r.q.mul mount.q).y = 0
      simp [Q4.mul, mount, h2, h3]
  · intro m hm
    simp only [List.map_cons, List.map_nil, motions, List.zip_cons_cons, compose, invert, after, List.zip_nil_right, List.mem_cons, List.not_mem_nil, or_false] at hm
    rcases hm with rfl | rfl <;> refine ⟨fit_case _ ?_, fit_case _ ?_⟩ <;> norm_num [guess, yaw, mount, Q4.mul, Q4.conj]

end Horus.HandEye
