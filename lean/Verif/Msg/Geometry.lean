import Mathlib.Analysis.SpecialFunctions.Trigonometric.Basic
import Mathlib.Analysis.Real.Pi.Bounds
import Mathlib.Tactic.LinearCombination
import Mathlib.Tactic.Linarith
import Mathlib.Tactic.Ring
import Mathlib.Tactic.FieldSimp
/-
Geometry messages. Source: /repo/horus_types/src/math.rs: Pose2D 106-143, TransformStamped 153-209, Point3 and Vector3 216-379,
Quaternion 386-437, Pose3D 460-497. Numbers are real numbers: rounding is not modelled, except where `Dbl` says so. Time stamps are left out.
-/
namespace Horus.Geometry

/-- math.rs:216, 244: Point3 and Vector3 (one type here; the conversions 297-315 copy the fields). -/
@[ext] structure V3 where
  x : ℝ
  y : ℝ
  z : ℝ

/-- math.rs:386. -/
@[ext] structure Quat where
  x : ℝ
  y : ℝ
  z : ℝ
  w : ℝ

namespace V3
/-- math.rs:326-347. -/
noncomputable def add (a b : V3) : V3 := ⟨a.x + b.x, a.y + b.y, a.z + b.z⟩
/-- math.rs:318-339, 350-355. -/
noncomputable def sub (a b : V3) : V3 := ⟨a.x - b.x, a.y - b.y, a.z - b.z⟩
/-- math.rs:358-371. -/
noncomputable def smul (k : ℝ) (a : V3) : V3 := ⟨k * a.x, k * a.y, k * a.z⟩
/-- math.rs:374-379. -/
noncomputable def neg (a : V3) : V3 := ⟨-a.x, -a.y, -a.z⟩
/-- math.rs:275. -/
noncomputable def dot (a b : V3) : ℝ := a.x * b.x + a.y * b.y + a.z * b.z
/-- math.rs:288-294. -/
noncomputable def cross (a b : V3) : V3 := ⟨a.y * b.z - a.z * b.y, a.z * b.x - a.x * b.z, a.x * b.y - a.y * b.x⟩
/-- math.rs:259. -/
noncomputable def magnitude (a : V3) : ℝ := Real.sqrt (a.x * a.x + a.y * a.y + a.z * a.z)
/-- math.rs:231-236. -/
noncomputable def distance (a b : V3) : ℝ :=
  let dx := a.x - b.x
  let dy := a.y - b.y
  let dz := a.z - b.z
  Real.sqrt (dx * dx + dy * dy + dz * dz)
/-- math.rs:279-286. -/
noncomputable def normalized (a : V3) : V3 :=
  if a.magnitude > 0 then ⟨a.x / a.magnitude, a.y / a.magnitude, a.z / a.magnitude⟩ else ⟨0, 0, 0⟩
/-- math.rs:263-273: the vector afterwards and the result. -/
noncomputable def normalize (a : V3) : V3 × Bool :=
  if a.magnitude > 1 / 10 ^ 12 then (⟨a.x / a.magnitude, a.y / a.magnitude, a.z / a.magnitude⟩, true) else (a, false)
end V3

namespace Quat
/-- math.rs:404. -/
noncomputable def identity : Quat := ⟨0, 0, 0, 1⟩
/-- math.rs:408-422. -/
noncomputable def fromEuler (roll pitch yaw : ℝ) : Quat :=
  let cr := Real.cos (roll / 2)
  let sr := Real.sin (roll / 2)
  let cp := Real.cos (pitch / 2)
  let sp := Real.sin (pitch / 2)
  let cy := Real.cos (yaw / 2)
  let sy := Real.sin (yaw / 2)
  ⟨sr * cp * cy - cr * sp * sy, cr * sp * cy + sr * cp * sy, cr * cp * sy - sr * sp * cy, cr * cp * cy + sr * sp * sy⟩
/-- math.rs:178-184, 476-483: the rotation of a 2D pose. -/
noncomputable def fromTheta (theta : ℝ) : Quat := ⟨0, 0, Real.sin (theta / 2), Real.cos (theta / 2)⟩
/-- math.rs:196, 202, 425. -/
noncomputable def norm (q : Quat) : ℝ := Real.sqrt (q.x * q.x + q.y * q.y + q.z * q.z + q.w * q.w)
/-- math.rs:424-432. -/
noncomputable def normalize (q : Quat) : Quat := if q.norm > 0 then ⟨q.x / q.norm, q.y / q.norm, q.z / q.norm, q.w / q.norm⟩ else q
/-- math.rs:201-208: `TransformStamped::normalize_rotation`. -/
noncomputable def normalizeT (q : Quat) : Quat := if q.norm > 1 / 10 ^ 12 then ⟨q.x / q.norm, q.y / q.norm, q.z / q.norm, q.w / q.norm⟩ else q
/-- math.rs:187-198: `TransformStamped::is_valid` for finite values. -/
noncomputable def validT (q : Quat) : Prop := |q.norm - 1| < 1 / 10 ^ 6
end Quat

/-! ### Specification: rotations -/

/-- Rotating a vector by a unit quaternion: (w² - |u|²) v + 2 (u·v) u + 2 w (u × v), with u the vector part. -/
noncomputable def rotate (q : Quat) (v : V3) : V3 :=
  let u : V3 := ⟨q.x, q.y, q.z⟩
  ((V3.smul (q.w * q.w - u.dot u) v).add (V3.smul (2 * u.dot v) u)).add (V3.smul (2 * q.w) (u.cross v))

/-- The textbook rotations by an angle around the axes. -/
noncomputable def rotX (t : ℝ) (v : V3) : V3 := ⟨v.x, Real.cos t * v.y - Real.sin t * v.z, Real.sin t * v.y + Real.cos t * v.z⟩
noncomputable def rotY (t : ℝ) (v : V3) : V3 := ⟨Real.cos t * v.x + Real.sin t * v.z, v.y, -Real.sin t * v.x + Real.cos t * v.z⟩
noncomputable def rotZ (t : ℝ) (v : V3) : V3 := ⟨Real.cos t * v.x - Real.sin t * v.y, Real.sin t * v.x + Real.cos t * v.y, v.z⟩

/-- Hamilton's product, for the proof. -/
noncomputable def qmul (a b : Quat) : Quat :=
  ⟨a.w * b.x + a.x * b.w + a.y * b.z - a.z * b.y, a.w * b.y - a.x * b.z + a.y * b.w + a.z * b.x,
   a.w * b.z + a.x * b.y - a.y * b.x + a.z * b.w, a.w * b.w - a.x * b.x - a.y * b.y - a.z * b.z⟩

theorem rotate_mul (a b : Quat) (v : V3) : rotate (qmul a b) v = rotate a (rotate b v) := by
  unfold rotate qmul V3.add V3.smul V3.dot V3.cross
  ext <;> dsimp only <;> ring

theorem half (t : ℝ) : Real.cos t = Real.cos (t / 2) ^ 2 - Real.sin (t / 2) ^ 2 ∧ Real.sin t = 2 * Real.sin (t / 2) * Real.cos (t / 2) ∧
    Real.sin (t / 2) ^ 2 + Real.cos (t / 2) ^ 2 = 1 := by
  have h1 := Real.cos_two_mul' (t / 2)
  have h2 := Real.sin_two_mul (t / 2)
  rw [show 2 * (t / 2) = t by ring] at h1 h2
  exact ⟨h1, h2, Real.sin_sq_add_cos_sq _⟩

theorem rotate_x (t : ℝ) (v : V3) : rotate ⟨Real.sin (t / 2), 0, 0, Real.cos (t / 2)⟩ v = rotX t v := by
  obtain ⟨h1, h2, h3⟩ := half t
  unfold rotate rotX V3.add V3.smul V3.dot V3.cross
  rw [h1, h2]
  ext <;> dsimp only
  · linear_combination v.x * h3
  · ring
  · ring

theorem rotate_y (t : ℝ) (v : V3) : rotate ⟨0, Real.sin (t / 2), 0, Real.cos (t / 2)⟩ v = rotY t v := by
  obtain ⟨h1, h2, h3⟩ := half t
  unfold rotate rotY V3.add V3.smul V3.dot V3.cross
  rw [h1, h2]
  ext <;> dsimp only
  · ring
  · linear_combination v.y * h3
  · ring

theorem rotate_z (t : ℝ) (v : V3) : rotate ⟨0, 0, Real.sin (t / 2), Real.cos (t / 2)⟩ v = rotZ t v := by
  obtain ⟨h1, h2, h3⟩ := half t
  unfold rotate rotZ V3.add V3.smul V3.dot V3.cross
  rw [h1, h2]
  ext <;> dsimp only
  · ring
  · ring
  · linear_combination v.z * h3

/-- **`from_euler` is roll, then pitch, then yaw** about the fixed axes, for all angles. -/
theorem euler_rotates (roll pitch yaw : ℝ) (v : V3) : rotate (Quat.fromEuler roll pitch yaw) v = rotZ yaw (rotY pitch (rotX roll v)) := by
  rw [← rotate_x, ← rotate_y, ← rotate_z, ← rotate_mul, ← rotate_mul]
  congr 1
  unfold Quat.fromEuler qmul
  ext <;> dsimp only <;> ring

/-- **`from_euler` gives a unit quaternion**, which is valid in a transform. -/
theorem euler_unit (roll pitch yaw : ℝ) : (Quat.fromEuler roll pitch yaw).norm = 1 ∧ (Quat.fromEuler roll pitch yaw).validT := by
  have h : (Quat.fromEuler roll pitch yaw).norm = 1 := by
    obtain ⟨_, _, h1⟩ := half roll
    obtain ⟨_, _, h2⟩ := half pitch
    obtain ⟨_, _, h3⟩ := half yaw
    unfold Quat.norm Quat.fromEuler
    dsimp only
    rw [Real.sqrt_eq_one]
    linear_combination (Real.sin (pitch / 2) ^ 2 + Real.cos (pitch / 2) ^ 2) * (Real.sin (yaw / 2) ^ 2 + Real.cos (yaw / 2) ^ 2) * h1 +
      (Real.sin (yaw / 2) ^ 2 + Real.cos (yaw / 2) ^ 2) * h2 + h3
  refine ⟨h, ?_⟩
  unfold Quat.validT
  rw [h]
  norm_num

/-- **A 2D pose turned into 3D is the turn about the vertical axis**, and the same as `from_euler(0, 0, theta)`. -/
theorem pose2d_is_yaw (theta : ℝ) (v : V3) : rotate (Quat.fromTheta theta) v = rotZ theta v ∧ Quat.fromTheta theta = Quat.fromEuler 0 0 theta := by
  refine ⟨rotate_z theta v, ?_⟩
  unfold Quat.fromTheta Quat.fromEuler
  ext <;> simp

/-- **Unit quaternions keep lengths and angles.** -/
theorem rotate_isometry (q : Quat) (h : q.norm = 1) (v u : V3) : (rotate q v).dot (rotate q u) = v.dot u := by
  unfold Quat.norm at h
  rw [Real.sqrt_eq_one] at h
  have h2 : (q.x * q.x + q.y * q.y + q.z * q.z + q.w * q.w) * (q.x * q.x + q.y * q.y + q.z * q.z + q.w * q.w) = 1 := by rw [h]; norm_num
  have : (rotate q v).dot (rotate q u) = ((q.x * q.x + q.y * q.y + q.z * q.z + q.w * q.w) * (q.x * q.x + q.y * q.y + q.z * q.z + q.w * q.w)) * v.dot u := by
    unfold rotate V3.dot V3.add V3.smul V3.cross
    dsimp only
    ring
  rw [this, h2, one_mul]

/-! ### Normalising -/

theorem sq_sum_eq (q : Quat) (n : ℝ) (hn : n ≠ 0) (h : q.x * q.x + q.y * q.y + q.z * q.z + q.w * q.w = n * n) :
    (⟨q.x / n, q.y / n, q.z / n, q.w / n⟩ : Quat).norm = 1 := by
  unfold Quat.norm
  dsimp only
  rw [Real.sqrt_eq_one]
  field_simp
  linarith

theorem norm_sq (q : Quat) : q.x * q.x + q.y * q.y + q.z * q.z + q.w * q.w = q.norm * q.norm := by
  unfold Quat.norm
  rw [Real.mul_self_sqrt]
  nlinarith [mul_self_nonneg q.x, mul_self_nonneg q.y, mul_self_nonneg q.z, mul_self_nonneg q.w]

/-- **Normalising gives a unit quaternion that turns the same way**, for every quaternion but zero. -/
theorem normalize_unit (q : Quat) (h : q ≠ ⟨0, 0, 0, 0⟩) : q.normalize.norm = 1 ∧ ∃ k > 0, q = ⟨k * q.normalize.x, k * q.normalize.y, k * q.normalize.z, k * q.normalize.w⟩ := by
  have hpos : q.norm > 0 := by
    unfold Quat.norm
    apply Real.sqrt_pos.2
    by_contra hc
    apply h
    have hx := mul_self_nonneg q.x
    have hy := mul_self_nonneg q.y
    have hz := mul_self_nonneg q.z
    have hw := mul_self_nonneg q.w
    ext
    · exact mul_self_eq_zero.1 (by linarith)
    · exact mul_self_eq_zero.1 (by linarith)
    · exact mul_self_eq_zero.1 (by linarith)
    · exact mul_self_eq_zero.1 (by linarith)
  unfold Quat.normalize
  rw [if_pos hpos]
  refine ⟨sq_sum_eq q q.norm (ne_of_gt hpos) (norm_sq q), q.norm, hpos, ?_⟩
  have hne := ne_of_gt hpos
  ext <;> dsimp only <;> field_simp

/-- After `normalize_rotation` a transform is valid, unless its rotation was shorter than 1e-12. -/
theorem normalizeT_valid (q : Quat) (h : q.norm > 1 / 10 ^ 12) : q.normalizeT.validT := by
  have hpos : q.norm ≠ 0 := by
    have : (0 : ℝ) < 1 / 10 ^ 12 := by norm_num
    linarith
  unfold Quat.normalizeT
  rw [if_pos h]
  unfold Quat.validT
  rw [sq_sum_eq q q.norm hpos (norm_sq q)]
  norm_num

/-- **The default transform is not a transform.** `TransformStamped::default()` has rotation zero, is not valid, and is not made valid by
normalising (`Quaternion::default()` is the identity). -/
theorem default_transform_invalid : ¬ (⟨0, 0, 0, 0⟩ : Quat).validT ∧ ¬ (⟨0, 0, 0, 0⟩ : Quat).normalizeT.validT := by
  have h : (⟨0, 0, 0, 0⟩ : Quat).norm = 0 := by unfold Quat.norm; simp
  have h1 : ¬ (⟨0, 0, 0, 0⟩ : Quat).validT := by
    unfold Quat.validT
    rw [h]
    norm_num
  refine ⟨h1, ?_⟩
  unfold Quat.normalizeT
  rw [if_neg (by rw [h]; norm_num)]
  exact h1

theorem mag_sq (a : V3) : a.x * a.x + a.y * a.y + a.z * a.z = a.magnitude * a.magnitude := by
  unfold V3.magnitude
  rw [Real.mul_self_sqrt]
  nlinarith [mul_self_nonneg a.x, mul_self_nonneg a.y, mul_self_nonneg a.z]

theorem mag_pos (a : V3) (h : a ≠ ⟨0, 0, 0⟩) : 0 < a.magnitude := by
  unfold V3.magnitude
  apply Real.sqrt_pos.2
  by_contra hc
  apply h
  have hx := mul_self_nonneg a.x
  have hy := mul_self_nonneg a.y
  have hz := mul_self_nonneg a.z
  ext
  · exact mul_self_eq_zero.1 (by linarith)
  · exact mul_self_eq_zero.1 (by linarith)
  · exact mul_self_eq_zero.1 (by linarith)

/-- **`normalized` has length one and the same direction**, for every vector but zero. -/
theorem normalized_unit (a : V3) (h : a ≠ ⟨0, 0, 0⟩) : a.normalized.magnitude = 1 ∧ a = V3.smul a.magnitude a.normalized := by
  have hpos := mag_pos a h
  have hne := ne_of_gt hpos
  unfold V3.normalized
  rw [if_pos hpos]
  constructor
  · show Real.sqrt (a.x / a.magnitude * (a.x / a.magnitude) + a.y / a.magnitude * (a.y / a.magnitude) + a.z / a.magnitude * (a.z / a.magnitude)) = 1
    rw [Real.sqrt_eq_one]
    have := mag_sq a
    field_simp
    linarith
  · unfold V3.smul
    ext <;> dsimp only <;> field_simp

/-- `normalize` agrees with `normalized` when it says true, and leaves the vector alone when it says false: below 1e-12, where `normalized`
still normalises. -/
theorem normalize_agrees (a : V3) : (a.normalize.2 = true → a.normalize.1 = a.normalized) ∧ (a.normalize.2 = false → a.normalize.1 = a ∧ a.magnitude ≤ 1 / 10 ^ 12) := by
  have he : (0 : ℝ) < 1 / 10 ^ 12 := by norm_num
  unfold V3.normalize
  split_ifs with h
  · refine ⟨fun _ => ?_, fun h' => by cases h'⟩
    unfold V3.normalized
    rw [if_pos (by linarith)]
  · exact ⟨fun h' => by simp at h', fun _ => ⟨rfl, not_lt.1 h⟩⟩

/-! ### Vectors and distances -/

/-- The cross product is at right angles to both, and changes sign with the order. -/
theorem cross_spec (a b : V3) : a.dot (a.cross b) = 0 ∧ b.dot (a.cross b) = 0 ∧ b.cross a = (a.cross b).neg ∧
    (a.cross b).dot (a.cross b) = a.dot a * b.dot b - a.dot b * a.dot b := by
  unfold V3.cross V3.dot V3.neg
  refine ⟨by ring, by ring, ?_, by ring⟩
  ext <;> dsimp only <;> ring

/-- Moving a point by the difference to another point reaches it, and moving back returns. -/
theorem displacement (p q v : V3) : p.add (q.sub p) = q ∧ (p.add v).sub v = p ∧ (q.sub p).neg = p.sub q := by
  unfold V3.add V3.sub V3.neg
  refine ⟨?_, ?_, ?_⟩ <;> ext <;> dsimp only <;> ring

theorem distance_eq (a b : V3) : a.distance b = (a.sub b).magnitude := rfl

/-- Cauchy-Schwarz. -/
theorem dot_le (a b : V3) : a.dot b ≤ a.magnitude * b.magnitude := by
  have ha := mag_sq a
  have hb := mag_sq b
  have h0 : 0 ≤ a.magnitude * b.magnitude := mul_nonneg (Real.sqrt_nonneg _) (Real.sqrt_nonneg _)
  apply le_of_sq_le_sq _ h0 |> fun h => h
  have : (a.magnitude * b.magnitude) ^ 2 = (a.x * a.x + a.y * a.y + a.z * a.z) * (b.x * b.x + b.y * b.y + b.z * b.z) := by rw [ha, hb]; ring
  rw [this]
  unfold V3.dot
  nlinarith [sq_nonneg (a.y * b.z - a.z * b.y), sq_nonneg (a.z * b.x - a.x * b.z), sq_nonneg (a.x * b.y - a.y * b.x)]

theorem mag_add (a b : V3) : (a.add b).magnitude ≤ a.magnitude + b.magnitude := by
  have h0 : 0 ≤ a.magnitude + b.magnitude := add_nonneg (Real.sqrt_nonneg _) (Real.sqrt_nonneg _)
  apply le_of_sq_le_sq _ h0 |> fun h => h
  have h1 := mag_sq (a.add b)
  have h2 := mag_sq a
  have h3 := mag_sq b
  have h4 := dot_le a b
  unfold V3.dot at h4
  have h5 : (a.add b).magnitude ^ 2 = (a.x + b.x) * (a.x + b.x) + (a.y + b.y) * (a.y + b.y) + (a.z + b.z) * (a.z + b.z) := by
    rw [sq, ← h1]; rfl
  rw [h5]
  nlinarith

/-- **`distance_to` is a distance**: never negative, zero exactly for equal points, symmetric, and obeys the triangle inequality. -/
theorem distance_metric (a b c : V3) : 0 ≤ a.distance b ∧ (a.distance b = 0 ↔ a = b) ∧ a.distance b = b.distance a ∧ a.distance c ≤ a.distance b + b.distance c := by
  refine ⟨Real.sqrt_nonneg _, ?_, ?_, ?_⟩
  · constructor
    · intro h
      by_contra hne
      have : a.sub b ≠ ⟨0, 0, 0⟩ := by
        intro h0
        apply hne
        unfold V3.sub at h0
        injection h0 with e1 e2 e3
        ext <;> linarith
      have := mag_pos _ this
      rw [distance_eq] at h
      linarith
    · rintro rfl
      unfold V3.distance
      simp
  · unfold V3.distance
    congr 1
    dsimp only
    ring
  · rw [distance_eq, distance_eq, distance_eq]
    have : a.sub c = (a.sub b).add (b.sub c) := by
      unfold V3.sub V3.add
      ext <;> dsimp only <;> ring
    rw [this]
    exact mag_add _ _

/-! ### Angles -/

/-- math.rs:130-137 `normalize_angle`: the loops, as "one step is taken exactly while …"; both loops together. -/
inductive Norm : ℝ → ℝ → Prop
  | down {t r : ℝ} : t > Real.pi → Norm (t - 2 * Real.pi) r → Norm t r
  | up {t r : ℝ} : t < -Real.pi → Norm (t + 2 * Real.pi) r → Norm t r
  | stop {t : ℝ} : ¬ t > Real.pi → ¬ t < -Real.pi → Norm t t

/-- **`normalize_angle` ends, in [-π, π], at the same direction**, in exact arithmetic and for every angle. -/
theorem normalize_angle_spec (t : ℝ) : ∃ r, Norm t r ∧ -Real.pi ≤ r ∧ r ≤ Real.pi ∧ Real.cos r = Real.cos t ∧ Real.sin r = Real.sin t := by
  have hpi := Real.pi_pos
  have down : ∀ (n : ℕ) (t : ℝ), t ≤ Real.pi + n * (2 * Real.pi) → -Real.pi ≤ t → ∃ r, Norm t r ∧ -Real.pi ≤ r ∧ r ≤ Real.pi ∧ Real.cos r = Real.cos t ∧ Real.sin r = Real.sin t := by
    intro n
    induction n with
    | zero =>
      intro t h1 h2
      rw [Nat.cast_zero, zero_mul, add_zero] at h1
      exact ⟨t, .stop (not_lt.2 h1) (not_lt.2 h2), h2, h1, rfl, rfl⟩
    | succ n ih =>
      intro t h1 h2
      by_cases ht : t > Real.pi
      · obtain ⟨r, a, b, c, d, e⟩ := ih (t - 2 * Real.pi) (by push_cast at h1; linarith) (by linarith)
        rw [Real.cos_sub_two_pi] at d
        rw [Real.sin_sub_two_pi] at e
        exact ⟨r, .down ht a, b, c, d, e⟩
      · exact ⟨t, .stop ht (not_lt.2 h2), h2, not_lt.1 ht, rfl, rfl⟩
  have up : ∀ (n : ℕ) (t : ℝ), -Real.pi - n * (2 * Real.pi) ≤ t → t ≤ Real.pi → ∃ r, Norm t r ∧ -Real.pi ≤ r ∧ r ≤ Real.pi ∧ Real.cos r = Real.cos t ∧ Real.sin r = Real.sin t := by
    intro n
    induction n with
    | zero =>
      intro t h1 h2
      rw [Nat.cast_zero, zero_mul, sub_zero] at h1
      exact ⟨t, .stop (not_lt.2 h2) (not_lt.2 h1), h1, h2, rfl, rfl⟩
    | succ n ih =>
      intro t h1 h2
      by_cases ht : t < -Real.pi
      · obtain ⟨r, a, b, c, d, e⟩ := ih (t + 2 * Real.pi) (by push_cast at h1; linarith) (by linarith)
        rw [Real.cos_add_two_pi] at d
        rw [Real.sin_add_two_pi] at e
        exact ⟨r, .up ht a, b, c, d, e⟩
      · exact ⟨t, .stop (not_lt.2 h2) ht, not_lt.1 ht, h2, rfl, rfl⟩
  rcases le_or_gt t Real.pi with h | h
  · obtain ⟨n, hn⟩ := exists_nat_ge (-t / (2 * Real.pi))
    refine up n t ?_ h
    rw [div_le_iff₀ (by linarith)] at hn
    linarith
  · obtain ⟨n, hn⟩ := exists_nat_ge (t / (2 * Real.pi))
    refine down n t ?_ (by linarith)
    rw [div_le_iff₀ (by linarith)] at hn
    linarith

/-- The result is unique: the loops do nothing else. -/
theorem norm_unique {t r r' : ℝ} (h : Norm t r) (h' : Norm t r') : r = r' := by
  have hpi := Real.pi_pos
  induction h with
  | down ht _ ih =>
    cases h' with
    | down _ h => exact ih h
    | up h _ => exact absurd h (by linarith)
    | stop h _ => exact absurd ht h
  | up ht _ ih =>
    cases h' with
    | down h _ => exact absurd h (by linarith)
    | up _ h => exact ih h
    | stop _ h => exact absurd ht h
  | stop h1 h2 =>
    cases h' with
    | down h _ => exact absurd h h1
    | up h _ => exact absurd h h2
    | stop _ _ => rfl

/-- The finite 64-bit floating-point numbers (without the upper end of the range, which plays no part here). -/
def Dbl (x : ℝ) : Prop := ∃ (m e : ℤ), |m| < 2 ^ 53 ∧ -1074 ≤ e ∧ x = m * (2 : ℝ) ^ e

/-- `r` is `x` rounded: no double is nearer. -/
def Rounds (x r : ℝ) : Prop := Dbl r ∧ ∀ d, Dbl d → |r - x| ≤ |d - x|

/-- **`normalize_angle` hangs on large angles.** In floating point, from 2^57 on, subtracting 2π gives the same number again, so the loop
never ends. -/
theorem normalize_angle_hangs (m : ℤ) (e : ℤ) (hm : 2 ^ 52 ≤ m) (hm' : m < 2 ^ 53) (he : 5 ≤ e) (r : ℝ) (h : Rounds (m * (2 : ℝ) ^ e - 2 * Real.pi) r) :
    r = m * (2 : ℝ) ^ e := by
  set x : ℝ := m * (2 : ℝ) ^ e with hx
  have hpi := Real.pi_gt_three
  have hpi' := Real.pi_lt_d2
  have hdx : Dbl x := ⟨m, e, by rw [abs_of_nonneg (by omega)]; exact hm', by omega, rfl⟩
  obtain ⟨⟨m', e', hm2, he2, hr⟩, hbest⟩ := h
  have h1 := hbest x hdx
  have h2 : |x - (x - 2 * Real.pi)| = 2 * Real.pi := by rw [show x - (x - 2 * Real.pi) = 2 * Real.pi by ring, abs_of_pos (by linarith)]
  rw [h2] at h1
  have hxe : ∃ k : ℤ, x = k * 16 := by
    obtain ⟨n, hn⟩ := Int.eq_ofNat_of_zero_le (show 0 ≤ e - 4 by omega)
    refine ⟨m * 2 ^ n, ?_⟩
    rw [hx, show e = (n : ℤ) + 4 by omega, zpow_add₀ (by norm_num), zpow_natCast]
    push_cast
    norm_num
    ring
  have hxbig : (2 : ℝ) ^ 57 ≤ x := by
    rw [hx]
    have ha : (2 : ℝ) ^ (52 : ℕ) ≤ m := by exact_mod_cast hm
    have hb : (2 : ℝ) ^ (5 : ℤ) ≤ (2 : ℝ) ^ e := zpow_le_zpow_right₀ (by norm_num) he
    have hc : (2 : ℝ) ^ 57 = 2 ^ (52 : ℕ) * 2 ^ (5 : ℤ) := by norm_num
    rw [hc]
    exact mul_le_mul ha hb (by positivity) (le_trans (by positivity) ha)
  have hlow := (abs_le.1 h1).1
  have hup := (abs_le.1 h1).2
  rcases le_or_gt 4 e' with h4 | h4
  · obtain ⟨k, hk⟩ := hxe
    have hre : ∃ k' : ℤ, r = k' * 16 := by
      obtain ⟨n, hn⟩ := Int.eq_ofNat_of_zero_le (show 0 ≤ e' - 4 by omega)
      refine ⟨m' * 2 ^ n, ?_⟩
      rw [hr, show e' = (n : ℤ) + 4 by omega, zpow_add₀ (by norm_num), zpow_natCast]
      push_cast
      norm_num
      ring
    obtain ⟨k', hk'⟩ := hre
    have hkk : k' = k := by
      have a1 : (k' : ℝ) * 16 - k * 16 ≤ 0 := by rw [← hk, ← hk']; linarith
      have a2 : -(13 : ℝ) ≤ (k' : ℝ) * 16 - k * 16 := by rw [← hk, ← hk']; linarith
      have b1 : k' ≤ k := by
        have : (k' : ℝ) ≤ k := by linarith
        exact_mod_cast this
      have b2 : k - 1 < k' := by
        have : ((k - 1 : ℤ) : ℝ) < k' := by push_cast; linarith
        exact_mod_cast this
      omega
    rw [hk', hkk, ← hk]
  · exfalso
    have hb : (2 : ℝ) ^ e' ≤ (2 : ℝ) ^ (3 : ℤ) := zpow_le_zpow_right₀ (by norm_num) (by omega)
    have hp : (0 : ℝ) < (2 : ℝ) ^ e' := by positivity
    have ha : (m' : ℝ) < 2 ^ (53 : ℕ) := by exact_mod_cast lt_of_le_of_lt (le_abs_self m') hm2
    have hr8 : r ≤ 2 ^ 56 := by
      rw [hr]
      rcases le_or_gt (m' : ℝ) 0 with hneg | hpos
      · have : (m' : ℝ) * (2 : ℝ) ^ e' ≤ 0 := mul_nonpos_of_nonpos_of_nonneg hneg hp.le
        linarith [show (0 : ℝ) ≤ 2 ^ 56 by positivity]
      · have : (m' : ℝ) * (2 : ℝ) ^ e' ≤ 2 ^ (53 : ℕ) * (2 : ℝ) ^ (3 : ℤ) := mul_le_mul ha.le hb hp.le (by positivity)
        have h8 : (2 : ℝ) ^ (53 : ℕ) * (2 : ℝ) ^ (3 : ℤ) = 2 ^ 56 := by norm_num
        linarith
    have : (2 : ℝ) ^ 57 - 2 ^ 56 ≤ 13 := by linarith
    norm_num at this

example : (Quat.fromEuler 1 2 3).norm = 1 := (euler_unit 1 2 3).1

example : Norm (3 * Real.pi) Real.pi := by
  have hpi := Real.pi_pos
  refine .down (by linarith) ?_
  rw [show 3 * Real.pi - 2 * Real.pi = Real.pi by ring]
  exact .stop (by linarith) (by linarith)

/-- 2^60 is such an angle. -/
example (r : ℝ) (h : Rounds (((2 ^ 52 : ℤ) : ℝ) * (2 : ℝ) ^ (8 : ℤ) - 2 * Real.pi) r) : r = ((2 ^ 52 : ℤ) : ℝ) * (2 : ℝ) ^ (8 : ℤ) :=
  normalize_angle_hangs (2 ^ 52) 8 (by norm_num) (by norm_num) (by norm_num) r h

end Horus.Geometry
