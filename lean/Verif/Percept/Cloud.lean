import Verif.Percept.Image
import Mathlib.Data.Rat.Floor
import Mathlib.Tactic.Linarith
import Mathlib.Tactic.FieldSimp

/-
Depth images, point clouds and frame names.

Sources: horus_core/src/memory/depth_image.rs, horus_core/src/memory/pointcloud.rs,
horus_core/src/types/depth_image_descriptor.rs, horus_core/src/types/pointcloud_descriptor.rs,
horus_core/src/types/mod.rs:26-42.

A 32-bit float held in an image or a cloud is its four bytes (`to_le_bytes`/`from_le_bytes` are
inverse, so reading what was stored is reading the same bytes).  The millimetre conversion is over
exact rationals: float rounding, infinities and NaN are not modelled.
-/
namespace Horus.Percept

/-! ### Depth images -/

/-- A depth image: size, whether it is in metres (`F32`) or millimetres (`U16`), and bytes
(depth_image.rs:36-39).  `scale` is the descriptor's `depth_scale` (1.0 when new,
depth_image_descriptor.rs:62). -/
structure Depth where
  w : Nat
  h : Nat
  meters : Bool
  scale : ℚ
  data : Bytes

/-- `DepthImage::meters` / `millimeters` (depth_image.rs:51-88). -/
def Depth.new (w h : Nat) (meters : Bool) : Depth :=
  ⟨w, h, meters, 1, List.replicate (h * w * if meters then 4 else 2) 0⟩

/-- The bytes `get_depth` decodes on a metre image (depth_image.rs:96-115). -/
def Depth.getF32 (d : Depth) (x y : Nat) : Option Bytes :=
  if x ≥ d.w ∨ y ≥ d.h then none
  else if d.meters then
    if (y * d.w + x) * 4 + 4 ≤ d.data.length then some (slice d.data ((y * d.w + x) * 4) 4) else none
  else none

/-- `get_depth_u16` (depth_image.rs:178-190). -/
def Depth.getU16 (d : Depth) (x y : Nat) : Option Nat :=
  if x ≥ d.w ∨ y ≥ d.h ∨ d.meters then none
  else if (y * d.w + x) * 2 + 2 ≤ d.data.length then some (leNat (slice d.data ((y * d.w + x) * 2) 2)) else none

/-- `get_depth` on a millimetre image (depth_image.rs:116-124), in metres. -/
def Depth.getMm (d : Depth) (x y : Nat) : Option ℚ := (d.getU16 x y).map fun mm => (mm : ℚ) * d.scale / 1000

/-- `set_depth` on a metre image, the value given by its four bytes (depth_image.rs:147-153). -/
def Depth.setF32 (d : Depth) (x y : Nat) (v : Bytes) : Depth :=
  if x ≥ d.w ∨ y ≥ d.h then d
  else if d.meters then
    if (y * d.w + x) * 4 + 4 ≤ d.data.length then { d with data := splice d.data ((y * d.w + x) * 4) v } else d
  else d

/-- `set_depth` on a millimetre image (depth_image.rs:141-173): `none` is the out-of-range error. -/
def Depth.setMm (d : Depth) (x y : Nat) (v : ℚ) : Option Depth :=
  if x ≥ d.w ∨ y ≥ d.h then some d
  else
    let mm := v * 1000 / d.scale
    if mm < 0 ∨ mm > 65535 then none
    else if (y * d.w + x) * 2 + 2 ≤ d.data.length then
      some { d with data := splice d.data ((y * d.w + x) * 2) (le 2 ⌊mm⌋.toNat) }
    else some d

/-! Specification: the writes, in order; the last accepted one to a pixel counts. -/

/-- A `set_depth` call on a metre image. -/
structure DSet where
  x : Nat
  y : Nat
  v : Bytes

/-- What a metre pixel holds after some writes. -/
def wantDepth (ops : List DSet) (x y : Nat) : Bytes :=
  ops.foldl (fun p o => if o.x = x ∧ o.y = y then o.v else p) [0, 0, 0, 0]

/-- A `set_depth` call on a millimetre image. -/
structure MSet where
  x : Nat
  y : Nat
  v : ℚ

/-- What a millimetre pixel holds (whole millimetres) after some writes with scale 1: an
out-of-range value leaves it alone. -/
def wantMm (ops : List MSet) (x y : Nat) : Nat :=
  ops.foldl (fun p o => if o.x = x ∧ o.y = y ∧ 0 ≤ o.v * 1000 ∧ o.v * 1000 ≤ 65535 then ⌊o.v * 1000⌋.toNat else p) 0

/-- A run of `set_depth` calls on a metre image. -/
def Depth.runF32 (d : Depth) (ops : List DSet) : Depth := ops.foldl (fun d o => d.setF32 o.x o.y o.v) d

/-- A run of `set_depth` calls on a millimetre image; after an error the image is as before. -/
def Depth.runMm (d : Depth) (ops : List MSet) : Depth := ops.foldl (fun d o => (d.setMm o.x o.y o.v).getD d) d

/-! ### C129: depth pixels -/

/-- A metre image gives back, bit for bit, the last value stored in each pixel, and `None` outside
the image; a store outside the image changes nothing. -/
theorem depth_f32_reads_last_write (w h : Nat) (ops : List DSet) (hv : ∀ o ∈ ops, o.v.length = 4) (x y : Nat) :
    ((Depth.new w h true).runF32 ops).getF32 x y = if x < w ∧ y < h then some (wantDepth ops x y) else none := by
  have gen : ∀ (ops : List DSet), (∀ o ∈ ops, o.v.length = 4) → ∀ (d : Depth) (f : Nat → Nat → Bytes), d.w = w → d.h = h →
      d.meters = true → IHolds w h 4 d.data f → (d.runF32 ops).w = w ∧ (d.runF32 ops).h = h ∧ (d.runF32 ops).meters = true ∧
        IHolds w h 4 (d.runF32 ops).data (fun x y => ops.foldl (fun p o => if o.x = x ∧ o.y = y then o.v else p) (f x y)) := by
    intro ops
    induction ops with
    | nil => intro _ d f h1 h2 h3 h4; exact ⟨h1, h2, h3, h4⟩
    | cons o os ih =>
      intro hv d f h1 h2 h3 h4
      have e1 : d.runF32 (o :: os) = (d.setF32 o.x o.y o.v).runF32 os := rfl
      rw [e1]
      have hos := fun o' ho' => hv o' (List.mem_cons_of_mem _ ho')
      by_cases hb : o.x < w ∧ o.y < h
      · have hs : d.setF32 o.x o.y o.v = { d with data := splice d.data ((o.y * w + o.x) * 4) o.v } := by
          unfold Depth.setF32
          rw [h1, h2, h3, if_neg (by omega), if_pos rfl, if_pos (by rw [h4.1]; exact pixel_end hb.1 hb.2)]
        rw [hs]
        exact ih hos _ (fun x y => if o.x = x ∧ o.y = y then o.v else f x y) h1 h2 h3
          (iholds_set h4 hb.1 hb.2 (hv o (List.mem_cons_self ..)))
      · have hs : d.setF32 o.x o.y o.v = d := by
          unfold Depth.setF32
          rw [h1, h2, if_pos (by omega)]
        rw [hs]
        refine ih hos d (fun x y => if o.x = x ∧ o.y = y then o.v else f x y) h1 h2 h3 ?_
        refine ⟨h4.1, fun x' y' hx' hy' => ?_⟩
        have : (if o.x = x' ∧ o.y = y' then o.v else f x' y') = f x' y' := by
          rw [if_neg]; rintro ⟨rfl, rfl⟩; exact hb ⟨hx', hy'⟩
        simp only [this]
        exact h4.2 x' y' hx' hy'
  have base : IHolds w h 4 (Depth.new w h true).data (fun _ _ => [0, 0, 0, 0]) := by
    refine ⟨by simp [Depth.new], fun x y hx hy => ⟨?_, rfl⟩⟩
    have := pixel_end (n := 4) hx hy
    show slice (List.replicate (h * w * 4) 0) _ _ = List.replicate 4 0
    unfold slice
    rw [List.drop_replicate, List.take_replicate]
    congr 1
    omega
  obtain ⟨h1, h2, h3, h4⟩ := gen ops hv _ _ rfl rfl rfl base
  unfold Depth.getF32
  rw [h1, h2, h3]
  by_cases hb : x < w ∧ y < h
  · rw [if_neg (by omega), if_pos rfl, if_pos (by rw [h4.1]; exact pixel_end hb.1 hb.2), if_pos hb, (h4.2 x y hb.1 hb.2).1]
    rfl
  · rw [if_pos (by omega), if_neg hb]

theorem mm_floor {q : ℚ} (h0 : 0 ≤ q) (h1 : q ≤ 65535) : leNat (le 2 ⌊q⌋.toNat) = ⌊q⌋.toNat := by
  rw [leNat_le]
  apply Nat.mod_eq_of_lt
  have : ⌊q⌋ ≤ 65535 := by
    have := Int.floor_le_floor h1
    simpa using this
  have h2 : 0 ≤ ⌊q⌋ := Int.floor_nonneg.mpr h0
  omega

/-- A millimetre image holds in each pixel the last accepted value written to it, cut to whole
millimetres, whatever was written elsewhere; a value the pixel cannot hold is refused and leaves it
alone. -/
theorem depth_mm_reads_last_write (w h : Nat) (ops : List MSet) (x y : Nat) :
    ((Depth.new w h false).runMm ops).getU16 x y = if x < w ∧ y < h then some (wantMm ops x y) else none := by
  have gen : ∀ (ops : List MSet) (d : Depth) (f : Nat → Nat → Nat), d.w = w → d.h = h →
      d.meters = false → d.scale = 1 → (∃ g, IHolds w h 2 d.data g ∧ ∀ x y, x < w → y < h → leNat (g x y) = f x y) →
      (d.runMm ops).w = w ∧ (d.runMm ops).h = h ∧ (d.runMm ops).meters = false ∧
        ∃ g, IHolds w h 2 (d.runMm ops).data g ∧ ∀ x y, x < w → y < h → leNat (g x y) =
          ops.foldl (fun p o => if o.x = x ∧ o.y = y ∧ 0 ≤ o.v * 1000 ∧ o.v * 1000 ≤ 65535 then ⌊o.v * 1000⌋.toNat else p) (f x y) := by
    intro ops
    induction ops with
    | nil => intro d f h1 h2 h3 _ h4; exact ⟨h1, h2, h3, h4⟩
    | cons o os ih =>
      intro d f h1 h2 h3 hsc h4
      obtain ⟨g, hg, hgf⟩ := h4
      have e1 : d.runMm (o :: os) = ((d.setMm o.x o.y o.v).getD d).runMm os := rfl
      rw [e1]
      have hone : o.v * 1000 / d.scale = o.v * 1000 := by rw [hsc, div_one]
      by_cases hb : o.x < w ∧ o.y < h ∧ 0 ≤ o.v * 1000 ∧ o.v * 1000 ≤ 65535
      · have hs : d.setMm o.x o.y o.v = some { d with data := splice d.data ((o.y * w + o.x) * 2) (le 2 ⌊o.v * 1000⌋.toNat) } := by
          unfold Depth.setMm
          simp only
          rw [h1, h2, hone, if_neg (by omega), if_neg, if_pos (by rw [hg.1]; exact pixel_end hb.1 hb.2.1)]
          rintro (hn | hn)
          · linarith [hb.2.2.1]
          · linarith [hb.2.2.2]
        rw [hs]
        refine ih _ (fun x y => if o.x = x ∧ o.y = y ∧ 0 ≤ o.v * 1000 ∧ o.v * 1000 ≤ 65535 then ⌊o.v * 1000⌋.toNat else f x y) h1 h2 h3 hsc
          ⟨_, iholds_set hg hb.1 hb.2.1 (le_length 2 _), ?_⟩
        intro x' y' hx' hy'
        by_cases hc : o.x = x' ∧ o.y = y'
        · rw [if_pos hc, if_pos ⟨hc.1, hc.2, hb.2.2⟩]
          exact mm_floor hb.2.2.1 hb.2.2.2
        · rw [if_neg hc, if_neg (fun k => hc ⟨k.1, k.2.1⟩)]
          exact hgf x' y' hx' hy'
      · have hs : (d.setMm o.x o.y o.v).getD d = d := by
          unfold Depth.setMm
          simp only
          rw [h1, h2, hone]
          by_cases c1 : o.x ≥ w ∨ o.y ≥ h
          · rw [if_pos c1]; rfl
          · have c2 : o.v * 1000 < 0 ∨ o.v * 1000 > 65535 := by
              by_contra hn
              rw [not_or] at hn
              exact hb ⟨by omega, by omega, not_lt.mp hn.1, not_lt.mp hn.2⟩
            rw [if_neg c1, if_pos c2]; rfl
        rw [hs]
        refine ih d (fun x y => if o.x = x ∧ o.y = y ∧ 0 ≤ o.v * 1000 ∧ o.v * 1000 ≤ 65535 then ⌊o.v * 1000⌋.toNat else f x y) h1 h2 h3 hsc ⟨g, hg, ?_⟩
        intro x' y' hx' hy'
        rw [hgf x' y' hx' hy', if_neg]
        rintro ⟨rfl, rfl, k⟩
        exact hb ⟨hx', hy', k⟩
  have base : ∃ g, IHolds w h 2 (Depth.new w h false).data g ∧ ∀ x y, x < w → y < h → leNat (g x y) = 0 := by
    refine ⟨fun _ _ => [0, 0], ⟨by simp [Depth.new], fun x y hx hy => ⟨?_, rfl⟩⟩, fun _ _ _ _ => rfl⟩
    have := pixel_end (n := 2) hx hy
    show slice (List.replicate (h * w * 2) 0) _ _ = List.replicate 2 0
    unfold slice
    rw [List.drop_replicate, List.take_replicate]
    congr 1
    omega
  obtain ⟨h1, h2, h3, g, h4, h5⟩ := gen ops (Depth.new w h false) (fun _ _ => 0) rfl rfl rfl rfl base
  unfold Depth.getU16
  rw [h1, h2, h3]
  by_cases hb : x < w ∧ y < h
  · have c1 : ¬ (x ≥ w ∨ y ≥ h ∨ false = true) := by simp; omega
    rw [if_neg c1, if_pos (by rw [h4.1]; exact pixel_end hb.1 hb.2), if_pos hb, (h4.2 x y hb.1 hb.2).1, h5 x y hb.1 hb.2]
    rfl
  · have c1 : x ≥ w ∨ y ≥ h ∨ false = true := by omega
    rw [if_pos c1, if_neg hb]

/-- An accepted depth comes back at most one millimetre short and never long. -/
theorem depth_mm_error (w h : Nat) (ops : List MSet) (x y : Nat) (v : ℚ) (hx : x < w) (hy : y < h)
    (h0 : 0 ≤ v) (h1 : v * 1000 ≤ 65535) :
    ∃ r, ((Depth.new w h false).runMm (ops ++ [⟨x, y, v⟩])).getMm x y = some r ∧ r ≤ v ∧ v < r + 1 / 1000 := by
  have hsc : ∀ (ops : List MSet) (d : Depth), d.scale = 1 → (d.runMm ops).scale = 1 := by
    intro ops
    induction ops with
    | nil => intro d hd; exact hd
    | cons o os ih =>
      intro d hd
      refine ih _ ?_
      unfold Depth.setMm
      simp only
      split_ifs <;> exact hd
  have h0' : 0 ≤ v * 1000 := by linarith
  unfold Depth.getMm
  rw [depth_mm_reads_last_write, if_pos ⟨hx, hy⟩, hsc _ _ rfl]
  have hw : wantMm (ops ++ [⟨x, y, v⟩]) x y = ⌊v * 1000⌋.toNat := by
    unfold wantMm
    rw [List.foldl_append]
    simp only [List.foldl_cons, List.foldl_nil, true_and]
    rw [if_pos ⟨h0', h1⟩]
  rw [hw]
  refine ⟨_, rfl, ?_, ?_⟩
  · have hz : ((⌊v * 1000⌋.toNat : Nat) : ℚ) = ((⌊v * 1000⌋ : Int) : ℚ) := by
      have : ((⌊v * 1000⌋.toNat : Nat) : Int) = ⌊v * 1000⌋ := Int.toNat_of_nonneg (Int.floor_nonneg.mpr h0')
      exact_mod_cast this
    rw [hz]
    have := Int.floor_le (v * 1000)
    linarith
  · have hz : ((⌊v * 1000⌋.toNat : Nat) : ℚ) = ((⌊v * 1000⌋ : Int) : ℚ) := by
      have : ((⌊v * 1000⌋.toNat : Nat) : Int) = ⌊v * 1000⌋ := Int.toNat_of_nonneg (Int.floor_nonneg.mpr h0')
      exact_mod_cast this
    rw [hz]
    have := Int.lt_floor_add_one (v * 1000)
    linarith

/-- A store outside the image is reported as a success. -/
theorem depth_out_of_bounds_ok (d : Depth) (x y : Nat) (v : ℚ) (h : d.w ≤ x ∨ d.h ≤ y) : d.setMm x y v = some d := by
  unfold Depth.setMm
  rw [if_pos h]

/-- The hypotheses are met: 1.2345 m is held as 1234 mm, 70 m is refused. -/
example : ((Depth.new 3 2 false).runMm [⟨2, 1, 12345 / 10000⟩, ⟨2, 1, 70⟩, ⟨1, 1, 3⟩]).getU16 2 1 = some 1234 ∧
    ((Depth.new 3 2 true).runF32 [⟨2, 1, [1, 2, 3, 4]⟩]).getF32 2 1 = some [1, 2, 3, 4] := by
  decide +kernel

/-! ### Point clouds -/

/-- A point cloud of `f32` fields: how many points, fields per point, bytes (pointcloud.rs:44-47,
pointcloud_descriptor.rs:110-126). -/
structure Cloud where
  count : Nat
  fpp : Nat
  data : Bytes

/-- A point: one four-byte float per field. -/
abbrev Point := List Bytes

/-- `floats[base..base + n]` written point by point (pointcloud.rs:80-85, 104-110, 121-124).  `none`
is an index out of range, which panics. -/
def writePoints (n : Nat) : Nat → List Point → Bytes → Option Bytes
  | _, [], d => some d
  | i, p :: ps, d => if i * n * 4 + n * 4 ≤ d.length then writePoints n (i + 1) ps (splice d (i * n * 4) p.flatten) else none

/-- `from_xyz`, `from_xyzi`, `from_xyzrgb` (pointcloud.rs:76-126) with 3, 4 or 6 fields; the number
of points is cut to 32 bits for the allocation.  `none` is a panic. -/
def Cloud.ofPoints (n : Nat) (ps : List Point) : Option Cloud :=
  (writePoints n 0 ps (List.replicate (u32 ps.length * n * 4) 0)).map fun d => ⟨u32 ps.length, n, d⟩

/-- `point_at` (pointcloud.rs:162-176). -/
def Cloud.pointAt (c : Cloud) (i : Nat) : Option Bytes :=
  if i ≥ c.count then none
  else if i * (c.fpp * 4) + c.fpp * 4 ≤ c.data.length then some (slice c.data (i * (c.fpp * 4)) (c.fpp * 4)) else none

/-- `extract_xyz` (pointcloud.rs:183-221) on an aligned `F32` cloud.  The size product is checked
in `usize`, an overflow counting as too large. -/
def Cloud.extractXyz (c : Cloud) : Option (List Point) :=
  if c.fpp < 3 then none
  else if (if c.count * c.fpp * 4 ≥ 18446744073709551616 then 18446744073709551615 else c.count * c.fpp * 4) > c.data.length then none
  else some ((List.range c.count).map fun i =>
    [slice c.data (i * c.fpp * 4) 4, slice c.data ((i * c.fpp + 1) * 4) 4, slice c.data ((i * c.fpp + 2) * 4) 4])

theorem slice_splice_same (d : Bytes) (o : Nat) (v : Bytes) (h : o + v.length ≤ d.length) :
    slice (splice d o v) o v.length = v := by
  apply List.ext_getElem?
  intro i
  rw [slice_get?]
  by_cases hi : i < v.length
  · rw [if_pos hi, splice_get? _ _ _ h, if_pos (by omega)]
    congr 1
    omega
  · rw [if_neg hi, List.getElem?_eq_none (by omega)]

theorem slice_splice_before (d : Bytes) (o : Nat) (v : Bytes) (h : o + v.length ≤ d.length) (a k : Nat) (hk : a + k ≤ o) :
    slice (splice d o v) a k = slice d a k := by
  apply List.ext_getElem?
  intro i
  rw [slice_get?, slice_get?]
  by_cases hi : i < k
  · rw [if_pos hi, if_pos hi, splice_get? _ _ _ h, if_neg (by omega)]
  · rw [if_neg hi, if_neg hi]

theorem flatten4_length (p : Point) (h : ∀ f ∈ p, f.length = 4) : p.flatten.length = p.length * 4 := by
  induction p with
  | nil => rfl
  | cons f fs ih =>
    simp only [List.flatten_cons, List.length_append, List.length_cons]
    rw [ih fun g hg => h g (List.mem_cons_of_mem _ hg), h f (List.mem_cons_self ..)]
    omega

theorem slice_flatten4 (p : Point) (h : ∀ f ∈ p, f.length = 4) (k : Nat) (hk : k < p.length) :
    slice p.flatten (k * 4) 4 = p[k] := by
  induction p generalizing k with
  | nil => simp at hk
  | cons f fs ih =>
    have hf := h f (List.mem_cons_self ..)
    cases k with
    | zero => simpa [slice] using List.take_left' hf
    | succ k =>
      simp only [List.flatten_cons, List.getElem_cons_succ]
      rw [slice_append_right _ _ _ _ (by omega), hf, show (k + 1) * 4 - 4 = k * 4 by omega]
      exact ih (fun g hg => h g (List.mem_cons_of_mem _ hg)) k (by simpa using hk)

theorem writePoints_spec (n : Nat) (ps : List Point) (hp : ∀ p ∈ ps, p.length = n ∧ ∀ f ∈ p, f.length = 4) :
    ∀ (i : Nat) (d : Bytes), (i + ps.length) * n * 4 ≤ d.length →
      ∃ d', writePoints n i ps d = some d' ∧ d'.length = d.length ∧
        (∀ a k, a + k ≤ i * n * 4 → slice d' a k = slice d a k) ∧
        ∀ j (hj : j < ps.length), slice d' ((i + j) * n * 4) (n * 4) = ps[j].flatten := by
  induction ps with
  | nil => intro i d _; exact ⟨d, rfl, rfl, fun _ _ _ => rfl, fun j hj => by simp at hj⟩
  | cons p ps ih =>
    intro i d hd
    obtain ⟨hp1, hp2⟩ := hp p (List.mem_cons_self ..)
    have hfl : p.flatten.length = n * 4 := by rw [flatten4_length p hp2, hp1]
    have e0 : (i + (p :: ps).length) * n * 4 = i * n * 4 + n * 4 + ps.length * n * 4 := by
      simp only [List.length_cons]; ring
    have e1 : (i + 1 + ps.length) * n * 4 = i * n * 4 + n * 4 + ps.length * n * 4 := by ring
    have e2 : (i + 1) * n * 4 = i * n * 4 + n * 4 := by ring
    have hb : i * n * 4 + p.flatten.length ≤ d.length := by rw [hfl]; omega
    have hl := splice_length d (i * n * 4) p.flatten hb
    obtain ⟨d', h1, h2, h3, h4⟩ := ih (fun q hq => hp q (List.mem_cons_of_mem _ hq)) (i + 1)
      (splice d (i * n * 4) p.flatten) (by rw [hl, e1]; omega)
    refine ⟨d', ?_, by rw [h2, hl], ?_, ?_⟩
    · simp only [writePoints]
      rw [if_pos (by omega)]
      exact h1
    · intro a k hak
      rw [h3 a k (by omega)]
      exact slice_splice_before _ _ _ hb _ _ hak
    · intro j hj
      cases j with
      | zero =>
        simp only [Nat.add_zero, List.getElem_cons_zero]
        rw [h3 _ _ (by omega), ← hfl]
        exact slice_splice_same _ _ _ hb
      | succ j =>
        have := h4 j (by simpa using hj)
        simp only [List.getElem_cons_succ]
        rw [← this]
        congr 3
        omega

theorem ofPoints_spec (n : Nat) (ps : List Point) (hp : ∀ p ∈ ps, p.length = n ∧ ∀ f ∈ p, f.length = 4)
    (hc : ps.length < 4294967296) :
    ∃ c, Cloud.ofPoints n ps = some c ∧ c.count = ps.length ∧ c.fpp = n ∧ c.data.length = ps.length * n * 4 ∧
      ∀ j (hj : j < ps.length), slice c.data (j * n * 4) (n * 4) = ps[j].flatten := by
  have hu : u32 ps.length = ps.length := Nat.mod_eq_of_lt hc
  obtain ⟨d', h1, h2, _, h4⟩ := writePoints_spec n ps hp 0 (List.replicate (ps.length * n * 4) 0) (by simp)
  refine ⟨⟨ps.length, n, d'⟩, ?_, rfl, rfl, by simpa using h2, ?_⟩
  · unfold Cloud.ofPoints
    rw [hu, h1]
    rfl
  · intro j hj
    simpa using h4 j hj

/-! ### C130: points come back as they were given -/

/-- A cloud made of points has that many points, and reading one back gives the bytes of its fields
in order; past the end there is none. -/
theorem point_at_reads_back (n : Nat) (ps : List Point) (hp : ∀ p ∈ ps, p.length = n ∧ ∀ f ∈ p, f.length = 4)
    (hc : ps.length < 4294967296) :
    ∃ c, Cloud.ofPoints n ps = some c ∧ c.count = ps.length ∧ ∀ i, c.pointAt i = (ps[i]?).map List.flatten := by
  obtain ⟨c, h1, h2, h3, h4, h5⟩ := ofPoints_spec n ps hp hc
  refine ⟨c, h1, h2, fun i => ?_⟩
  unfold Cloud.pointAt
  rw [h2, h3]
  by_cases hi : i < ps.length
  · have e : i * (n * 4) = i * n * 4 := by ring
    have hend : i * n * 4 + n * 4 ≤ ps.length * n * 4 := by
      calc i * n * 4 + n * 4 = (i + 1) * (n * 4) := by ring
        _ ≤ ps.length * (n * 4) := Nat.mul_le_mul_right _ hi
        _ = ps.length * n * 4 := by ring
    rw [if_neg (by omega), e, if_pos (by rw [h4]; exact hend), h5 i hi, List.getElem?_eq_getElem hi]
    rfl
  · rw [if_pos (by omega), List.getElem?_eq_none (by omega)]
    rfl

/-- The coordinates of a cloud made of points with at least three fields are the points' first three
fields, in order. -/
theorem extract_reads_back (n : Nat) (ps : List Point) (hp : ∀ p ∈ ps, p.length = n ∧ ∀ f ∈ p, f.length = 4) (hn : 3 ≤ n)
    (hn' : n ≤ 8) (hc : ps.length < 4294967296) :
    ∃ c, Cloud.ofPoints n ps = some c ∧ c.extractXyz = some (ps.map fun p => p.take 3) := by
  obtain ⟨c, h1, h2, h3, h4, h5⟩ := ofPoints_spec n ps hp hc
  refine ⟨c, h1, ?_⟩
  have hbig : ps.length * n * 4 < 18446744073709551616 := by
    have : ps.length * n ≤ 4294967296 * 8 := Nat.mul_le_mul (by omega) hn'
    omega
  unfold Cloud.extractXyz
  rw [h2, h3, if_neg (by omega), if_neg (by omega : ¬ (ps.length * n * 4 ≥ 18446744073709551616)), if_neg (by omega)]
  congr 1
  apply List.ext_getElem?
  intro i
  rw [List.getElem?_map, List.getElem?_map]
  by_cases hi : i < ps.length
  · rw [List.getElem?_range hi, List.getElem?_eq_getElem hi]
    simp only [Option.map_some]
    congr 1
    obtain ⟨hq1, hq2⟩ := hp ps[i] (List.getElem_mem hi)
    have sub : ∀ k, k < n → slice c.data ((i * n + k) * 4) 4 = (ps[i])[k]? := by
      intro k hk
      have h6 := h5 i hi
      have h7 := slice_flatten4 ps[i] hq2 k (by omega)
      rw [← h6] at h7
      rw [List.getElem?_eq_getElem (by omega), ← h7]
      congr 1
      unfold slice
      rw [List.drop_take, List.drop_drop, List.take_take]
      congr 1
      · omega
      · congr 1
        ring
    have h0 := sub 0 (by omega)
    have h1 := sub 1 (by omega)
    have h2 := sub 2 (by omega)
    rw [Nat.add_zero] at h0
    apply List.ext_getElem?
    intro k
    rw [List.getElem?_take]
    match k with
    | 0 => simpa using h0
    | 1 => simpa using h1
    | 2 => simpa using h2
    | k + 3 => simp
  · rw [List.getElem?_eq_none (by simp; omega), List.getElem?_eq_none (by omega)]
    rfl

/-- A claimed size that the bytes do not back is refused, whatever the claim. -/
theorem extract_bounds (c : Cloud) (hl : c.data.length < 18446744073709551615) (h : c.data.length < c.count * c.fpp * 4) :
    c.extractXyz = none := by
  unfold Cloud.extractXyz
  by_cases h3 : c.fpp < 3
  · rw [if_pos h3]
  · rw [if_neg h3, if_pos]
    by_cases ho : c.count * c.fpp * 4 ≥ 18446744073709551616
    · rw [if_pos ho]; exact hl
    · rw [if_neg ho]; exact h

/-- The hypotheses are met: two points with intensity. -/
example : let ps : List Point := [[[1, 0, 0, 0], [2, 0, 0, 0], [3, 0, 0, 0], [4, 0, 0, 0]], [[5, 0, 0, 0], [6, 0, 0, 0], [7, 0, 0, 0], [8, 0, 0, 0]]]
    (∀ p ∈ ps, p.length = 4 ∧ ∀ f ∈ p, f.length = 4) ∧
    ((Cloud.ofPoints 4 ps).bind fun c => c.extractXyz) = some [[[1, 0, 0, 0], [2, 0, 0, 0], [3, 0, 0, 0]], [[5, 0, 0, 0], [6, 0, 0, 0], [7, 0, 0, 0]]] := by
  decide +kernel

/-! ### Frame names -/

/-- UTF-8 bytes of a string (`as_bytes`). -/
def utf8 (s : List Char) : Bytes := s.flatMap String.utf8EncodeChar

/-- `std::str::from_utf8`: Lean's own strict decoder. -/
def fromUtf8 (b : Bytes) : Option (List Char) := (b.toByteArray.utf8Decode?).map Array.toList

/-- `set_frame_id` (types/mod.rs:35-40; costmap_descriptor.rs:281-286 is the same): the old name is
cleared, at most 31 bytes are kept. -/
def setFrame (_old : Bytes) (s : List Char) : Bytes :=
  splice (List.replicate 32 0) 0 ((utf8 s).take 31)

/-- `frame_id` (types/mod.rs:29-32, costmap_descriptor.rs:275-278): up to the first zero byte, and the empty
string when that is not UTF-8. -/
def getFrame (f : Bytes) : List Char := (fromUtf8 (f.takeWhile (· ≠ 0))).getD []

theorem utf8_zero_free (s : List Char) (h : ∀ c ∈ s, c ≠ '\x00') : ∀ b ∈ utf8 s, b ≠ 0 := by
  intro b hb
  unfold utf8 at hb
  rw [List.mem_flatMap] at hb
  obtain ⟨c, hc, hb⟩ := hb
  have hne := h c hc
  have hv : c.val.toNat ≠ 0 := by
    intro e
    apply hne
    apply Char.ext
    apply UInt32.toNat_inj.mp
    simpa using e
  have hval := c.valid
  have hlt : c.val.toNat < 1114112 := by
    rcases hval with h | h <;> omega
  simp only [String.utf8EncodeChar] at hb
  have nz : ∀ n : Nat, n % 256 ≠ 0 → (UInt8.ofNat n) ≠ 0 := by
    intro n hn e
    apply hn
    have := congrArg UInt8.toNat e
    simpa using this
  have nz1 : ∀ n : Nat, 0 < n → n < 256 → n.toUInt8 ≠ 0 := by
    intro n h0 h1
    apply nz
    rw [Nat.mod_eq_of_lt h1]; omega
  split_ifs at hb
  · simp only [List.mem_singleton] at hb
    subst hb
    exact nz1 _ (by omega) (by omega)
  all_goals
    simp only [List.mem_cons, List.not_mem_nil, or_false] at hb
    rcases hb with rfl | rfl | rfl | rfl <;> exact nz1 _ (by omega) (by omega)

theorem takeWhile_all (l r : Bytes) (h : ∀ b ∈ l, b ≠ 0) : (l ++ 0 :: r).takeWhile (· ≠ 0) = l := by
  induction l with
  | nil => simp
  | cons a l ih =>
    have := h a (List.mem_cons_self ..)
    simp only [List.cons_append, List.takeWhile_cons]
    have ih' := ih fun b hb => h b (List.mem_cons_of_mem _ hb)
    rw [if_pos (by simpa using this), ih']

theorem setFrame_eq (old : Bytes) (s : List Char) :
    ∃ k, setFrame old s = (utf8 s).take 31 ++ 0 :: List.replicate k 0 := by
  have hl : ((utf8 s).take 31).length ≤ 31 := by simp
  refine ⟨31 - ((utf8 s).take 31).length, ?_⟩
  unfold setFrame splice
  rw [List.take_zero, List.nil_append, List.drop_replicate, Nat.zero_add,
    show 32 - ((utf8 s).take 31).length = (31 - ((utf8 s).take 31).length) + 1 by omega, List.replicate_succ]

theorem fromUtf8_utf8 (s : List Char) : fromUtf8 (utf8 s) = some s := by
  have := @List.utf8Decode?_utf8Encode s
  unfold fromUtf8 utf8
  rw [show (List.flatMap String.utf8EncodeChar s).toByteArray = s.utf8Encode from rfl, this]
  simp

/-! ### C131: frame names -/

/-- A name of at most 31 bytes without NUL is given back as it was set, whatever was there before. -/
theorem frame_round_trip (old : Bytes) (s : List Char) (hz : ∀ c ∈ s, c ≠ '\x00') (hl : (utf8 s).length ≤ 31) :
    getFrame (setFrame old s) = s := by
  obtain ⟨k, hk⟩ := setFrame_eq old s
  unfold getFrame
  rw [hk, List.take_of_length_le hl, takeWhile_all _ _ (utf8_zero_free s hz), fromUtf8_utf8]
  rfl

/-- A longer name of one-byte characters is cut to its first 31 characters. -/
theorem frame_ascii_cut (old : Bytes) (s : List Char) (hz : ∀ c ∈ s, c ≠ '\x00')
    (ha : ∀ c ∈ s, c.val.toNat < 128) : getFrame (setFrame old s) = s.take 31 := by
  have h1 : ∀ s : List Char, (∀ c ∈ s, c.val.toNat < 128) → ∀ k, (utf8 s).take k = utf8 (s.take k) := by
    intro s
    induction s with
    | nil => intro _ k; simp [utf8]
    | cons c s ih =>
      intro ha k
      cases k with
      | zero => simp [utf8]
      | succ k =>
        have hc := ha c (List.mem_cons_self ..)
        have : (String.utf8EncodeChar c) = [UInt8.ofNat c.val.toNat] := by
          simp only [String.utf8EncodeChar]
          rw [if_pos (by omega)]
        have ih' := ih (fun d hd => ha d (List.mem_cons_of_mem _ hd)) k
        simp only [utf8, List.flatMap_cons, this, List.take_succ_cons, List.cons_append, List.nil_append] at ih' ⊢
        rw [ih']
  obtain ⟨k, hk⟩ := setFrame_eq old s
  unfold getFrame
  rw [hk, h1 s ha, takeWhile_all _ _ (utf8_zero_free _ fun c hc => hz c (List.mem_of_mem_take hc)), fromUtf8_utf8]
  rfl

/-- Whatever is set, the bytes of the name read back are a prefix of the bytes of the name set. -/
theorem frame_is_prefix (old : Bytes) (s : List Char) : utf8 (getFrame (setFrame old s)) <+: utf8 s := by
  obtain ⟨k, hk⟩ := setFrame_eq old s
  unfold getFrame
  rw [hk]
  have hp : ((utf8 s).take 31 ++ 0 :: List.replicate k 0).takeWhile (· ≠ 0) <+: utf8 s := by
    rw [List.takeWhile_append]
    split
    · simp only [ne_eq, not_true_eq_false, decide_false, Bool.false_eq_true, not_false_eq_true, List.takeWhile_cons_of_neg, List.append_nil]
      exact List.take_prefix ..
    · exact (List.takeWhile_prefix _).trans (List.take_prefix ..)
  cases hd : fromUtf8 (((utf8 s).take 31 ++ 0 :: List.replicate k 0).takeWhile (· ≠ 0)) with
  | none => exact List.nil_prefix
  | some t =>
    simp only [Option.getD_some]
    unfold fromUtf8 at hd
    rw [Option.map_eq_some_iff] at hd
    obtain ⟨a, ha, rfl⟩ := hd
    have hs : (ByteArray.utf8Decode? (List.toByteArray (List.takeWhile (· ≠ 0) ((utf8 s).take 31 ++ 0 :: List.replicate k 0)))).isSome := by
      rw [ha]; rfl
    have he := ByteArray.utf8Encode_get_utf8Decode? (h := hs)
    simp only [ha, Option.get_some] at he
    have hb : utf8 a.toList = List.takeWhile (· ≠ 0) ((utf8 s).take 31 ++ 0 :: List.replicate k 0) := by
      have h2 : (utf8 a.toList).toByteArray = _ := he
      exact List.toByteArray_inj.mp h2
    rw [hb]
    exact hp

/-- A name one byte too long whose 31st byte falls inside a character is lost altogether: 30 letters
followed by `é` read back as the empty name. -/
theorem frame_cut_in_character_lost :
    let s := List.replicate 30 'a' ++ ['é']
    (utf8 s).length = 32 ∧ getFrame (setFrame [] s) = [] := by
  decide +kernel

end Horus.Percept
