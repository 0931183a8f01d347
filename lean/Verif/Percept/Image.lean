import Verif.Percept.Grid
import Verif.Common.Bytes
import Mathlib.Tactic.Ring

/-
Images: pixel access, fill and region extraction over the tensor's bytes.

Sources: horus_core/src/memory/image.rs, horus_core/src/types/image_descriptor.rs,
horus_core/src/types/image_encoding.rs, horus_core/src/types/dtype.rs:87-94.

The data slice is the tensor's byte list (`height * width * channels * element_size` bytes, all
zero when new: see the Pool area for both facts).  GPU images and shared writers are not modelled.
-/
namespace Horus.Percept

/-- `ImageEncoding` (image_encoding.rs:19-43). -/
inductive Enc where
  | mono8 | mono16 | rgb8 | bgr8 | rgba8 | bgra8 | yuv422 | mono32f | rgb32f | bayerRggb8 | depth16
  deriving DecidableEq

/-- `bytes_per_pixel` (image_encoding.rs:72-80). -/
def Enc.bpp : Enc → Nat
  | .mono8 | .bayerRggb8 => 1
  | .mono16 | .yuv422 | .depth16 => 2
  | .rgb8 | .bgr8 => 3
  | .rgba8 | .bgra8 | .mono32f => 4
  | .rgb32f => 12

/-- `channels` (image_encoding.rs:84-95). -/
def Enc.channels : Enc → Nat
  | .mono8 | .mono16 | .mono32f | .bayerRggb8 | .depth16 => 1
  | .yuv422 => 2
  | .rgb8 | .bgr8 | .rgb32f => 3
  | .rgba8 | .bgra8 => 4

/-- The tensor element types an encoding uses (dtype.rs). -/
inductive Dtype where
  | u8 | u16 | f32
  deriving DecidableEq

/-- `element_size` (dtype.rs:87-94). -/
def Dtype.size : Dtype → Nat
  | .u8 => 1 | .u16 => 2 | .f32 => 4

/-- `tensor_dtype` (image_encoding.rs:99-111). -/
def Enc.dtype : Enc → Dtype
  | .mono8 | .rgb8 | .bgr8 | .rgba8 | .bgra8 | .yuv422 | .bayerRggb8 => .u8
  | .mono16 | .depth16 => .u16
  | .mono32f | .rgb32f => .f32

/-- `from_dtype_channels` (image_encoding.rs:115-125). -/
def Enc.infer : Dtype → Nat → Enc
  | .u8, 1 => .mono8
  | .u16, 1 => .mono16
  | .f32, 1 => .mono32f
  | .u8, 3 => .rgb8
  | .f32, 3 => .rgb32f
  | .u8, 4 => .rgba8
  | _, _ => .rgb8

/-- An image: dimensions, encoding, bytes per row and bytes (image.rs:44-47, image_descriptor.rs). -/
structure Image where
  w : Nat
  h : Nat
  enc : Enc
  step : Nat
  data : Bytes

/-- `Image::new_on` with `ImageDescriptor::new` (image.rs:73-92, image_descriptor.rs:89-116): the
row stride of a fresh contiguous tensor, cut to 32 bits. -/
def Image.new (w h : Nat) (e : Enc) : Image :=
  let stride := w * e.channels * e.dtype.size
  let step := if stride > 0 then u32 stride else u32 (w * e.bpp)
  ⟨w, h, e, step, List.replicate (h * w * e.channels * e.dtype.size) 0⟩

/-- Byte offset of a pixel (image.rs:128-129, 150-151), in `usize`. -/
def Image.offset (m : Image) (x y : Nat) : Nat := y * m.step + x * m.enc.bpp

/-- `pixel` (image.rs:123-136). -/
def Image.pixel (m : Image) (x y : Nat) : Option Bytes :=
  if x ≥ m.w ∨ y ≥ m.h then none
  else if m.offset x y + m.enc.bpp ≤ m.data.length then some (slice m.data (m.offset x y) m.enc.bpp)
  else none

/-- `data[o..o + v.len()].copy_from_slice(v)`. -/
def splice (d : Bytes) (o : Nat) (v : Bytes) : Bytes := d.take o ++ v ++ d.drop (o + v.length)

/-- `set_pixel` (image.rs:142-157). -/
def Image.setPixel (m : Image) (x y : Nat) (v : Bytes) : Image :=
  if x ≥ m.w ∨ y ≥ m.h then m
  else if v.length ≠ m.enc.bpp then m
  else if m.offset x y + m.enc.bpp ≤ m.data.length then { m with data := splice m.data (m.offset x y) v }
  else m

/-- `fill` (image.rs:163-173): every whole chunk of `bpp` bytes gets the value; written byte by
byte, byte `i` of the whole chunks is byte `i % bpp` of the value. -/
def Image.fill (m : Image) (v : Bytes) : Image :=
  if v.length ≠ m.enc.bpp then m
  else { m with data := m.data.mapIdx fun i b => if i < m.data.length / m.enc.bpp * m.enc.bpp then v.getD (i % m.enc.bpp) b else b }

/-- `roi` (image.rs:178-202).  `x + w` and `y + h` are checked additions in `u32`. -/
def Image.roi (m : Image) (x y rw rh : Nat) : Option Bytes :=
  if x + rw ≥ 4294967296 ∨ x + rw > m.w ∨ y + rh ≥ 4294967296 ∨ y + rh > m.h then none
  else some ((List.range rh).flatMap fun r =>
    let start := (y + r) * m.step + x * m.enc.bpp
    if start + rw * m.enc.bpp ≤ m.data.length then slice m.data start (rw * m.enc.bpp) else [])

/-- Mutating calls on an image. -/
inductive IOp where
  | set (x y : Nat) (v : Bytes)
  | fill (v : Bytes)

/-- One call. -/
def Image.step1 (m : Image) : IOp → Image
  | .set x y v => m.setPixel x y v
  | .fill v => m.fill v

/-- A sequence of calls. -/
def Image.run (m : Image) (ops : List IOp) : Image := ops.foldl Image.step1 m

/-! ### Specification: one pixel at a time -/

/-- Pixel `(x, y)` (of `n` bytes) after one call. -/
def IOp.pixelAfter (n x y : Nat) (old : Bytes) : IOp → Bytes
  | .set x' y' v => if x' = x ∧ y' = y ∧ v.length = n then v else old
  | .fill v => if v.length = n then v else old

/-- Pixel `(x, y)` after a sequence of calls on a new image (zero bytes to begin with). -/
def wantPixel (n : Nat) (ops : List IOp) (x y : Nat) : Bytes :=
  ops.foldl (fun p o => o.pixelAfter n x y p) (List.replicate n 0)

/-! ### Lemmas -/

/-- The tensor's bytes per pixel are the encoding's, for every encoding. -/
theorem bpp_eq (e : Enc) : e.channels * e.dtype.size = e.bpp ∧ 0 < e.bpp := by cases e <;> decide

theorem slice_get? (d : Bytes) (o k i : Nat) : (slice d o k)[i]? = if i < k then d[o + i]? else none := by
  unfold slice
  rw [List.getElem?_take]
  split
  · rw [List.getElem?_drop]
  · rfl

theorem slice_add (d : Bytes) (o a b : Nat) : slice d o (a + b) = slice d o a ++ slice d (o + a) b := by
  unfold slice
  rw [List.take_add, List.drop_drop]

theorem splice_length (d : Bytes) (o : Nat) (v : Bytes) (h : o + v.length ≤ d.length) :
    (splice d o v).length = d.length := by
  simp [splice]; omega

theorem splice_get? (d : Bytes) (o : Nat) (v : Bytes) (h : o + v.length ≤ d.length) (i : Nat) :
    (splice d o v)[i]? = if o ≤ i ∧ i < o + v.length then v[i - o]? else d[i]? := by
  unfold splice
  rw [List.append_assoc]
  have ht : (d.take o).length = o := by simp; omega
  by_cases h1 : i < o
  · rw [List.getElem?_append_left (by omega), List.getElem?_take, if_pos h1, if_neg (by omega)]
  · rw [List.getElem?_append_right (by omega), ht]
    by_cases h2 : i < o + v.length
    · rw [List.getElem?_append_left (by omega), if_pos ⟨by omega, h2⟩]
    · rw [List.getElem?_append_right (by omega), List.getElem?_drop, if_neg (by omega)]
      congr 1
      omega

/-- The bytes hold the pixels `f`, row by row without gaps. -/
def IHolds (w h n : Nat) (data : Bytes) (f : Nat → Nat → Bytes) : Prop :=
  data.length = h * w * n ∧ ∀ x y, x < w → y < h → slice data ((y * w + x) * n) n = f x y ∧ (f x y).length = n

theorem pixel_end {w h n x y : Nat} (hx : x < w) (hy : y < h) : (y * w + x) * n + n ≤ h * w * n := by
  have h1 : y * w + w ≤ h * w := by
    calc y * w + w = (y + 1) * w := by ring
      _ ≤ h * w := Nat.mul_le_mul_right w hy
  calc (y * w + x) * n + n = (y * w + x + 1) * n := by ring
    _ ≤ h * w * n := Nat.mul_le_mul_right n (by omega)

theorem iholds_set {w h n : Nat} {data : Bytes} {f : Nat → Nat → Bytes} (hh : IHolds w h n data f) {x y : Nat}
    (hx : x < w) (hy : y < h) {v : Bytes} (hv : v.length = n) :
    IHolds w h n (splice data ((y * w + x) * n) v) (fun x' y' => if x = x' ∧ y = y' then v else f x' y') := by
  have hb : (y * w + x) * n + v.length ≤ data.length := by
    rw [hh.1, hv]; exact pixel_end hx hy
  refine ⟨by rw [splice_length _ _ _ hb]; exact hh.1, ?_⟩
  intro x' y' hx' hy'
  constructor
  · apply List.ext_getElem?
    intro k
    rw [slice_get?]
    by_cases hk : k < n
    · rw [if_pos hk, splice_get? _ _ _ hb]
      by_cases hc : x = x' ∧ y = y'
      · obtain ⟨rfl, rfl⟩ := hc
        rw [if_pos (by omega)]
        simp
      · rw [if_neg]
        · have := (hh.2 x' y' hx' hy').1
          have h2 := slice_get? data ((y' * w + x') * n) n k
          rw [if_pos hk] at h2
          rw [← h2, this]
          simp [hc]
        · rintro ⟨h1, h2⟩
          rw [hv] at h2
          have e : (y' * w + x') * n + k = (y * w + x) * n + ((y' * w + x') * n + k - (y * w + x) * n) := by omega
          have := (index_inj (w := n) (x := k) (x' := (y' * w + x') * n + k - (y * w + x) * n)
            (y := y' * w + x') (y' := y * w + x) hk (by omega) e).2
          have := index_inj hx' hx this
          exact hc ⟨this.1.symm, this.2.symm⟩
    · rw [if_neg hk]
      symm
      apply List.getElem?_eq_none
      simp only
      split
      · omega
      · rw [(hh.2 x' y' hx' hy').2]; omega
  · simp only
    split
    · exact hv
    · exact (hh.2 x' y' hx' hy').2

theorem iholds_fill {w h n : Nat} (hn : 0 < n) {data : Bytes} {f : Nat → Nat → Bytes} (hh : IHolds w h n data f) {v : Bytes}
    (hv : v.length = n) :
    IHolds w h n (data.mapIdx fun i b => if i < data.length / n * n then v.getD (i % n) b else b) (fun _ _ => v) := by
  refine ⟨by rw [List.length_mapIdx]; exact hh.1, ?_⟩
  intro x y hx hy
  refine ⟨?_, hv⟩
  apply List.ext_getElem?
  intro k
  rw [slice_get?]
  by_cases hk : k < n
  · have he := pixel_end (n := n) hx hy
    have hl : data.length / n * n = data.length := by
      rw [hh.1, Nat.mul_div_cancel _ hn]
    have hlt : (y * w + x) * n + k < data.length := by rw [hh.1]; omega
    have hm : ((y * w + x) * n + k) % n = k := by
      rw [Nat.mul_comm, Nat.mul_add_mod, Nat.mod_eq_of_lt hk]
    rw [if_pos hk, List.getElem?_mapIdx, List.getElem?_eq_getElem hlt]
    simp only [Option.map_some, hl, if_pos hlt, hm]
    rw [List.getD_eq_getElem?_getD, List.getElem?_eq_getElem (by omega : k < v.length)]
    rfl
  · rw [if_neg hk]
    symm
    apply List.getElem?_eq_none
    show v.length ≤ k
    omega

theorem step_new {w : Nat} (h : Nat) {e : Enc} (hs : w * e.bpp < 4294967296) :
    (Image.new w h e).step = w * e.bpp ∧ (Image.new w h e).data.length = h * w * e.bpp := by
  have hb := (bpp_eq e).1
  have h1 : w * e.channels * e.dtype.size = w * e.bpp := by rw [Nat.mul_assoc, hb]
  have h2 : h * w * e.channels * e.dtype.size = h * w * e.bpp := by rw [Nat.mul_assoc, hb]
  unfold Image.new
  simp only
  rw [h1, h2]
  refine ⟨?_, by simp⟩
  unfold u32
  rw [Nat.mod_eq_of_lt hs]
  split <;> rfl

theorem offset_eq (w x y n : Nat) : y * (w * n) + x * n = (y * w + x) * n := by ring

theorem iholds_run {w h : Nat} {e : Enc} (hs : w * e.bpp < 4294967296) (ops : List IOp) :
    ((Image.new w h e).run ops).w = w ∧ ((Image.new w h e).run ops).h = h ∧ ((Image.new w h e).run ops).enc = e ∧
      ((Image.new w h e).run ops).step = w * e.bpp ∧
      IHolds w h e.bpp ((Image.new w h e).run ops).data (wantPixel e.bpp ops) := by
  have hn := (bpp_eq e).2
  have gen : ∀ (ops : List IOp) (m : Image) (f : Nat → Nat → Bytes), m.w = w → m.h = h → m.enc = e → m.step = w * e.bpp →
      IHolds w h e.bpp m.data f → (m.run ops).w = w ∧ (m.run ops).h = h ∧ (m.run ops).enc = e ∧ (m.run ops).step = w * e.bpp ∧
        IHolds w h e.bpp (m.run ops).data (fun x y => ops.foldl (fun p o => o.pixelAfter e.bpp x y p) (f x y)) := by
    intro ops
    induction ops with
    | nil => intro m f h1 h2 h3 h4 h5; exact ⟨h1, h2, h3, h4, h5⟩
    | cons o os ih =>
      intro m f h1 h2 h3 h4 h5
      cases o with
      | set x y v =>
        have hoff : m.offset x y = (y * w + x) * e.bpp := by
          unfold Image.offset; rw [h4, h3, offset_eq]
        have same : IHolds w h e.bpp m.data f → ¬ (x < w ∧ y < h ∧ v.length = e.bpp) →
            IHolds w h e.bpp m.data (fun x' y' => (IOp.set x y v).pixelAfter e.bpp x' y' (f x' y')) := by
          intro hh hb
          refine ⟨hh.1, fun x' y' hx' hy' => ?_⟩
          have : (IOp.set x y v).pixelAfter e.bpp x' y' (f x' y') = f x' y' := by
            simp only [IOp.pixelAfter]
            rw [if_neg]
            rintro ⟨rfl, rfl, hv⟩
            exact hb ⟨hx', hy', hv⟩
          simp only [this]
          exact hh.2 x' y' hx' hy'
        have e1 : m.run (.set x y v :: os) = Image.run (m.setPixel x y v) os := rfl
        rw [e1]
        by_cases hb : x < w ∧ y < h ∧ v.length = e.bpp
        · have hset : m.setPixel x y v = { m with data := splice m.data ((y * w + x) * e.bpp) v } := by
            unfold Image.setPixel
            rw [h1, h2, h3, hoff, if_neg (by omega), if_neg (by omega), if_pos]
            rw [h5.1]; exact pixel_end hb.1 hb.2.1
          rw [hset]
          refine ih _ (fun x' y' => (IOp.set x y v).pixelAfter e.bpp x' y' (f x' y')) h1 h2 h3 h4 ?_
          have := iholds_set h5 hb.1 hb.2.1 hb.2.2
          refine ⟨this.1, fun x' y' hx' hy' => ?_⟩
          have key : (IOp.set x y v).pixelAfter e.bpp x' y' (f x' y') = if x = x' ∧ y = y' then v else f x' y' := by
            simp only [IOp.pixelAfter, hb.2.2, and_true]
          simp only [key]
          exact this.2 x' y' hx' hy'
        · have hset : m.setPixel x y v = m := by
            unfold Image.setPixel
            rw [h1, h2, h3]
            by_cases c1 : x ≥ w ∨ y ≥ h
            · rw [if_pos c1]
            · rw [if_neg c1, if_pos]
              intro hv
              exact hb ⟨by omega, by omega, hv⟩
          rw [hset]
          exact ih m (fun x' y' => (IOp.set x y v).pixelAfter e.bpp x' y' (f x' y')) h1 h2 h3 h4 (same h5 hb)
      | fill v =>
        have e1 : m.run (.fill v :: os) = Image.run (m.fill v) os := rfl
        rw [e1]
        by_cases hv : v.length = e.bpp
        · have hf : m.fill v = { m with data := m.data.mapIdx fun i b => if i < m.data.length / e.bpp * e.bpp then v.getD (i % e.bpp) b else b } := by
            unfold Image.fill
            rw [h3, if_neg (by simpa using hv)]
          rw [hf]
          refine ih _ (fun x' y' => (IOp.fill v).pixelAfter e.bpp x' y' (f x' y')) h1 h2 h3 h4 ?_
          have := iholds_fill hn h5 hv
          refine ⟨this.1, fun x' y' hx' hy' => ?_⟩
          have key : (IOp.fill v).pixelAfter e.bpp x' y' (f x' y') = v := by simp [IOp.pixelAfter, hv]
          simp only [key]
          exact this.2 x' y' hx' hy'
        · have hf : m.fill v = m := by
            unfold Image.fill
            rw [h3, if_pos hv]
          rw [hf]
          refine ih m (fun x' y' => (IOp.fill v).pixelAfter e.bpp x' y' (f x' y')) h1 h2 h3 h4 ?_
          refine ⟨h5.1, fun x' y' hx' hy' => ?_⟩
          have key : (IOp.fill v).pixelAfter e.bpp x' y' (f x' y') = f x' y' := by simp [IOp.pixelAfter, hv]
          simp only [key]
          exact h5.2 x' y' hx' hy'
  refine gen ops (Image.new w h e) (fun _ _ => List.replicate e.bpp 0) rfl rfl rfl (step_new h hs).1 ?_
  refine ⟨(step_new h hs).2, fun x y hx hy => ⟨?_, by simp⟩⟩
  have hrep : (Image.new w h e).data = List.replicate (h * w * e.bpp) 0 := by
    rw [← (step_new h hs).2]
    simp [Image.new]
  have := pixel_end (n := e.bpp) hx hy
  rw [hrep]
  unfold slice
  rw [List.drop_replicate, List.take_replicate]
  congr 1
  omega

/-! ### C127: pixels read back what was last written to them -/

/-- For every encoding and every image whose rows are shorter than 4 GiB, after any sequence of
`set_pixel` and `fill` calls each pixel of the image holds the bytes last given for it, whatever was
done to other pixels; calls with coordinates outside the image, or with a value of the wrong length,
change nothing; and a pixel outside the image is `None`. -/
theorem pixel_reads_last_write_partial (w h : Nat) (e : Enc) (hs : w * e.bpp < 4294967296) (ops : List IOp) (x y : Nat) :
    ((Image.new w h e).run ops).pixel x y = if x < w ∧ y < h then some (wantPixel e.bpp ops x y) else none := by
  obtain ⟨h1, h2, h3, h4, h5⟩ := iholds_run (h := h) hs ops
  unfold Image.pixel Image.offset
  rw [h1, h2, h3, h4, offset_eq]
  by_cases hb : x < w ∧ y < h
  · rw [if_neg (by omega), if_pos (by rw [h5.1]; exact pixel_end hb.1 hb.2), if_pos hb, (h5.2 x y hb.1 hb.2).1]
  · rw [if_pos (by omega), if_neg hb]

theorem flatMap_congr' {α β : Type} {l : List α} {f g : α → List β} (h : ∀ a ∈ l, f a = g a) : l.flatMap f = l.flatMap g := by
  induction l with
  | nil => rfl
  | cons a l ih =>
    rw [List.flatMap_cons, List.flatMap_cons, h a (List.mem_cons_self ..), ih fun b hb => h b (List.mem_cons_of_mem _ hb)]

theorem slice_rows (d : Bytes) (n o k : Nat) :
    slice d o (k * n) = (List.range k).flatMap fun c => slice d (o + c * n) n := by
  induction k with
  | zero => simp [slice]
  | succ k ih =>
    rw [Nat.succ_mul, slice_add, ih, List.range_succ, List.flatMap_append]
    simp

/-! ### C128: regions of interest -/

/-- A region that lies inside the image is its pixels, row by row, left to right, none missing; any
other region is `None`. -/
theorem roi_is_pixels_partial (w h : Nat) (e : Enc) (hw : w < 4294967296) (hh : h < 4294967296) (hs : w * e.bpp < 4294967296)
    (ops : List IOp) (x y rw rh : Nat) :
    ((Image.new w h e).run ops).roi x y rw rh =
      if x + rw ≤ w ∧ y + rh ≤ h then
        some ((List.range rh).flatMap fun r => (List.range rw).flatMap fun c => wantPixel e.bpp ops (x + c) (y + r))
      else none := by
  obtain ⟨h1, h2, h3, h4, h5⟩ := iholds_run (h := h) hs ops
  unfold Image.roi
  rw [h1, h2, h3, h4]
  by_cases hb : x + rw ≤ w ∧ y + rh ≤ h
  · rw [if_neg (by omega), if_pos hb]
    congr 1
    apply flatMap_congr'
    intro r hr
    rw [List.mem_range] at hr
    simp only
    rw [offset_eq]
    have hend : ((y + r) * w + x) * e.bpp + rw * e.bpp ≤ h * w * e.bpp := by
      have hr1 : (y + r) * w + w ≤ h * w := by
        calc (y + r) * w + w = (y + r + 1) * w := by ring
          _ ≤ h * w := Nat.mul_le_mul_right w (by omega)
      calc ((y + r) * w + x) * e.bpp + rw * e.bpp = ((y + r) * w + x + rw) * e.bpp := by ring
        _ ≤ h * w * e.bpp := Nat.mul_le_mul_right _ (by omega)
    rw [if_pos (by rw [h5.1]; exact hend), slice_rows]
    apply flatMap_congr'
    intro c hc
    rw [List.mem_range] at hc
    rw [← (h5.2 (x + c) (y + r) (by omega) (by omega)).1]
    congr 1
    ring
  · rw [if_pos (by omega), if_neg hb]

/-- An image 2^30 pixels wide in a four-byte encoding has rows of exactly 4 GiB; its bytes-per-row
is recorded as 0, and every row reads the bytes of the first. -/
theorem wide_image_rows_alias :
    (Image.new 1073741824 2 .rgba8).step = 0 ∧
    ∀ (m : Image), m.step = 0 → ∀ x y y', y < m.h → y' < m.h → m.pixel x y = m.pixel x y' := by
  refine ⟨?_, ?_⟩
  · show (if 1073741824 * 4 * 1 > 0 then u32 (1073741824 * 4 * 1) else u32 (1073741824 * 4)) = 0
    decide
  · intro m hm x y y' hy hy'
    unfold Image.pixel Image.offset
    rw [hm]
    by_cases hx : x ≥ m.w
    · rw [if_pos (Or.inl hx), if_pos (Or.inl hx)]
    · have c1 : ¬ (x ≥ m.w ∨ y ≥ m.h) := by omega
      have c2 : ¬ (x ≥ m.w ∨ y' ≥ m.h) := by omega
      rw [if_neg c1, if_neg c2]
      simp

/-! ### Encodings inferred from tensors -/

/-- A tensor made for an encoding gets an inferred encoding with the same bytes per pixel, except
for YUV 4:2:2, whose two-channel tensor is taken for three-byte RGB. -/
theorem inferred_pixel_size (e : Enc) :
    (Enc.infer e.dtype e.channels).bpp = e.bpp ↔ e ≠ .yuv422 := by cases e <;> decide

/-- Inferring loses the channel order and the sensor pattern: exactly these six come back as
themselves. -/
theorem inferred_encoding (e : Enc) :
    Enc.infer e.dtype e.channels = e ↔ e = .mono8 ∨ e = .mono16 ∨ e = .mono32f ∨ e = .rgb8 ∨ e = .rgb32f ∨ e = .rgba8 := by
  cases e <;> decide

/-- The hypotheses are met: a 3×2 RGB image, a write, a refused write and a region read. -/
example : ((Image.new 3 2 .rgb8).run [.fill [9, 9, 9], .set 1 1 [1, 2, 3], .set 3 0 [4, 4, 4], .set 0 0 [5, 5]]).pixel 1 1 = some [1, 2, 3] ∧
    ((Image.new 3 2 .rgb8).run [.fill [9, 9, 9], .set 1 1 [1, 2, 3]]).pixel 0 0 = some [9, 9, 9] ∧
    ((Image.new 3 2 .rgb8).run [.set 1 1 [1, 2, 3]]).roi 1 0 2 2 = some [0, 0, 0, 0, 0, 0, 1, 2, 3, 0, 0, 0] ∧
    ((Image.new 3 2 .rgb8).run [.set 1 1 [1, 2, 3]]).roi 2 0 2 2 = none := by
  decide +kernel

end Horus.Percept
