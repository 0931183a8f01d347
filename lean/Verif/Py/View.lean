import Verif.Pool.Shape

/-!
The views of shared memory handed to numpy.

Specification: every element of an array that numpy makes from a tensor, image, depth image or point cloud lies inside
the bytes of that object, also when its descriptor came from another process.

Sources: /repo/horus_py/src/tensor.rs:332-395 (`__array_interface__`), 772-823; /repo/horus_py/src/image.rs:207-262;
depth_image.rs:137-175; pointcloud.rs:103-147; /repo/horus_core/src/types/image_descriptor.rs:129-159;
depth_image_descriptor.rs:93-109; pointcloud_descriptor.rs:110-126; /repo/horus_core/src/memory/tensor_pool.rs:1206-1234.

Simplifications: the pool is the addresses from `pb` (not null) to `pb + ps`; numpy is assumed to refuse a view whose
shape and strides differ in length or whose shape has a negative entry, and else to trust it.
-/
namespace Horus.PyView

open Horus.Pool.Shape

/- 2^64. -/
local notation "W" => (18446744073709551616 : Nat)

/-- `x as i64`. -/
def asI64 (n : Nat) : Int := if n < 9223372036854775808 then n else n - 18446744073709551616

/-- What numpy is given: address, shape, strides, element size. -/
structure View where
  base : Nat
  shape : List Int
  strides : List Int
  elem : Nat
  deriving DecidableEq

/-- `TensorPool::data_ptr` of a mapped pool (tensor_pool.rs:1206-1234); null if out of range. -/
def ptr (pb ps : Nat) (t : T) : Nat := match dataRange ps t with
  | some (a, _) => pb + a
  | none => 0

/-- `Tensor.__array_interface__` (tensor.rs:332-395). -/
def tensorExport (pb ps : Nat) (t : T) : Option View :=
  if t.within then some { base := ptr pb ps t, shape := t.shape.map asI64, strides := t.strides.map asI64, elem := t.elem } else none

/-- The export shared by images, depth images and point clouds: the shape comes from the message fields and only
the number of elements is checked (image.rs:228-262, depth_image.rs:149-175, pointcloud.rs:114-147). -/
def fieldExport (pb ps : Nat) (t : T) (shape : List Nat) : Option View :=
  match foldMul 1 shape with
  | some n => if t.countFits n then some { base := ptr pb ps t, shape := shape.map asI64, strides := t.strides.map asI64, elem := t.elem } else none
  | none => none

/-- A dimension as `u32`, zero if the tensor has fewer (image_descriptor.rs:133-149). -/
def dim32 (t : T) (k : Nat) : Nat := if k < t.ndim then t.dims.getD k 0 % 4294967296 else 0

/-- `channels` (image_descriptor.rs:153-159). -/
def channels (t : T) : Nat := if 3 ≤ t.ndim then t.dims.getD 2 0 % 4294967296 else 1

/-- The shape an image shows (image.rs:219-228). -/
def imageShape (t : T) : List Nat :=
  if channels t = 1 then [dim32 t 0, dim32 t 1] else [dim32 t 0, dim32 t 1, channels t]

/-- `Image.__array_interface__` (image.rs:207-262). -/
def imageExport (pb ps : Nat) (t : T) : Option View := fieldExport pb ps t (imageShape t)

/-- `DepthImage.__array_interface__` (depth_image.rs:137-175). -/
def depthExport (pb ps : Nat) (t : T) : Option View := fieldExport pb ps t [dim32 t 0, dim32 t 1]

/-- `PointCloud.__array_interface__` (pointcloud.rs:103-147): the number of points is not cut to 32 bits. -/
def cloudExport (pb ps : Nat) (t : T) : Option View :=
  fieldExport pb ps t [if 0 < t.ndim then t.dims.getD 0 0 else 0, dim32 t 1]

/-! ### Specification -/

/-- numpy takes the view. -/
def accepted (v : View) : Bool := v.shape.length == v.strides.length && v.shape.all fun d => decide (0 ≤ d)

/-- An index into the array. -/
def NIndex : List Int → List Nat → Prop
  | [], [] => True
  | d :: ds, i :: is => (i : Int) < d ∧ NIndex ds is
  | _, _ => False

/-- The offset numpy computes for it. -/
def naddr : List Int → List Nat → Int
  | s :: ss, i :: is => i * s + naddr ss is
  | _, _ => 0

/-- The element at the index lies in the object's bytes in the pool. -/
def Inside (pb : Nat) (t : T) (v : View) (i : List Nat) : Prop :=
  ((pb + t.offset : Nat) : Int) ≤ v.base + naddr v.strides i ∧
    v.base + naddr v.strides i + v.elem ≤ ((pb + t.offset + t.size : Nat) : Int)

/-! ### Proofs -/

theorem asI64_le (n : Nat) : asI64 n ≤ n := by unfold asI64; split <;> omega

theorem nindex_index (l i : List Nat) (h : NIndex (l.map asI64) i) : Index l i := by
  induction l generalizing i with
  | nil => cases i with
    | nil => trivial
    | cons _ _ => exact h
  | cons d l ih =>
    cases i with
    | nil => exact h
    | cons x i =>
      refine ⟨?_, ih i h.2⟩
      have h1 : (x : Int) < asI64 d := h.1
      have h2 := asI64_le d
      omega

theorem naddr_eq (ss i : List Nat) (h : addr ss i < 9223372036854775808) : naddr (ss.map asI64) i = addr ss i := by
  induction ss generalizing i with
  | nil => simp [naddr, addr]
  | cons s ss ih =>
    cases i with
    | nil => simp [naddr, addr]
    | cons x i =>
      simp only [addr] at h
      simp only [List.map_cons, naddr, addr]
      rw [ih i (by omega)]
      push_cast
      rcases Nat.eq_zero_or_pos x with rfl | hx
      · simp
      · have hs : s ≤ x * s := Nat.le_mul_of_pos_left s hx
        have hs' : asI64 s = s := by unfold asI64; rw [if_pos (by omega)]
        rw [hs']

/-- **A tensor's view stays inside it, wherever the descriptor came from**, if the tensor is in the pool. -/
theorem tensor_view_inside (pb ps : Nat) (t : T) (hl : t.dims.length = maxDims ∧ t.strd.length = maxDims)
    (hp : t.offset + t.size ≤ ps) (hps : ps < 9223372036854775808) (v : View) (h : tensorExport pb ps t = some v)
    (i : List Nat) (hi : NIndex v.shape i) : Inside pb t v i := by
  unfold tensorExport at h
  by_cases hw : t.within = true
  · rw [if_pos hw, Option.some.injEq] at h
    subst h
    have h1 := within_sound t hl hw i (nindex_index _ _ hi)
    have h2 := naddr_eq t.strides i (by omega)
    have hb : ptr pb ps t = pb + t.offset := by
      unfold ptr dataRange cadd
      rw [if_pos (by omega)]
      dsimp only
      rw [if_neg (by omega)]
    unfold Inside
    dsimp only
    rw [h2, hb]
    push_cast
    omega
  · rw [if_neg hw] at h
    exact nomatch h

example : tensorExport 4096 1000 sample = some ⟨4160, [4, 3, 2], [24, 8, 4], 4⟩ ∧ sample.offset + sample.size ≤ 1000 := by decide

theorem foldMul_two (a b : Nat) (h : a * b < W) : foldMul 1 [a, b] = some (a * b) ∨ a * b = 0 := by
  rcases Nat.eq_zero_or_pos (a * b) with h0 | h0
  · exact .inr h0
  · left
    have ha : 0 < a := Nat.pos_of_mul_pos_right h0
    have hb : 0 < b := Nat.pos_of_mul_pos_left h0
    have := foldMul_some 1 [a, b] (by simp; omega) (by simpa [prod] using h)
    simpa [prod] using this

/-- **The view of an image, depth image or point cloud stays inside it** if its elements are stored one after the
other in the shape shown, as they are in every such object made by this library. -/
theorem field_view_inside_partial (pb ps lo hi : Nat) (t : T) (hp : Packed lo hi t) (hps : hi ≤ ps) (hW : ps < 9223372036854775808)
    (shape : List Nat) (hs : shape = t.shape) (v : View) (h : fieldExport pb ps t shape = some v) (i : List Nat)
    (hi' : NIndex v.shape i) : Inside pb t v i := by
  subst hs
  unfold fieldExport at h
  split at h
  · rename_i n hn
    split at h
    · rw [Option.some.injEq] at h
      subst h
      have hx := nindex_index _ _ hi'
      have h1 := hp.rows i hx
      have h2 := rank_lt hx
      have h3 : (rank t.shape i + 1) * t.elem ≤ prod t.shape * t.elem := Nat.mul_le_mul_right _ h2
      rw [Nat.add_mul] at h3
      have h4 := hp.size
      have h5 := hp.inside
      have h6 := naddr_eq t.strides i (by omega)
      have hb : ptr pb ps t = pb + t.offset := by
        unfold ptr dataRange cadd
        rw [if_pos (by omega)]
        dsimp only
        rw [if_neg (by omega)]
      unfold Inside
      dsimp only
      rw [h6, hb]
      push_cast
      omega
    · exact nomatch h
  · exact nomatch h

/-- The shape of an image's tensor (image.rs in horus_core/src/memory:83-87). -/
def newShape (h w c : Nat) : List Nat := if c = 1 then [h, w] else [h, w, c]

theorem image_shape_new (off h w c elem : Nat) (he : 0 < elem ∧ elem < W) (hh : h < 4294967296) (hw : w < 4294967296) (hc : c < 4294967296)
    (t : T) (ht : new off (newShape h w c) elem = some t) : imageShape t = newShape h w c ∧ t.shape = newShape h w c := by
  have hl : (newShape h w c).length ≤ maxDims := by unfold newShape; split <;> simp [maxDims]
  obtain ⟨hsh, -, -, -, -⟩ := new_packed off (newShape h w c) elem hl he t ht
  refine ⟨?_, hsh⟩
  have key : t.ndim = (newShape h w c).length ∧ t.dims = pad (newShape h w c) := by
    unfold new at ht
    split at ht
    · exact nomatch ht
    · split at ht
      · exact nomatch ht
      · rw [Option.some.injEq] at ht
        subst ht
        dsimp only
        rw [List.take_of_length_le hl]
        exact ⟨Nat.min_eq_left hl, rfl⟩
  obtain ⟨hn, hd⟩ := key
  unfold newShape at hn hd ⊢
  by_cases h1 : c = 1
  · rw [if_pos h1] at hn hd
    simp only [if_pos h1]
    unfold imageShape channels dim32
    rw [hn, hd]
    simp [pad, Nat.mod_eq_of_lt hh, Nat.mod_eq_of_lt hw]
  · rw [if_neg h1] at hn hd
    simp only [if_neg h1]
    unfold imageShape channels dim32
    rw [hn, hd]
    simp [pad, Nat.mod_eq_of_lt hh, Nat.mod_eq_of_lt hw, Nat.mod_eq_of_lt hc, h1]

/-- **An image made by this library can be viewed, whole, and stays inside its bytes.** -/
theorem image_new_view (pb ps off h w c elem : Nat) (he : 0 < elem ∧ elem < W) (hh : 0 < h ∧ h < 4294967296)
    (hw : 0 < w ∧ w < 4294967296) (hc : 0 < c ∧ c < 4294967296) (t : T) (ht : new off (newShape h w c) elem = some t)
    (hps : off + t.size ≤ ps) (hW : ps < 9223372036854775808) :
    ∃ v, imageExport pb ps t = some v ∧ accepted v = true ∧ v.shape = (newShape h w c).map Int.ofNat ∧
      ∀ i, NIndex v.shape i → Inside pb t v i := by
  have hl : (newShape h w c).length ≤ maxDims := by unfold newShape; split <;> simp [maxDims]
  obtain ⟨hsh, hsz, hoff, hel, hpk⟩ := new_packed off (newShape h w c) elem hl he t ht
  obtain ⟨his, -⟩ := image_shape_new off h w c elem he hh.2 hw.2 hc.2 t ht
  have h0 : 0 ∉ newShape h w c := by unfold newShape; split <;> simp <;> omega
  have hpos : prod (newShape h w c) ≤ prod (newShape h w c) * elem := Nat.le_mul_of_pos_right _ he.1
  have hf : foldMul 1 (newShape h w c) = some (prod (newShape h w c)) := by
    have := foldMul_some 1 (newShape h w c) h0 (by omega)
    rwa [Nat.one_mul] at this
  have hcf : t.countFits (prod (newShape h w c)) = true := by
    rw [countFits_iff t (by omega), hsz, hel]; exact Nat.le_refl _
  have hexp : imageExport pb ps t = some { base := ptr pb ps t, shape := (newShape h w c).map asI64, strides := t.strides.map asI64, elem := t.elem } := by
    unfold imageExport fieldExport
    rw [his, hf]
    dsimp only
    rw [if_pos hcf]
  have hlt : ∀ x ∈ newShape h w c, x < 4294967296 := by
    unfold newShape
    split
    · intro x hx; simp at hx; omega
    · intro x hx; simp at hx; omega
  refine ⟨_, hexp, ?_, ?_, ?_⟩
  · unfold accepted
    rw [Bool.and_eq_true]
    constructor
    · have hst : t.strides.length = t.shape.length := by
        unfold T.shape T.strides
        rw [List.length_take, List.length_take, hpk.lens.1, hpk.lens.2]
      simp only [List.length_map, hst, hsh, beq_self_eq_true]
    · rw [List.all_eq_true]
      intro d hd
      rw [List.mem_map] at hd
      obtain ⟨x, hx, rfl⟩ := hd
      have := hlt x hx
      unfold asI64
      rw [if_pos (by omega)]
      simp
  · dsimp only
    apply List.map_congr_left
    intro x hx
    have := hlt x hx
    unfold asI64
    rw [if_pos (by omega)]
    rfl
  · intro i hi
    exact field_view_inside_partial pb ps off (off + prod (newShape h w c) * elem) t hpk (by omega) hW (imageShape t) (his.trans hsh.symm) _ hexp i hi

/-- **A forged row stride takes an image's view out of the pool**: the image passes the check, numpy takes it, and
its last element is at any distance from the image's one or two bytes.  The same descriptor is refused when
exported as a tensor. -/
theorem forged_stride_escapes (pb ps b : Nat) (hb : 2 ≤ b ∧ b < 9223372036854775808) (hps : 2 ≤ ps) :
    let t : T := ⟨0, 2, 1, 2, [2, 1, 0, 0, 0, 0, 0, 0], [b, 1, 0, 0, 0, 0, 0, 0]⟩
    (∃ v, imageExport pb ps t = some v ∧ accepted v = true ∧ NIndex v.shape [1, 0] ∧ naddr v.strides [1, 0] = b ∧ ¬ Inside pb t v [1, 0]) ∧
      tensorExport pb ps t = none := by
  intro t
  have hi : asI64 b = b := by unfold asI64; rw [if_pos hb.2]
  refine ⟨?_, ?_⟩
  · have hptr : ptr pb ps t = pb := by
      unfold ptr dataRange cadd
      rw [if_pos (show 0 + 2 < W by decide)]
      dsimp only
      rw [if_neg (by show ¬ (0 + 2 > ps); omega)]
      rfl
    refine ⟨⟨pb, [2, 1], [(b : Int), 1], 1⟩, ?_, rfl, ⟨by decide, by decide, trivial⟩, ?_, ?_⟩
    · have h1 : imageShape t = [2, 1] := rfl
      have h2 : foldMul 1 [2, 1] = some 2 := by decide
      have h3 : t.countFits 2 = true := rfl
      unfold imageExport fieldExport
      rw [h1, h2]
      dsimp only
      rw [if_pos h3, hptr]
      show some (View.mk pb [asI64 2, asI64 1] [asI64 b, asI64 1] 1) = _
      rw [hi]
      rfl
    · simp [naddr]
    · rintro ⟨-, h⟩
      simp [naddr, t] at h
      omega
  · have hs : t.shape = [2, 1] := rfl
    have hd : t.strides = [b, 1] := rfl
    have hw : ¬ t.within = true := by
      intro hw
      have := within_sound t ⟨rfl, rfl⟩ hw [1, 0] (by rw [hs]; exact ⟨by decide, by decide, trivial⟩)
      rw [hd] at this
      simp [addr, t] at this
      omega
    unfold tensorExport
    rw [if_neg hw]

/-- **A stride of 2^63 or more reaches backwards**, before the image. -/
theorem forged_stride_backwards (pb ps k : Nat) (hk : 0 < k ∧ k ≤ 9223372036854775808) (hps : 2 ≤ ps) :
    let t : T := ⟨0, 2, 1, 2, [2, 1, 0, 0, 0, 0, 0, 0], [W - k, 1, 0, 0, 0, 0, 0, 0]⟩
    ∃ v, imageExport pb ps t = some v ∧ accepted v = true ∧ NIndex v.shape [1, 0] ∧ naddr v.strides [1, 0] = -(k : Int) := by
  intro t
  have hi : asI64 (W - k) = -(k : Int) := by unfold asI64; rw [if_neg (by omega)]; omega
  have hptr : ptr pb ps t = pb := by
    unfold ptr dataRange cadd
    rw [if_pos (show 0 + 2 < W by decide)]
    dsimp only
    rw [if_neg (by show ¬ (0 + 2 > ps); omega)]
    rfl
  refine ⟨⟨pb, [2, 1], [-(k : Int), 1], 1⟩, ?_, rfl, ⟨by decide, by decide, trivial⟩, ?_⟩
  · have h1 : imageShape t = [2, 1] := rfl
    have h2 : foldMul 1 [2, 1] = some 2 := by decide
    have h3 : t.countFits 2 = true := rfl
    unfold imageExport fieldExport
    rw [h1, h2]
    dsimp only
    rw [if_pos h3, hptr]
    show some (View.mk pb [asI64 2, asI64 1] [asI64 (W - k), asI64 1] 1) = _
    rw [hi]
    rfl
  · simp [naddr]

/-- **A descriptor that lies outside the pool gives numpy the null address.** -/
theorem outside_is_null (pb ps : Nat) (t : T) (h : ps < t.offset + t.size) (v : View)
    (hv : tensorExport pb ps t = some v ∨ imageExport pb ps t = some v) : v.base = 0 := by
  have hn : ptr pb ps t = 0 := by
    unfold ptr dataRange cadd
    by_cases hc : t.offset + t.size < W
    · rw [if_pos hc]
      dsimp only
      rw [if_pos (by omega)]
    · rw [if_neg hc]
  rcases hv with hv | hv
  · unfold tensorExport at hv
    split at hv
    · rw [Option.some.injEq] at hv; subst hv; exact hn
    · exact nomatch hv
  · unfold imageExport fieldExport at hv
    split at hv
    · split at hv
      · rw [Option.some.injEq] at hv; subst hv; exact hn
      · exact nomatch hv
    · exact nomatch hv

example : ∃ v, tensorExport 4096 10 ⟨8, 4, 1, 1, [4, 0, 0, 0, 0, 0, 0, 0], [1, 0, 0, 0, 0, 0, 0, 0]⟩ = some v ∧ v.base = 0 :=
  ⟨_, rfl, by decide⟩

/-- **An image of one channel whose tensor says so in a third dimension cannot be viewed**: two dimensions are shown
with three strides. -/
theorem third_dimension_refused (pb ps : Nat) (t : T) (hn : t.ndim = 3) (hl : t.strd.length = maxDims) (hc : t.dims.getD 2 0 = 1) (v : View)
    (h : imageExport pb ps t = some v) : accepted v = false := by
  have hch : channels t = 1 := by unfold channels; rw [if_pos (by omega), hc]
  have hst : t.strides.length = 3 := by unfold T.strides; rw [List.length_take, hl, hn]; rfl
  unfold imageExport fieldExport imageShape at h
  rw [if_pos hch] at h
  split at h
  · split at h
    · rw [Option.some.injEq] at h
      subst h
      unfold accepted
      simp [hst]
    · exact nomatch h
  · exact nomatch h

example : imageExport 4096 1000 ⟨0, 6, 1, 3, [2, 3, 1, 0, 0, 0, 0, 0], [3, 1, 1, 0, 0, 0, 0, 0]⟩ =
    some ⟨4096, [2, 3], [3, 1, 1], 1⟩ := by decide

/-! ### Adding and removing dimensions of size one -/

/-- `squeeze` (tensor.rs:772-796). -/
def squeezeShape (s : List Nat) : List Nat := let r := s.filter (· ≠ 1); if r = [] then [1] else r

/-- `unsqueeze` (tensor.rs:799-823): the position, counted from the end if negative. -/
def unsqueezeShape (s : List Nat) (dim : Int) : Option (List Nat) :=
  let n : Int := s.length
  let d := if dim < 0 then n + 1 + dim else dim
  if d < 0 ∨ n < d then none else some (s.take d.toNat ++ 1 :: s.drop d.toNat)

theorem prod_append (a b : List Nat) : prod (a ++ b) = prod a * prod b := by
  induction a with
  | nil => simp [prod]
  | cons x a ih => simp only [List.cons_append, prod, ih, Nat.mul_assoc]

/-- **Squeezing and unsqueezing keep the number of elements**; squeezing leaves no dimension of one unless it is the
only one; a dimension inserted at a legal place is there. -/
theorem squeeze_same (s : List Nat) : prod (squeezeShape s) = prod s ∧ (1 ∈ squeezeShape s → squeezeShape s = [1]) := by
  have hf : prod (s.filter (· ≠ 1)) = prod s := by
    induction s with
    | nil => rfl
    | cons x s ih =>
      by_cases h : x = 1
      · rw [List.filter_cons_of_neg (by simpa using h), ih, h, prod, Nat.one_mul]
      · rw [List.filter_cons_of_pos (by simpa using h)]; simp only [prod, ih]
  unfold squeezeShape
  dsimp only
  by_cases h : s.filter (· ≠ 1) = []
  · rw [if_pos h]
    rw [h] at hf
    exact ⟨hf, fun _ => rfl⟩
  · rw [if_neg h]
    refine ⟨hf, fun h1 => ?_⟩
    rw [List.mem_filter] at h1
    exact absurd h1.2 (by decide)

theorem unsqueeze_same (s r : List Nat) (dim : Int) (h : unsqueezeShape s dim = some r) :
    prod r = prod s ∧ r.length = s.length + 1 ∧ r[(if dim < 0 then dim + r.length else dim).toNat]? = some 1 := by
  unfold unsqueezeShape at h
  dsimp only at h
  generalize hd : (if dim < 0 then (s.length : Int) + 1 + dim else dim) = d at h
  by_cases hc : d < 0 ∨ (s.length : Int) < d
  · rw [if_pos hc] at h; exact nomatch h
  rw [if_neg hc, Option.some.injEq] at h
  subst h
  have hlen : (s.take d.toNat ++ 1 :: s.drop d.toNat).length = s.length + 1 := by
    rw [List.length_append, List.length_cons, List.length_take, List.length_drop]; omega
  refine ⟨?_, hlen, ?_⟩
  · rw [prod_append]
    simp only [prod, Nat.one_mul]
    rw [← prod_append, List.take_append_drop]
  · have : (if dim < 0 then dim + ((s.take d.toNat ++ 1 :: s.drop d.toNat).length : Int) else dim) = d := by
      rw [hlen, ← hd]
      split
      · push_cast; omega
      · rfl
    rw [this, List.getElem?_append_right (by rw [List.length_take]; omega), List.length_take]
    rw [show d.toNat - min d.toNat s.length = 0 by omega]
    rfl

example : squeezeShape [1, 3, 1, 4] = [3, 4] ∧ squeezeShape [1, 1] = [1] ∧ unsqueezeShape [3, 4] (-1) = some [3, 4, 1] ∧
    unsqueezeShape [3, 4] 3 = none := by decide

end Horus.PyView
