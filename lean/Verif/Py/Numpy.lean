import Mathlib.Tactic.Common
import Mathlib.Tactic.Linarith
import Mathlib.Algebra.BigOperators.Group.List.Basic
/-!
numpy arrays that become horus objects and come back.

Specification: `X.from_numpy(a).to_numpy()` has the shape, the element type and the elements of `a`, for tensors, images, depth images
and point clouds; what cannot be carried is refused.

Sources: /repo/horus_py/src/tensor.rs:229-279, 332-395, 1134-1155; image.rs:21-170, 219-262; depth_image.rs:12-126; pointcloud.rs:45-147;
tensor_convert.rs:13-56, 76-93; /repo/horus_core/src/types/dtype.rs:102-166; image_encoding.rs:19-127; /repo/horus_core/src/memory/image.rs:65-92.

Simplifications: the machine is little-endian; the pool has room; an element is the number its bytes spell; `ascontiguousarray` and
`tobytes` give the elements in C order with the array's own byte order and give a scalar one dimension.
-/
namespace Horus.PyNumpy

/-- `TensorDtype` (dtype.rs). -/
inductive Dt
  | f32 | f64 | f16 | bf16 | i8 | i16 | i32 | i64 | u8 | u16 | u32 | u64 | bool
  deriving DecidableEq, Repr

def Dt.all : List Dt := [.f32, .f64, .f16, .bf16, .i8, .i16, .i32, .i64, .u8, .u16, .u32, .u64, .bool]

/-- `element_size`. -/
def Dt.size : Dt → Nat
  | .f32 | .i32 | .u32 => 4
  | .f64 | .i64 | .u64 => 8
  | .f16 | .bf16 | .i16 | .u16 => 2
  | .i8 | .u8 | .bool => 1

/-- `dtype_to_str` (tensor_convert.rs:39-56); also numpy's `dtype.name`. -/
def Dt.name : Dt → String
  | .f32 => "float32" | .f64 => "float64" | .f16 => "float16" | .bf16 => "bfloat16" | .i8 => "int8" | .i16 => "int16" | .i32 => "int32"
  | .i64 => "int64" | .u8 => "uint8" | .u16 => "uint16" | .u32 => "uint32" | .u64 => "uint64" | .bool => "bool"

/-- The names `parse_dtype` takes (tensor_convert.rs:13-27; dtype.rs `parse`). -/
def dtypeNames : List (String × Dt) :=
  [("float32", .f32), ("f32", .f32), ("float", .f32), ("float64", .f64), ("f64", .f64), ("double", .f64), ("float16", .f16), ("f16", .f16),
   ("half", .f16), ("bfloat16", .bf16), ("bf16", .bf16), ("int8", .i8), ("i8", .i8), ("int16", .i16), ("i16", .i16), ("int32", .i32),
   ("i32", .i32), ("int", .i32), ("int64", .i64), ("i64", .i64), ("long", .i64), ("uint8", .u8), ("u8", .u8), ("byte", .u8),
   ("uint16", .u16), ("u16", .u16), ("uint32", .u32), ("u32", .u32), ("uint64", .u64), ("u64", .u64), ("bool", .bool)]

/-- `parse_dtype` (tensor_convert.rs:13-36). -/
def parseDtype (s : String) : Option Dt := (dtypeNames.find? fun p => p.1 == s.toLower).map (·.2)

/-- `numpy_typestr` (dtype.rs:103-119). -/
def Dt.typestr : Dt → String
  | .f32 => "<f4" | .f64 => "<f8" | .f16 => "<f2" | .bf16 => "<V2" | .i8 => "|i1" | .i16 => "<i2" | .i32 => "<i4" | .i64 => "<i8"
  | .u8 => "|u1" | .u16 => "<u2" | .u32 => "<u4" | .u64 => "<u8" | .bool => "|b1"

/-- `numpy_typestr_to_dtype` (tensor.rs:1134-1155). -/
def ofTypestr (s : String) : Option Dt :=
  (([("<f4", .f32), ("float32", .f32), ("<f8", .f64), ("float64", .f64), ("<f2", .f16), ("float16", .f16), ("|i1", .i8), ("int8", .i8),
     ("<i2", .i16), ("int16", .i16), ("<i4", .i32), ("int32", .i32), ("<i8", .i64), ("int64", .i64), ("|u1", .u8), ("uint8", .u8),
     ("<u2", .u16), ("uint16", .u16), ("<u4", .u32), ("uint32", .u32), ("<u8", .u64), ("uint64", .u64), ("|b1", .bool), ("bool", .bool)] :
    List (String × Dt)).find? fun p => p.1 == s).map (·.2)

/-- `to_dlpack` (dtype.rs:122-140), with DLPack's codes for int, uint, float, bfloat and bool. -/
def Dt.toDlpack : Dt → Nat × Nat × Nat
  | .f32 => (2, 32, 1) | .f64 => (2, 64, 1) | .f16 => (2, 16, 1) | .bf16 => (4, 16, 1) | .i8 => (0, 8, 1) | .i16 => (0, 16, 1)
  | .i32 => (0, 32, 1) | .i64 => (0, 64, 1) | .u8 => (1, 8, 1) | .u16 => (1, 16, 1) | .u32 => (1, 32, 1) | .u64 => (1, 64, 1)
  | .bool => (6, 8, 1)

/-- `from_dlpack` (dtype.rs:143-167). -/
def ofDlpack (code bits lanes : Nat) : Option Dt :=
  if lanes ≠ 1 then none
  else match code, bits with
    | 2, 16 => some .f16 | 2, 32 => some .f32 | 2, 64 => some .f64 | 4, 16 => some .bf16 | 0, 8 => some .i8 | 0, 16 => some .i16
    | 0, 32 => some .i32 | 0, 64 => some .i64 | 1, 8 => some .u8 | 1, 16 => some .u16 | 1, 32 => some .u32 | 1, 64 => some .u64
    | 6, 8 => some .bool | _, _ => none

/-! ### Arrays -/

/-- The type of a numpy array's elements: a known one, or two bytes without meaning, or something else. -/
inductive Ty
  | num (d : Dt)
  | void2
  | other (name : String)
  deriving DecidableEq, Repr

/-- A numpy array: its elements in C order. -/
structure Arr where
  shape : List Nat
  ty : Ty
  big : Bool
  vals : List Nat
  deriving DecidableEq, Repr

/-- The bytes of a number, least first. -/
def le : Nat → Nat → List Nat
  | 0, _ => []
  | k + 1, v => v % 256 :: le k (v / 256)

/-- The number that bytes spell, least first. -/
def unle : List Nat → Nat
  | [] => 0
  | b :: t => b + 256 * unle t

/-- Bytes per element; types not known here are not looked into. -/
def Ty.size : Ty → Nat
  | .num d => d.size
  | .void2 => 2
  | .other _ => 0

/-- One element in the byte order of the array. -/
def elemBytes (k : Nat) (big : Bool) (v : Nat) : List Nat := if big then (le k v).reverse else le k v

/-- `ascontiguousarray(a).tobytes()`. -/
def Arr.bytes (a : Arr) : List Nat := a.vals.flatMap (elemBytes a.ty.size a.big)

/-- numpy's `dtype.name`: it does not tell the byte order. -/
def Ty.name : Ty → String
  | .num d => d.name
  | .void2 => "void16"
  | .other n => n

/-- numpy's `dtype.str`: it does. -/
def Arr.str (a : Arr) : String := match a.ty with
  | .num d => if a.big then ">" ++ String.ofList (d.typestr.toList.drop 1) else d.typestr
  | .void2 => "|V2"
  | .other n => "?" ++ n

/-- `n` elements read from bytes. -/
def elems (k : Nat) : Nat → List Nat → List Nat
  | 0, _ => []
  | n + 1, b => unle (b.take k) :: elems k n (b.drop k)

/-- What a horus object holds. -/
structure Obj where
  shape : List Nat
  dt : Dt
  bytes : List Nat
  deriving DecidableEq, Repr

/-- `to_numpy` (tensor_convert.rs:76-93 over `__array_interface__`): numpy is told the shape and the type string. -/
def toNp (o : Obj) : Arr :=
  { shape := o.shape, ty := if o.dt = .bf16 then .void2 else .num o.dt, big := false, vals := elems o.dt.size o.shape.prod o.bytes }

/-- `Tensor.from_numpy` (tensor.rs:229-279). -/
def tensorOf (a : Arr) : Option Obj :=
  (ofTypestr a.str).map fun d =>
    { shape := if a.shape = [] then [1] else a.shape, dt := d, bytes := a.bytes.take ((if a.shape = [] then [1] else a.shape).prod * d.size) }

/-- `PointCloud.from_numpy` (pointcloud.rs:45-91). -/
def cloudOf (a : Arr) : Option Obj :=
  match a.shape with
  | [n, f] =>
    if n < 4294967296 ∧ f < 4294967296 then
      match parseDtype a.ty.name with
      | some d => if a.bytes.length = n * f * d.size then some { shape := [n, f], dt := d, bytes := a.bytes } else none
      | none => none
    else none
  | _ => none

/-- `DepthImage.from_numpy` (depth_image.rs:71-126). `cvt` is numpy's conversion of a double to a float. -/
def depthOf (cvt : Nat → Nat) (a : Arr) : Option Obj :=
  match a.shape with
  | [h, w] =>
    if h < 4294967296 ∧ w < 4294967296 then
      if a.ty.name = "float64" then
        let b := (a.vals.map cvt).flatMap (le 4)
        if b.length = h * w * 4 then some { shape := [h, w], dt := .f32, bytes := b } else none
      else if a.ty.name = "float32" then
        if a.bytes.length = h * w * 4 then some { shape := [h, w], dt := .f32, bytes := a.bytes } else none
      else if a.ty.name = "uint16" then
        if a.bytes.length = h * w * 2 then some { shape := [h, w], dt := .u16, bytes := a.bytes } else none
      else none
    else none
  | _ => none

/-- `ImageEncoding` (image_encoding.rs:19-43). -/
inductive Enc
  | mono8 | mono16 | rgb8 | bgr8 | rgba8 | bgra8 | yuv422 | mono32f | rgb32f | bayer | depth16
  deriving DecidableEq, Repr

def Enc.all : List Enc := [.mono8, .mono16, .rgb8, .bgr8, .rgba8, .bgra8, .yuv422, .mono32f, .rgb32f, .bayer, .depth16]

/-- `channels` (image_encoding.rs:84-95). -/
def Enc.channels : Enc → Nat
  | .mono8 | .mono16 | .mono32f | .bayer | .depth16 => 1
  | .yuv422 => 2
  | .rgb8 | .bgr8 | .rgb32f => 3
  | .rgba8 | .bgra8 => 4

/-- `tensor_dtype` (image_encoding.rs:99-111). -/
def Enc.dt : Enc → Dt
  | .mono8 | .rgb8 | .bgr8 | .rgba8 | .bgra8 | .yuv422 | .bayer => .u8
  | .mono16 | .depth16 => .u16
  | .mono32f | .rgb32f => .f32

/-- `bytes_per_pixel` (image_encoding.rs:72-80). -/
def Enc.bpp : Enc → Nat
  | .mono8 | .bayer => 1
  | .mono16 | .yuv422 | .depth16 => 2
  | .rgb8 | .bgr8 => 3
  | .rgba8 | .bgra8 | .mono32f => 4
  | .rgb32f => 12

/-- The number of each encoding, in order. -/
def Enc.raw : Enc → Nat
  | .mono8 => 0 | .mono16 => 1 | .rgb8 => 2 | .bgr8 => 3 | .rgba8 => 4 | .bgra8 => 5 | .yuv422 => 6 | .mono32f => 7 | .rgb32f => 8 | .bayer => 9
  | .depth16 => 10

/-- `from_raw` (image_encoding.rs:58-68). -/
def Enc.ofRaw (v : Nat) : Enc := if v ≤ 10 then Enc.all.getD v .rgb8 else .rgb8

/-- `encoding_to_str` (image.rs:44-58). -/
def Enc.name : Enc → String
  | .mono8 => "mono8" | .mono16 => "mono16" | .rgb8 => "rgb8" | .bgr8 => "bgr8" | .rgba8 => "rgba8" | .bgra8 => "bgra8" | .yuv422 => "yuv422"
  | .mono32f => "mono32f" | .rgb32f => "rgb32f" | .bayer => "bayer_rggb8" | .depth16 => "depth16"

/-- `parse_encoding` (image.rs:22-41). -/
def parseEnc (s : String) : Option Enc :=
  (([("mono8", .mono8), ("gray", .mono8), ("grey", .mono8), ("l", .mono8), ("mono16", .mono16), ("gray16", .mono16), ("rgb8", .rgb8), ("rgb", .rgb8),
     ("bgr8", .bgr8), ("bgr", .bgr8), ("rgba8", .rgba8), ("rgba", .rgba8), ("bgra8", .bgra8), ("bgra", .bgra8), ("yuv422", .yuv422), ("yuyv", .yuv422),
     ("mono32f", .mono32f), ("gray32f", .mono32f), ("float", .mono32f), ("rgb32f", .rgb32f), ("bayer_rggb8", .bayer), ("bayer", .bayer),
     ("depth16", .depth16)] : List (String × Enc)).find? fun p => p.1 == s.toLower).map (·.2)

/-- `infer_encoding` (image.rs:61-77). -/
def inferEnc (channels : Nat) (name : String) : Option Enc :=
  if channels = 1 then (if name = "uint8" then some .mono8 else if name = "uint16" then some .mono16 else if name = "float32" then some .mono32f else none)
  else if channels = 3 then (if name = "uint8" then some .rgb8 else if name = "float32" then some .rgb32f else none)
  else if channels = 4 then (if name = "uint8" then some .rgba8 else none)
  else none

/-- The shape of an image (memory/image.rs:83-87, image.rs:221-230). -/
def imgShape (h w : Nat) (e : Enc) : List Nat := if e.channels = 1 then [h, w] else [h, w, e.channels]

/-- `Image.from_numpy` (image.rs:111-170). -/
def imageOf (a : Arr) (enc : Option String) : Option (Enc × Obj) :=
  let go (h w c : Nat) : Option (Enc × Obj) :=
    if h < 4294967296 ∧ w < 4294967296 then
      match (match enc with | some s => parseEnc s | none => inferEnc c a.ty.name) with
      | some e => if a.bytes.length = h * w * e.channels * e.dt.size then some (e, { shape := imgShape h w e, dt := e.dt, bytes := a.bytes }) else none
      | none => none
    else none
  match a.shape with
  | [h, w] => go h w 1
  | [h, w, c] => go h w c
  | _ => none

/-! ### Specification -/

/-- A numpy array as numpy makes it: as many elements as the shape says, each within its type; one-byte elements have no byte order. -/
structure WF (a : Arr) : Prop where
  count : a.vals.length = a.shape.prod
  fits : ∀ v ∈ a.vals, v < 256 ^ a.ty.size
  order : a.ty.size = 1 → a.big = false

/-! ### Proofs -/

theorem le_length (k v : Nat) : (le k v).length = k := by
  induction k generalizing v with
  | zero => rfl
  | succ k ih => simp [le, ih]

theorem unle_le (k v : Nat) (h : v < 256 ^ k) : unle (le k v) = v := by
  induction k generalizing v with
  | zero => simp at h; subst h; rfl
  | succ k ih =>
    have h2 : v / 256 < 256 ^ k := by rw [Nat.div_lt_iff_lt_mul (by norm_num)]; rw [pow_succ] at h; exact h
    simp only [le, unle, ih _ h2]
    omega

theorem elemBytes_length (k : Nat) (b : Bool) (v : Nat) : (elemBytes k b v).length = k := by
  unfold elemBytes; split <;> simp [le_length]

theorem bytes_length (k : Nat) (b : Bool) (vs : List Nat) : (vs.flatMap (elemBytes k b)).length = vs.length * k := by
  induction vs with
  | nil => simp
  | cons v t ih => simp only [List.flatMap_cons, List.length_append, ih, elemBytes_length, List.length_cons]; rw [Nat.succ_mul, Nat.add_comm]

theorem elems_map (k : Nat) (b : Bool) (vs rest : List Nat) :
    elems k vs.length (vs.flatMap (elemBytes k b) ++ rest) = vs.map fun v => unle (elemBytes k b v) := by
  induction vs with
  | nil => rfl
  | cons v t ih =>
    simp only [List.flatMap_cons, List.length_cons, elems, List.map_cons, List.append_assoc]
    have h := elemBytes_length k b v
    rw [List.take_append_of_le_length (by omega), List.take_of_length_le (by omega)]
    rw [List.drop_append_of_le_length (by omega), List.drop_of_length_le (by omega), List.nil_append, ih]

theorem elems_native (k : Nat) (vs : List Nat) (h : ∀ v ∈ vs, v < 256 ^ k) : elems k vs.length (vs.flatMap (elemBytes k false)) = vs := by
  have := elems_map k false vs []
  rw [List.append_nil] at this
  rw [this]
  conv_rhs => rw [← List.map_id vs]
  refine List.map_congr_left fun v hv => ?_
  exact unle_le k v (h v hv)

/-- **Names of element types and of encodings read back**: what an object says of itself can be given to make another like it, in any case of
letters; DLPack's codes likewise; numbers of encodings likewise. -/
theorem names_back : (∀ d, parseDtype d.name = some d ∧ parseDtype d.name.toUpper = some d) ∧ (∀ e, parseEnc e.name = some e ∧ parseEnc e.name.toUpper = some e) ∧
    (∀ d : Dt, ofDlpack d.toDlpack.1 d.toDlpack.2.1 d.toDlpack.2.2 = some d) ∧ (∀ e, Enc.ofRaw e.raw = e) := by
  refine ⟨?_, ?_, ?_, ?_⟩
  · intro d; cases d <;> exact ⟨by decide +kernel, by decide +kernel⟩
  · intro e; cases e <;> exact ⟨by decide +kernel, by decide +kernel⟩
  · intro d; cases d <;> rfl
  · intro e; cases e <;> rfl

/-- **A DLPack type that is taken is the one meant**: its width is that of the elements. -/
theorem dlpack_exact (c b l : Nat) (d : Dt) (h : ofDlpack c b l = some d) : d.toDlpack = (c, b, l) ∧ b = 8 * d.size := by
  unfold ofDlpack at h
  by_cases hl : l = 1
  · subst hl
    simp only [ne_eq, not_true_eq_false, if_false] at h
    split at h <;> cases h <;> exact ⟨rfl, rfl⟩
  · rw [if_pos hl] at h; cases h

/-- The sizes of an encoding agree. -/
theorem enc_sizes (e : Enc) : e.bpp = e.channels * e.dt.size := by cases e <;> rfl

theorem ofTypestr_spec (a : Arr) (d : Dt) (hn : ∀ n, a.ty ≠ .other n) :
    ofTypestr a.str = some d ↔ a.ty = .num d ∧ d ≠ .bf16 ∧ a.big = false := by
  obtain ⟨sh, ty, big, vals⟩ := a
  cases ty with
  | other n => exact absurd rfl (hn n)
  | void2 =>
    have : ofTypestr "|V2" = none := by decide +kernel
    show ofTypestr "|V2" = some d ↔ _
    rw [this]
    simp
  | num e =>
    cases big with
    | false =>
      have h : ofTypestr e.typestr = if e = .bf16 then none else some e := by cases e <;> decide +kernel
      show ofTypestr e.typestr = some d ↔ _
      rw [h]
      by_cases hb : e = .bf16
      · rw [if_pos hb]
        simp only [reduceCtorEq, Ty.num.injEq, false_iff]
        rintro ⟨h1, h2, _⟩
        exact h2 (h1 ▸ hb)
      · rw [if_neg hb]
        simp only [Option.some.injEq, Ty.num.injEq, and_true]
        exact ⟨fun h => ⟨h, h ▸ hb⟩, fun h => h.1⟩
    | true =>
      have h : ofTypestr (">" ++ String.ofList (e.typestr.toList.drop 1)) = none := by
        cases e <;> decide +kernel
      show ofTypestr (">" ++ String.ofList (e.typestr.toList.drop 1)) = some d ↔ _
      rw [h]
      simp

/-- **A tensor made from an array gives the array back**, and exactly the arrays of a known type in this machine's byte order are taken. A
scalar comes back as an array of one element. -/
theorem tensor_back (a : Arr) (hw : WF a) (hn : ∀ n, a.ty ≠ .other n) :
    ((∃ o, tensorOf a = some o) ↔ ∃ d, a.ty = .num d ∧ d ≠ .bf16 ∧ a.big = false) ∧
    (∀ o, tensorOf a = some o → toNp o = { a with shape := if a.shape = [] then [1] else a.shape }) := by
  constructor
  · unfold tensorOf
    constructor
    · rintro ⟨o, ho⟩
      rw [Option.map_eq_some_iff] at ho
      obtain ⟨d, hd, _⟩ := ho
      exact ⟨d, (ofTypestr_spec a d hn).1 hd⟩
    · rintro ⟨d, hd⟩
      rw [(ofTypestr_spec a d hn).2 hd]
      exact ⟨_, rfl⟩
  · intro o ho
    unfold tensorOf at ho
    rw [Option.map_eq_some_iff] at ho
    obtain ⟨d, hd, rfl⟩ := ho
    obtain ⟨h1, h2, h3⟩ := (ofTypestr_spec a d hn).1 hd
    have hp : (if a.shape = [] then [1] else a.shape).prod = a.vals.length := by
      rw [hw.count]; split
      · rename_i h; rw [h]; rfl
      · rfl
    have hb : a.bytes.length = a.vals.length * d.size := by unfold Arr.bytes; rw [bytes_length, h1]; rfl
    unfold toNp
    dsimp only
    rw [if_neg h2, hp, List.take_of_length_le (by omega)]
    have hv : elems d.size a.vals.length a.bytes = a.vals := by
      unfold Arr.bytes
      rw [h1, h3]
      exact elems_native d.size a.vals (by have := hw.fits; rw [h1] at this; exact this)
    rw [hv]
    obtain ⟨sh, ty, big, vals⟩ := a
    dsimp only at *
    subst h1 h3
    rfl

/-- Non-vacuity: a 2 by 2 array. -/
example : WF ⟨[2, 2], .num .f32, false, [1065353216, 0, 7, 4294967295]⟩ ∧
    (tensorOf ⟨[2, 2], .num .f32, false, [1065353216, 0, 7, 4294967295]⟩).map toNp = some ⟨[2, 2], .num .f32, false, [1065353216, 0, 7, 4294967295]⟩ :=
  ⟨⟨rfl, by decide, by decide⟩, by decide +kernel⟩

theorem name_inj (d e : Dt) (h : parseDtype d.name = some e) : d = e := by
  have := (names_back.1 d).1
  rw [this] at h
  exact Option.some.inj h

/-- **A point cloud made from an array gives the array back.**

Missing: arrays in the other byte order (`cloud_swapped`) and bfloat16 ones (`cloud_bf16`). -/
theorem cloud_back_partial (a : Arr) (hw : WF a) (d : Dt) (ht : a.ty = .num d) (hd : d ≠ .bf16) (hb : a.big = false) (o : Obj) (h : cloudOf a = some o) :
    toNp o = a := by
  obtain ⟨sh, ty, big, vals⟩ := a
  dsimp only at ht hb
  subst ht hb
  unfold cloudOf at h
  split at h
  · rename_i n f hs
    dsimp only at hs
    subst hs
    split at h
    · have hp : parseDtype (Ty.name (.num d)) = some d := (names_back.1 d).1
      rw [hp] at h
      dsimp only at h
      split at h
      · cases h
        unfold toNp
        dsimp only
        rw [if_neg hd]
        have hl : [n, f].prod = vals.length := hw.count.symm
        rw [hl]
        have : elems d.size vals.length (Arr.bytes ⟨[n, f], .num d, false, vals⟩) = vals := elems_native d.size vals hw.fits
        rw [this]
      · cases h
    · cases h
  · cases h

/-- **Every array of numbers with two dimensions is taken by a point cloud.** -/
theorem cloud_takes (a : Arr) (hw : WF a) (d : Dt) (ht : a.ty = .num d) (n f : Nat) (hs : a.shape = [n, f]) (hn : n < 4294967296) (hf : f < 4294967296) :
    ∃ o, cloudOf a = some o := by
  have hl : a.bytes.length = n * f * d.size := by
    unfold Arr.bytes
    rw [bytes_length, hw.count, hs, ht]
    simp [Ty.size]
  unfold cloudOf
  rw [hs]
  dsimp only
  rw [if_pos ⟨hn, hf⟩, ht]
  have hp : parseDtype (Ty.name (.num d)) = some d := (names_back.1 d).1
  rw [hp]
  dsimp only
  rw [if_pos hl]
  exact ⟨_, rfl⟩

/-- **Disagreement: an array in the other byte order is taken, and each of its elements comes back with its bytes reversed.** -/
theorem cloud_swapped (a : Arr) (hw : WF a) (d : Dt) (ht : a.ty = .num d) (hb : a.big = true) (o : Obj) (h : cloudOf a = some o) :
    (toNp o).vals = a.vals.map fun v => unle (le d.size v).reverse := by
  obtain ⟨sh, ty, big, vals⟩ := a
  dsimp only at ht hb
  subst ht hb
  unfold cloudOf at h
  split at h
  · rename_i n f hs
    dsimp only at hs
    subst hs
    split at h
    · have hp : parseDtype (Ty.name (.num d)) = some d := (names_back.1 d).1
      rw [hp] at h
      dsimp only at h
      split at h
      · cases h
        unfold toNp
        dsimp only
        have hl : [n, f].prod = vals.length := hw.count.symm
        rw [hl]
        have := elems_map d.size true vals []
        rw [List.append_nil] at this
        exact this
      · cases h
    · cases h
  · cases h

/-- One metre becomes 4.6e-41 metres. -/
theorem metre_swapped : (cloudOf ⟨[1, 1], .num .f32, true, [0x3f800000]⟩).map (fun o => (toNp o).vals) = some [0x0000803f] := by decide +kernel

/-- **Disagreement: a bfloat16 array is taken, and comes back without its type.** A tensor refuses it. -/
theorem cloud_bf16 : (cloudOf ⟨[1, 2], .num .bf16, false, [1, 2]⟩).map (fun o => (toNp o).ty) = some .void2 ∧ tensorOf ⟨[1, 2], .num .bf16, false, [1, 2]⟩ = none := by
  constructor <;> decide +kernel

/-- **A depth image made from an array gives the array back**; doubles come back as the floats numpy makes of them, in either byte order.

Missing: floats and integers in the other byte order (`depth_swapped`). -/
theorem depth_back_partial (cvt : Nat → Nat) (hc : ∀ v, cvt v < 256 ^ 4) (a : Arr) (hw : WF a) (o : Obj) (h : depthOf cvt a = some o)
    (hn : ∀ n, a.ty ≠ .other n) (hb : a.big = false ∨ a.ty = .num .f64) :
    (a.ty = .num .f64 ∧ toNp o = { shape := a.shape, ty := .num .f32, big := false, vals := a.vals.map cvt }) ∨
    (a.ty ≠ .num .f64 ∧ toNp o = a) := by
  obtain ⟨sh, ty, big, vals⟩ := a
  dsimp only at hn hb
  have hnames : ∀ s d, ty.name = s → s = Dt.name d → ty = .num d := by
    intro s d h1 h2
    cases ty with
    | other n => exact absurd rfl (hn n)
    | void2 => rw [h2] at h1; exfalso; revert h1; cases d <;> decide
    | num e =>
      congr 1
      refine name_inj e d ?_
      have : Dt.name e = Dt.name d := h1.trans h2
      rw [this]
      exact (names_back.1 d).1
  unfold depthOf at h
  split at h
  · rename_i hh w hs
    dsimp only at hs
    subst hs
    split at h
    · dsimp only at h
      split at h
      · rename_i hf
        have ht := hnames _ .f64 hf rfl
        subst ht
        split at h
        · rename_i hlen
          cases h
          left
          refine ⟨rfl, ?_⟩
          unfold toNp
          dsimp only
          have hl : [hh, w].prod = (vals.map cvt).length := by rw [List.length_map]; exact hw.count.symm
          have he : elems 4 (vals.map cvt).length ((vals.map cvt).flatMap (le 4)) = vals.map cvt :=
            elems_native 4 (vals.map cvt) (by simpa using fun v _ => hc v)
          rw [hl]
          show Arr.mk _ _ _ (elems 4 _ _) = _
          rw [he]
          rfl
        · cases h
      · split at h
        · rename_i hnf hf
          have ht := hnames _ .f32 hf rfl
          subst ht
          split at h
          · cases h
            right
            refine ⟨by simp, ?_⟩
            have hb' : big = false := by rcases hb with h | h; exact h; cases h
            subst hb'
            unfold toNp
            dsimp only
            have hl : [hh, w].prod = vals.length := hw.count.symm
            rw [hl]
            show Arr.mk _ _ _ (elems 4 _ _) = _
            have : elems 4 vals.length (Arr.bytes ⟨[hh, w], .num .f32, false, vals⟩) = vals := elems_native 4 vals hw.fits
            rw [this]
            rfl
          · cases h
        · split at h
          · rename_i hf
            have ht := hnames _ .u16 hf rfl
            subst ht
            split at h
            · cases h
              right
              refine ⟨by simp, ?_⟩
              have hb' : big = false := by rcases hb with h | h; exact h; cases h
              subst hb'
              unfold toNp
              dsimp only
              have hl : [hh, w].prod = vals.length := hw.count.symm
              rw [hl]
              show Arr.mk _ _ _ (elems 2 _ _) = _
              have : elems 2 vals.length (Arr.bytes ⟨[hh, w], .num .u16, false, vals⟩) = vals := elems_native 2 vals hw.fits
              rw [this]
              rfl
            · cases h
          · cases h
    · cases h
  · cases h

/-- **Disagreement**: a depth of 1000 mm in the other byte order comes back as 59395 mm. -/
theorem depth_swapped : (depthOf id ⟨[1, 1], .num .u16, true, [1000]⟩).map (fun o => (toNp o).vals) = some [59395] := by decide +kernel

/-- **The encoding chosen for an array has the array's channels and element type.** -/
theorem infer_right (c : Nat) (d : Dt) (e : Enc) (h : inferEnc c d.name = some e) : e.channels = c ∧ e.dt = d := by
  unfold inferEnc at h
  have hn : ∀ d' : Dt, d.name = d'.name → d = d' := fun d' hd => name_inj d d' (by rw [hd]; exact (names_back.1 d').1)
  split_ifs at h with h1 h2 h3 h4 h5 h6 h7 h8 h9 <;> cases h
  · exact ⟨h1.symm, (hn .u8 h2).symm⟩
  · exact ⟨h1.symm, (hn .u16 h3).symm⟩
  · exact ⟨h1.symm, (hn .f32 h4).symm⟩
  · exact ⟨h5.symm, (hn .u8 h6).symm⟩
  · exact ⟨h5.symm, (hn .f32 h7).symm⟩
  · exact ⟨h8.symm, (hn .u8 h9).symm⟩

/-- **An image made from an array gives the array back**, if its encoding has the array's channels and element type — as the one chosen for it
does.

Missing: arrays in the other byte order, as for point clouds; encodings of other types (`image_reinterprets`); arrays of shape `(h, w, 1)`,
which come back as `(h, w)` (`image_flattens`). -/
theorem image_back_partial (a : Arr) (hw : WF a) (enc : Option String) (e : Enc) (o : Obj) (h : imageOf a enc = some (e, o)) (ht : a.ty = .num e.dt)
    (hb : a.big = false) (hs : ∃ x y, a.shape = imgShape x y e) : toNp o = a := by
  obtain ⟨sh, ty, big, vals⟩ := a
  dsimp only at ht hb hs
  subst ht hb
  have hdt : e.dt ≠ .bf16 := by cases e <;> decide
  obtain ⟨x, y, rfl⟩ := hs
  have key : o = { shape := imgShape x y e, dt := e.dt, bytes := Arr.bytes ⟨imgShape x y e, .num e.dt, false, vals⟩ } := by
    unfold imageOf at h
    dsimp only at h
    by_cases hc : e.channels = 1
    · have hi : imgShape x y e = [x, y] := if_pos hc
      rw [hi] at h
      dsimp only at h
      split at h
      · split at h
        · split at h
          · injection h with h; injection h with h1 h2; subst h1; rw [← h2, hi]
          · cases h
        · cases h
      · cases h
    · have hi : imgShape x y e = [x, y, e.channels] := if_neg hc
      rw [hi] at h
      dsimp only at h
      split at h
      · split at h
        · split at h
          · injection h with h; injection h with h1 h2; subst h1; rw [← h2, hi]
          · cases h
        · cases h
      · cases h
  rw [key]
  unfold toNp
  dsimp only
  rw [if_neg hdt]
  have hl : (imgShape x y e).prod = vals.length := hw.count.symm
  rw [hl]
  have : elems e.dt.size vals.length (Arr.bytes ⟨imgShape x y e, .num e.dt, false, vals⟩) = vals := elems_native _ vals hw.fits
  rw [this]

/-- Non-vacuity: a colour image of two pixels, without an encoding given. -/
example : imageOf ⟨[1, 2, 3], .num .u8, false, [1, 2, 3, 4, 5, 6]⟩ none = some (.rgb8, ⟨[1, 2, 3], .u8, [1, 2, 3, 4, 5, 6]⟩) := by decide +kernel

/-- **Disagreement**: an array with one channel loses its third dimension. -/
theorem image_flattens : (imageOf ⟨[1, 2, 1], .num .u8, false, [1, 2]⟩ none).map (fun r => (toNp r.2).shape) = some [1, 2] := by decide +kernel

/-- **Disagreement**: with an encoding given, only the number of bytes counts: floats are taken as colours, and two bytes as one number. -/
theorem image_reinterprets :
    (imageOf ⟨[1, 1], .num .f32, false, [0x3f800000]⟩ (some "rgba8")).map (fun r => toNp r.2) = some ⟨[1, 1, 4], .num .u8, false, [0, 0, 128, 63]⟩ ∧
    (imageOf ⟨[1, 1, 2], .num .u8, false, [1, 2]⟩ (some "depth16")).map (fun r => toNp r.2) = some ⟨[1, 1], .num .u16, false, [513]⟩ := by
  constructor <;> decide +kernel

end Horus.PyNumpy
