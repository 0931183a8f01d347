import Mathlib.Tactic.Common
import Verif.Pool.Model
/-
Model of tensor descriptors: horus_core/src/types/tensor.rs (struct 45-83, sanitize_from_shm 113-119,
new 129-182, shape/strides 203-213, addressed_extent_bytes 222-232, element_count_fits 244-249,
descriptor_is_within_allocation 262-267, numel 271-273, is_contiguous 276-289, view 312-334,
slice_first_dim 337-352), of the size computation of TensorPool::alloc (tensor_pool.rs:730-756, align_up
1876-1887) and of the byte range data_slice hands out (tensor_pool.rs:1206-1310).
Simplifications: a 64-bit integer is a natural number, with the reduction modulo 2^64 written where the
release build wraps (plain `*`, `+` and `product`; a debug build panics there instead); the dtype is its
element size; identity fields (pool, slot, generation, device) are not repeated here.
-/
namespace Horus.Pool.Shape

/- 2^64. -/
local notation "W" => (18446744073709551616 : Nat)

/-- MAX_TENSOR_DIMS (types/tensor.rs:21). -/
abbrev maxDims : Nat := 8

/-- The fields of `Tensor` that describe a layout (types/tensor.rs:60-83): the two arrays have eight
entries. -/
structure T where
  offset : Nat
  size : Nat
  elem : Nat
  ndim : Nat
  dims : List Nat
  strd : List Nat
deriving DecidableEq

/-- `shape()` (types/tensor.rs:203-206). -/
def T.shape (t : T) : List Nat := t.dims.take (min t.ndim maxDims)

/-- `strides()` (types/tensor.rs:209-213). -/
def T.strides (t : T) : List Nat := t.strd.take (min t.ndim maxDims)

/-- `checked_mul` on u64. -/
def cmul (a b : Nat) : Option Nat := if a * b < W then some (a * b) else none

/-- `checked_add` on u64. -/
def cadd (a b : Nat) : Option Nat := if a + b < W then some (a + b) else none

/-- `try_fold(1, checked_mul)` (types/tensor.rs:141-145, tensor_pool.rs:734-740). -/
def foldMul : Nat → List Nat → Option Nat
  | acc, [] => some acc
  | acc, d :: ds => match cmul acc d with
    | none => none
    | some a => foldMul a ds

/-- `iter().product()`: wrapping (types/tensor.rs:271-273, 313-314, 346-348). -/
def wprod : List Nat → Nat
  | [] => 1
  | d :: ds => d * wprod ds % W

/-- The row-major strides of the loop at types/tensor.rs:151-157, from the last dimension backwards. -/
def rowStrides (elem : Nat) : List Nat → List Nat
  | [] => []
  | [_] => [elem]
  | _ :: d :: ds => match rowStrides elem (d :: ds) with
    | [] => []
    | s :: ss => s * d % W :: s :: ss

/-- Pad to the eight entries of the array. Source: types/tensor.rs:45-352. -/
def pad (l : List Nat) : List Nat := l ++ List.replicate (maxDims - l.length) 0

/-- `Tensor::new` (types/tensor.rs:129-182); `none` is the panic of the two `expect`s. -/
def new (offset : Nat) (shape : List Nat) (elem : Nat) : Option T :=
  match foldMul 1 shape with
  | none => none
  | some n => match cmul n elem with
    | none => none
    | some size =>
      some { offset := offset, size := size, elem := elem, ndim := min shape.length maxDims, dims := pad (shape.take maxDims), strd := pad (rowStrides elem (shape.take maxDims)) }

/-- `addressed_extent_bytes` (types/tensor.rs:222-232): the loop over zipped dimensions and strides. -/
def extentLoop : Nat → List (Nat × Nat) → Option Nat
  | ext, [] => some ext
  | ext, (d, s) :: r =>
    if d = 0 then some 0
    else match cmul (d - 1) s with
      | none => none
      | some p => match cadd ext p with
        | none => none
        | some e => extentLoop e r

/-- `addressed_extent_bytes` (types/tensor.rs:222-232). -/
def T.extent (t : T) : Option Nat := extentLoop t.elem (t.shape.zip t.strides)

/-- `descriptor_is_within_allocation` (types/tensor.rs:262-267). -/
def T.within (t : T) : Bool := match t.extent with
  | some e => decide (e ≤ t.size)
  | none => false

/-- `element_count_fits` (types/tensor.rs:244-249). -/
def T.countFits (t : T) (n : Nat) : Bool := match cmul n t.elem with
  | some b => decide (b ≤ t.size)
  | none => false

/-- `numel` (types/tensor.rs:271-273). -/
def T.numel (t : T) : Nat := wprod t.shape

/-- The loop of `is_contiguous` (types/tensor.rs:281-288), over the dimensions from last to first. -/
def contigLoop : Nat → List (Nat × Nat) → Bool
  | _, [] => true
  | e, (d, s) :: r => if s ≠ e then false else contigLoop (e * d % W) r

/-- `is_contiguous` (types/tensor.rs:276-289). -/
def T.contiguous (t : T) : Bool :=
  if t.ndim = 0 then true else contigLoop t.elem (t.shape.zip t.strides).reverse

/-- What `view` and `slice_first_dim` can do: refuse, return a descriptor, or panic. Source: types/tensor.rs:45-352. -/
inductive Res
  | refused
  | ok (t : T)
  | panic
deriving DecidableEq

/-- `view` (types/tensor.rs:312-334). -/
def T.view (t : T) (shape : List Nat) : Res :=
  if wprod t.shape ≠ wprod shape then .refused
  else if !t.contiguous then .refused
  else match new t.offset shape t.elem with
    | some t' => .ok t'
    | none => .panic

/-- `slice_first_dim` (types/tensor.rs:337-352); slicing the array with more than eight dimensions
panics. -/
def T.slice (t : T) (start stop : Nat) : Res :=
  if t.ndim = 0 ∨ start ≥ stop ∨ stop > t.dims.headD 0 then .refused
  else if t.ndim > maxDims then .panic
  else
    let dims := (stop - start) :: t.dims.tail
    .ok { t with dims := dims, offset := (t.offset + start * t.strd.headD 0 % W) % W, size := wprod (dims.take t.ndim) * t.elem % W }

/-- `sanitize_from_shm` (types/tensor.rs:113-119); the dtype part is not modelled. -/
def T.sanitize (t : T) : T := { t with ndim := min t.ndim maxDims }

/-- `align_up` (tensor_pool.rs:1876-1887), on 64-bit words. -/
def alignUp (v a : BitVec 64) : BitVec 64 :=
  if a ≤ 1 then v else (v + (a - 1)) &&& ~~~(a - 1)

/-- The size computation of `alloc` (tensor_pool.rs:734-760): bytes described and bytes reserved, or an
error. -/
def allocSize (shape : List Nat) (elem : Nat) (a : BitVec 64) : Option (Nat × Nat) :=
  match foldMul 1 shape with
  | none => none
  | some n => match cmul n elem with
    | none => none
    | some size =>
      let aligned := (alignUp (BitVec.ofNat 64 size) a).toNat
      if aligned < size then none else some (size, aligned)

/-- The byte range `data_slice` returns for a descriptor whose pool, slot and generation are right
(tensor_pool.rs:1206-1233, 1286-1301). -/
def dataRange (poolSize : Nat) (t : T) : Option (Nat × Nat) :=
  match cadd t.offset t.size with
  | none => none
  | some e => if e > poolSize then none else some (t.offset, e)

/-! ### Specification -/

/-- The mathematical product. Ghost or helper of the model of types/tensor.rs:45-352. -/
def prod : List Nat → Nat
  | [] => 1
  | d :: ds => d * prod ds

/-- An index into a shape: one coordinate per dimension, each in range.
Ghost or helper of the model of types/tensor.rs:45-352. -/
def Index : List Nat → List Nat → Prop
  | [], [] => True
  | d :: ds, i :: is => i < d ∧ Index ds is
  | _, _ => False

instance decIndex : (s i : List Nat) → Decidable (Index s i)
  | [], [] => isTrue trivial
  | d :: ds, i :: is => by
    unfold Index
    have := decIndex ds is
    infer_instance
  | [], _ :: _ => isFalse (fun h => h)
  | _ :: _, [] => isFalse (fun h => h)

/-- The byte address, relative to the start of the tensor, that numpy computes for an index.
Ghost or helper of the model of types/tensor.rs:45-352. -/
def addr : List Nat → List Nat → Nat
  | s :: ss, i :: is => i * s + addr ss is
  | _, _ => 0

/-- The rank of an index in row-major order. Ghost or helper of the model of types/tensor.rs:45-352. -/
def rank : List Nat → List Nat → Nat
  | _ :: ds, i :: is => i * prod ds + rank ds is
  | _, _ => 0

/-- A tensor that owns the bytes `[lo, hi)` and whose elements are stored one after the other in row-major
order: what a user means by a contiguous tensor inside an allocation.
Ghost or helper of the model of types/tensor.rs:45-352. -/
structure Packed (lo hi : Nat) (t : T) : Prop where
  ndim : t.ndim ≤ maxDims
  lens : t.dims.length = maxDims ∧ t.strd.length = maxDims
  elem : 0 < t.elem
  size : t.size = prod t.shape * t.elem
  inside : lo ≤ t.offset ∧ t.offset + t.size ≤ hi
  rows : ∀ i, Index t.shape i → addr t.strides i = rank t.shape i * t.elem
  contig : t.contiguous = true

/-! ### Arithmetic -/

theorem foldMul_eq (acc : Nat) (l : List Nat) (n : Nat) (h : foldMul acc l = some n) : n = acc * prod l := by
  induction l generalizing acc with
  | nil => simp [foldMul] at h; simp [prod, h]
  | cons d ds ih =>
    simp only [foldMul, cmul] at h
    split at h
    · simp at h
    · rename_i a ha
      split at ha
      · simp at ha; subst ha; rw [ih _ h, prod, Nat.mul_assoc]
      · simp at ha

theorem wprod_eq (l : List Nat) : wprod l = prod l % W := by
  induction l with
  | nil => rfl
  | cons d ds ih => rw [wprod, prod, ih, Nat.mul_mod_mod]

theorem rowStrides_length (e : Nat) (l : List Nat) : (rowStrides e l).length = l.length := by
  induction l with
  | nil => rfl
  | cons a l ih =>
    cases l with
    | nil => rfl
    | cons d ds =>
      simp only [rowStrides]
      cases h : rowStrides e (d :: ds) with
      | nil => rw [h] at ih; simp at ih
      | cons s ss => rw [h] at ih; simp at ih ⊢; omega

/-- The first stride is the (wrapped) size of a row. -/
theorem rowStrides_head (e a : Nat) (he : e < W) (l : List Nat) :
    ∃ r, rowStrides e (a :: l) = (prod l * e % W) :: r ∧ r = rowStrides e l := by
  induction l generalizing a with
  | nil => exact ⟨[], by simp [rowStrides, prod, Nat.mod_eq_of_lt he], rfl⟩
  | cons d ds ih =>
    obtain ⟨r, h1, h2⟩ := ih d
    refine ⟨rowStrides e (d :: ds), ?_, rfl⟩
    simp only [rowStrides, h1]
    rw [prod, Nat.mod_mul_mod, show d * prod ds * e = prod ds * e * d by rw [Nat.mul_comm d, Nat.mul_right_comm]]

theorem prod_zero_of_mem {l : List Nat} (h : 0 ∈ l) : prod l = 0 := by
  induction l with
  | nil => simp at h
  | cons d ds ih =>
    simp only [List.mem_cons] at h
    rcases h with h | h
    · simp [prod, ← h]
    · simp [prod, ih h]

theorem Index.pos {l i : List Nat} (h : Index l i) : 0 < prod l := by
  induction l generalizing i with
  | nil => simp [prod]
  | cons d ds ih =>
    cases i with
    | nil => exact h.elim
    | cons x xs => exact Nat.mul_pos (by have := h.1; omega) (ih h.2)

theorem rank_lt {l i : List Nat} (h : Index l i) : rank l i < prod l := by
  induction l generalizing i with
  | nil => cases i with
    | nil => simp [rank, prod]
    | cons x xs => exact h.elim
  | cons d ds ih =>
    cases i with
    | nil => exact h.elim
    | cons x xs =>
      have h1 := ih h.2
      have h2 : (x + 1) * prod ds ≤ d * prod ds := Nat.mul_le_mul_right _ h.1
      simp only [rank, prod]
      rw [Nat.add_mul] at h2
      omega

/-- Row-major ranks tell indices apart. -/
theorem rank_inj {l i j : List Nat} (hi : Index l i) (hj : Index l j) (h : rank l i = rank l j) : i = j := by
  induction l generalizing i j with
  | nil => cases i <;> cases j <;> simp_all [Index]
  | cons d ds ih =>
    cases i with
    | nil => exact hi.elim
    | cons x xs =>
      cases j with
      | nil => exact hj.elim
      | cons y ys =>
        simp only [rank] at h
        have h1 := rank_lt hi.2
        have h2 := rank_lt hj.2
        have hxy : x = y := by
          rcases Nat.lt_trichotomy x y with c | c | c
          · have : (x + 1) * prod ds ≤ y * prod ds := Nat.mul_le_mul_right _ c
            rw [Nat.add_mul] at this; omega
          · exact c
          · have : (y + 1) * prod ds ≤ x * prod ds := Nat.mul_le_mul_right _ c
            rw [Nat.add_mul] at this; omega
        subst hxy
        rw [ih hi.2 hj.2 (by omega)]

/-- Row-major strides give row-major addresses, when the whole tensor fits in 64 bits. -/
theorem rowStrides_addr (e : Nat) (he : e < W) (l i : List Nat) (hi : Index l i) (hb : prod l * e < W) :
    addr (rowStrides e l) i = rank l i * e := by
  induction l generalizing i with
  | nil => cases i <;> simp_all [Index, addr, rank, rowStrides]
  | cons d ds ih =>
    cases i with
    | nil => exact hi.elim
    | cons x xs =>
      obtain ⟨r, h1, h2⟩ := rowStrides_head e d he ds
      have hd : 1 ≤ d := by have := hi.1; omega
      have hb2 : prod ds * e < W := by
        refine Nat.lt_of_le_of_lt ?_ hb
        rw [prod, Nat.mul_assoc]; exact Nat.le_mul_of_pos_left _ hd
      rw [h1, h2]
      simp only [addr, rank]
      rw [Nat.mod_eq_of_lt hb2, ih xs hi.2 hb2, Nat.add_mul, Nat.mul_assoc]

theorem contigLoop_append (e : Nat) (l m : List (Nat × Nat)) :
    contigLoop e (l ++ m) = (contigLoop e l && contigLoop (l.foldl (fun a x => a * x.1 % W) e) m) := by
  induction l generalizing e with
  | nil => simp [contigLoop]
  | cons x xs ih =>
    obtain ⟨d, s⟩ := x
    simp only [List.cons_append, contigLoop, List.foldl_cons]
    split
    · simp
    · exact ih _

theorem foldl_rev (e : Nat) (he : e < W) (l m : List Nat) (h : l.length = m.length) :
    (l.zip m).reverse.foldl (fun a x => a * x.1 % W) e = prod l * e % W := by
  induction l generalizing m with
  | nil => simp [prod, Nat.mod_eq_of_lt he]
  | cons d ds ih =>
    cases m with
    | nil => simp at h
    | cons s ss =>
      simp only [List.length_cons, Nat.add_right_cancel_iff] at h
      simp only [List.zip_cons_cons, List.reverse_cons, List.foldl_append, List.foldl_cons, List.foldl_nil]
      rw [ih ss h, prod, Nat.mod_mul_mod, show d * prod ds * e = prod ds * e * d by rw [Nat.mul_comm d, Nat.mul_right_comm]]

/-- The contiguity test accepts exactly the row-major strides. -/
theorem contig_iff (e : Nat) (he : e < W) (l m : List Nat) (h : l.length = m.length) :
    contigLoop e (l.zip m).reverse = true ↔ m = rowStrides e l := by
  induction l generalizing m with
  | nil => cases m <;> simp_all [contigLoop, rowStrides]
  | cons d ds ih =>
    cases m with
    | nil => simp at h
    | cons s ss =>
      simp only [List.length_cons, Nat.add_right_cancel_iff] at h
      obtain ⟨r, h1, h2⟩ := rowStrides_head e d he ds
      simp only [List.zip_cons_cons, List.reverse_cons, contigLoop_append, Bool.and_eq_true, ih ss h, h1, h2]
      rw [foldl_rev e he ds ss h]
      simp only [contigLoop, ne_eq, ite_not, Bool.if_false_right, Bool.and_true, decide_eq_true_eq, List.cons.injEq]
      exact and_comm

/-! ### Creation -/

theorem take_pad (l : List Nat) (h : l.length ≤ maxDims) : (pad l).take (min l.length maxDims) = l := by
  rw [Nat.min_eq_left h]; simp [pad]

/-- C44: a descriptor created for a shape of at most eight dimensions is packed in exactly the bytes its
shape needs, whatever the dimensions (an impossible size is refused by a panic, never wrapped). -/
theorem new_packed (off : Nat) (shape : List Nat) (elem : Nat) (hl : shape.length ≤ maxDims) (he : 0 < elem ∧ elem < W)
    (t : T) (h : new off shape elem = some t) :
    t.shape = shape ∧ t.size = prod shape * elem ∧ t.offset = off ∧ t.elem = elem ∧ Packed off (off + prod shape * elem) t := by
  unfold new at h
  split at h
  · simp at h
  · rename_i n hn
    have hn' := foldMul_eq _ _ _ hn
    rw [Nat.one_mul] at hn'
    split at h
    · simp at h
    · rename_i size hs
      simp only [cmul] at hs
      split at hs
      · rename_i hlt
        simp only [Option.some.injEq] at hs h
        rw [List.take_of_length_le hl] at h
        have hsh : t.shape = shape := by
          subst h
          unfold T.shape
          show (pad shape).take (min (min shape.length maxDims) maxDims) = shape
          rw [Nat.min_eq_left (Nat.min_le_right _ _)]
          exact take_pad shape hl
        have hst : t.strides = rowStrides elem shape := by
          subst h
          unfold T.strides
          show (pad (rowStrides elem shape)).take (min (min shape.length maxDims) maxDims) = _
          rw [Nat.min_eq_left (Nat.min_le_right _ _)]
          have := take_pad (rowStrides elem shape) (by rw [rowStrides_length]; exact hl)
          rwa [rowStrides_length] at this
        have e1 : t.size = prod shape * elem := by subst h; rw [← hn']; exact hs.symm
        have e2 : t.offset = off := by subst h; rfl
        have e3 : t.elem = elem := by subst h; rfl
        have e4 : t.ndim = min shape.length maxDims := by subst h; rfl
        refine ⟨hsh, e1, e2, e3, ⟨by rw [e4]; exact Nat.min_le_right _ _, ?_, by rw [e3]; exact he.1, by rw [hsh, e1, e3],
          by rw [e2, e1]; exact ⟨Nat.le_refl _, Nat.le_refl _⟩, fun i hi => ?_, ?_⟩⟩
        · subst h
          simp only [pad, List.length_append, List.length_replicate, rowStrides_length]
          omega
        · rw [hsh] at hi
          rw [hst, hsh, e3]
          exact rowStrides_addr elem he.2 shape i hi (by rw [← hn']; exact hlt)
        · unfold T.contiguous
          split
          · rfl
          · rw [e3, contig_iff elem he.2 _ _ (by rw [hsh, hst, rowStrides_length]), hsh, hst]
      · simp at hs

/-! ### What a packed tensor addresses -/

/-- C44: every element of a packed tensor lies, with all its bytes, inside the bytes it owns. -/
theorem packed_inside {lo hi : Nat} {t : T} (h : Packed lo hi t) (i : List Nat) (hi' : Index t.shape i) :
    lo ≤ t.offset + addr t.strides i ∧ t.offset + addr t.strides i + t.elem ≤ hi := by
  have h1 := h.rows i hi'
  have h2 := rank_lt hi'
  have h3 : (rank t.shape i + 1) * t.elem ≤ prod t.shape * t.elem := Nat.mul_le_mul_right _ h2
  have h4 := h.size
  have h5 := h.inside
  rw [Nat.add_mul] at h3
  omega

/-- C44: distinct elements of a packed tensor share no byte. -/
theorem packed_apart {lo hi : Nat} {t : T} (h : Packed lo hi t) (i j : List Nat) (hi' : Index t.shape i)
    (hj : Index t.shape j) (hij : i ≠ j) (x y : Nat) (hx : x < t.elem) (hy : y < t.elem) :
    addr t.strides i + x ≠ addr t.strides j + y := by
  rw [h.rows i hi', h.rows j hj]
  intro e
  apply hij
  apply rank_inj hi' hj
  rcases Nat.lt_trichotomy (rank t.shape i) (rank t.shape j) with c | c | c
  · have : (rank t.shape i + 1) * t.elem ≤ rank t.shape j * t.elem := Nat.mul_le_mul_right _ c
    rw [Nat.add_mul] at this; omega
  · exact c
  · have : (rank t.shape j + 1) * t.elem ≤ rank t.shape i * t.elem := Nat.mul_le_mul_right _ c
    rw [Nat.add_mul] at this; omega

/-! ### Slicing -/

theorem shape_cons {lo hi : Nat} {t : T} (h : Packed lo hi t) (hn : t.ndim ≠ 0) :
    ∃ d ds n, t.dims = d :: ds ∧ t.ndim = n + 1 ∧ t.shape = d :: ds.take n := by
  cases hd : t.dims with
  | nil => have := h.lens.1; rw [hd] at this; simp at this
  | cons d ds =>
    obtain ⟨n, hn'⟩ := Nat.exists_eq_succ_of_ne_zero hn
    refine ⟨d, ds, n, rfl, hn', ?_⟩
    unfold T.shape
    rw [Nat.min_eq_left h.ndim, hd, hn']; rfl

theorem strides_cons {lo hi : Nat} {t : T} (h : Packed lo hi t) {n : Nat} (hn : t.ndim = n + 1) :
    ∃ s ss, t.strd = s :: ss ∧ t.strides = s :: ss.take n := by
  cases hd : t.strd with
  | nil => have := h.lens.2; rw [hd] at this; simp at this
  | cons s ss =>
    refine ⟨s, ss, rfl, ?_⟩
    unfold T.strides
    rw [Nat.min_eq_left h.ndim, hd, hn]; rfl

theorem Packed.rowStrides {lo hi : Nat} {t : T} (h : Packed lo hi t) (he : t.elem < W) :
    t.strides = rowStrides t.elem t.shape := by
  have hc := h.contig
  have hlen : t.shape.length = t.strides.length := by
    unfold T.shape T.strides
    simp only [List.length_take, h.lens.1, h.lens.2]
  unfold T.contiguous at hc
  split at hc
  · rename_i h0
    have : t.shape = [] := by unfold T.shape; simp [h0]
    have h2 : t.strides = [] := by unfold T.strides; simp [h0]
    rw [this, h2]; rfl
  · exact (contig_iff t.elem he _ _ hlen).mp hc

/-- C44: a slice of a packed tensor succeeds exactly for a non-empty range of existing rows; it owns bytes
of its parent only, and its element `i` is element `start + i` of the parent. -/
theorem slice_packed {lo hi : Nat} {t : T} (h : Packed lo hi t) (hhi : hi < W) (he : t.elem < W) (start stop : Nat) (t' : T)
    (hs : t.slice start stop = .ok t') :
    Packed t.offset (t.offset + t.size) t' ∧ Packed lo hi t' ∧ t'.elem = t.elem ∧
    ∃ d ds, t.shape = d :: ds ∧ start < stop ∧ stop ≤ d ∧ t'.shape = (stop - start) :: ds ∧
      ∀ x is, Index t'.shape (x :: is) → t'.offset + addr t'.strides (x :: is) = t.offset + addr t.strides ((start + x) :: is) := by
  unfold T.slice at hs
  split at hs
  · simp at hs
  · rename_i hc
    simp only [not_or, Nat.not_le] at hc
    obtain ⟨hn, hlt, hle⟩ := hc
    split at hs
    · simp at hs
    · rename_i hmx
      obtain ⟨d, ds, n, hd, hn', hsh⟩ := shape_cons h hn
      obtain ⟨s, ss, hstr, hst⟩ := strides_cons h hn'
      have hrs := h.rowStrides he
      obtain ⟨r, h1, h2⟩ := rowStrides_head t.elem d he (ds.take n)
      rw [hsh, h1, hst] at hrs
      simp only [List.cons.injEq] at hrs
      obtain ⟨hs1, hs2⟩ := hrs
      simp only [hd, List.headD_cons] at hle
      have hle : stop ≤ d := by omega
      have hstop : stop - start ≤ d := by omega
      simp only [hd, List.tail_cons, hstr, List.headD_cons, Res.ok.injEq] at hs
      have hsz := h.size
      rw [hsh, prod] at hsz
      have hin := h.inside
      -- bytes of a row, as exact numbers
      have hrow : prod (ds.take n) * t.elem < W := by
        have : prod (ds.take n) * t.elem ≤ d * prod (ds.take n) * t.elem := by
          rw [Nat.mul_assoc]; exact Nat.le_mul_of_pos_left _ (by omega)
        omega
      rw [Nat.mod_eq_of_lt hrow] at hs1
      have hst2 : start * s ≤ d * prod (ds.take n) * t.elem := by
        rw [hs1, Nat.mul_assoc]; exact Nat.mul_le_mul_right _ (by omega)
      have hnew : (stop - start) * prod (ds.take n) * t.elem + start * s ≤ d * prod (ds.take n) * t.elem := by
        rw [hs1, Nat.mul_assoc, Nat.mul_assoc, ← Nat.add_mul]
        exact Nat.mul_le_mul_right _ (by omega)
      have e1 : start * s % W = start * s := Nat.mod_eq_of_lt (by omega)
      have e2 : (t.offset + start * s) % W = t.offset + start * s := Nat.mod_eq_of_lt (by omega)
      have e3 : wprod (((stop - start) :: ds).take t.ndim) * t.elem % W = (stop - start) * prod (ds.take n) * t.elem := by
        rw [wprod_eq, Nat.mod_mul_mod, hn', List.take_succ_cons, prod, Nat.mod_eq_of_lt (by omega)]
      rw [e1, e2, e3] at hs
      have f1 : t'.offset = t.offset + start * s := by rw [← hs]
      have f2 : t'.size = (stop - start) * prod (ds.take n) * t.elem := by rw [← hs]
      have f3 : t'.elem = t.elem := by rw [← hs]
      have f4 : t'.ndim = t.ndim := by rw [← hs]
      have f5 : t'.dims = (stop - start) :: ds := by rw [← hs]
      have f6 : t'.strd = t.strd := by rw [← hs, hstr]
      have f7 : t'.shape = (stop - start) :: ds.take n := by
        unfold T.shape; rw [f4, Nat.min_eq_left h.ndim, f5, hn']; rfl
      have f8 : t'.strides = s :: ss.take n := by
        rw [← hst]; unfold T.strides; rw [f4, f6]
      have haddr : ∀ x is, Index t'.shape (x :: is) →
          t'.offset + addr t'.strides (x :: is) = t.offset + addr t.strides ((start + x) :: is) := by
        intro x is _
        rw [f1, f8, hst]
        simp only [addr, Nat.add_mul]
        omega
      have hrows : ∀ i, Index t'.shape i → addr t'.strides i = rank t'.shape i * t'.elem := by
        intro i hi'
        rw [f7] at hi'
        cases i with
        | nil => exact hi'.elim
        | cons x is =>
          have hp := h.rows ((start + x) :: is) (by rw [hsh]; exact ⟨by have := hi'.1; omega, hi'.2⟩)
          rw [hst, hsh] at hp
          rw [f8, f7, f3]
          simp only [addr, rank, Nat.add_mul] at hp ⊢
          have : start * s = start * prod (ds.take n) * t.elem := by rw [hs1, Nat.mul_assoc]
          omega
      have hcont : t'.contiguous = true := by
        unfold T.contiguous
        split
        · rfl
        · rw [f3, contig_iff t.elem he _ _ (by rw [f7, f8]; simp only [List.length_cons, List.length_take]; have := h.lens; rw [hd, hstr] at this; simp at this; omega)]
          rw [f8, f7]
          obtain ⟨r', g1, g2⟩ := rowStrides_head t.elem (stop - start) he (ds.take n)
          rw [g1, g2, ← h2, ← hs2, hs1, Nat.mod_eq_of_lt hrow]
      have hpk : ∀ a b, a ≤ t'.offset → t'.offset + t'.size ≤ b → Packed a b t' := fun a b ha hb =>
        ⟨by rw [f4]; exact h.ndim, by rw [f5, f6]; have := h.lens; rw [hd] at this; simpa using this, by rw [f3]; exact h.elem,
          by rw [f2, f7, f3, prod], ⟨ha, hb⟩, hrows, hcont⟩
      refine ⟨hpk _ _ (by omega) (by omega), hpk _ _ (by omega) (by omega), f3, d, ds.take n, hsh, hlt, hle, f7, haddr⟩

/-- C44: slicing a packed tensor never panics, and refuses only an empty or out-of-range request. -/
theorem slice_succeeds_iff {lo hi : Nat} {t : T} (h : Packed lo hi t) (start stop : Nat) :
    (∃ t', t.slice start stop = .ok t') ↔ start < stop ∧ ∃ d ds, t.shape = d :: ds ∧ stop ≤ d := by
  constructor
  · rintro ⟨t', hs⟩
    unfold T.slice at hs
    split at hs
    · simp at hs
    · rename_i hc
      simp only [not_or, Nat.not_le] at hc
      obtain ⟨d, ds, n, hd, hn', hsh⟩ := shape_cons h hc.1
      refine ⟨hc.2.1, d, _, hsh, ?_⟩
      have := hc.2.2
      rw [hd] at this; simp at this; omega
  · rintro ⟨h1, d, ds, h2, h3⟩
    have hn : t.ndim ≠ 0 := by
      intro e
      unfold T.shape at h2
      rw [e] at h2; simp at h2
    obtain ⟨d', ds', n, hd, hn', hsh⟩ := shape_cons h hn
    rw [hsh] at h2
    simp only [List.cons.injEq] at h2
    unfold T.slice
    have hm := h.ndim
    rw [if_neg (by rw [hd]; simp; omega), if_neg (by omega)]
    exact ⟨_, rfl⟩

/-! ### Reshaping -/

/-- C44: a reshape to at most eight dimensions owns the same bytes, has the requested shape and as many
elements, and keeps the order of elements: the element of a given row-major rank stays where it was. -/
theorem view_packed_partial {lo hi : Nat} {t : T} (h : Packed lo hi t) (hhi : hi < W) (he : t.elem < W) (shape : List Nat)
    (hl : shape.length ≤ maxDims) (t' : T) (hv : t.view shape = .ok t') :
    Packed lo hi t' ∧ t'.elem = t.elem ∧ t'.shape = shape ∧ t'.offset = t.offset ∧ t'.size = t.size ∧ prod t'.shape = prod t.shape ∧
    (∀ i j, Index t.shape i → Index t'.shape j → rank t.shape i = rank t'.shape j → addr t.strides i = addr t'.strides j) := by
  unfold T.view at hv
  split at hv
  · simp at hv
  · rename_i hw
    simp only [ne_eq, not_not] at hw
    split at hv
    · simp at hv
    · split at hv
      · rename_i t'' hnew
        simp only [Res.ok.injEq] at hv
        subst hv
        obtain ⟨a1, a2, a3, a4, a5⟩ := new_packed _ _ _ hl ⟨h.elem, he⟩ _ hnew
        have hsz := h.size
        have hin := h.inside
        have b1 : prod t.shape < W := by
          have : prod t.shape ≤ prod t.shape * t.elem := Nat.le_mul_of_pos_right _ h.elem
          omega
        have b2 : prod shape < W := by
          have c1 : prod shape ≤ prod shape * t.elem := Nat.le_mul_of_pos_right _ h.elem
          have c2 : prod shape * t.elem < W := by
            unfold new at hnew
            split at hnew
            · simp at hnew
            · rename_i n hn
              have hn' := foldMul_eq _ _ _ hn
              split at hnew
              · simp at hnew
              · rename_i sz hs
                simp only [cmul] at hs
                split at hs
                · rename_i hlt; rw [hn', Nat.one_mul] at hlt; exact hlt
                · simp at hs
          omega
        have b3 : prod shape = prod t.shape := by
          rw [wprod_eq, wprod_eq, Nat.mod_eq_of_lt b1, Nat.mod_eq_of_lt b2] at hw
          exact hw.symm
        refine ⟨⟨a5.ndim, a5.lens, a5.elem, a5.size, ⟨by rw [a3]; exact hin.1, by rw [a3, a2, b3, ← hsz]; exact hin.2⟩, a5.rows, a5.contig⟩,
          a4, a1, a3, by rw [a2, b3, hsz], by rw [a1, b3], fun i j hi' hj hr => ?_⟩
        rw [h.rows i hi', a5.rows j hj, hr, a4]
      · simp at hv

theorem foldMul_some (acc : Nat) (l : List Nat) (hp : 0 ∉ l) (h : acc * prod l < W) : foldMul acc l = some (acc * prod l) := by
  induction l generalizing acc with
  | nil => simp [foldMul, prod]
  | cons d ds ih =>
    simp only [List.mem_cons, not_or] at hp
    have hq : 1 ≤ prod ds := by
      clear ih h
      induction ds with
      | nil => simp [prod]
      | cons e es ih =>
        simp only [List.mem_cons, not_or] at hp
        exact Nat.mul_pos (by omega) (ih ⟨hp.1, hp.2.2⟩)
    rw [prod] at h
    have h1 : acc * d < W := by
      refine Nat.lt_of_le_of_lt ?_ h
      rw [← Nat.mul_assoc]; exact Nat.le_mul_of_pos_right _ hq
    simp only [foldMul, cmul, if_pos h1]
    rw [ih _ hp.2 (by rw [Nat.mul_assoc]; exact h), prod, Nat.mul_assoc]

/-- C44: a reshape of a packed tensor to a shape without zero dimensions and with the same number of
elements succeeds. -/
theorem view_succeeds {lo hi : Nat} {t : T} (h : Packed lo hi t) (hhi : hi < W) (shape : List Nat)
    (h0 : 0 ∉ shape) (hp : prod shape = prod t.shape) : ∃ t', t.view shape = .ok t' := by
  have hsz := h.size
  have hin := h.inside
  have b0 : prod t.shape * t.elem < W := by omega
  have b1 : prod t.shape < W := Nat.lt_of_le_of_lt (Nat.le_mul_of_pos_right _ h.elem) b0
  unfold T.view
  rw [if_neg (by rw [wprod_eq, wprod_eq, hp]; simp), if_neg (by rw [h.contig]; simp)]
  have h1 := foldMul_some 1 shape h0 (by rw [Nat.one_mul, hp]; exact b1)
  rw [Nat.one_mul, hp] at h1
  unfold new
  simp only [h1, cmul, if_pos b0]
  exact ⟨_, rfl⟩

/-! ### Chains of views -/

/-- One operation on a tensor. Schedules over the functions of types/tensor.rs:45-352. -/
inductive Op
  | slice (start stop : Nat)
  | view (shape : List Nat)

/-- Apply an operation. Schedules over the functions of types/tensor.rs:45-352. -/
def T.op (t : T) : Op → Res
  | .slice a b => t.slice a b
  | .view s => t.view s

/-- Apply a chain of operations, each to the result of the one before.
Schedules over the functions of types/tensor.rs:45-352. -/
def chain : T → List Op → Res
  | t, [] => .ok t
  | t, o :: os => match t.op o with
    | .ok t' => chain t' os
    | r => r

/-- The operations whose reshapes have at most eight dimensions.
Schedules over the functions of types/tensor.rs:45-352. -/
def Op.small : Op → Prop
  | .slice _ _ => True
  | .view s => s.length ≤ maxDims

/-- C44: whatever chain of slices and reshapes (of at most eight dimensions) is applied to a tensor that
owns the bytes `[lo, hi)`, every element of the result lies inside `[lo, hi)`, and so do the bytes its
descriptor claims. -/
theorem chain_inside_partial {lo hi : Nat} {t : T} (h : Packed lo hi t) (hhi : hi < W) (he : t.elem < W) (os : List Op)
    (ho : ∀ o ∈ os, o.small) (t' : T) (hc : chain t os = .ok t') :
    lo ≤ t'.offset ∧ t'.offset + t'.size ≤ hi ∧
    ∀ i, Index t'.shape i → lo ≤ t'.offset + addr t'.strides i ∧ t'.offset + addr t'.strides i + t'.elem ≤ hi := by
  suffices hp : Packed lo hi t' from ⟨hp.inside.1, hp.inside.2, fun i hi' => packed_inside hp i hi'⟩
  induction os generalizing t with
  | nil => simp only [chain, Res.ok.injEq] at hc; subst hc; exact h
  | cons o os ih =>
    simp only [chain] at hc
    have ho1 := ho o (by simp)
    split at hc
    · rename_i t1 h1
      cases o with
      | slice a b =>
        obtain ⟨_, p, e, _⟩ := slice_packed h hhi he a b t1 h1
        exact ih p (by rw [e]; exact he) (fun o' h' => ho o' (by simp [h'])) hc
      | view s =>
        obtain ⟨p, e, _⟩ := view_packed_partial h hhi he s ho1 t1 h1
        exact ih p (by rw [e]; exact he) (fun o' h' => ho o' (by simp [h'])) hc
    · rename_i hne
      exact absurd hc (by intro e; exact hne _ e)

/-! ### Descriptors from other processes -/

theorem extentLoop_ok (e : Nat) (l : List (Nat × Nat)) (x : Nat) (h : extentLoop e l = some x) (i : List Nat)
    (hi : Index (l.map Prod.fst) i) : e + addr (l.map Prod.snd) i ≤ x := by
  induction l generalizing e i with
  | nil => cases i <;> simp_all [extentLoop, addr]
  | cons p r ih =>
    obtain ⟨d, s⟩ := p
    cases i with
    | nil => exact hi.elim
    | cons y ys =>
      simp only [List.map_cons] at hi ⊢
      simp only [extentLoop] at h
      have hd : d ≠ 0 := by have := hi.1; omega
      rw [if_neg hd] at h
      simp only [cmul, cadd] at h
      split at h
      · simp at h
      · rename_i q hq
        split at hq
        · simp only [Option.some.injEq] at hq
          split at h
          · simp at h
          · rename_i e' he'
            split at he'
            · simp only [Option.some.injEq] at he'
              have := ih e' h ys hi.2
              have h3 : y * s ≤ (d - 1) * s := Nat.mul_le_mul_right _ (by have := hi.1; omega)
              simp only [addr]
              omega
            · simp at he'
        · simp at hq

/-- The extent is reached: by the last element. -/
theorem extentLoop_hit (e : Nat) (he : e < W) (l : List (Nat × Nat)) (hp : ∀ p ∈ l, p.1 ≠ 0) :
    ∃ i, Index (l.map Prod.fst) i ∧
      (extentLoop e l = if e + addr (l.map Prod.snd) i < W then some (e + addr (l.map Prod.snd) i) else none) := by
  induction l generalizing e with
  | nil => exact ⟨[], trivial, by simp [extentLoop, addr, he]⟩
  | cons p r ih =>
    obtain ⟨d, s⟩ := p
    have hd : d ≠ 0 := hp (d, s) (by simp)
    simp only [extentLoop, if_neg hd, cmul, cadd]
    by_cases h1 : (d - 1) * s < W
    · by_cases h2 : e + (d - 1) * s < W
      · obtain ⟨i, hi, hx⟩ := ih (e + (d - 1) * s) h2 (fun p hp' => hp p (by simp [hp']))
        refine ⟨(d - 1) :: i, ⟨by omega, hi⟩, ?_⟩
        simp only [if_pos h1, if_pos h2, hx, addr, List.map_cons, Nat.add_assoc]
      · obtain ⟨i, hi, _⟩ := ih e he (fun p hp' => hp p (by simp [hp']))
        refine ⟨(d - 1) :: i, ⟨by omega, hi⟩, ?_⟩
        simp only [if_pos h1, if_neg h2, addr, List.map_cons]
        rw [if_neg (by omega)]
    · obtain ⟨i, hi, _⟩ := ih e he (fun p hp' => hp p (by simp [hp']))
      refine ⟨(d - 1) :: i, ⟨by omega, hi⟩, ?_⟩
      simp only [if_neg h1, addr, List.map_cons]
      rw [if_neg (by omega)]

theorem zip_fst {a b : List Nat} (h : a.length = b.length) : (a.zip b).map Prod.fst = a := List.map_fst_zip (by omega)
theorem zip_snd {a b : List Nat} (h : a.length = b.length) : (a.zip b).map Prod.snd = b := List.map_snd_zip (by omega)

/-- C44: the check consumers must make on a descriptor that came from another process is sound: if it
accepts, every element the shape and strides address ends within the claimed size — for any dimensions and
strides, including ones whose sums overflow 64 bits. -/
theorem within_sound (t : T) (hl : t.dims.length = maxDims ∧ t.strd.length = maxDims) (h : t.within = true)
    (i : List Nat) (hi : Index t.shape i) : addr t.strides i + t.elem ≤ t.size := by
  have hlen : t.shape.length = t.strides.length := by
    unfold T.shape T.strides; simp only [List.length_take, hl.1, hl.2]
  unfold T.within T.extent at h
  split at h
  · rename_i x hx
    simp only [decide_eq_true_eq] at h
    have := extentLoop_ok _ _ _ hx i (by rw [zip_fst hlen]; exact hi)
    rw [zip_snd hlen] at this
    omega
  · simp at h

/-- C44: and it refuses no harmless descriptor without empty dimensions. -/
theorem within_complete (t : T) (hl : t.dims.length = maxDims ∧ t.strd.length = maxDims) (hs : t.size < W) (he : t.elem < W)
    (h0 : 0 ∉ t.shape) (h : ∀ i, Index t.shape i → addr t.strides i + t.elem ≤ t.size) : t.within = true := by
  have hlen : t.shape.length = t.strides.length := by
    unfold T.shape T.strides; simp only [List.length_take, hl.1, hl.2]
  unfold T.within T.extent
  obtain ⟨i, hi, hx⟩ := extentLoop_hit t.elem he (t.shape.zip t.strides) (by
    intro p hp e
    exact h0 (e ▸ (List.of_mem_zip (a := p.1) (b := p.2) hp).1))
  rw [zip_fst hlen] at hi
  rw [zip_snd hlen] at hx
  have := h i hi
  rw [hx, if_pos (by omega)]
  simp only [decide_eq_true_eq]; omega

/-- C44: packed tensors pass the check. -/
theorem packed_within {lo hi : Nat} {t : T} (h : Packed lo hi t) (hhi : hi < W) (he : t.elem < W) (h0 : 0 ∉ t.shape) :
    t.within = true := by
  have h1 := h.inside
  refine within_complete t h.lens (by omega) he h0 (fun i hi' => ?_)
  have h2 := rank_lt hi'
  have h3 : (rank t.shape i + 1) * t.elem ≤ prod t.shape * t.elem := Nat.mul_le_mul_right _ h2
  have h4 := h.size
  rw [h.rows i hi', Nat.add_mul] at *
  omega

/-- C44: the element-count check accepts exactly when that many elements fit. -/
theorem countFits_iff (t : T) (hs : t.size < W) (n : Nat) : t.countFits n = true ↔ n * t.elem ≤ t.size := by
  unfold T.countFits cmul
  by_cases h : n * t.elem < W
  · simp [h]
  · simp [h]; omega

/-- C44: whatever descriptor another process sends, the bytes handed out for it lie inside the pool. -/
theorem dataRange_bounded (poolSize : Nat) (t : T) (a b : Nat) (h : dataRange poolSize t = some (a, b)) :
    a = t.offset ∧ b = t.offset + t.size ∧ b ≤ poolSize := by
  unfold dataRange cadd at h
  split at h
  · simp at h
  · rename_i e he
    split at he
    · simp only [Option.some.injEq] at he
      split at h
      · simp at h
      · simp only [Option.some.injEq, Prod.mk.injEq] at h; omega
    · simp at he

/-! ### Alignment and the size of an allocation -/

theorem and_not_mask (v k : Nat) (hk : k < 64) (hv : v < W) :
    (BitVec.ofNat 64 v &&& ~~~(BitVec.ofNat 64 (2 ^ k - 1))).toNat = v / 2 ^ k * 2 ^ k := by
  have h2 : (BitVec.ofNat 64 v &&& ~~~(BitVec.ofNat 64 (2 ^ k - 1))) = (BitVec.ofNat 64 v >>> k) <<< k := by
    apply BitVec.eq_of_getLsbD_eq
    intro i hi
    simp only [BitVec.getLsbD_and, BitVec.getLsbD_not, BitVec.getLsbD_ofNat, BitVec.getLsbD_shiftLeft, BitVec.getLsbD_ushiftRight,
      Nat.testBit_two_pow_sub_one, hi, decide_true, Bool.true_and]
    by_cases h : i < k
    · simp [h]
    · simp [h, show k + (i - k) = i by omega, hi]
  rw [h2, BitVec.toNat_shiftLeft, BitVec.toNat_ushiftRight, BitVec.toNat_ofNat, Nat.mod_eq_of_lt hv, Nat.shiftRight_eq_div_pow,
    Nat.shiftLeft_eq]
  apply Nat.mod_eq_of_lt
  have : v / 2 ^ k * 2 ^ k ≤ v := Nat.div_mul_le_self _ _
  omega

/-- C44: for a power-of-two alignment the bit formula is rounding up to a multiple, unless that passes
2^64. -/
theorem alignUp_spec (v k : Nat) (hk : k < 64) (hv : v + (2 ^ k - 1) < W) :
    (alignUp (BitVec.ofNat 64 v) (BitVec.ofNat 64 (2 ^ k))).toNat = (v + (2 ^ k - 1)) / 2 ^ k * 2 ^ k := by
  have hp : 2 ^ k < W := Nat.pow_lt_pow_right (by omega) hk
  unfold alignUp
  by_cases h : k = 0
  · subst h; simp; omega
  · have h1 : 2 ≤ 2 ^ k := by
      obtain ⟨n, rfl⟩ := Nat.exists_eq_succ_of_ne_zero h
      have := Nat.one_le_two_pow (n := n)
      rw [Nat.pow_succ]; omega
    rw [if_neg]
    · have h2 : BitVec.ofNat 64 (2 ^ k) - 1 = BitVec.ofNat 64 (2 ^ k - 1) := by
        apply BitVec.eq_of_toNat_eq
        have hone : (1 : BitVec 64).toNat = 1 := rfl
        simp only [BitVec.toNat_sub, BitVec.toNat_ofNat, hone]
        omega
      have h3 : BitVec.ofNat 64 v + BitVec.ofNat 64 (2 ^ k - 1) = BitVec.ofNat 64 (v + (2 ^ k - 1)) := (BitVec.ofNat_add ..).symm
      rw [h2, h3]
      exact and_not_mask _ k hk hv
    · have hone : (1 : BitVec 64).toNat = 1 := rfl
      rw [BitVec.le_def]
      simp only [BitVec.toNat_ofNat, hone]
      omega

/-- The pool model's rounding is the code's. -/
theorem roundUp_eq (c : Cfg) (k v : Nat) (hk : k < 64) (ha : c.align = 2 ^ k) (hv : v + (2 ^ k - 1) < W) :
    c.roundUp v = (alignUp (BitVec.ofNat 64 v) (BitVec.ofNat 64 (2 ^ k))).toNat := by
  rw [alignUp_spec v k hk hv]
  unfold Cfg.roundUp
  rw [ha]
  split
  · have : 2 ^ k = 1 := by have := Nat.one_le_two_pow (n := k); omega
    rw [this]; simp
  · rfl

/-- C41/C44: when an allocation of a shape is accepted, the size it records is the true size of the shape,
and the bytes it reserves are a multiple of the alignment, at least that size and less than one alignment
more: a huge shape is refused, never reserved as a small region. -/
theorem allocSize_exact (shape : List Nat) (elem k : Nat) (hk : k < 64) (size res : Nat)
    (h : allocSize shape elem (BitVec.ofNat 64 (2 ^ k)) = some (size, res)) :
    size = prod shape * elem ∧ size ≤ res ∧ res < size + 2 ^ k ∧ 2 ^ k ∣ res := by
  unfold allocSize at h
  split at h
  · simp at h
  · rename_i n hn
    have hn' := foldMul_eq _ _ _ hn
    rw [Nat.one_mul] at hn'
    split at h
    · simp at h
    · rename_i sz hs
      simp only [cmul] at hs
      split at hs
      · rename_i hlt
        simp only [Option.some.injEq] at hs
        dsimp only at h
        split at h
        · simp at h
        · rename_i hge
          simp only [Option.some.injEq, Prod.mk.injEq] at h
          obtain ⟨rfl, hr⟩ := h
          have hp1 := Nat.one_le_two_pow (n := k)
          refine ⟨by rw [← hs, hn'], by omega, ?_⟩
          rw [hr] at hge
          by_cases hv : sz + (2 ^ k - 1) < W
          · rw [alignUp_spec sz k hk hv] at hr
            rw [← hr]
            refine ⟨?_, Nat.dvd_mul_left _ _⟩
            have := Nat.div_mul_le_self (sz + (2 ^ k - 1)) (2 ^ k)
            omega
          · -- the sum wraps, so the result is below the size
            exfalso
            have hk0 : k ≠ 0 := by intro e; subst e; simp at hv; omega
            have hp : 2 ^ k < W := Nat.pow_lt_pow_right (by omega) hk
            have h2k : 2 ≤ 2 ^ k := by
              obtain ⟨m, rfl⟩ := Nat.exists_eq_succ_of_ne_zero hk0
              have := Nat.one_le_two_pow (n := m)
              rw [Nat.pow_succ]; omega
            have hle : res ≤ sz + (2 ^ k - 1) - W := by
              rw [← hr]
              unfold alignUp
              have hone : (1 : BitVec 64).toNat = 1 := rfl
              rw [if_neg (by rw [BitVec.le_def]; simp only [BitVec.toNat_ofNat, hone]; omega)]
              rw [BitVec.toNat_and]
              refine Nat.le_trans Nat.and_le_left ?_
              simp only [BitVec.toNat_add, BitVec.toNat_sub, BitVec.toNat_ofNat, hone]
              omega
            omega
      · simp at hs

/-! ### Disagreements -/

/-- C44 is false for more than eight dimensions: a reshape of 256 elements to nine dimensions is accepted
and returns a tensor that has one element. -/
theorem nine_dims_lose_elements :
    ∃ t, new 0 [256] 4 = some t ∧ t.numel = 256 ∧ ∃ t', t.view [1, 1, 1, 1, 1, 1, 1, 1, 256] = .ok t' ∧ t'.numel = 1 := by
  refine ⟨_, rfl, by decide, _, rfl, by decide⟩

/-- A reshape can panic instead of refusing: an empty tensor, and a shape whose product wraps to zero. -/
theorem view_can_panic : ∃ t, new 0 [0] 1 = some t ∧ t.view [4294967296, 4294967296] = .panic :=
  ⟨_, rfl, by decide⟩

/-- The byte check for a descriptor is against the pool, not against the slot: a descriptor with a valid
slot whose offset and size were altered by its sender yields the bytes of a neighbour. -/
theorem forged_range_reaches_neighbour (poolSize a b : Nat) (hb : b ≤ poolSize) (hab : a ≤ b) (hW : poolSize < W) :
    ∃ t : T, dataRange poolSize t = some (a, b) := by
  refine ⟨⟨a, b - a, 1, 0, [], []⟩, ?_⟩
  have h1 : a + (b - a) = b := by omega
  simp only [dataRange, cadd, h1]
  rw [if_pos (by omega)]
  simp only
  rw [if_neg (by omega)]

/-! ### Non-vacuity -/

/-- A 4×3×2 tensor of 4-byte elements at offset 64. -/
def sample : T := ⟨64, 96, 4, 3, [4, 3, 2, 0, 0, 0, 0, 0], [24, 8, 4, 0, 0, 0, 0, 0]⟩

example : new 64 [4, 3, 2] 4 = some sample := by decide
example : Packed 64 160 sample := (new_packed 64 [4, 3, 2] 4 (by decide) (by decide) sample (by decide)).2.2.2.2
example : Index sample.shape [3, 2, 1] ∧ addr sample.strides [3, 2, 1] = 92 := by decide
example : chain sample [.slice 1 3, .view [3, 4], .slice 1 2] = .ok ⟨104, 16, 4, 2, [1, 4, 0, 0, 0, 0, 0, 0], [16, 4, 0, 0, 0, 0, 0, 0]⟩ := by decide
example : sample.within = true ∧ ({ sample with strd := [25, 8, 4, 0, 0, 0, 0, 0] } : T).within = false := by decide
example : allocSize [4, 3, 2] 4 (BitVec.ofNat 64 (2 ^ 6)) = some (96, 128) := by decide
example : allocSize [4294967295, 4294967295] 8 (BitVec.ofNat 64 64) = none := by decide
example : sample.countFits 24 = true ∧ sample.countFits 25 = false := by decide

end Horus.Pool.Shape
