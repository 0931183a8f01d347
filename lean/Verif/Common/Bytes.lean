/-
Byte strings and little-endian integers, shared by every codec model.

A Rust `&[u8]` / `Vec<u8>` is a `List UInt8`; `x.to_le_bytes()` is `le k x` and
`uN::from_le_bytes([buf[o], ..])` is `leNat` of the slice.
-/
namespace Horus

/-- Rust `&[u8]` / `Vec<u8>`. -/
abbrev Bytes := List UInt8

/-- `to_le_bytes` of a `k`-byte unsigned integer. -/
def le : Nat → Nat → Bytes
  | 0, _ => []
  | k + 1, n => UInt8.ofNat n :: le k (n / 256)

/-- `from_le_bytes`. -/
def leNat : Bytes → Nat
  | [] => 0
  | b :: bs => b.toNat + 256 * leNat bs

/-- The slice `buf[off .. off + k]`; only meaningful (as in Rust, where it would panic
otherwise) when `off + k ≤ buf.length`. -/
def slice (buf : Bytes) (off k : Nat) : Bytes := (buf.drop off).take k

/-- Little-endian read of `k` bytes at `off`. -/
def leAt (buf : Bytes) (off k : Nat) : Nat := leNat (slice buf off k)

@[simp] theorem le_length (k n : Nat) : (le k n).length = k := by
  induction k generalizing n with
  | zero => rfl
  | succ k ih => simp [le, ih]

theorem leNat_le (k n : Nat) : leNat (le k n) = n % 256 ^ k := by
  induction k generalizing n with
  | zero => simp [le, leNat, Nat.mod_one]
  | succ k ih =>
    simp only [le, leNat, ih, UInt8.toNat_ofNat']
    rw [show 256 ^ (k + 1) = 256 * 256 ^ k by rw [Nat.pow_succ, Nat.mul_comm], Nat.mod_mul]

theorem leNat_lt (bs : Bytes) : leNat bs < 256 ^ bs.length := by
  induction bs with
  | nil => simp [leNat]
  | cons b bs ih =>
    have hb : b.toNat < 256 := b.toNat_lt
    have hp : 256 ^ (bs.length + 1) = 256 ^ bs.length * 256 := Nat.pow_succ ..
    simp only [leNat, List.length_cons]
    omega

theorem le_leNat (bs : Bytes) : le bs.length (leNat bs) = bs := by
  induction bs with
  | nil => rfl
  | cons b bs ih =>
    have hb : b.toNat < 256 := b.toNat_lt
    simp only [leNat, List.length_cons, le]
    have h1 : UInt8.ofNat (b.toNat + 256 * leNat bs) = b := by
      apply UInt8.toNat_inj.mp
      simp only [UInt8.toNat_ofNat']
      omega
    have h2 : (b.toNat + 256 * leNat bs) / 256 = leNat bs := by omega
    rw [h1, h2, ih]

theorem slice_length (buf : Bytes) (off k : Nat) (h : off + k ≤ buf.length) :
    (slice buf off k).length = k := by
  simp [slice]; omega

theorem slice_append_right (pre rest : Bytes) (off k : Nat) (h : pre.length ≤ off) :
    slice (pre ++ rest) off k = slice rest (off - pre.length) k := by
  simp [slice, List.drop_append, List.drop_eq_nil_of_le h]

theorem slice_append_left (pre rest : Bytes) (k : Nat) (h : pre.length = k) :
    slice (pre ++ rest) 0 k = pre := by
  subst h; simp [slice]

theorem slice_zero_all (pre : Bytes) (k : Nat) (h : pre.length = k) :
    slice pre 0 k = pre := by
  subst h; simp [slice]

theorem leAt_append_right (pre rest : Bytes) (off k : Nat) (h : pre.length ≤ off) :
    leAt (pre ++ rest) off k = leAt rest (off - pre.length) k := by
  simp [leAt, slice_append_right pre rest off k h]

theorem leAt_le_append (k n : Nat) (rest : Bytes) :
    leAt (le k n ++ rest) 0 k = n % 256 ^ k := by
  simp [leAt, slice_append_left (le k n) rest k (by simp), leNat_le]

theorem leAt_le (k n : Nat) : leAt (le k n) 0 k = n % 256 ^ k := by
  simp [leAt, slice_zero_all (le k n) k (by simp), leNat_le]

theorem slice_append_within (pre rest : Bytes) (off k : Nat) (h : off + k ≤ pre.length) :
    slice (pre ++ rest) off k = slice pre off k := by
  simp only [slice]
  rw [List.drop_append_of_le_length (by omega), List.take_append_of_le_length (by simp; omega)]

theorem leAt_append_within (pre rest : Bytes) (off k : Nat) (h : off + k ≤ pre.length) :
    leAt (pre ++ rest) off k = leAt pre off k := by
  simp [leAt, slice_append_within pre rest off k h]

theorem slice_cons_succ (b : UInt8) (rest : Bytes) (n k : Nat) :
    slice (b :: rest) (n + 1) k = slice rest n k := by simp [slice]

theorem leAt_cons_zero (b : UInt8) (rest : Bytes) : leAt (b :: rest) 0 1 = b.toNat := by
  simp [leAt, slice, leNat]

theorem leAt_cons_succ (b : UInt8) (rest : Bytes) (n k : Nat) :
    leAt (b :: rest) (n + 1) k = leAt rest n k := by simp [leAt, slice]

/-- `buf[off..]` then reading is reading at the shifted offset. -/
theorem leAt_drop (buf : Bytes) (a off k : Nat) : leAt (buf.drop a) off k = leAt buf (a + off) k := by
  simp [leAt, slice, List.drop_drop]

theorem slice_drop (buf : Bytes) (a off k : Nat) : slice (buf.drop a) off k = slice buf (a + off) k := by
  simp [slice, List.drop_drop]

theorem u8_ofNat_toNat (b : UInt8) : UInt8.ofNat b.toNat = b := by simp

end Horus
