import Verif.Mac.Model
/-
FIPS 180-4 SHA-256, RFC 2104 HMAC and RFC 8018 PBKDF2 (one output block), written from the
standards, independently of the streaming implementation. Shares with the model only the byte and
word primitives (`rotr`, `be32At`, `be32`, `be64`) and the record of eight words.
-/
namespace Horus.Mac.Spec
open Horus.Mac

/-- FIPS 180-4 §4.1.2. -/
def Ch (x y z : UInt32) : UInt32 := (x &&& y) ^^^ (~~~ x &&& z)
/-- FIPS 180-4 §4.1.2. -/
def Maj (x y z : UInt32) : UInt32 := (x &&& y) ^^^ (x &&& z) ^^^ (y &&& z)
/-- FIPS 180-4 §4.1.2. -/
def Sigma0 (x : UInt32) : UInt32 := rotr x 2 ^^^ rotr x 13 ^^^ rotr x 22
/-- FIPS 180-4 §4.1.2. -/
def Sigma1 (x : UInt32) : UInt32 := rotr x 6 ^^^ rotr x 11 ^^^ rotr x 25
/-- FIPS 180-4 §4.1.2. -/
def sigma0 (x : UInt32) : UInt32 := rotr x 7 ^^^ rotr x 18 ^^^ (x >>> 3)
/-- FIPS 180-4 §4.1.2. -/
def sigma1 (x : UInt32) : UInt32 := rotr x 17 ^^^ rotr x 19 ^^^ (x >>> 10)

/-- FIPS 180-4 §6.2.2 step 1: the message schedule as a function of the index. -/
def W (block : Bytes) (t : Nat) : UInt32 :=
  if t < 16 then be32At block (4 * t)
  else sigma1 (W block (t - 2)) + W block (t - 7) + sigma0 (W block (t - 15)) + W block (t - 16)
termination_by t

/-- The first primes. -/
def primes : List Nat :=
  [2,3,5,7,11,13,17,19,23,29,31,37,41,43,47,53,59,61,67,71,73,79,83,89,97,101,103,107,109,113,127,
   131,137,139,149,151,157,163,167,173,179,181,191,193,197,199,211,223,227,229,233,239,241,251,257,
   263,269,271,277,281,283,293,307,311]

/-- `x` is the first 32 bits of the fractional part of the cube root of `p`. -/
def IsCubeFrac (p : Nat) (x : UInt32) : Prop :=
  ∃ n ≤ 7, (n * 2^32 + x.toNat)^3 ≤ p * 2^96 ∧ p * 2^96 < (n * 2^32 + x.toNat + 1)^3

/-- `x` is the first 32 bits of the fractional part of the square root of `p`. -/
def IsSquareFrac (p : Nat) (x : UInt32) : Prop :=
  ∃ n ≤ 5, (n * 2^32 + x.toNat)^2 ≤ p * 2^64 ∧ p * 2^64 < (n * 2^32 + x.toNat + 1)^2

/-- FIPS 180-4 §6.2.2 step 3. `k` is the table of round constants. -/
def rounds (k : Nat → UInt32) (block : Bytes) (h : H8) : Nat → H8
  | 0 => h
  | t + 1 =>
    let s := rounds k block h t
    let T1 := s.h + Sigma1 s.e + Ch s.e s.f s.g + k t + W block t
    let T2 := Sigma0 s.a + Maj s.a s.b s.c
    ⟨T1 + T2, s.a, s.b, s.c, s.d + T1, s.e, s.f, s.g⟩

/-- FIPS 180-4 §6.2.2: one block. -/
def block (k : Nat → UInt32) (h : H8) (b : Bytes) : H8 :=
  let s := rounds k b h 64
  ⟨s.a + h.a, s.b + h.b, s.c + h.c, s.d + h.d, s.e + h.e, s.f + h.f, s.g + h.g, s.h + h.h⟩

/-- §5.2.1: cut into 64-byte blocks (an incomplete last block is dropped). -/
def blocks (m : Bytes) : List Bytes :=
  if 64 ≤ m.length then m.take 64 :: blocks (m.drop 64) else []
termination_by m.length
decreasing_by simp only [List.length_drop]; omega

/-- §5.1.1: a one bit, the least number of zero bits that leaves 64 bits of the last block, then
the length in bits. -/
def pad (m : Bytes) : Bytes :=
  m ++ [0x80] ++ List.replicate ((119 - m.length % 64) % 64) 0 ++ be64 (UInt64.ofNat (8 * m.length))

/-- FIPS 180-4 SHA-256. -/
def SHA256 (k : Nat → UInt32) (iv : H8) (m : Bytes) : Bytes :=
  let h := (blocks (pad m)).foldl (block k) iv
  be32 h.a ++ be32 h.b ++ be32 h.c ++ be32 h.d ++ be32 h.e ++ be32 h.f ++ be32 h.g ++ be32 h.h

/-- RFC 2104: `H(K XOR opad, H(K XOR ipad, text))`, block size 64, for any hash. -/
def HMAC (H : Bytes → Bytes) (key text : Bytes) : Bytes :=
  let k := if key.length > 64 then H key else key
  let k0 := k ++ List.replicate (64 - k.length) 0
  H (k0.map (· ^^^ 0x5c) ++ H (k0.map (· ^^^ 0x36) ++ text))

/-- RFC 8018 §5.2: U_1 = PRF(P, S ‖ INT(1)), U_{i+1} = PRF(P, U_i). -/
def U (prf : Bytes → Bytes → Bytes) (P S : Bytes) : Nat → Bytes
  | 0 => prf P (S ++ [0, 0, 0, 1])
  | i + 1 => prf P (U prf P S i)

/-- RFC 8018 §5.2: T_1 = U_1 xor ... xor U_c (c = n + 1). -/
def T (prf : Bytes → Bytes → Bytes) (P S : Bytes) : Nat → Bytes
  | 0 => U prf P S 0
  | n + 1 => List.zipWith (· ^^^ ·) (T prf P S n) (U prf P S (n + 1))

end Horus.Mac.Spec
