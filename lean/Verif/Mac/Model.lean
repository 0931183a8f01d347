import Verif.Common.Bytes
/-
Model of horus_net/src/mac.rs: streaming SHA-256, HMAC-SHA256, constant-time comparison and key
derivation. Everything is modelled at the level of the code's own operations; panics (slice index
out of range) cannot be expressed by the list operations used here, so the invariants that rule
them out (buffer length 64, `buf_len < 64`) are proved in Lemmas.lean.
-/
namespace Horus.Mac

/-- mac.rs:44 SHA256_BLOCK. -/
abbrev BLOCK : Nat := 64

/-- mac.rs:46-55. -/
def K : List UInt32 := [
    0x428a2f98, 0x71374491, 0xb5c0fbcf, 0xe9b5dba5, 0x3956c25b, 0x59f111f1, 0x923f82a4, 0xab1c5ed5,
    0xd807aa98, 0x12835b01, 0x243185be, 0x550c7dc3, 0x72be5d74, 0x80deb1fe, 0x9bdc06a7, 0xc19bf174,
    0xe49b69c1, 0xefbe4786, 0x0fc19dc6, 0x240ca1cc, 0x2de92c6f, 0x4a7484aa, 0x5cb0a9dc, 0x76f988da,
    0x983e5152, 0xa831c66d, 0xb00327c8, 0xbf597fc7, 0xc6e00bf3, 0xd5a79147, 0x06ca6351, 0x14292967,
    0x27b70a85, 0x2e1b2138, 0x4d2c6dfc, 0x53380d13, 0x650a7354, 0x766a0abb, 0x81c2c92e, 0x92722c85,
    0xa2bfe8a1, 0xa81a664b, 0xc24b8b70, 0xc76c51a3, 0xd192e819, 0xd6990624, 0xf40e3585, 0x106aa070,
    0x19a4c116, 0x1e376c08, 0x2748774c, 0x34b0bcb5, 0x391c0cb3, 0x4ed8aa4a, 0x5b9cca4f, 0x682e6ff3,
    0x748f82ee, 0x78a5636f, 0x84c87814, 0x8cc70208, 0x90befffa, 0xa4506ceb, 0xbef9a3f7, 0xc67178f2]

/-- The `[u32; 8]` chaining value. -/
structure H8 where
  a : UInt32
  b : UInt32
  c : UInt32
  d : UInt32
  e : UInt32
  f : UInt32
  g : UInt32
  h : UInt32
deriving DecidableEq, Repr

/-- mac.rs:69-72 initial chaining value. -/
def IV : H8 :=
  ⟨0x6a09e667, 0xbb67ae85, 0x3c6ef372, 0xa54ff53a, 0x510e527f, 0x9b05688c, 0x1f83d9ab, 0x5be0cd19⟩

/-- `u32::rotate_right`, for 0 < n < 32. -/
def rotr (x : UInt32) (n : UInt32) : UInt32 := (x >>> n) ||| (x <<< (32 - n))

/-- `u32::from_be_bytes` of bytes i..i+4. -/
def be32At (b : Bytes) (i : Nat) : UInt32 :=
  ((b.getD i 0).toUInt32 <<< 24) ||| ((b.getD (i+1) 0).toUInt32 <<< 16) |||
  ((b.getD (i+2) 0).toUInt32 <<< 8) ||| (b.getD (i+3) 0).toUInt32

/-- `u32::to_be_bytes`. -/
def be32 (x : UInt32) : Bytes :=
  [(x >>> 24).toUInt8, (x >>> 16).toUInt8, (x >>> 8).toUInt8, x.toUInt8]

/-- mac.rs:80-87: the first sixteen schedule words. -/
def sched16 (block : Bytes) : List UInt32 := (List.range 16).map fun i => be32At block (i * 4)

/-- mac.rs:88-95: one iteration of the schedule loop (`i = w.length`). -/
def schedStep (w : List UInt32) : List UInt32 :=
  let i := w.length
  let x15 := w.getD (i - 15) 0
  let x2 := w.getD (i - 2) 0
  let s0 := rotr x15 7 ^^^ rotr x15 18 ^^^ (x15 >>> 3)
  let s1 := rotr x2 17 ^^^ rotr x2 19 ^^^ (x2 >>> 10)
  w ++ [w.getD (i - 16) 0 + s0 + w.getD (i - 7) 0 + s1]

/-- mac.rs:79-95: the whole schedule; the array filled left to right is the list grown at its end. -/
def sched (block : Bytes) : Nat → List UInt32
  | 0 => sched16 block
  | n + 1 => schedStep (sched block n)

/-- mac.rs:100-120: one round. -/
def round (w : List UInt32) (s : H8) (i : Nat) : H8 :=
  let s1 := rotr s.e 6 ^^^ rotr s.e 11 ^^^ rotr s.e 25
  let ch := (s.e &&& s.f) ^^^ ((~~~ s.e) &&& s.g)
  let t1 := s.h + s1 + ch + K.getD i 0 + w.getD i 0
  let s0 := rotr s.a 2 ^^^ rotr s.a 13 ^^^ rotr s.a 22
  let maj := (s.a &&& s.b) ^^^ (s.a &&& s.c) ^^^ (s.b &&& s.c)
  let t2 := s0 + maj
  { a := t1 + t2, b := s.a, c := s.b, d := s.c, e := s.d + t1, f := s.e, g := s.f, h := s.g }

/-- mac.rs:78-130 `compress`. -/
def compress (h : H8) (block : Bytes) : H8 :=
  let w := sched block 48
  let r := (List.range 64).foldl (round w) h
  { a := h.a + r.a, b := h.b + r.b, c := h.c + r.c, d := h.d + r.d,
    e := h.e + r.e, f := h.f + r.f, g := h.g + r.g, h := h.h + r.h }

/-- mac.rs:58-63 `Sha256`. -/
structure Sha where
  h : H8
  buf : Bytes
  bufLen : Nat
  totalLen : UInt64
deriving DecidableEq, Repr

/-- mac.rs:66-76 `new`. -/
def Sha.new : Sha := { h := IV, buf := List.replicate 64 0, bufLen := 0, totalLen := 0 }

/-- `dst[off..off + src.len()].copy_from_slice(src)`. Library function or literal as used by mac.rs. -/
def copyAt (dst : Bytes) (off : Nat) (src : Bytes) : Bytes :=
  dst.take off ++ src ++ dst.drop (off + src.length)

/-- mac.rs:148-153: the full-block loop; returns the chaining value and the unconsumed data. -/
def blockLoop (h : H8) (data : Bytes) : H8 × Bytes :=
  if BLOCK ≤ data.length then blockLoop (compress h (data.take BLOCK)) (data.drop BLOCK)
  else (h, data)
termination_by data.length
decreasing_by simp only [List.length_drop, BLOCK] at *; omega

/-- mac.rs:135-146: top up a partially filled buffer. Returns the state and the remaining data. -/
def fillBuf (s : Sha) (data : Bytes) : Sha × Bytes :=
  if 0 < s.bufLen then
    let need := BLOCK - s.bufLen
    let take := min need data.length
    let s := { s with buf := copyAt s.buf s.bufLen (data.take take), bufLen := s.bufLen + take }
    let data := data.drop take
    if s.bufLen = BLOCK then
      ({ s with h := compress s.h s.buf, bufLen := 0 }, data)
    else (s, data)
  else (s, data)

/-- mac.rs:132-159 `update`. -/
def update (s : Sha) (data : Bytes) : Sha :=
  let s := { s with totalLen := s.totalLen + UInt64.ofNat data.length }
  let (s, data) := fillBuf s data
  let (h, data) := blockLoop s.h data
  let s := { s with h := h }
  if data ≠ [] then { s with buf := copyAt s.buf 0 data, bufLen := data.length } else s

/-- mac.rs:170-172: the zero padding loop, with fuel; `none` would be an endless loop. -/
def padLoop : Nat → Sha → Option Sha
  | 0, _ => none
  | n + 1, s => if s.bufLen = BLOCK - 8 then some s else padLoop n (update s [0])

/-- `u64::to_be_bytes`. -/
def be64 (x : UInt64) : Bytes :=
  [(x >>> 56).toUInt8, (x >>> 48).toUInt8, (x >>> 40).toUInt8, (x >>> 32).toUInt8,
   (x >>> 24).toUInt8, (x >>> 16).toUInt8, (x >>> 8).toUInt8, x.toUInt8]

/-- mac.rs:178-182: the digest bytes. -/
def digest (h : H8) : Bytes :=
  be32 h.a ++ be32 h.b ++ be32 h.c ++ be32 h.d ++ be32 h.e ++ be32 h.f ++ be32 h.g ++ be32 h.h

/-- mac.rs:161-183 `finalize`. `none` only if the padding loop would not have ended within 128
iterations. -/
def finalize (s : Sha) : Option Bytes :=
  let bitLen := s.totalLen * 8
  let s := update s [0x80]
  match padLoop 128 s with
  | none => none
  | some s =>
    let buf := copyAt s.buf (BLOCK - 8) (be64 bitLen)
    some (digest (compress s.h buf))

/-- mac.rs:187-191 `sha256`. -/
def sha256 (data : Bytes) : Option Bytes := finalize (update Sha.new data)

/-- mac.rs:197-203: the block-sized key. -/
def keyBlock (key : Bytes) : Option Bytes :=
  if key.length > BLOCK then
    match sha256 key with
    | none => none
    | some d => some (copyAt (List.replicate 64 0) 0 d)
  else some (copyAt (List.replicate 64 0) 0 key)

/-- mac.rs:196-221 `hmac_sha256`. -/
def hmac (key msg : Bytes) : Option Bytes :=
  match keyBlock key with
  | none => none
  | some k0 =>
    let ipad := List.zipWith (· ^^^ ·) (List.replicate 64 0x36) k0
    let opad := List.zipWith (· ^^^ ·) (List.replicate 64 0x5c) k0
    match finalize (update (update Sha.new ipad) msg) with
    | none => none
    | some inner => finalize (update (update Sha.new opad) inner)

/-- mac.rs:227-237 `ct_eq`. -/
def ctEq (a b : Bytes) : Bool :=
  if a.length ≠ b.length then false
  else ((List.zip a b).foldl (fun diff xy => diff ||| (xy.1 ^^^ xy.2)) (0 : UInt8)) == 0

/-- `u8::is_ascii_hexdigit` / value of one hex digit. Library function or literal as used by mac.rs. -/
def hexVal (c : UInt8) : Option UInt8 :=
  if 0x30 ≤ c ∧ c ≤ 0x39 then some (c - 0x30)
  else if 0x61 ≤ c ∧ c ≤ 0x66 then some (c - 0x61 + 10)
  else if 0x41 ≤ c ∧ c ≤ 0x46 then some (c - 0x41 + 10)
  else none

/-- mac.rs:309-312: decode pairs of digits. -/
def hexPairs : Bytes → Option Bytes
  | [] => some []
  | [_] => none
  | x :: y :: rest =>
    match hexVal x, hexVal y, hexPairs rest with
    | some hi, some lo, some t => some ((hi * 16 + lo) :: t)
    | _, _, _ => none

/-- mac.rs:305-314 `parse_hex32`. -/
def parseHex32 (s : Bytes) : Option Bytes :=
  if s.length ≠ 64 ∨ ¬ (s.all fun b => (hexVal b).isSome) then none else hexPairs s

/-- mac.rs:328-333: the PBKDF2 iteration, `n` remaining. State: (u, out). -/
def pbkdf2Loop (password : Bytes) : Nat → Bytes → Bytes → Option Bytes
  | 0, _, out => some out
  | n + 1, u, out =>
    match hmac password u with
    | none => none
    | some u' => pbkdf2Loop password n u' (List.zipWith (· ^^^ ·) out u')

/-- mac.rs:321-335 `pbkdf2_hmac_sha256`. -/
def pbkdf2 (password salt : Bytes) (iterations : Nat) : Option Bytes :=
  match hmac password (salt ++ be32 1) with
  | none => none
  | some u => pbkdf2Loop password (iterations - 1) u u

/-- mac.rs:297-302 `derive_estop_key` (salt: "horus.estop.kdf.v1"). -/
def deriveKey (secret : Bytes) : Option Bytes :=
  match parseHex32 secret with
  | some raw => some raw
  | none => pbkdf2 secret
      [104, 111, 114, 117, 115, 46, 101, 115, 116, 111, 112, 46, 107, 100, 102, 46, 118, 49] 600000

end Horus.Mac
