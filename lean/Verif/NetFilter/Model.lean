import Verif.Common.Bytes
import Verif.Guard.Model
import Mathlib.Algebra.Order.Ring.Rat
/-
Model of horus_net/src/netfilter.rs: CIDR blocks, the peer filter and the token bucket.
-/
namespace Horus.NetFilter
open Horus.Guard (splitComma)

/-- netfilter.rs:38-42 `Cidr`; `prefix_len` is a u8. -/
structure Cidr where
  base : UInt32
  prefixLen : Nat
deriving DecidableEq

/-- netfilter.rs:59-65 `Cidr::mask`. -/
def mask (p : Nat) : UInt32 :=
  if p = 0 then 0 else (0xFFFFFFFF : UInt32) <<< UInt32.ofNat (32 - p)

/-- netfilter.rs:46-55 `Cidr::new`. -/
def Cidr.new (addr : UInt32) (p : Nat) : Option Cidr :=
  if p > 32 then none else some ⟨addr &&& mask p, p⟩

/-- netfilter.rs:83-86 `Cidr::contains`. -/
def Cidr.contains (c : Cidr) (addr : UInt32) : Bool :=
  decide ((addr &&& mask c.prefixLen) = c.base)

/-- The library parsers used by `Cidr::parse`: `str::trim`, `str::to_lowercase`,
`Ipv4Addr::from_str` and `u8::from_str`. They are parameters of every theorem. Source: netfilter.rs. -/
structure Text where
  trim : Bytes → Bytes
  lower : Bytes → Bytes
  ipv4 : Bytes → Option UInt32
  u8 : Bytes → Option Nat

/-- `str::split_once('/')`. Library function or literal as used by netfilter.rs. -/
def splitSlash : Bytes → Option (Bytes × Bytes)
  | [] => none
  | c :: cs => if c = 47 then some ([], cs) else (splitSlash cs).map fun (a, b) => (c :: a, b)

/-- netfilter.rs:68-80 `Cidr::parse`. -/
def Cidr.parse (T : Text) (s : Bytes) : Option Cidr :=
  let s := T.trim s
  let ap : Bytes × Option Bytes :=
    match splitSlash s with
    | some (a, p) => (a, some p)
    | none => (s, none)
  match T.ipv4 (T.trim ap.1) with
  | none => none
  | some addr =>
    match ap.2 with
    | some p =>
      match T.u8 (T.trim p) with
      | none => none
      | some n => Cidr.new addr n
    | none => Cidr.new addr 32

/-- Address from dotted quad. Source: netfilter.rs. -/
def quad (a b c d : Nat) : UInt32 := UInt32.ofNat (a * 2 ^ 24 + b * 2 ^ 16 + c * 2 ^ 8 + d)

/-- netfilter.rs:90-102 `default_allow` (the six literals, already parsed). -/
def defaultAllow : List Cidr :=
  [(quad 127 0 0 0, 8), (quad 10 0 0 0, 8), (quad 172 16 0 0, 12), (quad 192 168 0 0, 16),
   (quad 169 254 0 0, 16), (quad 100 64 0 0, 10)].filterMap fun (a, p) => Cidr.new a p

/-- netfilter.rs:108-114 `PeerFilter`. -/
inductive PeerFilter
  | any
  | allow (cidrs : List Cidr)
deriving DecidableEq

/-- `"any"`, `"*"`, `"all"`, `"0.0.0.0/0"`. Library function or literal as used by netfilter.rs. -/
def kwAny : List Bytes := [[97,110,121], [42], [97,108,108], [48,46,48,46,48,46,48,47,48]]

/-- netfilter.rs:140-179 `PeerFilter::parse` (warnings dropped). -/
def PeerFilter.parse (T : Text) (raw : Bytes) : PeerFilter :=
  let trimmed := T.trim raw
  if trimmed = [] then .allow defaultAllow
  else if T.lower trimmed ∈ kwAny then .any
  else
    let cidrs := (((splitComma trimmed).map T.trim).filter fun e => e ≠ []).filterMap (Cidr.parse T)
    if cidrs = [] then .allow defaultAllow else .allow cidrs

/-- netfilter.rs:132-137 `PeerFilter::from_env`: unset means the default. -/
def PeerFilter.fromEnv (T : Text) : Option Bytes → PeerFilter
  | none => .allow defaultAllow
  | some raw => PeerFilter.parse T raw

/-- A source address: IPv4, or IPv6 as a 128-bit number. -/
inductive Addr
  | v4 (a : UInt32)
  | v6 (a : Nat)

/-- `Ipv6Addr::to_ipv4_mapped`: `::ffff:a.b.c.d`. Library function or literal as used by netfilter.rs. -/
def toIpv4Mapped (a : Nat) : Option UInt32 :=
  if a / 2 ^ 32 = 0xffff then some (UInt32.ofNat (a % 2 ^ 32)) else none

/-- netfilter.rs:182-196 `PeerFilter::admits`. -/
def PeerFilter.admits : PeerFilter → Addr → Bool
  | .any, _ => true
  | .allow cs, .v4 a => cs.any fun c => c.contains a
  | .allow cs, .v6 a =>
    match toIpv4Mapped a with
    | some v => cs.any fun c => c.contains v
    | none => false

/-! ### Token bucket -/

/-- netfilter.rs:207-213 `TokenBucket`. Tokens are rationals; `last` is in nanoseconds. -/
structure Bucket where
  capacity : ℚ
  refillPerSec : ℚ
  tokens : ℚ
  last : Nat

/-- netfilter.rs:222-229 `new_at`. -/
def Bucket.newAt (capacity refill : Nat) (now : Nat) : Bucket :=
  { capacity := capacity, refillPerSec := refill, tokens := capacity, last := now }

/-- netfilter.rs:253-262 `refill`. `fsum tokens elapsed_ns` is the floating-point value of
`tokens + elapsed.as_secs_f64() * refill_per_sec`. -/
def Bucket.refill (fsum : ℚ → Nat → ℚ) (b : Bucket) (now : Nat) : Bucket :=
  let elapsed := now - b.last
  if elapsed = 0 then b
  else { b with last := now, tokens := min (fsum b.tokens elapsed) b.capacity }

/-- netfilter.rs:232-251 `take` / `take_at`. The subtraction of 1.0 from a token count in
[1, 2^53) is exact in floating point. -/
def Bucket.takeAt (fsum : ℚ → Nat → ℚ) (b : Bucket) (now : Nat) : Bucket × Bool :=
  let b := b.refill fsum now
  if 1 ≤ b.tokens then ({ b with tokens := b.tokens - 1 }, true) else (b, false)

/-- Feed a sequence of arrival instants (in the order they arrive; the clock readings need not be
ordered); returns the final bucket and how many were admitted. Schedules over the functions of netfilter.rs. -/
def Bucket.run (fsum : ℚ → Nat → ℚ) : Bucket → List Nat → Bucket × Nat
  | b, [] => (b, 0)
  | b, t :: ts =>
    let r := b.takeAt fsum t
    let q := Bucket.run fsum r.1 ts
    (q.1, q.2 + if r.2 then 1 else 0)

/-- netfilter.rs:279-286 `SystemTopicLimits::default`: (capacity, refill) of the e-stop bucket and
of the logs and presence buckets. -/
def estopLimit : Nat × Nat := (128, 64)
/-- netfilter.rs:279-286, the bucket of the logs topic. -/
def logsLimit : Nat × Nat := (64, 32)
/-- netfilter.rs:279-286, the bucket of the presence topic. -/
def presenceLimit : Nat × Nat := (64, 32)

end Horus.NetFilter
