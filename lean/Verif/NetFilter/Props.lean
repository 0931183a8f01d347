import Verif.NetFilter.Model
import Mathlib.Tactic.Linarith
import Mathlib.Tactic.Positivity
import Mathlib.Tactic.NormNum
import Mathlib.Tactic.Ring
import Mathlib.Algebra.Order.Field.Rat
import Mathlib.Tactic.FieldSimp
import Mathlib.Tactic.ByContra
/-
Properties C15 (peer filter) and C16 (token bucket).
-/
namespace Horus.NetFilter
open Horus.Guard (splitComma)

/-! ### C15 -/

/-- Specification: two IPv4 addresses share their leading `p` bits. -/
def SamePrefix (p : Nat) (a b : UInt32) : Prop :=
  a.toNat / 2 ^ (32 - p) = b.toNat / 2 ^ (32 - p)

instance (p : Nat) (a b : UInt32) : Decidable (SamePrefix p a b) :=
  inferInstanceAs (Decidable (_ = _))

theorem mask_toNat_testBit (p : Nat) (hp : p ≤ 32) (i : Nat) :
    (mask p).toNat.testBit i = (decide (i < 32) && decide (32 - p ≤ i)) := by
  unfold mask
  by_cases h0 : p = 0
  · subst h0
    by_cases hi : i < 32
    · have : ¬ 32 ≤ i := by omega
      simp [this]
    · simp [hi]
  · rw [if_neg h0]
    have hs : (UInt32.ofNat (32 - p)).toNat % 32 = 32 - p := by
      simp only [UInt32.toNat_ofNat']
      omega
    rw [UInt32.toNat_shiftLeft, hs, Nat.testBit_mod_two_pow, Nat.testBit_shiftLeft]
    have : (4294967295 : UInt32).toNat = 2 ^ 32 - 1 := by decide
    rw [this, Nat.testBit_two_pow_sub_one]
    by_cases h1 : i < 32 <;> by_cases h2 : 32 - p ≤ i <;> simp [h1, h2]
    omega

theorem and_mask_eq_iff (p : Nat) (hp : p ≤ 32) (a b : UInt32) :
    (a &&& mask p) = (b &&& mask p) ↔ SamePrefix p a b := by
  have ha : a.toNat < 2 ^ 32 := a.toNat_lt
  have hb : b.toNat < 2 ^ 32 := b.toNat_lt
  rw [← UInt32.toNat_inj, UInt32.toNat_and, UInt32.toNat_and]
  unfold SamePrefix
  rw [← Nat.shiftRight_eq_div_pow, ← Nat.shiftRight_eq_div_pow]
  constructor
  · intro h
    apply Nat.eq_of_testBit_eq
    intro i
    rw [Nat.testBit_shiftRight, Nat.testBit_shiftRight]
    have := congrArg (fun n => n.testBit (32 - p + i)) h
    simp only [Nat.testBit_and, mask_toNat_testBit p hp] at this
    by_cases hi : 32 - p + i < 32
    · simpa [hi] using this
    · have e : ∀ x, x < 2 ^ 32 → x.testBit (32 - p + i) = false := fun x hx =>
        Nat.testBit_lt_two_pow (Nat.lt_of_lt_of_le hx (Nat.pow_le_pow_right (by omega) (by omega)))
      rw [e _ ha, e _ hb]
  · intro h
    apply Nat.eq_of_testBit_eq
    intro i
    simp only [Nat.testBit_and, mask_toNat_testBit p hp]
    by_cases h2 : 32 - p ≤ i
    · have := congrArg (fun n => n.testBit (i - (32 - p))) h
      simp only [Nat.testBit_shiftRight] at this
      rw [show 32 - p + (i - (32 - p)) = i by omega] at this
      simp [this]
    · simp [h2]

/-- **C15 (one block).** A block built from `addr/p` contains exactly the addresses sharing its
leading `p` bits, for every prefix length; lengths above 32 are refused. -/
theorem cidr_contains_iff (addr : UInt32) (p : Nat) :
    (p ≤ 32 → ∃ c, Cidr.new addr p = some c ∧ ∀ x, c.contains x = true ↔ SamePrefix p x addr) ∧
    (32 < p → Cidr.new addr p = none) := by
  constructor
  · intro hp
    refine ⟨⟨addr &&& mask p, p⟩, by simp [Cidr.new, Nat.not_lt.mpr hp], fun x => ?_⟩
    simp [Cidr.contains, and_mask_eq_iff p hp]
  · intro hp; simp [Cidr.new, hp]

/-- The networks a filter setting denotes: the entries of the comma list that are a well-formed
`a.b.c.d` or `a.b.c.d/len` with `len ≤ 32`. -/
def Network (T : Text) (raw : Bytes) (addr : UInt32) (p : Nat) : Prop :=
  p ≤ 32 ∧ ∃ e ∈ splitComma (T.trim raw), T.trim e ≠ [] ∧
    let s := T.trim (T.trim e)
    (splitSlash s = none ∧ p = 32 ∧ T.ipv4 (T.trim s) = some addr) ∨
    (∃ a q, splitSlash s = some (a, q) ∧ T.ipv4 (T.trim a) = some addr ∧ T.u8 (T.trim q) = some p)

/-- The private ranges used by default. -/
def privateNets : List (UInt32 × Nat) :=
  [(quad 127 0 0 0, 8), (quad 10 0 0 0, 8), (quad 172 16 0 0, 12), (quad 192 168 0 0, 16),
   (quad 169 254 0 0, 16), (quad 100 64 0 0, 10)]

/-- The IPv4 address a source stands for, if any: itself, or the last 32 bits of `::ffff:0:0/96`. -/
def sourceV4 : Addr → Option UInt32
  | .v4 a => some a
  | .v6 n => if n / 2 ^ 32 = 0xffff then some (UInt32.ofNat (n % 2 ^ 32)) else none

theorem admits_allow (cs : List Cidr) (src : Addr) :
    (PeerFilter.allow cs).admits src = true ↔
      ∃ a, sourceV4 src = some a ∧ ∃ c ∈ cs, c.contains a = true := by
  cases src with
  | v4 a => simp [PeerFilter.admits, sourceV4]
  | v6 n =>
    simp only [PeerFilter.admits, toIpv4Mapped, sourceV4]
    split <;> simp_all

theorem parse_some_iff (T : Text) (e : Bytes) (c : Cidr) :
    Cidr.parse T e = some c ↔
      ∃ addr p, p ≤ 32 ∧ c = ⟨addr &&& mask p, p⟩ ∧
        ((splitSlash (T.trim e) = none ∧ p = 32 ∧ T.ipv4 (T.trim (T.trim e)) = some addr) ∨
         (∃ a q, splitSlash (T.trim e) = some (a, q) ∧ T.ipv4 (T.trim a) = some addr ∧
            T.u8 (T.trim q) = some p)) := by
  simp only [Cidr.parse]
  cases hs : splitSlash (T.trim e) with
  | none =>
    simp only [true_and, reduceCtorEq, false_and, exists_false, or_false]
    cases hi : T.ipv4 (T.trim (T.trim e)) with
    | none => simp
    | some addr =>
      simp only [Cidr.new, Option.some.injEq]
      constructor
      · intro h
        simp only [gt_iff_lt, Nat.lt_irrefl, if_false, Option.some.injEq] at h
        exact ⟨addr, 32, by omega, h.symm, rfl, rfl⟩
      · rintro ⟨_, _, _, rfl, rfl, rfl⟩
        simp
  | some ap =>
    obtain ⟨a, q⟩ := ap
    simp only [reduceCtorEq, false_and, false_or, Option.some.injEq, Prod.mk.injEq]
    cases hi : T.ipv4 (T.trim a) with
    | none =>
      simp only [reduceCtorEq, false_iff]
      rintro ⟨addr, p, _, _, a', q', ⟨rfl, rfl⟩, h, _⟩
      simp [hi] at h
    | some addr =>
      cases hu : T.u8 (T.trim q) with
      | none =>
        simp only [reduceCtorEq, false_iff]
        rintro ⟨addr, p, _, _, a', q', ⟨rfl, rfl⟩, _, h⟩
        simp [hu] at h
      | some n =>
        simp only [Cidr.new]
        constructor
        · intro h
          split at h
          · simp at h
          · exact ⟨addr, n, by omega, by simpa using h.symm, a, q, ⟨rfl, rfl⟩, hi, hu⟩
        · rintro ⟨addr', p, hp, rfl, a', q', ⟨rfl, rfl⟩, h1, h2⟩
          rw [hi] at h1; rw [hu] at h2
          simp only [Option.some.injEq] at h1 h2
          subst h1; subst h2
          rw [if_neg (by omega)]

theorem mem_cidrs_iff (T : Text) (raw : Bytes) (c : Cidr) :
    c ∈ (((splitComma (T.trim raw)).map T.trim).filter fun e => e ≠ []).filterMap (Cidr.parse T) ↔
      ∃ addr p, Network T raw addr p ∧ c = ⟨addr &&& mask p, p⟩ := by
  simp only [List.mem_filterMap, List.mem_filter, List.mem_map, decide_eq_true_eq, parse_some_iff,
    Network]
  constructor
  · rintro ⟨e', ⟨⟨e, he, rfl⟩, hne⟩, addr, p, hp, hc, h⟩
    exact ⟨addr, p, ⟨hp, e, he, hne, h⟩, hc⟩
  · rintro ⟨addr, p, ⟨hp, e, he, hne, h⟩, hc⟩
    exact ⟨T.trim e, ⟨⟨e, he, rfl⟩, hne⟩, addr, p, hp, hc, h⟩

theorem default_admits (src : Addr) :
    (PeerFilter.allow defaultAllow).admits src = true ↔
      ∃ a, sourceV4 src = some a ∧ ∃ n ∈ privateNets, SamePrefix n.2 a n.1 := by
  rw [admits_allow]
  apply exists_congr
  intro a
  apply and_congr_right
  intro _
  have : defaultAllow = privateNets.map fun n => ⟨n.1 &&& mask n.2, n.2⟩ := by decide
  rw [this]
  simp only [List.mem_map, exists_exists_and_eq_and, Cidr.contains, decide_eq_true_eq]
  apply exists_congr
  intro n
  apply and_congr_right
  intro hn
  apply and_mask_eq_iff
  revert hn n
  decide

/-- **C15.** For every setting and every source: unless the setting is one of the four explicit
"any" keywords, a datagram is admitted exactly when its IPv4 (or v4-mapped) source shares the
leading prefix bits of a network of the setting; when the setting is blank or denotes no network,
exactly when it lies in the private ranges. Plain IPv6 is never admitted. -/
theorem peer_filter_iff (T : Text) (raw : Bytes) (src : Addr) (hany : T.lower (T.trim raw) ∉ kwAny ∨ T.trim raw = []) :
    (PeerFilter.parse T raw).admits src = true ↔
      ∃ a, sourceV4 src = some a ∧
        ((T.trim raw ≠ [] ∧ ∃ addr p, Network T raw addr p ∧ SamePrefix p a addr) ∨
         ((T.trim raw = [] ∨ ¬ ∃ addr p, Network T raw addr p) ∧
            ∃ n ∈ privateNets, SamePrefix n.2 a n.1)) := by
  simp only [PeerFilter.parse]
  by_cases h1 : T.trim raw = []
  · simp only [h1, if_true, ne_eq, not_true_eq_false, false_and, true_or, true_and, false_or]
    exact default_admits src
  · have h2 : T.lower (T.trim raw) ∉ kwAny := by simpa [h1] using hany
    simp only [h1, h2, if_false, ne_eq, not_false_eq_true, true_and, false_or]
    by_cases h3 : (((splitComma (T.trim raw)).map T.trim).filter fun e => e ≠ []).filterMap (Cidr.parse T) = []
    · have hno : ¬ ∃ addr p, Network T raw addr p := by
        rintro ⟨addr, p, h⟩
        have := (mem_cidrs_iff T raw _).mpr ⟨addr, p, h, rfl⟩
        rw [h3] at this
        simp at this
      have hno' : ∀ a, ¬ ∃ addr p, Network T raw addr p ∧ SamePrefix p a addr :=
        fun a ⟨addr, p, h, _⟩ => hno ⟨addr, p, h⟩
      simp only [ne_eq, decide_not] at h3
      simp only [decide_not, h3, if_true, hno, not_false_eq_true, true_and, hno', false_or]
      exact default_admits src
    · have hyes : ∃ addr p, Network T raw addr p := by
        obtain ⟨c, hc⟩ := List.exists_mem_of_ne_nil _ h3
        obtain ⟨addr, p, h, _⟩ := (mem_cidrs_iff T raw c).mp hc
        exact ⟨addr, p, h⟩
      have h3' := h3
      simp only [ne_eq, decide_not] at h3'
      simp only [hyes, not_true_eq_false, false_and, or_false, decide_not, h3', if_false]
      rw [admits_allow]
      apply exists_congr
      intro a
      apply and_congr_right
      intro _
      constructor
      · rintro ⟨c, hc, hca⟩
        have hc' : c ∈ (((splitComma (T.trim raw)).map T.trim).filter fun e => e ≠ []).filterMap (Cidr.parse T) := by
          simpa only [ne_eq, decide_not] using hc
        obtain ⟨addr, p, h, rfl⟩ := (mem_cidrs_iff T raw c).mp hc'
        refine ⟨addr, p, h, ?_⟩
        rw [← and_mask_eq_iff p h.1]
        simpa [Cidr.contains] using hca
      · rintro ⟨addr, p, h, hs⟩
        refine ⟨⟨addr &&& mask p, p⟩, ?_, ?_⟩
        · have := (mem_cidrs_iff T raw ⟨addr &&& mask p, p⟩).mpr ⟨addr, p, h, rfl⟩
          simpa only [ne_eq, decide_not] using this
        · simp only [Cidr.contains, decide_eq_true_eq]
          rw [and_mask_eq_iff p h.1]; exact hs

/-- "Everything" is only ever configured by saying so. -/
theorem any_only_explicit (T : Text) (env : Option Bytes) :
    PeerFilter.fromEnv T env = .any ↔
      ∃ raw, env = some raw ∧ T.trim raw ≠ [] ∧ T.lower (T.trim raw) ∈ kwAny := by
  cases env with
  | none => simp [PeerFilter.fromEnv]
  | some raw =>
    simp only [PeerFilter.fromEnv, PeerFilter.parse, Option.some.injEq, exists_eq_left']
    by_cases h1 : T.trim raw = []
    · simp [h1]
    · by_cases h2 : T.lower (T.trim raw) ∈ kwAny
      · simp [h1, h2]
      · simp only [h1, h2, if_false, and_false, iff_false]
        split <;> simp

/-- A toy text layer for the examples: an address is a single byte `n` meaning `n.0.0.0`, a
prefix length a single byte. -/
def toyText : Text :=
  { trim := id, lower := id
    ipv4 := fun s => match s with | [n] => some (quad n.toNat 0 0 0) | _ => none
    u8 := fun s => match s with | [n] => some n.toNat | _ => none }

/-- `10/8,x` with an unusable second entry: 10.1.2.3 in, 11.0.0.0 out, mapped 10.1.2.3 in,
`::1` out. -/
example :
    (PeerFilter.parse toyText [10,47,8,44]).admits (.v4 (quad 10 1 2 3)) = true ∧
    (PeerFilter.parse toyText [10,47,8,44]).admits (.v4 (quad 11 0 0 0)) = false ∧
    (PeerFilter.parse toyText [10,47,8,44]).admits (.v6 (0xffff * 2 ^ 32 + 10 * 2 ^ 24 + 7)) = true ∧
    (PeerFilter.parse toyText [10,47,8,44]).admits (.v6 1) = false := by decide

/-- The hypotheses of `peer_filter_iff` hold there, and a network is denoted. -/
example : toyText.lower (toyText.trim [10,47,8,44]) ∉ kwAny ∧ Network toyText [10,47,8,44] (quad 10 0 0 0) 8 := by
  refine ⟨by decide, by decide, [10,47,8], by decide, by decide, Or.inr ⟨[10], [8], by decide, by decide, by decide⟩⟩

/-! ### C16 -/

/-- What floating point is assumed to do in `tokens + elapsed * rate`: the result is within `ε` of
the exact value and adding a non-negative amount never decreases it. -/
structure FSum (rate : ℚ) (ε : ℚ) (fsum : ℚ → Nat → ℚ) : Prop where
  upper : ∀ x e, fsum x e ≤ x + rate * (e / 10 ^ 9) + ε
  lower : ∀ x e, x + rate * (e / 10 ^ 9) - ε ≤ fsum x e
  mono : ∀ x e, x ≤ fsum x e

/-- Exact arithmetic is an instance, with `ε = 0`. -/
theorem FSum.exact (rate : ℚ) (h : 0 ≤ rate) : FSum rate 0 (fun x e => x + rate * (e / 10 ^ 9)) := by
  refine ⟨fun x e => by simp, fun x e => by simp, fun x e => ?_⟩
  have : 0 ≤ rate * ((e : ℚ) / 10 ^ 9) := by positivity
  linarith

/-- Invariant of a bucket: between empty and full. -/
def Bucket.Ok (b : Bucket) : Prop := 0 ≤ b.tokens ∧ b.tokens ≤ b.capacity

theorem newAt_ok (c r now : Nat) : (Bucket.newAt c r now).Ok := by
  simp [Bucket.newAt, Bucket.Ok]

theorem refill_same (fsum : ℚ → Nat → ℚ) (b : Bucket) (t : Nat) (h : t ≤ b.last) :
    b.refill fsum t = b := by
  simp [Bucket.refill, Nat.sub_eq_zero_of_le h]

theorem refill_later (fsum : ℚ → Nat → ℚ) (b : Bucket) (t : Nat) (h : b.last < t) :
    b.refill fsum t = { b with last := t, tokens := min (fsum b.tokens (t - b.last)) b.capacity } := by
  have : ¬ (t - b.last = 0) := by omega
  simp [Bucket.refill, this]

theorem refill_ok {fsum : ℚ → Nat → ℚ} {ε : ℚ} (b : Bucket) (hf : FSum b.refillPerSec ε fsum) (hb : b.Ok) (t : Nat) :
    (b.refill fsum t).Ok ∧ b.tokens ≤ (b.refill fsum t).tokens := by
  rcases Nat.lt_or_ge b.last t with h | h
  · rw [refill_later _ _ _ h]
    have h1 := hf.mono b.tokens (t - b.last)
    exact ⟨⟨le_min (le_trans hb.1 h1) (le_trans hb.1 hb.2), min_le_right _ _⟩, le_min h1 hb.2⟩
  · rw [refill_same _ _ _ h]; exact ⟨hb, le_refl _⟩

theorem refill_fields (fsum : ℚ → Nat → ℚ) (b : Bucket) (t : Nat) :
    (b.refill fsum t).capacity = b.capacity ∧ (b.refill fsum t).refillPerSec = b.refillPerSec ∧
    (b.refill fsum t).last = max b.last t := by
  rcases Nat.lt_or_ge b.last t with h | h
  · rw [refill_later _ _ _ h]; exact ⟨rfl, rfl, by simp; omega⟩
  · rw [refill_same _ _ _ h]; exact ⟨rfl, rfl, by omega⟩

theorem takeAt_spec {fsum : ℚ → Nat → ℚ} (b : Bucket) (t : Nat) :
    (b.takeAt fsum t).1.capacity = b.capacity ∧
    (b.takeAt fsum t).1.refillPerSec = b.refillPerSec ∧
    (b.takeAt fsum t).1.last = max b.last t ∧
    (b.takeAt fsum t).1.tokens =
      (b.refill fsum t).tokens - (if (b.takeAt fsum t).2 then 1 else 0) ∧
    ((b.takeAt fsum t).2 = true ↔ 1 ≤ (b.refill fsum t).tokens) := by
  obtain ⟨h1, h2, h3⟩ := refill_fields fsum b t
  unfold Bucket.takeAt
  by_cases h : 1 ≤ (b.refill fsum t).tokens <;> simp [h, h1, h2, h3]

theorem takeAt_ok {fsum : ℚ → Nat → ℚ} {ε : ℚ} (b : Bucket) (hf : FSum b.refillPerSec ε fsum) (hb : b.Ok) (t : Nat) :
    (b.takeAt fsum t).1.Ok := by
  obtain ⟨h1, h2, h3, h4, h5⟩ := takeAt_spec (fsum := fsum) b t
  obtain ⟨⟨hr1, hr2⟩, _⟩ := refill_ok b hf hb t
  rw [(refill_fields fsum b t).1] at hr2
  unfold Bucket.Ok
  rw [h1, h4]
  by_cases hc : (b.takeAt fsum t).2 = true
  · have := h5.mp hc
    simp only [hc, if_true]
    constructor <;> linarith
  · simp only [hc, Bool.false_eq_true, if_false]
    constructor <;> linarith

/-- Tokens plus what the bucket can still earn until `t2`. -/
def potential (t2 : Nat) (b : Bucket) : ℚ :=
  b.tokens + b.refillPerSec * (((t2 - b.last : Nat) : ℚ) / 10 ^ 9)

theorem potential_step {fsum : ℚ → Nat → ℚ} {ε : ℚ} (b : Bucket) (hf : FSum b.refillPerSec ε fsum)
    (hε : 0 ≤ ε) (t t2 : Nat) (ht : t ≤ t2) :
    potential t2 (b.takeAt fsum t).1 + (if (b.takeAt fsum t).2 then 1 else 0) ≤ potential t2 b + ε := by
  obtain ⟨h1, h2, h3, h4, h5⟩ := takeAt_spec (fsum := fsum) b t
  unfold potential
  rw [h2, h3, h4]
  rcases Nat.lt_or_ge b.last t with h | h
  · rw [refill_later _ _ _ h]
    simp only
    rw [Nat.max_eq_right h.le]
    have e : ((t2 - b.last : Nat) : ℚ) = ((t2 - t : Nat) : ℚ) + ((t - b.last : Nat) : ℚ) := by
      rw [← Nat.cast_add]; congr 1; omega
    have hu := hf.upper b.tokens (t - b.last)
    have hm := min_le_left (fsum b.tokens (t - b.last)) b.capacity
    rw [e]
    have : b.refillPerSec * ((((t2 - t : Nat) : ℚ) + ((t - b.last : Nat) : ℚ)) / 10 ^ 9) =
        b.refillPerSec * (((t2 - t : Nat) : ℚ) / 10 ^ 9) +
        b.refillPerSec * (((t - b.last : Nat) : ℚ) / 10 ^ 9) := by ring
    rw [this]
    linarith
  · rw [refill_same _ _ _ h, Nat.max_eq_left h]
    linarith

theorem run_potential {fsum : ℚ → Nat → ℚ} {ε : ℚ} (hε : 0 ≤ ε) (t2 : Nat) (ts : List Nat) :
    ∀ (b : Bucket), FSum b.refillPerSec ε fsum → b.Ok → 0 ≤ b.refillPerSec → (∀ t ∈ ts, t ≤ t2) →
      ((b.run fsum ts).2 : ℚ) ≤ potential t2 b + ts.length * ε := by
  induction ts with
  | nil =>
    intro b hf hb hr _
    simp only [Bucket.run, potential]
    have : 0 ≤ b.refillPerSec * (((t2 - b.last : Nat) : ℚ) / 10 ^ 9) := by positivity
    have := hb.1
    push_cast
    simp
    linarith
  | cons t ts ih =>
    intro b hf hb hr hts
    have h2 := (takeAt_spec (fsum := fsum) b t).2.1
    have hs := potential_step b hf hε t t2 (hts t (by simp))
    have := ih (b.takeAt fsum t).1 (h2 ▸ hf) (takeAt_ok b hf hb t) (h2 ▸ hr)
      (fun x hx => hts x (List.mem_cons_of_mem _ hx))
    simp only [Bucket.run, List.length_cons]
    push_cast
    linarith

theorem run_ok {fsum : ℚ → Nat → ℚ} {ε : ℚ} (ts : List Nat) :
    ∀ (b : Bucket), FSum b.refillPerSec ε fsum → b.Ok →
      (b.run fsum ts).1.Ok ∧ (b.run fsum ts).1.capacity = b.capacity ∧
      (b.run fsum ts).1.refillPerSec = b.refillPerSec := by
  induction ts with
  | nil => intro b _ hb; exact ⟨hb, rfl, rfl⟩
  | cons t ts ih =>
    intro b hf hb
    obtain ⟨h1, h2, -, -, -⟩ := takeAt_spec (fsum := fsum) b t
    obtain ⟨i1, i2, i3⟩ := ih (b.takeAt fsum t).1 (h2 ▸ hf) (takeAt_ok b hf hb t)
    exact ⟨i1, i2.trans h1, i3.trans h2⟩

/-- **C16.** Whatever arrived before (`before`, at any clock readings), of the packets arriving
with clock readings between `t1` and `t2`, in any number and any order, even with the clock
stepping backwards, a limiter of burst `cap` and rate `rate` per second admits at most
`cap + rate * (t2 - t1)`, plus the floating-point error `ε` per packet. -/
theorem rate_limit (cap rate start : Nat) (fsum : ℚ → Nat → ℚ) (ε : ℚ) (hε : 0 ≤ ε)
    (hf : FSum rate ε fsum) (before window : List Nat) (t1 t2 : Nat) (h12 : t1 ≤ t2)
    (hw : ∀ t ∈ window, t1 ≤ t ∧ t ≤ t2) :
    ((((Bucket.newAt cap rate start).run fsum before).1.run fsum window).2 : ℚ)
      ≤ cap + rate * (((t2 - t1 : Nat) : ℚ) / 10 ^ 9) + window.length * ε := by
  obtain ⟨hok, hcap, hrate⟩ := run_ok before (Bucket.newAt cap rate start) hf (newAt_ok _ _ _)
  have hcap' : ((Bucket.newAt cap rate start).run fsum before).1.capacity = (cap : ℚ) := hcap
  have hrate' : ((Bucket.newAt cap rate start).run fsum before).1.refillPerSec = (rate : ℚ) := hrate
  generalize ((Bucket.newAt cap rate start).run fsum before).1 = b at *
  have hf' : FSum b.refillPerSec ε fsum := hrate' ▸ hf
  have hr : 0 ≤ b.refillPerSec := by rw [hrate']; positivity
  have hbase : 0 ≤ (rate : ℚ) := by positivity
  -- potential of a bucket whose clock is inside the window
  have hpot : ∀ b' : Bucket, b'.tokens ≤ cap → b'.refillPerSec = rate → t1 ≤ b'.last →
      potential t2 b' ≤ cap + rate * (((t2 - t1 : Nat) : ℚ) / 10 ^ 9) := by
    intro b' hc hr' hl
    unfold potential
    rw [hr']
    have h1 : ((t2 - b'.last : Nat) : ℚ) ≤ ((t2 - t1 : Nat) : ℚ) := by exact_mod_cast (by omega)
    have h2 : ((t2 - b'.last : Nat) : ℚ) / 10 ^ 9 ≤ ((t2 - t1 : Nat) : ℚ) / 10 ^ 9 := by
      apply div_le_div_of_nonneg_right h1; positivity
    have := mul_le_mul_of_nonneg_left h2 hbase
    linarith
  rcases Nat.lt_or_ge b.last t1 with hl | hl
  · cases window with
    | nil =>
      simp only [Bucket.run, List.length_nil]
      have : 0 ≤ (rate : ℚ) * (((t2 - t1 : Nat) : ℚ) / 10 ^ 9) := by positivity
      have : 0 ≤ (cap : ℚ) := by positivity
      push_cast
      linarith
    | cons t ts =>
      -- the first packet brings the clock into the window and tokens to at most `cap`
      obtain ⟨ht1, ht2⟩ := hw t (by simp)
      obtain ⟨s1, s2, s3, s4, s5⟩ := takeAt_spec (fsum := fsum) b t
      have hlt : b.last < t := by omega
      have hrun := run_potential hε t2 ts (b.takeAt fsum t).1 (s2 ▸ hf') (takeAt_ok b hf' hok t)
        (s2 ▸ hr) (fun x hx => (hw x (List.mem_cons_of_mem _ hx)).2)
      have htok : (b.refill fsum t).tokens ≤ cap := by
        rw [refill_later _ _ _ hlt, ← hcap']; exact min_le_right _ _
      simp only [Bucket.run, List.length_cons]
      push_cast
      have hp : potential t2 (b.takeAt fsum t).1 + (if (b.takeAt fsum t).2 = true then 1 else 0)
          ≤ cap + rate * (((t2 - t1 : Nat) : ℚ) / 10 ^ 9) := by
        have := hpot { b.takeAt fsum t |>.1 with tokens := (b.refill fsum t).tokens } htok
          (by simp only; rw [s2, hrate']) (by simp only; rw [s3]; omega)
        unfold potential at this ⊢
        simp only at this
        rw [s4]
        linarith
      linarith
  · have hrun := run_potential hε t2 window b hf' hok hr (fun x hx => (hw x hx).2)
    have := hpot b (by rw [← hcap']; exact hok.2) hrate' hl
    linarith

/-- The limits of the three system topics, with exact arithmetic, over any one-second window:
at most 192 e-stop packets, 96 log packets and 96 presence packets reach their handlers. -/
theorem system_topic_rates (start : Nat) (before window : List Nat) (t1 : Nat)
    (hw : ∀ t ∈ window, t1 ≤ t ∧ t ≤ t1 + 10 ^ 9) :
    (∀ lim ∈ [logsLimit, presenceLimit],
      (((Bucket.newAt lim.1 lim.2 start).run (fun x e => x + lim.2 * (e / 10 ^ 9)) before).1.run
        (fun x e => x + lim.2 * (e / 10 ^ 9)) window).2 ≤ 96) ∧
    (((Bucket.newAt estopLimit.1 estopLimit.2 start).run (fun x e => x + estopLimit.2 * (e / 10 ^ 9)) before).1.run
        (fun x e => x + estopLimit.2 * (e / 10 ^ 9)) window).2 ≤ 192 := by
  have key : ∀ c r : Nat,
      (((Bucket.newAt c r start).run (fun x e => x + r * (e / 10 ^ 9)) before).1.run
        (fun x e => x + r * (e / 10 ^ 9)) window).2 ≤ c + r := by
    intro c r
    have := rate_limit c r start _ 0 (le_refl _) (FSum.exact r (by positivity)) before window t1
      (t1 + 10 ^ 9) (by omega) hw
    have e : ((t1 + 10 ^ 9 - t1 : Nat) : ℚ) = 10 ^ 9 := by
      rw [Nat.add_sub_cancel_left]; norm_num
    rw [e] at this
    norm_num at this
    exact_mod_cast this
  refine ⟨?_, key 128 64⟩
  intro lim hl
  simp only [List.mem_cons, List.not_mem_nil, or_false] at hl
  rcases hl with rfl | rfl
  · exact key 64 32
  · exact key 64 32

/-- The limiter is not vacuous: a fresh limiter admits every one of the first `cap` packets,
whatever their timing. -/
theorem burst_admitted {fsum : ℚ → Nat → ℚ} {ε : ℚ} (cap rate start : Nat) (hf : FSum rate ε fsum)
    (ts : List Nat) (h : ts.length ≤ cap) :
    ((Bucket.newAt cap rate start).run fsum ts).2 = ts.length := by
  have key : ∀ (ts : List Nat) (b : Bucket), b.refillPerSec = rate → b.Ok → (ts.length : ℚ) ≤ b.tokens →
      (b.run fsum ts).2 = ts.length := by
    intro ts
    induction ts with
    | nil => intro b _ _ _; rfl
    | cons t ts ih =>
      intro b hr hb hl
      obtain ⟨s1, s2, s3, s4, s5⟩ := takeAt_spec (fsum := fsum) b t
      obtain ⟨_, hmono⟩ := refill_ok b (hr ▸ hf) hb t
      simp only [List.length_cons] at hl
      push_cast at hl
      have hn : (0 : ℚ) ≤ ts.length := by positivity
      have hyes : (b.takeAt fsum t).2 = true := s5.mpr (by linarith)
      simp only [Bucket.run, List.length_cons, hyes, if_true]
      rw [ih _ (s2.trans hr) (takeAt_ok b (hr ▸ hf) hb t)]
      rw [s4, hyes]
      simp only [if_true]
      linarith
  apply key ts _ rfl (newAt_ok _ _ _)
  simp only [Bucket.newAt]
  exact_mod_cast h

/-- ... and a sender that leaves at least `1/rate` seconds (plus rounding) between packets is never
refused, whatever happened before. -/
theorem spaced_admitted {fsum : ℚ → Nat → ℚ} {ε : ℚ} (cap rate start : Nat) (hc : 1 ≤ cap)
    (hf : FSum rate ε fsum) (before : List Nat) (t : Nat)
    (h : ((Bucket.newAt cap rate start).run fsum before).1.last < t)
    (hgap : 1 + ε ≤ rate * (((t - ((Bucket.newAt cap rate start).run fsum before).1.last : Nat) : ℚ) / 10 ^ 9)) :
    (((Bucket.newAt cap rate start).run fsum before).1.takeAt fsum t).2 = true := by
  obtain ⟨hok, hcap, hrate⟩ := run_ok before (Bucket.newAt cap rate start) hf (newAt_ok _ _ _)
  have hcap' : ((Bucket.newAt cap rate start).run fsum before).1.capacity = (cap : ℚ) := hcap
  generalize ((Bucket.newAt cap rate start).run fsum before).1 = b at *
  rw [(takeAt_spec (fsum := fsum) b t).2.2.2.2, refill_later _ _ _ h]
  simp only
  have h1 := hf.lower b.tokens (t - b.last)
  have h0 := hok.1
  refine le_min (by linarith) ?_
  rw [hcap']; exact_mod_cast hc

/-- Concrete run: burst 2, rate 1/s; five packets within one second: the first two pass; at 2 s a
third one passes. -/
example : ((Bucket.newAt 2 1 0).run (fun x e => x + (1 : Nat) * (e / 10 ^ 9)) [0, 0, 5, 3, 10]).2 = 2 ∧
    ((Bucket.newAt 2 1 0).run (fun x e => x + (1 : Nat) * (e / 10 ^ 9)) [0, 0, 5, 3, 10, 2000000000]).2 = 3 := by
  norm_num [Bucket.run, Bucket.takeAt, Bucket.refill, Bucket.newAt]

end Horus.NetFilter
