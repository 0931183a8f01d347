import Mathlib.Tactic.Common
import Mathlib.Data.List.Basic

/-!
Which message types are copied byte by byte.

Specification: a type whose values are handed to other processes as raw bytes must contain nothing that is owned,
no addresses, and no values for which only some byte patterns are allowed; plain numeric types should be accepted.

Source: /repo/horus_core/src/communication/pod.rs:69-106 (`is_pod`).

Simplifications: types are built from numbers, padding, `bool`, fieldless enums, owned values (`String`, `Vec`, `Box`),
`'static` references, arrays and pairs; a struct is nested pairs, its padding written out.  `needs_drop` is
computed as rustc does: an owned value anywhere, in an array of at least one element.
-/

namespace Horus.Pod

inductive Ty
  | num (size : Nat)
  | pad (size : Nat)
  | bool
  | enum (variants : Nat)
  | owned
  | staticRef
  | unit
  | array (n : Nat) (t : Ty)
  | pair (a b : Ty)
  deriving DecidableEq, Repr

/-- `size_of` on a 64-bit machine. -/
def size : Ty → Nat
  | .num n => n
  | .pad n => n
  | .bool => 1
  | .enum v => if v ≤ 1 then 0 else 1
  | .owned => 24
  | .staticRef => 8
  | .unit => 0
  | .array n t => n * size t
  | .pair a b => size a + size b

/-- `needs_drop`. -/
def needsDrop : Ty → Bool
  | .owned => true
  | .array n t => decide (0 < n) && needsDrop t
  | .pair a b => needsDrop a || needsDrop b
  | _ => false

/-- `is_pod` (pod.rs:100-106). -/
def isPod (t : Ty) : Bool := !needsDrop t && decide (1 < size t)

/-- The byte patterns that are values of the type, for a reader in another process: owned values and references
written elsewhere are never valid. -/
def valid : Ty → List (Fin 256) → Bool
  | .num n, b => b.length == n
  | .pad n, b => b.length == n
  | .bool, b => b == [0] || b == [1]
  | .enum v, b => if v ≤ 1 then b.isEmpty && v == 1 else match b with | [x] => decide (x.1 < v) | _ => false
  | .owned, _ => false
  | .staticRef, _ => false
  | .unit, b => b.isEmpty
  | .array n t, b => b.length == n * size t && (List.range n).all fun i => valid t ((b.drop (i * size t)).take (size t))
  | .pair x y, b => b.length == size x + size y && valid x (b.take (size x)) && valid y (b.drop (size x))

/-- Specification: numbers, in arrays and structs. -/
def plain : Ty → Bool
  | .num _ => true
  | .pad _ => true
  | .unit => true
  | .array _ t => plain t
  | .pair a b => plain a && plain b
  | _ => false

/-- Specification: somewhere in each value of the type there is one of these. -/
def inside (p : Ty → Bool) : Ty → Bool
  | .array n t => decide (0 < n) && inside p t
  | .pair a b => inside p a || inside p b
  | t => p t

/-! ### Proofs -/

theorem plain_no_drop (t : Ty) (h : plain t = true) : needsDrop t = false := by
  induction t with
  | array n t ih => simp only [plain] at h; simp [needsDrop, ih h]
  | pair a b iha ihb => simp only [plain, Bool.and_eq_true] at h; simp [needsDrop, iha h.1, ihb h.2]
  | owned => exact absurd h (by decide)
  | _ => rfl

/-- **Plain types of more than one byte are accepted, and whatever bytes arrive are a value of them.** -/
theorem plain_accepted (t : Ty) (h : plain t = true) (hs : 1 < size t) :
    isPod t = true ∧ ∀ b : List (Fin 256), b.length = size t → valid t b = true := by
  refine ⟨by simp [isPod, plain_no_drop t h, hs], ?_⟩
  clear hs
  induction t with
  | num n => intro b hb; simpa [valid, size] using hb
  | pad n => intro b hb; simpa [valid, size] using hb
  | unit => intro b hb; simpa [valid, size] using hb
  | array n t ih =>
    intro b hb
    simp only [plain] at h
    simp only [size] at hb
    simp only [valid, Bool.and_eq_true, beq_iff_eq, List.all_eq_true, List.mem_range]
    refine ⟨hb, fun i hi => ih h _ ?_⟩
    rw [List.length_take, List.length_drop, hb]
    have h1 : (i + 1) * size t ≤ n * size t := Nat.mul_le_mul_right _ hi
    rw [Nat.add_mul, Nat.one_mul] at h1
    omega
  | pair x y ihx ihy =>
    intro b hb
    simp only [plain, Bool.and_eq_true] at h
    simp only [size] at hb
    simp only [valid, Bool.and_eq_true, beq_iff_eq]
    refine ⟨⟨hb, ihx h.1 _ ?_⟩, ihy h.2 _ ?_⟩
    · rw [List.length_take, hb]; omega
    · rw [List.length_drop, hb]; omega
  | _ => exact absurd h (by simp [plain])

/-- **A type with something owned inside, however deep, is refused.** -/
theorem owned_refused (t : Ty) (h : inside (fun x => x == .owned) t = true) : isPod t = false := by
  have hd : needsDrop t = true := by
    induction t with
    | owned => rfl
    | array n t ih => simp only [inside, Bool.and_eq_true] at h; simp [needsDrop, ih h.2]; simpa using h.1
    | pair a b iha ihb =>
      simp only [inside, Bool.or_eq_true] at h
      rcases h with h | h
      · simp [needsDrop, iha h]
      · simp [needsDrop, ihb h]
    | _ => exact absurd h (by simp [inside])
  simp [isPod, hd]

/-- **Exactly**: accepted are the types with nothing owned inside and more than one byte. -/
theorem accepted_iff (t : Ty) : isPod t = true ↔ inside (fun x => x == .owned) t = false ∧ 1 < size t := by
  constructor
  · intro h
    refine ⟨?_, ?_⟩
    · by_contra hc
      rw [Bool.not_eq_false] at hc
      rw [owned_refused t hc] at h
      exact absurd h (by decide)
    · simp only [isPod, Bool.and_eq_true, decide_eq_true_eq] at h
      exact h.2
  · rintro ⟨h, hs⟩
    have hd : needsDrop t = false := by
      clear hs
      induction t with
      | owned => exact absurd h (by decide)
      | array n t ih =>
        simp only [inside, Bool.and_eq_false_iff] at h
        rcases h with h | h
        · simp only [needsDrop, h, Bool.false_and]
        · simp only [needsDrop, ih h, Bool.and_false]
      | pair a b iha ihb => simp only [inside, Bool.or_eq_false_iff] at h; simp [needsDrop, iha h.1, ihb h.2]
      | _ => rfl
    simp [isPod, hd, hs]

/-- `struct { stamp: u64, pose: [f32; 3], flags: (u16, padding) }` -/
example : isPod (.pair (.num 8) (.pair (.array 3 (.num 4)) (.pair (.num 2) (.pad 2)))) = true ∧
    isPod (.pair (.num 8) (.array 2 (.pair (.num 4) .owned))) = false := by decide

/-- **A flag alone is refused, but beside anything else it is accepted**: then some byte patterns of the right
length are not values. -/
theorem flag_accepted (n : Nat) (hn : 0 < n) :
    isPod .bool = false ∧ isPod (.pair (.num n) .bool) = true ∧
    ∃ b : List (Fin 256), b.length = size (.pair (.num n) .bool) ∧ valid (.pair (.num n) .bool) b = false := by
  refine ⟨by decide, by simp [isPod, needsDrop, size]; omega, List.replicate (n + 1) 2, by simp [size], ?_⟩
  simp [valid, size, List.drop_replicate]

/-- **Two enums side by side are accepted.** -/
theorem enum_accepted (v w : Nat) (hv : 1 < v) (hw : 1 < w) (hb : v < 256) :
    isPod (.enum v) = false ∧ isPod (.pair (.enum v) (.enum w)) = true ∧
    ∃ b : List (Fin 256), b.length = size (.pair (.enum v) (.enum w)) ∧ valid (.pair (.enum v) (.enum w)) b = false := by
  have hv' : ¬ v ≤ 1 := by omega
  have hw' : ¬ w ≤ 1 := by omega
  refine ⟨by simp [isPod, needsDrop, size, hv'], by simp [isPod, needsDrop, size, hv', hw'], [⟨v, hb⟩, 0], by simp [size, hv', hw'], ?_⟩
  simp [valid, size, hv', hw']

/-- **Addresses are accepted**: a field of type `&'static str`, skipped by serde, is copied to the other process,
where no bytes are a valid one. -/
theorem address_accepted (n : Nat) : isPod (.pair (.num n) .staticRef) = true ∧
    ∀ b, valid (.pair (.num n) .staticRef) b = false := by
  refine ⟨by simp [isPod, needsDrop, size], fun b => by simp [valid]⟩

/-- **A single byte is refused though it is plain**, the price paid for refusing `bool`. -/
theorem byte_refused : plain (.num 1) = true ∧ isPod (.num 1) = false := by decide

end Horus.Pod
