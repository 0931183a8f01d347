import Mathlib.Data.Nat.Digits.Defs
import Mathlib.Tactic.Common

/-!
Where a tensor lives: the text of a device and its DLPack numbers.

Specification: a device written as text or as DLPack numbers is read back as the same device.

Source: /repo/horus_core/src/types/device.rs.
-/

namespace Horus.Device

/-- `Device` (device.rs:22-31): an 8-bit kind and a 32-bit index. -/
structure Dev where
  kind : Nat
  id : Nat
  deriving DecidableEq, Repr

/-- `Device::cpu` (device.rs:45-49, 59-62). -/
def cpu : Dev := ⟨0, 0⟩

/-- `Device::cuda` (device.rs:65-72). -/
def cuda (i : Nat) : Dev := ⟨1, i⟩

/-- `u32::from_str`: an optional plus sign and decimal digits, less than 2^32. -/
def parseU32 (s : List Char) : Option Nat :=
  let d := match s with | '+' :: r => r | _ => s
  if d ≠ [] ∧ d.all Char.isDigit = true then
    let n := d.foldl (fun n c => n * 10 + (c.toNat - 48)) 0
    if n < 2 ^ 32 then some n else none
  else none

/-- The text after the prefix up to a further colon: `s.split(':').nth(1)` of a text that begins with `prefix`
and a colon. -/
def field (s : List Char) : List Char := s.takeWhile (· != ':')

/-- `Device::parse` (device.rs:87-99). -/
def parse (t : List Char) : Option Dev :=
  let s := t.map Char.toLower
  if s = "cpu".toList then some cpu
  else if s = "cuda".toList ∨ s = "gpu".toList then some (cuda 0)
  else if "cuda:".toList <+: s then (parseU32 (field (s.drop 5))).map cuda
  else if "gpu:".toList <+: s then (parseU32 (field (s.drop 4))).map cuda
  else none

/-- `Display` (device.rs:137-145); also the serialized form (device.rs:148-155). -/
def text (d : Dev) : List Char :=
  if d.kind = 0 then "cpu".toList else "cuda:".toList ++ Nat.toDigits 10 d.id

/-- `to_dlpack_device_type` (device.rs:103-109). -/
def dlType (d : Dev) : Int := if d.kind = 0 then 1 else if d.kind = 1 then 2 else 1

/-- `u32 as i32`. -/
def asI32 (n : Nat) : Int := if n < 2 ^ 31 then n else (n : Int) - 2 ^ 32

/-- `to_dlpack_device_id` (device.rs:113-119). -/
def dlId (d : Dev) : Int := if d.kind = 0 then 0 else asI32 d.id

/-- `from_dlpack` (device.rs:122-134). -/
def fromDl (ty id : Int) : Option Dev :=
  if ty = 1 then some cpu
  else if ty = 2 then (if id < 0 then none else some (cuda id.toNat))
  else none

/-! ### Proofs -/

theorem digits_all (n : Nat) : (Nat.toDigits 10 n).all Char.isDigit = true :=
  List.all_eq_true.2 fun _ h => Nat.isDigit_of_mem_toDigits (b := 10) (by decide) (by decide) h

theorem digits_fold (n : Nat) : (Nat.toDigits 10 n).foldl (fun n c => n * 10 + (c.toNat - 48)) 0 = n := by
  have := Nat.ofDigitChars_ten_toDigits (n := n)
  rw [Nat.ofDigitChars_eq_foldl] at this
  conv => rhs; rw [← this]
  congr 1
  funext a c
  rw [Nat.mul_comm]; rfl

theorem digit_lower (c : Char) (h : c.isDigit = true) : c.toLower = c := by
  unfold Char.isDigit at h
  simp only [Bool.and_eq_true, decide_eq_true_eq] at h
  unfold Char.toLower
  rw [dif_neg]
  intro hc
  have h1 : c.val.toNat ≤ 57 := h.2
  have h2 : 65 ≤ c.val.toNat := hc.1
  omega

theorem parseU32_digits (n : Nat) (h : n < 2 ^ 32) : parseU32 (Nat.toDigits 10 n) = some n := by
  have hd : (match Nat.toDigits 10 n with | '+' :: r => r | _ => Nat.toDigits 10 n) = Nat.toDigits 10 n := by
    cases hx : Nat.toDigits 10 n with
    | nil => rfl
    | cons c r =>
      have hc : c.isDigit = true := List.all_eq_true.1 (digits_all n) c (by rw [hx]; exact List.mem_cons_self ..)
      by_cases hp : c = '+'
      · subst hp; exact absurd hc (by decide)
      · split
        · rename_i heq; exact absurd (List.cons.inj heq).1 hp
        · rfl
  unfold parseU32
  dsimp only
  rw [hd, if_pos ⟨by simp, digits_all n⟩, digits_fold, if_pos h]

/-- **A device's text is read back as that device.** -/
theorem text_roundtrip (i : Nat) (h : i < 2 ^ 32) : parse (text cpu) = some cpu ∧ parse (text (cuda i)) = some (cuda i) := by
  refine ⟨by decide, ?_⟩
  have hl : (text (cuda i)).map Char.toLower = "cuda:".toList ++ Nat.toDigits 10 i := by
    unfold text cuda
    dsimp only
    rw [if_neg (show ¬ (1 = 0) by decide), List.map_append]
    congr 1
    conv => rhs; rw [← List.map_id (Nat.toDigits 10 i)]
    exact List.map_congr_left fun c hc => digit_lower c (List.all_eq_true.1 (digits_all i) c hc)
  unfold parse
  dsimp only
  rw [hl, if_neg (by simp), if_neg (by simp), if_pos (List.prefix_append _ _)]
  have hf : field (("cuda:".toList ++ Nat.toDigits 10 i).drop 5) = Nat.toDigits 10 i := by
    show field (Nat.toDigits 10 i) = _
    unfold field
    have hall : ∀ l : List Char, (∀ c ∈ l, (c != ':') = true) → l.takeWhile (· != ':') = l := by
      intro l
      induction l with
      | nil => intro _; rfl
      | cons a l ih =>
        intro hl
        rw [List.takeWhile_cons, if_pos (hl a (List.mem_cons_self ..)), ih fun c hc => hl c (List.mem_cons_of_mem _ hc)]
    apply hall
    intro c hc
    have h1 : c.isDigit = true := List.all_eq_true.1 (digits_all i) c hc
    have : c ≠ ':' := fun e => by subst e; exact absurd h1 (by decide)
    simpa using this
  rw [hf, parseU32_digits i h]
  rfl

theorem parseU32_lt (s : List Char) (n : Nat) (h : parseU32 s = some n) : n < 2 ^ 32 := by
  unfold parseU32 at h
  simp only [Option.ite_none_right_eq_some, Option.some.injEq] at h
  obtain ⟨_, h1, rfl⟩ := h
  exact h1

/-- Whatever text is accepted means the CPU or a CUDA device, and writing that device gives a text that means
the same. -/
theorem parse_sound (t : List Char) (d : Dev) (h : parse t = some d) :
    (d = cpu ∨ ∃ i, i < 2 ^ 32 ∧ d = cuda i) ∧ parse (text d) = some d := by
  have hd : d = cpu ∨ ∃ i, i < 2 ^ 32 ∧ d = cuda i := by
    unfold parse at h
    dsimp only at h
    by_cases h1 : t.map Char.toLower = "cpu".toList
    · rw [if_pos h1] at h; exact .inl (Option.some.inj h).symm
    rw [if_neg h1] at h
    by_cases h2 : t.map Char.toLower = "cuda".toList ∨ t.map Char.toLower = "gpu".toList
    · rw [if_pos h2] at h; exact .inr ⟨0, by decide, (Option.some.inj h).symm⟩
    rw [if_neg h2] at h
    by_cases h3 : "cuda:".toList <+: t.map Char.toLower
    · rw [if_pos h3, Option.map_eq_some_iff] at h
      obtain ⟨i, hi, rfl⟩ := h
      exact .inr ⟨i, parseU32_lt _ _ hi, rfl⟩
    rw [if_neg h3] at h
    by_cases h4 : "gpu:".toList <+: t.map Char.toLower
    · rw [if_pos h4, Option.map_eq_some_iff] at h
      obtain ⟨i, hi, rfl⟩ := h
      exact .inr ⟨i, parseU32_lt _ _ hi, rfl⟩
    rw [if_neg h4] at h; exact nomatch h
  refine ⟨hd, ?_⟩
  rcases hd with rfl | ⟨i, hi, rfl⟩
  · exact (text_roundtrip 0 (by decide)).1
  · exact (text_roundtrip i hi).2

example : parse "GPU:7".toList = some (cuda 7) ∧ parse "cuda".toList = some (cuda 0) ∧ parse "cuda:4294967296".toList = none ∧
    parse "tpu".toList = none ∧ text (cuda 12) = "cuda:12".toList := by decide +kernel

/-- **The numbers of a device are read back as that device** for indices a DLPack id can hold. -/
theorem dlpack_roundtrip_partial (i : Nat) (h : i < 2 ^ 31) :
    fromDl (dlType cpu) (dlId cpu) = some cpu ∧ fromDl (dlType (cuda i)) (dlId (cuda i)) = some (cuda i) := by
  refine ⟨by decide, ?_⟩
  have h1 : dlType (cuda i) = 2 := rfl
  have h2 : dlId (cuda i) = (i : Int) := by
    unfold dlId asI32 cuda
    dsimp only
    rw [if_neg (show ¬ (1 = 0) by decide), if_pos h]
  rw [h1, h2]
  unfold fromDl
  rw [if_neg (by decide), if_pos rfl, if_neg (by omega)]
  rfl

/-- **A larger index does not survive**: it becomes a negative id, which is refused. -/
theorem dlpack_large (i : Nat) (h1 : 2 ^ 31 ≤ i) (h2 : i < 2 ^ 32) : fromDl (dlType (cuda i)) (dlId (cuda i)) = none := by
  have h3 : dlId (cuda i) = (i : Int) - 2 ^ 32 := by
    unfold dlId asI32 cuda
    dsimp only
    rw [if_neg (show ¬ (1 = 0) by decide), if_neg (by omega)]
  rw [show dlType (cuda i) = 2 from rfl, h3]
  unfold fromDl
  rw [if_neg (by decide), if_pos rfl, if_pos (by omega)]

/-- **A device of an unknown kind has two identities**: as text it is a CUDA device, in DLPack it is a CPU. -/
theorem unknown_kind (k i : Nat) (hk : 2 ≤ k) (h : i < 2 ^ 32) :
    parse (text ⟨k, i⟩) = some (cuda i) ∧ fromDl (dlType ⟨k, i⟩) (dlId ⟨k, i⟩) = some cpu := by
  refine ⟨?_, ?_⟩
  · have : text ⟨k, i⟩ = text (cuda i) := by
      unfold text cuda
      dsimp only
      rw [if_neg (by omega), if_neg (by omega)]
    rw [this]
    exact (text_roundtrip i h).2
  · have h1 : dlType ⟨k, i⟩ = 1 := by
      unfold dlType
      dsimp only
      rw [if_neg (by omega), if_neg (by omega)]
    rw [h1]
    unfold fromDl
    rw [if_pos rfl]

/-- **Text after a second colon is ignored, and a plus sign accepted.** -/
theorem junk_accepted : parse "cuda:1:99 bottles".toList = some (cuda 1) ∧ parse "cuda:+3".toList = some (cuda 3) := by decide +kernel

end Horus.Device
