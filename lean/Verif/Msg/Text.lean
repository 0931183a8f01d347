import Mathlib.Data.List.Basic
import Mathlib.Tactic.Common
/-
Text kept in fixed buffers of messages, and the cutting of log lines. Source: /repo/horus_types/src/diagnostics.rs
(Heartbeat::new/name 66-98, DiagnosticStatus::new/with_component/message_str/component_str 150-208, EmergencyStop::engage/
with_source/reason_str 242-284, DiagnosticValue::string 370-389, DiagnosticReport::new 443-456),
/repo/horus_types/src/time.rs:175-195 (TimeReference::new/source_name), and
/repo/horus_types/src/generic.rs:249-258 (truncate_on_char_boundary).
A byte is a natural number below 256, a character is its code point.
-/
namespace Horus.Text

/-- UTF-8 of one character (RFC 3629, `char::encode_utf8`). -/
def enc (n : Nat) : List Nat :=
  if n < 0x80 then [n]
  else if n < 0x800 then [192 + n / 64, 128 + n % 64]
  else if n < 0x10000 then [224 + n / 4096, 128 + n / 64 % 64, 128 + n % 64]
  else [240 + n / 262144, 128 + n / 4096 % 64, 128 + n / 64 % 64, 128 + n % 64]

/-- `str::as_bytes`. -/
def bytes (s : List Char) : List Nat := s.flatMap fun c => enc c.toNat

/-- A continuation byte. -/
def cont (b : Nat) : Bool := decide (128 ≤ b ∧ b < 192)

/-- Which second bytes may follow the first byte of a three-byte character. -/
def second3 (a b : Nat) : Bool :=
  if a = 0xE0 then decide (0xA0 ≤ b ∧ b < 192) else if a = 0xED then decide (128 ≤ b ∧ b < 0xA0) else cont b

/-- Which second bytes may follow the first byte of a four-byte character. -/
def second4 (a b : Nat) : Bool :=
  if a = 0xF0 then decide (0x90 ≤ b ∧ b < 192) else if a = 0xF4 then decide (128 ≤ b ∧ b < 0x90) else cont b

/-- The first character of a byte string, or the length of the first piece that is not one
(core::str::lossy Utf8Chunks::next: a missing byte reads as 0). -/
def first (l : List Nat) : Option Nat × Nat :=
  let a := l.getD 0 0
  let b := l.getD 1 0
  let c := l.getD 2 0
  let d := l.getD 3 0
  if a < 0x80 then (some a, 1)
  else if 0xC2 ≤ a ∧ a ≤ 0xDF then
    if cont b then (some ((a - 192) * 64 + (b - 128)), 2) else (none, 1)
  else if 0xE0 ≤ a ∧ a ≤ 0xEF then
    if second3 a b then (if cont c then (some ((a - 224) * 4096 + (b - 128) * 64 + (c - 128)), 3) else (none, 2)) else (none, 1)
  else if 0xF0 ≤ a ∧ a ≤ 0xF4 then
    if second4 a b then
      (if cont c then (if cont d then (some ((a - 240) * 262144 + (b - 128) * 4096 + (c - 128) * 64 + (d - 128)), 4) else (none, 3)) else (none, 2))
    else (none, 1)
  else (none, 1)

/-- U+FFFD, the replacement character. -/
def bad : Nat := 0xFFFD

/-- `String::from_utf8_lossy`. -/
def lossyF : Nat → List Nat → List Nat
  | 0, _ => []
  | _, [] => []
  | n + 1, l => (first l).1.getD bad :: lossyF n (l.drop (first l).2)

def lossy (l : List Nat) : List Nat := lossyF l.length l

/-- `std::str::from_utf8`. -/
def strictF : Nat → List Nat → Option (List Nat)
  | 0, _ => some []
  | _, [] => some []
  | n + 1, l => match (first l).1 with
    | none => none
    | some c => (strictF n (l.drop (first l).2)).map (c :: ·)

def strict (l : List Nat) : Option (List Nat) := strictF l.length l

/-- The writers: at most `n` bytes are copied into the buffer of `n + 1` bytes and a zero is put behind them; the rest of
the buffer keeps what it held (for `TimeReference::new` that is zero, and the zero behind the text is one of these). -/
def put (n : Nat) (old : List Nat) (s : List Char) : List Nat :=
  let t := (bytes s).take n
  t ++ 0 :: old.drop (t.length + 1)

/-- The readers `name`, `message_str`, `component_str`, `reason_str`. -/
def read (buf : List Nat) : List Nat := lossy (buf.takeWhile (· ≠ 0))

/-- time.rs:192 `source_name`. -/
def readStrict (buf : List Nat) : List Nat := (strict (buf.takeWhile (· ≠ 0))).getD []

/-- `str::is_char_boundary`. -/
def boundary (l : List Nat) (i : Nat) : Bool := if i ≥ l.length then decide (i = l.length) else !cont (l.getD i 0)

/-- generic.rs:253-256: the loop. -/
def back (l : List Nat) : Nat → Nat
  | 0 => 0
  | e + 1 => if boundary l (e + 1) then e + 1 else back l e

/-- generic.rs:249 `truncate_on_char_boundary`: the bytes that stay. The slice at the end panics off a boundary. -/
def truncate (l : List Nat) (max : Nat) : List Nat := if l.length ≤ max then l else l.take (back l max)

/-! ### Specification -/

/-- The code points of a text. -/
def cps (s : List Char) : List Nat := s.map Char.toNat

/-- `p` is the longest part from the front of `s` that fits in `n` bytes of UTF-8. -/
def Longest (n : Nat) (s p : List Char) : Prop :=
  p <+: s ∧ (bytes p).length ≤ n ∧ ∀ q, q <+: s → (bytes q).length ≤ n → q.length ≤ p.length

/-! ### Characters -/

theorem char_range (c : Char) : c.toNat < 0xD800 ∨ (0xDFFF < c.toNat ∧ c.toNat < 0x110000) := c.valid

theorem enc_pos (n : Nat) : 0 < (enc n).length := by
  unfold enc
  split_ifs <;> simp

theorem first_enc (c : Char) (rest : List Nat) : first (enc c.toNat ++ rest) = (some c.toNat, (enc c.toNat).length) := by
  have hr := char_range c
  generalize c.toNat = n at hr ⊢
  unfold enc
  split_ifs with h1 h2 h3
  · simp [first, h1]
  · simp only [first, List.cons_append, List.nil_append, List.getD_cons_zero, List.getD_cons_succ, cont]
    rw [if_neg (by omega), if_pos (by omega), if_pos (by simp; omega)]
    refine Prod.ext (congrArg some ?_) rfl
    omega
  · simp only [first, List.cons_append, List.nil_append, List.getD_cons_zero, List.getD_cons_succ, cont, second3]
    rw [if_neg (by omega), if_neg (by omega), if_pos (by omega), if_pos (by split_ifs <;> simp <;> omega), if_pos (by simp; omega)]
    refine Prod.ext (congrArg some ?_) rfl
    omega
  · simp only [first, List.cons_append, List.nil_append, List.getD_cons_zero, List.getD_cons_succ, cont, second4]
    rw [if_neg (by omega), if_neg (by omega), if_neg (by omega), if_pos (by omega), if_pos (by split_ifs <;> simp <;> omega), if_pos (by simp; omega),
      if_pos (by simp; omega)]
    refine Prod.ext (congrArg some ?_) rfl
    omega

/-- A character that is cut is one bad piece. -/
theorem first_cut (c : Char) (k : Nat) (hk0 : 0 < k) (hk : k < (enc c.toNat).length) : first ((enc c.toNat).take k) = (none, k) := by
  have hr := char_range c
  generalize c.toNat = n at hr hk ⊢
  unfold enc at hk ⊢
  split_ifs at hk ⊢ with h1 h2 h3
  · simp at hk; omega
  · obtain rfl : k = 1 := by simp at hk; omega
    simp only [first, List.take_succ_cons, List.take_zero, List.getD_cons_zero, List.getD_cons_succ, List.getD_nil, cont]
    rw [if_neg (by omega), if_pos (by omega), if_neg (by simp)]
  · rcases (show k = 1 ∨ k = 2 by simp at hk; omega) with rfl | rfl
    · simp only [first, List.take_succ_cons, List.take_zero, List.getD_cons_zero, List.getD_cons_succ, List.getD_nil, cont, second3]
      rw [if_neg (by omega), if_neg (by omega), if_pos (by omega), if_neg (by split_ifs <;> simp)]
    · simp only [first, List.take_succ_cons, List.take_zero, List.getD_cons_zero, List.getD_cons_succ, List.getD_nil, cont, second3]
      rw [if_neg (by omega), if_neg (by omega), if_pos (by omega), if_pos (by split_ifs <;> simp <;> omega), if_neg (by simp)]
  · rcases (show k = 1 ∨ k = 2 ∨ k = 3 by simp at hk; omega) with rfl | rfl | rfl
    · simp only [first, List.take_succ_cons, List.take_zero, List.getD_cons_zero, List.getD_cons_succ, List.getD_nil, cont, second4]
      rw [if_neg (by omega), if_neg (by omega), if_neg (by omega), if_pos (by omega), if_neg (by split_ifs <;> simp)]
    · simp only [first, List.take_succ_cons, List.take_zero, List.getD_cons_zero, List.getD_cons_succ, List.getD_nil, cont, second4]
      rw [if_neg (by omega), if_neg (by omega), if_neg (by omega), if_pos (by omega), if_pos (by split_ifs <;> simp <;> omega), if_neg (by simp)]
    · simp only [first, List.take_succ_cons, List.take_zero, List.getD_cons_zero, List.getD_cons_succ, List.getD_nil, cont, second4]
      rw [if_neg (by omega), if_neg (by omega), if_neg (by omega), if_pos (by omega), if_pos (by split_ifs <;> simp <;> omega), if_pos (by simp; omega), if_neg (by simp)]

theorem bytes_cons (c : Char) (s : List Char) : bytes (c :: s) = enc c.toNat ++ bytes s := rfl

theorem bytes_append (s t : List Char) : bytes (s ++ t) = bytes s ++ bytes t := by unfold bytes; rw [List.flatMap_append]

theorem lossyF_cons (n : Nat) (l : List Nat) (h : l ≠ []) : lossyF (n + 1) l = (first l).1.getD bad :: lossyF n (l.drop (first l).2) := by
  cases l with
  | nil => exact absurd rfl h
  | cons a l => rfl

theorem strictF_cons (n : Nat) (l : List Nat) (h : l ≠ []) :
    strictF (n + 1) l = match (first l).1 with | none => none | some c => (strictF n (l.drop (first l).2)).map (c :: ·) := by
  cases l with
  | nil => exact absurd rfl h
  | cons a l => rfl

theorem append_ne {c : Char} {l : List Nat} : enc c.toNat ++ l ≠ [] := by
  intro h
  have := congrArg List.length h
  rw [List.length_append, List.length_nil] at this
  have := enc_pos c.toNat
  omega

/-- Whole characters in front are read as they are. -/
theorem lossyF_bytes (s : List Char) (t : List Nat) : ∀ n, s.length + t.length ≤ n → ∃ m, t.length ≤ m ∧ lossyF n (bytes s ++ t) = cps s ++ lossyF m t := by
  induction s with
  | nil => intro n h; exact ⟨n, by simpa using h, rfl⟩
  | cons c s ih =>
    intro n h
    simp only [List.length_cons] at h
    obtain ⟨n, rfl⟩ : ∃ k, n = k + 1 := ⟨n - 1, by omega⟩
    obtain ⟨m, hm, hr⟩ := ih n (by omega)
    refine ⟨m, hm, ?_⟩
    rw [bytes_cons, List.append_assoc, lossyF_cons _ _ append_ne, first_enc]
    simp only [Option.getD_some, List.drop_left, cps, List.map_cons, List.cons_append]
    rw [hr]
    rfl

theorem strictF_bytes (s : List Char) (t : List Nat) : ∀ n, s.length + t.length ≤ n → ∃ m, t.length ≤ m ∧ strictF n (bytes s ++ t) = (strictF m t).map (cps s ++ ·) := by
  induction s with
  | nil => intro n h; exact ⟨n, by simpa using h, by cases h : strictF n t <;> simp [bytes, cps, h]⟩
  | cons c s ih =>
    intro n h
    simp only [List.length_cons] at h
    obtain ⟨n, rfl⟩ : ∃ k, n = k + 1 := ⟨n - 1, by omega⟩
    obtain ⟨m, hm, hr⟩ := ih n (by omega)
    refine ⟨m, hm, ?_⟩
    rw [bytes_cons, List.append_assoc, strictF_cons _ _ append_ne, first_enc]
    simp only [List.drop_left]
    rw [hr, Option.map_map]
    rfl

theorem lossyF_nil (n : Nat) : lossyF n [] = [] := by cases n <;> rfl

theorem strictF_nil (n : Nat) : strictF n [] = some [] := by cases n <;> rfl

theorem length_le_bytes (s : List Char) : s.length ≤ (bytes s).length := by
  induction s with
  | nil => exact Nat.zero_le _
  | cons c s ih =>
    rw [bytes_cons, List.length_append, List.length_cons]
    have := enc_pos c.toNat
    omega

/-- Where `n` bytes of a text end: whole characters, then a part of one. -/
theorem cut (n : Nat) (s : List Char) : ∃ p rest, s = p ++ rest ∧
    ((rest = [] ∧ (bytes s).take n = bytes p ∧ (bytes p).length ≤ n) ∨
      ∃ c r k, rest = c :: r ∧ k < (enc c.toNat).length ∧ (bytes s).take n = bytes p ++ (enc c.toNat).take k ∧ (bytes p).length + k = n) := by
  induction s generalizing n with
  | nil => exact ⟨[], [], rfl, .inl ⟨rfl, by simp [bytes], Nat.zero_le _⟩⟩
  | cons c s ih =>
    by_cases h : n < (enc c.toNat).length
    · refine ⟨[], c :: s, rfl, .inr ⟨c, s, n, rfl, h, ?_, by simp [bytes]⟩⟩
      rw [bytes_cons, List.take_append_of_le_length (by omega)]
      rfl
    · obtain ⟨p, rest, hs, hc⟩ := ih (n - (enc c.toNat).length)
      have ht : (bytes (c :: s)).take n = enc c.toNat ++ (bytes s).take (n - (enc c.toNat).length) := by
        rw [bytes_cons, List.take_append, List.take_of_length_le (by omega)]
      refine ⟨c :: p, rest, by rw [hs]; rfl, ?_⟩
      rcases hc with ⟨h1, h2, h3⟩ | ⟨c', r, k, h1, h2, h3, h4⟩
      · refine .inl ⟨h1, by rw [ht, h2]; rfl, ?_⟩
        rw [bytes_cons, List.length_append]
        omega
      · refine .inr ⟨c', r, k, h1, h2, by rw [ht, h3, bytes_cons, List.append_assoc], ?_⟩
        rw [bytes_cons, List.length_append]
        omega

theorem prefix_bytes {p q : List Char} (h : p <+: q) : (bytes p).length ≤ (bytes q).length := by
  obtain ⟨t, rfl⟩ := h
  rw [bytes_append, List.length_append]
  omega

theorem longest_all (n : Nat) (s : List Char) (h : (bytes s).length ≤ n) : Longest n s s :=
  ⟨List.prefix_refl s, h, fun _ hq _ => hq.length_le⟩

theorem longest_cut {n : Nat} {s p r : List Char} {c : Char} (hs : s = p ++ c :: r) (h1 : (bytes p).length ≤ n) (h2 : n < (bytes p).length + (enc c.toNat).length) :
    Longest n s p := by
  refine ⟨⟨c :: r, hs.symm⟩, h1, ?_⟩
  intro q hq hqn
  by_contra hlt
  have hpre : p ++ [c] <+: q := by
    have : p ++ [c] <+: s := ⟨r, by rw [hs]; simp⟩
    exact List.prefix_of_prefix_length_le this hq (by simp; omega)
  have := prefix_bytes hpre
  rw [bytes_append, List.length_append] at this
  simp only [bytes, List.flatMap_cons, List.flatMap_nil, List.append_nil] at this
  simp only [bytes] at h1 h2 hqn
  omega

theorem longest_unique {n : Nat} {s p q : List Char} (hp : Longest n s p) (hq : Longest n s q) : p = q := by
  have hl : p.length = q.length := Nat.le_antisymm (hq.2.2 p hp.1 hp.2.1) (hp.2.2 q hq.1 hq.2.1)
  exact List.IsPrefix.eq_of_length (List.prefix_of_prefix_length_le hp.1 hq.1 (by omega)) hl

theorem enc_nonzero (c : Char) (h : c ≠ '\x00') : ∀ b ∈ enc c.toNat, b ≠ 0 := by
  have h0 : c.toNat ≠ 0 := by
    intro h0
    exact h (Char.toNat_inj.1 h0)
  intro b hb
  unfold enc at hb
  split_ifs at hb <;> simp at hb <;> omega

theorem bytes_nonzero (s : List Char) (h : ∀ c ∈ s, c ≠ '\x00') : ∀ b ∈ bytes s, b ≠ 0 := by
  intro b hb
  obtain ⟨c, hc, hb⟩ := List.mem_flatMap.1 hb
  exact enc_nonzero c (h c hc) b hb

/-- What the readers see is what was copied. -/
theorem put_seen (n : Nat) (old : List Nat) (s : List Char) (hz : ∀ c ∈ s, c ≠ '\x00') : (put n old s).takeWhile (· ≠ 0) = (bytes s).take n := by
  unfold put
  dsimp only
  rw [List.takeWhile_append_of_pos]
  · simp
  · intro b hb
    simpa using bytes_nonzero s hz b (List.mem_of_mem_take hb)

/-- **The buffer keeps its size.** -/
theorem put_length (n : Nat) (old : List Nat) (s : List Char) (h : old.length = n + 1) : (put n old s).length = n + 1 := by
  unfold put
  dsimp only
  rw [List.length_append, List.length_cons, List.length_drop, h]
  have : ((bytes s).take n).length ≤ n := by rw [List.length_take]; exact Nat.min_le_left _ _
  omega

/-- **A text reads back.** For every text without a NUL, whatever the buffer held before: the reader gives the longest part
from the front that fits in `n` bytes, and behind it the replacement character exactly if bytes were left over that
the next character did not fit in. -/
theorem text_reads_back (n : Nat) (old : List Nat) (s : List Char) (hz : ∀ c ∈ s, c ≠ '\x00') :
    ∃ p, Longest n s p ∧ read (put n old s) = cps p ++ if p = s ∨ (bytes p).length = n then [] else [bad] := by
  unfold read
  rw [put_seen n old s hz]
  obtain ⟨p, rest, hs, h | h⟩ := cut n s
  · obtain ⟨h1, h2, h3⟩ := h
    have hps : p = s := by rw [hs, h1, List.append_nil]
    refine ⟨p, hps ▸ longest_all n p h3, ?_⟩
    rw [if_pos (.inl hps), h2, lossy]
    obtain ⟨m, _, hm⟩ := lossyF_bytes p [] (bytes p).length (by simpa using length_le_bytes p)
    rw [List.append_nil, lossyF_nil] at hm
    exact hm
  · obtain ⟨c, r, k, hr, hk, ht, hn⟩ := h
    refine ⟨p, longest_cut (hr ▸ hs) (by omega) (by omega), ?_⟩
    have hne : p ≠ s := by
      intro h
      have := congrArg List.length hs
      rw [← h, hr] at this
      simp at this
    rw [ht, lossy]
    have hlen : (bytes p ++ (enc c.toNat).take k).length = (bytes p).length + k := by
      rw [List.length_append, List.length_take]; omega
    obtain ⟨m, hm1, hm⟩ := lossyF_bytes p ((enc c.toNat).take k) (bytes p ++ (enc c.toNat).take k).length (by
      rw [List.length_append]
      have := length_le_bytes p
      omega)
    rw [hm]
    congr 1
    by_cases hk0 : k = 0
    · rw [if_pos (.inr (by omega)), hk0, List.take_zero, lossyF_nil]
    · rw [if_neg (by intro h; rcases h with h | h; exact hne h; omega)]
      have hkl : ((enc c.toNat).take k).length = k := by rw [List.length_take]; omega
      obtain ⟨m, rfl⟩ : ∃ j, m = j + 1 := ⟨m - 1, by omega⟩
      rw [lossyF_cons _ _ (by intro h; rw [h] at hkl; simp at hkl; omega), first_cut c k (by omega) hk]
      simp only [Option.getD_none]
      rw [List.drop_eq_nil_of_le (by omega), lossyF_nil]

/-- **A text that fits reads back whole.** -/
theorem text_round_trip (n : Nat) (old : List Nat) (s : List Char) (hz : ∀ c ∈ s, c ≠ '\x00') (hl : (bytes s).length ≤ n) : read (put n old s) = cps s := by
  obtain ⟨p, hp, hr⟩ := text_reads_back n old s hz
  have : p = s := longest_unique hp (longest_all n s hl)
  rw [hr, if_pos (.inl this), this, List.append_nil]

/-- **The name of a time source reads back, or vanishes.** `source_name` gives the whole name if it fits; of a longer one
the part that fits if that fills the buffer exactly; and nothing at all if a character is cut. -/
theorem source_name_reads_back (n : Nat) (old : List Nat) (s : List Char) (hz : ∀ c ∈ s, c ≠ '\x00') :
    ∃ p, Longest n s p ∧ readStrict (put n old s) = if p = s ∨ (bytes p).length = n then cps p else [] := by
  unfold readStrict
  rw [put_seen n old s hz]
  obtain ⟨p, rest, hs, h | h⟩ := cut n s
  · obtain ⟨h1, h2, h3⟩ := h
    have hps : p = s := by rw [hs, h1, List.append_nil]
    refine ⟨p, hps ▸ longest_all n p h3, ?_⟩
    rw [if_pos (.inl hps), h2, strict]
    obtain ⟨m, _, hm⟩ := strictF_bytes p [] (bytes p).length (by simpa using length_le_bytes p)
    rw [List.append_nil, strictF_nil] at hm
    rw [hm]
    simp
  · obtain ⟨c, r, k, hr, hk, ht, hn⟩ := h
    refine ⟨p, longest_cut (hr ▸ hs) (by omega) (by omega), ?_⟩
    have hne : p ≠ s := by
      intro h
      have := congrArg List.length hs
      rw [← h, hr] at this
      simp at this
    rw [ht, strict]
    obtain ⟨m, hm1, hm⟩ := strictF_bytes p ((enc c.toNat).take k) (bytes p ++ (enc c.toNat).take k).length (by
      rw [List.length_append]
      have := length_le_bytes p
      omega)
    rw [hm]
    by_cases hk0 : k = 0
    · rw [if_pos (.inr (by omega)), hk0, List.take_zero, strictF_nil]
      simp
    · rw [if_neg (by intro h; rcases h with h | h; exact hne h; omega)]
      have hkl : ((enc c.toNat).take k).length = k := by rw [List.length_take]; omega
      obtain ⟨m, rfl⟩ : ∃ j, m = j + 1 := ⟨m - 1, by omega⟩
      rw [strictF_cons _ _ (by intro h; rw [h] at hkl; simp at hkl; omega), first_cut c k (by omega) hk]
      rfl

/-- **A long name with a cut character is lost**: thirty letters and a two-byte letter that byte 31 would split. The name of
the time source reads back as the empty text, where the other readers give the thirty letters and a mark. -/
theorem source_name_lost : ∃ s : List Char, 30 < s.length ∧ (∀ c ∈ s, c ≠ '\x00') ∧ readStrict (put 31 (List.replicate 32 0) s) = [] ∧
    (read (put 31 (List.replicate 32 0) s)).length = 31 := by
  refine ⟨List.replicate 30 'a' ++ ['ü', 'r'], by decide, by decide, by decide +kernel, by decide +kernel⟩

/-! ### Cutting a log line -/

theorem enc_lead (c : Char) : cont ((enc c.toNat).getD 0 0) = false := by
  have hr := char_range c
  generalize c.toNat = n at hr ⊢
  unfold enc cont
  split_ifs <;> simp <;> omega

theorem enc_tail (c : Char) (i : Nat) (h0 : 0 < i) (hi : i < (enc c.toNat).length) : cont ((enc c.toNat).getD i 0) = true := by
  have hr := char_range c
  generalize c.toNat = n at hr hi ⊢
  unfold enc at hi ⊢
  split_ifs at hi ⊢ with h1 h2 h3
  · simp at hi; omega
  · obtain rfl : i = 1 := by simp at hi; omega
    simp [cont]; omega
  · rcases (show i = 1 ∨ i = 2 by simp at hi; omega) with rfl | rfl <;> simp [cont] <;> omega
  · rcases (show i = 1 ∨ i = 2 ∨ i = 3 by simp at hi; omega) with rfl | rfl | rfl <;> simp [cont] <;> omega

theorem getD_append_left' {l r : List Nat} {i : Nat} (h : i < l.length) : (l ++ r).getD i 0 = l.getD i 0 := by
  rw [List.getD_eq_getElem?_getD, List.getD_eq_getElem?_getD, List.getElem?_append_left h]

theorem getD_append_right' {l r : List Nat} (i : Nat) : (l ++ r).getD (l.length + i) 0 = r.getD i 0 := by
  rw [List.getD_eq_getElem?_getD, List.getD_eq_getElem?_getD, List.getElem?_append_right (by omega)]
  congr 2
  omega

/-- Inside a character there is no boundary, in front of it there is. -/
theorem boundary_at (p r : List Char) (c : Char) (k : Nat) (hk : k < (enc c.toNat).length) :
    boundary (bytes (p ++ c :: r)) ((bytes p).length + k) = decide (k = 0) := by
  have hl : (bytes (p ++ c :: r)).length = (bytes p).length + ((enc c.toNat).length + (bytes r).length) := by
    rw [bytes_append, bytes_cons, List.length_append, List.length_append]
  unfold boundary
  rw [if_neg (by omega), bytes_append, getD_append_right', bytes_cons, getD_append_left' hk]
  by_cases h : k = 0
  · rw [h, enc_lead]; rfl
  · rw [enc_tail c k (by omega) hk]; simp [h]

theorem back_cut (p r : List Char) (c : Char) : ∀ k, k < (enc c.toNat).length → back (bytes (p ++ c :: r)) ((bytes p).length + k) = (bytes p).length := by
  intro k
  induction k with
  | zero =>
    intro h
    rw [Nat.add_zero]
    cases hp : (bytes p).length with
    | zero => rfl
    | succ e =>
      have := boundary_at p r c 0 h
      rw [Nat.add_zero, hp] at this
      rw [back, this]
      rfl
  | succ k ih =>
    intro h
    rw [show (bytes p).length + (k + 1) = ((bytes p).length + k) + 1 from rfl, back]
    have := boundary_at p r c (k + 1) h
    rw [show (bytes p).length + (k + 1) = ((bytes p).length + k) + 1 from rfl] at this
    rw [this]
    rw [if_neg (by simp)]
    exact ih (by omega)

/-- **A log line is cut between characters.** For every text and limit, what stays is the longest part from the front that
fits: always text again, never more bytes than the limit. -/
theorem truncate_longest (s : List Char) (max : Nat) : ∃ p, Longest max s p ∧ truncate (bytes s) max = bytes p := by
  unfold truncate
  by_cases h : (bytes s).length ≤ max
  · rw [if_pos h]
    exact ⟨s, longest_all max s h, rfl⟩
  · rw [if_neg h]
    obtain ⟨p, rest, hs, h' | h'⟩ := cut max s
    · exfalso
      obtain ⟨h1, _, h3⟩ := h'
      rw [hs, h1, List.append_nil] at h
      exact h h3
    · obtain ⟨c, r, k, hr, hk, _, hn⟩ := h'
      rw [hr] at hs
      refine ⟨p, longest_cut hs (by omega) (by omega), ?_⟩
      rw [hs, ← hn, back_cut p r c k hk, bytes_append, List.take_left]

/-- The slice is on a boundary: it does not panic. -/
theorem truncate_no_panic (s : List Char) (max : Nat) (h : max < (bytes s).length) : boundary (bytes s) (back (bytes s) max) = true := by
  obtain ⟨p, rest, hs, h' | h'⟩ := cut max s
  · exfalso
    obtain ⟨h1, _, h3⟩ := h'
    rw [hs, h1, List.append_nil] at h
    omega
  · obtain ⟨c, r, k, hr, hk, _, hn⟩ := h'
    rw [hr] at hs
    rw [hs, ← hn, back_cut p r c k hk]
    have := boundary_at p r c 0 (enc_pos _)
    rw [Nat.add_zero] at this
    exact this

example : truncate (bytes "日本語".toList) 7 = bytes "日本".toList := by decide +kernel

example : read (put 31 (List.replicate 32 7) "motor ü".toList) = cps "motor ü".toList := by decide +kernel

example : ∃ p, Longest 4 "日本語".toList p ∧ p ≠ "日本語".toList ∧ p ≠ [] := by
  obtain ⟨p, hp, ht⟩ := truncate_longest "日本語".toList 4
  refine ⟨p, hp, ?_, ?_⟩
  · intro h
    have := hp.2.1
    rw [h] at this
    exact absurd this (by decide +kernel)
  · intro h
    rw [h] at ht
    exact absurd ht (by decide +kernel)

end Horus.Text
