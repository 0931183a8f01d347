import Verif.LogBuf.Model
import Mathlib.Tactic.Common
/-
C65: every log entry fits its slot and is read back; C85: replicated log batches.
-/
namespace Horus.LogBuf
open Horus

/-- Valid UTF-8: the encoding of some characters. -/
def Utf8 (s : Bytes) : Prop := ∃ cs : List Char, s = cs.flatMap String.utf8EncodeChar

theorem ofNat_toNat_small (n : Nat) (h : n < 256) : (UInt8.ofNat n).toNat = n := by
  rw [UInt8.toNat_ofNat']; exact Nat.mod_eq_of_lt h

theorem cont_iff (b : UInt8) : cont b = true ↔ 128 ≤ b.toNat ∧ b.toNat < 192 := by
  simp [cont]

theorem cont_tail (v : Nat) : cont (UInt8.ofNat (v % 64 + 128)) = true := by
  rw [cont_iff, ofNat_toNat_small _ (by omega)]; omega

/-- A character is a first byte that is no continuation, then continuation bytes. -/
theorem char_shape (c : Char) : ∃ b t, String.utf8EncodeChar c = b :: t ∧ cont b = false ∧ ∀ x ∈ t, cont x = true := by
  have nc : ∀ n, n < 256 → ¬ (128 ≤ n ∧ n < 192) → cont (UInt8.ofNat n) = false := by
    intro n h1 h2
    cases h : cont (UInt8.ofNat n) with
    | false => rfl
    | true => rw [cont_iff, ofNat_toNat_small n h1] at h; exact absurd h h2
  unfold String.utf8EncodeChar
  simp only
  split
  · refine ⟨_, _, rfl, nc _ (by omega) (by omega), by simp⟩
  · split
    · refine ⟨_, _, rfl, nc _ (by omega) (by omega), ?_⟩
      intro x hx; simp only [List.mem_cons, List.not_mem_nil, or_false] at hx; rw [hx]; exact cont_tail _
    · split
      · refine ⟨_, _, rfl, nc _ (by omega) (by omega), ?_⟩
        intro x hx; simp only [List.mem_cons, List.not_mem_nil, or_false] at hx
        rcases hx with rfl | rfl <;> exact cont_tail _
      · refine ⟨_, _, rfl, nc _ (by omega) (by omega), ?_⟩
        intro x hx; simp only [List.mem_cons, List.not_mem_nil, or_false] at hx
        rcases hx with rfl | rfl | rfl <;> exact cont_tail _

theorem boundary_is_char_edge (cs : List Char) (i : Nat)
    (hb : isBoundary (cs.flatMap String.utf8EncodeChar) i = true)
    (hi : i ≤ (cs.flatMap String.utf8EncodeChar).length) :
    ∃ k, i = ((cs.take k).flatMap String.utf8EncodeChar).length := by
  induction cs generalizing i with
  | nil => exact ⟨0, by simpa using hi⟩
  | cons c cs ih =>
    obtain ⟨b, t, he, h1, h2⟩ := char_shape c
    rw [List.flatMap_cons] at hb hi
    by_cases h0 : i = 0
    · exact ⟨0, by simp [h0]⟩
    · by_cases hlt : i < (String.utf8EncodeChar c).length
      · exfalso
        have hx : (String.utf8EncodeChar c ++ cs.flatMap String.utf8EncodeChar)[i]? = some (String.utf8EncodeChar c)[i] := by
          rw [List.getElem?_append_left hlt]; exact List.getElem?_eq_getElem hlt
        have hc : cont (String.utf8EncodeChar c)[i] = true := by
          obtain ⟨j, rfl⟩ : ∃ j, i = j + 1 := ⟨i - 1, by omega⟩
          simp only [he, List.getElem_cons_succ]
          apply h2
          exact List.getElem_mem _
        unfold isBoundary at hb
        rw [if_neg h0, hx] at hb
        simp only at hb
        rw [hc] at hb; cases hb
      · have hge : (String.utf8EncodeChar c).length ≤ i := by omega
        have hb' : isBoundary (cs.flatMap String.utf8EncodeChar) (i - (String.utf8EncodeChar c).length) = true := by
          unfold isBoundary at hb ⊢
          rw [if_neg h0, List.getElem?_append_right hge] at hb
          by_cases h3 : i - (String.utf8EncodeChar c).length = 0
          · rw [if_pos h3]
          · rw [if_neg h3]
            cases hx : (cs.flatMap String.utf8EncodeChar)[i - (String.utf8EncodeChar c).length]? with
            | none =>
              rw [hx] at hb
              simp only [List.length_append, decide_eq_true_eq] at hb ⊢
              omega
            | some x => rw [hx] at hb; exact hb
        obtain ⟨k, hk⟩ := ih _ hb' (by rw [List.length_append] at hi; omega)
        refine ⟨k + 1, ?_⟩
        rw [List.take_succ_cons, List.flatMap_cons, List.length_append, ← hk]
        omega

theorem char_edge_is_boundary (cs : List Char) (k : Nat) :
    isBoundary (cs.flatMap String.utf8EncodeChar) ((cs.take k).flatMap String.utf8EncodeChar).length = true := by
  have hs : cs.flatMap String.utf8EncodeChar =
      (cs.take k).flatMap String.utf8EncodeChar ++ (cs.drop k).flatMap String.utf8EncodeChar := by
    rw [← List.flatMap_append, List.take_append_drop]
  generalize hp : (cs.take k).flatMap String.utf8EncodeChar = p at hs ⊢
  rw [hs]
  unfold isBoundary
  split
  · rfl
  · rw [List.getElem?_append_right (Nat.le_refl _), Nat.sub_self]
    cases hd : cs.drop k with
    | nil => simp
    | cons c r =>
      obtain ⟨b, t, he, h1, _⟩ := char_shape c
      rw [List.flatMap_cons, he]
      simp [h1]

theorem findEnd_le (s : Bytes) (e : Nat) : findEnd s e ≤ e := by
  induction e with
  | zero => simp [findEnd]
  | succ e ih => unfold findEnd; split <;> omega

theorem findEnd_boundary (s : Bytes) (e : Nat) : isBoundary s (findEnd s e) = true := by
  induction e with
  | zero => simp [findEnd, isBoundary]
  | succ e ih =>
    unfold findEnd
    split
    · assumption
    · exact ih

theorem findEnd_max (s : Bytes) (e j : Nat) (hb : isBoundary s j = true) (hj : j ≤ e) : j ≤ findEnd s e := by
  induction e with
  | zero => omega
  | succ e ih =>
    unfold findEnd
    split
    · exact hj
    · rename_i h
      by_cases e1 : j = e + 1
      · subst e1; exact absurd hb h
      · exact ih (by omega)

/-- A field that fits is stored as it is. -/
theorem short_field_kept (s : Bytes) (max : Nat) (h : s.length ≤ max) : truncField s max = s := by
  unfold truncField; rw [if_pos h]

/-- A truncated field is within its limit. -/
theorem truncField_length (s : Bytes) (max : Nat) (h3 : 3 ≤ max) : (truncField s max).length ≤ max := by
  unfold truncField
  split
  · assumption
  · have := findEnd_le s (max - 3)
    rw [List.length_append, List.length_take]
    have : dots.length = 3 := rfl
    omega

/-- A field that is too long becomes the longest run of whole characters that leaves room for the
dots, followed by the dots. -/
theorem truncField_spec (cs : List Char) (max : Nat)
    (h : max < (cs.flatMap String.utf8EncodeChar).length) :
    ∃ k, truncField (cs.flatMap String.utf8EncodeChar) max = (cs.take k).flatMap String.utf8EncodeChar ++ dots ∧
      ((cs.take k).flatMap String.utf8EncodeChar).length ≤ max - 3 ∧
      ∀ j, ((cs.take j).flatMap String.utf8EncodeChar).length ≤ max - 3 →
        ((cs.take j).flatMap String.utf8EncodeChar).length ≤ ((cs.take k).flatMap String.utf8EncodeChar).length := by
  have hle := findEnd_le (cs.flatMap String.utf8EncodeChar) (max - 3)
  obtain ⟨k, hk⟩ := boundary_is_char_edge cs _ (findEnd_boundary (cs.flatMap String.utf8EncodeChar) (max - 3)) (by omega)
  refine ⟨k, ?_, by omega, ?_⟩
  · unfold truncField
    rw [if_neg (by omega), hk]
    have hs : cs.flatMap String.utf8EncodeChar =
        (cs.take k).flatMap String.utf8EncodeChar ++ (cs.drop k).flatMap String.utf8EncodeChar := by
      rw [← List.flatMap_append, List.take_append_drop]
    conv => lhs; rw [hs]
    rw [List.take_left' rfl]
  · intro j hj
    rw [← hk]
    exact findEnd_max _ _ _ (char_edge_is_boundary cs j) hj

theorem dots_utf8 : dots = ['.', '.', '.'].flatMap String.utf8EncodeChar := by decide +kernel

/-- Truncation never cuts a character: a valid string stays valid. -/
theorem truncField_valid (s : Bytes) (max : Nat) (h : Utf8 s) : Utf8 (truncField s max) := by
  obtain ⟨cs, rfl⟩ := h
  by_cases hl : (cs.flatMap String.utf8EncodeChar).length ≤ max
  · rw [short_field_kept _ _ hl]; exact ⟨cs, rfl⟩
  · obtain ⟨k, hk, _⟩ := truncField_spec cs max (by omega)
    rw [hk, dots_utf8]
    exact ⟨cs.take k ++ ['.', '.', '.'], by rw [List.flatMap_append]⟩

example : truncField ([0x61, 0xC3, 0xA9, 0xC3, 0xA9, 0x62]) 5 = [0x61, 46, 46, 46] := by decide

/-! ### Fits its slot, and reads back -/

theorem serialize_length (e : Entry) : (serialize e).length =
    53 + e.timestamp.length + e.node.length + e.message.length + (match e.topic with | none => 0 | some t => 8 + t.length) := by
  unfold serialize encStr
  simp only [List.length_append, le_length]
  cases e.topic with
  | none => simp [encOpt]; omega
  | some t => simp [encOpt, encStr]; omega

/-- Every entry, whatever the lengths of its fields, fits a slot after truncation: none is dropped
for its size. -/
theorem every_entry_fits (e : Entry) : (serialize (truncate e)).length ≤ 501 ∧ (slotData e).isSome = true := by
  have h1 := truncField_length e.node 64 (by omega)
  have h2 := truncField_length e.timestamp 32 (by omega)
  have h3 := truncField_length e.message 280 (by omega)
  have hl : (serialize (truncate e)).length ≤ 501 := by
    rw [serialize_length]
    unfold truncate
    cases ht : e.topic with
    | none => simp; omega
    | some t =>
      have h4 := truncField_length t 64 (by omega)
      simp; omega
  refine ⟨hl, ?_⟩
  unfold slotData dataSize
  simp only
  rw [if_pos (by omega)]
  rfl

/-- The data fills the slot exactly: it never reaches the next one. -/
theorem slotData_length (e : Entry) (d : Bytes) (h : slotData e = some d) : d.length = 504 := by
  unfold slotData dataSize at h
  simp only at h
  split at h
  · cases h
    rw [List.length_append, List.length_replicate]; omega
  · cases h

theorem rdNat_le (k n : Nat) (r : Bytes) (h : n < 256 ^ k) : rdNat k (le k n ++ r) = some (n, r) := by
  unfold rdNat
  rw [if_neg (by simp), List.take_left' (le_length k n), List.drop_left' (le_length k n), leNat_le, Nat.mod_eq_of_lt h]

theorem rdStr_enc (valid : Bytes → Bool) (s r : Bytes) (hv : valid s = true) (hl : s.length < 2 ^ 64) :
    rdStr valid (encStr s ++ r) = some (s, r) := by
  unfold rdStr encStr
  rw [List.append_assoc, rdNat_le 8 _ _ (by have : 256 ^ 8 = 2 ^ 64 := by decide
                                            omega)]
  simp only
  rw [if_neg (by simp), List.take_left' rfl, List.drop_left' rfl, if_pos hv]

theorem rdOpt_enc (valid : Bytes → Bool) (o : Option Bytes) (r : Bytes)
    (hv : ∀ s, o = some s → valid s = true ∧ s.length < 2 ^ 64) : rdOpt valid (encOpt o ++ r) = some (o, r) := by
  cases o with
  | none => simp [encOpt, rdOpt]
  | some s =>
    obtain ⟨h1, h2⟩ := hv s rfl
    have : (1 : UInt8) ≠ 0 := by decide
    simp only [encOpt, List.cons_append, rdOpt, this, if_false, if_true, rdStr_enc valid s r h1 h2]

/-- The strings of an entry pass the check, and its numbers are 64-bit. -/
structure Readable (valid : Bytes → Bool) (e : Entry) : Prop where
  ts : valid e.timestamp = true ∧ e.timestamp.length < 2 ^ 64
  node : valid e.node = true ∧ e.node.length < 2 ^ 64
  topic : ∀ s, e.topic = some s → valid s = true ∧ s.length < 2 ^ 64
  msg : valid e.message = true ∧ e.message.length < 2 ^ 64
  nums : e.tick < 2 ^ 64 ∧ e.tickUs < 2 ^ 64 ∧ e.ipcNs < 2 ^ 64

/-- Serialising and reading back, whatever bytes follow. -/
theorem round_trip (valid : Bytes → Bool) (e : Entry) (r : Bytes) (h : Readable valid e) :
    deserialize valid (serialize e ++ r) = some e := by
  have e8 : 256 ^ 8 = 2 ^ 64 := by decide
  have e4 : e.level.code < 256 ^ 4 := by cases e.level <;> decide
  have el : Level.ofCode e.level.code = some e.level := by cases e.level <;> rfl
  unfold deserialize serialize
  simp only [List.append_assoc]
  rw [rdStr_enc valid _ _ h.ts.1 h.ts.2]
  simp only [Option.bind_eq_bind, Option.bind_some]
  rw [rdNat_le 8 _ _ (by rw [e8]; exact h.nums.1)]
  simp only [Option.bind_some]
  rw [rdStr_enc valid _ _ h.node.1 h.node.2]
  simp only [Option.bind_some]
  rw [rdNat_le 4 _ _ e4]
  simp only [Option.bind_some, el]
  rw [rdOpt_enc valid _ _ h.topic]
  simp only [Option.bind_some]
  rw [rdStr_enc valid _ _ h.msg.1 h.msg.2]
  simp only [Option.bind_some]
  rw [rdNat_le 8 _ _ (by rw [e8]; exact h.nums.2.1)]
  simp only [Option.bind_some]
  rw [rdNat_le 8 _ _ (by rw [e8]; exact h.nums.2.2)]
  simp

/-- What is stored for an entry is read back as that entry with its fields truncated; an entry whose
fields are within the limits comes back unchanged. -/
theorem stored_entry_reads_back (valid : Bytes → Bool) (hv : ∀ s, valid s = true ↔ Utf8 s) (e : Entry) (d : Bytes)
    (hd : slotData e = some d) (h1 : Utf8 e.timestamp) (h2 : Utf8 e.node) (h3 : ∀ s, e.topic = some s → Utf8 s)
    (h4 : Utf8 e.message) (hn : e.tick < 2 ^ 64 ∧ e.tickUs < 2 ^ 64 ∧ e.ipcNs < 2 ^ 64) :
    deserialize valid d = some (truncate e) := by
  unfold slotData at hd
  simp only at hd
  split at hd
  · cases hd
    apply round_trip
    have l1 := truncField_length e.timestamp 32 (by omega)
    have l2 := truncField_length e.node 64 (by omega)
    have l4 := truncField_length e.message 280 (by omega)
    refine ⟨⟨(hv _).mpr (truncField_valid _ _ h1), by simp only [truncate]; omega⟩,
      ⟨(hv _).mpr (truncField_valid _ _ h2), by simp only [truncate]; omega⟩, ?_,
      ⟨(hv _).mpr (truncField_valid _ _ h4), by simp only [truncate]; omega⟩, hn⟩
    intro s hs
    simp only [truncate, Option.map_eq_some_iff] at hs
    obtain ⟨t, ht, rfl⟩ := hs
    have := truncField_length t 64 (by omega)
    exact ⟨(hv _).mpr (truncField_valid _ _ (h3 t ht)), by omega⟩
  · cases hd

theorem truncate_id (e : Entry) (h1 : e.timestamp.length ≤ 32) (h2 : e.node.length ≤ 64)
    (h3 : ∀ s, e.topic = some s → s.length ≤ 64) (h4 : e.message.length ≤ 280) : truncate e = e := by
  unfold truncate
  rw [short_field_kept _ _ h1, short_field_kept _ _ h2, short_field_kept _ _ h4]
  have : e.topic.map (fun t => truncField t 64) = e.topic := by
    cases ht : e.topic with
    | none => rfl
    | some t => simp [short_field_kept _ _ (h3 t ht)]
  rw [this]

example : Utf8 [104, 105] := ⟨['h', 'i'], by decide +kernel⟩

/-! ### Replicated batches -/

/-- What a receiver makes of an entry: the host's name in front, the level, the message. -/
def received (host : Bytes) (e : Entry) : Entry :=
  ⟨[], 0, host ++ 47 :: e.node, levelOfWire (wireLevel e.level), none, e.message, 0, 0⟩

theorem decEntry_enc (lossy : Bytes → Bytes) (host : Bytes) (e : Entry) (r : Bytes)
    (hn : e.node.length < 2 ^ 16) (hm : e.message.length < 2 ^ 16) (h1 : lossy e.node = e.node)
    (h2 : lossy e.message = e.message) :
    decEntry lossy host (encEntry e ++ r) = some (received host e, r) := by
  have e2 : 256 ^ 2 = 2 ^ 16 := by decide
  unfold decEntry encEntry
  simp only [List.append_assoc, List.cons_append]
  rw [if_neg (by simp), List.take_left' (le_length 2 _), List.drop_left' (le_length 2 _), leNat_le,
    Nat.mod_eq_of_lt (by omega), if_neg (by simp), List.take_left' rfl, List.drop_left' rfl]
  simp only
  rw [if_neg (by simp), List.take_left' (le_length 2 _), List.drop_left' (le_length 2 _), leNat_le,
    Nat.mod_eq_of_lt (by omega), if_neg (by simp), List.take_left' rfl, List.drop_left' rfl, h1, h2]
  rfl

theorem decEntries_enc (lossy : Bytes → Bytes) (host : Bytes) (es : List Entry)
    (h : ∀ e ∈ es, e.node.length < 2 ^ 16 ∧ e.message.length < 2 ^ 16 ∧ lossy e.node = e.node ∧ lossy e.message = e.message) :
    decEntries lossy host es.length (es.map encEntry).flatten = es.map (received host) := by
  induction es with
  | nil => rfl
  | cons e es ih =>
    obtain ⟨a, b, c, d⟩ := h e List.mem_cons_self
    rw [List.map_cons, List.flatten_cons, List.length_cons, decEntries, decEntry_enc lossy host e _ a b c d]
    simp only [List.map_cons]
    rw [ih (fun x hx => h x (List.mem_cons_of_mem _ hx))]

/-- A batch of log entries arrives complete and in order, each under the sender's host id, for any
number of entries below 2¹⁶ with fields as the ring stores them. -/
theorem batch_round_trip (lossy : Bytes → Bytes) (hl : ∀ s, Utf8 s → lossy s = s) (host : Bytes)
    (es : List Entry) (hh : Utf8 host) (hhl : host.length < 2 ^ 16) (hc : es.length < 2 ^ 16)
    (h : ∀ e ∈ es, e.node.length ≤ 64 ∧ e.message.length ≤ 280 ∧ Utf8 e.node ∧ Utf8 e.message) :
    decBatch lossy (encBatch host es) = es.map (received host) := by
  have e2 : 256 ^ 2 = 2 ^ 16 := by decide
  unfold decBatch encBatch
  rw [if_neg (by simp; omega)]
  simp only
  rw [List.take_left' (le_length 2 _), List.drop_left' (le_length 2 _), leNat_le, Nat.mod_eq_of_lt (by omega),
    if_neg (by simp), List.take_left' rfl, List.drop_left' rfl, if_neg (by simp),
    List.take_left' (le_length 2 _), List.drop_left' (le_length 2 _), leNat_le, Nat.mod_eq_of_lt (by omega), hl _ hh]
  apply decEntries_enc
  intro e he
  obtain ⟨a, b, c, d⟩ := h e he
  exact ⟨by omega, by omega, hl _ c, hl _ d⟩

/-- Errors, warnings, information and debug entries keep their level; published and subscribed
entries arrive as information. -/
theorem level_survives (l : Level) : levelOfWire (wireLevel l) = match l with
    | .publish => .info | .subscribe => .info | l => l := by cases l <;> decide

/-- Each replication level takes the more severe ones with it. -/
theorem levels_nest (l : Level) : (RepLevel.off.takes l = true → RepLevel.errorOnly.takes l = true) ∧
    (RepLevel.errorOnly.takes l = true → RepLevel.warn.takes l = true) ∧
    (RepLevel.warn.takes l = true → RepLevel.info.takes l = true) ∧
    (RepLevel.info.takes l = true → RepLevel.all.takes l = true) ∧
    RepLevel.warn.takes .error = true ∧ RepLevel.warn.takes .warning = true ∧ RepLevel.warn.takes .info = false := by
  cases l <;> decide

/-- Any bytes whatever produce at most as many entries as they announce, and at most one for every
five bytes. -/
theorem any_bytes_bounded (lossy : Bytes → Bytes) (host : Bytes) (n : Nat) (b : Bytes) :
    (decEntries lossy host n b).length ≤ n ∧ 5 * (decEntries lossy host n b).length ≤ b.length := by
  induction n generalizing b with
  | zero => simp [decEntries]
  | succ n ih =>
    unfold decEntries
    cases h : decEntry lossy host b with
    | none => simp
    | some x =>
      obtain ⟨e, b'⟩ := x
      have hb : b'.length + 5 ≤ b.length := by
        unfold decEntry at h
        by_cases h1 : b.length < 2
        · rw [if_pos h1] at h; cases h
        · rw [if_neg h1] at h
          simp only at h
          split at h
          · cases h
          · cases hd : (b.drop 2).drop (leNat (b.take 2)) with
            | nil => rw [hd] at h; cases h
            | cons lv r =>
              rw [hd] at h
              simp only at h
              have hr : r.length + 1 ≤ b.length - 2 := by
                have := congrArg List.length hd
                rw [List.length_drop, List.length_drop, List.length_cons] at this
                omega
              split at h
              · cases h
              · split at h
                · cases h
                · cases h
                  rw [List.length_drop, List.length_drop]; omega
      obtain ⟨i1, i2⟩ := ih b'
      simp only [List.length_cons]
      omega

/-- One entry more than the announced count of a batch with the default level fits the 16-bit count:
a poll adds at most the ring's 50000 slots to fewer than 64 waiting entries. -/
theorem batch_count_fits (waiting ring : Nat) (h1 : waiting < 64) (h2 : ring ≤ 50000) : waiting + ring < 2 ^ 16 := by
  omega

/-- A burst larger than one datagram is lost as a whole: the batch is emptied, then the frame is
refused. Here 188 full-length entries between two polls. -/
theorem burst_is_lost (host : Bytes) (es : List Entry) (h : ∀ e ∈ es, e.node.length = 64 ∧ e.message.length = 280)
    (hn : 188 ≤ es.length) : framed (encBatch host es) = false := by
  have hlen : ((es.map encEntry).flatten).length = 349 * es.length := by
    clear hn
    induction es with
    | nil => rfl
    | cons e es ih =>
      obtain ⟨a, b⟩ := h e List.mem_cons_self
      rw [List.map_cons, List.flatten_cons, List.length_append, ih (fun x hx => h x (List.mem_cons_of_mem _ hx))]
      unfold encEntry
      simp [a, b]; omega
  unfold framed encBatch
  rw [decide_eq_false_iff_not]
  simp only [List.length_append, le_length, hlen]
  omega

/-- Batches of 187 or fewer stored entries always fit a datagram. -/
theorem small_batch_fits_partial (host : Bytes) (es : List Entry)
    (h : ∀ e ∈ es, e.node.length ≤ 64 ∧ e.message.length ≤ 280) (hh : host.length ≤ 4) (hn : es.length ≤ 187) :
    framed (encBatch host es) = true := by
  have hlen : ((es.map encEntry).flatten).length ≤ 349 * es.length := by
    clear hn
    induction es with
    | nil => simp
    | cons e es ih =>
      obtain ⟨a, b⟩ := h e List.mem_cons_self
      have := ih (fun x hx => h x (List.mem_cons_of_mem _ hx))
      have he : (encEntry e).length ≤ 349 := by
        unfold encEntry; simp; omega
      rw [List.map_cons, List.flatten_cons, List.length_append, List.length_cons]
      omega
  unfold framed encBatch
  rw [decide_eq_true_eq]
  simp only [List.length_append, le_length]
  omega

end Horus.LogBuf
