import Verif.Serde.Model
/-
The slot of a serialized message: what is written is what is found, and slots do not disturb each other.
-/
namespace Horus.Serde
open Horus.Ring

theorem rd_length (m : Mem) (off n : Nat) : (rd m off n).length = n := by simp [rd]

theorem rd_getElem? (m : Mem) (off n k : Nat) (h : k < n) : (rd m off n)[k]? = some (m (off + k)) := by
  simp [rd, h]

theorem wr_in (m : Mem) (off : Nat) (bs : Bytes) {k : Nat} (h : k < bs.length) : wr m off bs (off + k) = bs[k] := by
  unfold wr
  rw [if_pos (Nat.le_add_right _ _), Nat.add_sub_cancel_left, List.getElem?_eq_getElem h]
  rfl

theorem wr_out (m : Mem) (off : Nat) (bs : Bytes) {a : Nat} (h : a < off ∨ off + bs.length ≤ a) : wr m off bs a = m a := by
  unfold wr
  by_cases h1 : off ≤ a
  · rw [if_pos h1, List.getElem?_eq_none (by omega)]
    rfl
  · rw [if_neg h1]

theorem rd_congr {m m' : Mem} {off n : Nat} (h : ∀ k, k < n → m (off + k) = m' (off + k)) : rd m off n = rd m' off n := by
  unfold rd
  apply List.map_congr_left
  intro k hk
  exact h k (List.mem_range.mp hk)

/-- Reading elsewhere is not affected by a write. -/
theorem rd_wr_ne (m : Mem) (off : Nat) (bs : Bytes) (o n : Nat) (h : o + n ≤ off ∨ off + bs.length ≤ o) :
    rd (wr m off bs) o n = rd m o n := by
  apply rd_congr
  intro k hk
  exact wr_out m off bs (by omega)

/-- Reading part of what was written. -/
theorem rd_wr_sub (m : Mem) (off : Nat) (bs : Bytes) (o n : Nat) (h : o + n ≤ bs.length) :
    rd (wr m off bs) (off + o) n = slice bs o n := by
  apply List.ext_getElem?
  intro k
  by_cases hk : k < n
  · rw [rd_getElem? _ _ _ _ hk, Nat.add_assoc, wr_in m off bs (by omega : o + k < bs.length)]
    unfold slice
    rw [List.getElem?_take_of_lt hk, List.getElem?_drop, List.getElem?_eq_getElem (by omega)]
  · rw [List.getElem?_eq_none (by rw [rd_length]; omega), List.getElem?_eq_none]
    rw [slice_length bs o n h]
    omega

theorem rd_wr_all (m : Mem) (off : Nat) (bs : Bytes) : rd (wr m off bs) off bs.length = bs := by
  have := rd_wr_sub m off bs 0 bs.length (by omega)
  rw [Nat.add_zero] at this
  rw [this]
  simp [slice]

/-- The ready flag that was written. -/
theorem readyAt_write (m : Mem) (off seq : Nat) (body : Bytes) : readyAt (writeSlot m off seq body) off = (seq + 1) % 2 ^ 64 := by
  unfold readyAt writeSlot
  have := rd_wr_all (wr m (off + 8) body) off (le 8 (seq + 1))
  rw [le_length] at this
  rw [this, leNat_le]

/-- The body behind the flag. -/
theorem rd_write_body (m : Mem) (off seq : Nat) (body : Bytes) (o n : Nat) (h : o + n ≤ body.length) :
    rd (writeSlot m off seq body) (off + 8 + o) n = slice body o n := by
  unfold writeSlot
  rw [rd_wr_ne _ _ _ _ _ (Or.inr (by rw [le_length]; omega))]
  exact rd_wr_sub m (off + 8) body o n h

/-- A slot elsewhere. -/
theorem rd_write_ne (m : Mem) (off seq : Nat) (body : Bytes) (o n : Nat) (h : o + n ≤ off ∨ off + 8 + body.length ≤ o) :
    rd (writeSlot m off seq body) o n = rd m o n := by
  unfold writeSlot
  rw [rd_wr_ne _ _ _ _ _ (by rw [le_length]; omega), rd_wr_ne _ _ _ _ _ (by omega)]

theorem inlineBody_length (bs : Bytes) : (inlineBody bs).length = 8 + bs.length := by simp [inlineBody]

theorem desc_length (d : Desc) : d.enc.length = 40 := by simp [Desc.enc]

/-- The ranges of a descriptor's fields (u32, u32, u64, u64, u64). -/
def Desc.InRange (d : Desc) : Prop := d.pool < 2 ^ 32 ∧ d.slot < 2 ^ 32 ∧ d.gen < 2 ^ 64 ∧ d.offset < 2 ^ 64 ∧ d.size < 2 ^ 64

theorem desc_roundtrip (d : Desc) (h : d.InRange) : Desc.dec d.enc = d := by
  obtain ⟨h1, h2, h3, h4, h5⟩ := h
  have e : ∀ (a b c e f g i : Nat),
      leAt (le 8 a ++ le 4 b ++ le 4 c ++ le 4 e ++ le 4 f ++ le 8 g ++ le 8 i) 8 4 = b % 256 ^ 4 ∧
      leAt (le 8 a ++ le 4 b ++ le 4 c ++ le 4 e ++ le 4 f ++ le 8 g ++ le 8 i) 12 4 = c % 256 ^ 4 ∧
      leAt (le 8 a ++ le 4 b ++ le 4 c ++ le 4 e ++ le 4 f ++ le 8 g ++ le 8 i) 16 4 = e % 256 ^ 4 ∧
      leAt (le 8 a ++ le 4 b ++ le 4 c ++ le 4 e ++ le 4 f ++ le 8 g ++ le 8 i) 20 4 = f % 256 ^ 4 ∧
      leAt (le 8 a ++ le 4 b ++ le 4 c ++ le 4 e ++ le 4 f ++ le 8 g ++ le 8 i) 24 8 = g % 256 ^ 8 ∧
      leAt (le 8 a ++ le 4 b ++ le 4 c ++ le 4 e ++ le 4 f ++ le 8 g ++ le 8 i) 32 8 = i % 256 ^ 8 := by
    intro a b c e f g i
    simp only [List.append_assoc]
    refine ⟨?_, ?_, ?_, ?_, ?_, ?_⟩
    · rw [leAt_append_right _ _ _ _ (by simp)]; simp [leAt_le_append]
    · rw [leAt_append_right _ _ _ _ (by simp), leAt_append_right _ _ _ _ (by simp)]; simp [leAt_le_append]
    · rw [leAt_append_right _ _ _ _ (by simp), leAt_append_right _ _ _ _ (by simp), leAt_append_right _ _ _ _ (by simp)]
      simp [leAt_le_append]
    · rw [leAt_append_right _ _ _ _ (by simp), leAt_append_right _ _ _ _ (by simp), leAt_append_right _ _ _ _ (by simp),
        leAt_append_right _ _ _ _ (by simp)]
      simp [leAt_le_append]
    · rw [leAt_append_right _ _ _ _ (by simp), leAt_append_right _ _ _ _ (by simp), leAt_append_right _ _ _ _ (by simp),
        leAt_append_right _ _ _ _ (by simp), leAt_append_right _ _ _ _ (by simp)]
      simp [leAt_le_append]
    · rw [leAt_append_right _ _ _ _ (by simp), leAt_append_right _ _ _ _ (by simp), leAt_append_right _ _ _ _ (by simp),
        leAt_append_right _ _ _ _ (by simp), leAt_append_right _ _ _ _ (by simp), leAt_append_right _ _ _ _ (by simp)]
      simp [leAt_le]
  have := e sentinel d.pool d.slot (d.gen % 2 ^ 32) (d.gen / 2 ^ 32) d.offset d.size
  unfold Desc.dec Desc.enc
  rw [this.1, this.2.1, this.2.2.1, this.2.2.2.1, this.2.2.2.2.1, this.2.2.2.2.2]
  cases d
  simp only [Desc.mk.injEq]
  simp only at h1 h2 h3 h4 h5
  refine ⟨by omega, by omega, by omega, by omega, by omega⟩

theorem desc_sentinel (d : Desc) : leNat (slice d.enc 0 8) = sentinel := by
  have : slice d.enc 0 8 = le 8 sentinel := by
    unfold Desc.enc
    simp only [List.append_assoc]
    exact slice_append_left _ _ 8 (by simp)
  rw [this, leNat_le]
  decide

/-- A message that fits its slot is found in it, byte for byte; it is never mistaken for a spilled one. -/
theorem inline_roundtrip (m : Mem) (off seq ss : Nat) (bs : Bytes) (hss : ss < 2 ^ 32) (hl : bs.length ≤ ss - 16) :
    findIn (writeSlot m off seq (inlineBody bs)) off ss = .bytes bs := by
  have hlen := inlineBody_length bs
  have h1 : rd (writeSlot m off seq (inlineBody bs)) (off + 8) 8 = le 8 bs.length := by
    have := rd_write_body m off seq (inlineBody bs) 0 8 (by omega)
    rw [Nat.add_zero] at this
    rw [this]
    exact slice_append_left _ _ 8 (by simp)
  have h2 : rd (writeSlot m off seq (inlineBody bs)) (off + 16) bs.length = bs := by
    have := rd_write_body m off seq (inlineBody bs) 8 bs.length (by omega)
    rw [show off + 8 + 8 = off + 16 by omega] at this
    rw [this]
    unfold inlineBody
    rw [slice_append_right _ _ _ _ (by simp)]
    simp [slice]
  have h3 : leNat (le 8 bs.length) = bs.length := by rw [leNat_le, Nat.mod_eq_of_lt]; omega
  unfold findIn
  rw [h1, h3]
  dsimp only
  rw [if_neg (by unfold sentinel; omega), if_neg (by omega), h2]

/-- A spilled message's slot leads back to its descriptor. -/
theorem spill_roundtrip (m : Mem) (off seq ss : Nat) (d : Desc) (hd : d.InRange) :
    findIn (writeSlot m off seq d.enc) off ss = .spill d := by
  have hlen := desc_length d
  have h1 : rd (writeSlot m off seq d.enc) (off + 8) 8 = slice d.enc 0 8 := by
    have := rd_write_body m off seq d.enc 0 8 (by omega)
    rwa [Nat.add_zero] at this
  have h2 : rd (writeSlot m off seq d.enc) (off + 8) 40 = d.enc := by
    have := rd_write_body m off seq d.enc 0 40 (by omega)
    rw [Nat.add_zero] at this
    rw [this, ← hlen]
    simp [slice]
  unfold findIn
  rw [h1, desc_sentinel]
  dsimp only
  rw [if_pos rfl, h2, desc_roundtrip d hd]

/-- Writing another slot of the ring, in a body that fits, changes nothing in this one. -/
theorem slot_frame (m : Mem) (ss i k seq : Nat) (body : Bytes) (hb : 8 + body.length ≤ ss) (h : i ≠ k) :
    readyAt (writeSlot m (k * ss) seq body) (i * ss) = readyAt m (i * ss) ∧
      (48 ≤ ss → findIn (writeSlot m (k * ss) seq body) (i * ss) ss = findIn m (i * ss) ss) := by
  have hdis : ∀ o n, o + n ≤ ss → i * ss + o + n ≤ k * ss ∨ k * ss + 8 + body.length ≤ i * ss + o := by
    intro o n ho
    rcases Nat.lt_or_gt_of_ne h with h' | h'
    · left
      have : (i + 1) * ss ≤ k * ss := Nat.mul_le_mul_right _ h'
      rw [Nat.add_mul, Nat.one_mul] at this
      omega
    · right
      have : (k + 1) * ss ≤ i * ss := Nat.mul_le_mul_right _ h'
      rw [Nat.add_mul, Nat.one_mul] at this
      omega
  have key : ∀ o n, o + n ≤ ss → rd (writeSlot m (k * ss) seq body) (i * ss + o) n = rd m (i * ss + o) n :=
    fun o n ho => rd_write_ne m (k * ss) seq body (i * ss + o) n (hdis o n ho)
  constructor
  · unfold readyAt
    have := key 0 8 (by omega)
    rw [Nat.add_zero] at this
    rw [this]
  · intro h48
    unfold findIn
    rw [key 8 8 (by omega)]
    dsimp only
    split
    · rw [key 8 40 (by omega)]
    split
    · rfl
    · rename_i h1 h2
      rw [key 16 _ (by omega)]

/-- Non-vacuity: a message of three bytes in the second slot of 64 bytes, next to a spilled one. -/
example :
    let d : Desc := ⟨1, 2, 5, 2, 5000⟩
    let m := writeSlot (writeSlot (fun _ => 0) 0 0 d.enc) 64 1 (inlineBody [7, 8, 9])
    findIn m 64 64 = .bytes [7, 8, 9] ∧ findIn m 0 64 = .spill d ∧ readyAt m 64 = 2 := by decide +kernel

end Horus.Serde
