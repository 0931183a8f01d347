import Verif.ShmNet.Model
import Mathlib.Tactic.Common
/-
Facts about stores into a mapping and about the publish sequence shared by the two network
write paths.
-/
namespace Horus.ShmNet

theorem put_getElem? (m : Bytes) (off : Nat) (bs : Bytes) (h : off + bs.length ≤ m.length)
    (i : Nat) :
    (put m off bs)[i]? = if off ≤ i ∧ i < off + bs.length then bs[i - off]? else m[i]? := by
  simp only [put]
  by_cases h1 : i < off
  · rw [if_neg (by omega), List.append_assoc, List.getElem?_append_left (by simp; omega),
      List.getElem?_take_of_lt h1]
  · have e : (m.take off).length = off := by simp; omega
    by_cases h2 : i < off + bs.length
    · rw [if_pos ⟨by omega, h2⟩, List.append_assoc, List.getElem?_append_right (by omega),
        List.getElem?_append_left (by omega), e]
    · rw [if_neg (by omega), List.getElem?_append_right (by simp; omega)]
      simp only [List.getElem?_drop, List.length_append, e]
      congr 1; omega

theorem put_length (m : Bytes) (off : Nat) (bs : Bytes) (h : off + bs.length ≤ m.length) :
    (put m off bs).length = m.length := by
  simp [put]; omega

theorem put_nil (m : Bytes) (off : Nat) : put m off [] = m := by simp [put]

theorem put_cons (m : Bytes) (off : Nat) (b : UInt8) (bs : Bytes)
    (h : off + (b :: bs).length ≤ m.length) :
    put (put m off [b]) (off + 1) bs = put m off (b :: bs) := by
  simp only [List.length_cons] at h
  apply List.ext_getElem?; intro i
  rw [put_getElem? _ _ _ (by rw [put_length _ _ _ (by simp; omega)]; omega),
    put_getElem? _ _ _ (by simp; omega), put_getElem? _ _ _ (by simp; omega)]
  simp only [List.length_cons, List.length_nil]
  by_cases h1 : off + 1 ≤ i ∧ i < off + 1 + bs.length
  · rw [if_pos h1, if_pos (by omega), show i - off = (i - (off + 1)) + 1 by omega]
    simp
  · rw [if_neg h1]
    by_cases h2 : i = off
    · subst h2
      rw [if_pos (by omega), if_pos (by omega)]; simp
    · rw [if_neg (by omega), if_neg (by omega)]

theorem slice_getElem? (m : Bytes) (a k i : Nat) :
    (slice m a k)[i]? = if i < k then m[a + i]? else none := by
  simp [slice, List.getElem?_take, List.getElem?_drop]

theorem slice_put_same (m : Bytes) (off : Nat) (bs : Bytes) (h : off + bs.length ≤ m.length) :
    slice (put m off bs) off bs.length = bs := by
  apply List.ext_getElem?; intro i
  rw [slice_getElem?, put_getElem? _ _ _ h]
  by_cases h1 : i < bs.length
  · rw [if_pos h1, if_pos (by omega)]; congr 1; omega
  · rw [if_neg h1, List.getElem?_eq_none (by omega)]

theorem slice_put_disj (m : Bytes) (off : Nat) (bs : Bytes) (h : off + bs.length ≤ m.length)
    (a k : Nat) (hd : a + k ≤ off ∨ off + bs.length ≤ a) :
    slice (put m off bs) a k = slice m a k := by
  apply List.ext_getElem?; intro i
  rw [slice_getElem?, slice_getElem?, put_getElem? _ _ _ h]
  by_cases h1 : i < k
  · rw [if_pos h1, if_pos h1, if_neg (by omega)]
  · rw [if_neg h1, if_neg h1]

/-- A sub-slice of what was just stored. -/
theorem slice_put_inner (m : Bytes) (off : Nat) (bs : Bytes) (h : off + bs.length ≤ m.length)
    (a k : Nat) (ha : a + k ≤ bs.length) :
    slice (put m off bs) (off + a) k = slice bs a k := by
  apply List.ext_getElem?; intro i
  rw [slice_getElem?, slice_getElem?, put_getElem? _ _ _ h]
  by_cases h1 : i < k
  · rw [if_pos h1, if_pos h1, if_pos (by omega)]; congr 1; omega
  · rw [if_neg h1, if_neg h1]

theorem execAll_append (a b : List Store) (m : Bytes) :
    execAll (a ++ b) m = (execAll a m).bind (execAll b) := by
  induction a generalizing m with
  | nil => rfl
  | cons s a ih =>
    simp only [List.cons_append, execAll]
    cases s.exec m with
    | none => rfl
    | some m' => simp [ih]

theorem execAll_copy (off : Nat) (bs m : Bytes) (h : off + bs.length ≤ m.length) :
    execAll (copyStores off bs) m = some (put m off bs) := by
  induction bs generalizing off m with
  | nil => simp [copyStores, execAll, put_nil]
  | cons b bs ih =>
    have h' := h
    simp only [List.length_cons] at h
    simp only [copyStores, execAll, Store.exec]
    rw [if_pos ⟨by simp; omega, by simp⟩]
    simp only
    rw [ih _ _ (by rw [put_length _ _ _ (by simp; omega)]; omega), put_cons _ _ _ _ h']

theorem copyStores_append (off : Nat) (a b : Bytes) :
    copyStores off (a ++ b) = copyStores off a ++ copyStores (off + a.length) b := by
  induction a generalizing off with
  | nil => simp [copyStores]
  | cons x a ih => simp [copyStores, ih, Nat.add_assoc, Nat.add_comm 1]

theorem copyStores_length (off : Nat) (bs : Bytes) : (copyStores off bs).length = bs.length := by
  induction bs generalizing off with
  | nil => rfl
  | cons x a ih => simp [copyStores, ih]

theorem copyStores_take (off n : Nat) (bs : Bytes) :
    (copyStores off bs).take n = copyStores off (bs.take n) := by
  induction bs generalizing off n with
  | nil => simp [copyStores]
  | cons x a ih => cases n with
    | zero => simp [copyStores]
    | succ n => simp [copyStores, ih]

theorem exec_word (m : Bytes) (off v : Nat) (h : off + 8 ≤ m.length) (ha : off % 8 = 0) :
    (wordStore off v).exec m = some (put m off (le 8 v)) := by
  simp only [wordStore, Store.exec, le_length]
  rw [if_pos ⟨h, fun _ => ha⟩]

theorem execAll_cons_word (m : Bytes) (off v : Nat) (ss : List Store) (h : off + 8 ≤ m.length)
    (ha : off % 8 = 0) :
    execAll (wordStore off v :: ss) m = execAll ss (put m off (le 8 v)) := by
  simp only [execAll, exec_word m off v h ha]

/-- The publish sequence common to both write paths: mark, copy, stamp, head, count. Source: shm_writer.rs. -/
def publish (r s : Nat) (data : Bytes) (nh t : Nat) : List Store :=
  [wordStore r (nh ||| slotWriting)] ++ copyStores s data ++
    [wordStore r nh, wordStore 64 nh, wordStore 56 t]

/-- The region after `n` stores of the publish sequence. Ghost or helper of the model of shm_writer.rs. -/
inductive Stage (m : Bytes) (r s : Nat) (data : Bytes) (nh t : Nat) : Bytes → Prop
  | start : Stage m r s data nh t m
  | copying (k : Nat) (h : k ≤ data.length) :
      Stage m r s data nh t (put (put m r (le 8 (nh ||| slotWriting))) s (data.take k))
  | stamped : Stage m r s data nh t
      (put (put (put m r (le 8 (nh ||| slotWriting))) s data) r (le 8 nh))
  | headed : Stage m r s data nh t
      (put (put (put (put m r (le 8 (nh ||| slotWriting))) s data) r (le 8 nh)) 64 (le 8 nh))
  | counted : Stage m r s data nh t
      (put (put (put (put (put m r (le 8 (nh ||| slotWriting))) s data) r (le 8 nh)) 64 (le 8 nh))
        56 (le 8 t))

theorem put_len8 (m : Bytes) (off v : Nat) (h : off + 8 ≤ m.length) :
    (put m off (le 8 v)).length = m.length := put_length _ _ _ (by simpa using h)

theorem publish_full {m : Bytes} {r s : Nat} {data : Bytes} (nh t : Nat)
    (h640 : 640 ≤ m.length) (hr8 : r % 8 = 0) (hr : r + 8 ≤ m.length)
    (hs : s + data.length ≤ m.length) :
    execAll (publish r s data nh t) m = some
      (put (put (put (put (put m r (le 8 (nh ||| slotWriting))) s data) r (le 8 nh)) 64 (le 8 nh))
        56 (le 8 t)) := by
  simp only [publish, List.nil_append, List.cons_append]
  rw [execAll_cons_word _ _ _ _ hr hr8, execAll_append,
    execAll_copy _ _ _ (by rw [put_len8 _ _ _ hr]; exact hs)]
  have e1 := put_len8 m r (nh ||| slotWriting) hr
  have e2 := put_length (put m r (le 8 (nh ||| slotWriting))) s data (by omega)
  simp only [Option.bind_some]
  rw [execAll_cons_word _ _ _ _ (by omega) hr8]
  have e3 := put_len8 _ r nh (show r + 8 ≤ (put (put m r (le 8 (nh ||| slotWriting))) s data).length
    by omega)
  rw [execAll_cons_word _ _ _ _ (by omega) (by decide)]
  have e4 := put_len8 _ 64 nh (show 64 + 8 ≤ (put (put (put m r (le 8 (nh ||| slotWriting))) s data)
    r (le 8 nh)).length by omega)
  rw [execAll_cons_word _ _ _ _ (by omega) (by decide)]
  rfl

/-- Stopping the publish sequence anywhere never faults and leaves one of the stages. -/
theorem publish_take {m : Bytes} {r s : Nat} {data : Bytes} (nh t n : Nat)
    (h640 : 640 ≤ m.length) (hr8 : r % 8 = 0) (hr : r + 8 ≤ m.length)
    (hs : s + data.length ≤ m.length) :
    ∃ m', execAll ((publish r s data nh t).take n) m = some m' ∧ Stage m r s data nh t m' := by
  have e1 := put_len8 m r (nh ||| slotWriting) hr
  have e2 := put_length (put m r (le 8 (nh ||| slotWriting))) s data (by omega)
  have e3 := put_len8 _ r nh (show r + 8 ≤ (put (put m r (le 8 (nh ||| slotWriting))) s data).length
    by omega)
  have e4 := put_len8 _ 64 nh (show 64 + 8 ≤ (put (put (put m r (le 8 (nh ||| slotWriting))) s data)
    r (le 8 nh)).length by omega)
  rcases n with _ | n
  · exact ⟨m, by simp [execAll], .start⟩
  simp only [publish, List.nil_append, List.cons_append, List.take_succ_cons]
  rw [execAll_cons_word _ _ _ _ hr hr8, List.take_append, copyStores_length, copyStores_take]
  by_cases hn : n ≤ data.length
  · refine ⟨put (put m r (le 8 (nh ||| slotWriting))) s (data.take n), ?_, .copying n hn⟩
    rw [show n - data.length = 0 by omega, List.take_zero, List.append_nil,
      execAll_copy _ _ _ (by simp; omega)]
  · rw [List.take_of_length_le (by omega : data.length ≤ n), execAll_append,
      execAll_copy _ _ _ (by omega)]
    simp only [Option.bind_some]
    obtain ⟨j, hj⟩ : ∃ j, n - data.length = j + 1 := ⟨n - data.length - 1, by omega⟩
    rw [hj, List.take_succ_cons, execAll_cons_word _ _ _ _ (by omega) hr8]
    rcases j with _ | j
    · exact ⟨_, by simp [execAll], .stamped⟩
    rw [List.take_succ_cons, execAll_cons_word _ _ _ _ (by omega) (by decide)]
    rcases j with _ | j
    · exact ⟨_, by simp [execAll], .headed⟩
    rw [List.take_succ_cons, execAll_cons_word _ _ _ _ (by omega) (by decide)]
    exact ⟨_, by simp [execAll], .counted⟩

theorem take_len (data : Bytes) (k : Nat) : (data.take k).length ≤ data.length := by simp; omega

theorem Stage.length {m : Bytes} {r s : Nat} {data : Bytes} {nh t : Nat} {m' : Bytes}
    (st : Stage m r s data nh t m') (h640 : 640 ≤ m.length) (hr : r + 8 ≤ m.length)
    (hs : s + data.length ≤ m.length) : m'.length = m.length := by
  have e1 := put_len8 m r (nh ||| slotWriting) hr
  have e2 := put_length (put m r (le 8 (nh ||| slotWriting))) s data (by omega)
  have e3 := put_len8 _ r nh (show r + 8 ≤ (put (put m r (le 8 (nh ||| slotWriting))) s data).length
    by omega)
  have e4 := put_len8 _ 64 nh (show 64 + 8 ≤ (put (put (put m r (le 8 (nh ||| slotWriting))) s data)
    r (le 8 nh)).length by omega)
  have e5 := put_len8 _ 56 t (show 56 + 8 ≤ (put (put (put (put m r (le 8 (nh ||| slotWriting))) s
    data) r (le 8 nh)) 64 (le 8 nh)).length by omega)
  cases st with
  | start => rfl
  | copying k h => rw [put_length _ _ _ (by simp; omega), e1]
  | stamped => omega
  | headed => omega
  | counted => omega

/-- A range disjoint from everything the sequence may touch is untouched at every stage. -/
theorem Stage.frame {m : Bytes} {r s : Nat} {data : Bytes} {nh t : Nat} {m' : Bytes}
    (st : Stage m r s data nh t m') (h640 : 640 ≤ m.length) (hr : r + 8 ≤ m.length)
    (hs : s + data.length ≤ m.length) (a k : Nat) (d1 : a + k ≤ r ∨ r + 8 ≤ a)
    (d2 : a + k ≤ s ∨ s + data.length ≤ a) (d3 : a + k ≤ 64 ∨ 72 ≤ a) (d4 : a + k ≤ 56 ∨ 64 ≤ a) :
    slice m' a k = slice m a k := by
  have e1 := put_len8 m r (nh ||| slotWriting) hr
  have e2 := put_length (put m r (le 8 (nh ||| slotWriting))) s data (by omega)
  have e3 := put_len8 _ r nh (show r + 8 ≤ (put (put m r (le 8 (nh ||| slotWriting))) s data).length
    by omega)
  have e4 := put_len8 _ 64 nh (show 64 + 8 ≤ (put (put (put m r (le 8 (nh ||| slotWriting))) s data)
    r (le 8 nh)).length by omega)
  have f1 : slice (put m r (le 8 (nh ||| slotWriting))) a k = slice m a k :=
    slice_put_disj _ _ _ (by simpa using hr) _ _ (by simpa using d1)
  have f2 : slice (put (put m r (le 8 (nh ||| slotWriting))) s data) a k = slice m a k := by
    rw [slice_put_disj _ _ _ (by omega) _ _ d2, f1]
  have f3 : slice (put (put (put m r (le 8 (nh ||| slotWriting))) s data) r (le 8 nh)) a k
      = slice m a k := by
    rw [slice_put_disj _ _ _ (by simp; omega) _ _ (by simpa using d1), f2]
  have f4 : slice (put (put (put (put m r (le 8 (nh ||| slotWriting))) s data) r (le 8 nh)) 64
      (le 8 nh)) a k = slice m a k := by
    rw [slice_put_disj _ _ _ (by simp; omega) _ _ (by simpa using d3), f3]
  cases st with
  | start => rfl
  | copying j h =>
    rw [slice_put_disj _ _ _ (by simp; omega) _ _ (by simp; omega), f1]
  | stamped => exact f3
  | headed => exact f4
  | counted => rw [slice_put_disj _ _ _ (by simp; omega) _ _ (by simpa using d4), f4]

theorem leAt_put_same (m : Bytes) (off v : Nat) (h : off + 8 ≤ m.length) (hv : v < 2 ^ 64) :
    leAt (put m off (le 8 v)) off 8 = v := by
  have := slice_put_same m off (le 8 v) (by simpa using h)
  rw [le_length] at this
  rw [leAt, this, leNat_le]
  exact Nat.mod_eq_of_lt (by simpa using hv)

theorem leAt_put_disj (m : Bytes) (off : Nat) (bs : Bytes) (h : off + bs.length ≤ m.length)
    (a k : Nat) (hd : a + k ≤ off ∨ off + bs.length ≤ a) :
    leAt (put m off bs) a k = leAt m a k := by
  rw [leAt, leAt, slice_put_disj m off bs h a k hd]

theorem leAt_lt (m : Bytes) (a k : Nat) : leAt m a k < 256 ^ k := by
  have h := leNat_lt (slice m a k)
  have h2 : (slice m a k).length ≤ k := by simp [slice]; omega
  exact Nat.lt_of_lt_of_le h (Nat.pow_le_pow_right (by decide) h2)

theorem and_mask {n k : Nat} : n &&& (2 ^ k - 1) = n % 2 ^ k := by
  rw [Nat.and_two_pow_sub_one_eq_mod]

theorem isPow2_spec {n : Nat} : isPow2 n = true ↔ ∃ k, n = 2 ^ k := by
  constructor
  · intro h
    simp [isPow2] at h
    exact ⟨_, h.2⟩
  · rintro ⟨k, rfl⟩
    simp [isPow2, Nat.log2_two_pow]

end Horus.ShmNet
