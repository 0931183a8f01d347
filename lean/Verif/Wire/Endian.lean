import Mathlib.Data.List.Basic
import Mathlib.Data.List.Flatten
import Mathlib.Algebra.BigOperators.Group.List.Basic
import Mathlib.Tactic.Common
/-
Messages from a machine with the other byte order. Source: /repo/horus_net/src/encoding.rs, its call in replicator.rs:544-547.
A fixed-size message is a sequence of fields; `fs` gives the bytes of each in the order of the receiving machine.
-/
namespace Horus.Endian

abbrev Bytes := List Nat

/-- The message as it lies in the receiver's memory. -/
def here (fs : List Bytes) : Bytes := fs.flatten

/-- The same message as the sender with the other byte order has it: each field reversed. -/
def there (fs : List Bytes) : Bytes := (fs.map List.reverse).flatten

/-- encoding.rs:40-47: `chunks_exact_mut` leaves a short rest alone. -/
def swapWords (k : Nat) (l : Bytes) : Bytes :=
  if h : k ≤ 1 ∨ l.length < k then l else (l.take k).reverse ++ swapWords k (l.drop k)
termination_by l.length
decreasing_by simp only [not_or, Nat.not_le, Nat.not_lt] at h; rw [List.length_drop]; omega

/-- encoding.rs:54-64. -/
def wordSize (n : Nat) : Nat := if n % 8 = 0 then 8 else if n % 4 = 0 then 4 else if n % 2 = 0 then 2 else 1

/-- priority.rs:135-142. -/
inductive Enc | native | other | bincode

/-- encoding.rs:69-80, called with the length of the payload. -/
def incoming (p : Bytes) (e : Enc) : Bytes :=
  match e with
  | .other => swapWords (wordSize p.length) p
  | _ => p

/-- Messages in the receiver's own byte order, and encoded ones, are not touched. -/
theorem native_kept (p : Bytes) : incoming p .native = p ∧ incoming p .bincode = p := ⟨rfl, rfl⟩

theorem swap_word (k : Nat) (a l : Bytes) (ha : a.length = k) (hk : 0 < k) : swapWords k (a ++ l) = a.reverse ++ swapWords k l := by
  by_cases h1 : k ≤ 1
  · have : k = 1 := by omega
    subst this
    obtain ⟨x, rfl⟩ := List.length_eq_one_iff.1 ha
    have : ∀ l, swapWords 1 l = l := fun l => by rw [swapWords, dif_pos (Or.inl (Nat.le_refl 1))]
    simp [this]
  · rw [swapWords, dif_neg (by simp; omega)]
    rw [List.take_left' ha, List.drop_left' ha]

theorem length_there (fs : List Bytes) : (there fs).length = (fs.map List.length).sum := by
  unfold there
  rw [List.length_flatten, List.map_map]
  congr 1
  apply List.map_congr_left
  intro x _
  simp

theorem swap_nil (k : Nat) : swapWords k [] = [] := by
  rw [swapWords]
  split
  · rfl
  · rename_i h; simp at h; omega

theorem swap_uniform (k : Nat) (hk : 0 < k) (fs : List Bytes) (h : ∀ f ∈ fs, f.length = k) : swapWords k (there fs) = here fs := by
  induction fs with
  | nil => exact swap_nil k
  | cons f fs ih =>
    have hc : there (f :: fs) = f.reverse ++ there fs := rfl
    rw [hc, swap_word k _ _ (by simp [h f (by simp)]) hk, ih fun x hx => h x (by simp [hx])]
    simp [here]

/-- The head of a swapped text. -/
theorem swap_head (k : Nat) (hk : 0 < k) (l : Bytes) (hl : k ≤ l.length) : (swapWords k l)[0]? = l[k - 1]? := by
  have e : l = l.take k ++ l.drop k := (List.take_append_drop k l).symm
  have hlen : (l.take k).length = k := by simp; omega
  conv_lhs => rw [e]
  rw [swap_word k _ _ hlen hk, List.getElem?_append_left (by simp; omega), List.getElem?_reverse (by omega), hlen, List.getElem?_take_of_lt (by omega)]
  congr 1

theorem wordSize_pos (n : Nat) : 0 < wordSize n := by
  unfold wordSize; split <;> (try split) <;> (try split) <;> omega

theorem wordSize_dvd (n : Nat) : wordSize n ∣ n := by
  unfold wordSize
  split
  · omega
  · split
    · omega
    · split <;> omega

/-- Fields of zeros, but for a one at the front of the first. -/
def hot (w : Nat) (ws : List Nat) : List Bytes := (1 :: List.replicate (w - 1) 0) :: ws.map fun n => List.replicate n 0

theorem hot_there (w : Nat) (ws : List Nat) (i : Nat) (h : (there (hot w ws))[i]? = some 1) : i = w - 1 := by
  have e : there (hot w ws) = List.replicate (w - 1) 0 ++ 1 :: List.replicate ws.sum 0 := by
    unfold there hot
    have : (ws.map fun n => List.replicate n 0).map List.reverse = ws.map fun n => List.replicate n (0 : Nat) := by simp
    rw [List.map_cons, this, List.flatten_cons]
    have h2 : (ws.map fun n => List.replicate n (0 : Nat)).flatten = List.replicate ws.sum 0 := by
      clear this h
      induction ws with
      | nil => rfl
      | cons a ws ih => rw [List.map_cons, List.flatten_cons, ih, List.sum_cons, List.replicate_add]
    rw [h2]
    simp
  rw [e] at h
  rcases Nat.lt_trichotomy i (w - 1) with hi | hi | hi
  · rw [List.getElem?_append_left (by simpa using hi), List.getElem?_replicate] at h
    split at h <;> cases h
  · exact hi
  · rw [List.getElem?_append_right (by simp; omega)] at h
    obtain ⟨j, hj⟩ : ∃ j, i - (List.replicate (w - 1) 0).length = j + 1 := ⟨i - (w - 1) - 1, by rw [List.length_replicate]; omega⟩
    rw [hj, List.getElem?_cons_succ, List.getElem?_replicate] at h
    split at h <;> cases h

theorem swap_needs (k : Nat) (hk : 0 < k) (ws : List Nat) (hp : ∀ w ∈ ws, 0 < w) (hd : k ∣ ws.sum) (h : ∀ fs : List Bytes, fs.map List.length = ws → swapWords k (there fs) = here fs) : ∀ w ∈ ws, w = k := by
  induction ws with
  | nil => intro w hw; cases hw
  | cons w ws ih =>
    have hw := hp w (by simp)
    have hlen : (hot w ws).map List.length = w :: ws := by
      unfold hot
      simp only [List.map_cons, List.length_cons, List.length_replicate, List.map_map]
      rw [show w - 1 + 1 = w by omega]
      congr 1
      conv_rhs => rw [← List.map_id ws]
      apply List.map_congr_left
      intro a _; simp
    have hlt : (there (hot w ws)).length = (w :: ws).sum := by rw [length_there, hlen]
    have hk' : k ≤ (w :: ws).sum := Nat.le_of_dvd (by rw [List.sum_cons]; omega) hd
    have h0 := h (hot w ws) hlen
    have h1 := swap_head k hk (there (hot w ws)) (by rw [hlt]; exact hk')
    rw [h0] at h1
    have h2 : (here (hot w ws))[0]? = some 1 := by simp [here, hot]
    rw [h2] at h1
    have h3 := hot_there w ws (k - 1) h1.symm
    have hwk : w = k := by omega
    subst hwk
    intro x hx
    rcases List.mem_cons.1 hx with hx | hx
    · exact hx
    · refine ih (fun y hy => hp y (by simp [hy])) ?_ ?_ x hx
      · rw [List.sum_cons] at hd; exact (Nat.dvd_add_right (Nat.dvd_refl w)).1 hd
      · intro fs hfs
        have := h (List.replicate w 0 :: fs) (by simp [hfs])
        have hc : there (List.replicate w 0 :: fs) = (List.replicate w 0).reverse ++ there fs := rfl
        rw [hc, swap_word w _ _ (by simp) hk] at this
        have hh : here (List.replicate w 0 :: fs) = List.replicate w 0 ++ here fs := by simp [here]
        rw [hh] at this
        exact (List.append_inj this (by simp)).2

/-- **A message from a machine with the other byte order is understood, whatever is in it, exactly if all its fields have one size, the largest of 8, 4, 2 and 1
that divides the size of the message.** -/
theorem understood_iff (ws : List Nat) (hp : ∀ w ∈ ws, 0 < w) :
    (∀ fs : List Bytes, fs.map List.length = ws → incoming (there fs) .other = here fs) ↔ ∀ w ∈ ws, w = wordSize ws.sum := by
  have e : ∀ fs : List Bytes, fs.map List.length = ws → incoming (there fs) .other = swapWords (wordSize ws.sum) (there fs) := by
    intro fs hfs
    unfold incoming
    dsimp only
    rw [length_there, hfs]
  constructor
  · intro h
    apply swap_needs _ (wordSize_pos _) ws hp (wordSize_dvd _)
    intro fs hfs
    rw [← e fs hfs]
    exact h fs hfs
  · intro h fs hfs
    rw [e fs hfs]
    apply swap_uniform _ (wordSize_pos _)
    intro f hf
    apply h
    rw [← hfs]
    exact List.mem_map.2 ⟨f, hf, rfl⟩

/-- Messages of 64-bit fields only are understood. -/
theorem all_64 (fs : List Bytes) (h : ∀ f ∈ fs, f.length = 8) : incoming (there fs) .other = here fs := by
  have hs : (fs.map List.length).sum % 8 = 0 := by
    induction fs with
    | nil => rfl
    | cons f fs ih =>
      rw [List.map_cons, List.sum_cons, h f (by simp)]
      have := ih fun x hx => h x (by simp [hx])
      omega
  unfold incoming
  dsimp only
  rw [length_there]
  unfold wordSize
  rw [if_pos hs]
  exact swap_uniform 8 (by decide) fs h

/-- **Disagreement: two 32-bit fields are exchanged**, so a linear speed arrives as an angular one and the other way round. -/
theorem pair_exchanged (a b : Bytes) (ha : a.length = 4) (hb : b.length = 4) : incoming (there [a, b]) .other = here [b, a] := by
  unfold incoming
  dsimp only
  rw [length_there]
  simp only [List.map_cons, List.map_nil, ha, hb, List.sum_cons, List.sum_nil]
  rw [show wordSize (4 + (4 + 0)) = 8 from rfl]
  have e : there [a, b] = (a.reverse ++ b.reverse) ++ [] := by simp [there]
  rw [e, swap_word 8 _ _ (by simp [ha, hb]) (by decide), swap_nil]
  simp [here]

/-- **Disagreement: text is scrambled**: a text of eight bytes arrives backwards. -/
theorem text_reversed (t : Bytes) (ht : t.length = 8) : incoming (there (t.map fun c => [c])) .other = t.reverse := by
  have e : there (t.map fun c => [c]) = t ++ [] := by
    unfold there
    rw [List.map_map, List.append_nil]
    clear ht
    induction t with
    | nil => rfl
    | cons c t ih => rw [List.map_cons, List.flatten_cons, ih]; rfl
  unfold incoming
  dsimp only
  rw [e, List.length_append, ht]
  rw [show wordSize (8 + ([] : Bytes).length) = 8 from rfl, swap_word 8 _ _ ht (by decide), swap_nil]
  simp

/-- replicator.rs:747-764: a latched message sent again is always marked as little endian, whatever it was marked with first; this is what that mark means to
the receiver. -/
def resentAs (receiverBig : Bool) : Enc := if receiverBig then .other else .native

/-- **Disagreement: a latched message of a big-endian sender that has to be sent again arrives in the wrong byte order** although the first copy would have been
understood. -/
theorem resend_unswapped (fs : List Bytes) (h : ∀ f ∈ fs, f.length = 8) (hne : there fs ≠ here fs) :
    incoming (there fs) .other = here fs ∧ incoming (there fs) (resentAs false) ≠ here fs :=
  ⟨all_64 fs h, hne⟩

/-- **Disagreement: an encoded latched message sent again is scrambled by a big-endian receiver**: its first eight bytes arrive backwards. -/
theorem resend_scrambled (p : Bytes) (h : p.length = 8) : incoming p .bincode = p ∧ incoming p (resentAs true) = p.reverse := by
  refine ⟨rfl, ?_⟩
  show swapWords (wordSize p.length) p = p.reverse
  rw [h]
  have := swap_word 8 p [] h (by decide)
  rw [List.append_nil, swap_nil, List.append_nil] at this
  exact this

example : ∃ fs : List Bytes, (∀ f ∈ fs, f.length = 8) ∧ there fs ≠ here fs := ⟨[[1, 2, 3, 4, 5, 6, 7, 8]], by decide, by decide⟩
example : incoming (there [[1, 2, 3, 4, 5, 6, 7, 8], [9, 10, 11, 12, 13, 14, 15, 16]]) .other = [1, 2, 3, 4, 5, 6, 7, 8, 9, 10, 11, 12, 13, 14, 15, 16] :=
  all_64 _ (by decide)
example : ∀ w ∈ [4, 4, 4], w = wordSize [4, 4, 4].sum := by decide
example : ¬ ∀ w ∈ [8, 4, 4], w = wordSize [8, 4, 4].sum := by decide

end Horus.Endian
