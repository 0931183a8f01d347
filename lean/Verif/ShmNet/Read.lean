import Verif.ShmNet.Props
/-
C26 and C76: raw readers of a topic's backing file.
-/
namespace Horus.ShmNet

theorem sliceChecked_payload {m : Bytes} {a b wi : Nat} {x : Bytes} {i : Nat}
    (h : sliceChecked m a b wi = .payload x i) :
    i = wi ∧ a + x.length ≤ m.length ∧ x = slice m a x.length ∧ x.length = b - a := by
  simp only [sliceChecked] at h
  split at h
  · rename_i hc
    injection h with h1 h2
    subst h1
    have hl := slice_length m a (b - a) (by omega)
    refine ⟨h2.symm, by omega, by rw [hl], hl⟩
  · cases h

/-- The reader's view of a region: the slot index it selects, if it gets that far. -/
structure Located (m : Bytes) (last : Nat) (ordinal : Option Nat) (cap idx : Nat) : Prop where
  hlen : 640 ≤ m.length
  hmagic : leAt m 0 8 = magic
  hcap : cap = leAt m 72 4
  hpow : isPow2 cap = true
  hmask : leAt m 76 4 = cap - 1
  hwi : leAt m 56 8 ≠ 0
  hlast : leAt m 56 8 ≠ last
  ht0 : ordinal.getD (leAt m 56 8) ≠ 0
  ht1 : ordinal.getD (leAt m 56 8) ≤ leAt m 56 8
  htc : leAt m 56 8 < ordinal.getD (leAt m 56 8) + cap
  hidx : idx = (ordinal.getD (leAt m 56 8) - 1) % cap

theorem isPow2_pos {n : Nat} (h : isPow2 n = true) : 0 < n := by
  obtain ⟨k, rfl⟩ := isPow2_spec.mp h; exact Nat.two_pow_pos k

/-- Reading reduces to the slot part once the header has been accepted. -/
theorem readSlot_located {m : Bytes} {last : Nat} {ordinal : Option Nat} {cap idx : Nat}
    (L : Located m last ordinal cap idx) :
    readSlot m last ordinal =
      if leAt m 20 1 == 2 then
        if leAt m 12 4 = 0 then .nothing
        else if m.length < 640 + cap * 8 + cap * leAt m 12 4 then .nothing
        else sliceChecked m (slotAt cap (leAt m 12 4) idx)
          (slotAt cap (leAt m 12 4) idx + leAt m 12 4) (leAt m 56 8)
      else
        if leAt m 80 4 < 16 then .nothing
        else if m.length < 640 + cap * 8 + cap * leAt m 80 4 then .nothing
        else if leAt m (slotAt cap (leAt m 80 4) idx + 8) 8 = 0 ∨
            (slotAt cap (leAt m 80 4) idx + 16 + leAt m (slotAt cap (leAt m 80 4) idx + 8) 8)
              % 2 ^ 64 > m.length then .nothing
        else sliceChecked m (slotAt cap (leAt m 80 4) idx + 16)
          ((slotAt cap (leAt m 80 4) idx + 16 + leAt m (slotAt cap (leAt m 80 4) idx + 8) 8)
              % 2 ^ 64) (leAt m 56 8) := by
  obtain ⟨k, hk⟩ := isPow2_spec.mp L.hpow
  have hpos := isPow2_pos L.hpow
  have hi : (ordinal.getD (leAt m 56 8) - 1) &&& leAt m 76 4 = idx := by
    rw [L.hmask, L.hidx, hk, and_mask]
  have hcap := L.hcap
  simp only [readSlot]
  rw [if_neg (by have := L.hlen; simp only [headerSize]; omega), if_neg (by simpa using L.hmagic),
    ← hcap, if_neg (by
      have := L.hpow; have := L.hmask
      rintro (h | h | h)
      · omega
      · simp_all
      · exact h L.hmask),
    if_neg (by have := L.hwi; have := L.hlast; omega),
    if_neg (by have := L.ht0; have := L.ht1; omega),
    if_neg (by have := L.htc; omega), hi]
  rfl

/-- Reading either returns nothing at once or selects a slot below the capacity. -/
theorem readSlot_split (m : Bytes) (last : Nat) (ordinal : Option Nat) :
    readSlot m last ordinal = .nothing ∨
    ∃ idx, Located m last ordinal (leAt m 72 4) idx ∧ idx < leAt m 72 4 := by
  by_cases h1 : m.length < headerSize
  · left; simp only [readSlot]; rw [if_pos h1]
  by_cases h2 : leAt m 0 8 ≠ magic
  · left; simp only [readSlot]; rw [if_neg h1, if_pos h2]
  by_cases h3 : leAt m 72 4 = 0 ∨ isPow2 (leAt m 72 4) = false ∨ leAt m 76 4 ≠ leAt m 72 4 - 1
  · left; simp only [readSlot]; rw [if_neg h1, if_neg h2, if_pos h3]
  by_cases h4 : leAt m 56 8 = 0 ∨ leAt m 56 8 = last
  · left; simp only [readSlot]; rw [if_neg h1, if_neg h2, if_neg h3, if_pos h4]
  by_cases h5 : ordinal.getD (leAt m 56 8) = 0 ∨ ordinal.getD (leAt m 56 8) > leAt m 56 8
  · left; simp only [readSlot]; rw [if_neg h1, if_neg h2, if_neg h3, if_neg h4, if_pos h5]
  by_cases h6 : leAt m 56 8 - ordinal.getD (leAt m 56 8) ≥ leAt m 72 4
  · left; simp only [readSlot]
    rw [if_neg h1, if_neg h2, if_neg h3, if_neg h4, if_neg h5, if_pos h6]
  right
  have hp : isPow2 (leAt m 72 4) = true := by
    cases hq : isPow2 (leAt m 72 4) with
    | true => rfl
    | false => exact absurd (.inr (.inl hq)) h3
  simp only [headerSize] at h1
  refine ⟨_, ⟨by omega, by simpa using h2, rfl, hp, ?_, by omega, by omega, by omega, by omega,
    by omega, rfl⟩, Nat.mod_lt _ (isPow2_pos hp)⟩
  by_cases hm : leAt m 76 4 = leAt m 72 4 - 1
  · exact hm
  · exact absurd (.inr (.inr hm)) h3

/-- **C26, bytes.** Whatever the file contains, a payload returned by the reader is a piece of the
file behind its header; its index is the file's message counter, which is neither zero nor the
one the caller already had. -/
theorem read_inside {m : Bytes} {last : Nat} {ordinal : Option Nat} {b : Bytes} {wi : Nat}
    (h : readSlot m last ordinal = .payload b wi) :
    wi = leAt m 56 8 ∧ wi ≠ 0 ∧ wi ≠ last ∧
    ∃ off, 640 ≤ off ∧ off + b.length ≤ m.length ∧ b = slice m off b.length := by
  rcases readSlot_split m last ordinal with hn | ⟨idx, L, hi⟩
  · rw [hn] at h; cases h
  rw [readSlot_located L] at h
  have key : ∀ a c, 640 ≤ a → sliceChecked m a c (leAt m 56 8) = .payload b wi →
      wi = leAt m 56 8 ∧ wi ≠ 0 ∧ wi ≠ last ∧
      ∃ off, 640 ≤ off ∧ off + b.length ≤ m.length ∧ b = slice m off b.length := by
    intro a c ha hs
    obtain ⟨e1, e2, e3, _⟩ := sliceChecked_payload hs
    exact ⟨e1, e1 ▸ L.hwi, e1 ▸ L.hlast, a, ha, e2, e3⟩
  split at h
  · split at h; · cases h
    split at h; · cases h
    exact key _ _ (by simp only [slotAt]; omega) h
  · split at h; · cases h
    split at h; · cases h
    split at h; · cases h
    exact key _ _ (by simp only [slotAt]; omega) h

/-- **C26, panics.** The full claim (no file makes the reader panic) is false, see `read_panics`;
what holds is that it panics only on a serialized topic whose length word is so large that adding
it to its own position exceeds 64 bits. -/
theorem read_panics_only_partial {m : Bytes} {last : Nat} {ordinal : Option Nat}
    (h : readSlot m last ordinal = .panic) :
    leAt m 20 1 ≠ 2 ∧ ∃ off, 640 ≤ off ∧ off + 8 ≤ m.length ∧
      2 ^ 64 ≤ off + 8 + leAt m off 8 := by
  rcases readSlot_split m last ordinal with hn | ⟨idx, L, hi⟩
  · rw [hn] at h; cases h
  rw [readSlot_located L] at h
  have sl := fun s => slot_le (cap := leAt m 72 4) (stride := s) hi
  split at h
  · split at h; · cases h
    split at h; · cases h
    rename_i h1 h2 h3
    have := sl (leAt m 12 4)
    simp only [sliceChecked] at h
    rw [if_pos] at h
    · cases h
    · constructor
      · omega
      · have e : slotAt (leAt m 72 4) (leAt m 12 4) (leAt m 72 4)
          = 640 + leAt m 72 4 * 8 + leAt m 72 4 * leAt m 12 4 := rfl
        omega
  · rename_i hpod
    split at h; · cases h
    split at h; · cases h
    split at h; · cases h
    rename_i h1 h2 h3
    have hs := sl (leAt m 80 4)
    have e : slotAt (leAt m 72 4) (leAt m 80 4) (leAt m 72 4)
      = 640 + leAt m 72 4 * 8 + leAt m 72 4 * leAt m 80 4 := rfl
    refine ⟨by simpa using hpod, slotAt (leAt m 72 4) (leAt m 80 4) idx + 8, ?_, by omega, ?_⟩
    · simp only [slotAt]; omega
    · by_contra hlt
      simp only [sliceChecked] at h
      rw [Nat.mod_eq_of_lt (by omega)] at h h3
      rw [if_pos ⟨by omega, by omega⟩] at h
      cases h

/-- A message written through the network is read back exactly, with the next index, provided the
message counter and the head agree modulo the ring (they do while every producer advances both).
An empty serialized payload is the exception: it reads as nothing. -/
theorem read_back {m payload : Bytes} {w : Writer} (h : openRegion m = some w) (ha : Aligned w)
    {ss : List Store} (hw : write w m payload = some ss) (hne : payload ≠ [])
    (hc : loadTotal m % w.capacity = loadHead m % w.capacity)
    (hmax : loadTotal m + 1 < 2 ^ 64) (hlenm : m.length < 2 ^ 63)
    (last : Nat) (hlast : last ≠ loadTotal m + 1) :
    ∃ m', execAll ss m = some m' ∧ readSlot m' last none = .payload payload (loadTotal m + 1) := by
  obtain ⟨m', he, _, ht, _, hmsg, ho, hl⟩ := write_done h rfl ha hw
  refine ⟨m', he, ?_⟩
  rw [Nat.mod_eq_of_lt hmax] at ht
  have h' : openRegion m' = some w := by rw [ho, h]
  obtain ⟨g1, g2, g3, g4, g5, g6⟩ := open_geometry h'
  have hfit : Fits w payload := (write_accepted_iff h rfl).mp (by simp [hw])
  -- the header fields of m' as the writer read them
  simp only [openRegion] at h'
  generalize hst : (if (leAt m' 20 1 == 2) = true then leAt m' 12 4 else leAt m' 80 4) = st at h'
  split at h'; · cases h'
  split at h'; · cases h'
  split at h'; · cases h'
  split at h'; · cases h'
  split at h'; · cases h'
  rename_i q1 q2 q3 q4 q5
  injection h' with h'
  have fc : w.capacity = leAt m' 72 4 := by rw [← h']
  have fts : w.typeSize = leAt m' 12 4 := by rw [← h']
  have fss : w.slotSize = leAt m' 80 4 := by rw [← h']
  have fp : w.isPod = (leAt m' 20 1 == 2) := by rw [← h']
  have fm : w.capMask = leAt m' 76 4 := by rw [← h']
  obtain ⟨k, hk⟩ := g2
  have hp : isPow2 w.capacity = true := isPow2_spec.mpr ⟨k, hk⟩
  have hpos := isPow2_pos hp
  have htot : leAt m' 56 8 = loadTotal m + 1 := ht
  have L : Located m' last none w.capacity (loadHead m % w.capacity) := by
    refine ⟨g1, by simpa using q2, fc, hp, by omega, by omega, by omega, by simp; omega,
      by simp, by simp; omega, ?_⟩
    simp [htot, hc]
  rw [readSlot_located L, htot, ← fp, ← fts, ← fss]
  have hidx : loadHead m % w.capacity < w.capacity := Nat.mod_lt _ hpos
  have hsl := slot_le (stride := w.stride) hidx
  have e0 : ∀ s, slotAt w.capacity s w.capacity = 640 + w.capacity * 8 + w.capacity * s :=
    fun _ => rfl
  cases hpod : w.isPod with
  | true =>
    simp only [Writer.stride, hpod, if_true] at g4 g5 hsl
    simp only [Fits, hpod, if_true] at hfit
    simp only [messageIn, hpod, if_true] at hmsg
    have := e0 w.typeSize
    rw [if_pos rfl, if_neg (by omega), if_neg (by omega)]
    simp only [sliceChecked]
    rw [if_pos ⟨by omega, by omega⟩, Nat.add_sub_cancel_left, hmsg]
  | false =>
    simp only [Writer.stride, hpod, Bool.false_eq_true, if_false] at g4 g5 hsl
    simp only [Fits, hpod, Bool.false_eq_true, if_false] at hfit
    simp only [messageIn, hpod, Bool.false_eq_true, if_false] at hmsg
    have := e0 w.slotSize
    have hpl : 0 < payload.length := List.length_pos_iff.mpr hne
    have hmod : (leAt m' (slotAt w.capacity w.slotSize (loadHead m % w.capacity) + 8) 8)
        = payload.length := by
      -- the slice returned has the payload's length and lies inside the file
      obtain ⟨hi, hf, h640, hss, a8, r1, r2, s1, s2, rs, sl, su, hnp⟩ := write_setup h rfl ha hw
      have hfull := publish_full ((loadHead m + 1) % 2 ^ 64) ((loadTotal m + 1) % 2 ^ 64) h640 a8
        r2 s2
      rw [← hss, he] at hfull
      have st : Stage m (stampAt w (loadHead m % w.capacity)) (dataAt w (loadHead m % w.capacity))
          (dataOf w payload) ((loadHead m + 1) % 2 ^ 64) ((loadTotal m + 1) % 2 ^ 64) m' := by
        injection hfull with hfull; rw [hfull]; exact .counted
      have c := st.complete h640 r2 r1 s1 s2 rs (Nat.mod_lt _ (by decide))
        (Nat.mod_lt _ (by decide))
      have hne' : loadTotal m' ≠ loadTotal m := by rw [ht]; omega
      obtain ⟨_, _, _, hd⟩ := c.2.2.resolve_left hne'
      have hd2 : slice m' (dataAt w (loadHead m % w.capacity)) 8 = le 8 payload.length := by
        have e8 : slice (dataOf w payload) 0 8 = le 8 payload.length := by
          simp only [dataOf, hpod, Bool.false_eq_true, if_false]
          exact slice_append_left _ _ _ (by simp)
        rw [← e8, ← hd]
        apply List.ext_getElem?; intro j
        simp only [slice_getElem?]
        by_cases hj : j < 8
        · rw [if_pos hj, if_pos hj, if_pos (by
            simp only [dataOf, hpod, Bool.false_eq_true, if_false, List.length_append, le_length]
            omega)]
          simp
        · rw [if_neg hj, if_neg hj]
      simp only [dataAt, hpod, Bool.false_eq_true, if_false] at hd2
      rw [leAt, hd2, leNat_le]
      exact Nat.mod_eq_of_lt (by omega)
    rw [hmod] at hmsg ⊢
    rw [if_neg (by decide), if_neg (by omega), if_neg (by omega), Nat.mod_eq_of_lt (by omega),
      if_neg (by omega)]
    simp only [sliceChecked]
    rw [if_pos ⟨by omega, by omega⟩, Nat.add_sub_cancel_left, hmsg]

/-- The network reader never hands out the same index twice in a row and remembers exactly what it
handed out. -/
theorem poll_fresh {r r' : NetReader} {m b : Bytes} {i : Nat}
    (h : r.poll m = (r', .payload b i)) : i ≠ r.last ∧ r'.last = i ∧ i = leAt m 56 8 := by
  simp only [NetReader.poll] at h
  split at h
  · rename_i b' i' hr
    obtain ⟨e1, e2, e3, _⟩ := read_inside hr
    injection h with h1 h2
    injection h2 with h3 h4
    subst h4; subst h1
    exact ⟨e3, rfl, e1⟩
  · rename_i x hx
    injection h with h1 h2
    exact absurd h2 (hx b i)

/-! ### Reading a run of messages -/

/-- Specification: the payload of message number `n`, if it is still in the ring. -/
def messageNo (m : Bytes) (n : Nat) : Option Bytes :=
  match readSlot m 0 (some n) with
  | .payload b _ => some b
  | _ => none

/-- Message number `n` of a region that opens is exactly the content of slot `(n-1) mod capacity`,
for the last `capacity` numbers up to the counter, and absent for every other number.  For a
serialized topic this supposes that slot's length word is sane (non-zero, and ending inside the
file). -/
theorem messageNo_exact {m : Bytes} {w : Writer} (h : openRegion m = some w)
    (h16 : w.isPod = false → 16 ≤ w.slotSize) (hlenm : m.length < 2 ^ 63) (n : Nat)
    (hsane : w.isPod = false →
      0 < leAt m (slotAt w.capacity w.slotSize ((n - 1) % w.capacity) + 8) 8 ∧
      slotAt w.capacity w.slotSize ((n - 1) % w.capacity) + 16 +
        leAt m (slotAt w.capacity w.slotSize ((n - 1) % w.capacity) + 8) 8 ≤ m.length) :
    messageNo m n = if 1 ≤ n ∧ n ≤ loadTotal m ∧ loadTotal m < n + w.capacity then
      some (messageIn w m ((n - 1) % w.capacity)) else none := by
  obtain ⟨g1, g2, g3, g4, g5, g6⟩ := open_geometry h
  simp only [openRegion] at h
  generalize hst : (if (leAt m 20 1 == 2) = true then leAt m 12 4 else leAt m 80 4) = st at h
  split at h; · cases h
  split at h; · cases h
  split at h; · cases h
  split at h; · cases h
  split at h; · cases h
  rename_i q1 q2 q3 q4 q5
  injection h with h
  have fc : w.capacity = leAt m 72 4 := by rw [← h]
  have fts : w.typeSize = leAt m 12 4 := by rw [← h]
  have fss : w.slotSize = leAt m 80 4 := by rw [← h]
  have fp : w.isPod = (leAt m 20 1 == 2) := by rw [← h]
  have fm : w.capMask = leAt m 76 4 := by rw [← h]
  obtain ⟨k, hk⟩ := g2
  have hp : isPow2 w.capacity = true := isPow2_spec.mpr ⟨k, hk⟩
  have hpos := isPow2_pos hp
  have htot : loadTotal m = leAt m 56 8 := rfl
  by_cases hr : 1 ≤ n ∧ n ≤ loadTotal m ∧ loadTotal m < n + w.capacity
  swap
  · rw [if_neg hr]
    rcases readSlot_split m 0 (some n) with hn | ⟨idx, L, _⟩
    · simp [messageNo, hn]
    · have h0 := L.ht0; have h1 := L.ht1; have h2 := L.htc
      simp only [Option.getD_some] at h0 h1 h2
      omega
  rw [if_pos hr]
  have L : Located m 0 (some n) w.capacity ((n - 1) % w.capacity) := by
    refine ⟨g1, by simpa using q2, fc, hp, by omega, by omega, by omega, ?_, ?_, ?_, ?_⟩ <;>
      simp only [Option.getD_some] <;> omega
  simp only [messageNo]
  rw [readSlot_located L, ← fp, ← fts, ← fss]
  have hsl := slot_le (cap := w.capacity) (stride := w.stride) (Nat.mod_lt (n - 1) hpos)
  have e0 : ∀ s, slotAt w.capacity s w.capacity = 640 + w.capacity * 8 + w.capacity * s :=
    fun _ => rfl
  cases hpod : w.isPod with
  | true =>
    simp only [Writer.stride, hpod, if_true] at g4 g5 hsl
    have := e0 w.typeSize
    rw [if_pos rfl, if_neg (by omega), if_neg (by omega)]
    simp only [sliceChecked]
    rw [if_pos ⟨by omega, by omega⟩, Nat.add_sub_cancel_left]
    simp [messageIn, hpod]
  | false =>
    simp only [Writer.stride, hpod, Bool.false_eq_true, if_false] at g4 g5 hsl
    have := e0 w.slotSize
    obtain ⟨s1, s2⟩ := hsane hpod
    have := h16 hpod
    have hm := Nat.mod_eq_of_lt (show _ < 2 ^ 64 from Nat.lt_of_le_of_lt s2 (by omega))
    rw [if_neg (by decide), if_neg (by omega), if_neg (by omega), hm, if_neg (by omega)]
    simp only [sliceChecked]
    rw [if_pos ⟨by omega, by omega⟩, Nat.add_sub_cancel_left]
    simp [messageIn, hpod]

theorem collect_spec {m head : Bytes} {wi : Nat} (hh : messageNo m wi = some head)
    (ns : List Nat) {out : List Bytes} {lapped : Nat}
    (h : collect m wi head ns = some (out, lapped)) :
    out = ns.filterMap (messageNo m) ∧ out.length + lapped = ns.length := by
  induction ns generalizing out lapped with
  | nil => simp [collect] at h; simp [← h.1, ← h.2]
  | cons n ns ih =>
    simp only [collect] at h
    have key : ∀ b, messageNo m n = some b →
        (collect m wi head ns).map (fun r => (b :: r.1, r.2)) = some (out, lapped) →
        out = (n :: ns).filterMap (messageNo m) ∧ out.length + lapped = (n :: ns).length := by
      intro b hb hm
      rcases hc : collect m wi head ns with _ | ⟨o, l⟩
      · rw [hc] at hm; cases hm
      · rw [hc] at hm
        simp only [Option.map_some, Option.some.injEq, Prod.mk.injEq] at hm
        obtain ⟨i1, i2⟩ := ih hc
        rw [List.filterMap_cons, hb, ← hm.1, ← hm.2]
        simp only [List.length_cons]
        exact ⟨by rw [i1], by omega⟩
    by_cases hn : n = wi
    · rw [if_pos hn] at h
      exact key head (by rw [hn]; exact hh) h
    · rw [if_neg hn] at h
      split at h
      · cases h
      · rename_i b x hr
        exact key b (by simp [messageNo, hr]) h
      · rename_i hr
        have hb : messageNo m n = none := by simp [messageNo, hr]
        rcases hc : collect m wi head ns with _ | ⟨o, l⟩
        · rw [hc] at h; cases h
        · rw [hc] at h
          simp only [Option.map_some, Option.some.injEq, Prod.mk.injEq] at h
          obtain ⟨i1, i2⟩ := ih hc
          rw [List.filterMap_cons, hb, ← h.1, ← h.2]
          simp only [List.length_cons]
          exact ⟨i1, by omega⟩

/-- The newest message read without an ordinal is the one numbered by the counter. -/
theorem newest_is_numbered {m b : Bytes} {last wi : Nat}
    (h : readSlot m last none = .payload b wi) : messageNo m wi = some b := by
  obtain ⟨e1, e2, e3, _⟩ := read_inside h
  rcases readSlot_split m last none with hn | ⟨idx, L, hi⟩
  · rw [hn] at h; cases h
  have L2 : Located m 0 (some wi) (leAt m 72 4) idx := by
    have hd : (none : Option Nat).getD (leAt m 56 8) = leAt m 56 8 := rfl
    have h0 := L.ht0; have h1 := L.htc; have h2 := L.hidx
    rw [hd] at h0 h1 h2
    refine ⟨L.hlen, L.hmagic, L.hcap, L.hpow, L.hmask, L.hwi, by omega, ?_, ?_, ?_, ?_⟩ <;>
      simp only [Option.getD_some, e1] <;> first | omega | exact h2
  simp only [messageNo]
  rw [readSlot_located L2]
  rw [readSlot_located L] at h
  rw [h]

/-- **C76, proved part.** A poll returns, oldest first, exactly those of the next
`min(available, max)` messages that are still in the ring, and counts every one of them that is
not. -/
theorem since_exact {m : Bytes} {last max wi lapped : Nat} {out : List Bytes} (h0 : last ≠ 0)
    (h : slotsSince m last max = some (wi, out, lapped)) (hwi : wi ≠ 0) :
    wi = leAt m 56 8 ∧
    out = (List.range' (last + 1) (min (wi - last) max)).filterMap (messageNo m) ∧
    out.length + lapped = min (wi - last) max := by
  simp only [slotsSince] at h
  split at h
  · cases h
  · injection h with h; injection h with h1 h2; exact absurd h1.symm hwi
  · rename_i b wi' hr
    obtain ⟨e1, _⟩ := read_inside hr
    rw [if_neg h0] at h
    split at h
    · rename_i hz
      simp only [Option.some.injEq, Prod.mk.injEq] at h
      obtain ⟨rfl, rfl, rfl⟩ := h
      rw [hz]; simp [e1]
    · rcases hc : collect m wi' b (List.range' (last + 1) (min (wi' - last) max)) with _ | ⟨o, l⟩
      · rw [hc] at h; cases h
      · rw [hc] at h
        simp only [Option.map_some, Option.some.injEq, Prod.mk.injEq] at h
        obtain ⟨rfl, rfl, rfl⟩ := h
        obtain ⟨c1, c2⟩ := collect_spec (newest_is_numbered hr) _ hc
        exact ⟨e1, c1, by rw [c2, List.length_range']⟩

/-- **C76, complete polls.** If the budget covers everything that is available, every message up
to the counter has been returned or counted as overwritten, and (when something was returned) the
next poll continues right after it. -/
theorem echo_complete_partial {m : Bytes} {last max last' lapped : Nat} {out : List Bytes}
    (h0 : last ≠ 0) (h : echoPoll m last max = some (last', out, lapped)) (hout : out ≠ [])
    (hmax : leAt m 56 8 - last ≤ max) (hmono : last ≤ leAt m 56 8) :
    last' = leAt m 56 8 ∧ out.length + lapped = last' - last := by
  simp only [echoPoll] at h
  rcases hs : slotsSince m last max with _ | ⟨wi, o, l⟩
  · rw [hs] at h; cases h
  · rw [hs] at h
    simp only [Option.some.injEq, Prod.mk.injEq] at h
    obtain ⟨h1, rfl, rfl⟩ := h
    rw [if_neg hout] at h1
    have hwi : wi ≠ 0 := by
      intro hz; subst hz
      simp only [slotsSince] at hs
      split at hs
      · cases hs
      · injection hs with hs; injection hs with _ hs; injection hs with hs _
        exact hout hs.symm
      · rename_i b wi' hr
        obtain ⟨_, e2, _⟩ := read_inside hr
        rw [if_neg h0] at hs
        split at hs
        · injection hs with hs; injection hs with hs; exact e2 hs
        · rcases hc : collect m wi' b (List.range' (last + 1) (min (wi' - last) max)) with _ | r
          · rw [hc] at hs; cases hs
          · rw [hc] at hs; injection hs with hs; injection hs with hs; exact e2 hs
    obtain ⟨e1, _, e3⟩ := since_exact h0 hs hwi
    have : Nat.max last wi = wi := Nat.max_eq_right (by omega)
    rw [this] at h1
    subst h1
    exact ⟨e1, by rw [e3]; omega⟩

/-- **C76 is false in general (1): the rest is skipped.** However many messages were left beyond
the budget, once a poll has returned anything the position is the counter itself, so the next poll
of the same file returns nothing: the remaining messages are never delivered and never counted. -/
theorem rest_never_returned {m : Bytes} {last max last' lapped max' : Nat} {out : List Bytes}
    (h : echoPoll m last max = some (last', out, lapped)) (hout : out ≠ [])
    (hmono : last ≤ leAt m 56 8) :
    echoPoll m last' max' = some (last', [], 0) := by
  have hl : last' = leAt m 56 8 := by
    simp only [echoPoll] at h
    rcases hs : slotsSince m last max with _ | ⟨wi, o, l⟩
    · rw [hs] at h; cases h
    rw [hs] at h
    simp only [Option.some.injEq, Prod.mk.injEq] at h
    obtain ⟨h1, rfl, rfl⟩ := h
    rw [if_neg hout] at h1
    have : wi = leAt m 56 8 := by
      simp only [slotsSince] at hs
      split at hs
      · cases hs
      · injection hs with hs; injection hs with _ hs; injection hs with hs _
        exact absurd hs.symm hout
      · rename_i b wi' hr
        obtain ⟨e1, _⟩ := read_inside hr
        split at hs
        · injection hs with hs; injection hs with hs; omega
        split at hs
        · injection hs with hs; injection hs with hs; omega
        · rcases hc : collect m wi' b (List.range' (last + 1) (min (wi' - last) max)) with _ | r
          · rw [hc] at hs; cases hs
          · rw [hc] at hs; injection hs with hs; injection hs with hs; omega
    rw [← h1, this]; exact Nat.max_eq_right hmono
  have hr : readSlot m last' none = .nothing := by
    rcases readSlot_split m last' none with hn | ⟨idx, L, _⟩
    · exact hn
    · exact absurd hl.symm L.hlast
  simp [echoPoll, slotsSince, hr]

theorem lapped_none {m : Bytes} {n : Nat} (h : n + leAt m 72 4 ≤ leAt m 56 8) :
    readSlot m 0 (some n) = .nothing := by
  rcases readSlot_split m 0 (some n) with hn | ⟨idx, L, _⟩
  · exact hn
  · have := L.htc; simp only [Option.getD_some] at this; omega

theorem collect_all_lapped {m head : Bytes} {wi : Nat} (hwi : wi = leAt m 56 8) (ns : List Nat)
    (h : ∀ n ∈ ns, n + leAt m 72 4 ≤ wi ∧ n ≠ wi) : collect m wi head ns = some ([], ns.length) := by
  induction ns with
  | nil => rfl
  | cons n ns ih =>
    simp only [collect]
    have hn := h n (by simp)
    rw [if_neg hn.2, lapped_none (by omega), ih (fun x hx => h x (by simp [hx]))]
    simp

/-- **C76 is false in general (2): the reader stalls for ever.** If it has fallen behind by the
ring plus its budget, a poll reports the budget as overwritten, returns nothing and does not move;
since the counter only grows, the same holds at every later poll. -/
theorem echo_stalls {m : Bytes} {last max : Nat} (h0 : last ≠ 0) (hcap : 0 < leAt m 72 4)
    (hfar : last + max + leAt m 72 4 ≤ leAt m 56 8) (hok : ∃ b wi, readSlot m last none = .payload b wi) :
    echoPoll m last max = some (last, [], max) := by
  obtain ⟨b, wi, hr⟩ := hok
  obtain ⟨e1, _⟩ := read_inside hr
  simp only [echoPoll, slotsSince, hr]
  rw [if_neg h0, if_neg (by omega), show min (wi - last) max = max by omega,
    collect_all_lapped e1 _ (by
      intro n hn
      rw [List.mem_range'_1] at hn
      omega)]
  simp

/-! ### Witnesses -/

/-- A region of 2 slots of 4 bytes of plain data (or 24-byte serialized slots), empty ring. -/
def demo (pod : Bool) (ts cap ss total head : Nat) (extra : Nat) : Bytes :=
  put (put (put (put (put (put (put (put (List.replicate (640 + cap * 8 + extra) 0) 0 (le 8 magic))
    12 (le 4 ts)) 20 (if pod then [2] else [1])) 56 (le 8 total)) 64 (le 8 head)) 72 (le 4 cap))
    76 (le 4 (cap - 1))) 80 (le 4 ss)

/-- A small plain-data writer and two serialized ones. -/
def demoPod : Writer := ⟨4, 2, 1, 0, true⟩
/-- A serialized writer whose slot size is a multiple of eight. -/
def demoSerde : Writer := ⟨4, 2, 1, 24, false⟩
/-- A serialized writer whose slot size is not. -/
def demoOdd : Writer := ⟨4, 2, 1, 20, false⟩

example : openRegion (demo true 4 2 0 5 5 8) =
    some demoPod ∧
    ((write demoPod
      (demo true 4 2 0 5 5 8) [9, 8, 7, 6]).bind (execAll · (demo true 4 2 0 5 5 8))).map
        (readSlot · 5 none) = some (.payload [9, 8, 7, 6] 6) := by decide +kernel

example : ((write demoSerde
      (demo false 4 2 24 5 5 48) [9, 8, 7]).bind (execAll · (demo false 4 2 24 5 5 48))).map
        (readSlot · 5 none) = some (.payload [9, 8, 7] 6) := by decide +kernel

/-- **C26 is false as stated**: a serialized topic file with an all-ones length word makes the
reader panic. -/
theorem read_panics : ∃ m, readSlot m 0 none = .panic :=
  ⟨put (demo false 4 1 24 1 1 24) (648 + 8) (le 8 (2 ^ 64 - 1)), by decide +kernel⟩

/-- The length word is not checked against the slot: the bytes returned may run on into the next
message. -/
theorem read_beyond_slot : ∃ m b wi, readSlot m 0 none = .payload b wi ∧
    leAt m 20 1 ≠ 2 ∧ b.length > leAt m 80 4 :=
  ⟨put (demo false 4 2 24 1 1 48) (656 + 8) (le 8 30), List.replicate 30 0, 1,
    by decide +kernel, by decide +kernel, by decide +kernel⟩

/-- Without alignment the claim of `write_stays_in_slot` fails: a serialized region whose slot
size is not a multiple of eight opens, but writing its second slot performs a misaligned atomic
store. -/
theorem write_misaligned : ∃ m w ss, openRegion m = some w ∧ write w m [1] = some ss ∧
    execAll ss m = none :=
  ⟨demo false 4 2 20 1 1 40, demoOdd, (write demoOdd (demo false 4 2 20 1 1 40) [1]).getD [],
    by decide +kernel, by decide +kernel, by decide +kernel⟩

/-- If counter and head disagree (a backend that stops advancing its head, or a second producer),
the reader is sent to a different slot from the one written. -/
theorem counter_disagreement_misreads : ∃ m w ss, openRegion m = some w ∧
    write w m [9, 8, 7, 6] = some ss ∧
    (execAll ss m).map (readSlot · 0 none) =
      some (.payload [0, 0, 0, 0] (loadTotal m + 1)) :=
  ⟨demo true 4 2 0 5 4 8, demoPod, (write demoPod (demo true 4 2 0 5 4 8) [9, 8, 7, 6]).getD [],
    by decide +kernel, by decide +kernel, by decide +kernel⟩

/-- An empty serialized message is written but reads as nothing. -/
theorem empty_message_unreadable : ∃ m w ss, openRegion m = some w ∧
    write w m [] = some ss ∧ (execAll ss m).map (readSlot · 0 none) = some .nothing :=
  ⟨demo false 4 2 24 5 5 48, demoSerde, (write demoSerde (demo false 4 2 24 5 5 48) []).getD [],
    by decide +kernel, by decide +kernel, by decide +kernel⟩

/-- Three messages waiting, budget one: one is returned and the other two never will be. -/
example : ∃ m b, echoPoll m 5 1 = some (8, [b], 0) ∧ echoPoll m 8 1 = some (8, [], 0) :=
  ⟨demo true 4 4 0 8 8 16, [0, 0, 0, 0], by decide +kernel, by decide +kernel⟩

/-- Four hundred messages behind on a ring of four, budget nineteen: stalled. -/
example : echoPoll (demo true 4 4 0 401 401 16) 1 19 = some (1, [], 19) := by decide +kernel

end Horus.ShmNet
