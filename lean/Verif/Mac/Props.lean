import Verif.Mac.Spec
import Mathlib.Tactic.Conv
/-
Property C10.
-/
namespace Horus.Mac

/-- The code's round constants. -/
def kTable (t : Nat) : UInt32 := K.getD t 0

/-- The round constants are the ones of FIPS 180-4 §4.2.2. -/
theorem K_standard : K.length = 64 ∧ Spec.primes.length = 64 ∧
    ∀ i < 64, Spec.IsCubeFrac (Spec.primes.getD i 0) (kTable i) := by
  unfold Spec.IsCubeFrac
  decide +kernel

/-- The initial value is the one of FIPS 180-4 §5.3.3. -/
theorem IV_standard :
    Spec.IsSquareFrac 2 IV.a ∧ Spec.IsSquareFrac 3 IV.b ∧ Spec.IsSquareFrac 5 IV.c ∧
    Spec.IsSquareFrac 7 IV.d ∧ Spec.IsSquareFrac 11 IV.e ∧ Spec.IsSquareFrac 13 IV.f ∧
    Spec.IsSquareFrac 17 IV.g ∧ Spec.IsSquareFrac 19 IV.h := by
  unfold Spec.IsSquareFrac
  decide +kernel

/-! ### The compression function -/

theorem sched_spec (b : Bytes) (n : Nat) :
    sched b n = (List.range (16 + n)).map (Spec.W b) := by
  induction n with
  | zero =>
    simp only [sched, sched16, Nat.add_zero]
    apply List.map_congr_left
    intro i hi
    rw [Spec.W, if_pos (by simpa using hi), Nat.mul_comm]
  | succ n ih =>
    have hg : ∀ j, j < 16 + n → (sched b n).getD j 0 = Spec.W b j := by
      intro j hj
      rw [ih]
      simp [List.getD, hj]
    have hl : (sched b n).length = 16 + n := by rw [ih]; simp
    simp only [sched, schedStep, hl]
    rw [hg _ (by omega), hg _ (by omega), hg _ (by omega), hg _ (by omega), ← Nat.add_assoc,
      List.range_succ, List.map_append, ← ih, List.map_singleton]
    congr 2
    conv_rhs => rw [Spec.W, if_neg (by omega)]
    simp only [Spec.sigma0, Spec.sigma1]
    ac_rfl

theorem rounds_spec (b : Bytes) (h : H8) (n : Nat) (hn : n ≤ 64) :
    (List.range n).foldl (round (sched b 48)) h = Spec.rounds kTable b h n := by
  induction n with
  | zero => rfl
  | succ n ih =>
    rw [List.range_succ, List.foldl_append, ih (by omega)]
    simp only [List.foldl_cons, List.foldl_nil, Spec.rounds, round, kTable]
    have : (sched b 48).getD n 0 = Spec.W b n := by
      rw [sched_spec]; simp [List.getD, show n < 64 by omega]
    rw [this]
    simp only [Spec.Sigma0, Spec.Sigma1, Spec.Ch, Spec.Maj]

theorem compress_spec (h : H8) (b : Bytes) : compress h b = Spec.block kTable h b := by
  simp only [compress, Spec.block, rounds_spec b h 64 (by omega), H8.mk.injEq]
  refine ⟨?_, ?_, ?_, ?_, ?_, ?_, ?_, ?_⟩ <;> exact UInt32.add_comm _ _

/-! ### Streaming -/

/-- The state after absorbing exactly the bytes `m`. -/
structure Absorbed (s : Sha) (m : Bytes) : Prop where
  h : s.h = (Spec.blocks m).foldl compress IV
  len : s.bufLen = m.length % 64
  bufLength : s.buf.length = 64
  tail : s.buf.take s.bufLen = m.drop (m.length / 64 * 64)
  total : s.totalLen = UInt64.ofNat m.length

theorem Absorbed.new : Absorbed Sha.new [] := by
  constructor
  · rw [Spec.blocks]; simp [Sha.new]
  all_goals simp [Sha.new]

theorem blocks_append (n : Nat) : ∀ (m t : Bytes), m.length = 64 * n →
    Spec.blocks (m ++ t) = Spec.blocks m ++ Spec.blocks t := by
  induction n with
  | zero =>
    intro m t h
    have : m = [] := List.length_eq_zero_iff.mp (by omega)
    subst this
    rw [Spec.blocks.eq_def []]
    simp
  | succ n ih =>
    intro m t h
    rw [Spec.blocks.eq_def (m ++ t), Spec.blocks.eq_def m, if_pos (by simp; omega), if_pos (by omega)]
    rw [List.take_append_of_le_length (by omega), List.drop_append_of_le_length (by omega),
      ih _ _ (by simp; omega), List.cons_append]

theorem blocks_small (t : Bytes) (h : t.length < 64) : Spec.blocks t = [] := by
  rw [Spec.blocks, if_neg (by omega)]

theorem blocks_one (b : Bytes) (h : b.length = 64) : Spec.blocks b = [b] := by
  rw [Spec.blocks, if_pos (by omega), List.take_of_length_le (by omega), List.drop_of_length_le (by omega),
    blocks_small [] (by simp)]

/-- Only the whole blocks matter. -/
theorem blocks_whole (m : Bytes) : Spec.blocks m = Spec.blocks (m.take (m.length / 64 * 64)) := by
  have h1 : (m.take (m.length / 64 * 64)).length = 64 * (m.length / 64) := by
    rw [List.length_take]; omega
  conv_lhs => rw [← List.take_append_drop (m.length / 64 * 64) m]
  rw [blocks_append _ _ _ h1, blocks_small (m.drop _) (by rw [List.length_drop]; omega), List.append_nil]

/-- Splitting `m ++ d` at the last whole block of `m`. -/
theorem blocks_extend (m d : Bytes) :
    Spec.blocks (m ++ d) = Spec.blocks m ++ Spec.blocks (m.drop (m.length / 64 * 64) ++ d) := by
  have h1 : (m.take (m.length / 64 * 64)).length = 64 * (m.length / 64) := by
    rw [List.length_take]; omega
  conv_lhs => rw [← List.take_append_drop (m.length / 64 * 64) m, List.append_assoc]
  rw [blocks_append _ _ _ h1, ← blocks_whole]

theorem blockLoop_spec (h : H8) (d : Bytes) :
    blockLoop h d = ((Spec.blocks d).foldl compress h, d.drop (d.length / 64 * 64)) := by
  fun_induction blockLoop h d with
  | case1 h d hle ih =>
    simp only [BLOCK] at hle ih
    rw [ih, Spec.blocks.eq_def d, if_pos hle, List.foldl_cons, List.drop_drop, List.length_drop]
    congr 2
    omega
  | case2 h d hle =>
    simp only [BLOCK] at hle
    rw [blocks_small d (by omega), show d.length / 64 = 0 by omega]
    simp

theorem copyAt_length (dst src : Bytes) (off : Nat) (h : off + src.length ≤ dst.length) :
    (copyAt dst off src).length = dst.length := by
  simp [copyAt]; omega

theorem copyAt_take (dst src : Bytes) (off : Nat) (h : off + src.length ≤ dst.length) :
    (copyAt dst off src).take (off + src.length) = dst.take off ++ src := by
  unfold copyAt
  rw [List.take_append_of_le_length (by simp; omega)]
  apply List.take_of_length_le
  simp; omega

/-- The last two phases of `update`, from an empty buffer. -/
def tailSt (b : Bytes) (h : H8) (d : Bytes) (tl : UInt64) : Sha :=
  if (blockLoop h d).2 ≠ [] then
    { h := (blockLoop h d).1, buf := copyAt b 0 (blockLoop h d).2, bufLen := (blockLoop h d).2.length, totalLen := tl }
  else { h := (blockLoop h d).1, buf := b, bufLen := 0, totalLen := tl }

theorem tailSt_spec (b : Bytes) (h : H8) (d' : Bytes) (tl : UInt64) (hb : b.length = 64) :
    (tailSt b h d' tl).h = (Spec.blocks d').foldl compress h ∧ (tailSt b h d' tl).bufLen = d'.length % 64 ∧
      (tailSt b h d' tl).buf.length = 64 ∧
      (tailSt b h d' tl).buf.take (tailSt b h d' tl).bufLen = d'.drop (d'.length / 64 * 64) ∧
      (tailSt b h d' tl).totalLen = tl := by
  unfold tailSt
  rw [blockLoop_spec]
  simp only
  have hl : (d'.drop (d'.length / 64 * 64)).length = d'.length % 64 := by
    rw [List.length_drop]; omega
  generalize d'.drop (d'.length / 64 * 64) = x at *
  by_cases hx : x = []
  · rw [if_neg (by simpa using hx)]
    subst hx
    refine ⟨rfl, by simpa using hl, hb, by simp, rfl⟩
  · rw [if_pos hx]
    refine ⟨rfl, hl, ?_, ?_, rfl⟩
    · simp only; rw [copyAt_length _ _ _ (by omega)]; exact hb
    · have := copyAt_take b x 0 (by omega)
      simpa using this

/-- Absorbing `d` after `m` is absorbing `m ++ d`. -/
theorem Absorbed.update {s : Sha} {m : Bytes} (hs : Absorbed s m) (d : Bytes) :
    Absorbed (update s d) (m ++ d) := by
  obtain ⟨hh, hlen, hbl, htail, htot⟩ := hs
  have hdl : (m.drop (m.length / 64 * 64)).length = m.length % 64 := by
    rw [List.length_drop]; omega
  have htot' : s.totalLen + UInt64.ofNat d.length = UInt64.ofNat (m ++ d).length := by
    rw [htot, List.length_append, UInt64.ofNat_add]
  have hblk := blocks_extend m d
  generalize ht : m.drop (m.length / 64 * 64) = t at *
  have hbig : (m ++ d).drop ((m ++ d).length / 64 * 64) =
      (t ++ d).drop ((t ++ d).length / 64 * 64) := by
    have : m ++ d = m.take (m.length / 64 * 64) ++ (t ++ d) := by
      rw [← List.append_assoc, ← ht, List.take_append_drop]
    conv_lhs => rw [this]
    have hl : (m.take (m.length / 64 * 64)).length = m.length / 64 * 64 := by
      rw [List.length_take]; omega
    rw [List.drop_append, List.drop_eq_nil_of_le, List.nil_append]
    · congr 1
      simp only [List.length_append, hl, hdl]
      omega
    · simp only [List.length_append, hl]
      omega
  by_cases h0 : 0 < s.bufLen
  · by_cases hfull : 64 - s.bufLen ≤ d.length
    · -- the buffer fills up
      have hu : Mac.update s d = tailSt (copyAt s.buf s.bufLen (d.take (64 - s.bufLen)))
          (compress s.h (copyAt s.buf s.bufLen (d.take (64 - s.bufLen)))) (d.drop (64 - s.bufLen))
          (s.totalLen + UInt64.ofNat d.length) := by
        unfold Mac.update fillBuf
        simp only [h0, if_true, BLOCK, Nat.min_eq_left hfull, show s.bufLen + (64 - s.bufLen) = 64 by omega]
        rfl
      have hcl : (copyAt s.buf s.bufLen (d.take (64 - s.bufLen))).length = 64 := by
        rw [copyAt_length _ _ _ (by simp; omega)]; exact hbl
      have hc : copyAt s.buf s.bufLen (d.take (64 - s.bufLen)) = t ++ d.take (64 - s.bufLen) := by
        have := copyAt_take s.buf (d.take (64 - s.bufLen)) s.bufLen (by simp; omega)
        rw [List.take_of_length_le (by rw [hcl]; simp; omega), htail] at this
        exact this
      obtain ⟨a1, a2, a3, a4, a5⟩ := tailSt_spec _ (compress s.h (copyAt s.buf s.bufLen (d.take (64 - s.bufLen))))
        (d.drop (64 - s.bufLen)) (s.totalLen + UInt64.ofNat d.length) hcl
      rw [← hu] at a1 a2 a3 a4 a5
      have hsplit : t ++ d = (t ++ d.take (64 - s.bufLen)) ++ d.drop (64 - s.bufLen) := by
        rw [List.append_assoc, List.take_append_drop]
      have hfl : (t ++ d.take (64 - s.bufLen)).length = 64 := by rw [← hc]; exact hcl
      refine ⟨?_, ?_, a3, ?_, ?_⟩
      · rw [a1, hblk, List.foldl_append, ← hh, hsplit, blocks_append 1 _ _ (by omega),
          blocks_one _ hfl, List.foldl_append, List.foldl_cons, List.foldl_nil, hc]
      · rw [a2]; simp only [List.length_drop, List.length_append]; omega
      · rw [a4, hbig]
        conv_rhs => rw [hsplit, List.drop_append, List.drop_eq_nil_of_le (by rw [hfl, List.length_append, hfl]; omega),
          List.nil_append, List.length_append, hfl]
        congr 1
        omega
      · rw [a5, htot']
    · -- everything fits in the buffer
      have hu : Mac.update s d = { h := s.h, buf := copyAt s.buf s.bufLen d, bufLen := s.bufLen + d.length,
                                   totalLen := s.totalLen + UInt64.ofNat d.length } := by
        unfold Mac.update fillBuf
        simp only [h0, if_true, BLOCK, Nat.min_eq_right (show d.length ≤ 64 - s.bufLen by omega)]
        have hne : ¬ s.bufLen + d.length = 64 := by omega
        have hl : ∀ h, blockLoop h [] = (h, []) := by intro h; rw [blockLoop]; simp
        simp [hne, hl]
      have hbl' := blocks_small (t ++ d) (by rw [List.length_append]; omega)
      rw [hu]
      refine ⟨?_, ?_, ?_, ?_, htot'⟩
      · simp only; rw [hblk, hbl', List.append_nil, hh]
      · simp only [List.length_append]; omega
      · simp only; rw [copyAt_length _ _ _ (by omega)]; exact hbl
      · simp only
        rw [copyAt_take _ _ _ (by omega), htail, hbig,
          show (t ++ d).length / 64 = 0 by rw [List.length_append]; omega]
        simp
  · have hu : Mac.update s d = tailSt s.buf s.h d (s.totalLen + UInt64.ofNat d.length) := by
      unfold Mac.update fillBuf
      simp only [h0, if_false]
      have : s.bufLen = 0 := by omega
      unfold tailSt
      split <;> simp [this]
    have ht0 : t = [] := List.length_eq_zero_iff.mp (by omega)
    obtain ⟨a1, a2, a3, a4, a5⟩ := tailSt_spec s.buf s.h d (s.totalLen + UInt64.ofNat d.length) hbl
    rw [← hu] at a1 a2 a3 a4 a5
    rw [ht0, List.nil_append] at hblk hbig
    refine ⟨?_, ?_, a3, ?_, ?_⟩
    · rw [a1, hblk, List.foldl_append, ← hh]
    · rw [a2, List.length_append]; omega
    · rw [a4, hbig]
    · rw [a5, htot']

theorem padLoop_spec (k : Nat) : ∀ (fuel : Nat) (s : Sha) (m : Bytes), Absorbed s m →
    (m.length + k) % 64 = 56 → (∀ j < k, (m.length + j) % 64 ≠ 56) → k < fuel →
    ∃ s', padLoop fuel s = some s' ∧ Absorbed s' (m ++ List.replicate k 0) := by
  induction k with
  | zero =>
    intro fuel s m hs h1 h2 h3
    cases fuel with
    | zero => omega
    | succ f =>
      refine ⟨s, ?_, by simpa using hs⟩
      rw [padLoop, if_pos]
      rw [hs.len]; omega
  | succ k ih =>
    intro fuel s m hs h1 h2 h3
    cases fuel with
    | zero => omega
    | succ f =>
      have := h2 0 (by omega)
      obtain ⟨s', e, a⟩ := ih f (update s [0]) (m ++ [0]) (hs.update [0])
        (by simp only [List.length_append, List.length_singleton]; omega)
        (by intro j hj; have := h2 (j+1) (by omega); simp only [List.length_append, List.length_singleton]; omega)
        (by omega)
      refine ⟨s', ?_, ?_⟩
      · rw [padLoop, if_neg]; exact e
        rw [hs.len]; omega
      · rw [List.append_assoc] at a
        exact a

theorem be64_length (x : UInt64) : (be64 x).length = 8 := rfl

theorem finalize_spec (s : Sha) (m : Bytes) (hs : Absorbed s m) :
    finalize s = some (Spec.SHA256 kTable IV m) := by
  have h1 := hs.update [0x80]
  obtain ⟨s', e, a⟩ := padLoop_spec ((119 - m.length % 64) % 64) 128 _ _ h1
    (by simp only [List.length_append, List.length_singleton]; omega)
    (by intro j hj; simp only [List.length_append, List.length_singleton]; omega) (by omega)
  unfold finalize
  simp only [e]
  congr 1
  have hlast : ∀ (X L : Bytes), Absorbed s' X → X.length % 64 = 56 → L.length = 8 →
      compress s'.h (copyAt s'.buf 56 L) = (Spec.blocks (X ++ L)).foldl compress IV := by
    intro X L hX hm hL
    have hb : s'.bufLen = 56 := by rw [hX.len, hm]
    have hc : copyAt s'.buf 56 L = X.drop (X.length / 64 * 64) ++ L := by
      have hl := copyAt_length s'.buf L 56 (by rw [hX.bufLength]; omega)
      have := copyAt_take s'.buf L 56 (by rw [hX.bufLength]; omega)
      rw [List.take_of_length_le (by rw [hl, hX.bufLength]; omega)] at this
      rw [this, ← hX.tail, hb]
    rw [blocks_extend, List.foldl_append, ← hX.h, ← hc, blocks_one]
    · rfl
    · rw [copyAt_length _ _ _ (by rw [hX.bufLength]; omega), hX.bufLength]
  rw [show BLOCK - 8 = 56 from rfl, hlast _ (be64 (s.totalLen * 8)) a (by
    simp only [List.length_append, List.length_singleton, List.length_replicate]; omega) rfl]
  unfold Spec.SHA256
  have hfn : compress = Spec.block kTable := by funext h b; exact compress_spec h b
  have hbits : s.totalLen * 8 = UInt64.ofNat (8 * m.length) := by
    rw [hs.total, UInt64.ofNat_mul, UInt64.mul_comm]; rfl
  rw [hfn, hbits]
  rfl

/-- C10, hash: however a message is cut into pieces, feeding them in order and finishing gives the
standard digest of the whole message (and the padding loop ends). -/
theorem streaming_sha256 (pieces : List Bytes) :
    finalize (pieces.foldl update Sha.new) = some (Spec.SHA256 kTable IV pieces.flatten) := by
  apply finalize_spec
  have : ∀ (ps : List Bytes) (s : Sha) (m : Bytes), Absorbed s m →
      Absorbed (ps.foldl update s) (m ++ ps.flatten) := by
    intro ps
    induction ps with
    | nil => intro s m h; simpa using h
    | cons p ps ih =>
      intro s m h
      have := ih _ _ (h.update p)
      rw [List.append_assoc] at this
      simpa using this
  simpa using this pieces Sha.new [] Absorbed.new

/-- The one-shot function is the standard hash. -/
theorem sha256_standard (m : Bytes) : sha256 m = some (Spec.SHA256 kTable IV m) := by
  have := streaming_sha256 [m]
  simpa [sha256] using this

theorem be32_length (x : UInt32) : (be32 x).length = 4 := rfl

theorem SHA256_length (m : Bytes) : (Spec.SHA256 kTable IV m).length = 32 := by
  simp [Spec.SHA256, be32_length]

theorem copyAt_zeros (d : Bytes) :
    copyAt (List.replicate 64 0) 0 d = d ++ List.replicate (64 - d.length) 0 := by
  simp only [copyAt, List.take_zero, List.nil_append, Nat.zero_add, List.drop_replicate]

theorem zipWith_replicate (c : UInt8) : ∀ (n : Nat) (k : Bytes), k.length = n →
    List.zipWith (· ^^^ ·) (List.replicate n c) k = k.map (· ^^^ c) := by
  intro n
  induction n with
  | zero => intro k hk; have := List.length_eq_zero_iff.mp hk; subst this; rfl
  | succ n ih =>
    intro k hk
    cases k with
    | nil => simp at hk
    | cons x k =>
      simp only [List.replicate_succ, List.zipWith_cons_cons, List.map_cons]
      rw [ih k (by simpa using hk), UInt8.xor_comm]

/-- C10, MAC: the tag is the RFC 2104 HMAC over the standard hash, for every key and message. -/
theorem hmac_standard (key msg : Bytes) :
    hmac key msg = some (Spec.HMAC (Spec.SHA256 kTable IV) key msg) := by
  have hk : keyBlock key = some
      ((if key.length > 64 then Spec.SHA256 kTable IV key else key) ++
        List.replicate (64 - (if key.length > 64 then Spec.SHA256 kTable IV key else key).length) 0) := by
    unfold keyBlock
    split
    · rename_i h
      rw [sha256_standard]
      simp only
      rw [copyAt_zeros]
    · rename_i h
      rw [copyAt_zeros]
  unfold hmac Spec.HMAC
  rw [hk]
  simp only
  generalize hK : (if key.length > 64 then Spec.SHA256 kTable IV key else key) = k
  have hkl : k.length ≤ 64 := by
    rw [← hK]; split
    · rw [SHA256_length]; omega
    · omega
  rw [zipWith_replicate _ 64 _ (by simp; omega), zipWith_replicate _ 64 _ (by simp; omega)]
  have h1 := streaming_sha256 [(k ++ List.replicate (64 - k.length) 0).map (· ^^^ 0x36), msg]
  simp only [List.foldl_cons, List.foldl_nil, List.flatten_cons, List.flatten_nil, List.append_nil] at h1
  rw [h1]
  simp only
  have h2 := streaming_sha256 [(k ++ List.replicate (64 - k.length) 0).map (· ^^^ 0x5c),
    Spec.SHA256 kTable IV ((k ++ List.replicate (64 - k.length) 0).map (· ^^^ 0x36) ++ msg)]
  simp only [List.foldl_cons, List.foldl_nil, List.flatten_cons, List.flatten_nil, List.append_nil] at h2
  exact h2

/-- FIPS 180-4 example "abc": the specification and the code agree on the published vector. -/
example : sha256 [0x61, 0x62, 0x63] = some
    [0xba,0x78,0x16,0xbf,0x8f,0x01,0xcf,0xea,0x41,0x41,0x40,0xde,0x5d,0xae,0x22,0x23,
     0xb0,0x03,0x61,0xa3,0x96,0x17,0x7a,0x9c,0xb4,0x10,0xff,0x61,0xf2,0x00,0x15,0xad] := by
  decide +kernel

/-! ### Tag comparison -/

/-- The constant-time comparison is equality. -/
theorem ctEq_iff (a b : Bytes) : ctEq a b = true ↔ a = b := by
  have hor : ∀ x y : UInt8, x ||| y = 0 ↔ x = 0 ∧ y = 0 := by
    intro x y
    constructor
    · intro h
      have h' := congrArg UInt8.toBitVec h
      simp only [UInt8.toBitVec_or] at h'
      have := BitVec.or_eq_zero_iff.mp h'
      exact ⟨UInt8.toBitVec_inj.mp this.1, UInt8.toBitVec_inj.mp this.2⟩
    · rintro ⟨rfl, rfl⟩; rfl
  have key : ∀ (a b : Bytes) (d : UInt8), a.length = b.length →
      ((List.zip a b).foldl (fun diff xy => diff ||| (xy.1 ^^^ xy.2)) d = 0 ↔ d = 0 ∧ a = b) := by
    intro a
    induction a with
    | nil => intro b d h; have := List.length_eq_zero_iff.mp h.symm; subst this; simp
    | cons x a ih =>
      intro b d h
      cases b with
      | nil => simp at h
      | cons y b =>
        simp only [List.zip_cons_cons, List.foldl_cons]
        rw [ih b _ (by simpa using h), hor]
        constructor
        · rintro ⟨⟨h1, h2⟩, h3⟩
          exact ⟨h1, by rw [UInt8.xor_eq_zero_iff.mp h2, h3]⟩
        · rintro ⟨h1, h2⟩
          simp only [List.cons.injEq] at h2
          exact ⟨⟨h1, by rw [h2.1]; exact UInt8.xor_self⟩, h2.2⟩
  unfold ctEq
  split
  · rename_i h
    constructor
    · intro h'; simp at h'
    · intro h'; subst h'; simp at h
  · rename_i h
    have := key a b 0 (by simpa using h)
    simp only [beq_iff_eq]
    rw [this]; simp

/-! ### Key derivation -/

/-- Lower-case hexadecimal rendering of a byte string. -/
def hexDigit (n : UInt8) : UInt8 := if n < 10 then 0x30 + n else 0x61 + (n - 10)
/-- Lower-case hexadecimal rendering of a byte string. -/
def hexOf (k : Bytes) : Bytes := k.flatMap fun x => [hexDigit (x / 16), hexDigit (x % 16)]

theorem u8_all {p : UInt8 → Prop} (h : ∀ i : Fin 256, p (UInt8.ofNat i.val)) (x : UInt8) : p x := by
  have := h ⟨x.toNat, x.toNat_lt⟩
  simpa using this

theorem hexVal_digit (n : UInt8) : n < 16 → hexVal (hexDigit n) = some n :=
  u8_all (p := fun n => n < 16 → hexVal (hexDigit n) = some n) (by decide +kernel) n
theorem div16_lt (x : UInt8) : x / 16 < 16 := u8_all (p := fun x => x / 16 < 16) (by decide +kernel) x
theorem mod16_lt (x : UInt8) : x % 16 < 16 := u8_all (p := fun x => x % 16 < 16) (by decide +kernel) x
theorem div_mod16 (x : UInt8) : x / 16 * 16 + x % 16 = x :=
  u8_all (p := fun x => x / 16 * 16 + x % 16 = x) (by decide +kernel) x

theorem hexPairs_hexOf (k : Bytes) : hexPairs (hexOf k) = some k := by
  induction k with
  | nil => rfl
  | cons x k ih =>
    have h1 := div16_lt x
    have h2 := mod16_lt x
    have h3 := div_mod16 x
    simp only [hexOf, List.flatMap_cons, List.cons_append, List.nil_append, hexPairs,
      hexVal_digit _ h1, hexVal_digit _ h2]
    simp only [hexOf] at ih
    rw [ih]
    simp only [h3]

/-- A key given as 64 hex digits is used verbatim. -/
theorem deriveKey_hex (k : Bytes) (hk : k.length = 32) : deriveKey (hexOf k) = some k := by
  have hall : ∀ k : Bytes, ((hexOf k).all fun b => (hexVal b).isSome) = true := by
    intro k
    induction k with
    | nil => rfl
    | cons x k ih =>
      have h1 := div16_lt x
      have h2 := mod16_lt x
      simp only [hexOf, List.flatMap_cons, List.cons_append, List.nil_append, List.all_cons,
        hexVal_digit _ h1, hexVal_digit _ h2]
      simpa [hexOf] using ih
  have hlen : ∀ k : Bytes, (hexOf k).length = 2 * k.length := by
    intro k
    induction k with
    | nil => rfl
    | cons x k ih =>
      simp only [hexOf, List.flatMap_cons, List.length_append, List.length_cons, List.length_nil] at ih ⊢
      omega
  unfold deriveKey parseHex32
  rw [if_neg, hexPairs_hexOf]
  rw [hall, hlen, hk]
  simp

/-- Any other secret is stretched with PBKDF2 (RFC 8018) at the given iteration count. -/
theorem pbkdf2_standard (P S : Bytes) (n : Nat) :
    pbkdf2 P S (n + 1) = some (Spec.T (Spec.HMAC (Spec.SHA256 kTable IV)) P S n) := by
  have hloop : ∀ (n i : Nat), pbkdf2Loop P n (Spec.U (Spec.HMAC (Spec.SHA256 kTable IV)) P S i)
      (Spec.T (Spec.HMAC (Spec.SHA256 kTable IV)) P S i) =
      some (Spec.T (Spec.HMAC (Spec.SHA256 kTable IV)) P S (i + n)) := by
    intro n
    induction n with
    | zero => intro i; rfl
    | succ n ih =>
      intro i
      rw [pbkdf2Loop, hmac_standard]
      have := ih (i + 1)
      rw [show i + 1 + n = i + (n + 1) by omega] at this
      exact this
  unfold pbkdf2
  rw [hmac_standard]
  have := hloop n 0
  rw [Nat.zero_add] at this
  exact this

end Horus.Mac
