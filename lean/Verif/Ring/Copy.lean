import Mathlib.Tactic.Common
/-
The copy used for large messages and for images, point clouds and depth images. Source: /repo/horus_core/src/memory/simd.rs; used in
communication/topic/mod.rs:579-609 and memory/mod.rs:96-108. Addresses and bytes are natural numbers; prefetching has no effect on memory.
-/
namespace Horus.Copy

/-- Memory. -/
abbrev Mem := Nat → Nat

/-- What is done to memory, in order: a plain store of `n` bytes, a vector store, a streaming (non-temporal) vector store, a store fence. -/
inductive Op
  | plain (d n : Nat)
  | vec (d : Nat)
  | stream (d : Nat)
  | fence
  deriving DecidableEq

structure St where
  mem : Mem
  log : List Op

/-- Store of `n` bytes. -/
def put (m : Mem) (d : Nat) (v : Nat → Nat) (n : Nat) : Mem := fun a => if d ≤ a ∧ a < d + n then v (a - d) else m a

/-- `copy_nonoverlapping`. -/
def plain (st : St) (s d n : Nat) : St := ⟨put st.mem d (fun i => st.mem (s + i)) n, st.log ++ [.plain d n]⟩

/-- A vector loaded (`_mm256_loadu_si256`). -/
def load (st : St) (s : Nat) : Nat → Nat := fun i => st.mem (s + i)

/-- A vector stored: `_mm256_stream_si256` in the copy to shared memory, `_mm256_storeu_si256` in the one from it. -/
def store (shm : Bool) (st : St) (d : Nat) (v : Nat → Nat) : St := ⟨put st.mem d v 32, st.log ++ [if shm then .stream d else .vec d]⟩

/-- simd.rs:220-236, 305-326: four vectors at a time, loaded before any is stored. What is left to do comes with the state. -/
def loop4 (shm : Bool) (st : St) (s d rem : Nat) : St × Nat × Nat × Nat :=
  if 128 ≤ rem then
    let v0 := load st s
    let v1 := load st (s + 32)
    let v2 := load st (s + 64)
    let v3 := load st (s + 96)
    loop4 shm (store shm (store shm (store shm (store shm st d v0) (d + 32) v1) (d + 64) v2) (d + 96) v3) (s + 128) (d + 128) (rem - 128)
  else (st, s, d, rem)
termination_by rem
decreasing_by exact Nat.sub_lt (by omega) (by omega)

/-- simd.rs:239-246, 329-336. -/
def loop1 (shm : Bool) (st : St) (s d rem : Nat) : St × Nat × Nat × Nat :=
  if 32 ≤ rem then loop1 shm (store shm st d (load st s)) (s + 32) (d + 32) (rem - 32) else (st, s, d, rem)
termination_by rem

/-- simd.rs:177-255 (`shm`), 269-342 (from). -/
def avx (shm : Bool) (st : St) (s d len : Nat) : St :=
  let prefixLen := (32 - d % 32) % 32
  if prefixLen > len then plain st s d len
  else
    let st1 := if prefixLen > 0 then plain st s d prefixLen else st
    let r4 := loop4 shm st1 (s + prefixLen) (d + prefixLen) (len - prefixLen)
    let r1 := loop1 shm r4.1 r4.2.1 r4.2.2.1 r4.2.2.2
    let st2 : St := if shm then ⟨r1.1.mem, r1.1.log ++ [.fence]⟩ else r1.1
    if r1.2.2.2 > 0 then plain st2 r1.2.1 r1.2.2.1 r1.2.2.2 else st2

/-- simd.rs:83-99, 114-130. -/
def copy (shm avx2 : Bool) (st : St) (s d len : Nat) : St :=
  if len < 4096 then plain st s d len else if avx2 then avx shm st s d len else plain st s d len

/-! ### Specification -/

/-- `len` bytes from `s` at `d`, all else as before. -/
def Copied (m m' : Mem) (s d len : Nat) : Prop := (∀ i < len, m' (d + i) = m (s + i)) ∧ ∀ a, (a < d ∨ d + len ≤ a) → m' a = m a

/-- The two pieces of memory do not overlap. -/
def Apart (s d len : Nat) : Prop := s + len ≤ d ∨ d + len ≤ s

/-! ### Proof -/

def img (m : Mem) (s d k : Nat) : Mem := fun a => if d ≤ a ∧ a < d + k then m (s + (a - d)) else m a

theorem img_zero (m : Mem) (s d : Nat) : img m s d 0 = m := by
  funext a; unfold img; rw [if_neg (by omega)]

theorem put_img (m : Mem) (s d k n : Nat) (v : Nat → Nat) (h : ∀ i < n, v i = m (s + (k + i))) : put (img m s d k) (d + k) v n = img m s d (k + n) := by
  funext a
  unfold put img
  by_cases h1 : d + k ≤ a ∧ a < d + k + n
  · rw [if_pos h1, if_pos (by omega), h _ (by omega)]
    congr 1; omega
  · rw [if_neg h1]
    by_cases h2 : d ≤ a ∧ a < d + k
    · rw [if_pos h2, if_pos (by omega)]
    · rw [if_neg h2, if_neg (by omega)]

theorem src_img (m : Mem) (s d len k j : Nat) (ha : Apart s d len) (hk : k ≤ len) (hj : j < len) : img m s d k (s + j) = m (s + j) := by
  unfold img Apart at *
  rw [if_neg (by omega)]

theorem img_copied (m : Mem) (s d len : Nat) : Copied m (img m s d len) s d len := by
  refine ⟨fun i hi => ?_, fun a h => ?_⟩
  · unfold img; rw [if_pos (by omega)]; congr 1; omega
  · unfold img; rw [if_neg (by omega)]

theorem plain_img (m : Mem) (s d len k n : Nat) (st : St) (ha : Apart s d len) (hk : k + n ≤ len) (h : st.mem = img m s d k) : (plain st (s + k) (d + k) n).mem = img m s d (k + n) := by
  unfold plain
  dsimp only
  rw [h]
  apply put_img
  intro i hi
  rw [show s + k + i = s + (k + i) by omega]
  exact src_img m s d len k (k + i) ha (by omega) (by omega)

theorem store_img (shm : Bool) (m : Mem) (s d k : Nat) (st : St) (v : Nat → Nat) (hv : ∀ i < 32, v i = m (s + (k + i))) (h : st.mem = img m s d k) : (store shm st (d + k) v).mem = img m s d (k + 32) := by
  unfold store
  dsimp only
  rw [h]
  exact put_img m s d k 32 v hv

/-- The streaming stores of a log are at multiples of 32 inside the destination. -/
def Neat (d len : Nat) (log : List Op) : Prop := ∀ x, Op.stream x ∈ log → x % 32 = 0 ∧ d ≤ x ∧ x + 32 ≤ d + len

theorem neat_store (shm : Bool) (d len k : Nat) (st : St) (v : Nat → Nat) (h : Neat d len st.log) (ha : (d + k) % 32 = 0) (hk : k + 32 ≤ len) : Neat d len (store shm st (d + k) v).log := by
  intro x hx
  unfold store at hx
  dsimp only at hx
  rcases List.mem_append.1 hx with hx | hx
  · exact h x hx
  · cases shm with
    | false => simp at hx
    | true =>
      simp only [if_true, List.mem_singleton, Op.stream.injEq] at hx
      subst hx
      exact ⟨ha, by omega, by omega⟩

theorem loop4_spec (shm : Bool) (m : Mem) (s d len : Nat) (ha : Apart s d len) (rem : Nat) : ∀ (st : St) (k : Nat), k + rem = len → (d + k) % 32 = 0 → st.mem = img m s d k → Neat d len st.log →
    ∃ k', (loop4 shm st (s + k) (d + k) rem).2 = (s + k', d + k', len - k') ∧ k' ≤ len ∧ len - k' < 128 ∧ (d + k') % 32 = 0 ∧ (loop4 shm st (s + k) (d + k) rem).1.mem = img m s d k' ∧
    Neat d len (loop4 shm st (s + k) (d + k) rem).1.log := by
  induction rem using Nat.strongRecOn with
  | ind rem ih =>
    intro st k hk hal hm hn
    rw [loop4]
    split
    · rename_i hge
      have l0 : ∀ j, j + 32 ≤ 128 → ∀ i < 32, load st (s + k + j) i = m (s + (k + j + i)) := by
        intro j hj i hi
        unfold load
        rw [hm, show s + k + j + i = s + (k + j + i) by omega]
        exact src_img m s d len k _ ha (by omega) (by omega)
      have a0 := store_img shm m s d k st (load st (s + k)) (by have := l0 0 (by omega); simpa using this) hm
      have a1 := store_img shm m s d (k + 32) _ (load st (s + k + 32)) (l0 32 (by omega)) a0
      have a2 := store_img shm m s d (k + 64) _ (load st (s + k + 64)) (l0 64 (by omega)) a1
      have a3 := store_img shm m s d (k + 96) _ (load st (s + k + 96)) (l0 96 (by omega)) a2
      have n0 := neat_store shm d len k st (load st (s + k)) hn hal (by omega)
      have n1 := neat_store shm d len (k + 32) _ (load st (s + k + 32)) n0 (by omega) (by omega)
      have n2 := neat_store shm d len (k + 64) _ (load st (s + k + 64)) n1 (by omega) (by omega)
      have n3 := neat_store shm d len (k + 96) _ (load st (s + k + 96)) n2 (by omega) (by omega)
      have := ih (rem - 128) (by omega) _ (k + 128) (by omega) (by omega) a3 n3
      exact this
    · exact ⟨k, by simp only [Prod.mk.injEq, true_and]; omega, by omega, by omega, hal, hm, hn⟩

theorem loop1_spec (shm : Bool) (m : Mem) (s d len : Nat) (ha : Apart s d len) (rem : Nat) : ∀ (st : St) (k : Nat), k + rem = len → (d + k) % 32 = 0 → st.mem = img m s d k → Neat d len st.log →
    ∃ k', (loop1 shm st (s + k) (d + k) rem).2 = (s + k', d + k', len - k') ∧ k' ≤ len ∧ (loop1 shm st (s + k) (d + k) rem).1.mem = img m s d k' ∧
    Neat d len (loop1 shm st (s + k) (d + k) rem).1.log := by
  induction rem using Nat.strongRecOn with
  | ind rem ih =>
    intro st k hk hal hm hn
    rw [loop1]
    split
    · rename_i hge
      have a0 := store_img shm m s d k st (load st (s + k)) (fun i hi => by
        unfold load
        rw [hm, show s + k + i = s + (k + i) by omega]
        exact src_img m s d len k _ ha (by omega) (by omega)) hm
      have n0 := neat_store shm d len k st (load st (s + k)) hn hal (by omega)
      exact ih (rem - 32) (by omega) _ (k + 32) (by omega) (by omega) a0 n0
    · exact ⟨k, by simp only [Prod.mk.injEq, true_and]; omega, by omega, hm, hn⟩

theorem plain_neat (d len : Nat) (st : St) (a b n : Nat) (h : Neat d len st.log) : Neat d len (plain st a b n).log := by
  intro x hx
  unfold plain at hx
  simp only [List.mem_append, List.mem_singleton, reduceCtorEq, or_false] at hx
  exact h x hx

theorem avx_spec (shm : Bool) (st : St) (s d len : Nat) (ha : Apart s d len) (h0 : Neat d len st.log) : (avx shm st s d len).mem = img st.mem s d len ∧ Neat d len (avx shm st s d len).log := by
  have p0 : ∀ n, n ≤ len → (plain st s d n).mem = img st.mem s d n := by
    intro n hn
    have := plain_img st.mem s d len 0 n st ha (by omega) (img_zero _ _ _).symm
    simpa using this
  unfold avx
  dsimp only
  generalize hp : (32 - d % 32) % 32 = p
  split
  · exact ⟨p0 len (Nat.le_refl _), plain_neat d len st s d len h0⟩
  · rename_i hle
    generalize hst1 : (if p > 0 then plain st s d p else st) = st1
    have hm1 : st1.mem = img st.mem s d p := by
      rw [← hst1]
      split
      · exact p0 p (by omega)
      · rename_i h; rw [show p = 0 by omega, img_zero]
    have hn1 : Neat d len st1.log := by
      rw [← hst1]
      split
      · exact plain_neat d len st s d p h0
      · exact h0
    obtain ⟨k4, e4, hk4, _, hal4, hm4, hn4⟩ := loop4_spec shm st.mem s d len ha (len - p) st1 p (by omega) (by omega) hm1 hn1
    rw [e4]
    dsimp only
    obtain ⟨k1, e1, hk1, hm2, hn2⟩ := loop1_spec shm st.mem s d len ha (len - k4) _ k4 (by omega) hal4 hm4 hn4
    rw [e1]
    dsimp only
    generalize (loop1 shm (loop4 shm st1 (s + p) (d + p) (len - p)).1 (s + k4) (d + k4) (len - k4)).1 = st2 at hm2 hn2 ⊢
    generalize hst3 : (if shm then (⟨st2.mem, st2.log ++ [.fence]⟩ : St) else st2) = st3
    have hm3 : st3.mem = img st.mem s d k1 := by rw [← hst3]; split <;> exact hm2
    have hn3 : Neat d len st3.log := by
      rw [← hst3]
      split
      · intro x hx
        simp only [List.mem_append, List.mem_singleton, reduceCtorEq, or_false] at hx
        exact hn2 x hx
      · exact hn2
    split
    · have := plain_img st.mem s d len k1 (len - k1) st3 ha (by omega) hm3
      rw [show k1 + (len - k1) = len by omega] at this
      exact ⟨this, plain_neat d len st3 _ _ _ hn3⟩
    · rename_i hz
      rw [show k1 = len by omega] at hm3
      exact ⟨hm3, hn3⟩

/-- **Every byte arrives, and no other byte of memory is changed, for all lengths, all alignments, with and without vector instructions.** -/
theorem copy_exact (shm avx2 : Bool) (st : St) (s d len : Nat) (ha : Apart s d len) (h0 : st.log = []) : Copied st.mem (copy shm avx2 st s d len).mem s d len := by
  have hp : (plain st s d len).mem = img st.mem s d len := by
    have := plain_img st.mem s d len 0 len st ha (by omega) (img_zero _ _ _).symm
    simpa using this
  have : (copy shm avx2 st s d len).mem = img st.mem s d len := by
    unfold copy
    split
    · exact hp
    · split
      · exact (avx_spec shm st s d len ha (by rw [h0]; intro x hx; cases hx)).1
      · exact hp
  rw [this]
  exact img_copied st.mem s d len

/-- **Every streaming store is at a multiple of 32**, as the instruction needs, and inside the destination. -/
theorem streams_aligned (shm avx2 : Bool) (st : St) (s d len x : Nat) (ha : Apart s d len) (h0 : st.log = []) (hx : Op.stream x ∈ (copy shm avx2 st s d len).log) : x % 32 = 0 ∧ d ≤ x ∧ x + 32 ≤ d + len := by
  have hn : Neat d len st.log := by rw [h0]; intro x hx; cases hx
  unfold copy at hx
  split at hx
  · exact plain_neat d len st s d len hn x hx
  · split at hx
    · exact (avx_spec shm st s d len ha hn).2 x hx
    · exact plain_neat d len st s d len hn x hx

theorem plain_streams (st : St) (a b n x : Nat) : Op.stream x ∈ (plain st a b n).log ↔ Op.stream x ∈ st.log := by
  simp [plain]

/-- **A fence stands behind all streaming stores**, so that a message published after the copy is visible with its contents. -/
theorem fenced (shm avx2 : Bool) (st : St) (s d len x : Nat) (h0 : st.log = []) (hx : Op.stream x ∈ (copy shm avx2 st s d len).log) :
    ∃ pre post, (copy shm avx2 st s d len).log = pre ++ Op.fence :: post ∧ ∀ y, Op.stream y ∉ post := by
  have hpl : ∀ n, Op.stream x ∉ (plain st s d n).log := by intro n; rw [plain_streams, h0]; simp
  unfold copy at hx ⊢
  split at hx
  · exact absurd hx (hpl _)
  · rename_i h1
    rw [if_neg h1]
    split at hx
    · rename_i h2
      rw [if_pos h2]
      unfold avx at hx ⊢
      dsimp only at hx ⊢
      generalize (32 - d % 32) % 32 = p at hx ⊢
      split at hx
      · exact absurd hx (hpl _)
      · rename_i h3
        rw [if_neg h3]
        cases shm with
        | false =>
          exfalso
          -- without streaming stores there is nothing to show
          have s1 : ∀ (st : St) (a : Nat) (v : Nat → Nat), Op.stream x ∈ (store false st a v).log → Op.stream x ∈ st.log := by
            intro st a v h; simpa [store] using h
          have l4 : ∀ (rem : Nat) (st : St) (a b : Nat), Op.stream x ∈ (loop4 false st a b rem).1.log → Op.stream x ∈ st.log := by
            intro rem
            induction rem using Nat.strongRecOn with
            | ind rem ih =>
              intro st a b h
              rw [loop4] at h
              split at h
              · exact s1 _ _ _ (s1 _ _ _ (s1 _ _ _ (s1 _ _ _ (ih (rem - 128) (by omega) _ _ _ h))))
              · exact h
          have l1 : ∀ (rem : Nat) (st : St) (a b : Nat), Op.stream x ∈ (loop1 false st a b rem).1.log → Op.stream x ∈ st.log := by
            intro rem
            induction rem using Nat.strongRecOn with
            | ind rem ih =>
              intro st a b h
              rw [loop1] at h
              split at h
              · exact s1 _ _ _ (ih (rem - 32) (by omega) _ _ _ h)
              · exact h
          simp only [Bool.false_eq_true, if_false] at hx
          have hx2 : Op.stream x ∈ (if p > 0 then plain st s d p else st).log := by
            generalize (if p > 0 then plain st s d p else st) = st1 at hx ⊢
            split at hx
            · rw [plain_streams] at hx; exact l4 _ _ _ _ (l1 _ _ _ _ hx)
            · exact l4 _ _ _ _ (l1 _ _ _ _ hx)
          split at hx2
          · exact hpl _ hx2
          · rw [h0] at hx2; cases hx2
        | true =>
          simp only [if_true]
          generalize loop1 true _ _ _ _ = r
          split
          · exact ⟨r.1.log, [.plain r.2.2.1 r.2.2.2], by simp [plain], by simp⟩
          · exact ⟨r.1.log, [], rfl, by simp⟩
    · exact absurd hx (hpl _)

/-- A camera frame of 921600 bytes at an odd address. -/
example : Apart 5000000 1000001 921600 := by unfold Apart; omega
example : (copy true true ⟨fun a => a, []⟩ 5000000 1000001 921600).mem (1000001 + 921599) = 5000000 + 921599 :=
  (copy_exact true true _ _ _ _ (by unfold Apart; omega) rfl).1 _ (by omega)
/-- Five thousand bytes one byte before a multiple of 32 are copied with streaming stores. -/
example : ∃ x, Op.stream x ∈ (store true (plain ⟨fun a => a, []⟩ 9000 31 1) 32 fun i => i).log := ⟨32, by decide⟩

end Horus.Copy
