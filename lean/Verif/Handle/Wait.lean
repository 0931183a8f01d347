import Verif.Handle.Sole
/-
Sends that may have to wait: `Topic::send` with its bounded retry, `Topic::send_blocking` with its
deadline, and the counters and wake-ups that go with each way of sending.
Sources: /repo/horus_core/src/communication/topic/{mod,types}.rs.
-/
namespace Horus.Handle.Wait
open Horus.Ring Horus.Handle

section Calls
variable {σ : Type}

/-- mod.rs:2145-2177 and 2212-2224: up to `n` attempts in a row. `t` is one `try_send`, `env k` is what
the other handles of the topic do before attempt `k`. The result: accepted or not, the number of
attempts made so far, and the state. -/
def tryN (t : σ → Bool × σ) (env : Nat → σ → σ) : Nat → Nat → σ → Bool × Nat × σ
  | 0, k, s => (false, k, s)
  | n + 1, k, s =>
    let r := t (env k s)
    if r.1 then (true, k + 1, r.2) else tryN t env n (k + 1) r.2

/-- mod.rs:2174-2184: the yield phase of the lossy send: an attempt, then a look at the clock (`now k` is
the reading after attempt `k`); past the limit it gives up. -/
def yieldN (t : σ → Bool × σ) (env : Nat → σ → σ) (now : Nat → Nat) (limit : Nat) : Nat → Nat → σ → Bool × Nat × σ
  | 0, k, s => (false, k, s)
  | n + 1, k, s =>
    let r := t (env k s)
    if r.1 then (true, k + 1, r.2)
    else if now k ≥ limit then (false, k + 1, r.2) else yieldN t env now limit n (k + 1) r.2

/-- mod.rs:2113-2186 `send_lossy` and `send_lossy_retry`: the first attempt, the immediate retry and 64
spins, then at most four attempts with the processor handed over in between, within 200 microseconds of
the clock reading `start`. Times are in nanoseconds. -/
def lossy (t : σ → Bool × σ) (env : Nat → σ → σ) (now : Nat → Nat) (start : Nat) (s : σ) : Bool × Nat × σ :=
  let r := tryN t env (1 + 1 + 64) 0 s
  if r.1 then r else yieldN t env now (start + 200000) 4 r.2.1 r.2.2

/-- How a blocking send ends (types.rs `SendBlockingError`, mod.rs:2202-2255). `attempts` and `looks`
count the `try_send` calls and the clock readings made. -/
inductive Res (σ : Type)
  | ok (attempts looks : Nat) (s : σ)
  | timeout (attempts looks : Nat) (s : σ)
  | panic
deriving DecidableEq

/-- mod.rs:2226-2254: the yield phase (eight rounds) and the sleep loop, which differ only in the kind of
pause: look at the clock, give up at the deadline, pause, try again. `now r` is the `r`-th reading.
Simplified: the number of rounds is given (`none` when it runs out) because the loop has no bound of its
own; `returns_once_late` shows how many are enough. -/
def rounds (t : σ → Bool × σ) (env : Nat → σ → σ) (now : Nat → Nat) (deadline : Nat) : Nat → Nat → Nat → σ → Option (Res σ)
  | 0, _, _, _ => none
  | n + 1, k, r, s =>
    if now r ≥ deadline then some (.timeout k (r + 1) s)
    else
      let a := t (env k s)
      if a.1 then some (.ok (k + 1) (r + 1) a.2) else rounds t env now deadline n (k + 1) (r + 1) a.2

/-- std `Instant + Duration` on Linux: seconds are an i64; past that the addition panics. Nanoseconds. -/
def instantMax : Nat := 2 ^ 63 * 10 ^ 9

/-- mod.rs:2202-2255 `send_blocking`; `start` is the clock when it is called. -/
def blocking (t : σ → Bool × σ) (env : Nat → σ → σ) (now : Nat → Nat) (start timeout fuel : Nat) (s : σ) : Option (Res σ) :=
  if start + timeout ≥ instantMax then some .panic
  else
    let r := tryN t env (1 + 256) 0 s
    if r.1 then some (.ok r.2.1 0 r.2.2) else rounds t env now (start + timeout) fuel r.2.1 0 r.2.2

end Calls

/-! ### Specification -/

/-- The states the attempts of a call find if they are all refused: attempt `k` sees `env k` of what
attempt `k-1` left. -/
def seen {σ : Type} (t : σ → Bool × σ) (env : Nat → σ → σ) (s : σ) : Nat → σ
  | 0 => env 0 s
  | k + 1 => env (k + 1) (t (seen t env s k)).2

/-- The answer of attempt `k`, all earlier ones having been refused. -/
def accepts {σ : Type} (t : σ → Bool × σ) (env : Nat → σ → σ) (s : σ) (k : Nat) : Bool := (t (seen t env s k)).1

/-- What attempt `k` leaves behind. -/
def after {σ : Type} (t : σ → Bool × σ) (env : Nat → σ → σ) (s : σ) (k : Nat) : σ := (t (seen t env s k)).2

section Props
variable {σ : Type} (t : σ → Bool × σ) (env : Nat → σ → σ) (s : σ)

/-- The state before the others get their turn ahead of attempt `k`. -/
def left : Nat → σ
  | 0 => s
  | k + 1 => after t env s k

theorem seen_left (k : Nat) : seen t env s k = env k (left t env s k) := by cases k <;> rfl

theorem tryN_spec (n k : Nat) :
    (∃ j, k ≤ j ∧ j < k + n ∧ accepts t env s j = true ∧ (∀ i, k ≤ i → i < j → accepts t env s i = false) ∧
      tryN t env n k (left t env s k) = (true, j + 1, after t env s j)) ∨
    ((∀ i, k ≤ i → i < k + n → accepts t env s i = false) ∧
      tryN t env n k (left t env s k) = (false, k + n, left t env s (k + n))) := by
  induction n generalizing k with
  | zero => exact Or.inr ⟨fun i h1 h2 => absurd h2 (by omega), rfl⟩
  | succ n ih =>
    unfold tryN
    dsimp only
    rw [← seen_left t env s k]
    cases ha : accepts t env s k with
    | true =>
      left
      refine ⟨k, by omega, by omega, ha, fun i h1 h2 => by omega, ?_⟩
      rw [if_pos (show (t (seen t env s k)).1 = true from ha)]
      rfl
    | false =>
      rw [if_neg (by rw [show (t (seen t env s k)).1 = false from ha]; decide)]
      have hf : ∀ i, k ≤ i → i < k + 1 → accepts t env s i = false := fun i h1 h2 => by
        have : i = k := by omega
        rw [this, ha]
      rcases ih (k + 1) with ⟨j, h1, h2, h3, h4, h5⟩ | ⟨h1, h2⟩
      · left
        exact ⟨j, by omega, by omega, h3, fun i g1 g2 => if h : i < k + 1 then hf i g1 h else h4 i (by omega) g2, h5⟩
      · right
        refine ⟨fun i g1 g2 => if h : i < k + 1 then hf i g1 h else h1 i (by omega) (by omega), ?_⟩
        have h3 := h2
        rw [show k + (n + 1) = k + 1 + n by omega]
        exact h3

theorem yieldN_spec (now : Nat → Nat) (limit n k : Nat) :
    (∃ j, k ≤ j ∧ j < k + n ∧ accepts t env s j = true ∧ (∀ i, k ≤ i → i < j → accepts t env s i = false ∧ now i < limit) ∧
      yieldN t env now limit n k (left t env s k) = (true, j + 1, after t env s j)) ∨
    (∃ m, m ≤ n ∧ (∀ i, k ≤ i → i < k + m → accepts t env s i = false) ∧
      (∀ i, k ≤ i → i + 1 < k + m → now i < limit) ∧ (m < n → 0 < m ∧ limit ≤ now (k + m - 1)) ∧
      yieldN t env now limit n k (left t env s k) = (false, k + m, left t env s (k + m))) := by
  induction n generalizing k with
  | zero => exact Or.inr ⟨0, Nat.le_refl _, fun i h1 h2 => absurd h2 (by omega), fun i h1 h2 => absurd h2 (by omega), fun h => absurd h (by omega), rfl⟩
  | succ n ih =>
    unfold yieldN
    dsimp only
    rw [← seen_left t env s k]
    cases ha : accepts t env s k with
    | true =>
      left
      refine ⟨k, by omega, by omega, ha, fun i h1 h2 => by omega, ?_⟩
      rw [if_pos (show (t (seen t env s k)).1 = true from ha)]
      rfl
    | false =>
      rw [if_neg (by rw [show (t (seen t env s k)).1 = false from ha]; decide)]
      have hf : ∀ i, k ≤ i → i < k + 1 → accepts t env s i = false := fun i h1 h2 => by
        have : i = k := by omega
        rw [this, ha]
      by_cases hl : now k ≥ limit
      · rw [if_pos hl]
        right
        exact ⟨1, by omega, hf, fun i h1 h2 => by omega, fun _ => ⟨by omega, by simpa using hl⟩, rfl⟩
      · rw [if_neg hl]
        rcases ih (k + 1) with ⟨j, h1, h2, h3, h4, h5⟩ | ⟨m, h1, h2, h3, h4, h5⟩
        · left
          refine ⟨j, by omega, by omega, h3, fun i g1 g2 => ?_, h5⟩
          by_cases h : i = k
          · subst h; exact ⟨ha, by omega⟩
          · exact h4 i (by omega) g2
        · right
          refine ⟨m + 1, by omega, fun i g1 g2 => ?_, fun i g1 g2 => ?_, fun h => ⟨by omega, ?_⟩, ?_⟩
          · by_cases h : i = k
            · subst h; exact ha
            · exact h2 i (by omega) (by omega)
          · by_cases h : i = k
            · subst h; omega
            · exact h3 i (by omega) (by omega)
          · have := (h4 (by omega)).2
            rw [show k + (m + 1) - 1 = k + 1 + m - 1 by omega]; exact this
          · rw [show k + (m + 1) = k + 1 + m by omega]; exact h5

theorem rounds_spec (now : Nat → Nat) (deadline n k r : Nat) :
    (∃ j, k ≤ j ∧ j < k + n ∧ accepts t env s j = true ∧ (∀ i, k ≤ i → i < j → accepts t env s i = false) ∧
      (∀ i, r ≤ i → i ≤ r + (j - k) → now i < deadline) ∧
      rounds t env now deadline n k r (left t env s k) = some (.ok (j + 1) (r + (j - k) + 1) (after t env s j))) ∨
    (∃ m, m < n ∧ (∀ i, k ≤ i → i < k + m → accepts t env s i = false) ∧ (∀ i, r ≤ i → i < r + m → now i < deadline) ∧
      deadline ≤ now (r + m) ∧
      rounds t env now deadline n k r (left t env s k) = some (.timeout (k + m) (r + m + 1) (left t env s (k + m)))) ∨
    ((∀ i, k ≤ i → i < k + n → accepts t env s i = false) ∧ (∀ i, r ≤ i → i < r + n → now i < deadline) ∧
      rounds t env now deadline n k r (left t env s k) = none) := by
  induction n generalizing k r with
  | zero => exact Or.inr (Or.inr ⟨fun i h1 h2 => absurd h2 (by omega), fun i h1 h2 => absurd h2 (by omega), rfl⟩)
  | succ n ih =>
    unfold rounds
    dsimp only
    rw [← seen_left t env s k]
    by_cases hl : now r ≥ deadline
    · rw [if_pos hl]
      exact Or.inr (Or.inl ⟨0, by omega, fun i h1 h2 => absurd h2 (by omega), fun i h1 h2 => absurd h2 (by omega), hl, rfl⟩)
    · rw [if_neg hl]
      cases ha : accepts t env s k with
      | true =>
        left
        refine ⟨k, by omega, by omega, ha, fun i h1 h2 => by omega, fun i h1 h2 => ?_, ?_⟩
        · have : i = r := by omega
          subst this; omega
        · rw [if_pos (show (t (seen t env s k)).1 = true from ha)]
          simp [after]
      | false =>
        rw [if_neg (by rw [show (t (seen t env s k)).1 = false from ha]; decide)]
        rcases ih (k + 1) (r + 1) with ⟨j, h1, h2, h3, h4, h5, h6⟩ | ⟨m, h1, h2, h3, h4, h5⟩ | ⟨h1, h2, h3⟩
        · left
          refine ⟨j, by omega, by omega, h3, fun i g1 g2 => ?_, fun i g1 g2 => ?_, ?_⟩
          · by_cases h : i = k
            · subst h; exact ha
            · exact h4 i (by omega) g2
          · by_cases h : i = r
            · subst h; omega
            · exact h5 i (by omega) (by omega)
          · rw [show r + (j - k) + 1 = r + 1 + (j - (k + 1)) + 1 by omega]; exact h6
        · right; left
          refine ⟨m + 1, by omega, fun i g1 g2 => ?_, fun i g1 g2 => ?_, ?_, ?_⟩
          · by_cases h : i = k
            · subst h; exact ha
            · exact h2 i (by omega) (by omega)
          · by_cases h : i = r
            · subst h; omega
            · exact h3 i (by omega) (by omega)
          · rw [show r + (m + 1) = r + 1 + m by omega]; exact h4
          · rw [show r + (m + 1) + 1 = r + 1 + m + 1 by omega, show k + (m + 1) = k + 1 + m by omega]; exact h5
        · right; right
          refine ⟨fun i g1 g2 => ?_, fun i g1 g2 => ?_, h3⟩
          · by_cases h : i = k
            · subst h; exact ha
            · exact h1 i (by omega) (by omega)
          · by_cases h : i = r
            · subst h; omega
            · exact h2 i (by omega) (by omega)

/-- A lossy send makes at most 70 attempts, stops at the first accepted one and leaves exactly what that
attempt left; it reports failure only if all attempts it made were refused, and it made at least 67:
all 70, unless the 200 microseconds of the yield phase were over after its last attempt. -/
theorem lossy_stops_at_first (now : Nat → Nat) (start : Nat) :
    (∃ j, j < 70 ∧ accepts t env s j = true ∧ (∀ i, i < j → accepts t env s i = false) ∧
      lossy t env now start s = (true, j + 1, after t env s j)) ∨
    (∃ n, 67 ≤ n ∧ n ≤ 70 ∧ (∀ i, i < n → accepts t env s i = false) ∧ (n < 70 → start + 200000 ≤ now (n - 1)) ∧
      lossy t env now start s = (false, n, after t env s (n - 1))) := by
  unfold lossy
  rcases tryN_spec t env s 66 0 with ⟨j, h1, h2, h3, h4, h5⟩ | ⟨h1, h2⟩
  · left
    refine ⟨j, by omega, h3, fun i hi => h4 i (Nat.zero_le _) hi, ?_⟩
    rw [show (1 + 1 + 64) = 66 from rfl, show tryN t env 66 0 s = (true, j + 1, after t env s j) from h5]
    rfl
  · rw [show (1 + 1 + 64) = 66 from rfl, show tryN t env 66 0 s = (false, 66, left t env s 66) by rw [show tryN t env 66 0 s = tryN t env 66 0 (left t env s 0) from rfl, h2]]
    dsimp only
    rw [if_neg (by decide)]
    rcases yieldN_spec t env s now (start + 200000) 4 66 with ⟨j, g1, g2, g3, g4, g5⟩ | ⟨m, g1, g2, g3, g4, g5⟩
    · left
      refine ⟨j, by omega, g3, fun i hi => ?_, g5⟩
      by_cases h : i < 66
      · exact h1 i (Nat.zero_le _) (by omega)
      · exact (g4 i (by omega) hi).1
    · right
      have hm : 0 < m := by
        by_cases h : m < 4
        · exact (g4 h).1
        · omega
      refine ⟨66 + m, by omega, by omega, fun i hi => ?_, fun h => ?_, ?_⟩
      · by_cases h : i < 66
        · exact h1 i (Nat.zero_le _) (by omega)
        · exact g2 i (by omega) hi
      · exact (g4 (by omega)).2
      · rw [g5]
        obtain ⟨p, rfl⟩ : ∃ p, m = p + 1 := ⟨m - 1, by omega⟩
        rfl

/-- A blocking send answers Ok exactly when one of its attempts was accepted; that attempt is its last
one and the first to be accepted, so the message is handed over once. Past the first 257 attempts each
further one comes after a clock reading before the deadline. -/
theorem blocking_ok (now : Nat → Nat) (start timeout fuel a l : Nat) (s' : σ)
    (h : blocking t env now start timeout fuel s = some (.ok a l s')) :
    0 < a ∧ accepts t env s (a - 1) = true ∧ (∀ i, i < a - 1 → accepts t env s i = false) ∧ s' = after t env s (a - 1) ∧
      l = a - 257 ∧ ∀ i, i < l → now i < start + timeout := by
  unfold blocking at h
  split at h
  · cases h
  · rcases tryN_spec t env s 257 0 with ⟨j, h1, h2, h3, h4, h5⟩ | ⟨h1, h2⟩
    · rw [show (1 + 256) = 257 from rfl, show tryN t env 257 0 s = (true, j + 1, after t env s j) from h5] at h
      dsimp only at h
      rw [if_pos rfl, Option.some.injEq, Res.ok.injEq] at h
      obtain ⟨rfl, rfl, rfl⟩ := h
      exact ⟨by omega, h3, fun i hi => h4 i (Nat.zero_le _) hi, rfl, by omega, fun i hi => absurd hi (by omega)⟩
    · rw [show (1 + 256) = 257 from rfl, show tryN t env 257 0 s = (false, 257, left t env s 257) by rw [show tryN t env 257 0 s = tryN t env 257 0 (left t env s 0) from rfl, h2]] at h
      dsimp only at h
      rw [if_neg (by decide)] at h
      rcases rounds_spec t env s now (start + timeout) fuel 257 0 with ⟨j, g1, g2, g3, g4, g5, g6⟩ | ⟨m, g1, g2, g3, g4, g5⟩ | ⟨g1, g2, g3⟩
      · rw [g6] at h
        cases h
        refine ⟨by omega, g3, fun i hi => ?_, rfl, by omega, fun i hi => g5 i (Nat.zero_le _) (by omega)⟩
        by_cases hh : i < 257
        · exact h1 i (Nat.zero_le _) (by omega)
        · exact g4 i (by omega) (by omega)
      · rw [g5] at h; cases h
      · rw [g3] at h; cases h

/-- A blocking send that times out made at least 257 attempts and every one was refused; it gives up at
the first clock reading that is past the deadline, and the state is what its last refused attempt left. -/
theorem blocking_timeout (now : Nat → Nat) (start timeout fuel a l : Nat) (s' : σ)
    (h : blocking t env now start timeout fuel s = some (.timeout a l s')) :
    257 ≤ a ∧ (∀ i, i < a → accepts t env s i = false) ∧ s' = after t env s (a - 1) ∧ a + 1 = l + 257 ∧
      start + timeout ≤ now (l - 1) ∧ ∀ i, i < l - 1 → now i < start + timeout := by
  unfold blocking at h
  split at h
  · cases h
  · rcases tryN_spec t env s 257 0 with ⟨j, h1, h2, h3, h4, h5⟩ | ⟨h1, h2⟩
    · rw [show (1 + 256) = 257 from rfl, show tryN t env 257 0 s = (true, j + 1, after t env s j) from h5] at h
      cases h
    · rw [show (1 + 256) = 257 from rfl, show tryN t env 257 0 s = (false, 257, left t env s 257) by rw [show tryN t env 257 0 s = tryN t env 257 0 (left t env s 0) from rfl, h2]] at h
      dsimp only at h
      rw [if_neg (by decide)] at h
      rcases rounds_spec t env s now (start + timeout) fuel 257 0 with ⟨j, g1, g2, g3, g4, g5, g6⟩ | ⟨m, g1, g2, g3, g4, g5⟩ | ⟨g1, g2, g3⟩
      · rw [g6] at h; cases h
      · rw [g5] at h
        cases h
        refine ⟨by omega, fun i hi => ?_, ?_, by omega, by simpa using g4, fun i hi => g3 i (Nat.zero_le _) (by omega)⟩
        · by_cases hh : i < 257
          · exact h1 i (Nat.zero_le _) (by omega)
          · exact g2 i (by omega) (by omega)
        · rw [show 257 + m = 256 + m + 1 by omega]; rfl
      · rw [g3] at h; cases h

/-- A blocking send returns: once the clock has reached the deadline at its `r`-th reading, `r + 1`
rounds are enough, however the other handles behave. -/
theorem returns_once_late (now : Nat → Nat) (start timeout fuel r : Nat) (hr : start + timeout ≤ now r) (hf : r < fuel) :
    blocking t env now start timeout fuel s ≠ none := by
  intro h
  unfold blocking at h
  split at h
  · cases h
  · rcases tryN_spec t env s 257 0 with ⟨j, h1, h2, h3, h4, h5⟩ | ⟨h1, h2⟩
    · rw [show (1 + 256) = 257 from rfl, show tryN t env 257 0 s = (true, j + 1, after t env s j) from h5] at h
      cases h
    · rw [show (1 + 256) = 257 from rfl, show tryN t env 257 0 s = (false, 257, left t env s 257) by rw [show tryN t env 257 0 s = tryN t env 257 0 (left t env s 0) from rfl, h2]] at h
      dsimp only at h
      rw [if_neg (by decide)] at h
      rcases rounds_spec t env s now (start + timeout) fuel 257 0 with ⟨j, g1, g2, g3, g4, g5, g6⟩ | ⟨m, g1, g2, g3, g4, g5⟩ | ⟨g1, g2, g3⟩
      · rw [g6] at h; cases h
      · rw [g5] at h; cases h
      · have := g2 r (Nat.zero_le _) (by omega)
        omega

/-- A blocking send succeeds if any of its first 257 attempts is accepted, even with a timeout of zero. -/
theorem early_room_is_used (now : Nat → Nat) (start timeout fuel j : Nat) (ht : start + timeout < instantMax)
    (hj : j < 257) (ha : accepts t env s j = true) :
    ∃ a l s', blocking t env now start timeout fuel s = some (.ok a l s') := by
  unfold blocking
  rw [if_neg (by omega)]
  rcases tryN_spec t env s 257 0 with ⟨j, h1, h2, h3, h4, h5⟩ | ⟨h1, h2⟩
  · rw [show (1 + 256) = 257 from rfl, show tryN t env 257 0 s = (true, j + 1, after t env s j) from h5]
    exact ⟨_, _, _, rfl⟩
  · rw [h1 j (Nat.zero_le _) (by omega)] at ha; cases ha

/-- With a timeout of zero a blocking send never pauses: it looks at the clock at most once and makes at
most 257 attempts (the clock does not run backwards). -/
theorem zero_timeout_never_waits (now : Nat → Nat) (start fuel : Nat) (hclk : ∀ r, start ≤ now r) (res : Res σ)
    (h : blocking t env now start 0 fuel s = some res) :
    match res with
    | .ok a l _ => a ≤ 257 ∧ l = 0
    | .timeout a l _ => a = 257 ∧ l = 1
    | .panic => instantMax ≤ start := by
  cases res with
  | ok a l s' =>
    obtain ⟨h1, h2, h3, h4, h5, h6⟩ := blocking_ok t env s now start 0 fuel a l s' h
    have : l = 0 := by
      rcases Nat.eq_zero_or_pos l with hl | hl
      · exact hl
      · have h7 := h6 0 hl
        have := hclk 0
        omega
    dsimp only
    omega
  | timeout a l s' =>
    obtain ⟨h1, h2, h3, h4, h5, h6⟩ := blocking_timeout t env s now start 0 fuel a l s' h
    have : l = 1 := by
      rcases Nat.lt_or_ge 1 l with hl | hl
      · have h7 := h6 0 (by omega)
        have := hclk 0
        omega
      · omega
    dsimp only
    omega
  | panic =>
    unfold blocking at h
    split at h
    · assumption
    · exfalso
      dsimp only at h
      split at h
      · cases h
      · rcases tryN_spec t env s 257 0 with ⟨j, h1, h2, h3, h4, h5⟩ | ⟨h1, h2⟩
        · rename_i _ hn
          exact hn (by rw [show (1 + 256) = 257 from rfl, show tryN t env 257 0 s = (true, j + 1, after t env s j) from h5])
        · rw [show (1 + 256) = 257 from rfl, show tryN t env 257 0 s = (false, 257, left t env s 257) by rw [show tryN t env 257 0 s = tryN t env 257 0 (left t env s 0) from rfl, h2]] at h
          rcases rounds_spec t env s now (start + 0) fuel 257 0 with ⟨j, g1, g2, g3, g4, g5, g6⟩ | ⟨m, g1, g2, g3, g4, g5⟩ | ⟨g1, g2, g3⟩
          · rw [g6] at h; cases h
          · rw [g5] at h; cases h
          · rw [g3] at h; cases h

/-- "Wait as long as it takes": the longest duration the language can express (`Duration::MAX`) makes the
call panic before it has tried to send at all, whatever the clock and whether or not there is room. -/
theorem longest_timeout_panics (now : Nat → Nat) (start fuel : Nat) :
    blocking t env now start ((2 ^ 64 - 1) * 10 ^ 9 + 999999999) fuel s = some .panic := by
  unfold blocking
  rw [if_pos]
  unfold instantMax
  omega

end Props

/-- Non-vacuity: room appears before attempt 300 of a call with time left; the call succeeds there. -/
example : accepts (σ := Nat) (fun n => (n ≥ 301, n)) (fun _ n => n + 1) 0 299 = false ∧
    accepts (σ := Nat) (fun n => (n ≥ 301, n)) (fun _ n => n + 1) 0 300 = true := by
  have h : ∀ k, seen (σ := Nat) (fun n => (decide (n ≥ 301), n)) (fun _ n => n + 1) 0 k = k + 1 := by
    intro k
    induction k with
    | zero => rfl
    | succ k ih => show (fun _ n => n + 1) (k + 1) (seen (σ := Nat) (fun n => (decide (n ≥ 301), n)) (fun _ n => n + 1) 0 k) = _; rw [ih]
  constructor
  · unfold accepts; rw [h]; rfl
  · unfold accepts; rw [h]; rfl

example : ∃ a l s', blocking (σ := Nat) (fun n => (n ≥ 301, n)) (fun _ n => n + 1) (fun r => r) 0 1000 2000 0 = some (.ok a l s') ∧ a = 301 ∧ l = 44 := by
  refine ⟨301, 44, 301, ?_, rfl, rfl⟩
  decide +kernel

example : blocking (σ := Unit) (fun _ => (false, ())) (fun _ _ => ()) (fun r => r * 100) 0 1000 2000 () = some (.timeout 267 11 ()) := by
  decide +kernel

/-! ### On a topic: the message is published once or not at all -/

section Topic
variable {α : Type}

/-- A topic together with what has been published on it; `true` marks the message of the call under
study. Ghost of topic/mod.rs:2202-2255. -/
abbrev World (α : Type) := St α × List (Bool × α)

/-- One attempt of handle `i` to send `v`; what counts as published is what moves the head of the ring.
Ghost of topic/mod.rs:1733-1738. -/
def attempt (c : Cfg) (i : Nat) (v : α) (w : World α) : Bool × World α :=
  let r := trySend c w.1 i v
  (r.1, (r.2, w.2 ++ if r.2.hd = w.1.hd then [] else [(true, v)]))

/-- What the other handles do before attempt `k`. -/
def others (c : Cfg) (acts : Nat → List (Act α)) (k : Nat) (w : World α) : World α :=
  ((run c w.1 (acts k)).2, w.2 ++ (published c w.1 (acts k)).map fun x => (false, x))

/-- The messages published by the call under study. -/
def mine (l : List (Bool × α)) : List α := (l.filter (·.1)).map (·.2)

theorem mine_append (l m : List (Bool × α)) : mine (l ++ m) = mine l ++ mine m := by
  unfold mine; rw [List.filter_append, List.map_append]

theorem mine_others (l : List α) : mine (l.map fun x => (false, x)) = [] := by
  unfold mine
  rw [List.map_eq_nil_iff, List.filter_eq_nil_iff]
  intro a ha
  obtain ⟨x, _, rfl⟩ := List.mem_map.mp ha
  simp

theorem trySend_hd (c : Cfg) (s : St α) (i : Nat) (v : α) :
    (trySend c s i v).1 = true ↔ (trySend c s i v).2.hd ≠ s.hd := by
  have he : (ensure c s i true).hd = s.hd := by
    unfold ensure; dsimp only; split
    · rfl
    · rw [if_neg (by simp)]; rfl
  unfold trySend mpSend
  dsimp only
  generalize (if sub64 (ensure c s i true).hd ((ensure c s i true).h i).lt ≥ c.cap then (ensure c s i true).tl else ((ensure c s i true).h i).lt) = lt
  split
  · show false = true ↔ (ensure c s i true).hd ≠ s.hd
    rw [he]; simp
  · show true = true ↔ (ensure c s i true).hd + 1 ≠ s.hd
    rw [he]; simp

theorem send_trySend {c : Cfg} {s : St α} {i : Nat} (v : α) (h : (s.h i).role ≠ .both) : send c s i v = (trySend c s i v).2 := by
  unfold send
  dsimp only
  rw [if_neg (fun x => h x.1)]

theorem pure_run (c : Cfg) (prod : Nat → Bool) (as : List (Act α)) (s : St α) (pub : List α) (hI : Pure c prod s pub)
    (ha : OneRole prod as) : Pure c prod (run c s as).2 (pub ++ published c s as) := by
  induction as generalizing s pub with
  | nil => simpa [run, published] using hI
  | cons x as ih =>
    have ha' : OneRole prod as := fun y hy => ha y (List.mem_cons_of_mem _ hy)
    have hx := ha x (List.mem_cons_self ..)
    cases x with
    | send i v =>
      have := ih (send c s i v) _ (hI.send i v hx) ha'
      rw [List.append_assoc] at this
      exact this
    | recv i =>
      have := ih (recv c s i).2 _ (hI.recv i hx).2.1 ha'
      simpa [run, published, step] using this
    | epoch i => exact absurd hx (by simp)

theorem pure_world (c : Cfg) (prod : Nat → Bool) (i : Nat) (v : α) (hi : prod i = true) (acts : Nat → List (Act α))
    (ha : ∀ k, OneRole prod (acts k)) (w : World α) (hw : Pure c prod w.1 (w.2.map (·.2))) (k : Nat) :
    Pure c prod (seen (attempt c i v) (others c acts) w k).1 ((seen (attempt c i v) (others c acts) w k).2.map (·.2)) ∧
    Pure c prod (after (attempt c i v) (others c acts) w k).1 ((after (attempt c i v) (others c acts) w k).2.map (·.2)) := by
  have hoth : ∀ (w : World α) (k : Nat), Pure c prod w.1 (w.2.map (·.2)) → Pure c prod (others c acts k w).1 ((others c acts k w).2.map (·.2)) := by
    intro w k hw
    unfold others
    dsimp only
    rw [List.map_append, List.map_map]
    have : ((fun x : Bool × α => x.2) ∘ fun x => (false, x)) = id := rfl
    rw [this, List.map_id]
    exact pure_run c prod (acts k) w.1 _ hw (ha k)
  have hatt : ∀ (w : World α), Pure c prod w.1 (w.2.map (·.2)) → Pure c prod (attempt c i v w).2.1 ((attempt c i v w).2.2.map (·.2)) := by
    intro w hw
    unfold attempt
    dsimp only
    have hr : (w.1.h i).role ≠ .both := by rcases hw.rp i hi with h | h <;> rw [h] <;> decide
    rw [List.map_append, ← send_trySend v hr]
    have := hw.send i v hi
    split at this
    · rename_i h; rw [if_pos h]; exact this
    · rename_i h; rw [if_neg h]; exact this
  induction k with
  | zero => exact ⟨hoth w 0 hw, hatt _ (hoth w 0 hw)⟩
  | succ k ih => exact ⟨hoth _ _ ih.2, hatt _ (hoth _ _ ih.2)⟩

theorem mine_seen (c : Cfg) (i : Nat) (v : α) (acts : Nat → List (Act α)) (w : World α) (k : Nat)
    (h : ∀ j, j < k → accepts (attempt c i v) (others c acts) w j = false) :
    mine (seen (attempt c i v) (others c acts) w k).2 = mine w.2 ∧
      mine (after (attempt c i v) (others c acts) w k).2 =
        mine w.2 ++ if accepts (attempt c i v) (others c acts) w k = true then [v] else [] := by
  have hoth : ∀ (w : World α) (k : Nat), mine (others c acts k w).2 = mine w.2 := by
    intro w k
    unfold others
    dsimp only
    rw [mine_append, mine_others, List.append_nil]
  have hatt : ∀ (w : World α), mine (attempt c i v w).2.2 = mine w.2 ++ if (attempt c i v w).1 = true then [v] else [] := by
    intro w
    unfold attempt
    dsimp only
    rw [mine_append]
    have := trySend_hd c w.1 i v
    by_cases hh : (trySend c w.1 i v).2.hd = w.1.hd
    · rw [if_pos hh, if_neg (fun g => this.mp g hh)]; rfl
    · rw [if_neg hh, if_pos (this.mpr hh)]; rfl
  induction k with
  | zero => exact ⟨hoth w 0, by unfold after; rw [hatt]; rw [show mine (seen (attempt c i v) (others c acts) w 0).2 = mine w.2 from hoth w 0]; rfl⟩
  | succ k ih =>
    have h1 := (ih fun j hj => h j (by omega)).2
    rw [h k (by omega)] at h1
    have h2 : mine (seen (attempt c i v) (others c acts) w (k + 1)).2 = mine w.2 := by
      show mine (others c acts (k + 1) (after (attempt c i v) (others c acts) w k)).2 = _
      rw [hoth, h1]
      simp
    refine ⟨h2, ?_⟩
    unfold after
    rw [hatt, h2]
    rfl

/-- The full claim of `send_blocking` on a topic whose handles keep to one purpose each, whatever the
other handles do between its attempts: Ok means that the message is in the published sequence exactly
once, a timeout means that it is not in it and will not be, and in both cases every other handle's
messages are untouched (the sequence is the one the subscribers of C88 and C89 read). -/
theorem blocking_publishes_once (c : Cfg) (prod : Nat → Bool) (i : Nat) (v : α) (hi : prod i = true)
    (acts : Nat → List (Act α)) (ha : ∀ k, OneRole prod (acts k)) (before : List (Act α)) (hb : OneRole prod before)
    (now : Nat → Nat) (start timeout fuel : Nat) (res : Res (World α))
    (h : blocking (attempt c i v) (others c acts) now start timeout fuel
      ((run c (St.init α) before).2, (published c (St.init α) before).map fun x => (false, x)) = some res) :
    match res with
    | .ok _ _ w => Pure c prod w.1 (w.2.map (·.2)) ∧ mine w.2 = [v]
    | .timeout _ _ w => Pure c prod w.1 (w.2.map (·.2)) ∧ mine w.2 = []
    | .panic => instantMax ≤ start + timeout := by
  have hw : Pure c prod (run c (St.init α) before).2 (((published c (St.init α) before).map fun x => (false, x)).map (·.2)) := by
    have := pure_run c prod before (St.init α) [] (pure_init c prod) hb
    rw [List.map_map, show ((fun x : Bool × α => x.2) ∘ fun x => (false, x)) = id from rfl, List.map_id]
    simpa using this
  have hm : mine ((published c (St.init α) before).map fun x => (false, x)) = [] := mine_others _
  cases res with
  | ok a l w =>
    obtain ⟨h1, h2, h3, h4, -⟩ := blocking_ok _ _ _ now start timeout fuel a l w h
    have hp := (pure_world c prod i v hi acts ha ((run c (St.init α) before).2, (published c (St.init α) before).map fun x => (false, x)) hw (a - 1)).2
    have hn := (mine_seen c i v acts _ (a - 1) h3).2
    rw [if_pos h2, hm, List.nil_append, ← h4] at hn
    rw [← h4] at hp
    exact ⟨hp, hn⟩
  | timeout a l w =>
    obtain ⟨h1, h2, h3, -⟩ := blocking_timeout _ _ _ now start timeout fuel a l w h
    have hp := (pure_world c prod i v hi acts ha ((run c (St.init α) before).2, (published c (St.init α) before).map fun x => (false, x)) hw (a - 1)).2
    have hn := (mine_seen c i v acts _ (a - 1) (fun j hj => h2 j (by omega))).2
    rw [if_neg (by rw [h2 (a - 1) (by omega)]; decide), hm, List.nil_append, ← h3] at hn
    rw [← h3] at hp
    exact ⟨hp, hn⟩
  | panic =>
    unfold blocking at h
    split at h
    · assumption
    · exfalso
      dsimp only at h
      split at h
      · cases h
      · rename_i _ hn
        rcases tryN_spec (attempt c i v) (others c acts) ((run c (St.init α) before).2, (published c (St.init α) before).map fun x => (false, x)) 257 0 with ⟨j, h1, h2, h3, h4, h5⟩ | ⟨h1, h2⟩
        · apply hn
          rw [show (1 + 256) = 257 from rfl]
          exact congrArg (·.1) h5
        · have h2' : tryN (attempt c i v) (others c acts) (1 + 256) 0 ((run c (St.init α) before).2, (published c (St.init α) before).map fun x => (false, x)) = _ := h2
          rw [h2'] at h
          dsimp only at h
          rcases rounds_spec (attempt c i v) (others c acts) ((run c (St.init α) before).2, (published c (St.init α) before).map fun x => (false, x)) now (start + timeout) fuel (0 + 257) 0 with ⟨j, g1, g2, g3, g4, g5, g6⟩ | ⟨m, g1, g2, g3, g4, g5⟩ | ⟨g1, g2, g3⟩
          · rw [g6] at h; cases h
          · rw [g5] at h; cases h
          · rw [g3] at h; cases h

/-- The same for the lossy `send`: it publishes the message once or not at all, and says which through
the drop counter (`count` below). -/
theorem lossy_publishes_once (c : Cfg) (prod : Nat → Bool) (i : Nat) (v : α) (hi : prod i = true)
    (acts : Nat → List (Act α)) (ha : ∀ k, OneRole prod (acts k)) (before : List (Act α)) (hb : OneRole prod before)
    (now : Nat → Nat) (start : Nat) :
    let r := lossy (attempt c i v) (others c acts) now start
      ((run c (St.init α) before).2, (published c (St.init α) before).map fun x => (false, x))
    Pure c prod r.2.2.1 (r.2.2.2.map (·.2)) ∧ mine r.2.2.2 = if r.1 then [v] else [] := by
  have hw : Pure c prod (run c (St.init α) before).2 (((published c (St.init α) before).map fun x => (false, x)).map (·.2)) := by
    have := pure_run c prod before (St.init α) [] (pure_init c prod) hb
    rw [List.map_map, show ((fun x : Bool × α => x.2) ∘ fun x => (false, x)) = id from rfl, List.map_id]
    simpa using this
  have hm : mine ((published c (St.init α) before).map fun x => (false, x)) = [] := mine_others _
  dsimp only
  rcases lossy_stops_at_first (attempt c i v) (others c acts) ((run c (St.init α) before).2, (published c (St.init α) before).map fun x => (false, x)) now start with ⟨j, h1, h2, h3, h4⟩ | ⟨n, h1, h2, h3, h4, h5⟩
  · rw [h4]
    have hp := (pure_world c prod i v hi acts ha ((run c (St.init α) before).2, (published c (St.init α) before).map fun x => (false, x)) hw j).2
    have hn := (mine_seen c i v acts _ j h3).2
    rw [if_pos h2, hm, List.nil_append] at hn
    exact ⟨hp, by rw [if_pos rfl]; exact hn⟩
  · rw [h5]
    have hp := (pure_world c prod i v hi acts ha ((run c (St.init α) before).2, (published c (St.init α) before).map fun x => (false, x)) hw (n - 1)).2
    have hn := (mine_seen c i v acts _ (n - 1) (fun j hj => h3 j (by omega))).2
    rw [if_neg (by rw [h3 (n - 1) (by omega)]; decide), hm, List.nil_append] at hn
    exact ⟨hp, by rw [if_neg (by simp)]; exact hn⟩

/-- Non-vacuity: a ring of two slots is full; the subscriber makes room only before attempt 260. -/
def full2 : List (Act Nat) := [.recv 1, .send 0 1, .send 0 2]

def drain260 (k : Nat) : List (Act Nat) := if k = 260 then [.recv 1, .recv 1] else []

example : OneRole (fun i => i == 0) full2 ∧ (∀ k, OneRole (fun i => i == 0) (drain260 k)) := by
  refine ⟨by simp [OneRole, full2], fun k => ?_⟩
  unfold drain260
  split <;> simp [OneRole]

/-- The outcome of that call and what it published. -/
def outcome : Option (Bool × Nat × Nat × List Nat) :=
  match blocking (attempt c2 0 9) (others c2 drain260) (fun r => r) 0 1000 100
    ((run c2 (St.init Nat) full2).2, (published c2 (St.init Nat) full2).map fun x => (false, x)) with
  | some (.ok a l w) => some (true, a, l, mine w.2)
  | some (.timeout a l w) => some (false, a, l, mine w.2)
  | _ => none

example : outcome = some (true, 261, 4, [9]) := by decide +kernel

/-! ### A handle that sends and receives -/

/-- Finding: on a handle that has both sent and received, `send` and `recv` use the handle's own
counters while `try_send` and `send_blocking` use the shared ones. After three sends, a `send_blocking`
that answers Ok at its first attempt has overwritten the second message and made the third one
unreachable, although the ring of four slots was never full. -/
theorem blocking_on_both_loses :
    let s := (run c4 (St.init Nat) [.recv 0, .send 0 1, .send 0 2, .send 0 3]).2
    (s.h 0).role = .both ∧
    (trySend c4 s 0 4).1 = true ∧
    (run c4 (trySend c4 s 0 4).2 [.recv 0, .recv 0, .recv 0, .recv 0]).1.map (·.2) = [some 1, some 4, none, none] := by
  decide

/-- ... while the same four messages through `send` arrive in order. -/
theorem plain_send_on_both_keeps :
    (run c4 (St.init Nat) [.recv 0, .send 0 1, .send 0 2, .send 0 3, .send 0 4, .recv 0, .recv 0, .recv 0, .recv 0]).1.map (·.2)
      = [none, some 1, some 2, some 3, some 4] := by
  decide

end Topic

/-! ### What is counted -/

/-- The ways of sending. topic/mod.rs:1733 `try_send`, 2041 `send`, 2202 `send_blocking`. -/
inductive Call | send | trySend | blocking
deriving DecidableEq

/-- header.rs `messages_total` (read by `horus topic` and the freshness watchdog, scheduling/types.rs:627-661),
types.rs `send_failures` (`Topic::dropped_count`), and the wake-ups of event nodes. -/
structure Ctr where
  total : Nat
  dropped : Nat
  woken : Nat
deriving DecidableEq

/-- mod.rs:2041-2081, 2185 (`send`), 1733-1738 and 2202-2255 (the other two touch none of them). `ok`:
was the message accepted? -/
def count (x : Ctr) (call : Call) (ok : Bool) : Ctr :=
  match call with
  | .send => ⟨x.total + 1, x.dropped + (if ok then 0 else 1), x.woken + 1⟩
  | .trySend => x
  | .blocking => x

/-- A history of calls with their outcomes. Schedules over mod.rs:1733-2255. -/
def counts (x : Ctr) : List (Call × Bool) → Ctr
  | [] => x
  | (c, ok) :: l => counts (count x c ok) l

/-- How often each call occurred with each outcome. -/
def calls (c : Call) (ok : Bool) (l : List (Call × Bool)) : Nat := l.countP (· == (c, ok))

theorem counts_from (x : Ctr) (l : List (Call × Bool)) :
    (counts x l).total = x.total + calls .send true l + calls .send false l ∧
    (counts x l).dropped = x.dropped + calls .send false l ∧
    (counts x l).woken = x.woken + calls .send true l + calls .send false l := by
  induction l generalizing x with
  | nil => simp [counts, calls]
  | cons a l ih =>
    obtain ⟨cl, ok⟩ := a
    obtain ⟨h1, h2, h3⟩ := ih (count x cl ok)
    simp only [counts, h1, h2, h3]
    unfold calls
    simp only [List.countP_cons]
    cases cl <;> cases ok <;> simp [count] <;> omega

/-- `dropped_count` is exactly the number of `send` calls whose message was lost. -/
theorem dropped_exact (l : List (Call × Bool)) : (counts ⟨0, 0, 0⟩ l).dropped = calls .send false l := by
  have := (counts_from ⟨0, 0, 0⟩ l).2.1
  simpa using this

/-- The message counter of a topic is the number of accepted messages if they all went through `send`
and none was dropped. Missing from the full claim: the other cases (`total_is_not_the_traffic`). -/
theorem total_exact_partial (l : List (Call × Bool)) (h : ∀ p ∈ l, p = (.send, true)) :
    (counts ⟨0, 0, 0⟩ l).total = l.length ∧ (counts ⟨0, 0, 0⟩ l).woken = l.length := by
  have h1 : calls .send true l = l.length := by
    unfold calls; rw [List.countP_eq_length]; intro p hp; rw [h p hp]; rfl
  have h2 : calls .send false l = 0 := by
    unfold calls; rw [List.countP_eq_zero]; intro p hp; rw [h p hp]; decide
  obtain ⟨g1, -, g3⟩ := counts_from ⟨0, 0, 0⟩ l
  rw [g1, g3, h1, h2]
  simp

/-- Finding: the message counter counts calls of `send`, not messages. Any number of messages accepted
through `send_blocking` or `try_send` leaves it at zero and wakes nobody, and any number of dropped
messages raises it and wakes the event nodes for data that is not there. -/
theorem total_is_not_the_traffic (n : Nat) :
    counts ⟨0, 0, 0⟩ (List.replicate n (.blocking, true)) = ⟨0, 0, 0⟩ ∧
    counts ⟨0, 0, 0⟩ (List.replicate n (.trySend, true)) = ⟨0, 0, 0⟩ ∧
    counts ⟨0, 0, 0⟩ (List.replicate n (.send, false)) = ⟨n, n, n⟩ := by
  refine ⟨?_, ?_, ?_⟩
  · induction n with
    | zero => rfl
    | succ n ih => exact ih
  · induction n with
    | zero => rfl
    | succ n ih => exact ih
  · obtain ⟨g1, g2, g3⟩ := counts_from ⟨0, 0, 0⟩ (List.replicate n (.send, false))
    have h1 : calls .send true (List.replicate n (.send, false)) = 0 := by
      unfold calls; rw [List.countP_eq_zero]; intro p hp; rw [(List.mem_replicate.mp hp).2]; decide
    have h2 : calls .send false (List.replicate n (.send, false)) = n := by
      unfold calls
      rw [List.countP_replicate]; rfl
    rw [h1, h2] at g1 g3
    rw [h2] at g2
    generalize counts ⟨0, 0, 0⟩ (List.replicate n (Call.send, false)) = x at *
    obtain ⟨a, b, c⟩ := x
    simp at g1 g2 g3
    rw [g1, g2, g3]

end Horus.Handle.Wait
