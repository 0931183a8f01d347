import Verif.Sched.Failure
/-
C52: failure policies act as configured.
-/
namespace Horus.Sched.Failure

local notation "U32" => (4294967296 : Nat)

/-! ### Specification -/

/-- Number of failures in a history. -/
def failures : List Event → Nat
  | [] => 0
  | .ok _ :: es => failures es
  | .fail _ :: es => failures es + 1

/-- The actions a `Restart` policy must return: the first `maxRestarts` failures restart the node,
every later one is fatal. -/
def restartSpec (maxRestarts total : Nat) : List Action :=
  (List.range total).map fun k => if k < maxRestarts then .restartNode else .fatalAfterRestarts

/-- Failures since the last clean tick or the last suppression. -/
def streak (threshold : Nat) : Nat → List Event → Nat
  | n, [] => n
  | _, .ok _ :: es => streak threshold 0 es
  | n, .fail _ :: es => if n + 1 ≥ threshold then streak threshold 0 es else streak threshold (n + 1) es

/-- The actions a `Skip` policy must return. -/
def skipSpec (threshold : Nat) : Nat → List Event → List Action
  | _, [] => []
  | _, .ok _ :: es => skipSpec threshold 0 es
  | n, .fail _ :: es =>
    if n + 1 ≥ threshold then .skipNode :: skipSpec threshold 0 es
    else .continue_ :: skipSpec threshold (n + 1) es

/-! ### Restart -/

theorem event_policy {h h' : Handler} {e : Event} {a : Option Action} (he : h.event e = some (h', a)) :
    h'.policy = h.policy := by
  cases e with
  | ok t =>
    simp only [Handler.event, Option.some.injEq, Prod.mk.injEq] at he
    rw [← he.1]; unfold Handler.recordSuccess; split <;> rfl
  | fail t =>
    simp only [Handler.event, Option.map_eq_some_iff] at he
    obtain ⟨⟨h1, a1⟩, h2, h3⟩ := he
    simp only [Prod.mk.injEq] at h3
    rw [← h3.1]
    unfold Handler.recordFailure at h2
    split at h2
    · simp at h2; rw [← h2.1]
    · simp only at h2
      split at h2
      · simp at h2; rw [← h2.1]
      · split at h2
        · simp at h2
        · simp at h2; rw [← h2.1]
    · simp only at h2
      split at h2
      · split at h2
        · simp at h2
        · simp at h2; rw [← h2.1]
      · simp at h2; rw [← h2.1]
    · simp at h2; rw [← h2.1]

theorem restart_history (m i : Nat) (es : List Event) :
    ∀ (h h' : Handler) (as : List Action), h.policy = .restart m i → h.count + failures es < U32 →
      h.history es = some (h', as) →
      h'.count = h.count + failures es ∧
      as = (List.range (failures es)).map fun k => if h.count + k < m then .restartNode else .fatalAfterRestarts := by
  induction es with
  | nil =>
    intro h h' as hp hc hh
    simp only [Handler.history, Option.some.injEq, Prod.mk.injEq] at hh
    rw [← hh.1, ← hh.2]; simp [failures]
  | cons e es ih =>
    intro h h' as hp hc hh
    unfold Handler.history at hh
    cases e with
    | ok t =>
      simp only [Handler.event] at hh
      have hrs : h.recordSuccess = { h with until_ := none } := by unfold Handler.recordSuccess; rw [hp]
      cases hx : (h.recordSuccess).history es with
      | none => rw [hx] at hh; simp at hh
      | some r =>
        obtain ⟨h2, as2⟩ := r
        rw [hx] at hh
        simp only [Option.some.injEq, Prod.mk.injEq, Option.toList_none, List.nil_append] at hh
        have := ih _ _ _ (by rw [hrs]; exact hp) (by rw [hrs]; simpa [failures] using hc) hx
        rw [hrs] at this
        rw [← hh.1, ← hh.2]
        simpa [failures] using this
    | fail t =>
      simp only [failures] at hc ⊢
      have hmod : (h.count + 1) % U32 = h.count + 1 := Nat.mod_eq_of_lt (by omega)
      simp only [Handler.event] at hh
      cases hr : h.recordFailure t with
      | none => rw [hr] at hh; simp at hh
      | some r =>
        obtain ⟨h1, a1⟩ := r
        rw [hr] at hh
        simp only [Option.map_some] at hh
        have key : h1.count = h.count + 1 ∧ h1.policy = .restart m i ∧
            a1 = if h.count < m then Action.restartNode else .fatalAfterRestarts := by
          unfold Handler.recordFailure at hr
          rw [hp] at hr
          simp only [hmod] at hr
          by_cases hgt : h.count + 1 > m
          · rw [if_pos hgt] at hr
            simp at hr
            rw [← hr.1, ← hr.2, if_neg (by omega)]
            exact ⟨rfl, by first | rfl | exact hp, rfl⟩
          · rw [if_neg hgt] at hr
            cases ha : addInstant t (backoff i (h.count + 1)) with
            | none => rw [ha] at hr; simp at hr
            | some u =>
              rw [ha] at hr
              simp at hr
              rw [← hr.1, ← hr.2, if_pos (by omega)]
              exact ⟨rfl, by first | rfl | exact hp, rfl⟩
        cases hx : h1.history es with
        | none => rw [hx] at hh; simp at hh
        | some r2 =>
          obtain ⟨h2, as2⟩ := r2
          rw [hx] at hh
          simp only [Option.some.injEq, Prod.mk.injEq, Option.toList_some] at hh
          obtain ⟨i1, i2⟩ := ih _ _ _ key.2.1 (by rw [key.1]; omega) hx
          rw [← hh.1, ← hh.2, i1, i2, key.2.2, key.1]
          refine ⟨by omega, ?_⟩
          rw [List.range_succ_eq_map, List.map_cons, List.map_map]
          simp only [List.singleton_append, Nat.add_zero, List.cons.injEq, true_and]
          apply List.map_congr_left
          intro k _
          simp only [Function.comp]
          rw [show h.count + 1 + k = h.count + (k + 1) by omega]

/-- Under `Restart`, over any history, exactly the first `maxRestarts` failures restart the node and
every later failure is fatal, however many clean ticks lie between them. -/
theorem restart_exact (m i : Nat) (es : List Event) (h' : Handler) (as : List Action)
    (hlen : failures es < U32)
    (hh : (Handler.new (.restart m i)).history es = some (h', as)) :
    as = restartSpec m (failures es) := by
  have := (restart_history m i es _ _ _ rfl (by simpa [Handler.new] using hlen) hh).2
  rw [this]
  unfold restartSpec
  simp [Handler.new]

/-- After the `k`-th failure, at time `t`, the node may run exactly from `t + initial * 2^(k-1)` on
(saturating), until the next event. -/
theorem restart_backoff (m i k t : Nat) (es : List Event) (h1 h2 : Handler) (as : List Action) (a : Action)
    (hk : failures es = k) (hlen : k + 1 ≤ m) (hm : m < U32)
    (hh : (Handler.new (.restart m i)).history es = some (h1, as))
    (hf : h1.recordFailure t = some (h2, a)) (now : Nat) :
    a = .restartNode ∧ (h2.shouldAllow now = true ↔ t + min (i * min (2 ^ k) (U32 - 1)) durMax ≤ now) := by
  have hc := (restart_history m i es _ _ _ rfl (by simp [Handler.new]; omega) hh).1
  have hp : h1.policy = .restart m i := by
    clear hf hc
    have : ∀ (es : List Event) (h h' : Handler) (as : List Action), h.history es = some (h', as) → h'.policy = h.policy := by
      intro es
      induction es with
      | nil => intro h h' as hh; simp [Handler.history] at hh; rw [hh.1]
      | cons e es ih =>
        intro h h' as hh
        unfold Handler.history at hh
        cases he : h.event e with
        | none => rw [he] at hh; simp at hh
        | some r =>
          obtain ⟨x, y⟩ := r
          rw [he] at hh
          simp only at hh
          cases hx : x.history es with
          | none => rw [hx] at hh; simp at hh
          | some r2 =>
            obtain ⟨x2, y2⟩ := r2
            rw [hx] at hh; simp at hh
            rw [← hh.1, ih _ _ _ hx, event_policy he]
    exact this es _ _ _ hh
  simp only [Handler.new, Nat.zero_add] at hc
  rw [hk] at hc
  unfold Handler.recordFailure at hf
  rw [hp] at hf
  simp only [hc] at hf
  rw [Nat.mod_eq_of_lt (by omega), if_neg (by omega)] at hf
  unfold addInstant at hf
  by_cases hlt : t + backoff i (k + 1) < instLimit
  · rw [if_pos hlt] at hf
    simp only [Option.some.injEq, Prod.mk.injEq] at hf
    rw [← hf.1, ← hf.2]
    refine ⟨rfl, ?_⟩
    unfold Handler.shouldAllow
    simp only [hp, backoff, satPow, Nat.add_sub_cancel, decide_eq_true_eq]
  · rw [if_neg hlt] at hf; simp at hf

/-- A clean tick lifts the backoff or cooldown at once. -/
theorem success_allows (h : Handler) (now : Nat) : (h.recordSuccess).shouldAllow now = true := by
  obtain ⟨p, c, u⟩ := h
  cases p <;> rfl

/-! ### Skip -/

theorem skip_history (m cd : Nat) (hm : m < U32) (es : List Event) :
    ∀ (h h' : Handler) (as : List Action), h.policy = .skip m cd → h.count < max m 1 →
      h.history es = some (h', as) →
      h'.policy = .skip m cd ∧ h'.count = streak (max m 1) h.count es ∧ h'.count < max m 1 ∧
      as = skipSpec (max m 1) h.count es := by
  induction es with
  | nil =>
    intro h h' as hp hc hh
    simp only [Handler.history, Option.some.injEq, Prod.mk.injEq] at hh
    rw [← hh.1, ← hh.2]; exact ⟨hp, rfl, hc, rfl⟩
  | cons e es ih =>
    intro h h' as hp hc hh
    unfold Handler.history at hh
    cases e with
    | ok t =>
      simp only [Handler.event] at hh
      have hrs : h.recordSuccess = { h with count := 0, until_ := none } := by
        unfold Handler.recordSuccess; rw [hp]
      cases hx : (h.recordSuccess).history es with
      | none => rw [hx] at hh; simp at hh
      | some r =>
        obtain ⟨h2, as2⟩ := r
        rw [hx] at hh
        simp only [Option.some.injEq, Prod.mk.injEq, Option.toList_none, List.nil_append] at hh
        have := ih _ _ _ (by rw [hrs]; exact hp) (by rw [hrs]; simp; omega) hx
        rw [hrs] at this
        rw [← hh.1, ← hh.2]
        simpa [streak, skipSpec] using this
    | fail t =>
      have hmod : (h.count + 1) % U32 = h.count + 1 := Nat.mod_eq_of_lt (by omega)
      simp only [Handler.event] at hh
      cases hr : h.recordFailure t with
      | none => rw [hr] at hh; simp at hh
      | some r =>
        obtain ⟨h1, a1⟩ := r
        rw [hr] at hh
        simp only [Option.map_some] at hh
        unfold Handler.recordFailure at hr
        rw [hp] at hr
        simp only [hmod] at hr
        cases hx : h1.history es with
        | none => rw [hx] at hh; simp at hh
        | some r2 =>
          obtain ⟨h2, as2⟩ := r2
          rw [hx] at hh
          simp only [Option.some.injEq, Prod.mk.injEq, Option.toList_some] at hh
          by_cases hge : h.count + 1 ≥ m
          · rw [if_pos hge] at hr
            cases ha : addInstant t cd with
            | none => rw [ha] at hr; simp at hr
            | some u =>
              rw [ha] at hr
              simp at hr
              obtain ⟨e1, e2⟩ := hr
              have := ih _ _ _ (by rw [← e1]) (by rw [← e1]; simp; omega) hx
              rw [← e1] at this
              have hg : h.count + 1 ≥ max m 1 := by omega
              rw [← hh.1, ← hh.2, ← e2]
              simp only [streak, skipSpec, if_pos hg]
              exact ⟨this.1, this.2.1, this.2.2.1, by rw [this.2.2.2]; try rfl⟩
          · rw [if_neg hge] at hr
            simp at hr
            obtain ⟨e1, e2⟩ := hr
            have := ih _ _ _ (by rw [← e1]) (by rw [← e1]; simp; omega) hx
            rw [← e1] at this
            have hg : ¬ h.count + 1 ≥ max m 1 := by omega
            rw [← hh.1, ← hh.2, ← e2]
            simp only [streak, skipSpec, if_neg hg]
            exact ⟨this.1, this.2.1, this.2.2.1, by rw [this.2.2.2]; try rfl⟩

/-- Under `Skip`, over any history, a failure suppresses the node exactly when it completes
`maxFailures` failures in a row (one, if zero is configured) since the last clean tick or the last
suppression; every other failure changes nothing. -/
theorem skip_exact (m cd : Nat) (hm : m < U32) (es : List Event) (h' : Handler) (as : List Action)
    (hh : (Handler.new (.skip m cd)).history es = some (h', as)) :
    as = skipSpec (max m 1) 0 es :=
  (skip_history m cd hm es _ _ _ rfl (by simp [Handler.new]; omega) hh).2.2.2

/-- A suppressing failure at time `t` keeps the node from running exactly until `t + cooldown`. -/
theorem skip_cooldown (m cd t : Nat) (h h' : Handler) (hp : h.policy = .skip m cd)
    (hf : h.recordFailure t = some (h', .skipNode)) (now : Nat) :
    h'.shouldAllow now = true ↔ t + cd ≤ now := by
  unfold Handler.recordFailure at hf
  rw [hp] at hf
  simp only at hf
  split at hf
  · unfold addInstant at hf
    split at hf
    · simp at hf
    · next hu =>
      split at hu
      · simp only [Option.some.injEq] at hu
        simp at hf
        rw [← hf]
        unfold Handler.shouldAllow
        simp [hp, ← hu]
      · simp at hu
  · simp at hf

/-- A failure that does not suppress leaves the node's permission to run as it was. -/
theorem skip_continue (m cd t : Nat) (h h' : Handler) (hp : h.policy = .skip m cd)
    (hf : h.recordFailure t = some (h', .continue_)) (now : Nat) :
    h'.shouldAllow now = h.shouldAllow now := by
  unfold Handler.recordFailure at hf
  rw [hp] at hf
  simp only at hf
  split at hf
  · split at hf <;> simp at hf
  · simp at hf
    rw [← hf]; unfold Handler.shouldAllow; simp [hp]

/-! ### Ignore, Fatal, effects -/

/-- `Ignore` never stops or suppresses, over any history. -/
theorem ignore_never_stops (es : List Event) :
    ∃ as, (Handler.new .ignore).history es = some (Handler.new .ignore, as) ∧
      (∀ a ∈ as, a = .continue_) ∧ as.length = failures es ∧
      ∀ now, (Handler.new .ignore).shouldAllow now = true := by
  induction es with
  | nil => exact ⟨[], rfl, by simp, rfl, fun _ => rfl⟩
  | cons e es ih =>
    obtain ⟨as, h1, h2, h3, h4⟩ := ih
    cases e with
    | ok t =>
      refine ⟨as, ?_, h2, h3, h4⟩
      show (match (Handler.new .ignore).history es with | none => none | some (h'', as) => some (h'', [] ++ as)) = _
      rw [h1]; rfl
    | fail t =>
      refine ⟨.continue_ :: as, ?_, ?_, by simp [failures, h3], h4⟩
      · show (match (Handler.new .ignore).history es with | none => none | some (h'', as) => some (h'', [Action.continue_] ++ as)) = _
        rw [h1]; rfl
      · intro a ha
        rcases List.mem_cons.1 ha with rfl | ha
        · rfl
        · exact h2 a ha

/-- `Fatal`: every failure stops the scheduler. -/
theorem fatal_always_stops (t : Nat) :
    applyAfterPanic (some (Handler.new .fatal)) t = some (some (Handler.new .fatal), .safeAndStop) := rfl

/-- The scheduler stops exactly on a fatal action; before stopping the node is safed; `init` is
called exactly on a restart. -/
theorem effect_exact (h : Handler) (t : Nat) (h' : Handler) (a : Action)
    (hf : h.recordFailure t = some (h', a)) :
    applyAfterPanic (some h) t = some (some h', effectOf a) ∧
    (effectOf a = .safeAndStop ↔ h.policy = .fatal ∨ ∃ m i, h.policy = .restart m i ∧ m < (h.count + 1) % U32) ∧
    (effectOf a = .reinit ↔ ∃ m i, h.policy = .restart m i ∧ (h.count + 1) % U32 ≤ m) := by
  refine ⟨by simp [applyAfterPanic, hf], ?_⟩
  unfold Handler.recordFailure at hf
  cases hp : h.policy with
  | fatal => rw [hp] at hf; simp at hf; rw [← hf.2]; simp [effectOf]
  | ignore => rw [hp] at hf; simp at hf; rw [← hf.2]; simp [effectOf]
  | restart m i =>
    rw [hp] at hf
    simp only at hf
    split at hf
    · next hgt =>
      simp at hf; rw [← hf.2]; simp [effectOf]; omega
    · next hgt =>
      split at hf
      · simp at hf
      · simp at hf; rw [← hf.2]; simp [effectOf]; omega
  | skip m cd =>
    rw [hp] at hf
    simp only at hf
    split at hf
    · split at hf
      · simp at hf
      · simp at hf; rw [← hf.2]; simp [effectOf]
    · simp at hf; rw [← hf.2]; simp [effectOf]

/-- A node without a policy keeps running after a panic. -/
theorem no_policy_continues (t : Nat) : applyAfterPanic none t = some (none, .nothing) := rfl

/-- A fatal error stops the scheduler under every policy; a transient one never does under `Fatal`. -/
theorem severity_overrides (h : Handler) (t : Nat) :
    h.recordFailureSev t .fatal = some (h, .stopScheduler) ∧
    (h.policy = .fatal → h.recordFailureSev t .transient = some (h, .restartNode)) ∧
    (h.policy ≠ .fatal → h.recordFailureSev t .transient = h.recordFailure t) ∧
    h.recordFailureSev t .permanent = h.recordFailure t := by
  refine ⟨rfl, ?_, ?_, rfl⟩
  · intro hp; unfold Handler.recordFailureSev; simp [hp]
  · intro hp; unfold Handler.recordFailureSev
    cases h2 : h.policy <;> simp_all

/-- Resetting restores the initial behaviour. -/
theorem reset_fresh (h : Handler) : h.reset = Handler.new h.policy := rfl

/-! ### Limits -/

/-- The handler itself panics only if the end of the waiting period is beyond the clock's range. -/
theorem failure_panics_iff (h : Handler) (t : Nat) :
    h.recordFailure t = none ↔
      (∃ m i, h.policy = .restart m i ∧ (h.count + 1) % U32 ≤ m ∧
        instLimit ≤ t + backoff i ((h.count + 1) % U32)) ∨
      (∃ m cd, h.policy = .skip m cd ∧ m ≤ (h.count + 1) % U32 ∧ instLimit ≤ t + cd) := by
  unfold Handler.recordFailure
  cases hp : h.policy with
  | fatal => simp
  | ignore => simp
  | restart m i =>
    simp only
    unfold addInstant
    constructor
    · intro hn
      left
      refine ⟨m, i, rfl, ?_⟩
      split at hn
      · simp at hn
      · next h1 =>
        split at hn
        · next h2 =>
          split at h2
          · simp at h2
          · omega
        · simp at hn
    · rintro (⟨m', i', e, h1, h2⟩ | ⟨m', i', e, _⟩)
      · injection e with e1 e2; subst e1; subst e2
        rw [if_neg (by omega), if_neg (by omega)]
      · simp at e
  | skip m cd =>
    simp only
    unfold addInstant
    constructor
    · intro hn
      right
      refine ⟨m, cd, rfl, ?_⟩
      split at hn
      · next h1 =>
        split at hn
        · next h2 =>
          split at h2
          · simp at h2
          · omega
        · simp at hn
      · simp at hn
    · rintro (⟨m', i', e, _⟩ | ⟨m', i', e, h1, h2⟩)
      · simp at e
      · injection e with e1 e2; subst e1; subst e2
        rw [if_pos (by omega), if_neg (by omega)]

/-- Disagreement: a cooldown or backoff meant as "never again" (`Duration::MAX`) panics in the
scheduler thread at the first failure instead of suppressing the node, at any time of day. -/
theorem never_retry_panics (t m : Nat) (hm : m ≤ 1) :
    (Handler.new (.skip m durMax)).recordFailure t = none := by
  rw [failure_panics_iff]
  right
  refine ⟨m, durMax, rfl, ?_, ?_⟩
  · show m ≤ (0 + 1) % U32; omega
  · have : instLimit ≤ durMax := by decide
    omega

/-- The wait stops doubling at 2^32 - 1 times the initial backoff. -/
theorem backoff_cap (i n : Nat) (h : 33 ≤ n) : backoff i n = min (i * (U32 - 1)) durMax := by
  unfold backoff satPow
  have : 2 ^ 32 ≤ 2 ^ (n - 1) := Nat.pow_le_pow_right (by omega) (by omega)
  rw [show min (2 ^ (n - 1)) (U32 - 1) = U32 - 1 from Nat.min_eq_right (by omega)]

/-- Disagreement with "restarted at most `max_restarts` times": with the largest limit the `u32`
counter wraps, so the limit is never reached. -/
theorem largest_limit_never_fatal (h : Handler) (i t : Nat) (hp : h.policy = .restart (U32 - 1) i)
    (h' : Handler) (a : Action) (hf : h.recordFailure t = some (h', a)) : a = .restartNode := by
  unfold Handler.recordFailure at hf
  rw [hp] at hf
  simp only at hf
  rw [if_neg (by have := Nat.mod_lt (h.count + 1) (show 0 < U32 by omega); omega)] at hf
  split at hf
  · simp at hf
  · simp at hf; exact hf.2.symm

/-! ### Non-vacuity -/

/-- Two restarts, with clean ticks between, then fatal. -/
example : ((Handler.new (.restart 2 1000)).history [.fail 0, .ok 1500, .fail 2000, .ok 9000, .ok 9100, .fail 10000]).map (·.2)
    = some [.restartNode, .restartNode, .fatalAfterRestarts] := by decide
/-- Three in a row suppress; a clean tick restarts the count. -/
example : ((Handler.new (.skip 3 500)).history [.fail 0, .fail 10, .ok 20, .fail 30, .fail 40, .fail 50, .fail 600]).map (·.2)
    = some [.continue_, .continue_, .continue_, .continue_, .skipNode, .continue_] := by decide

end Horus.Sched.Failure
