import Verif.Replay.RecProps
import Mathlib.Data.List.Dedup
/-
Moving through a recording with the debugger (C95), and comparing two recordings (C96).
-/
namespace Horus.Replay

/- The specification: a recording is a list of snapshots, the debugger stands on one of them. -/

/-- Tick numbers strictly increase, as they do for a node ticked by the scheduler's own thread. -/
def Inc (l : List Snap) : Prop := l.Pairwise fun a b => a.tick < b.tick

/-- The debugger stands on snapshot `i`. Before the first step the tick it shows may be less than the
first snapshot's. -/
def Replayer.On (x : Replayer) (i : Nat) : Prop :=
  x.idx = i ∧ ∃ s, x.r.snaps[i]? = some s ∧ (x.tick = s.tick ∨ (i = 0 ∧ x.tick ≤ s.tick))

theorem Inc.lt {l : List Snap} (h : Inc l) {i j : Nat} {a b : Snap} (hi : l[i]? = some a) (hj : l[j]? = some b) (hij : i < j) :
    a.tick < b.tick := by
  obtain ⟨h1, e1⟩ := List.getElem?_eq_some_iff.1 hi
  obtain ⟨h2, e2⟩ := List.getElem?_eq_some_iff.1 hj
  rw [← e1, ← e2]
  exact List.pairwise_iff_getElem.1 h i j h1 h2 hij

theorem seekFrom_some (t : Nat) (l : List Snap) (i j k : Nat) (h : seekFrom t l i = some (j, k)) :
    i ≤ j ∧ ∃ s, l[j - i]? = some s ∧ s.tick = k ∧ t ≤ k ∧ ∀ m a, m < j - i → l[m]? = some a → a.tick < t := by
  induction l generalizing i with
  | nil => simp [seekFrom] at h
  | cons s l ih =>
    unfold seekFrom at h
    by_cases hc : t ≤ s.tick
    · rw [if_pos hc] at h
      simp only [Option.some.injEq, Prod.mk.injEq] at h
      obtain ⟨rfl, rfl⟩ := h
      refine ⟨Nat.le_refl _, s, by simp, rfl, hc, ?_⟩
      intro m a hm; omega
    · rw [if_neg hc] at h
      obtain ⟨h1, a, h2, h3, h4, h5⟩ := ih _ h
      have e : j - i = (j - (i + 1)) + 1 := by omega
      refine ⟨by omega, a, by rw [e]; exact h2, h3, h4, ?_⟩
      intro m b hm hb
      cases m with
      | zero => simp at hb; subst hb; omega
      | succ m => exact h5 m b (by omega) (by simpa using hb)

theorem seekFrom_none (t : Nat) (l : List Snap) (i : Nat) (h : seekFrom t l i = none) : ∀ s ∈ l, s.tick < t := by
  induction l generalizing i with
  | nil => intro s hs; cases hs
  | cons a l ih =>
    unfold seekFrom at h
    by_cases hc : t ≤ a.tick
    · rw [if_pos hc] at h; cases h
    · rw [if_neg hc] at h
      intro s hs
      rcases List.mem_cons.1 hs with rfl | hs
      · omega
      · exact ih _ h s hs

/-- C95, seeking: it succeeds exactly when the recording reaches that tick, and then stands on the first
snapshot of that tick or later; otherwise nothing changes. -/
theorem seek_spec (x : Replayer) (t : Nat) :
    ((x.seek t).1 = true ↔ ∃ s ∈ x.r.snaps, t ≤ s.tick) ∧ (x.seek t).2.r = x.r ∧
    ((x.seek t).1 = false → (x.seek t).2 = x) ∧
    ((x.seek t).1 = true → ∃ j s, (x.seek t).2.On j ∧ x.r.snaps[j]? = some s ∧ (x.seek t).2.tick = s.tick ∧ t ≤ s.tick ∧
      ∀ m a, m < j → x.r.snaps[m]? = some a → a.tick < t) := by
  unfold Replayer.seek
  cases h : seekFrom t x.r.snaps 0 with
  | none =>
    refine ⟨⟨fun h => (by cases h), ?_⟩, rfl, fun _ => rfl, fun h => (by cases h)⟩
    rintro ⟨s, hs, hle⟩
    have := seekFrom_none t _ 0 h s hs
    omega
  | some jk =>
    obtain ⟨j, k⟩ := jk
    obtain ⟨-, s, h2, h3, h4, h5⟩ := seekFrom_some t _ 0 j k h
    rw [Nat.sub_zero] at h2 h5
    refine ⟨⟨fun _ => ⟨s, List.mem_of_getElem? h2, by omega⟩, fun _ => rfl⟩, rfl, fun h => (by cases h), fun _ => ?_⟩
    exact ⟨j, s, ⟨rfl, s, h2, Or.inl h3.symm⟩, h2, h3.symm, by omega, h5⟩

/-- Seeking the tick of a snapshot lands on it. -/
theorem seek_exact (x : Replayer) (j : Nat) (s : Snap) (hj : x.r.snaps[j]? = some s) (t : Nat)
    (ht : t ≤ s.tick) (hprev : ∀ m a, m < j → x.r.snaps[m]? = some a → a.tick < t) :
    (x.seek t).1 = true ∧ (x.seek t).2 = { x with idx := j, tick := s.tick } := by
  have hsp := seek_spec x t
  have h1 : (x.seek t).1 = true := hsp.1.2 ⟨s, List.mem_of_getElem? hj, ht⟩
  refine ⟨h1, ?_⟩
  obtain ⟨j', s', hon, hs', htick, hle, hp⟩ := hsp.2.2.2 h1
  have : j' = j := by
    rcases Nat.lt_trichotomy j' j with hlt | heq | hgt
    · have := hprev j' s' hlt hs'; omega
    · exact heq
    · have := hp j s hgt hj; omega
  subst this
  rw [hj] at hs'
  cases hs'
  have hi := hon.1
  have hr := hsp.2.1
  rcases e : (x.seek t).2 with ⟨r', i', t'⟩
  rw [e] at hi hr htick
  simp only at hi hr htick
  subst hi; subst hr; subst htick
  rfl

theorem advance_spec (x : Replayer) (i : Nat) (h : x.On i) :
    (i + 1 < x.r.snaps.length → ∃ s, x.r.snaps[i + 1]? = some s ∧ x.advance = (true, ⟨x.r, i + 1, s.tick⟩)) ∧
    (x.r.snaps.length ≤ i + 1 → x.advance = (false, x)) := by
  obtain ⟨hi, -⟩ := h
  subst hi
  refine ⟨fun hlt => ?_, fun hge => ?_⟩
  · refine ⟨x.r.snaps[x.idx + 1], List.getElem?_eq_getElem hlt, ?_⟩
    unfold Replayer.advance
    rw [if_pos hlt, List.getElem?_eq_getElem hlt]
    rfl
  · unfold Replayer.advance
    rw [if_neg (by omega)]

theorem on_lt {x : Replayer} {i : Nat} (h : x.On i) : i < x.r.snaps.length := by
  obtain ⟨-, s, hs, -⟩ := h
  exact (List.getElem?_eq_some_iff.1 hs).1

theorem not_finished {x : Replayer} {i : Nat} (h : x.On i) : x.finished = false := by
  have := on_lt h
  unfold Replayer.finished
  rw [h.1]
  exact decide_eq_false (by omega)

/-- C95, stepping forward: one snapshot on, or nothing at the end. Breakpoints do not matter. -/
theorem step_forward (d : Dbg) (i : Nat) (h : d.x.On i) :
    (i + 1 < d.x.r.snaps.length → d.stepForward.1 = true ∧ d.stepForward.2.x.On (i + 1)) ∧
    (d.x.r.snaps.length ≤ i + 1 → d.stepForward.1 = false ∧ d.stepForward.2.x = d.x) ∧
    d.stepForward.2.x.r = d.x.r ∧ d.stepForward.2.bps = d.bps ∧ d.stepForward.2.watches = d.watches ∧
    d.stepForward.2.st = .paused ∧ d.stepForward.2.next = d.next := by
  have hf := not_finished h
  have ha := advance_spec d.x i h
  unfold Dbg.stepForward Dbg.stepInternal
  simp only [hf, Bool.false_eq_true, if_false]
  by_cases hlt : i + 1 < d.x.r.snaps.length
  · obtain ⟨s, hs, e⟩ := ha.1 hlt
    rw [e]
    refine ⟨fun _ => ⟨(by first | rfl | trivial), (by first | rfl | trivial), s, hs, Or.inl (by first | rfl | trivial)⟩, fun hge => by omega, (by first | rfl | trivial), (by first | rfl | trivial), (by first | rfl | trivial), (by first | rfl | trivial), (by first | rfl | trivial)⟩
  · have e := ha.2 (by omega)
    rw [e]
    exact ⟨fun h => absurd h hlt, fun _ => ⟨(by first | rfl | trivial), (by first | rfl | trivial)⟩, (by first | rfl | trivial), (by first | rfl | trivial), (by first | rfl | trivial), (by first | rfl | trivial), (by first | rfl | trivial)⟩

theorem takeWhile_inc (l : List Snap) (h : Inc l) (i : Nat) (s : Snap) (hs : l[i]? = some s) (t : Nat) (ht : t = s.tick ∨ (i = 0 ∧ t ≤ s.tick)) :
    l.takeWhile (fun a => decide (a.tick < t)) = l.take i := by
  induction l generalizing i with
  | nil => simp at hs
  | cons a l ih =>
    cases i with
    | zero =>
      simp at hs; subst hs
      rw [List.takeWhile_cons_of_neg (by simp; omega)]
      rfl
    | succ i =>
      have hs' : l[i]? = some s := by simpa using hs
      have hat : a.tick < s.tick := Inc.lt h (i := 0) (j := i + 1) (by simp) hs (by omega)
      have : t = s.tick := by rcases ht with h | h; exact h; omega
      rw [List.takeWhile_cons_of_pos (by simp; omega), ih (List.pairwise_cons.1 h).2 i hs' (Or.inl this)]
      rfl

/-- C95, stepping back: one snapshot back, or nothing at the start. -/
theorem step_backward (d : Dbg) (hinc : Inc d.x.r.snaps) (i : Nat) (h : d.x.On i) :
    (0 < i → d.stepBackward.1 = true ∧ d.stepBackward.2.x.On (i - 1)) ∧
    (i = 0 → d.stepBackward.1 = false ∧ d.stepBackward.2.x = d.x) ∧
    d.stepBackward.2.x.r = d.x.r ∧ d.stepBackward.2.bps = d.bps ∧ d.stepBackward.2.watches = d.watches ∧
    d.stepBackward.2.st = .paused ∧ d.stepBackward.2.next = d.next := by
  obtain ⟨hi, s, hs, ht⟩ := h
  have hp : prevTick d.x.tick d.x.r.snaps = ((d.x.r.snaps.take i).getLast?).map Snap.tick := by
    unfold prevTick
    rw [takeWhile_inc _ hinc i s hs _ ht]
  unfold Dbg.stepBackward
  rw [hp]
  cases i with
  | zero =>
    exact ⟨fun h => absurd h (by omega), fun _ => ⟨rfl, rfl⟩, rfl, rfl, rfl, rfl, rfl⟩
  | succ i =>
    have hlt : i + 1 < d.x.r.snaps.length := (List.getElem?_eq_some_iff.1 hs).1
    have hl : (d.x.r.snaps.take (i + 1)).getLast? = some (d.x.r.snaps[i]) := by
      rw [List.getLast?_eq_getElem?, List.length_take, Nat.min_eq_left (by omega)]
      rw [List.getElem?_take_of_lt (by omega)]
      exact List.getElem?_eq_getElem _
    rw [hl]
    have hij : d.x.r.snaps[i]? = some d.x.r.snaps[i] := List.getElem?_eq_getElem _
    have hex := seek_exact d.x i d.x.r.snaps[i] hij d.x.r.snaps[i].tick (Nat.le_refl _)
      (fun m a hm ha => Inc.lt hinc ha hij hm)
    simp only [Option.map_some]
    refine ⟨fun _ => ⟨(by first | rfl | trivial), ?_⟩, fun h => absurd h (by omega), ?_, (by first | rfl | trivial), (by first | rfl | trivial), (by first | rfl | trivial), (by first | rfl | trivial)⟩
    · rw [hex.2]
      exact ⟨rfl, _, hij, Or.inl rfl⟩
    · rw [hex.2]

/-- Back after forward, and forward after back, return to the same snapshot. -/
theorem forward_back (d : Dbg) (hinc : Inc d.x.r.snaps) (i : Nat) (h : d.x.On i) (hlt : i + 1 < d.x.r.snaps.length) :
    d.stepForward.2.stepBackward.2.x.On i := by
  have hf := step_forward d i h
  have := step_backward d.stepForward.2 (by rw [hf.2.2.1]; exact hinc) (i + 1) (hf.1 hlt).2
  exact (this.1 (by omega)).2

theorem back_forward (d : Dbg) (hinc : Inc d.x.r.snaps) (i : Nat) (h : d.x.On i) (hpos : 0 < i) :
    d.stepBackward.2.stepForward.2.x.On i := by
  have hb := step_backward d hinc i h
  have := step_forward d.stepBackward.2 (i - 1) (hb.1 hpos).2
  have hlt := on_lt h
  have e : i - 1 + 1 = i := by omega
  rw [e] at this
  exact (this.1 (by rw [hb.2.2.1]; exact hlt)).2

/-- What is missing from C95: on a recording of a real-time, compute or async node every snapshot says
tick 0 (`executor_tick_zero`), and stepping back is never possible. -/
theorem no_step_back_zero (d : Dbg) (ht : d.x.tick = 0) : d.stepBackward.1 = false := by
  have : prevTick d.x.tick d.x.r.snaps = none := by
    unfold prevTick
    cases hl : d.x.r.snaps with
    | nil => rfl
    | cons a l =>
      rw [List.takeWhile_cons_of_neg (by rw [ht]; simp)]
      rfl
  unfold Dbg.stepBackward
  rw [this]

/- Running to a breakpoint. -/

/-- Snapshot `j` stops the run: an enabled breakpoint's condition holds there, `before` being the tick
shown one step earlier. -/
def stops (bps : List Bp) (s : Snap) (before : Nat) : Bool := bps.any fun b => b.fires s before

/-- The tick shown one step before snapshot `j` on a run that starts at `i` showing `t`. -/
def shownBefore (l : List Snap) (i t j : Nat) : Nat := if j = i + 1 then t else ((l[j - 1]?).map Snap.tick).getD 0

theorem fires_countHits (s : Snap) (before : Nat) (l : List Bp) (s' : Snap) (b' : Nat) :
    stops (countHits s before l) s' b' = stops l s' b' := by
  unfold stops countHits
  rw [List.any_map]
  congr 1
  funext b
  simp only [Function.comp]
  split <;> rfl

theorem check_spec (d : Dbg) (i : Nat) (s : Snap) (hi : d.x.idx = i) (hs : d.x.r.snaps[i]? = some s) (before : Nat) :
    (d.check before).x = d.x ∧ (d.check before).st = (if stops d.bps s before then .paused else d.st) ∧
    (∀ s' b', stops (d.check before).bps s' b' = stops d.bps s' b') ∧ (d.check before).watches = d.watches ∧
    (d.check before).bps.map (fun b => (b.id, b.cond, b.on)) = d.bps.map (fun b => (b.id, b.cond, b.on)) ∧
    (d.check before).next = d.next ∧
    (stops d.bps s before = true → ∃ b ∈ d.bps, b.fires s before = true ∧ (d.check before).hit = some (b.id, d.x.tick)) := by
  have hc : d.x.cur = some s := by unfold Replayer.cur; rw [hi]; exact hs
  have hm : (countHits s before d.bps).map (fun b => (b.id, b.cond, b.on)) = d.bps.map (fun b => (b.id, b.cond, b.on)) := by
    unfold countHits
    rw [List.map_map]
    apply List.map_congr_left
    intro b _
    simp only [Function.comp]
    split <;> rfl
  have hcheck : d.check before = (match d.bps.find? fun b => b.fires s before with
    | none => { d with bps := countHits s before d.bps }
    | some b => { d with bps := countHits s before d.bps, st := .paused, hit := some (b.id, d.x.tick) }) := by
    unfold Dbg.check
    rw [hc]
    rfl
  rw [hcheck]
  cases hf : d.bps.find? fun b => b.fires s before with
  | none =>
    have hst : stops d.bps s before = false := by
      unfold stops
      rw [List.any_eq_false]
      intro b hb
      have := List.find?_eq_none.1 hf b hb
      exact this
    refine ⟨rfl, by rw [hst]; rfl, fun s' b' => fires_countHits .., rfl, hm, rfl, fun h => ?_⟩
    rw [hst] at h; cases h
  | some b =>
    have hb := List.find?_some hf
    have hmem := List.mem_of_find?_eq_some hf
    have hst : stops d.bps s before = true := by
      unfold stops
      exact List.any_eq_true.2 ⟨b, hmem, hb⟩
    exact ⟨rfl, by rw [hst]; rfl, fun s' b' => fires_countHits .., rfl, hm, rfl, fun _ => ⟨b, hmem, hb, rfl⟩⟩

theorem cont_loop (fuel : Nat) (d : Dbg) (i : Nat) (h : d.x.On i) (hst : d.st = .running) (hfuel : d.x.r.snaps.length - i ≤ fuel) :
    let q := Dbg.contLoop fuel d
    q.x.r = d.x.r ∧ q.watches = d.watches ∧ q.next = d.next ∧
    q.bps.map (fun b => (b.id, b.cond, b.on)) = d.bps.map (fun b => (b.id, b.cond, b.on)) ∧
    ((∃ j s, i < j ∧ d.x.r.snaps[j]? = some s ∧ q.x.On j ∧ q.st = .paused ∧
        stops d.bps s (shownBefore d.x.r.snaps i d.x.tick j) = true ∧
        (∃ b ∈ d.bps, b.on = true ∧ b.cond.holds s (shownBefore d.x.r.snaps i d.x.tick j) = true ∧ q.hit = some (b.id, s.tick)) ∧
        ∀ m a, i < m → m < j → d.x.r.snaps[m]? = some a → stops d.bps a (shownBefore d.x.r.snaps i d.x.tick m) = false) ∨
     (q.x.On (d.x.r.snaps.length - 1) ∧ q.st = .stopped ∧ q.hit = d.hit ∧
        ∀ m a, i < m → d.x.r.snaps[m]? = some a → stops d.bps a (shownBefore d.x.r.snaps i d.x.tick m) = false)) := by
  induction fuel generalizing d i with
  | zero => have := on_lt h; omega
  | succ fuel ih =>
    have hlt := on_lt h
    have hf := not_finished h
    have ha := advance_spec d.x i h
    unfold Dbg.contLoop
    rw [if_pos hst]
    by_cases hn : i + 1 < d.x.r.snaps.length
    · obtain ⟨s, hs, e⟩ := ha.1 hn
      have hstep : d.stepInternal true = (true, Dbg.check { d with x := ⟨d.x.r, i + 1, s.tick⟩ } d.x.tick) := by
        unfold Dbg.stepInternal
        rw [hf, e]
        rfl
      rw [hstep]
      simp only [if_true]
      obtain ⟨c1, c2, c3, c4, c5, c6, c7⟩ := check_spec { d with x := ⟨d.x.r, i + 1, s.tick⟩ } (i + 1) s rfl hs d.x.tick
      have hb1 : shownBefore d.x.r.snaps i d.x.tick (i + 1) = d.x.tick := by unfold shownBefore; rw [if_pos rfl]
      generalize hd' : Dbg.check { d with x := ⟨d.x.r, i + 1, s.tick⟩ } d.x.tick = d' at c1 c2 c3 c4 c5 c6 c7
      have hon' : d'.x.On (i + 1) := by
        rw [c1]; exact ⟨rfl, s, hs, Or.inl rfl⟩
      have hr' : d'.x.r = d.x.r := by rw [c1]
      have ht' : d'.x.tick = s.tick := by rw [c1]
      by_cases hstop : stops d.bps s d.x.tick = true
      · rw [if_pos hstop] at c2
        have hq : Dbg.contLoop fuel d' = d' := by
          cases fuel with
          | zero => rfl
          | succ f => rw [Dbg.contLoop, if_neg (by rw [c2]; decide)]
        rw [hq]
        refine ⟨hr', c4, c6, c5, Or.inl ⟨i + 1, s, by omega, hs, hon', c2, by rw [hb1]; exact hstop, ?_, ?_⟩⟩
        · obtain ⟨b, hb, hfi, hhit⟩ := c7 hstop
          unfold Bp.fires at hfi
          rw [Bool.and_eq_true] at hfi
          exact ⟨b, hb, hfi.1, by rw [hb1]; exact hfi.2, hhit⟩
        · intro m a h1 h2; omega
      · have hfalse : stops d.bps s d.x.tick = false := by simpa using hstop
        rw [if_neg hstop] at c2
        have c2 : d'.st = .running := c2.trans hst
        have hih := ih d' (i + 1) hon' c2 (by rw [hr']; omega)
        simp only at hih ⊢
        obtain ⟨q1, q2, q3, q4, q5⟩ := hih
        rw [hr', ht'] at q5
        have hbef : ∀ m, i + 1 < m → shownBefore d.x.r.snaps (i + 1) s.tick m = shownBefore d.x.r.snaps i d.x.tick m := by
          intro m hm
          unfold shownBefore
          by_cases hm2 : m = i + 1 + 1
          · subst hm2
            rw [if_pos rfl, if_neg (by omega)]
            have : d.x.r.snaps[i + 1 + 1 - 1]? = some s := hs
            rw [this]; rfl
          · rw [if_neg hm2, if_neg (by omega)]
        refine ⟨q1.trans hr', q2.trans c4, q3.trans c6, q4.trans c5, ?_⟩
        rcases q5 with ⟨j, s', hj, hs', hon, hpau, hsto, ⟨b, hb, hon2, hho, hhit⟩, hno⟩ | ⟨hon, hsto, hh, hno⟩
        · left
          refine ⟨j, s', by omega, hs', hon, hpau, ?_, ?_, ?_⟩
          · rw [c3, hbef j hj] at hsto; exact hsto
          · rw [hbef j hj] at hho
            have hmem : (b.id, b.cond, b.on) ∈ d.bps.map (fun b => (b.id, b.cond, b.on)) := by
              rw [← c5]
              exact List.mem_map.2 ⟨b, hb, rfl⟩
            obtain ⟨b0, hb0, he⟩ := List.mem_map.1 hmem
            simp only [Prod.mk.injEq] at he
            exact ⟨b0, hb0, by rw [he.2.2]; exact hon2, by rw [he.2.1]; exact hho, by rw [he.1]; exact hhit⟩
          · intro m a h1 h2 hm
            by_cases hm1 : m = i + 1
            · subst hm1
              rw [hs] at hm; cases hm
              rw [hb1]; exact hfalse
            · have := hno m a (by omega) h2 hm
              rw [c3, hbef m (by omega)] at this
              exact this
        · right
          refine ⟨hon, hsto, ?_, ?_⟩
          · rw [hh, ← hd']
            have : ∀ (e : Dbg) (b : Nat), (∃ s, e.x.cur = some s ∧ stops e.bps s b = false) → (e.check b).hit = e.hit := by
              intro e b ⟨s, hc, hst⟩
              unfold Dbg.check
              rw [hc]
              have : e.bps.find? (fun x => x.fires s b) = none := by
                rw [List.find?_eq_none]
                intro x hx
                unfold stops at hst
                exact List.any_eq_false.1 hst x hx
              simp only [this]
            exact this { d with x := ⟨d.x.r, i + 1, s.tick⟩ } d.x.tick ⟨s, hs, hfalse⟩
          · intro m a h1 hm
            by_cases hm1 : m = i + 1
            · subst hm1
              rw [hs] at hm; cases hm
              rw [hb1]; exact hfalse
            · have := hno m a (by omega) hm
              rw [c3, hbef m (by omega)] at this
              exact this
    · have e := ha.2 (by omega)
      have hstep : d.stepInternal true = (false, { d with st := .stopped }) := by
        unfold Dbg.stepInternal
        rw [hf, e]
        rfl
      rw [hstep]
      simp only [Bool.false_eq_true, if_false]
      have hi : d.x.r.snaps.length - 1 = i := by omega
      refine ⟨(by first | rfl | trivial), (by first | rfl | trivial), (by first | rfl | trivial), (by first | rfl | trivial), Or.inr ⟨by rw [hi]; exact h, (by first | rfl | trivial), (by first | rfl | trivial), ?_⟩⟩
      intro m a h1 hm
      have := (List.getElem?_eq_some_iff.1 hm).1
      omega

/-- C95, running: `continue` stops on the first later snapshot where an enabled breakpoint's condition
holds, and reports that breakpoint; if there is none it stands on the last snapshot and says it stopped.
Breakpoints, watches and the recording are as before. -/
theorem continue_spec (d : Dbg) (i : Nat) (h : d.x.On i) :
    d.cont.x.r = d.x.r ∧ d.cont.watches = d.watches ∧ d.cont.next = d.next ∧
    d.cont.bps.map (fun b => (b.id, b.cond, b.on)) = d.bps.map (fun b => (b.id, b.cond, b.on)) ∧
    ((∃ j s, i < j ∧ d.x.r.snaps[j]? = some s ∧ d.cont.x.On j ∧ d.cont.st = .paused ∧
        (∃ b ∈ d.bps, b.on = true ∧ b.cond.holds s (shownBefore d.x.r.snaps i d.x.tick j) = true ∧ d.cont.hit = some (b.id, s.tick)) ∧
        ∀ m a, i < m → m < j → d.x.r.snaps[m]? = some a →
          ∀ b ∈ d.bps, b.on = true → b.cond.holds a (shownBefore d.x.r.snaps i d.x.tick m) = false) ∨
     (d.cont.x.On (d.x.r.snaps.length - 1) ∧ d.cont.st = .stopped ∧
        ∀ m a, i < m → d.x.r.snaps[m]? = some a →
          ∀ b ∈ d.bps, b.on = true → b.cond.holds a (shownBefore d.x.r.snaps i d.x.tick m) = false)) := by
  have hno : ∀ (a : Snap) (t : Nat), stops d.bps a t = false → ∀ b ∈ d.bps, b.on = true → b.cond.holds a t = false := by
    intro a t hs b hb hon
    have := List.any_eq_false.1 hs b hb
    unfold Bp.fires at this
    rw [hon] at this
    simpa using this
  have hmain := cont_loop (d.x.r.snaps.length + 1) { d with st := .running } i h rfl
    (show d.x.r.snaps.length - i ≤ d.x.r.snaps.length + 1 by omega)
  obtain ⟨q1, q2, q3, q4, q5⟩ := hmain
  refine ⟨q1, q2, q3, q4, ?_⟩
  rcases q5 with ⟨j, s, hj, hs, hon, hp, -, hb, hn⟩ | ⟨hon, hp, -, hn⟩
  · exact Or.inl ⟨j, s, hj, hs, hon, hp, hb, fun m a h1 h2 h3 => hno a _ (hn m a h1 h2 h3)⟩
  · exact Or.inr ⟨hon, hp, fun m a h1 h3 => hno a _ (hn m a h1 h3)⟩

/-- What is missing from C95: "after N ticks" is measured from one step earlier, so on a recording whose
ticks follow one another without gaps it never stops a run for N ≥ 2. -/
theorem after_ticks_never (d : Dbg) (i n : Nat) (h : d.x.On i) (hn : 2 ≤ n) (hall : ∀ b ∈ d.bps, b.cond = .afterTicks n)
    (hgap : ∀ m a b, d.x.r.snaps[m]? = some a → d.x.r.snaps[m + 1]? = some b → b.tick ≤ a.tick + 1)
    (hat : ∀ s, d.x.r.snaps[i]? = some s → d.x.tick = s.tick) :
    d.cont.st = .stopped ∧ d.cont.x.On (d.x.r.snaps.length - 1) := by
  obtain ⟨-, -, -, -, h5⟩ := continue_spec d i h
  rcases h5 with ⟨j, s, hj, hs, -, -, ⟨b, hb, -, hho, -⟩, -⟩ | ⟨hon, hst, -⟩
  · exfalso
    rw [hall b hb] at hho
    have hho : shownBefore d.x.r.snaps i d.x.tick j + n ≤ s.tick := of_decide_eq_true hho
    have hjl := (List.getElem?_eq_some_iff.1 hs).1
    obtain ⟨p, hp⟩ : ∃ p, d.x.r.snaps[j - 1]? = some p := ⟨_, List.getElem?_eq_getElem (by omega)⟩
    have hg := hgap (j - 1) p s hp (by rw [show j - 1 + 1 = j by omega]; exact hs)
    unfold shownBefore at hho
    by_cases hj1 : j = i + 1
    · rw [if_pos hj1] at hho
      have e : j - 1 = i := by omega
      have := hat p (by rw [← e]; exact hp)
      omega
    · rw [if_neg hj1, hp] at hho
      simp only [Option.map_some, Option.getD_some] at hho
      omega
  · exact ⟨hst, hon⟩

/- Any session with the debugger. -/

/-- What a user does in the debugger. -/
inductive DOp
  | addBp (c : Cond) | removeBp (id : Nat) | enable (id : Nat) (on : Bool) | watch (w : Watch)
  | fwd | back | seek (t : Nat) | reset | cont
deriving DecidableEq, Repr

/-- record_replay.rs:1556-1792: the operation of each command (`watch`: 1608-1612 `add_watch`). -/
def Dbg.step (d : Dbg) : DOp → Dbg
  | .addBp c => (d.addBp c).2
  | .removeBp id => d.removeBp id
  | .enable id on => d.enableBp id on
  | .watch w => { d with watches := d.watches ++ [w] }
  | .fwd => d.stepForward.2
  | .back => d.stepBackward.2
  | .seek t => (d.seek t).2
  | .reset => d.reset
  | .cont => d.cont

/-- A whole debugging session: the calls of `ReplayDebugger` (record_replay.rs:1507-1884) in order. -/
def Dbg.run (d : Dbg) (ops : List DOp) : Dbg := ops.foldl Dbg.step d

/-- Breakpoint numbers: no two alike, all below the next one. -/
def Dbg.Ids (d : Dbg) : Prop := (d.bps.map Bp.id).Nodup ∧ ∀ b ∈ d.bps, b.id < d.next

theorem setOn_ids (id : Nat) (on : Bool) (l : List Bp) : (setOn id on l).map Bp.id = l.map Bp.id := by
  induction l with
  | nil => rfl
  | cons b l ih =>
    unfold setOn
    split
    · rfl
    · rw [List.map_cons, ih]; rfl

theorem Dbg.Ids.of_map {d d' : Dbg} (h : d.Ids) (hb : d'.bps.map Bp.id = d.bps.map Bp.id) (hn : d'.next = d.next) : d'.Ids := by
  refine ⟨by rw [hb]; exact h.1, ?_⟩
  intro b hm
  have : b.id ∈ d.bps.map Bp.id := by rw [← hb]; exact List.mem_map.2 ⟨b, hm, rfl⟩
  obtain ⟨b0, hb0, he⟩ := List.mem_map.1 this
  rw [hn, ← he]
  exact h.2 b0 hb0

/-- The recording is the one that was opened, its ends are right, and the debugger stands somewhere in
it. -/
structure Dbg.Good (d : Dbg) (r : Rec) : Prop where
  same : d.x.r = r
  on : ∃ i, d.x.On i
  ids : d.Ids

theorem good_step (d : Dbg) (r : Rec) (hinc : Inc r.snaps) (hends : r.Ends) (h : d.Good r) (op : DOp) : (d.step op).Good r := by
  obtain ⟨hr, ⟨i, hi⟩, hids⟩ := h
  have hincd : Inc d.x.r.snaps := by rw [hr]; exact hinc
  cases op with
  | addBp c =>
    refine ⟨hr, ⟨i, hi⟩, ?_, ?_⟩
    · show ((d.bps ++ [_]).map Bp.id).Nodup
      rw [List.map_append, List.nodup_append]
      refine ⟨hids.1, by simp, ?_⟩
      intro a ha b hb
      simp at hb
      obtain ⟨b0, hb0, rfl⟩ := List.mem_map.1 ha
      have := hids.2 b0 hb0
      omega
    · intro b hb
      rcases List.mem_append.1 hb with hb | hb
      · have := hids.2 b hb
        show b.id < d.next + 1
        omega
      · simp at hb; subst hb
        show d.next < d.next + 1
        omega
  | removeBp id =>
    refine ⟨hr, ⟨i, hi⟩, ?_, ?_⟩
    · exact List.Nodup.sublist (List.Sublist.map _ List.eraseP_sublist) hids.1
    · intro b hb
      exact hids.2 b (List.mem_of_mem_eraseP hb)
  | enable id on => exact ⟨hr, ⟨i, hi⟩, hids.of_map (setOn_ids _ _ _) rfl⟩
  | watch w => exact ⟨hr, ⟨i, hi⟩, hids.of_map rfl rfl⟩
  | fwd =>
    have := step_forward d i hi
    refine ⟨this.2.2.1.trans hr, ?_, hids.of_map (by show d.stepForward.2.bps.map Bp.id = _; rw [this.2.2.2.1]) this.2.2.2.2.2.2⟩
    by_cases hn : i + 1 < d.x.r.snaps.length
    · exact ⟨_, (this.1 hn).2⟩
    · refine ⟨i, ?_⟩
      show d.stepForward.2.x.On i
      rw [(this.2.1 (by omega)).2]; exact hi
  | back =>
    have := step_backward d hincd i hi
    refine ⟨this.2.2.1.trans hr, ?_, hids.of_map (by show d.stepBackward.2.bps.map Bp.id = _; rw [this.2.2.2.1]) this.2.2.2.2.2.2⟩
    by_cases hn : 0 < i
    · exact ⟨_, (this.1 hn).2⟩
    · refine ⟨i, ?_⟩
      show d.stepBackward.2.x.On i
      rw [(this.2.1 (by omega)).2]; exact hi
  | seek t =>
    have := seek_spec d.x t
    refine ⟨this.2.1.trans hr, ?_, hids.of_map rfl rfl⟩
    show ∃ i, (d.x.seek t).2.On i
    cases hq : (d.x.seek t).1 with
    | false => rw [this.2.2.1 hq]; exact ⟨i, hi⟩
    | true => obtain ⟨j, s, hon, _⟩ := this.2.2.2 hq; exact ⟨j, hon⟩
  | reset =>
    refine ⟨hr, ⟨0, rfl, ?_⟩, hids.of_map rfl rfl⟩
    have hlt := on_lt hi
    have h0 : d.x.r.snaps[0]? = some d.x.r.snaps[0] := List.getElem?_eq_getElem (by omega)
    refine ⟨_, h0, Or.inl ?_⟩
    show d.x.r.first = _
    have := hends.1
    rw [← hr, List.head?_eq_getElem?, h0] at this
    exact this
  | cont =>
    obtain ⟨q1, -, q3, q4, q5⟩ := continue_spec d i hi
    refine ⟨q1.trans hr, ?_, hids.of_map ?_ q3⟩
    · rcases q5 with ⟨j, s, -, -, hon, -⟩ | ⟨hon, -⟩
      · exact ⟨_, hon⟩
      · exact ⟨_, hon⟩
    · have := congrArg (List.map Prod.fst) q4
      rw [List.map_map, List.map_map] at this
      exact this

/-- C95, any session: whatever the user does, the debugger stands on a snapshot of the recording it was
opened on, and no two breakpoints share a number. -/
theorem session_good (r : Rec) (hne : r.snaps ≠ []) (hinc : Inc r.snaps) (hends : r.Ends) (ops : List DOp) :
    ((Dbg.new (Replayer.new r)).run ops).Good r := by
  have h0 : (Dbg.new (Replayer.new r)).Good r := by
    refine ⟨rfl, ⟨0, rfl, ?_⟩, List.nodup_nil, fun b hb => by cases hb⟩
    cases hs : r.snaps with
    | nil => exact absurd hs hne
    | cons a l => exact ⟨a, by show r.snaps[0]? = _; rw [hs]; rfl, Or.inr ⟨rfl, Nat.zero_le _⟩⟩
  generalize Dbg.new (Replayer.new r) = d at h0
  induction ops generalizing d with
  | nil => exact h0
  | cons op ops ih => exact ih (d.step op) (good_step d r hinc hends h0 op)

theorem restore_spec (l : List Bp) (d : Dbg) :
    (restoreBps d l).bps = d.bps ++ l ∧ (restoreBps d l).watches = d.watches ∧ (restoreBps d l).x = d.x ∧
    d.next ≤ (restoreBps d l).next ∧ ∀ b ∈ l, b.id < (restoreBps d l).next := by
  induction l generalizing d with
  | nil => exact ⟨by simp [restoreBps], rfl, rfl, Nat.le_refl _, fun b hb => by cases hb⟩
  | cons b l ih =>
    have := ih { d with bps := d.bps ++ [b], next := if d.next ≤ b.id then b.id + 1 else d.next }
    obtain ⟨h1, h2, h3, h4, h5⟩ := this
    have hn : d.next ≤ (if d.next ≤ b.id then b.id + 1 else d.next) ∧ b.id < (if d.next ≤ b.id then b.id + 1 else d.next) := by
      split <;> omega
    refine ⟨by rw [restoreBps, List.foldl_cons]; exact h1.trans (by simp), h2, h3, Nat.le_trans hn.1 h4, ?_⟩
    intro c hc
    rcases List.mem_cons.1 hc with rfl | hc
    · exact Nat.lt_of_lt_of_le hn.2 h4
    · exact h5 c hc

/-- C95, saving and reopening a session: the debugger stands on the same snapshot, with the same
breakpoints and watches, and new breakpoints get new numbers. -/
theorem session_restored (d : Dbg) (r : Rec) (hinc : Inc r.snaps) (i : Nat) (hr : d.x.r = r) (hon : d.x.On i) (hids : d.Ids) :
    (d.save.open r).x.On i ∧ (d.save.open r).x.r = r ∧ (d.save.open r).bps = d.bps ∧ (d.save.open r).watches = d.watches ∧
    (d.save.open r).Ids := by
  obtain ⟨h1, h2, h3, h4, h5⟩ := restore_spec d.bps (Dbg.new (Replayer.new r))
  obtain ⟨hi, s, hs, ht⟩ := hon
  rw [hr] at hs
  have hx : (d.save.open r).x = ((Replayer.new r).seek d.x.tick).2 := by
    unfold Session.open Dbg.seek Dbg.save
    simp only [h3]
    rfl
  have hsk := seek_exact (Replayer.new r) i s hs d.x.tick (by omega) (by
    intro m a hm ha
    have hlt : a.tick < s.tick := Inc.lt (l := r.snaps) hinc ha hs hm
    rcases ht with ht | ht <;> omega)
  refine ⟨?_, ?_, ?_, ?_, ?_, ?_⟩
  · rw [hx, hsk.2]
    exact ⟨rfl, s, hs, Or.inl rfl⟩
  · rw [hx, hsk.2]; rfl
  · exact h1
  · show (restoreBps (Dbg.new (Replayer.new r)) d.bps).watches ++ d.watches = d.watches
    rw [h2]; rfl
  · show ((restoreBps (Dbg.new (Replayer.new r)) d.bps).bps.map Bp.id).Nodup
    rw [h1]
    exact hids.1
  · show ∀ b ∈ (restoreBps (Dbg.new (Replayer.new r)) d.bps).bps, b.id < _
    intro b hb
    rw [h1] at hb
    exact h5 b hb

/-- A recording with three ticks, for the examples. -/
def three : Rec :=
  ⟨2, [97], [110], [115], 7, some 9, 4, 8,
    [⟨4, 1, [], [([2], [1])], none, 0, none, false⟩, ⟨5, 2, [], [([2], [2])], none, 0, none, false⟩, ⟨8, 3, [], [([2], [3])], none, 0, none, false⟩],
    none, []⟩

/-- Non-vacuity: a breakpoint on the output value 2 stops on the second snapshot; a step back, saving
and reopening keep the place. -/
example : Inc three.snaps ∧ three.Ends ∧ three.snaps ≠ [] ∧
    (((Dbg.new (Replayer.new three)).run [.addBp (.outMatches [2] [2]), .cont]).x.idx = 1) ∧
    (((Dbg.new (Replayer.new three)).run [.addBp (.outMatches [2] [2]), .cont]).hit = some (1, 5)) ∧
    (((Dbg.new (Replayer.new three)).run [.fwd, .fwd, .back]).x.idx = 1) ∧
    (((Dbg.new (Replayer.new three)).run [.addBp .onError, .fwd, .fwd]).save.open three).x.idx = 2 ∧
    (((Dbg.new (Replayer.new three)).run [.addBp .onError, .fwd, .fwd]).save.open three).next = 2 := by
  refine ⟨?_, ⟨rfl, rfl⟩, by decide, by decide, by decide, by decide, by decide, by decide⟩
  unfold Inc
  decide

/- Comparing two recordings (C96). -/

/-- The recording has a snapshot of tick `t` with these outputs. -/
def Rec.HasTick (r : Rec) (t : Nat) : Prop := ∃ s ∈ r.snaps, s.tick = t

/-- What the node had on topic `k` at tick `t`. -/
def Rec.Out (r : Rec) (t : Nat) (k v : Bytes) : Prop := ∃ s ∈ r.snaps, s.tick = t ∧ Map.get s.outs k = some v

/-- Output topics of a snapshot are distinct (they are a map). -/
def Rec.OutsOk (r : Rec) : Prop := ∀ s ∈ r.snaps, Map.Ok s.outs

/-- Tick `t` lies in what both recordings span. -/
def Both (a b : Rec) (t : Nat) : Prop := a.first ≤ t ∧ b.first ≤ t ∧ t ≤ a.last ∧ t ≤ b.last

theorem byTick_some {l : List Snap} {t : Nat} {s : Snap} (h : byTick l t = some s) : s ∈ l ∧ s.tick = t := by
  unfold byTick at h
  have h1 := List.mem_of_find?_eq_some h
  have h2 := List.find?_some h
  exact ⟨by simpa using h1, by simpa using h2⟩

theorem byTick_none {l : List Snap} {t : Nat} (h : byTick l t = none) : ∀ s ∈ l, s.tick ≠ t := by
  intro s hs
  unfold byTick at h
  have := List.find?_eq_none.1 h s (by simpa using hs)
  simpa using this

theorem Inc.inj {l : List Snap} (h : Inc l) {a b : Snap} (ha : a ∈ l) (hb : b ∈ l) (e : a.tick = b.tick) : a = b := by
  obtain ⟨i, hi⟩ := List.mem_iff_getElem?.1 ha
  obtain ⟨j, hj⟩ := List.mem_iff_getElem?.1 hb
  rcases Nat.lt_trichotomy i j with hlt | heq | hgt
  · have := h.lt hi hj hlt; omega
  · subst heq; rw [hi] at hj; exact Option.some.inj hj
  · have := h.lt hj hi hgt; omega

theorem byTick_mem {l : List Snap} (h : Inc l) {s : Snap} (hs : s ∈ l) : byTick l s.tick = some s := by
  cases hb : byTick l s.tick with
  | none => exact absurd rfl (byTick_none hb s hs)
  | some s' =>
    have := byTick_some hb
    rw [Inc.inj h this.1 hs this.2]

theorem byTick_eq_none {l : List Snap} {t : Nat} (h : ¬ ∃ s ∈ l, s.tick = t) : byTick l t = none := by
  cases hb : byTick l t with
  | none => rfl
  | some s => exact absurd ⟨s, byTick_some hb⟩ h

theorem mem_ticks (a b : Rec) (t : Nat) : t ∈ diffTicks a b ↔ (a.HasTick t ∨ b.HasTick t) ∧ Both a b t := by
  unfold diffTicks Rec.HasTick Both
  rw [List.mem_dedup, List.mem_filter, List.mem_append, List.mem_map, List.mem_map, decide_eq_true_eq]
  constructor
  · rintro ⟨h1, h2⟩
    exact ⟨h1, by omega, by omega, by omega, by omega⟩
  · rintro ⟨h1, h2⟩
    exact ⟨h1, by omega, by omega⟩

theorem mem_diff (a b : Rec) (x : Diff) : x ∈ diff a b ↔ ∃ t ∈ diffTicks a b, x ∈ diffTick a b t := by
  unfold diff
  rw [List.mem_flatMap]

theorem mem_diffSnap (t : Nat) (a b : Snap) (ha : Map.Ok a.outs) (hb : Map.Ok b.outs) (x : Diff) :
    x ∈ diffSnap t a b ↔
      (∃ k v w, x = .output t k ∧ Map.get a.outs k = some v ∧ Map.get b.outs k = some w ∧ v ≠ w) ∨
      (∃ k v, x = .missingOutput t k 1 ∧ Map.get a.outs k = some v ∧ Map.get b.outs k = none) ∨
      (∃ k v, x = .missingOutput t k 2 ∧ Map.get a.outs k = none ∧ Map.get b.outs k = some v) := by
  unfold diffSnap
  rw [List.mem_append, List.mem_filterMap, List.mem_filterMap]
  constructor
  · rintro (⟨⟨k, v⟩, hkv, he⟩ | ⟨⟨k, v⟩, hkv, he⟩)
    · have hg := Map.get_of_mem ha hkv
      cases hq : Map.get b.outs k with
      | none =>
        simp only [hq] at he
        cases he
        exact Or.inr (Or.inl ⟨k, v, rfl, hg, hq⟩)
      | some w =>
        simp only [hq] at he
        by_cases hvw : v = w
        · rw [if_neg (by simpa using hvw)] at he; cases he
        · rw [if_pos hvw] at he; cases he
          exact Or.inl ⟨k, v, w, rfl, hg, hq, hvw⟩
    · have hg := Map.get_of_mem hb hkv
      simp only at he
      by_cases hh : Map.has a.outs k = true
      · rw [if_pos hh] at he; cases he
      · rw [if_neg hh] at he; cases he
        refine Or.inr (Or.inr ⟨k, v, rfl, ?_, hg⟩)
        unfold Map.has at hh
        cases hq : Map.get a.outs k with
        | none => rfl
        | some w => rw [hq] at hh; exact absurd rfl hh
  · rintro (⟨k, v, w, rfl, h1, h2, h3⟩ | ⟨k, v, rfl, h1, h2⟩ | ⟨k, v, rfl, h1, h2⟩)
    · left
      refine ⟨(k, v), Map.mem_of_get h1, ?_⟩
      simp only [h2]
      rw [if_pos h3]
    · left
      refine ⟨(k, v), Map.mem_of_get h1, ?_⟩
      simp only [h2]
    · right
      refine ⟨(k, v), Map.mem_of_get h2, ?_⟩
      unfold Map.has
      simp only [h1]
      rfl

theorem out_iff {r : Rec} (h : Inc r.snaps) {s : Snap} (hs : s ∈ r.snaps) (k v : Bytes) :
    r.Out s.tick k v ↔ Map.get s.outs k = some v := by
  constructor
  · rintro ⟨s', hs', ht, hg⟩
    rw [Inc.inj h hs' hs ht] at hg
    exact hg
  · intro hg; exact ⟨s, hs, rfl, hg⟩

theorem Rec.Out.hasTick {r : Rec} {t : Nat} {k v : Bytes} (h : r.Out t k v) : r.HasTick t := by
  obtain ⟨s, hs, ht, -⟩ := h; exact ⟨s, hs, ht⟩

/-- C96. What each reported difference means, over the ticks both recordings span. A missing output
names the recording that has it, a missing tick names the recording that lacks it. -/
theorem diff_spec (a b : Rec) (ha : Inc a.snaps) (hb : Inc b.snaps) (hao : a.OutsOk) (hbo : b.OutsOk) (t : Nat) (k : Bytes) (n : Nat) :
    (.output t k ∈ diff a b ↔ Both a b t ∧ ∃ v w, a.Out t k v ∧ b.Out t k w ∧ v ≠ w) ∧
    (.missingOutput t k n ∈ diff a b ↔ Both a b t ∧ a.HasTick t ∧ b.HasTick t ∧
      ((n = 1 ∧ (∃ v, a.Out t k v) ∧ ∀ v, ¬ b.Out t k v) ∨ (n = 2 ∧ (∃ v, b.Out t k v) ∧ ∀ v, ¬ a.Out t k v))) ∧
    (.missingTick t n ∈ diff a b ↔ Both a b t ∧ ((n = 2 ∧ a.HasTick t ∧ ¬ b.HasTick t) ∨ (n = 1 ∧ b.HasTick t ∧ ¬ a.HasTick t))) := by
  -- a difference at tick `t` comes from that tick
  have key : ∀ x : Diff, (∀ t', x ∈ diffTick a b t' → t' = t) → (x ∈ diff a b ↔ Both a b t ∧ x ∈ diffTick a b t) := by
    intro x hx
    rw [mem_diff]
    constructor
    · rintro ⟨t', ht', hm⟩
      have := hx t' hm
      subst this
      exact ⟨((mem_ticks a b t').1 ht').2, hm⟩
    · rintro ⟨hB, hm⟩
      refine ⟨t, (mem_ticks a b t).2 ⟨?_, hB⟩, hm⟩
      unfold diffTick at hm
      cases h1 : byTick a.snaps t with
      | some s => exact Or.inl ⟨s, byTick_some h1⟩
      | none =>
        cases h2 : byTick b.snaps t with
        | some s => exact Or.inr ⟨s, byTick_some h2⟩
        | none => rw [h1, h2] at hm; cases hm
  have tickOf : ∀ (t' : Nat) (x : Diff), x ∈ diffTick a b t' → (∀ u k, x = .output u k → t' = u) ∧
      (∀ u k n, x = .missingOutput u k n → t' = u) ∧ (∀ u n, x = .missingTick u n → t' = u) := by
    intro t' x hm
    unfold diffTick at hm
    cases h1 : byTick a.snaps t' with
    | some s1 =>
      cases h2 : byTick b.snaps t' with
      | some s2 =>
        rw [h1, h2] at hm
        have := (mem_diffSnap t' s1 s2 (hao _ (byTick_some h1).1) (hbo _ (byTick_some h2).1) x).1 hm
        refine ⟨fun u k e => ?_, fun u k n e => ?_, fun u n e => ?_⟩
        all_goals
          subst e
          rcases this with ⟨_, _, _, e, _⟩ | ⟨_, _, e, _⟩ | ⟨_, _, e, _⟩ <;> cases e <;> rfl
      | none =>
        rw [h1, h2] at hm
        simp only [List.mem_singleton] at hm
        subst hm
        refine ⟨fun u k e => (by cases e), fun u k n e => (by cases e), fun u n e => (by cases e; rfl)⟩
    | none =>
      cases h2 : byTick b.snaps t' with
      | some s2 =>
        rw [h1, h2] at hm
        simp only [List.mem_singleton] at hm
        subst hm
        refine ⟨fun u k e => (by cases e), fun u k n e => (by cases e), fun u n e => (by cases e; rfl)⟩
      | none => rw [h1, h2] at hm; cases hm
  rw [key (.output t k) (fun t' h => (tickOf t' _ h).1 t k rfl), key (.missingOutput t k n) (fun t' h => (tickOf t' _ h).2.1 t k n rfl),
    key (.missingTick t n) (fun t' h => (tickOf t' _ h).2.2 t n rfl)]
  by_cases hA : a.HasTick t
  · obtain ⟨s1, hs1, rfl⟩ := hA
    have hA : a.HasTick s1.tick := ⟨s1, hs1, rfl⟩
    by_cases hB : b.HasTick s1.tick
    · obtain ⟨s2, hs2, ht2⟩ := hB
      have hB : b.HasTick s1.tick := ⟨s2, hs2, ht2⟩
      have hd : diffTick a b s1.tick = diffSnap s1.tick s1 s2 := by
        unfold diffTick
        rw [byTick_mem ha hs1]
        have := byTick_mem hb hs2
        rw [ht2] at this
        rw [this]
      have o1 := out_iff ha hs1 k
      have o2 := out_iff hb hs2 k
      rw [ht2] at o2
      have n1 : ∀ o : Option Bytes, (∀ v, ¬ o = some v) ↔ o = none := by
        intro o; cases o <;> simp
      rw [hd]
      simp only [mem_diffSnap _ s1 s2 (hao _ hs1) (hbo _ hs2), o1, o2, n1, hA, hB, true_and, not_true_eq_false, and_false, or_false]
      refine ⟨?_, ?_, ?_⟩
      · constructor
        · rintro ⟨h, ⟨k', v, w, e, h1, h2, h3⟩ | ⟨k', v, e, _⟩ | ⟨k', v, e, _⟩⟩
          · cases e; exact ⟨h, v, w, h1, h2, h3⟩
          · cases e
          · cases e
        · rintro ⟨h, v, w, h1, h2, h3⟩
          exact ⟨h, Or.inl ⟨k, v, w, rfl, h1, h2, h3⟩⟩
      · constructor
        · rintro ⟨h, ⟨k', v, w, e, _⟩ | ⟨k', v, e, h1, h2⟩ | ⟨k', v, e, h1, h2⟩⟩
          · cases e
          · cases e; exact ⟨h, Or.inl ⟨rfl, ⟨v, h1⟩, h2⟩⟩
          · cases e; exact ⟨h, Or.inr ⟨rfl, ⟨v, h2⟩, h1⟩⟩
        · rintro ⟨h, ⟨rfl, ⟨v, h1⟩, h2⟩ | ⟨rfl, ⟨v, h1⟩, h2⟩⟩
          · exact ⟨h, Or.inr (Or.inl ⟨k, v, rfl, h1, h2⟩)⟩
          · exact ⟨h, Or.inr (Or.inr ⟨k, v, rfl, h2, h1⟩)⟩
      · constructor
        · rintro ⟨h, ⟨k', v, w, e, _⟩ | ⟨k', v, e, h1, h2⟩ | ⟨k', v, e, h1, h2⟩⟩ <;> cases e
        · intro h; exact h.elim
    · have hd : diffTick a b s1.tick = [.missingTick s1.tick 2] := by
        unfold diffTick
        rw [byTick_mem ha hs1, byTick_eq_none hB]
      rw [hd]
      refine ⟨?_, ?_, ?_⟩
      · constructor
        · rintro ⟨_, h⟩; simp at h
        · rintro ⟨_, v, w, _, h2, _⟩; exact absurd h2.hasTick hB
      · constructor
        · rintro ⟨_, h⟩; simp at h
        · rintro ⟨_, _, h2, _⟩; exact absurd h2 hB
      · constructor
        · rintro ⟨h1, h⟩
          simp at h
          exact ⟨h1, Or.inl ⟨h, hA, hB⟩⟩
        · rintro ⟨h1, ⟨rfl, _⟩ | ⟨_, h2, _⟩⟩
          · exact ⟨h1, by simp⟩
          · exact absurd h2 hB
  · by_cases hB : b.HasTick t
    · obtain ⟨s2, hs2, rfl⟩ := hB
      have hB : b.HasTick s2.tick := ⟨s2, hs2, rfl⟩
      have hd : diffTick a b s2.tick = [.missingTick s2.tick 1] := by
        unfold diffTick
        rw [byTick_mem hb hs2, byTick_eq_none hA]
      rw [hd]
      refine ⟨?_, ?_, ?_⟩
      · constructor
        · rintro ⟨_, h⟩; simp at h
        · rintro ⟨_, v, w, h1, _⟩; exact absurd h1.hasTick hA
      · constructor
        · rintro ⟨_, h⟩; simp at h
        · rintro ⟨_, h1, _⟩; exact absurd h1 hA
      · constructor
        · rintro ⟨h1, h⟩
          simp at h
          exact ⟨h1, Or.inr ⟨h, hB, hA⟩⟩
        · rintro ⟨h1, ⟨_, h2, _⟩ | ⟨rfl, _⟩⟩
          · exact absurd h2 hA
          · exact ⟨h1, by simp⟩
    · have hd : diffTick a b t = [] := by
        unfold diffTick
        rw [byTick_eq_none hA, byTick_eq_none hB]
      rw [hd]
      refine ⟨?_, ?_, ?_⟩
      · constructor
        · rintro ⟨_, h⟩; cases h
        · rintro ⟨_, v, w, h1, _⟩; exact absurd h1.hasTick hA
      · constructor
        · rintro ⟨_, h⟩; cases h
        · rintro ⟨_, h1, _⟩; exact absurd h1 hA
      · constructor
        · rintro ⟨_, h⟩; cases h
        · rintro ⟨_, ⟨_, h1, _⟩ | ⟨_, h1, _⟩⟩
          · exact absurd h1 hA
          · exact absurd h1 hB

/-- C96: no difference is reported exactly when, over the ticks both span, the two recordings have the
same ticks and the same bytes on the same topics. -/
theorem diff_nil_iff (a b : Rec) (ha : Inc a.snaps) (hb : Inc b.snaps) (hao : a.OutsOk) (hbo : b.OutsOk) :
    diff a b = [] ↔ ∀ t, Both a b t → (a.HasTick t ↔ b.HasTick t) ∧ ∀ k v, a.Out t k v ↔ b.Out t k v := by
  constructor
  · intro h t hB
    have sp := diff_spec a b ha hb hao hbo t
    have no : ∀ x, x ∉ diff a b := by rw [h]; intro x hx; cases hx
    have hab : a.HasTick t ↔ b.HasTick t := by
      constructor
      · intro h1
        by_contra h2
        exact no _ ((sp [] 2).2.2.2 ⟨hB, Or.inl ⟨rfl, h1, h2⟩⟩)
      · intro h1
        by_contra h2
        exact no _ ((sp [] 1).2.2.2 ⟨hB, Or.inr ⟨rfl, h1, h2⟩⟩)
    refine ⟨hab, fun k v => ?_⟩
    constructor
    · intro h1
      have hA := h1.hasTick
      by_cases h2 : ∃ w, b.Out t k w
      · obtain ⟨w, hw⟩ := h2
        by_cases hvw : v = w
        · rw [hvw]; exact hw
        · exact absurd ((sp k 0).1.2 ⟨hB, v, w, h1, hw, hvw⟩) (no _)
      · exact absurd ((sp k 1).2.1.2 ⟨hB, hA, hab.1 hA, Or.inl ⟨rfl, ⟨v, h1⟩, fun w hw => h2 ⟨w, hw⟩⟩⟩) (no _)
    · intro h1
      have hBt := h1.hasTick
      by_cases h2 : ∃ w, a.Out t k w
      · obtain ⟨w, hw⟩ := h2
        by_cases hvw : w = v
        · rw [← hvw]; exact hw
        · exact absurd ((sp k 0).1.2 ⟨hB, w, v, hw, h1, hvw⟩) (no _)
      · exact absurd ((sp k 2).2.1.2 ⟨hB, hab.2 hBt, hBt, Or.inr ⟨rfl, ⟨v, h1⟩, fun w hw => h2 ⟨w, hw⟩⟩⟩) (no _)
  · intro h
    rw [List.eq_nil_iff_forall_not_mem]
    intro x hx
    cases x with
    | output t k =>
      obtain ⟨hB, v, w, h1, h2, h3⟩ := (diff_spec a b ha hb hao hbo t k 0).1.1 hx
      have h4 := ((h t hB).2 k v).1 h1
      obtain ⟨s, hs, hst, hg⟩ := h2
      obtain ⟨s', hs', hst', hg'⟩ := h4
      rw [Inc.inj hb hs' hs (hst'.trans hst.symm), hg] at hg'
      exact h3 (Option.some.inj hg').symm
    | missingOutput t k n =>
      obtain ⟨hB, -, -, ⟨-, ⟨v, h1⟩, h2⟩ | ⟨-, ⟨v, h1⟩, h2⟩⟩ := (diff_spec a b ha hb hao hbo t k n).2.1.1 hx
      · exact h2 v (((h t hB).2 k v).1 h1)
      · exact h2 v (((h t hB).2 k v).2 h1)
    | missingTick t n =>
      obtain ⟨hB, ⟨-, h1, h2⟩ | ⟨-, h1, h2⟩⟩ := (diff_spec a b ha hb hao hbo t [] n).2.2.1 hx
      · exact h2 ((h t hB).1.1 h1)
      · exact h2 ((h t hB).1.2 h1)

/-- A recording does not differ from itself. -/
theorem diff_self (a : Rec) (ha : Inc a.snaps) (hao : a.OutsOk) : diff a a = [] :=
  (diff_nil_iff a a ha ha hao hao).2 fun _ _ => ⟨Iff.rfl, fun _ _ => Iff.rfl⟩

/-- What is missing from C96: a run that stopped early does not differ from the full one, however much
is missing. -/
theorem truncated_run_same (a : Rec) (ha : Inc a.snaps) (hao : a.OutsOk) (k : Nat) (s : Snap) (hk : a.snaps[k]? = some s) :
    diff a { a with snaps := a.snaps.take (k + 1), last := s.tick } = [] := by
  have hb : Inc (a.snaps.take (k + 1)) := List.Pairwise.sublist (List.take_sublist ..) ha
  have hsub : ∀ x, x ∈ a.snaps.take (k + 1) → x ∈ a.snaps := fun x hx => (List.take_sublist ..).subset hx
  have hback : ∀ x, x ∈ a.snaps → x.tick ≤ s.tick → x ∈ a.snaps.take (k + 1) := by
    intro x hx hle
    obtain ⟨j, hj⟩ := List.mem_iff_getElem?.1 hx
    have hjk : j ≤ k := by
      rcases Nat.lt_or_ge k j with hlt | hge
      · have := ha.lt hk hj hlt; omega
      · exact hge
    apply List.mem_iff_getElem?.2
    exact ⟨j, by rw [List.getElem?_take_of_lt (by omega)]; exact hj⟩
  apply (diff_nil_iff a _ ha hb hao (fun x hx => hao x (hsub x hx))).2
  intro t ht
  have hle : t ≤ s.tick := ht.2.2.2
  refine ⟨⟨?_, ?_⟩, fun q v => ⟨?_, ?_⟩⟩
  · rintro ⟨x, hx, rfl⟩; exact ⟨x, hback x hx hle, rfl⟩
  · rintro ⟨x, hx, rfl⟩; exact ⟨x, hsub x hx, rfl⟩
  · rintro ⟨x, hx, rfl, hg⟩; exact ⟨x, hback x hx hle, rfl, hg⟩
  · rintro ⟨x, hx, rfl, hg⟩; exact ⟨x, hsub x hx, rfl, hg⟩

/-- And on recordings of real-time nodes, where every tick is 0, only the last snapshots are compared:
these two recordings agree on nothing else. -/
theorem diff_blind_on_zero_ticks :
    ∃ a b : Rec, a.snaps.length = 3 ∧ b.snaps.length = 3 ∧ a.OutsOk ∧ b.OutsOk ∧ diff a b = [] ∧
      (∀ s ∈ a.snaps.take 2, ∀ s' ∈ b.snaps.take 2, s.outs ≠ s'.outs) := by
  refine ⟨⟨2, [], [], [], 0, none, 0, 0, [⟨0, 0, [], [([1], [1])], none, 0, none, false⟩, ⟨0, 0, [], [([1], [1])], none, 0, none, false⟩, ⟨0, 0, [], [], none, 0, none, false⟩], none, []⟩,
    ⟨2, [], [], [], 0, none, 0, 0, [⟨0, 0, [], [([1], [2])], none, 0, none, false⟩, ⟨0, 0, [], [([1], [2])], none, 0, none, false⟩, ⟨0, 0, [], [], none, 0, none, false⟩], none, []⟩,
    rfl, rfl, ?_, ?_, by decide, by decide⟩
  · intro s hs
    simp at hs
    rcases hs with rfl | rfl
    · exact (List.nodup_singleton _)
    · exact List.nodup_nil
  · intro s hs
    simp at hs
    rcases hs with rfl | rfl
    · exact (List.nodup_singleton _)
    · exact List.nodup_nil

/-- Non-vacuity: two recordings that differ in one value at tick 5, one topic and one tick. -/
example : three.OutsOk ∧ diff three { three with snaps := three.snaps.map fun s => { s with outs := s.outs.map fun kv => (kv.1, if s.tick = 5 then [9] else kv.2) } } = [.output 5 [2]] ∧
    diff three { three with snaps := three.snaps.take 1 ++ three.snaps.drop 2 } = [.missingTick 5 2] := by
  refine ⟨?_, by decide, by decide⟩
  intro s hs
  simp [three] at hs
  rcases hs with rfl | rfl | rfl <;> exact List.nodup_singleton _

end Horus.Replay
