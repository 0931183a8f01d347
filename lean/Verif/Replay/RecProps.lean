import Verif.Replay.Model
/-
What a recording contains (C92) and what survives on disk (C93).
-/
namespace Horus.Replay

/- The specification: which ticks are kept and what a snapshot says. -/
namespace Spec

/-- The ticks that are due for recording. -/
def due (c : Cfg) (ds : List Tick) : List Tick := ds.filter fun d => d.tick % (max c.interval 1) = 0

/-- The snapshot of a tick. -/
def snap (c : Cfg) (d : Tick) : Snap :=
  ⟨d.tick, d.ts, if c.recIn then d.ins else [], if c.recOut then d.outs else [], none, if c.recTime then d.dur else 0, none, false⟩

/-- The longest prefix whose cost, on top of `used`, stays within `limit` (0: no limit). -/
def fit (limit : Nat) : Nat → List Snap → List Snap
  | _, [] => []
  | used, s :: l => if 0 < limit ∧ limit < used + s.cost then [] else s :: fit limit (used + s.cost) l

/-- The last `n` (0: all). -/
def lastN {α : Type} (n : Nat) (l : List α) : List α := if n = 0 then l else l.drop (l.length - n)

end Spec
open Spec

theorem fit_zero (used : Nat) (l : List Snap) : fit 0 used l = l := by
  induction l generalizing used with
  | nil => rfl
  | cons s l ih => simp [fit, ih]

/-- `fit` is a prefix. -/
theorem fit_prefix (limit used : Nat) (l : List Snap) : fit limit used l <+: l := by
  induction l generalizing used with
  | nil => exact List.prefix_refl _
  | cons s l ih =>
    unfold fit
    split
    · exact List.nil_prefix
    · exact List.cons_prefix_cons.2 ⟨rfl, ih _⟩

/-- It stays within the limit. -/
theorem fit_cost (limit used : Nat) (l : List Snap) (h : 0 < limit) (hu : used ≤ limit) :
    used + ((fit limit used l).map Snap.cost).sum ≤ limit := by
  induction l generalizing used with
  | nil => simpa [fit] using hu
  | cons s l ih =>
    unfold fit
    split
    · simpa using hu
    · rename_i hc
      have : used + s.cost ≤ limit := by
        by_contra hx
        exact hc ⟨h, by omega⟩
      have := ih (used + s.cost) this
      simp only [List.map_cons, List.sum_cons]
      omega

/-- It is the longest such prefix: the next snapshot would not fit. -/
theorem fit_maximal (limit used : Nat) (l : List Snap) (s : Snap) (rest : List Snap)
    (h : l = fit limit used l ++ s :: rest) :
    0 < limit ∧ limit < used + ((fit limit used l).map Snap.cost).sum + s.cost := by
  induction l generalizing used with
  | nil => simp [fit] at h
  | cons x l ih =>
    by_cases hc : 0 < limit ∧ limit < used + x.cost
    · have e : fit limit used (x :: l) = [] := by unfold fit; rw [if_pos hc]
      rw [e] at h ⊢
      simp only [List.nil_append, List.cons.injEq] at h
      rw [← h.1]
      simpa using hc
    · have e : fit limit used (x :: l) = x :: fit limit (used + x.cost) l := by rw [fit, if_neg hc]
      rw [e] at h ⊢
      simp only [List.cons_append, List.cons.injEq, true_and] at h
      have := ih _ h
      simp only [List.map_cons, List.sum_cons]
      omega

theorem lastN_append {α : Type} (n : Nat) (a b : List α) : lastN n (lastN n a ++ b) = lastN n (a ++ b) := by
  unfold lastN
  by_cases h : n = 0
  · simp [h]
  · simp only [h, if_false]
    by_cases hl : a.length ≤ n
    · rw [show a.length - n = 0 by omega, List.drop_zero]
    · have e : a = a.take (a.length - n) ++ a.drop (a.length - n) := (List.take_append_drop ..).symm
      have e2 : a ++ b = a.take (a.length - n) ++ (a.drop (a.length - n) ++ b) := by
        rw [← List.append_assoc, ← e]
      rw [e2, List.drop_append (l₁ := a.take (a.length - n))]
      rw [List.drop_of_length_le (l := a.take (a.length - n)) (by simp only [List.length_append, List.length_take, List.length_drop]; omega), List.nil_append]
      congr 1
      simp only [List.length_append, List.length_take, List.length_drop]
      omega

theorem lastN_length {α : Type} (n : Nat) (l : List α) (h : 0 < n) : (lastN n l).length ≤ n := by
  unfold lastN
  rw [if_neg (by omega), List.length_drop]
  omega

theorem trim_snaps (r : Rec) (n : Nat) : (r.trim n).snaps = lastN n r.snaps := by
  unfold Rec.trim lastN
  by_cases h : 0 < n ∧ n < r.snaps.length
  · rw [if_pos h, if_neg (by omega)]
  · rw [if_neg h]
    by_cases h0 : n = 0
    · rw [if_pos h0]
    · rw [if_neg h0, show r.snaps.length - n = 0 by omega, List.drop_zero]

/-- What the recorder's own fields say: `first` and `last` name the first and last kept snapshot. -/
def Rec.Ends (r : Rec) : Prop :=
  r.first = ((r.snaps.head?).map Snap.tick).getD 0 ∧ r.last = ((r.snaps.getLast?).map Snap.tick).getD 0

theorem addSnap_ends (r : Rec) (s : Snap) (h : r.Ends) : (r.addSnap s).Ends := by
  unfold Rec.Ends Rec.addSnap
  refine ⟨?_, by simp⟩
  show (if r.snaps = [] then s.tick else r.first) = _
  by_cases he : r.snaps = []
  · rw [if_pos he, he]; rfl
  · rw [if_neg he, h.1]
    cases hs : r.snaps with
    | nil => exact absurd hs he
    | cons a l => rfl

theorem trim_ends (r : Rec) (n : Nat) (h : r.Ends) : (r.trim n).Ends := by
  unfold Rec.trim
  by_cases hc : 0 < n ∧ n < r.snaps.length
  · rw [if_pos hc]
    have hne : r.snaps.drop (r.snaps.length - n) ≠ [] := by
      intro e
      have := congrArg List.length e
      simp only [List.length_drop, List.length_nil] at this
      omega
    refine ⟨?_, ?_⟩
    · show (((r.snaps.drop (r.snaps.length - n)).head?).map Snap.tick).getD r.first = _
      cases hd : r.snaps.drop (r.snaps.length - n) with
      | nil => exact absurd hd hne
      | cons a l => rfl
    · show r.last = (((r.snaps.drop (r.snaps.length - n)).getLast?).map Snap.tick).getD 0
      rw [List.getLast?_drop, if_neg (by omega)]
      exact h.2
  · rw [if_neg hc]; exact h

theorem fold_input (c : Cfg) (x : Recorder) (s : Snap) (hx : x.cur = some s) (l : List (Bytes × Bytes)) :
    l.foldl (Recorder.input c) x =
      { x with cur := some (if c.recIn then { s with ins := l.foldl (fun m kv => Map.set m kv.1 kv.2) s.ins } else s) } := by
  induction l generalizing x s with
  | nil => cases x; simp only at hx; subst hx; simp
  | cons kv l ih =>
    simp only [List.foldl_cons]
    by_cases hc : c.recIn
    · rw [ih (x.input c kv) { s with ins := Map.set s.ins kv.1 kv.2 } (by simp [Recorder.input, hc, hx])]
      simp [Recorder.input, hc]
    · rw [ih (x.input c kv) s (by simp [Recorder.input, hc, hx])]
      simp [Recorder.input, hc]

theorem fold_output (c : Cfg) (x : Recorder) (s : Snap) (hx : x.cur = some s) (l : List (Bytes × Bytes)) :
    l.foldl (Recorder.output c) x =
      { x with cur := some (if c.recOut then { s with outs := l.foldl (fun m kv => Map.set m kv.1 kv.2) s.outs } else s) } := by
  induction l generalizing x s with
  | nil => cases x; simp only at hx; subst hx; simp
  | cons kv l ih =>
    simp only [List.foldl_cons]
    by_cases hc : c.recOut
    · rw [ih (x.output c kv) { s with outs := Map.set s.outs kv.1 kv.2 } (by simp [Recorder.output, hc, hx])]
      simp [Recorder.output, hc]
    · rw [ih (x.output c kv) s (by simp [Recorder.output, hc, hx])]
      simp [Recorder.output, hc]

theorem fold_input_none (c : Cfg) (x : Recorder) (hx : x.cur = none) (l : List (Bytes × Bytes)) :
    l.foldl (Recorder.input c) x = x := by
  induction l with
  | nil => rfl
  | cons kv l ih =>
    have : x.input c kv = x := by
      cases x; simp only at hx; subst hx; simp [Recorder.input]
    rw [List.foldl_cons, this, ih]

theorem fold_output_none (c : Cfg) (x : Recorder) (hx : x.cur = none) (l : List (Bytes × Bytes)) :
    l.foldl (Recorder.output c) x = x := by
  induction l with
  | nil => rfl
  | cons kv l ih =>
    have : x.output c kv = x := by
      cases x; simp only at hx; subst hx; simp [Recorder.output]
    rw [List.foldl_cons, this, ih]

/-- A tick on which nothing is begun changes nothing. -/
theorem recTick_skip (c : Cfg) (k : Cls) (x : Recorder) (d : Tick) (hx : x.cur = none)
    (h : x.enabled = false ∨ k.tick d % (max c.interval 1) ≠ 0) : recTick c k x d = x := by
  have hb : x.beginTick c (k.tick d) d.ts = x := by
    unfold Recorder.beginTick
    rcases h with h | h
    · rw [if_pos h]
    · by_cases he : x.enabled = false
      · rw [if_pos he]
      · rw [if_neg he, if_pos h]
        cases x; simp only at hx; subst hx; rfl
  unfold recTick
  simp only
  rw [hb, fold_input_none c x hx, fold_output_none c x hx]
  unfold Recorder.endTick
  rw [hx]

/-- The snapshot an executor of class `k` builds. -/
def built (c : Cfg) (k : Cls) (d : Tick) : Snap :=
  ⟨k.tick d, d.ts, if c.recIn then ofPairs (k.ins d) else [], if c.recOut then ofPairs (k.outs d) else [], none,
    if c.recTime then d.dur else 0, none, false⟩

/-- A tick that is due. -/
theorem recTick_due (c : Cfg) (k : Cls) (x : Recorder) (d : Tick) (he : x.enabled = true)
    (h : k.tick d % (max c.interval 1) = 0) :
    recTick c k x d =
      if 0 < c.maxSize ∧ c.maxSize < x.est + (built c k d).cost then
        { x with cur := none, est := x.est + (built c k d).cost, enabled := false }
      else { x with cur := none, est := x.est + (built c k d).cost, r := (x.r.addSnap (built c k d)).trim c.maxSnaps } := by
  have hb : x.beginTick c (k.tick d) d.ts = { x with cur := some (Snap.fresh (k.tick d) d.ts) } := by
    unfold Recorder.beginTick
    rw [if_neg (by simp [he]), if_neg (by simp [h])]
  unfold recTick
  simp only
  rw [hb, fold_input c _ (Snap.fresh (k.tick d) d.ts) rfl]
  rw [fold_output c _ _ rfl]
  unfold Recorder.endTick
  have hs : (if c.recTime then { (if c.recOut then { (if c.recIn then { Snap.fresh (k.tick d) d.ts with ins := (k.ins d).foldl (fun m kv => Map.set m kv.1 kv.2) (Snap.fresh (k.tick d) d.ts).ins } else Snap.fresh (k.tick d) d.ts) with outs := (k.outs d).foldl (fun m kv => Map.set m kv.1 kv.2) (if c.recIn then { Snap.fresh (k.tick d) d.ts with ins := (k.ins d).foldl (fun m kv => Map.set m kv.1 kv.2) (Snap.fresh (k.tick d) d.ts).ins } else Snap.fresh (k.tick d) d.ts).outs } else (if c.recIn then { Snap.fresh (k.tick d) d.ts with ins := (k.ins d).foldl (fun m kv => Map.set m kv.1 kv.2) (Snap.fresh (k.tick d) d.ts).ins } else Snap.fresh (k.tick d) d.ts)) with dur := d.dur } else (if c.recOut then { (if c.recIn then { Snap.fresh (k.tick d) d.ts with ins := (k.ins d).foldl (fun m kv => Map.set m kv.1 kv.2) (Snap.fresh (k.tick d) d.ts).ins } else Snap.fresh (k.tick d) d.ts) with outs := (k.outs d).foldl (fun m kv => Map.set m kv.1 kv.2) (if c.recIn then { Snap.fresh (k.tick d) d.ts with ins := (k.ins d).foldl (fun m kv => Map.set m kv.1 kv.2) (Snap.fresh (k.tick d) d.ts).ins } else Snap.fresh (k.tick d) d.ts).outs } else (if c.recIn then { Snap.fresh (k.tick d) d.ts with ins := (k.ins d).foldl (fun m kv => Map.set m kv.1 kv.2) (Snap.fresh (k.tick d) d.ts).ins } else Snap.fresh (k.tick d) d.ts))) = built c k d := by
    unfold built ofPairs Snap.fresh
    cases c.recIn <;> cases c.recOut <;> cases c.recTime <;> rfl
  simp only [hs]

/-- The general form: from any recorder between ticks. -/
theorem record_from (c : Cfg) (k : Cls) (ds : List Tick) (x : Recorder) (hx : x.cur = none)
    (hl : lastN c.maxSnaps x.r.snaps = x.r.snaps) (hends : x.r.Ends) :
    (record c k x ds).r.Ends ∧ (record c k x ds).cur = none ∧
    (record c k x ds).r.snaps = lastN c.maxSnaps (x.r.snaps ++
      (if x.enabled then fit c.maxSize x.est ((ds.filter fun d => k.tick d % (max c.interval 1) = 0).map (built c k)) else [])) := by
  induction ds generalizing x with
  | nil =>
    refine ⟨hends, hx, ?_⟩
    have : (if x.enabled then fit c.maxSize x.est [] else []) = ([] : List Snap) := by split <;> rfl
    simp only [List.filter_nil, List.map_nil, this, List.append_nil]
    exact hl.symm
  | cons d ds ih =>
    have hrun : record c k x (d :: ds) = record c k (recTick c k x d) ds := rfl
    rw [hrun]
    by_cases hskip : x.enabled = false ∨ k.tick d % (max c.interval 1) ≠ 0
    · rw [recTick_skip c k x d hx hskip]
      have := ih x hx hl hends
      refine ⟨this.1, this.2.1, ?_⟩
      rw [this.2.2]
      rcases hskip with h | h
      · rw [h]; rfl
      · rw [List.filter_cons_of_neg (by simpa using h)]
    · have he : x.enabled = true := by
        cases hq : x.enabled with
        | false => exact absurd (Or.inl hq) hskip
        | true => rfl
      have hd : k.tick d % (max c.interval 1) = 0 := by
        by_contra hq
        exact hskip (Or.inr hq)
      rw [recTick_due c k x d he hd, List.filter_cons_of_pos (by simpa using hd), List.map_cons, if_pos he]
      by_cases hov : 0 < c.maxSize ∧ c.maxSize < x.est + (built c k d).cost
      · rw [if_pos hov]
        have := ih { x with cur := none, est := x.est + (built c k d).cost, enabled := false } rfl hl hends
        refine ⟨this.1, this.2.1, ?_⟩
        rw [this.2.2]
        have hf : fit c.maxSize x.est (built c k d :: (ds.filter fun d => k.tick d % (max c.interval 1) = 0).map (built c k)) = [] := by
          rw [fit, if_pos hov]
        rw [hf]
        rfl
      · rw [if_neg hov]
        have hsn : ((x.r.addSnap (built c k d)).trim c.maxSnaps).snaps = lastN c.maxSnaps (x.r.snaps ++ [built c k d]) := by
          rw [trim_snaps]; rfl
        have := ih { x with cur := none, est := x.est + (built c k d).cost, r := (x.r.addSnap (built c k d)).trim c.maxSnaps } rfl
          (by
            show lastN c.maxSnaps ((x.r.addSnap (built c k d)).trim c.maxSnaps).snaps = ((x.r.addSnap (built c k d)).trim c.maxSnaps).snaps
            rw [hsn]
            have := lastN_append c.maxSnaps (x.r.snaps ++ [built c k d]) []
            simpa using this)
          (trim_ends _ _ (addSnap_ends _ _ hends))
        refine ⟨this.1, this.2.1, ?_⟩
        rw [this.2.2]
        show lastN c.maxSnaps (((x.r.addSnap (built c k d)).trim c.maxSnaps).snaps ++ (if x.enabled = true then _ else _)) = _
        rw [hsn, if_pos he, lastN_append, List.append_assoc]
        rw [fit, if_neg hov]
        rfl

theorem ofPairs_nodup (l : List (Bytes × Bytes)) (h : (l.map Prod.fst).Nodup) : ofPairs l = l := by
  have := foldl_set l [] (by simpa [Map.keys] using h)
  simpa [ofPairs] using this

/-- Each topic is read once per tick. -/
def Distinct (ds : List Tick) : Prop := ∀ d ∈ ds, (d.ins.map Prod.fst).Nodup ∧ (d.outs.map Prod.fst).Nodup

/-- C92. A node ticked by the scheduler's own thread: after any sequence of ticks the recording holds
exactly the snapshots of the ticks that were due, in order and unaltered, cut to what fits the size
limit, of which the newest `max_snapshots` are kept; and its first and last tick numbers are theirs. -/
theorem record_exact (c : Cfg) (ds : List Tick) (h : Distinct ds) (id name session : Bytes) (now : Nat) :
    let r := (record c .main (Recorder.new id name session now) ds).r
    r.snaps = lastN c.maxSnaps (fit c.maxSize 0 ((due c ds).map (Spec.snap c))) ∧ r.Ends := by
  have := record_from c .main ds (Recorder.new id name session now) rfl (by simp [Recorder.new, lastN]) ⟨rfl, rfl⟩
  refine ⟨?_, this.1⟩
  rw [this.2.2]
  have hb : ∀ d ∈ due c ds, built c .main d = Spec.snap c d := by
    intro d hd
    have := h d (List.mem_filter.1 hd).1
    unfold built Spec.snap
    show Snap.mk d.tick d.ts (if c.recIn then ofPairs d.ins else []) (if c.recOut then ofPairs d.outs else []) none _ none false = _
    rw [ofPairs_nodup _ this.1, ofPairs_nodup _ this.2]
  have he : (Recorder.new id name session now).enabled = true := rfl
  rw [if_pos he]
  show lastN c.maxSnaps ([] ++ fit c.maxSize 0 ((due c ds).map (built c .main))) = _
  rw [List.nil_append, List.map_congr_left hb]

/-- With the default settings every tick is there. -/
theorem record_all (ds : List Tick) (h : Distinct ds) (id name session : Bytes) (now : Nat) :
    (record Cfg.std .main (Recorder.new id name session now) ds).r.snaps =
      ds.map fun d => ⟨d.tick, d.ts, d.ins, d.outs, none, d.dur, none, false⟩ := by
  have hd : due Cfg.std ds = ds := by
    unfold due
    apply List.filter_eq_self.2
    intro d _
    show decide (d.tick % 1 = 0) = true
    simp [Nat.mod_one]
  rw [(record_exact Cfg.std ds h id name session now).1]
  show lastN 0 (fit 0 0 ((due Cfg.std ds).map (Spec.snap Cfg.std))) = _
  rw [fit_zero, hd]
  rfl

/-- The two limits hold after any run, whoever ticks the node. -/
theorem record_bounded (c : Cfg) (k : Cls) (ds : List Tick) (id name session : Bytes) (now : Nat) :
    let r := (record c k (Recorder.new id name session now) ds).r
    (0 < c.maxSnaps → r.snaps.length ≤ c.maxSnaps) ∧ (0 < c.maxSize → (r.snaps.map Snap.cost).sum ≤ c.maxSize) := by
  have := record_from c k ds (Recorder.new id name session now) rfl (by simp [Recorder.new, lastN]) ⟨rfl, rfl⟩
  have he : (Recorder.new id name session now).enabled = true := rfl
  have e := this.2.2
  rw [if_pos he] at e
  have e : (record c k (Recorder.new id name session now) ds).r.snaps =
    lastN c.maxSnaps (fit c.maxSize 0 ((ds.filter fun d => k.tick d % (max c.interval 1) = 0).map (built c k))) := e
  simp only
  rw [e]
  refine ⟨fun h => lastN_length _ _ h, fun h => ?_⟩
  have h1 := fit_cost c.maxSize 0 ((ds.filter fun d => k.tick d % (max c.interval 1) = 0).map (built c k)) h (Nat.zero_le _)
  have h2 : ∀ (l : List Snap), ((lastN c.maxSnaps l).map Snap.cost).sum ≤ (l.map Snap.cost).sum := by
    intro l
    unfold lastN
    split
    · exact Nat.le_refl _
    · have e : (l.map Snap.cost).sum = ((l.take (l.length - c.maxSnaps)).map Snap.cost).sum + ((l.drop (l.length - c.maxSnaps)).map Snap.cost).sum := by
        rw [← List.sum_append, ← List.map_append, List.take_append_drop]
      omega
  have := h2 (fit c.maxSize 0 ((ds.filter fun d => k.tick d % (max c.interval 1) = 0).map (built c k)))
  omega

/-- A full ring-buffer recording keeps the newest ticks only as long as the running total, dropped
snapshots included, is below the size limit: with both limits set, it stops and keeps old ticks. -/
theorem ring_stops_at_size :
    ∃ (c : Cfg) (ds : List Tick), Distinct ds ∧ c.maxSnaps = 1 ∧ c.maxSize = 200 ∧ ds.length = 10 ∧
      (record c .main (Recorder.new [1] [2] [3] 0) ds).r.snaps.map Snap.tick = [2] ∧
      (record c .main (Recorder.new [1] [2] [3] 0) ds).enabled = false := by
  refine ⟨⟨1, 200, 1, true, true, true⟩, (List.range 10).map fun i => ⟨i, 0, [], [], 0⟩, ?_, rfl, rfl, rfl, by decide, by decide⟩
  intro d hd
  obtain ⟨i, _, rfl⟩ := List.mem_map.1 hd
  exact ⟨List.nodup_nil, List.nodup_nil⟩

/-- Snapshots of a run, by class. -/
theorem record_mem (c : Cfg) (k : Cls) (ds : List Tick) (id name session : Bytes) (now : Nat) (s : Snap)
    (h : s ∈ (record c k (Recorder.new id name session now) ds).r.snaps) : ∃ d ∈ ds, s = built c k d := by
  have := record_from c k ds (Recorder.new id name session now) rfl (by simp [Recorder.new, lastN]) ⟨rfl, rfl⟩
  have he : (Recorder.new id name session now).enabled = true := rfl
  rw [this.2.2, if_pos he] at h
  have h1 : ∀ (l : List Snap), s ∈ lastN c.maxSnaps l → s ∈ l := by
    intro l hl
    unfold lastN at hl
    split at hl
    · exact hl
    · exact List.mem_of_mem_drop hl
  have h2 := h1 _ h
  have h2 : s ∈ fit c.maxSize 0 ((ds.filter fun d => k.tick d % (max c.interval 1) = 0).map (built c k)) := h2
  have h3 := (fit_prefix _ _ _).subset h2
  obtain ⟨d, hd, rfl⟩ := List.mem_map.1 h3
  exact ⟨d, (List.mem_filter.1 hd).1, rfl⟩

theorem ofPairs_nil : ofPairs [] = [] := rfl

/-- What is missing from C92: a node ticked by an executor has no output in its recording, whatever it
published. -/
theorem executor_no_outputs (c : Cfg) (k : Cls) (hk : k ≠ .main) (ds : List Tick) (id name session : Bytes) (now : Nat)
    (s : Snap) (h : s ∈ (record c k (Recorder.new id name session now) ds).r.snaps) : s.outs = [] := by
  obtain ⟨d, _, rfl⟩ := record_mem c k ds id name session now s h
  have : k.outs d = [] := by cases k <;> first | rfl | exact absurd rfl hk
  unfold built
  simp [this, ofPairs_nil]

/-- And unless the executor is the real-time one, no input either. -/
theorem executor_no_inputs (c : Cfg) (k : Cls) (hk : k = .event ∨ k = .pool) (ds : List Tick) (id name session : Bytes)
    (now : Nat) (s : Snap) (h : s ∈ (record c k (Recorder.new id name session now) ds).r.snaps) : s.ins = [] := by
  obtain ⟨d, _, rfl⟩ := record_mem c k ds id name session now s h
  have : k.ins d = [] := by rcases hk with rfl | rfl <;> rfl
  unfold built
  simp [this, ofPairs_nil]

/-- Real-time, compute and async nodes: every snapshot says tick 0. -/
theorem executor_tick_zero (c : Cfg) (k : Cls) (hk : k = .rt ∨ k = .pool) (ds : List Tick) (id name session : Bytes)
    (now : Nat) (s : Snap) (h : s ∈ (record c k (Recorder.new id name session now) ds).r.snaps) : s.tick = 0 := by
  obtain ⟨d, _, rfl⟩ := record_mem c k ds id name session now s h
  rcases hk with rfl | rfl <;> rfl

/-- Their recording interval is ignored: every tick is due. -/
theorem executor_interval_ignored (c : Cfg) (k : Cls) (hk : k = .rt ∨ k = .pool) (hm : c.maxSize = 0) (hn : c.maxSnaps = 0)
    (ds : List Tick) (id name session : Bytes) (now : Nat) :
    (record c k (Recorder.new id name session now) ds).r.snaps.length = ds.length := by
  have := record_from c k ds (Recorder.new id name session now) rfl (by simp [Recorder.new, lastN]) ⟨rfl, rfl⟩
  have he : (Recorder.new id name session now).enabled = true := rfl
  rw [this.2.2, if_pos he, hm, hn, fit_zero]
  have hf : ds.filter (fun d => decide (k.tick d % (max c.interval 1) = 0)) = ds := by
    apply List.filter_eq_self.2
    intro d _
    have : k.tick d = 0 := by rcases hk with rfl | rfl <;> rfl
    simp [this]
  rw [hf]
  simp [lastN, Recorder.new]

/-- Non-vacuity: three ticks of a node with one input and one output, every second one recorded. -/
example : Distinct [⟨0, 5, [([1], [9])], [([2], [8])], 7⟩, ⟨1, 6, [], [], 7⟩, ⟨2, 7, [([1], [10])], [([2], [11])], 3⟩] ∧
    (record ⟨2, 0, 0, true, true, true⟩ .main (Recorder.new [1] [2] [3] 0)
      [⟨0, 5, [([1], [9])], [([2], [8])], 7⟩, ⟨1, 6, [], [], 7⟩, ⟨2, 7, [([1], [10])], [([2], [11])], 3⟩]).r.snaps =
      [⟨0, 5, [([1], [9])], [([2], [8])], none, 7, none, false⟩, ⟨2, 7, [([1], [10])], [([2], [11])], none, 3, none, false⟩] := by
  refine ⟨?_, by decide⟩
  intro d hd
  simp at hd
  rcases hd with rfl | rfl | rfl <;> decide

/- C93: on disk. -/

/-- Loading what was saved gives the recording back, if the file is at most 100 MiB. -/
theorem load_saved (r : Rec) (h : r.Ok) (hs : (fileBytes r).length ≤ maxFile) : loadBytes (fileBytes r) = some r := by
  unfold loadBytes
  rw [if_neg (by omega)]
  have h1 : (fileBytes r).take 6 = magic := rfl
  have h2 : (fileBytes r).drop 6 = le 4 1 ++ wRec r := rfl
  rw [if_pos h1, h2, if_neg (by simp)]
  have h3 : (le 4 1 ++ wRec r).take 4 = le 4 1 := rfl
  have h4 : (le 4 1 ++ wRec r).drop 4 = wRec r := rfl
  rw [h3, h4, leNat_le, if_pos (by decide)]
  unfold decode
  have := reads_rec r h []
  rw [List.append_nil] at this
  rw [this]

/-- A recording whose file is larger is written but never loaded: there is no limit on saving. -/
theorem large_never_loads (r : Rec) (hs : maxFile < (fileBytes r).length) : loadBytes (fileBytes r) = none := by
  unfold loadBytes
  rw [if_pos hs]

theorem pNat_short (k : Nat) (b : Bytes) (h : b.length < k) : pNat k b = none := by
  unfold pNat; rw [if_pos h]

/-- A file cut off anywhere is refused: it is never taken for a shorter recording. -/
theorem truncated_refused (r : Rec) (h : r.Ok) (b c : Bytes) (he : fileBytes r = b ++ c) (hc : c ≠ []) :
    loadBytes b = none := by
  unfold loadBytes
  split
  · rfl
  · by_cases h6 : b.length < 6
    · -- less than the magic: taken for the old format, which needs more bytes
      have hn : b.take 6 ≠ magic := by
        intro e
        have := congrArg List.length e
        simp [magic] at this
        omega
      rw [if_neg hn]
      unfold decode pRec P.bind
      by_cases h4 : b.length < 4
      · rw [pNat_short 4 b h4]
      · have e4 : pNat 4 b = some (leNat (b.take 4), b.drop 4) := by unfold pNat; rw [if_neg h4]
        rw [e4]
        have e8 : pStr (b.drop 4) = none := by
          unfold pStr P.bind
          rw [pNat_short 8 _ (by rw [List.length_drop]; omega)]
        simp only [e8]
    · have htake : b.take 6 = magic := by
        have : (b ++ c).take 6 = b.take 6 := List.take_append_of_le_length (by omega)
        rw [← this, ← he]; rfl
      have hdrop : le 4 1 ++ wRec r = b.drop 6 ++ c := by
        have e1 : (b ++ c).drop 6 = b.drop 6 ++ c := List.drop_append_of_le_length (by omega)
        rw [← e1, ← he]; rfl
      rw [if_pos htake]
      by_cases h4 : (b.drop 6).length < 4
      · rw [if_pos h4]
      · rw [if_neg h4]
        have ht4 : (b.drop 6).take 4 = le 4 1 := by
          have : (b.drop 6 ++ c).take 4 = (b.drop 6).take 4 := List.take_append_of_le_length (by omega)
          rw [← this, ← hdrop]; rfl
        have hd4 : wRec r = (b.drop 6).drop 4 ++ c := by
          have e1 : (b.drop 6 ++ c).drop 4 = (b.drop 6).drop 4 ++ c := List.drop_append_of_le_length (by omega)
          rw [← e1, ← hdrop]; rfl
        rw [ht4, leNat_le, if_pos (by decide)]
        unfold decode
        have hr := reads_rec r h
        rw [hd4] at hr
        rw [Reads.strict hr mono_rec hc]

/-- An unknown version is refused. -/
theorem other_version_refused (b : Bytes) (v : Nat) (hv : v < 2 ^ 32) (h : v ≠ 1) (hl : b.length + 10 ≤ maxFile) :
    loadBytes (magic ++ (le 4 v ++ b)) = none := by
  unfold loadBytes
  rw [if_neg (by simp [magic]; omega)]
  have h1 : (magic ++ (le 4 v ++ b)).take 6 = magic := rfl
  have h2 : (magic ++ (le 4 v ++ b)).drop 6 = le 4 v ++ b := rfl
  have h3 : (le 4 v ++ b).take 4 = le 4 v := rfl
  rw [if_pos h1, h2, if_neg (by simp), h3, leNat_le, if_neg]
  omega

theorem tmp_ne (p : Bytes) : tmpOf p ≠ p := by
  intro e
  have := congrArg List.length e
  simp [tmpOf] at this

theorem writes_get (p : Bytes) (pieces : List Bytes) (fs : FS) (q : Bytes) (hq : q ≠ tmpOf p) :
    Map.get ((pieces.map Sys.write).foldl (sys p) fs) q = Map.get fs q := by
  induction pieces generalizing fs with
  | nil => rfl
  | cons b l ih =>
    rw [List.map_cons, List.foldl_cons, ih]
    exact Map.get_set_ne _ _ (fun e => hq e.symm)

theorem writes_tmp (p : Bytes) (pieces : List Bytes) (fs : FS) (old : Bytes) (h : Map.get fs (tmpOf p) = some old) :
    Map.get ((pieces.map Sys.write).foldl (sys p) fs) (tmpOf p) = some (old ++ pieces.flatten) := by
  induction pieces generalizing fs old with
  | nil => simpa using h
  | cons b l ih =>
    rw [List.map_cons, List.foldl_cons, ih _ (old ++ b)]
    · simp
    · show Map.get (Map.set fs (tmpOf p) ((Map.get fs (tmpOf p)).getD [] ++ b)) (tmpOf p) = _
      rw [Map.get_set_self, h]
      rfl

/-- The process may die after any system call of a save. Files other than the recording and its
temporary file are untouched. -/
theorem save_others (p : Bytes) (pieces : List Bytes) (k : Nat) (fs : FS) (q : Bytes) (h1 : q ≠ p) (h2 : q ≠ tmpOf p) :
    Map.get (saveUpTo p pieces k fs) q = Map.get fs q := by
  have hs : ∀ (l : List Sys) (fs : FS), Map.get (l.foldl (sys p) fs) q = Map.get fs q := by
    intro l
    induction l with
    | nil => intro fs; rfl
    | cons x l ih =>
      intro fs
      rw [List.foldl_cons, ih]
      cases x with
      | create => exact Map.get_set_ne _ _ (fun e => h2 e.symm)
      | write b => exact Map.get_set_ne _ _ (fun e => h2 e.symm)
      | rename =>
        show Map.get (Map.del _ _) q = _
        rw [Map.get_del_ne _ (fun e => h2 e.symm), Map.get_set_ne _ _ (fun e => h1 e.symm)]
  exact hs _ _

/-- Before the last call the recording's own file is what it was. -/
theorem save_before (p : Bytes) (pieces : List Bytes) (k : Nat) (fs : FS) (hk : k < pieces.length + 2) :
    Map.get (saveUpTo p pieces k fs) p = Map.get fs p := by
  unfold saveUpTo saveCalls
  cases k with
  | zero => rfl
  | succ k =>
    have e : (Sys.create :: pieces.map Sys.write ++ [Sys.rename]).take (k + 1) = Sys.create :: (pieces.take k).map Sys.write := by
      rw [List.cons_append, List.take_succ_cons, List.take_append_of_le_length (by simp; omega), List.map_take]
    rw [e, List.foldl_cons, writes_get p _ _ p (fun e => tmp_ne p e.symm)]
    exact Map.get_set_ne _ _ (tmp_ne p)

/-- After the last call it is the new content and the temporary file is gone. -/
theorem save_done (p : Bytes) (pieces : List Bytes) (k : Nat) (fs : FS) (hk : pieces.length + 2 ≤ k) :
    Map.get (saveUpTo p pieces k fs) p = some pieces.flatten ∧ Map.get (saveUpTo p pieces k fs) (tmpOf p) = none := by
  unfold saveUpTo saveCalls
  rw [List.take_of_length_le (by simp; omega), List.cons_append, List.foldl_cons, List.foldl_append]
  have hc : Map.get (sys p fs .create) (tmpOf p) = some [] := Map.get_set_self _ _ _
  have hw := writes_tmp p pieces (sys p fs .create) [] hc
  refine ⟨?_, ?_⟩
  · show Map.get (Map.del (Map.set _ p ((Map.get _ (tmpOf p)).getD [])) (tmpOf p)) p = _
    rw [Map.get_del_ne _ (tmp_ne p), Map.get_set_self, hw]
    simp
  · show Map.get (Map.del _ (tmpOf p)) (tmpOf p) = none
    exact Map.get_del_self _ _

/-- C93. Saving a recording over any earlier file of that name, in any number of write calls, the
process dying after any of them: what is loaded afterwards is the earlier recording, whole, or the new
one, whole. A temporary file left behind by an earlier death changes nothing. -/
theorem save_crash_safe (p : Bytes) (r : Rec) (h : r.Ok) (hs : (fileBytes r).length ≤ maxFile) (pieces : List Bytes)
    (hp : pieces.flatten = fileBytes r) (k : Nat) (fs : FS) :
    load (saveUpTo p pieces k fs) p = load fs p ∨ load (saveUpTo p pieces k fs) p = some r := by
  unfold load
  by_cases hk : k < pieces.length + 2
  · rw [save_before p pieces k fs hk]; exact Or.inl rfl
  · rw [(save_done p pieces k fs (by omega)).1, hp]
    exact Or.inr (load_saved r h hs)

/-- And once the save has returned it is the new one. -/
theorem save_then_load (p : Bytes) (r : Rec) (h : r.Ok) (hs : (fileBytes r).length ≤ maxFile) (pieces : List Bytes)
    (hp : pieces.flatten = fileBytes r) (k : Nat) (hk : pieces.length + 2 ≤ k) (fs : FS) :
    load (saveUpTo p pieces k fs) p = some r := by
  unfold load
  rw [(save_done p pieces k fs hk).1, hp]
  exact load_saved r h hs

/-- A session never lists a temporary file. -/
theorem tmp_not_listed (p : Bytes) : listed (tmpOf p) = false := by
  unfold listed
  rw [decide_eq_false_iff_not]
  rintro ⟨t, ht⟩
  have h1 := congrArg List.getLast? ht
  unfold tmpOf at h1
  rw [List.getLast?_append, List.getLast?_append] at h1
  simp at h1

/-- The layout of recordings made before the schema number was added (record_replay.rs:473-476: "legacy
(no schema field)"), with or without header. -/
def oldBytes (r : Rec) : Bytes :=
  wStr r.id ++ (wStr r.name ++ (wStr r.session ++ (le 8 r.started ++
    (wOpt (le 8) r.ended ++ (le 8 r.first ++ (le 8 r.last ++ (wVec wSnap r.snaps ++ wOpt wStr r.config)))))))

theorem le8_split (n : Nat) (h : n < 2 ^ 32) : le 8 n = le 4 n ++ [0, 0, 0, 0] := by
  have : n / 256 / 256 / 256 / 256 = 0 := by omega
  simp [le, this]

theorem pStr_long (b : Bytes) (h : 8 ≤ b.length) (hn : b.length < leNat (b.take 8) + 8) : pStr b = none := by
  unfold pStr P.bind pNat
  rw [if_neg (by omega)]
  show pTake _ (b.drop 8) = none
  unfold pTake
  rw [if_pos (by rw [List.length_drop]; omega)]

/-- `#[serde(default)]` does not help: a recording in that layout whose node id has at least four
characters, not all of the first four NUL, is never loaded. -/
theorem old_layout_never_loads (r : Rec) (a b c d : UInt8) (rest : Bytes) (hid : r.id = a :: b :: c :: d :: rest)
    (hz : ¬ (a = 0 ∧ b = 0 ∧ c = 0 ∧ d = 0)) (hl : r.id.length < 2 ^ 32) (hsz : (oldBytes r).length ≤ maxFile) :
    loadBytes (oldBytes r) = none ∧ loadBytes (magic ++ (le 4 1 ++ oldBytes r)) = none := by
  have hform : ∃ tail, oldBytes r = le 4 r.id.length ++ ([0, 0, 0, 0] ++ (a :: b :: c :: d :: tail)) := by
    refine ⟨rest ++ (wStr r.name ++ (wStr r.session ++ (le 8 r.started ++
      (wOpt (le 8) r.ended ++ (le 8 r.first ++ (le 8 r.last ++ (wVec wSnap r.snaps ++ wOpt wStr r.config))))))), ?_⟩
    unfold oldBytes
    have hw : wStr r.id = le 4 r.id.length ++ ([0, 0, 0, 0] ++ (a :: b :: c :: d :: rest)) := by
      unfold wStr
      rw [le8_split _ hl, List.append_assoc, ← hid]
    rw [hw]
    simp only [List.append_assoc, List.cons_append]
  obtain ⟨tail, ht⟩ := hform
  have hlen : (oldBytes r).length = 12 + tail.length := by rw [ht]; simp; omega
  have hdec : decode (oldBytes r) = none := by
    unfold decode
    have : pRec (oldBytes r) = none := by
      unfold pRec P.bind
      have h4 : pNat 4 (oldBytes r) = some (leNat ((oldBytes r).take 4), (oldBytes r).drop 4) := by
        unfold pNat; rw [if_neg (by omega)]
      have hdr : (oldBytes r).drop 4 = [0, 0, 0, 0] ++ (a :: b :: c :: d :: tail) := by rw [ht]; rfl
      rw [h4]
      have hp : pStr ((oldBytes r).drop 4) = none := by
        apply pStr_long
        · rw [List.length_drop]; omega
        · rw [List.length_drop, hlen, hdr]
          have ht8 : ([0, 0, 0, 0] ++ (a :: b :: c :: d :: tail)).take 8 = [0, 0, 0, 0, a, b, c, d] := rfl
          rw [ht8]
          have hpos : 0 < a.toNat + 256 * (b.toNat + 256 * (c.toNat + 256 * d.toNat)) := by
            rcases Nat.eq_zero_or_pos (a.toNat + 256 * (b.toNat + 256 * (c.toNat + 256 * d.toNat))) with h0 | h0
            · exfalso
              apply hz
              refine ⟨UInt8.toNat_inj.1 ?_, UInt8.toNat_inj.1 ?_, UInt8.toNat_inj.1 ?_, UInt8.toNat_inj.1 ?_⟩
              all_goals show _ = 0
              all_goals omega
            · exact h0
          have hv : leNat [0, 0, 0, 0, a, b, c, d] = 4294967296 * (a.toNat + 256 * (b.toNat + 256 * (c.toNat + 256 * d.toNat))) := by
            simp only [leNat, UInt8.toNat_zero]
            omega
          rw [hv]
          unfold maxFile at hsz
          omega
      simp only [hp]
    rw [this]
  have hmag : (oldBytes r).take 6 ≠ magic := by
    intro e
    have h1 := congrArg (fun l => l.drop 4) e
    have : ((oldBytes r).take 6).drop 4 = [0, 0] := by rw [ht]; rfl
    simp only [this] at h1
    revert h1
    decide
  refine ⟨?_, ?_⟩
  · unfold loadBytes
    rw [if_neg (by omega), if_neg hmag, hdec]
  · unfold loadBytes
    split
    · rfl
    · have h1 : (magic ++ (le 4 1 ++ oldBytes r)).take 6 = magic := rfl
      have h2 : (magic ++ (le 4 1 ++ oldBytes r)).drop 6 = le 4 1 ++ oldBytes r := rfl
      have h3 : (le 4 1 ++ oldBytes r).take 4 = le 4 1 := rfl
      have h5 : (le 4 1 ++ oldBytes r).drop 4 = oldBytes r := rfl
      rw [if_pos h1, h2, if_neg (by simp), h3, h5, leNat_le, if_pos (by decide), hdec]

/-- A recording with one snapshot, for the examples. -/
def sample : Rec :=
  ⟨2, [97, 98, 99, 100], [110], [115], 7, some 9, 3, 3, [⟨3, 8, [([1], [9, 9])], [([2], [8])], none, 7, none, false⟩], none, [([2], [3])]⟩

theorem sample_ok : sample.Ok := by
  refine ⟨by decide, by decide, by decide, by decide, by decide, ?_, by decide, by decide, by decide, ?_, ?_, ?_⟩
  · intro e h; simp [sample] at h; omega
  · intro s hs
    simp [sample] at hs
    subst hs
    refine ⟨by decide, by decide, ⟨List.nodup_singleton _, by decide, by decide⟩, ⟨List.nodup_singleton _, by decide, by decide⟩, ?_, by decide, ?_⟩
    · intro a h; cases h
    · intro a h; cases h
  · intro a h; cases h
  · exact ⟨show (Map.keys sample.types).Nodup by decide, by decide, by decide⟩

/-- Non-vacuity: a save of it in three writes over an older file, cut after each call. -/
example : load (saveUpTo [1] [(fileBytes sample).take 5, (fileBytes sample).drop 5] 2 [([1], fileBytes sample)]) [1] = some sample ∧
    loadBytes ((fileBytes sample).take 40) = none ∧ loadBytes (oldBytes sample) = none ∧
    (fileBytes sample).length ≤ maxFile := by
  decide +kernel

end Horus.Replay
