import Verif.Replay.NavProps
import Verif.Replay.RunProps
import Mathlib.Data.List.Nodup
/-
Breakpoints, watches and the contents of replayed topics, each stated from outside.
-/
namespace Horus.Replay

/-- What a watch shows, in words: the whole of the topic's bytes; the bytes from an offset inside them
to their end; or exactly `len` bytes that stand at that offset. -/
def Shows (w : Watch) (s : Snap) (v : Bytes) : Prop :=
  ∃ d, Map.get (if w.onInput then s.ins else s.outs) w.topic = some d ∧
    match w.off, w.len with
    | none, _ => v = d
    | some o, none => v ≠ [] ∧ ∃ pre, pre.length = o ∧ d = pre ++ v
    | some o, some l => v.length = l ∧ ∃ pre post, pre.length = o ∧ d = pre ++ v ++ post

/-- C95: a watch shows exactly the bytes it names, and nothing when they do not exist. -/
theorem watch_shows (w : Watch) (s : Snap) (v : Bytes) : w.eval s = some v ↔ Shows w s v := by
  unfold Watch.eval Shows
  cases hd : Map.get (if w.onInput then s.ins else s.outs) w.topic with
  | none => simp
  | some d =>
    simp only [Option.some.injEq, exists_eq_left']
    cases ho : w.off with
    | none => simp only [Option.some.injEq]; exact eq_comm
    | some o =>
      cases hl : w.len with
      | none =>
        simp only
        split_ifs with c
        · simp only [Option.some.injEq]
          constructor
          · rintro rfl
            refine ⟨fun h => ?_, d.take o, by simp; omega, (List.take_append_drop o d).symm⟩
            have := congrArg List.length h
            simp at this; omega
          · rintro ⟨-, pre, rfl, rfl⟩; simp
        · simp only [reduceCtorEq, false_iff]
          rintro ⟨hv, pre, rfl, rfl⟩
          apply c
          have : 0 < v.length := List.length_pos_iff.mpr hv
          simp; omega
      | some l =>
        simp only
        split_ifs with c
        · simp only [Option.some.injEq]
          constructor
          · rintro rfl
            refine ⟨by simp; omega, d.take o, (d.drop o).drop l, by simp; omega, ?_⟩
            rw [List.append_assoc, List.take_append_drop, List.take_append_drop]
          · rintro ⟨rfl, pre, post, rfl, rfl⟩; simp
        · simp only [reduceCtorEq, false_iff]
          rintro ⟨rfl, pre, post, rfl, rfl⟩
          apply c; simp

/-- What each kind of breakpoint waits for. -/
def Waits (s : Snap) (before : Nat) : Cond → Prop
  | .atTick t => s.tick = t
  | .tickEquals t => s.tick = t
  | .hasData k => (∃ v, Map.get s.ins k = some v) ∨ ∃ v, Map.get s.outs k = some v
  | .outMatches k p => Map.get s.outs k = some p
  | .onError => ∃ k, (k ∈ Map.keys s.outs ∨ k ∈ Map.keys s.ins) ∧ [101, 114, 114, 111, 114] <:+: k.map lower
  | .afterTicks n => before + n ≤ s.tick
  | .expr w => ∃ v, Shows w s v

theorem has_iff {κ ν : Type} [DecidableEq κ] (m : Map κ ν) (k : κ) : Map.has m k = true ↔ ∃ v, Map.get m k = some v := by
  unfold Map.has
  rw [Option.isSome_iff_exists]

/-- C95: a breakpoint fires exactly when it is enabled and what it waits for is there. -/
theorem fires_spec (b : Bp) (s : Snap) (before : Nat) : b.fires s before = true ↔ b.on = true ∧ Waits s before b.cond := by
  unfold Bp.fires
  rw [Bool.and_eq_true]
  refine and_congr_right fun _ => ?_
  cases b.cond with
  | atTick t => simp [Cond.holds, Waits]
  | tickEquals t => simp [Cond.holds, Waits]
  | hasData k => simp only [Cond.holds, Waits, Bool.or_eq_true, has_iff]
  | outMatches k p => simp [Cond.holds, Waits]
  | onError =>
    simp only [Cond.holds, Waits, Bool.or_eq_true, List.any_eq_true, errName, decide_eq_true_eq]
    constructor
    · rintro (⟨k, h1, h2⟩ | ⟨k, h1, h2⟩)
      · exact ⟨k, .inl h1, h2⟩
      · exact ⟨k, .inr h1, h2⟩
    · rintro ⟨k, h1 | h1, h2⟩
      · exact .inl ⟨k, h1, h2⟩
      · exact .inr ⟨k, h1, h2⟩
  | afterTicks n => simp [Cond.holds, Waits]
  | expr w =>
    simp only [Cond.holds, Waits, Option.isSome_iff_exists]
    exact exists_congr fun v => watch_shows w s v

theorem eraseP_nodup {l : List Bp} (h : (l.map Bp.id).Nodup) (id : Nat) :
    (l.eraseP fun b => decide (b.id = id)) = l.filter fun b => decide (b.id ≠ id) := by
  induction l with
  | nil => rfl
  | cons b l ih =>
    rw [List.map_cons, List.nodup_cons] at h
    by_cases e : b.id = id
    · rw [List.eraseP_cons_of_pos (by simpa using e), List.filter_cons_of_neg (by simpa using e)]
      symm
      rw [List.filter_eq_self]
      intro c hc
      simp only [ne_eq, decide_eq_true_eq]
      intro e2
      exact h.1 (List.mem_map.mpr ⟨c, hc, by rw [e2, e]⟩)
    · rw [List.eraseP_cons_of_neg (by simpa using e), List.filter_cons_of_pos (by simpa using e), ih h.2]

theorem setOn_map {l : List Bp} (h : (l.map Bp.id).Nodup) (id : Nat) (on : Bool) :
    setOn id on l = l.map fun b => if b.id = id then { b with on := on } else b := by
  induction l with
  | nil => rfl
  | cons b l ih =>
    rw [List.map_cons, List.nodup_cons] at h
    unfold setOn
    rw [List.map_cons]
    by_cases e : b.id = id
    · rw [if_pos e, if_pos e]
      congr 1
      have hid : ∀ c ∈ l, (if c.id = id then { c with on := on } else c) = c := by
        intro c hc
        rw [if_neg]
        intro e2
        exact h.1 (List.mem_map.mpr ⟨c, hc, by rw [e2, e]⟩)
      rw [List.map_congr_left hid, List.map_id']
    · rw [if_neg e, if_neg e, ih h.2]

/-- C95: after any session, removing a breakpoint removes that one and no other, and enabling or
disabling one changes that one's switch and nothing else. -/
theorem breakpoint_edits (r : Rec) (ops : List DOp) (id : Nat) (on : Bool) (hinc : Inc r.snaps) (hends : r.Ends) (hne : r.snaps ≠ []) :
    let d := (Dbg.new (Replayer.new r)).run ops
    (d.removeBp id).bps = d.bps.filter (fun b => decide (b.id ≠ id)) ∧
    (d.enableBp id on).bps = d.bps.map (fun b => if b.id = id then { b with on := on } else b) ∧
    (d.removeBp id).x = d.x ∧ (d.enableBp id on).x = d.x := by
  intro d
  have h : (d.bps.map Bp.id).Nodup := (session_good r hne hinc hends ops).ids.1
  exact ⟨eraseP_nodup h id, setOn_map h id on, rfl, rfl⟩

/-- The last value written for a key. -/
def lastFor (k : Bytes) (l : List (Bytes × Bytes)) : Option Bytes := ((l.filter fun kv => kv.1 = k).getLast?).map Prod.snd

/-- C94: what the replayed outputs leave on the topics: a topic that exists holds the last of its
replayed values, or what it held before; a topic that does not exist is not created. -/
theorem replayed_topic_contents (outs : List (Bytes × Bytes)) (t : Map Bytes Bytes) (k : Bytes) :
    Map.get (outs.foldl writeTopic t) k = (Map.get t k).map fun old => (lastFor k outs).getD old := by
  induction outs generalizing t with
  | nil => rw [List.foldl_nil]; cases Map.get t k <;> rfl
  | cons o outs ih =>
    rw [List.foldl_cons, ih]
    unfold writeTopic
    by_cases hk : o.1 = k
    · subst hk
      cases hg : Map.get t o.1 with
      | none =>
        rw [if_neg (by rw [has_iff]; rintro ⟨v, hv⟩; rw [hg] at hv; cases hv), hg]; rfl
      | some old =>
        rw [if_pos (by rw [has_iff]; exact ⟨old, hg⟩), Map.get_set, if_pos rfl]
        simp only [Option.map_some, Option.some.injEq]
        unfold lastFor
        rw [List.filter_cons_of_pos (by simp)]
        cases h : outs.filter fun kv => decide (kv.1 = o.1) with
        | nil => rfl
        | cons a l => rw [List.getLast?_cons_cons]; rfl
    · have e : lastFor k (o :: outs) = lastFor k outs := by
        unfold lastFor; rw [List.filter_cons_of_neg (by simpa using hk)]
      rw [e]
      split_ifs
      · rw [Map.get_set, if_neg hk]
      · rfl

example : Map.get ([([1], [7]), ([2], [8])].foldl writeTopic [([1], [0])]) [1] = some [7] ∧
    Map.get ([([1], [7]), ([2], [8])].foldl writeTopic [([1], [0])]) [2] = none := by decide

end Horus.Replay
