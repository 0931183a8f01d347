import Verif.Optimize.Model
import Verif.Optimize.Spec
import Mathlib.Data.List.Induction
import Mathlib.Tactic.Common
namespace Horus.Optimize
open Spec

theorem diffRun_le_right (o n : Bytes) : diffRun o n ≤ n.length := by
  induction o generalizing n with
  | nil => simp [diffRun]
  | cons a o ih =>
    cases n with
    | nil => simp [diffRun]
    | cons b n =>
      simp only [diffRun]
      split
      · simp
      · have := ih n; simp; omega

theorem applyDelta_region (cur data rest : Bytes) (off : Nat) (ho : off ≤ 65535)
    (hl : data.length ≤ 65535) (hfit : off + data.length ≤ cur.length) :
    applyDelta cur (le 2 off ++ (le 2 data.length ++ (data ++ rest))) =
      applyDelta (patch cur off data) rest := by
  have h0 : leAt (le 2 off ++ (le 2 data.length ++ (data ++ rest))) 0 2 = off := by
    rw [leAt_le_append]; omega
  have h2 : leAt (le 2 off ++ (le 2 data.length ++ (data ++ rest))) 2 2 = data.length := by
    rw [leAt_append_right _ _ _ _ (by simp)]
    simp only [le_length, Nat.sub_self]
    rw [leAt_le_append]; omega
  have h4 : slice (le 2 off ++ (le 2 data.length ++ (data ++ rest))) 4 data.length = data := by
    rw [slice_append_right _ _ _ _ (by simp), slice_append_right _ _ _ _ (by simp)]
    simp only [le_length]
    rw [show 4 - 2 - 2 = 0 from rfl, slice_append_left _ _ _ rfl]
  have hd : (le 2 off ++ (le 2 data.length ++ (data ++ rest))).drop (4 + data.length) = rest := by
    have e : le 2 off ++ (le 2 data.length ++ (data ++ rest)) =
        (le 2 off ++ le 2 data.length ++ data) ++ rest := by simp
    rw [e, List.drop_left' (by simp; omega)]
  have hlen : (le 2 off ++ (le 2 data.length ++ (data ++ rest))).length = 4 + data.length + rest.length := by
    simp; omega
  rw [applyDelta]
  rw [if_neg (by intro h; rw [h] at hlen; simp at hlen; omega), if_neg (by omega)]
  simp only [h0, h2, h4, hd, hlen]
  rw [if_pos ⟨by omega, hfit⟩]

theorem drop_diffRun (os ns : Bytes) (h : os.length = ns.length) :
    (os.drop (diffRun os ns)).length = (ns.drop (diffRun os ns)).length := by
  simp [h]

theorem deltaGo_apply (m : Nat) : ∀ (i : Nat) (old new pre : Bytes) (d : Bytes), old.length ≤ m →
    old.length = new.length → pre.length = i → deltaGo i old new = some d →
    applyDelta (pre ++ old) d = some (pre ++ new) := by
  induction m with
  | zero =>
    intro i old new pre d hm hl hp hd
    have ho : old = [] := List.eq_nil_of_length_eq_zero (by omega)
    have hn : new = [] := List.eq_nil_of_length_eq_zero (by rw [← hl, ho]; rfl)
    subst ho hn
    rw [deltaGo] at hd
    · cases hd; rw [applyDelta]; simp
    · intro _ _ _ _ h; cases h
  | succ m ih =>
    intro i old new pre d hm hl hp hd
    match old, new, hl with
    | [], [], _ =>
      rw [deltaGo] at hd
      · cases hd; rw [applyDelta]; simp
      · intro _ _ _ _ h; cases h
    | o :: os, n :: ns, hl =>
      have hl' : os.length = ns.length := by simpa using hl
      rw [deltaGo] at hd
      split at hd
      · next heq =>
        subst heq
        have := ih (i + 1) os ns (pre ++ [o]) d (by simp at hm; omega) hl' (by simp [hp]) hd
        simpa using this
      · next hne =>
        simp only at hd
        split at hd
        · cases hd
        · next hbig =>
          have hk := diffRun_le_right os ns
          simp only [Nat.add_sub_cancel, Option.map_eq_some_iff] at hd
          obtain ⟨rest, hrest, hd⟩ := hd
          subst hd
          have hlen : ((n :: ns).take (diffRun os ns + 1)).length = diffRun os ns + 1 := by
            simp; omega
          have key := applyDelta_region (pre ++ o :: os) ((n :: ns).take (diffRun os ns + 1)) rest i
            (by omega) (by omega) (by simp; omega)
          rw [hlen] at key
          rw [key]
          have hpatch : patch (pre ++ o :: os) i ((n :: ns).take (diffRun os ns + 1)) =
              (pre ++ (n :: ns).take (diffRun os ns + 1)) ++ os.drop (diffRun os ns) := by
            unfold patch
            rw [hlen, List.take_left' hp, List.append_assoc, ← hp, List.drop_append]
            simp
          rw [hpatch]
          have := ih (i + (diffRun os ns + 1)) (os.drop (diffRun os ns)) (ns.drop (diffRun os ns))
            (pre ++ (n :: ns).take (diffRun os ns + 1)) rest (by simp at hm; simp; omega)
            (drop_diffRun os ns hl') (by rw [List.length_append, hlen, hp]) hrest
          rw [this, List.append_assoc]
          simp

/-! ### delta histories -/

theorem lastHanded_snoc (hist : List (Nat × Bytes)) (t t' : Nat) (x : Bytes) :
    lastHanded (hist ++ [(t, x)]) t' = if t = t' then some x else lastHanded hist t' := by
  unfold lastHanded
  rw [List.filter_append]
  by_cases h : t = t' <;> simp [h]

theorem Delta.run_append (d : Delta) (a b : List (Nat × Bytes)) :
    d.run (a ++ b) = (((d.run a).1.run b).1, (d.run a).2 ++ ((d.run a).1.run b).2) := by
  induction a generalizing d with
  | nil => simp [Delta.run]
  | cons e a ih => obtain ⟨t, x⟩ := e; simp [Delta.run, ih]

theorem Delta.step_interval (d : Delta) (t : Nat) (x : Bytes) : (d.step t x).1.interval = d.interval := by
  unfold Delta.step
  simp only
  repeat' split
  all_goals rfl

theorem Delta.step_last (d : Delta) (t t' : Nat) (x : Bytes) :
    Map.get (d.step t x).1.lastSent t' = if t = t' then some x else Map.get d.lastSent t' := by
  unfold Delta.step
  simp only
  split
  · simp only [Map.get_set]
  · split
    · next prev hp =>
      split
      · next he =>
        split
        · next h => subst h; simp only at hp ⊢; rw [hp, he]
        · rfl
      · split <;> simp only [Map.get_set]
    · simp only [Map.get_set]

theorem Delta.run_interval (d : Delta) (h : List (Nat × Bytes)) : (d.run h).1.interval = d.interval := by
  induction h generalizing d with
  | nil => rfl
  | cons e h ih => obtain ⟨t, x⟩ := e; simp [Delta.run, ih, Delta.step_interval]

theorem Delta.run_last (k : Nat) (hist : List (Nat × Bytes)) (t : Nat) :
    Map.get ((Delta.new k).run hist).1.lastSent t = lastHanded hist t := by
  induction hist using List.reverseRecOn with
  | nil => rfl
  | append_singleton hist e ih =>
    obtain ⟨t', x⟩ := e
    rw [Delta.run_append, lastHanded_snoc]
    simp only [Delta.run, Delta.step_last, ih]

/-- The `since` counter of topic `t`. -/
def Delta.cnt (d : Delta) (t : Nat) : Nat := (Map.get d.since t).getD 0

/-- A step on `t` either keeps the payload as it is and zeroes the counter, or counts up to a value
below the interval. -/
theorem Delta.step_cnt (d : Delta) (t : Nat) (x : Bytes) :
    ((d.step t x).2 = some x ∧ (d.step t x).1.cnt t = 0) ∨
      ((d.step t x).1.cnt t = d.cnt t + 1 ∧ d.cnt t + 1 < d.interval) := by
  unfold Delta.step Delta.cnt
  simp only
  split
  · left; simp [Map.get_set]
  · next h =>
    right
    refine ⟨?_, by omega⟩
    split
    · split
      · simp [Map.get_set]
      · split <;> simp [Map.get_set]
    · simp [Map.get_set]

theorem Delta.step_cnt_ne (d : Delta) (t t' : Nat) (x : Bytes) (h : t ≠ t') :
    (d.step t x).1.cnt t' = d.cnt t' := by
  unfold Delta.step Delta.cnt
  simp only
  repeat' split
  all_goals simp [Map.get_set, h]

/-- In any stretch, either some message of `t` is kept as it is, or the counter has advanced once
per message of `t` and stays below the interval. -/
theorem Delta.run_cnt (d : Delta) (t : Nat) (seg : List (Nat × Bytes)) :
    (∃ x, ((t, x), some x) ∈ seg.zip (d.run seg).2) ∨
      ((d.run seg).1.cnt t = d.cnt t + countTopic seg t ∧
        (countTopic seg t ≠ 0 → d.cnt t + countTopic seg t < d.interval)) := by
  induction seg generalizing d with
  | nil => right; simp [Delta.run, countTopic]
  | cons e seg ih =>
    obtain ⟨t', x⟩ := e
    simp only [Delta.run, List.zip_cons_cons, List.mem_cons]
    rcases ih (d.step t' x).1 with ⟨y, hy⟩ | ⟨h1, h2⟩
    · exact Or.inl ⟨y, Or.inr hy⟩
    · by_cases ht : t' = t
      · subst ht
        rcases d.step_cnt t' x with ⟨hk, _⟩ | ⟨hc, hlt⟩
        · exact Or.inl ⟨x, Or.inl (by rw [hk])⟩
        · right
          rw [hc] at h1 h2
          rw [Delta.step_interval] at h2
          have hcount : countTopic ((t', x) :: seg) t' = countTopic seg t' + 1 := by simp [countTopic]
          rw [hcount]
          refine ⟨by omega, fun _ => ?_⟩
          by_cases hz : countTopic seg t' = 0
          · rw [hz]; omega
          · have := h2 hz; omega
      · right
        rw [d.step_cnt_ne t' t x ht] at h1 h2
        rw [Delta.step_interval] at h2
        have hcount : countTopic ((t', x) :: seg) t = countTopic seg t := by simp [countTopic, ht]
        rw [hcount]
        exact ⟨h1, h2⟩

/-! ### fusion -/

/-- Messages handed to the fusion optimizer by a list of calls. -/
def FCall.input : FCall → List Msg
  | .out ms _ => ms
  | .flush => []

theorem Fusion.call_conserve (f : Fusion) (c : FCall) :
    (f.call c).2 ++ (f.call c).1.buffer = f.buffer ++ c.input := by
  cases c with
  | flush => simp [Fusion.call, Fusion.flush, FCall.input]
  | out ms t =>
    simp only [Fusion.call, Fusion.onOutgoing, FCall.input]
    split
    · next h => simp [h]
    · split
      · simp
      · split <;> simp

/-! ### predict -/

theorem PState.step_count (small) (s : PState) (x : Bytes) (hs : s.suppressCount ≤ 100) :
    ((s.step small x).2 = true ∧ (s.step small x).1.suppressCount = 0) ∨
      ((s.step small x).2 = false ∧ (s.step small x).1.suppressCount = s.suppressCount + 1 ∧
        s.suppressCount + 1 ≤ 100) := by
  unfold PState.step
  simp only
  split
  · left; simp
  · split
    · left; simp
    · next h =>
      split
      · left; simp
      · split
        · right; simp; omega
        · left; simp

/-- Suppression counter of a topic. -/
def Predict.cnt (p : Predict) (t : Nat) : Nat := ((Map.get p t).getD PState.init).suppressCount

theorem Predict.step_cnt (small) (p : Predict) (t : Nat) (x : Bytes) (hs : p.cnt t ≤ 100) :
    ((Predict.step small p t x).2 = true ∧ (Predict.step small p t x).1.cnt t = 0) ∨
      ((Predict.step small p t x).2 = false ∧ (Predict.step small p t x).1.cnt t = p.cnt t + 1 ∧
        p.cnt t + 1 ≤ 100) := by
  have := PState.step_count small ((Map.get p t).getD PState.init) x hs
  simpa [Predict.step, Predict.cnt, Map.get_set] using this

theorem Predict.step_cnt_ne (small) (p : Predict) (t t' : Nat) (x : Bytes) (h : t ≠ t') :
    (Predict.step small p t x).1.cnt t' = p.cnt t' := by
  simp [Predict.step, Predict.cnt, Map.get_set, h]

theorem Predict.run_append (small) (p : Predict) (a b : List (Nat × Bytes)) :
    Predict.run small p (a ++ b) =
      ((Predict.run small (Predict.run small p a).1 b).1,
        (Predict.run small p a).2 ++ (Predict.run small (Predict.run small p a).1 b).2) := by
  induction a generalizing p with
  | nil => simp [Predict.run]
  | cons e a ih => obtain ⟨t, x⟩ := e; simp [Predict.run, ih]

theorem Predict.cnt_le (small) (p : Predict) (t : Nat) (h : p.cnt t ≤ 100) (hist : List (Nat × Bytes)) :
    (Predict.run small p hist).1.cnt t ≤ 100 := by
  induction hist generalizing p with
  | nil => exact h
  | cons e hist ih =>
    obtain ⟨t', x⟩ := e
    simp only [Predict.run]
    apply ih
    by_cases ht : t' = t
    · subst ht
      rcases Predict.step_cnt small p t' x h with ⟨_, h2⟩ | ⟨_, h2, h3⟩ <;> omega
    · rw [Predict.step_cnt_ne small p t' t x ht]; exact h

theorem Predict.run_cnt (small) (p : Predict) (t : Nat) (hp : p.cnt t ≤ 100) (seg : List (Nat × Bytes)) :
    (∃ x, ((t, x), true) ∈ seg.zip (Predict.run small p seg).2) ∨
      ((Predict.run small p seg).1.cnt t = p.cnt t + countTopic seg t) := by
  induction seg generalizing p with
  | nil => right; simp [Predict.run, countTopic]
  | cons e seg ih =>
    obtain ⟨t', x⟩ := e
    simp only [Predict.run, List.zip_cons_cons, List.mem_cons]
    by_cases ht : t' = t
    · subst ht
      rcases Predict.step_cnt small p t' x hp with ⟨hk, _⟩ | ⟨_, hc, hle⟩
      · exact Or.inl ⟨x, Or.inl (by rw [hk])⟩
      · rcases ih (Predict.step small p t' x).1 (by omega) with ⟨y, hy⟩ | h1
        · exact Or.inl ⟨y, Or.inr hy⟩
        · right
          have hcount : countTopic ((t', x) :: seg) t' = countTopic seg t' + 1 := by simp [countTopic]
          omega
    · have hne := Predict.step_cnt_ne small p t' t x ht
      rcases ih (Predict.step small p t' x).1 (by omega) with ⟨y, hy⟩ | h1
      · exact Or.inl ⟨y, Or.inr hy⟩
      · right
        have hcount : countTopic ((t', x) :: seg) t = countTopic seg t := by simp [countTopic, ht]
        omega

/-- Messages seen so far on a topic (mod 2^32). -/
def Predict.seen (p : Predict) (t : Nat) : Nat := ((Map.get p t).getD PState.init).totalSeen

theorem PState.step_seen (small) (s : PState) (x : Bytes) :
    (s.step small x).1.totalSeen = (s.totalSeen + 1) % 2 ^ 32 := by
  unfold PState.step
  simp only
  repeat' split
  all_goals rfl

theorem Predict.run_seen (small) (hist : List (Nat × Bytes)) (t : Nat) :
    (Predict.run small [] hist).1.seen t = countTopic hist t % 2 ^ 32 := by
  induction hist using List.reverseRecOn with
  | nil => rfl
  | append_singleton hist e ih =>
    obtain ⟨t', x⟩ := e
    rw [Predict.run_append]
    simp only [Predict.run]
    by_cases ht : t' = t
    · subst ht
      have h1 : Predict.seen (Predict.step small (Predict.run small [] hist).1 t' x).1 t' =
          (Predict.seen (Predict.run small [] hist).1 t' + 1) % 2 ^ 32 := by
        simp only [Predict.seen, Predict.step, Map.get_set, if_true, Option.getD_some, PState.step_seen]
      rw [h1, ih]
      have : countTopic (hist ++ [(t', x)]) t' = countTopic hist t' + 1 := by
        simp [countTopic]
      rw [this]; omega
    · have h1 : Predict.seen (Predict.step small (Predict.run small [] hist).1 t' x).1 t =
          Predict.seen (Predict.run small [] hist).1 t := by
        simp only [Predict.seen, Predict.step, Map.get_set, if_neg ht]
      rw [h1, ih]
      have : countTopic (hist ++ [(t', x)]) t = countTopic hist t := by
        simp [countTopic, ht]
      rw [this]

end Horus.Optimize
