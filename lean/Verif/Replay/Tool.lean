import Verif.Replay.NavProps
import Mathlib.Data.List.Basic
/-
`horus record diff`: comparing two recorded sessions.
Sources: /repo/horus_manager/src/commands/record.rs:419-540, and the file names written by
/repo/horus_core/src/scheduling/record_replay.rs:21-37, 120-140.
Simplifications: a recording file is its stem and what loading it gives (`none` when it cannot be
loaded); the directory order is the order of the list.
-/
namespace Horus.RecordDiff
open Horus.Replay

abbrev Name := List Char

/-- A `.horus` file of a session: the file stem and the recording in it. -/
structure File where
  stem : Name
  content : Option Rec

/-- record.rs:437-444, 463-469: the text before the first `@`. -/
def base (stem : Name) : Name := stem.takeWhile fun c => c ≠ '@'

/-- record.rs:445-449, 471-473: files that take part. -/
def compared (f : File) : Bool := decide (base f.stem ≠ [] ∧ base f.stem ≠ "scheduler".toList)

/-- record.rs:434-452: the map from node name to file of the second session. Collecting pairs into a
map keeps the last pair of each key. -/
def lookup (fs : List File) (n : Name) : Option File :=
  fs.reverse.find? fun f => compared f && decide (base f.stem = n)

/-- What the command prints. -/
inductive Line
  | differs (node : Name) (count : Nat)
  | one (d : Diff)
  | same (node : Name)

/-- record.rs:475-480: the two recordings compared for a file of the first session, if any. -/
def pair (s2 : List File) (f : File) : Option (Rec × Rec) :=
  if compared f then
    match lookup s2 (base f.stem) with
    | some g => match f.content, g.content with
      | some a, some b => some (a, b)
      | _, _ => none
    | none => none
  else none

/-- record.rs:462-524: one file of the first session, with the lines printed and differences counted
so far. -/
def stepFile (max : Nat) (s2 : List File) (st : List Line × Nat) (f : File) : List Line × Nat :=
  match pair s2 f with
  | none => st
  | some (a, b) =>
    if diff a b ≠ [] then
      let shown := (diff a b).take (max - st.2)
      (st.1 ++ [.differs (base f.stem) (diff a b).length] ++ shown.map .one, st.2 + shown.length)
    else (st.1 ++ [.same (base f.stem)], st.2)

/-- record.rs:419-540 `run_diff`. -/
def runDiff (s1 s2 : List File) (limit : Option Nat) : List Line × Nat :=
  s1.foldl (stepFile (limit.getD 100) s2) ([], 0)

/-- record.rs:526-538: the closing line; `none` is "No differences found!". -/
def verdict (s1 s2 : List File) (limit : Option Nat) : Option Nat :=
  if (runDiff s1 s2 limit).2 = 0 then none else some (runDiff s1 s2 limit).2

/- Specification. -/

/-- Two files are compared: they hold the same node and both can be read. -/
def Compared (s1 s2 : List File) (a b : Rec) : Prop := ∃ f ∈ s1, pair s2 f = some (a, b)

/-- The number of differences between the compared pairs. -/
def trueCount (s1 s2 : List File) : Nat :=
  (s1.map fun f => match pair s2 f with | some (a, b) => (diff a b).length | none => 0).sum

/-- Every node of the session has one file, and it can be read. -/
def Tidy (s : List File) : Prop :=
  (s.map fun f => base f.stem).Nodup ∧ ∀ f ∈ s, compared f = true ∧ f.content ≠ none

/- Proofs. -/

theorem step_total (max : Nat) (s2 : List File) (st : List Line × Nat) (f : File) (h : st.2 ≤ max) :
    (stepFile max s2 st f).2 =
      min max (st.2 + (match pair s2 f with | some (a, b) => (diff a b).length | none => 0)) := by
  unfold stepFile
  cases hp : pair s2 f with
  | none => dsimp only; omega
  | some ab =>
    obtain ⟨a, b⟩ := ab
    dsimp only
    by_cases hd : diff a b ≠ []
    · rw [if_pos hd]; dsimp only; rw [List.length_take]; omega
    · rw [if_neg hd]
      have : diff a b = [] := by simpa using hd
      rw [this]; simp; omega

theorem fold_total (max : Nat) (s2 : List File) (s1 : List File) (st : List Line × Nat) (h : st.2 ≤ max) :
    (s1.foldl (stepFile max s2) st).2 = min max (st.2 + trueCount s1 s2) := by
  induction s1 generalizing st with
  | nil => simp [trueCount]; omega
  | cons f t ih =>
    have e := step_total max s2 st f h
    have hle : (stepFile max s2 st f).2 ≤ max := by rw [e]; omega
    rw [List.foldl_cons, ih _ hle, e]
    simp only [trueCount, List.map_cons, List.sum_cons]
    omega

/-- C202. The total that is printed is the number of differences between the compared pairs, cut at
the limit. -/
theorem total_capped (s1 s2 : List File) (limit : Option Nat) :
    (runDiff s1 s2 limit).2 = min (limit.getD 100) (trueCount s1 s2) := by
  unfold runDiff
  rw [fold_total _ _ _ _ (Nat.zero_le _)]
  simp

theorem trueCount_zero (s1 s2 : List File) :
    trueCount s1 s2 = 0 ↔ ∀ a b, Compared s1 s2 a b → diff a b = [] := by
  unfold trueCount Compared
  have zero : ∀ l : List Nat, l.sum = 0 ↔ ∀ n ∈ l, n = 0 := by
    intro l
    induction l with
    | nil => simp
    | cons a t ih => simp [ih]
  rw [zero]
  constructor
  · intro h a b ⟨f, hf, hp⟩
    have := h _ (List.mem_map.2 ⟨f, hf, rfl⟩)
    rw [hp] at this
    exact List.length_eq_zero_iff.1 this
  · intro h n hn
    obtain ⟨f, hf, rfl⟩ := List.mem_map.1 hn
    cases hp : pair s2 f with
    | none => rfl
    | some ab =>
      dsimp only
      rw [h ab.1 ab.2 ⟨f, hf, hp⟩]; rfl

/-- C202. With a limit of at least one, "No differences found!" is printed exactly when no compared
pair differs. What is missing: a limit of zero, nodes in only one of the sessions, files that cannot be
read, and nodes that share a name. -/
theorem verdict_partial (s1 s2 : List File) (limit : Option Nat) (h : limit ≠ some 0) :
    verdict s1 s2 limit = none ↔ ∀ a b, Compared s1 s2 a b → diff a b = [] := by
  rw [← trueCount_zero, verdict, total_capped]
  have : 0 < limit.getD 100 := by
    cases limit with
    | none => simp
    | some k => have : k ≠ 0 := fun e => h (by rw [e]); simpa using Nat.pos_of_ne_zero this
  by_cases e : min (limit.getD 100) (trueCount s1 s2) = 0
  · rw [if_pos e]; simp; omega
  · rw [if_neg e]; simp; omega

/-- C202 (finding). With `--limit 0` every two sessions are reported as having no differences. -/
theorem limit_zero_blind (s1 s2 : List File) : verdict s1 s2 (some 0) = none := by
  rw [verdict, total_capped]; simp

theorem lookup_mem {fs : List File} {n : Name} {g : File} (h : lookup fs n = some g) :
    g ∈ fs ∧ base g.stem = n := by
  have h1 := List.mem_of_find?_eq_some h
  have h2 := List.find?_some h
  simp only [Bool.and_eq_true, decide_eq_true_eq] at h2
  exact ⟨by simpa using h1, h2.2⟩

/-- C202. In tidy sessions the file of the second session that a node is compared with is the one of
that node. -/
theorem lookup_tidy {fs : List File} (ht : Tidy fs) {g : File} (hg : g ∈ fs) : lookup fs (base g.stem) = some g := by
  cases h : lookup fs (base g.stem) with
  | none =>
    have := List.find?_eq_none.1 h g (by simpa using hg)
    simp [(ht.2 g hg).1] at this
  | some g' =>
    have := lookup_mem h
    exact congrArg some (List.inj_on_of_nodup_map ht.1 this.1 hg this.2)

/-- C202. In tidy sessions every node that both hold is compared, its own recordings with each other,
and nothing else is compared. -/
theorem compared_iff {s1 s2 : List File} (h1 : Tidy s1) (h2 : Tidy s2) (a b : Rec) :
    Compared s1 s2 a b ↔
      ∃ f ∈ s1, ∃ g ∈ s2, base f.stem = base g.stem ∧ f.content = some a ∧ g.content = some b := by
  constructor
  · rintro ⟨f, hf, hp⟩
    rw [pair, if_pos (h1.2 f hf).1] at hp
    cases hl : lookup s2 (base f.stem) with
    | none => rw [hl] at hp; simp at hp
    | some g =>
      rw [hl] at hp
      dsimp only at hp
      have hm := lookup_mem hl
      cases hc : f.content with
      | none => rw [hc] at hp; simp at hp
      | some x =>
        cases hd : g.content with
        | none => rw [hc, hd] at hp; simp at hp
        | some y =>
          rw [hc, hd] at hp
          simp only [Option.some.injEq, Prod.mk.injEq] at hp
          exact ⟨f, hf, g, hm.1, hm.2.symm, by rw [hc, hp.1], by rw [hd, hp.2]⟩
  · rintro ⟨f, hf, g, hg, e, hc, hd⟩
    refine ⟨f, hf, ?_⟩
    rw [pair, if_pos (h1.2 f hf).1, e, lookup_tidy h2 hg, hc]
    dsimp only
    rw [hd]

/-- C202. A tidy session shows no differences from itself, given snapshots as the recorder writes
them. -/
theorem self_same {s : List File} (ht : Tidy s)
    (hr : ∀ f ∈ s, ∀ a, f.content = some a → Inc a.snaps ∧ a.OutsOk) (limit : Option Nat) :
    verdict s s limit = none := by
  by_cases h0 : limit = some 0
  · rw [h0]; exact limit_zero_blind s s
  · refine (verdict_partial s s limit h0).2 ?_
    intro a b hc
    obtain ⟨f, hf, g, hg, e, ha, hb⟩ := (compared_iff ht ht a b).1 hc
    have : f = g := List.inj_on_of_nodup_map ht.1 hf hg e
    subst this
    rw [ha] at hb
    have : a = b := Option.some.inj hb
    subst this
    obtain ⟨hi, ho⟩ := hr f hf a ha
    apply List.eq_nil_iff_forall_not_mem.2
    intro x hx
    cases x with
    | output t k =>
      obtain ⟨-, v, w, hv, hw, hn⟩ := ((diff_spec a a hi hi ho ho t k 0).1).1 hx
      obtain ⟨u1, m1, t1, g1⟩ := hv
      obtain ⟨u2, m2, t2, g2⟩ := hw
      have := Inc.inj hi m1 m2 (by rw [t1, t2])
      subst this
      rw [g1] at g2
      exact hn (Option.some.inj g2)
    | missingOutput t k n =>
      have := ((diff_spec a a hi hi ho ho t k n).2.1).1 hx
      aesop
    | missingTick t n =>
      have := ((diff_spec a a hi hi ho ho t [] n).2.2).1 hx
      aesop

/-- C202 (finding). Nodes recorded only in the second session do not change the report. -/
theorem extra_node_ignored (s1 s2 extra : List File) (limit : Option Nat)
    (h : ∀ f ∈ s1, ∀ g ∈ extra, base g.stem ≠ base f.stem) :
    runDiff s1 (s2 ++ extra) limit = runDiff s1 s2 limit := by
  have key : ∀ f ∈ s1, pair (s2 ++ extra) f = pair s2 f := by
    intro f hf
    unfold pair
    have : lookup (s2 ++ extra) (base f.stem) = lookup s2 (base f.stem) := by
      unfold lookup
      rw [List.reverse_append, List.find?_append]
      have : extra.reverse.find? (fun g => compared g && decide (base g.stem = base f.stem)) = none := by
        apply List.find?_eq_none.2
        intro g hg
        have := h f hf g (by simpa using hg)
        simp [this]
      rw [this]; rfl
    rw [this]
  unfold runDiff
  generalize (([], 0) : List Line × Nat) = st
  induction s1 generalizing st with
  | nil => rfl
  | cons f t ih =>
    rw [List.foldl_cons, List.foldl_cons]
    have : stepFile (limit.getD 100) (s2 ++ extra) st f = stepFile (limit.getD 100) s2 st f := by
      unfold stepFile
      rw [key f List.mem_cons_self]
    rw [this]
    exact ih (fun f hf => h f (List.mem_cons_of_mem _ hf)) (fun f hf => key f (List.mem_cons_of_mem _ hf)) _

/-- One recording with one snapshot that has one output. -/
def oneOut (v : UInt8) : Rec := ⟨2, [], [], [], 0, none, 0, 0, [⟨0, 0, [], [([1], [v])], none, 0, none, false⟩], none, []⟩

/-- C202 (finding). Two nodes named `left/cam` and `right/cam` are both stored under the name `cam`; a
session with both differs from itself. -/
theorem shared_name_differs :
    verdict [⟨"cam@1".toList, some (oneOut 1)⟩, ⟨"cam@2".toList, some (oneOut 2)⟩]
      [⟨"cam@1".toList, some (oneOut 1)⟩, ⟨"cam@2".toList, some (oneOut 2)⟩] none = some 1 := by
  decide +kernel

/-- Non-vacuity: two tidy sessions of two nodes, one of which differs. -/
example : verdict [⟨"cam@1".toList, some (oneOut 1)⟩, ⟨"arm@2".toList, some (oneOut 2)⟩]
      [⟨"arm@7".toList, some (oneOut 2)⟩, ⟨"cam@8".toList, some (oneOut 3)⟩] none = some 1 := by
  decide +kernel

example : Tidy [⟨"cam@1".toList, some (oneOut 1)⟩, ⟨"arm@2".toList, some (oneOut 2)⟩] := by
  refine ⟨by decide +kernel, ?_⟩
  intro f hf
  simp only [List.mem_cons, List.not_mem_nil, or_false] at hf
  rcases hf with rfl | rfl
  · exact ⟨by decide +kernel, by simp⟩
  · exact ⟨by decide +kernel, by simp⟩

end Horus.RecordDiff
