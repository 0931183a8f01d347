import Mathlib.Data.List.Basic
import Mathlib.Data.List.Induction
/-
Comparing two transform recordings: `horus tf diff`.
Source: /repo/horus_manager/src/commands/tf.rs:1399-1566.
The transform tree itself is the crate `horus_tf`, which is not in /repo. What is assumed of it: a
frame is registered once, under a parent that exists (or none); registering it again changes nothing;
an update sets the frame's transform to its parent; the pose of a frame in `world` exists when its
parents lead to `world`, and is their composition.
Simplifications: updates arrive in time order (the newest one counts); transforms are elements of an
arbitrary type with a composition.
-/
namespace Horus.TfDiff

/-- Frame names; frame 0 is `world`. -/
abbrev Name := Nat

/-- Transforms: identity and composition. -/
structure Alg (T : Type) where
  one : T
  mul : T → T → T

/-- A recorded transform (tf.rs:1083-1092). -/
structure Entry (T : Type) where
  static : Bool
  parent : Name
  child : Name
  value : T

/-- A registered frame. -/
structure Frame (T : Type) where
  name : Name
  parent : Option Name
  value : T

/-- The tree: registered frames, newest first. -/
abbrev Tree (T : Type) := List (Frame T)

def has {T : Type} (t : Tree T) (n : Name) : Bool := t.any fun f => f.name = n

/-- `register_frame`, `register_static_frame` of a new frame. -/
def register {T : Type} (t : Tree T) (n : Name) (p : Option Name) (v : T) : Tree T := if has t n then t else ⟨n, p, v⟩ :: t

/-- `update_transform`. -/
def update {T : Type} (t : Tree T) (n : Name) (v : T) : Tree T := t.map fun f => if f.name = n then ⟨f.name, f.parent, v⟩ else f

/-- tf.rs:1544-1563: one entry. -/
def apply {T : Type} (A : Alg T) (t : Tree T) (e : Entry T) : Tree T :=
  let t := register t e.parent none A.one
  if e.static then (if has t e.child then t else register t e.child (some e.parent) e.value)
  else update (if has t e.child then t else register t e.child (some e.parent) A.one) e.child e.value

/-- tf.rs:1539-1566 `build_tf_from_entries`. -/
def build {T : Type} (A : Alg T) (es : List (Entry T)) : Tree T := es.foldl (apply A) (register [] 0 none A.one)

/-- `tf(frame, "world")`. A parent was registered before its child, so it is among the older frames. -/
def pose {T : Type} (A : Alg T) : Tree T → Name → Option T
  | [], _ => none
  | f :: older, n =>
    if f.name = n then
      match f.parent with
      | none => if n = 0 then some A.one else none
      | some p => (pose A older p).map fun q => A.mul q f.value
    else pose A older n

/-- tf.rs:1574-1582 `DiffStatus`. -/
inductive Status
  | same
  | different
  | only1
  | only2
deriving DecidableEq

/-- tf.rs:1429-1482: what is reported for one frame; `none`: nothing. `far` is the test against the
thresholds. -/
def frameDiff {T : Type} (A : Alg T) (far : T → T → Bool) (t1 t2 : Tree T) (n : Name) : Option Status :=
  match has t1 n, has t2 n with
  | true, false => some .only1
  | false, true => some .only2
  | true, true => match pose A t1 n, pose A t2 n with
    | some a, some b => some (if far a b then .different else .same)
    | _, _ => none
  | false, false => none

/-- tf.rs:1422-1484: the report over all frames of both. (Simplification: a frame of both is listed twice; the code takes a set.) -/
def report {T : Type} (A : Alg T) (far : T → T → Bool) (e1 e2 : List (Entry T)) : List (Name × Status) :=
  (((build A e1).map Frame.name) ++ ((build A e2).map Frame.name)).filterMap fun n =>
    (frameDiff A far (build A e1) (build A e2) n).map fun s => (n, s)

/-- tf.rs:1524-1531: "All frames match within threshold." -/
def allMatch {T : Type} (A : Alg T) (far : T → T → Bool) (e1 e2 : List (Entry T)) : Bool :=
  (report A far e1 e2).all fun x => x.2 = .same

/- Specification. -/

/-- A frame occurs in a recording, or is `world`. -/
def Occurs {T : Type} (es : List (Entry T)) (n : Name) : Prop := n = 0 ∨ ∃ e ∈ es, e.parent = n ∨ e.child = n

/-- Every parent is `world` or was a child before, and `world` is no child: frames come after the frame
they hang on. -/
def Ordered {T : Type} : List Name → List (Entry T) → Prop
  | _, [] => True
  | known, e :: es => (e.parent = 0 ∨ e.parent ∈ known) ∧ e.child ≠ 0 ∧ e.child ≠ e.parent ∧ Ordered (e.child :: known) es

/- Proofs. -/

theorem has_iff {T : Type} (t : Tree T) (n : Name) : has t n = true ↔ ∃ f ∈ t, f.name = n := by
  simp [has]

theorem has_register {T : Type} (t : Tree T) (n : Name) (p : Option Name) (v : T) (m : Name) :
    has (register t n p v) m = true ↔ has t m = true ∨ m = n := by
  unfold register
  by_cases h : has t n = true
  · rw [if_pos h]
    constructor
    · exact Or.inl
    · rintro (h' | rfl)
      · exact h'
      · exact h
  · rw [if_neg h]
    simp only [has_iff, List.mem_cons, exists_eq_or_imp]
    constructor
    · rintro (h | h)
      · exact Or.inr h.symm
      · exact Or.inl h
    · rintro (h | h)
      · exact Or.inr h
      · exact Or.inl h.symm

theorem has_update {T : Type} (t : Tree T) (n : Name) (v : T) (m : Name) : has (update t n v) m = has t m := by
  unfold has update
  rw [List.any_map]
  congr 1
  funext f
  simp only [Function.comp]
  split <;> rfl

theorem has_apply {T : Type} (A : Alg T) (t : Tree T) (e : Entry T) (m : Name) :
    has (apply A t e) m = true ↔ has t m = true ∨ m = e.parent ∨ m = e.child := by
  have main : ∀ (v : T), has (if has (register t e.parent none A.one) e.child = true then register t e.parent none A.one
      else register (register t e.parent none A.one) e.child (some e.parent) v) m = true ↔
      has t m = true ∨ m = e.parent ∨ m = e.child := by
    intro v
    by_cases hc : has (register t e.parent none A.one) e.child = true
    · rw [if_pos hc, has_register]
      constructor
      · rintro (h | h)
        · exact Or.inl h
        · exact Or.inr (Or.inl h)
      · rintro (h | h | rfl)
        · exact Or.inl h
        · exact Or.inr h
        · exact (has_register _ _ _ _ _).1 hc
    · rw [if_neg hc, has_register, has_register, or_assoc]
  unfold apply
  dsimp only
  cases e.static with
  | true => rw [if_pos rfl]; exact main _
  | false => rw [if_neg (by simp), has_update]; exact main _

/-- C206. The frames of the tree are those that occur in the recording, and `world`. -/
theorem frames_spec {T : Type} (A : Alg T) (es : List (Entry T)) (n : Name) : has (build A es) n = true ↔ Occurs es n := by
  have key : ∀ (t : Tree T), has (es.foldl (apply A) t) n = true ↔ has t n = true ∨ ∃ e ∈ es, e.parent = n ∨ e.child = n := by
    induction es with
    | nil => intro t; simp
    | cons e r ih =>
      intro t
      rw [List.foldl_cons, ih, has_apply]
      simp only [List.mem_cons, exists_eq_or_imp]
      constructor
      · rintro ((h | h | h) | h)
        · exact Or.inl h
        · exact Or.inr (Or.inl (Or.inl h.symm))
        · exact Or.inr (Or.inl (Or.inr h.symm))
        · exact Or.inr (Or.inr h)
      · rintro (h | (h | h) | h)
        · exact Or.inl (Or.inl h)
        · exact Or.inl (Or.inr (Or.inl h.symm))
        · exact Or.inl (Or.inr (Or.inr h.symm))
        · exact Or.inr h
  unfold build Occurs
  rw [key, has_register]
  simp [has]

/-- Every frame has a pose. -/
def Connected {T : Type} (A : Alg T) (t : Tree T) : Prop := ∀ n, has t n = true → (pose A t n).isSome = true

theorem pose_update {T : Type} (A : Alg T) (t : Tree T) (n : Name) (v : T) (m : Name) :
    (pose A (update t n v) m).isSome = (pose A t m).isSome := by
  induction t generalizing m with
  | nil => rfl
  | cons f r ih =>
    have e : update (f :: r) n v = (if f.name = n then ⟨f.name, f.parent, v⟩ else f) :: update r n v := rfl
    rw [e]
    have hn : (if f.name = n then (⟨f.name, f.parent, v⟩ : Frame T) else f).name = f.name := by split <;> rfl
    have hp : (if f.name = n then (⟨f.name, f.parent, v⟩ : Frame T) else f).parent = f.parent := by split <;> rfl
    unfold pose
    rw [hn, hp]
    by_cases hm : f.name = m
    · rw [if_pos hm, if_pos hm]
      cases f.parent with
      | none => rfl
      | some p => simp only [Option.isSome_map]; exact ih p
    · rw [if_neg hm, if_neg hm]; exact ih m

theorem connected_register {T : Type} (A : Alg T) {t : Tree T} (h : Connected A t) (n p : Name) (v : T) (hp : has t p = true) :
    Connected A (register t n (some p) v) := by
  unfold register
  by_cases hn : has t n = true
  · rw [if_pos hn]; exact h
  · rw [if_neg hn]
    intro m hm
    unfold pose
    dsimp only
    by_cases e : n = m
    · rw [if_pos e]
      simp only [Option.isSome_map]
      exact h p hp
    · rw [if_neg e]
      refine h m ?_
      rw [has_iff] at hm ⊢
      obtain ⟨f, hf, hfm⟩ := hm
      rcases List.mem_cons.1 hf with rfl | hf
      · exact absurd hfm e
      · exact ⟨f, hf, hfm⟩

theorem connected_update {T : Type} (A : Alg T) {t : Tree T} (h : Connected A t) (n : Name) (v : T) : Connected A (update t n v) := by
  intro m hm
  rw [pose_update]
  rw [has_update] at hm
  exact h m hm

/-- C206. When frames are recorded after the frame they hang on, every frame of the recording has a
pose in `world`. -/
theorem ordered_connected {T : Type} (A : Alg T) (es : List (Entry T)) (ho : Ordered [] es) : Connected A (build A es) := by
  have key : ∀ (known : List Name) (t : Tree T), Ordered known es → has t 0 = true → (∀ n ∈ known, has t n = true) → Connected A t →
      Connected A (es.foldl (apply A) t) := by
    clear ho
    induction es with
    | nil => intro _ t _ _ _ h; exact h
    | cons e r ih =>
      intro known t ho h0 hk hc
      obtain ⟨h1, -, -, h4⟩ := ho
      have hp : has t e.parent = true := by
        rcases h1 with h1 | h1
        · rw [h1]; exact h0
        · exact hk _ h1
      have hreg : register t e.parent none A.one = t := by rw [register, if_pos hp]
      rw [List.foldl_cons]
      apply ih (e.child :: known) _ h4
      · exact (has_apply A t e 0).2 (Or.inl h0)
      · intro n hn
        rcases List.mem_cons.1 hn with rfl | hn
        · exact (has_apply A t e _).2 (Or.inr (Or.inr rfl))
        · exact (has_apply A t e n).2 (Or.inl (hk n hn))
      · unfold apply
        dsimp only
        rw [hreg]
        have hnew : ∀ v : T, Connected A (if has t e.child = true then t else register t e.child (some e.parent) v) := by
          intro v
          split
          · exact hc
          · exact connected_register A hc _ _ _ hp
        cases e.static with
        | true => rw [if_pos rfl]; exact hnew _
        | false => rw [if_neg (by simp)]; exact connected_update A (hnew _) _ _
  apply key [] _ ho
  · rw [has_register]; exact Or.inr rfl
  · simp
  · intro n hn
    rw [has_register] at hn
    rcases hn with hn | rfl
    · simp [has] at hn
    · rfl

theorem mem_report {T : Type} (A : Alg T) (far : T → T → Bool) (e1 e2 : List (Entry T)) (n : Name) (s : Status) :
    (n, s) ∈ report A far e1 e2 ↔ frameDiff A far (build A e1) (build A e2) n = some s := by
  unfold report
  rw [List.mem_filterMap]
  constructor
  · rintro ⟨m, -, h⟩
    rw [Option.map_eq_some_iff] at h
    obtain ⟨s', h1, h2⟩ := h
    injection h2 with h2 h3
    rw [← h2, ← h3]; exact h1
  · intro h
    refine ⟨n, ?_, by rw [h]; rfl⟩
    rw [List.mem_append, List.mem_map, List.mem_map]
    unfold frameDiff at h
    split at h
    · rename_i h1 _; exact Or.inl ((has_iff _ _).1 h1)
    · rename_i _ h1; exact Or.inr ((has_iff _ _).1 h1)
    · rename_i h1 _; exact Or.inl ((has_iff _ _).1 h1)
    · cases h

/-- C206. For recordings in which frames come after the frame they hang on, "All frames match" is
printed exactly when both recordings have the same frames and each frame's poses are within the
thresholds. What is missing: recordings in another order. -/
theorem verdict_truth_partial {T : Type} (A : Alg T) (far : T → T → Bool) (e1 e2 : List (Entry T)) (h1 : Ordered [] e1) (h2 : Ordered [] e2) :
    allMatch A far e1 e2 = true ↔
      (∀ n, Occurs e1 n ↔ Occurs e2 n) ∧
      ∀ n, Occurs e1 n → ∃ a b, pose A (build A e1) n = some a ∧ pose A (build A e2) n = some b ∧ far a b = false := by
  have c1 := ordered_connected A e1 h1
  have c2 := ordered_connected A e2 h2
  have hall : allMatch A far e1 e2 = true ↔ ∀ n s, frameDiff A far (build A e1) (build A e2) n = some s → s = .same := by
    unfold allMatch
    rw [List.all_eq_true]
    constructor
    · intro h n s hs
      simpa using h (n, s) ((mem_report A far e1 e2 n s).2 hs)
    · rintro h ⟨n, s⟩ hm
      simpa using h n s ((mem_report A far e1 e2 n s).1 hm)
  rw [hall]
  constructor
  · intro h
    have iff : ∀ n, has (build A e1) n = has (build A e2) n := by
      intro n
      have := h n
      unfold frameDiff at this
      cases hx : has (build A e1) n <;> cases hy : has (build A e2) n
      · rfl
      · rw [hx, hy] at this; exact absurd (this _ rfl) (by simp)
      · rw [hx, hy] at this; exact absurd (this _ rfl) (by simp)
      · rfl
    refine ⟨fun n => by rw [← frames_spec A, ← frames_spec A, iff], ?_⟩
    intro n hn
    have hx : has (build A e1) n = true := (frames_spec A e1 n).2 hn
    have hy : has (build A e2) n = true := by rw [← iff]; exact hx
    obtain ⟨a, ha⟩ := Option.isSome_iff_exists.1 (c1 n hx)
    obtain ⟨b, hb⟩ := Option.isSome_iff_exists.1 (c2 n hy)
    refine ⟨a, b, ha, hb, ?_⟩
    have := h n
    unfold frameDiff at this
    rw [hx, hy, ha, hb] at this
    dsimp only at this
    cases hf : far a b with
    | false => rfl
    | true => rw [hf] at this; exact absurd (this _ rfl) (by simp)
  · rintro ⟨h3, h4⟩ n s hs
    unfold frameDiff at hs
    split at hs
    · rename_i hx hy
      have := (h3 n).1 ((frames_spec A e1 n).1 hx)
      rw [← frames_spec A, hy] at this; cases this
    · rename_i hx hy
      have := (h3 n).2 ((frames_spec A e2 n).1 hy)
      rw [← frames_spec A, hx] at this; cases this
    · rename_i hx hy
      obtain ⟨a, b, ha, hb, hf⟩ := h4 n ((frames_spec A e1 n).1 hx)
      rw [ha, hb] at hs
      dsimp only at hs
      rw [hf] at hs
      simpa using hs.symm
    · cases hs

/-! The poses, from the recording alone. -/

/-- The parent a frame was first recorded with. -/
def parentIn {T : Type} (es : List (Entry T)) (n : Name) : Option Name := (es.find? fun e => e.child = n).map Entry.parent

/-- A frame's transform to its parent: the newest dynamic one, or, when there is none, the first. -/
def valueIn {T : Type} (es : List (Entry T)) (n : Name) : Option T :=
  match (es.reverse.find? fun e => e.child = n ∧ e.static = false) with
  | some e => some e.value
  | none => (es.find? fun e => e.child = n).map Entry.value

/-- The pose of a frame in `world`: its parent's, followed by its own transform. -/
inductive PoseIn {T : Type} (A : Alg T) (es : List (Entry T)) : Name → T → Prop
  | world : PoseIn A es 0 A.one
  | frame (n p : Name) (q v : T) : parentIn es n = some p → valueIn es n = some v → PoseIn A es p q → PoseIn A es n (A.mul q v)

theorem ordered_snoc {T : Type} (known : List Name) (es : List (Entry T)) (e : Entry T) (h : Ordered known (es ++ [e])) :
    Ordered known es ∧ e.child ≠ 0 ∧ e.child ≠ e.parent ∧ (e.parent = 0 ∨ e.parent ∈ known ∨ ∃ x ∈ es, x.child = e.parent) := by
  induction es generalizing known with
  | nil =>
    obtain ⟨h1, h2, h3, -⟩ := h
    exact ⟨trivial, h2, h3, h1.imp_right Or.inl⟩
  | cons x r ih =>
    obtain ⟨h1, h2, h3, h4⟩ := h
    obtain ⟨i1, i2, i3, i4⟩ := ih _ h4
    refine ⟨⟨h1, h2, h3, i1⟩, i2, i3, ?_⟩
    rcases i4 with i4 | i4 | ⟨y, hy, i4⟩
    · exact Or.inl i4
    · rcases List.mem_cons.1 i4 with i4 | i4
      · exact Or.inr (Or.inr ⟨x, List.mem_cons_self, i4.symm⟩)
      · exact Or.inr (Or.inl i4)
    · exact Or.inr (Or.inr ⟨y, List.mem_cons_of_mem _ hy, i4⟩)

/-- Names differ, and a frame's parent is among the older frames. -/
def Nested {T : Type} : Tree T → Prop
  | [] => True
  | f :: older => has older f.name = false ∧ (∀ p, f.parent = some p → has older p = true) ∧ Nested older

theorem nested_update {T : Type} (t : Tree T) (n : Name) (v : T) (h : Nested t) : Nested (update t n v) := by
  induction t with
  | nil => exact h
  | cons f r ih =>
    obtain ⟨h1, h2, h3⟩ := h
    have hn : (if f.name = n then (⟨f.name, f.parent, v⟩ : Frame T) else f).name = f.name := by split <;> rfl
    have hp : (if f.name = n then (⟨f.name, f.parent, v⟩ : Frame T) else f).parent = f.parent := by split <;> rfl
    refine ⟨?_, ?_, ih h3⟩
    · rw [hn]; exact (has_update r n v f.name).trans h1
    · intro p h; rw [hp] at h; exact (has_update r n v p).trans (h2 p h)

/-- What the frames of the tree hold, in terms of the recording. -/
structure Reads {T : Type} (es : List (Entry T)) (t : Tree T) : Prop where
  nested : Nested t
  frames : ∀ f ∈ t, (f.name = 0 ∧ f.parent = none) ∨ (f.name ≠ 0 ∧ f.parent.isSome ∧ f.parent = parentIn es f.name ∧ some f.value = valueIn es f.name)
  all : ∀ n, has t n = true ↔ n = 0 ∨ ∃ e ∈ es, e.child = n

theorem parentIn_snoc {T : Type} (es : List (Entry T)) (e : Entry T) (n : Name) :
    parentIn (es ++ [e]) n = if (∃ x ∈ es, x.child = n) then parentIn es n else if e.child = n then some e.parent else none := by
  unfold parentIn
  rw [List.find?_append]
  by_cases h : ∃ x ∈ es, x.child = n
  · rw [if_pos h]
    obtain ⟨x, hx⟩ : ∃ x, es.find? (fun e => e.child = n) = some x := by
      rw [← Option.isSome_iff_exists, List.find?_isSome]
      simpa using h
    rw [hx]; rfl
  · rw [if_neg h]
    have : es.find? (fun e => e.child = n) = none := by
      rw [List.find?_eq_none]; intro x hx; simpa using fun hc => h ⟨x, hx, hc⟩
    rw [this]
    by_cases hc : e.child = n <;> simp [hc]

theorem valueIn_snoc {T : Type} (es : List (Entry T)) (e : Entry T) (n : Name) :
    valueIn (es ++ [e]) n = if e.child = n ∧ e.static = false then some e.value
      else if (∃ x ∈ es, x.child = n) then valueIn es n else if e.child = n then some e.value else none := by
  unfold valueIn
  rw [List.reverse_append, List.reverse_singleton, List.singleton_append, List.find?_cons]
  by_cases h1 : e.child = n ∧ e.static = false
  · rw [if_pos h1]; simp [h1]
  · rw [if_neg h1]
    have hd : decide (e.child = n ∧ e.static = false) = false := by simpa using h1
    rw [hd]
    dsimp only
    by_cases h : ∃ x ∈ es, x.child = n
    · rw [if_pos h]
      cases hq : es.reverse.find? (fun e => e.child = n ∧ e.static = false) with
      | some y => rfl
      | none =>
        dsimp only
        rw [List.find?_append]
        obtain ⟨x, hx⟩ : ∃ x, es.find? (fun e => e.child = n) = some x := by
          rw [← Option.isSome_iff_exists, List.find?_isSome]
          simpa using h
        rw [hx]; rfl
    · rw [if_neg h]
      have hr : es.reverse.find? (fun e => e.child = n ∧ e.static = false) = none := by
        rw [List.find?_eq_none]; intro x hx; simpa using fun hc => absurd ⟨x, by simpa using hx, hc⟩ h
      have : es.find? (fun e => e.child = n) = none := by
        rw [List.find?_eq_none]; intro x hx; simpa using fun hc => h ⟨x, hx, hc⟩
      rw [hr]
      dsimp only
      rw [List.find?_append, this]
      by_cases hc : e.child = n <;> simp [hc]

theorem mem_update {T : Type} (t : Tree T) (n : Name) (v : T) (f : Frame T) (h : f ∈ update t n v) :
    ∃ g ∈ t, f.name = g.name ∧ f.parent = g.parent ∧ f.value = if g.name = n then v else g.value := by
  unfold update at h
  obtain ⟨g, hg, e⟩ := List.mem_map.1 h
  refine ⟨g, hg, ?_⟩
  subst e
  by_cases hn : g.name = n
  · rw [if_pos hn, if_pos hn]; exact ⟨rfl, rfl, rfl⟩
  · rw [if_neg hn, if_neg hn]; exact ⟨rfl, rfl, rfl⟩

theorem build_reads {T : Type} (A : Alg T) (es : List (Entry T)) (ho : Ordered [] es) : Reads es (build A es) := by
  induction es using List.reverseRecOn with
  | nil =>
    refine ⟨⟨rfl, by simp, trivial⟩, ?_, ?_⟩
    · intro f hf
      have : f = ⟨0, none, A.one⟩ := by simpa [build, register, has] using hf
      subst this
      exact Or.inl ⟨rfl, rfl⟩
    · intro n
      simp [build, register, has, eq_comm]
  | append_singleton es e ih =>
    obtain ⟨ho', hc0, hcp, hpar⟩ := ordered_snoc [] es e ho
    have R := ih ho'
    have hb : build A (es ++ [e]) = apply A (build A es) e := by unfold build; rw [List.foldl_append]; rfl
    rw [hb]
    generalize build A es = t at R
    have hp : has t e.parent = true := by
      rw [R.all]
      rcases hpar with h | h | h
      · exact Or.inl h
      · exact absurd h (by simp)
      · exact Or.inr h
    have hreg : register t e.parent none A.one = t := by rw [register, if_pos hp]
    have hall : ∀ n, has (apply A t e) n = true ↔ n = 0 ∨ ∃ x ∈ es ++ [e], x.child = n := by
      intro n
      rw [has_apply, R.all]
      constructor
      · rintro ((h | ⟨x, hx, h⟩) | h | h)
        · exact Or.inl h
        · exact Or.inr ⟨x, by simp [hx], h⟩
        · subst h
          rcases (R.all e.parent).1 hp with h' | ⟨x, hx, h'⟩
          · exact Or.inl h'
          · exact Or.inr ⟨x, by simp [hx], h'⟩
        · exact Or.inr ⟨e, by simp, h.symm⟩
      · rintro (h | ⟨x, hx, h⟩)
        · exact Or.inl (Or.inl h)
        · rcases List.mem_append.1 hx with hx | hx
          · exact Or.inl (Or.inr ⟨x, hx, h⟩)
          · rw [List.mem_singleton] at hx; subst hx; exact Or.inr (Or.inr h.symm)
    -- an older frame that is not this child
    have hold : ∀ f ∈ t, f.name ≠ e.child → (f.name = 0 ∧ f.parent = none) ∨ (f.name ≠ 0 ∧ f.parent.isSome ∧ f.parent = parentIn (es ++ [e]) f.name ∧ some f.value = valueIn (es ++ [e]) f.name) := by
      intro f hf hne
      rcases R.frames f hf with h | ⟨h0, h1, h2, h3⟩
      · exact Or.inl h
      · have hex : ∃ x ∈ es, x.child = f.name := by
          rcases (R.all f.name).1 ((has_iff t f.name).2 ⟨f, hf, rfl⟩) with h | h
          · exact absurd h h0
          · exact h
        refine Or.inr ⟨h0, h1, ?_, ?_⟩
        · rw [parentIn_snoc, if_pos hex]; exact h2
        · rw [valueIn_snoc, if_neg (fun h => hne h.1.symm), if_pos hex]; exact h3
    unfold apply at hall ⊢
    dsimp only at hall ⊢
    rw [hreg] at hall ⊢
    by_cases hh : has t e.child = true
    · simp only [if_pos hh] at hall ⊢
      have hex : ∃ x ∈ es, x.child = e.child := by
        rcases (R.all e.child).1 hh with h | h
        · exact absurd h hc0
        · exact h
      have hchild : ∀ f ∈ t, f.name = e.child → f.parent.isSome ∧ f.parent = parentIn (es ++ [e]) f.name ∧ some f.value = valueIn es f.name := by
        intro f hf hn
        rcases R.frames f hf with ⟨h, -⟩ | ⟨-, h1, h2, h3⟩
        · exact absurd (hn ▸ h) hc0
        · exact ⟨h1, by rw [parentIn_snoc, if_pos (hn ▸ hex)]; exact h2, h3⟩
      cases hst : e.static with
      | true =>
        rw [hst, if_pos rfl] at hall
        rw [if_pos rfl]
        refine ⟨R.nested, ?_, hall⟩
        intro f hf
        by_cases hn : f.name = e.child
        · obtain ⟨h1, h2, h3⟩ := hchild f hf hn
          refine Or.inr ⟨hn ▸ hc0, h1, h2, ?_⟩
          rw [valueIn_snoc, if_neg (by rw [hst]; simp), if_pos (hn ▸ hex)]; exact h3
        · exact hold f hf hn
      | false =>
        rw [hst, if_neg (by simp)] at hall
        rw [if_neg (by simp)]
        refine ⟨nested_update _ _ _ R.nested, ?_, hall⟩
        intro f hf
        obtain ⟨g, hg, e1, e2, e3⟩ := mem_update _ _ _ _ hf
        by_cases hn : g.name = e.child
        · obtain ⟨h1, h2, -⟩ := hchild g hg hn
          rw [if_pos hn] at e3
          refine Or.inr ⟨e1 ▸ hn ▸ hc0, e2 ▸ h1, by rw [e2, e1]; exact h2, ?_⟩
          rw [e3, valueIn_snoc, if_pos ⟨by rw [e1, hn], hst⟩]
        · rw [if_neg hn] at e3
          rw [e1, e2, e3]
          exact hold g hg hn
    · simp only [if_neg hh] at hall ⊢
      have hhf : has t e.child = false := by simpa using hh
      have hnex : ¬ ∃ x ∈ es, x.child = e.child := fun h => hh ((R.all _).2 (Or.inr h))
      have hne : ∀ f ∈ t, f.name ≠ e.child := fun f hf h => hh ((has_iff _ _).2 ⟨f, hf, h⟩)
      have hr : ∀ v : T, register t e.child (some e.parent) v = ⟨e.child, some e.parent, v⟩ :: t := fun v => by rw [register, if_neg hh]
      have hnest : ∀ v : T, Nested (⟨e.child, some e.parent, v⟩ :: t) := fun v => ⟨hhf, fun p h => by injection h with h; rw [← h]; exact hp, R.nested⟩
      have hpn : parentIn (es ++ [e]) e.child = some e.parent := by rw [parentIn_snoc, if_neg hnex, if_pos rfl]
      have hvn : valueIn (es ++ [e]) e.child = some e.value := by
        rw [valueIn_snoc]
        by_cases hs : e.child = e.child ∧ e.static = false
        · rw [if_pos hs]
        · rw [if_neg hs, if_neg hnex, if_pos rfl]
      simp only [hr] at hall ⊢
      cases hst : e.static with
      | true =>
        rw [hst, if_pos rfl] at hall
        rw [if_pos rfl]
        refine ⟨hnest _, ?_, hall⟩
        intro f hf
        rcases List.mem_cons.1 hf with rfl | hf
        · exact Or.inr ⟨hc0, rfl, hpn.symm, hvn.symm⟩
        · exact hold f hf (hne f hf)
      | false =>
        rw [hst, if_neg (by simp)] at hall
        rw [if_neg (by simp)]
        refine ⟨nested_update _ _ _ (hnest _), ?_, hall⟩
        intro f hf
        obtain ⟨g, hg, e1, e2, e3⟩ := mem_update _ _ _ _ hf
        rcases List.mem_cons.1 hg with rfl | hg
        · rw [if_pos rfl] at e3
          dsimp only at e1 e2
          rw [e1, e2, e3]
          exact Or.inr ⟨hc0, rfl, hpn.symm, hvn.symm⟩
        · rw [if_neg (hne g hg)] at e3
          rw [e1, e2, e3]
          exact hold g hg (hne g hg)

theorem pose_has {T : Type} (A : Alg T) (t : Tree T) (n : Name) (a : T) (h : pose A t n = some a) : has t n = true := by
  induction t with
  | nil => cases h
  | cons f r ih =>
    unfold pose at h
    by_cases hn : f.name = n
    · exact (has_iff _ _).2 ⟨f, List.mem_cons_self, hn⟩
    · rw [if_neg hn] at h
      obtain ⟨g, hg, e⟩ := (has_iff _ _).1 (ih h)
      exact (has_iff _ _).2 ⟨g, List.mem_cons_of_mem _ hg, e⟩

theorem pose_older {T : Type} (A : Alg T) (f : Frame T) (t : Tree T) (n : Name) (h1 : has t f.name = false) (h2 : has t n = true) : pose A (f :: t) n = pose A t n := by
  rw [pose, if_neg]
  intro e
  rw [e, h2] at h1
  cases h1

theorem pose_frame {T : Type} (A : Alg T) (t : Tree T) (h : Nested t) (f : Frame T) (hf : f ∈ t) :
    (∀ p, f.parent = some p → pose A t f.name = (pose A t p).map fun q => A.mul q f.value) ∧ (f.parent = none → pose A t f.name = if f.name = 0 then some A.one else none) := by
  induction t with
  | nil => cases hf
  | cons g r ih =>
    obtain ⟨h1, h2, h3⟩ := h
    rcases List.mem_cons.1 hf with rfl | hf
    · refine ⟨fun p hp => ?_, fun hp => ?_⟩
      · rw [pose_older A f r p h1 (h2 p hp), pose, if_pos rfl, hp]
      · rw [pose, if_pos rfl, hp]
    · have hn : has r f.name = true := (has_iff _ _).2 ⟨f, hf, rfl⟩
      rw [pose_older A g r f.name h1 hn]
      refine ⟨fun p hp => ?_, (ih h3 hf).2⟩
      rw [(ih h3 hf).1 p hp]
      have hpar : has r p = true := by
        clear ih h1 h2 hn
        rename_i hf0
        clear hf0
        induction r with
        | nil => cases hf
        | cons x r ih =>
          obtain ⟨k1, k2, k3⟩ := h3
          rcases List.mem_cons.1 hf with rfl | hf
          · obtain ⟨y, hy, e⟩ := (has_iff _ _).1 (k2 p hp)
            exact (has_iff _ _).2 ⟨y, List.mem_cons_of_mem _ hy, e⟩
          · obtain ⟨y, hy, e⟩ := (has_iff _ _).1 (ih k3 hf)
            exact (has_iff _ _).2 ⟨y, List.mem_cons_of_mem _ hy, e⟩
      rw [pose_older A g r p h1 hpar]

/-- C206. When frames are recorded after the frame they hang on, the pose that is compared is the one the
recording says: the composition, from `world` down, of the newest transforms. -/
theorem pose_truth {T : Type} (A : Alg T) (es : List (Entry T)) (ho : Ordered [] es) (n : Name) (a : T) : pose A (build A es) n = some a ↔ PoseIn A es n a := by
  have R := build_reads A es ho
  have h0 : pose A (build A es) 0 = some A.one := by
    obtain ⟨f, hf, e⟩ := (has_iff _ _).1 ((R.all 0).2 (Or.inl rfl))
    rcases R.frames f hf with ⟨h1, h2⟩ | ⟨h1, -⟩
    · have := (pose_frame A _ R.nested f hf).2 h2
      rw [e, if_pos rfl] at this
      exact this
    · exact absurd e h1
  have hstep : ∀ m p v, parentIn es m = some p → valueIn es m = some v → m ≠ 0 → pose A (build A es) m = (pose A (build A es) p).map fun q => A.mul q v := by
    intro m p v hp hv hm
    have hm' : has (build A es) m = true := by
      refine (R.all m).2 (Or.inr ?_)
      unfold parentIn at hp
      obtain ⟨x, hx, -⟩ := Option.map_eq_some_iff.1 hp
      exact ⟨x, List.mem_of_find?_eq_some hx, by simpa using List.find?_some hx⟩
    obtain ⟨f, hf, e⟩ := (has_iff _ _).1 hm'
    subst e
    rcases R.frames f hf with ⟨h1, -⟩ | ⟨-, -, h2, h3⟩
    · exact absurd h1 hm
    · rw [hp] at h2
      rw [hv] at h3
      injection h3 with h3
      rw [(pose_frame A _ R.nested f hf).1 p h2, h3]
  have hchild0 : parentIn es 0 = none := by
    unfold parentIn
    rw [Option.map_eq_none_iff, List.find?_eq_none]
    intro x hx
    have : ∀ (known : List Name) (es : List (Entry T)), Ordered known es → ∀ x ∈ es, x.child ≠ 0 := by
      intro known es
      induction es generalizing known with
      | nil => intro _ x hx; cases hx
      | cons y r ih =>
        rintro ⟨-, h2, -, h4⟩ x hx
        rcases List.mem_cons.1 hx with rfl | hx
        · exact h2
        · exact ih _ h4 x hx
    simpa using this [] es ho x hx
  constructor
  · -- by induction on the older part of the tree
    intro h
    have key : ∀ (t' : Tree T), (∀ f ∈ t', f ∈ build A es) → ∀ m b, pose A t' m = some b → PoseIn A es m b := by
      intro t'
      induction t' with
      | nil => intro _ m b h; cases h
      | cons f r ih =>
        intro hsub m b h
        unfold pose at h
        by_cases hn : f.name = m
        · rw [if_pos hn] at h
          subst hn
          rcases R.frames f (hsub f List.mem_cons_self) with ⟨h1, h2⟩ | ⟨h1, h2, h3, h4⟩
          · rw [h2] at h
            dsimp only at h
            rw [if_pos h1] at h
            injection h with h
            rw [← h, h1]
            exact .world
          · obtain ⟨p, hp⟩ := Option.isSome_iff_exists.1 h2
            rw [hp] at h
            dsimp only at h
            obtain ⟨q, hq, e⟩ := Option.map_eq_some_iff.1 h
            rw [← e]
            exact .frame _ p q _ (by rw [← h3]; exact hp) h4.symm (ih (fun g hg => hsub g (List.mem_cons_of_mem _ hg)) p q hq)
        · rw [if_neg hn] at h
          exact ih (fun g hg => hsub g (List.mem_cons_of_mem _ hg)) m b h
    exact key _ (fun _ h => h) n a h
  · intro h
    induction h with
    | world => exact h0
    | frame m p q v hp hv _ ih =>
      by_cases hm : m = 0
      · rw [hm, hchild0] at hp; cases hp
      · rw [hstep m p v hp hv hm, ih]; rfl

/-- C206. For recordings in which frames come after the frame they hang on, "All frames match" is
printed exactly when both recordings have the same frames and the poses they give each frame are within
the thresholds. -/
theorem verdict_poses_partial {T : Type} (A : Alg T) (far : T → T → Bool) (e1 e2 : List (Entry T)) (h1 : Ordered [] e1) (h2 : Ordered [] e2) :
    allMatch A far e1 e2 = true ↔
      (∀ n, Occurs e1 n ↔ Occurs e2 n) ∧ ∀ n, Occurs e1 n → ∃ a b, PoseIn A e1 n a ∧ PoseIn A e2 n b ∧ far a b = false := by
  rw [verdict_truth_partial A far e1 e2 h1 h2]
  simp only [pose_truth A e1 h1, pose_truth A e2 h2]

/-- C206. A frame in only one recording is always reported. -/
theorem one_sided_reported {T : Type} (A : Alg T) (far : T → T → Bool) (e1 e2 : List (Entry T)) (n : Name) (h1 : Occurs e1 n) (h2 : ¬ Occurs e2 n) :
    (n, Status.only1) ∈ report A far e1 e2 ∧ (n, Status.only2) ∈ report A far e2 e1 := by
  have hx : has (build A e1) n = true := (frames_spec A e1 n).2 h1
  have hy : has (build A e2) n = false := by
    cases h : has (build A e2) n with
    | false => rfl
    | true => exact absurd ((frames_spec A e2 n).1 h) h2
  rw [mem_report, mem_report]
  unfold frameDiff
  rw [hx, hy]
  exact ⟨rfl, rfl⟩

/-- Transforms along a line, for examples. -/
def line : Alg Int := ⟨0, fun a b => a + b⟩

/-- Differ by more than one unit. -/
def far1 (a b : Int) : Bool := decide (a - b > 1 ∨ b - a > 1)

/-- C206 (finding). A frame recorded before the frame it hangs on is left out of the comparison: two
recordings in which the sensor stands a thousand units apart "match". -/
theorem late_parent_unseen :
    allMatch line far1 [⟨false, 1, 2, 5⟩, ⟨false, 0, 1, 7⟩] [⟨false, 1, 2, 1005⟩, ⟨false, 0, 1, 7007⟩] = true ∧
    allMatch line far1 [⟨false, 0, 1, 7⟩, ⟨false, 1, 2, 5⟩] [⟨false, 0, 1, 7007⟩, ⟨false, 1, 2, 1005⟩] = false := by
  decide +kernel

/-- C206 (finding). A frame moved to another parent keeps its first parent with its newest transform:
its pose is one it never had. -/
theorem reparent_mixed :
    pose line (build line [⟨false, 0, 1, 100⟩, ⟨false, 0, 2, 200⟩, ⟨false, 1, 3, 1⟩, ⟨false, 2, 3, 5⟩]) 3 = some 105 := by
  decide +kernel

example : PoseIn line [⟨false, 0, 1, 7⟩, ⟨true, 1, 2, 5⟩, ⟨false, 0, 1, 8⟩] 2 (0 + 8 + 5) :=
  .frame 2 1 (0 + 8) 5 rfl rfl (.frame 1 0 0 8 rfl rfl .world)

/-- Non-vacuity: ordered recordings with three frames, one of which differs. -/
example : Ordered [] ([⟨false, 0, 1, 7⟩, ⟨true, 1, 2, 5⟩, ⟨false, 0, 1, 8⟩] : List (Entry Int)) ∧
    report line far1 [⟨false, 0, 1, 7⟩, ⟨true, 1, 2, 5⟩] [⟨false, 0, 1, 7⟩, ⟨true, 1, 2, 50⟩] =
      [(2, .different), (1, .same), (0, .same), (2, .different), (1, .same), (0, .same)] := by
  refine ⟨by simp [Ordered], by decide +kernel⟩

end Horus.TfDiff
