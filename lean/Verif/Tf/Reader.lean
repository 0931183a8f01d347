import Mathlib.Data.List.Basic
import Mathlib.Data.List.Nodup
import Mathlib.Data.List.Induction
import Mathlib.Tactic.Common
/-
The transforms the `horus tf` commands see. Source: /repo/horus_manager/src/commands/tf.rs:42-262 (TransformFrameReader),
590-698 (the printed tree). The transform tree is the crate `horus_tf`, which is not in /repo; assumed of it: a frame is
registered once, under a parent or none, and keeps that parent; an update changes its transform only. Transforms and
times are one value. A hash map is listed in an order that is a parameter.
-/
namespace Horus.TfReader

abbrev Name := String

/-! ### The model -/

/-- A received transform (`TransformStamped`): its value stands for the transform and the time. -/
structure Stamped (V : Type) where
  parent : Name
  child : Name
  value : V

/-- tf.rs:27-39 `FrameData`. -/
structure FrameData (V : Type) where
  child : Name
  parent : Name
  value : V
  static : Bool
  updates : Nat
deriving DecidableEq

/-- A pending transform: child and parent (tf.rs:46); transform, time and kind do not decide the links. -/
abbrev Pend := Name × Name

structure Reader (V : Type) where
  data : List (FrameData V)
  pending : List Pend

/-- tf.rs:209-212: `HashMap::insert`. -/
def insertPending (l : List Pend) (e : Pend) : List Pend := e :: l.filter fun x => x.1 ≠ e.1

/-- tf.rs:199-229 `add_transform`. -/
def addTransform {V : Type} (r : Reader V) (m : Stamped V) (static : Bool) : Reader V :=
  if m.parent = "" ∨ m.child = "" then r
  else
    { pending := insertPending r.pending (m.child, m.parent)
      data := if r.data.any (fun d => decide (d.child = m.child))
        then r.data.map fun d => if d.child = m.child then { d with value := m.value, updates := d.updates + 1 } else d
        else r.data ++ [⟨m.child, m.parent, m.value, static, 1⟩] }

/-- The registered frames, each with its parent. -/
abbrev Tree := List (Name × Option Name)

def names (t : Tree) : List Name := t.map Prod.fst

/-- `register_frame`, `register_static_frame`, behind `!has_frame`. -/
def reg (t : Tree) (n : Name) (p : Option Name) : Tree := if n ∈ names t then t else t ++ [(n, p)]

/-- tf.rs:122-128: parents that are no children. -/
def rootsOf (pend : List Pend) : List Name := (pend.map Prod.snd).filter fun p => decide (p ∉ pend.map Prod.fst)

/-- tf.rs:152-175: one pending transform; those whose parent is not there stay. -/
def visit (s : Tree × List Pend) (e : Pend) : Tree × List Pend :=
  if e.2 ∈ names s.1 then (reg s.1 e.1 (some e.2), s.2) else (s.1, s.2 ++ [e])

/-- tf.rs:184-190: every parent still missing becomes a root. -/
def adopt (t : Tree) (left : List Pend) : Tree := left.foldl (fun t e => reg t e.2 none) t

/-- tf.rs:148-191; `sh` is the order in which the map is listed. -/
def rounds (sh : List Pend → List Pend) : Nat → Tree → List Pend → Tree
  | 0, t, _ => t
  | n + 1, t, rem =>
    if rem = [] then t
    else rounds sh n (adopt ((sh rem).foldl visit (t, [])).1 ((sh rem).foldl visit (t, [])).2) ((sh rem).foldl visit (t, [])).2

/-- tf.rs:116-195 `process_pending_transforms`. -/
def process (sh : List Pend → List Pend) (t : Tree) (pend : List Pend) : Tree :=
  rounds sh (2 * pend.length) ((rootsOf pend).foldl (fun t n => reg t n none) t) pend

/-- The parent a registered frame has. -/
def parentOf (t : Tree) (n : Name) : Option (Option Name) := t.lookup n

/-- tf.rs:610-617: what is printed under a frame; `fd` is child and parent of each frame known. -/
def under (fd : List Pend) : Nat → Name → List Name
  | 0, _ => []
  | n + 1, p => ((fd.filter fun e => decide (e.2 = p)).map Prod.fst).flatMap fun c => c :: under fd n c

/-- tf.rs:655-694: the frames printed: from each parent that is no child. -/
def printed (fd : List Pend) : List Name := (rootsOf fd).flatMap fun r => r :: under fd fd.length r

/-! ### C215: what is shown of a frame -/

/-- The messages about a frame that count. -/
def about {V : Type} (c : Name) (ms : List (Stamped V × Bool)) : List (Stamped V × Bool) :=
  ms.filter fun m => decide (m.1.child = c ∧ m.1.parent ≠ "" ∧ m.1.child ≠ "")

def received {V : Type} (ms : List (Stamped V × Bool)) : Reader V := ms.foldl (fun r m => addTransform r m.1 m.2) ⟨[], []⟩

/-- A frame is shown with the last value received, the number of messages, and the parent and the kind of the first. -/
theorem shown_exact {V : Type} (ms : List (Stamped V × Bool)) (d : FrameData V) :
    d ∈ (received ms).data ↔
      ∃ first last, (about d.child ms).head? = some first ∧ (about d.child ms).getLast? = some last ∧
        d = ⟨d.child, first.1.parent, last.1.value, first.2, (about d.child ms).length⟩ := by
  have key : ∀ (ms : List (Stamped V × Bool)), ∀ d, d ∈ (received ms).data ↔
      ∃ first last, (about d.child ms).head? = some first ∧ (about d.child ms).getLast? = some last ∧
        d = ⟨d.child, first.1.parent, last.1.value, first.2, (about d.child ms).length⟩ := by
    intro ms
    induction ms using List.reverseRecOn with
    | nil => intro d; simp [received, about]
    | append_singleton ms m ih =>
      intro d
      have hr : received (ms ++ [m]) = addTransform (received ms) m.1 m.2 := by simp [received]
      rw [hr]
      unfold addTransform
      by_cases he : m.1.parent = "" ∨ m.1.child = ""
      · rw [if_pos he, ih d]
        have hab : about d.child (ms ++ [m]) = about d.child ms := by
          unfold about
          rw [List.filter_append]
          have : [m].filter (fun m => decide (m.1.child = d.child ∧ m.1.parent ≠ "" ∧ m.1.child ≠ "")) = [] := by
            rw [List.filter_cons_of_neg]
            · rfl
            · rw [decide_eq_true_eq]; tauto
          rw [this, List.append_nil]
        rw [hab]
      · rw [if_neg he]
        rw [not_or] at he
        dsimp only
        have hab : ∀ c, about c (ms ++ [m]) = about c ms ++ if m.1.child = c then [m] else [] := by
          intro c
          unfold about
          rw [List.filter_append]
          congr 1
          by_cases hc : m.1.child = c
          · rw [if_pos hc, List.filter_cons_of_pos (by rw [decide_eq_true_eq]; exact ⟨hc, he.1, he.2⟩)]; rfl
          · rw [if_neg hc, List.filter_cons_of_neg (by rw [decide_eq_true_eq]; tauto)]; rfl
        have hany : ((received ms).data.any fun d => decide (d.child = m.1.child)) = true ↔ about m.1.child ms ≠ [] := by
          rw [List.any_eq_true]
          constructor
          · rintro ⟨x, hx, hc⟩ hn
            rw [decide_eq_true_eq] at hc
            obtain ⟨f, l, h1, _⟩ := (ih x).mp hx
            rw [hc, hn] at h1
            cases h1
          · intro hn
            cases h1 : (about m.1.child ms).head? with
            | none => rw [List.head?_eq_none_iff] at h1; exact absurd h1 hn
            | some f =>
              cases h2 : (about m.1.child ms).getLast? with
              | none => rw [List.getLast?_eq_none_iff] at h2; exact absurd h2 hn
              | some l =>
                refine ⟨⟨m.1.child, f.1.parent, l.1.value, f.2, (about m.1.child ms).length⟩, ?_, by simp⟩
                exact (ih _).mpr ⟨f, l, h1, h2, rfl⟩
        by_cases hseen : ((received ms).data.any fun d => decide (d.child = m.1.child)) = true
        · rw [if_pos hseen, List.mem_map]
          have hne := hany.mp hseen
          constructor
          · rintro ⟨x, hx, rfl⟩
            obtain ⟨f, l, h1, h2, h3⟩ := (ih x).mp hx
            by_cases hc : x.child = m.1.child
            · rw [if_pos hc]
              dsimp only
              rw [hab, if_pos hc.symm]
              refine ⟨f, m, ?_, by simp, ?_⟩
              · rw [List.head?_append, h1]; rfl
              · rw [h3]; simp
            · rw [if_neg hc, hab, if_neg (fun h => hc h.symm), List.append_nil]
              exact ⟨f, l, h1, h2, h3⟩
          · rintro ⟨f, l, h1, h2, h3⟩
            rw [hab] at h1 h2 h3
            by_cases hc : m.1.child = d.child
            · rw [if_pos hc] at h1 h2 h3
              rw [hc] at hne
              cases h1' : (about d.child ms).head? with
              | none => rw [List.head?_eq_none_iff] at h1'; exact absurd h1' hne
              | some f' =>
                cases h2' : (about d.child ms).getLast? with
                | none => rw [List.getLast?_eq_none_iff] at h2'; exact absurd h2' hne
                | some l' =>
                  rw [List.head?_append, h1'] at h1
                  cases h1
                  rw [List.getLast?_concat] at h2
                  cases h2
                  refine ⟨⟨d.child, f.1.parent, l'.1.value, f.2, (about d.child ms).length⟩, ?_, ?_⟩
                  · exact (ih _).mpr ⟨f, l', h1', h2', rfl⟩
                  · dsimp only
                    rw [if_pos hc.symm]
                    conv_rhs => rw [h3]
                    simp
            · rw [if_neg hc, List.append_nil] at h1 h2 h3
              refine ⟨d, (ih d).mpr ⟨f, l, h1, h2, h3⟩, ?_⟩
              rw [if_neg (fun h => hc h.symm)]
        · rw [if_neg hseen, List.mem_append, List.mem_singleton]
          have hnil : about m.1.child ms = [] := by
            by_contra h
            exact hseen (hany.mpr h)
          constructor
          · rintro (h | h)
            · obtain ⟨f, l, h1, h2, h3⟩ := (ih d).mp h
              have hc : m.1.child ≠ d.child := by
                intro e
                rw [← e, hnil] at h1; cases h1
              rw [hab, if_neg hc, List.append_nil]
              exact ⟨f, l, h1, h2, h3⟩
            · rw [h]
              dsimp only
              rw [hab, if_pos rfl, hnil]
              exact ⟨m, m, rfl, rfl, rfl⟩
          · rintro ⟨f, l, h1, h2, h3⟩
            rw [hab] at h1 h2 h3
            by_cases hc : m.1.child = d.child
            · rw [if_pos hc, ← hc, hnil] at h1 h2 h3
              cases h1; cases h2
              exact Or.inr h3
            · rw [if_neg hc, List.append_nil] at h1 h2 h3
              exact Or.inl ((ih d).mpr ⟨f, l, h1, h2, h3⟩)
  exact key ms d

/-- A frame moved to another parent is shown under the old one, with the transform to the new one. -/
theorem moved_frame_misshown : (received [((⟨"table", "cup", 1⟩ : Stamped Nat), false), (⟨"gripper", "cup", 2⟩, false)]).data =
    [⟨"cup", "table", 2, false, 2⟩] := by
  decide +kernel

/-! ### C215: the links -/

theorem names_reg (t : Tree) (n : Name) (p : Option Name) (x : Name) : x ∈ names (reg t n p) ↔ x ∈ names t ∨ x = n := by
  unfold reg
  by_cases h : n ∈ names t
  · rw [if_pos h]
    exact ⟨Or.inl, fun hx => hx.elim id (fun e => e ▸ h)⟩
  · rw [if_neg h]
    simp [names]

theorem mem_reg {t : Tree} {n : Name} {p : Option Name} {x : Name × Option Name} (h : x ∈ reg t n p) : x ∈ t ∨ x = (n, p) := by
  unfold reg at h
  by_cases hn : n ∈ names t
  · rw [if_pos hn] at h; exact Or.inl h
  · rw [if_neg hn, List.mem_append, List.mem_singleton] at h; exact h

/-- A round: names only grow, and each transform visited is either registered or left over. -/
theorem round_spec (P : Tree → Prop) (order : List Pend) (hP : ∀ t, ∀ e ∈ order, P t → e.2 ∈ names t → P (reg t e.1 (some e.2))) :
    ∀ (t : Tree) (left : List Pend), P t →
      P (order.foldl visit (t, left)).1 ∧
      (∀ x ∈ names t, x ∈ names (order.foldl visit (t, left)).1) ∧
      (∀ e ∈ order, (e.1 ∈ names (order.foldl visit (t, left)).1 ∧ e.2 ∈ names (order.foldl visit (t, left)).1) ∨ (e ∈ (order.foldl visit (t, left)).2 ∧ e.2 ∉ names t)) ∧
      (∀ e ∈ (order.foldl visit (t, left)).2, e ∈ left ∨ e ∈ order) ∧
      (∀ e ∈ left, e ∈ (order.foldl visit (t, left)).2) := by
  induction order with
  | nil => intro t left h; exact ⟨h, fun x hx => hx, fun e he => (nomatch he), fun e he => Or.inl he, fun e he => he⟩
  | cons a order ih =>
    intro t left hp
    rw [List.foldl_cons]
    have ih := ih (fun t e he => hP t e (List.mem_cons_of_mem _ he))
    unfold visit
    dsimp only
    by_cases ha : a.2 ∈ names t
    · rw [if_pos ha]
      obtain ⟨h1, h2, h3, h4, h5⟩ := ih (reg t a.1 (some a.2)) left (hP t a List.mem_cons_self hp ha)
      unfold visit at h1 h2 h3 h4 h5
      refine ⟨h1, fun x hx => h2 x ((names_reg _ _ _ _).mpr (Or.inl hx)), ?_, ?_, h5⟩
      · intro e he
        rcases List.mem_cons.mp he with he | he
        · rw [he]
          exact Or.inl ⟨h2 _ ((names_reg _ _ _ _).mpr (Or.inr rfl)), h2 _ ((names_reg _ _ _ _).mpr (Or.inl ha))⟩
        · rcases h3 e he with h | ⟨h, hn⟩
          · exact Or.inl h
          · exact Or.inr ⟨h, fun hx => hn ((names_reg _ _ _ _).mpr (Or.inl hx))⟩
      · intro e he
        rcases h4 e he with h | h
        · exact Or.inl h
        · exact Or.inr (List.mem_cons_of_mem _ h)
    · rw [if_neg ha]
      obtain ⟨h1, h2, h3, h4, h5⟩ := ih t (left ++ [a]) hp
      unfold visit at h1 h2 h3 h4 h5
      refine ⟨h1, h2, ?_, ?_, fun e he => h5 e (List.mem_append_left _ he)⟩
      · intro e he
        rcases List.mem_cons.mp he with he | he
        · rw [he]
          exact Or.inr ⟨h5 a (by simp), ha⟩
        · exact h3 e he
      · intro e he
        rcases h4 e he with h | h
        · rcases List.mem_append.mp h with h | h
          · exact Or.inl h
          · rw [List.mem_singleton] at h; rw [h]; exact Or.inr List.mem_cons_self
        · exact Or.inr (List.mem_cons_of_mem _ h)

theorem adopt_names (left : List Pend) : ∀ (t : Tree) (x : Name), x ∈ names (adopt t left) ↔ x ∈ names t ∨ ∃ e ∈ left, x = e.2 := by
  induction left with
  | nil => intro t x; simp [adopt]
  | cons a left ih =>
    intro t x
    show x ∈ names (adopt (reg t a.2 none) left) ↔ _
    rw [ih, names_reg]
    simp only [List.mem_cons, exists_eq_or_imp]
    tauto

theorem adopt_noop (left : List Pend) : ∀ (t : Tree), (∀ e ∈ left, e.2 ∈ names t) → adopt t left = t := by
  induction left with
  | nil => intro t _; rfl
  | cons a left ih =>
    intro t h
    show adopt (reg t a.2 none) left = t
    have : reg t a.2 none = t := by unfold reg; rw [if_pos (h a List.mem_cons_self)]
    rw [this]
    exact ih t fun e he => h e (List.mem_cons_of_mem _ he)

/-- Once every parent is there, one more round ends it. -/
theorem round_last (P : Tree → Prop) (order : List Pend) (hP : ∀ t, ∀ e ∈ order, P t → e.2 ∈ names t → P (reg t e.1 (some e.2)))
    (t : Tree) (h0 : P t) (h : ∀ e ∈ order, e.2 ∈ names t) :
    (order.foldl visit (t, [])).2 = [] ∧ P (order.foldl visit (t, [])).1 ∧
      (∀ x ∈ names t, x ∈ names (order.foldl visit (t, [])).1) ∧ ∀ e ∈ order, e.1 ∈ names (order.foldl visit (t, [])).1 := by
  obtain ⟨h1, h2, h3, h4, _⟩ := round_spec P order hP t [] h0
  have hl : (order.foldl visit (t, [])).2 = [] := by
    have : ∀ (order : List Pend) (t : Tree), (∀ e ∈ order, e.2 ∈ names t) → (order.foldl visit (t, [])).2 = [] := by
      intro order
      induction order with
      | nil => intro t _; rfl
      | cons a order ih =>
        intro t h
        rw [List.foldl_cons]
        have hv : visit (t, []) a = (reg t a.1 (some a.2), []) := by
          unfold visit; rw [if_pos (h a List.mem_cons_self)]
        rw [hv]
        exact ih _ fun e he => (names_reg _ _ _ _).mpr (Or.inl (h e (List.mem_cons_of_mem _ he)))
    exact this order t h
  refine ⟨hl, h1, h2, fun e he => ?_⟩
  rcases h3 e he with h | h
  · exact h.1
  · rw [hl] at h; exact nomatch h.1

theorem roots_reg (rs : List Name) : ∀ (t : Tree) (x : Name), x ∈ names (rs.foldl (fun t n => reg t n none) t) ↔ x ∈ names t ∨ x ∈ rs := by
  induction rs with
  | nil => intro t x; simp
  | cons r rs ih =>
    intro t x
    rw [List.foldl_cons, ih, names_reg, List.mem_cons]
    tauto

theorem rounds_nil (sh : List Pend → List Pend) (n : Nat) (t : Tree) : rounds sh n t [] = t := by
  cases n with
  | zero => rfl
  | succ n => unfold rounds; rw [if_pos rfl]

/-- Every frame received is there afterwards, whatever the order of the map. -/
theorem all_registered (sh : List Pend → List Pend) (hsh : ∀ l, (sh l).Perm l) (t : Tree) (pend : List Pend) (e : Pend) (he : e ∈ pend) :
    e.1 ∈ names (process sh t pend) ∧ e.2 ∈ names (process sh t pend) := by
  have hne : pend ≠ [] := List.ne_nil_of_mem he
  obtain ⟨k, hk⟩ : ∃ k, 2 * pend.length = k + 2 := ⟨2 * pend.length - 2, by have := List.length_pos_iff.mpr hne; omega⟩
  unfold process
  rw [hk]
  generalize (rootsOf pend).foldl (fun t n => reg t n none) t = t0
  unfold rounds
  rw [if_neg hne]
  obtain ⟨_, g2, g3, g4, _⟩ := round_spec (fun _ => True) (sh pend) (fun _ _ _ _ _ => trivial) t0 [] trivial
  generalize ((sh pend).foldl visit (t0, [])) = s at g2 g3 g4 ⊢
  have hein : e ∈ sh pend := (hsh pend).mem_iff.mpr he
  by_cases hl : s.2 = []
  · rw [hl, rounds_nil]
    rcases g3 e hein with h | h
    · exact ⟨(adopt_names _ _ _).mpr (Or.inl h.1), (adopt_names _ _ _).mpr (Or.inl h.2)⟩
    · rw [hl] at h; exact nomatch h.1
  · unfold rounds
    rw [if_neg hl]
    have hpar : ∀ e ∈ sh s.2, e.2 ∈ names (adopt s.1 s.2) := fun e he =>
      (adopt_names _ _ _).mpr (Or.inr ⟨e, (hsh _).mem_iff.mp he, rfl⟩)
    obtain ⟨k1, _, k3, k4⟩ := round_last (fun _ => True) (sh s.2) (fun _ _ _ _ _ => trivial) (adopt s.1 s.2) trivial hpar
    rw [k1, rounds_nil]
    show e.1 ∈ names ((sh s.2).foldl visit (adopt s.1 s.2, [])).1 ∧ e.2 ∈ names ((sh s.2).foldl visit (adopt s.1 s.2, [])).1
    rcases g3 e hein with h | h
    · exact ⟨k3 _ ((adopt_names _ _ _).mpr (Or.inl h.1)), k3 _ ((adopt_names _ _ _).mpr (Or.inl h.2))⟩
    · exact ⟨k4 e ((hsh _).mem_iff.mpr h.1), k3 _ (hpar e ((hsh _).mem_iff.mpr h.1))⟩

/-- The links so far are those received, and only frames received under no parent have none. -/
def Right (pend : List Pend) (t : Tree) : Prop :=
  ∀ x ∈ t, (x.2 = none ∧ x.1 ∉ pend.map Prod.fst) ∨ ∃ p, x.2 = some p ∧ (x.1, p) ∈ pend

theorem right_linked {pend : List Pend} {t : Tree} (hn : (pend.map Prod.fst).Nodup) (h : Right pend t) (e : Pend) (he : e ∈ pend)
    (hin : e.1 ∈ names t) : parentOf t e.1 = some (some e.2) := by
  unfold parentOf
  have lk : ∀ (t : Tree) (n : Name), n ∈ names t → ∃ q, t.lookup n = some q ∧ (n, q) ∈ t := by
    intro t n
    induction t with
    | nil => intro h; exact nomatch h
    | cons a t ih =>
      intro h
      rw [List.lookup_cons]
      by_cases hb : n = a.1
      · exact ⟨a.2, by simp [hb], by rw [hb]; exact List.mem_cons_self⟩
      · have : n ∈ names t := by
          rcases List.mem_cons.mp h with h | h
          · exact absurd h hb
          · exact h
        obtain ⟨q, h1, h2⟩ := ih this
        refine ⟨q, ?_, List.mem_cons_of_mem _ h2⟩
        have : (n == a.1) = false := by simpa using hb
        rw [this]; exact h1
  obtain ⟨q, h1, h2⟩ := lk t e.1 hin
  rw [h1]
  rcases h _ h2 with ⟨_, hno⟩ | ⟨p, hp, hm⟩
  · exact absurd (List.mem_map.mpr ⟨e, he, rfl⟩) hno
  · dsimp only at hp hm
    have : (e.1, p) = e := List.inj_on_of_nodup_map hn hm he rfl
    rw [hp, ← this]

theorem right_reg {pend : List Pend} {t : Tree} (h : Right pend t) {e : Pend} (he : e ∈ pend) : Right pend (reg t e.1 (some e.2)) := by
  intro x hx
  rcases mem_reg hx with hx | rfl
  · exact h x hx
  · exact Or.inr ⟨e.2, rfl, he⟩

theorem right_roots (pend : List Pend) : Right pend ((rootsOf pend).foldl (fun t n => reg t n none) []) := by
  have : ∀ (rs : List Name) (t : Tree), Right pend t → (∀ r ∈ rs, r ∉ pend.map Prod.fst) → Right pend (rs.foldl (fun t n => reg t n none) t) := by
    intro rs
    induction rs with
    | nil => intro t h _; exact h
    | cons r rs ih =>
      intro t h hr
      rw [List.foldl_cons]
      refine ih _ ?_ fun x hx => hr x (List.mem_cons_of_mem _ hx)
      intro x hx
      rcases mem_reg hx with hx | rfl
      · exact h x hx
      · exact Or.inl ⟨rfl, hr r List.mem_cons_self⟩
  refine this _ [] (fun x hx => nomatch hx) ?_
  intro r hr
  simpa using (List.mem_filter.mp hr).2

theorem mem_rootsOf (pend : List Pend) (p : Name) : p ∈ rootsOf pend ↔ p ∈ pend.map Prod.snd ∧ p ∉ pend.map Prod.fst := by
  unfold rootsOf
  rw [List.mem_filter, decide_eq_true_eq]

/-- If no frame is more than two steps under its root, a new reader links every frame to its parent, whatever the order
of the map. -/
theorem shallow_linked (sh : List Pend → List Pend) (hsh : ∀ l, (sh l).Perm l) (pend : List Pend) (hn : (pend.map Prod.fst).Nodup)
    (hd : ∀ e ∈ pend, e.2 ∉ pend.map Prod.fst ∨ ∃ g, (e.2, g) ∈ pend ∧ g ∉ pend.map Prod.fst) (e : Pend) (he : e ∈ pend) :
    parentOf (process sh [] pend) e.1 = some (some e.2) := by
  refine right_linked hn ?_ e he (all_registered sh hsh [] pend e he).1
  have hne : pend ≠ [] := List.ne_nil_of_mem he
  obtain ⟨k, hk⟩ : ∃ k, 2 * pend.length = k + 2 := ⟨2 * pend.length - 2, by have := List.length_pos_iff.mpr hne; omega⟩
  unfold process
  rw [hk]
  have hr0 := right_roots pend
  have hroot : ∀ p, p ∈ pend.map Prod.snd → p ∉ pend.map Prod.fst → p ∈ names ((rootsOf pend).foldl (fun t n => reg t n none) []) :=
    fun p h1 h2 => (roots_reg _ _ _).mpr (Or.inr ((mem_rootsOf pend p).mpr ⟨h1, h2⟩))
  generalize (rootsOf pend).foldl (fun t n => reg t n none) [] = t0 at hr0 hroot
  unfold rounds
  rw [if_neg hne]
  have hP : ∀ t, ∀ e ∈ sh pend, Right pend t → e.2 ∈ names t → Right pend (reg t e.1 (some e.2)) :=
    fun t e he h _ => right_reg h ((hsh pend).mem_iff.mp he)
  obtain ⟨g1, g2, g3, g4, _⟩ := round_spec (Right pend) (sh pend) hP t0 [] hr0
  generalize ((sh pend).foldl visit (t0, [])) = s at g1 g2 g3 g4 ⊢
  have hadopt : ∀ e ∈ s.2, e.2 ∈ names s.1 := by
    intro x hx
    have hxp : x ∈ pend := by
      rcases g4 x hx with h | h
      · exact nomatch h
      · exact (hsh pend).mem_iff.mp h
    rcases hd x hxp with h | ⟨g, hg, hgn⟩
    · exact g2 _ (hroot _ (List.mem_map.mpr ⟨x, hxp, rfl⟩) h)
    · rcases g3 (x.2, g) ((hsh pend).mem_iff.mpr hg) with h | ⟨_, h⟩
      · exact h.1
      · exact absurd (hroot g (List.mem_map.mpr ⟨_, hg, rfl⟩) hgn) h
  rw [adopt_noop _ _ hadopt]
  by_cases hl : s.2 = []
  · rw [hl, rounds_nil]; exact g1
  · unfold rounds
    rw [if_neg hl]
    have hP2 : ∀ t, ∀ e ∈ sh s.2, Right pend t → e.2 ∈ names t → Right pend (reg t e.1 (some e.2)) := by
      intro t x hx h _
      refine right_reg h ?_
      rcases g4 x ((hsh _).mem_iff.mp hx) with h | h
      · exact nomatch h
      · exact (hsh pend).mem_iff.mp h
    obtain ⟨k1, k2, _, _⟩ := round_last (Right pend) (sh s.2) hP2 s.1 g1 fun e he => hadopt e ((hsh _).mem_iff.mp he)
    rw [k1, rounds_nil]
    exact k2

/-- Each parent is known, or named as a child before. -/
def Topological (known : Name → Prop) : List Pend → Prop
  | [] => True
  | e :: es => known e.2 ∧ Topological (fun n => known n ∨ n = e.1) es

/-- When the map happens to be listed parents first, the links are right at any depth. -/
theorem topological_linked (sh : List Pend → List Pend) (hsh : ∀ l, (sh l).Perm l) (pend : List Pend) (hn : (pend.map Prod.fst).Nodup)
    (ht : Topological (fun n => n ∈ rootsOf pend) (sh pend)) (e : Pend) (he : e ∈ pend) :
    parentOf (process sh [] pend) e.1 = some (some e.2) := by
  refine right_linked hn ?_ e he (all_registered sh hsh [] pend e he).1
  have hne : pend ≠ [] := List.ne_nil_of_mem he
  obtain ⟨k, hk⟩ : ∃ k, 2 * pend.length = k + 1 := ⟨2 * pend.length - 1, by have := List.length_pos_iff.mpr hne; omega⟩
  unfold process
  rw [hk]
  have hr0 := right_roots pend
  have hk0 : ∀ p, p ∈ rootsOf pend → p ∈ names ((rootsOf pend).foldl (fun t n => reg t n none) []) := fun p h => (roots_reg _ _ _).mpr (Or.inr h)
  generalize (rootsOf pend).foldl (fun t n => reg t n none) [] = t0 at hr0 hk0
  unfold rounds
  rw [if_neg hne]
  have main : ∀ (order : List Pend) (known : Name → Prop) (t : Tree), (∀ x ∈ order, x ∈ pend) → Topological known order → (∀ p, known p → p ∈ names t) →
      Right pend t → (order.foldl visit (t, [])).2 = [] ∧ Right pend (order.foldl visit (t, [])).1 := by
    intro order
    induction order with
    | nil => intro _ t _ _ _ h; exact ⟨rfl, h⟩
    | cons a order ih =>
      intro known t hm htop hkn hr
      rw [List.foldl_cons]
      have hv : visit (t, []) a = (reg t a.1 (some a.2), []) := by
        unfold visit; rw [if_pos (hkn _ htop.1)]
      rw [hv]
      refine ih _ _ (fun x hx => hm x (List.mem_cons_of_mem _ hx)) htop.2 ?_ (right_reg hr (hm a List.mem_cons_self))
      rintro p (hp | hp)
      · exact (names_reg _ _ _ _).mpr (Or.inl (hkn p hp))
      · exact (names_reg _ _ _ _).mpr (Or.inr hp)
  obtain ⟨m1, m2⟩ := main (sh pend) _ t0 (fun x hx => (hsh pend).mem_iff.mp hx) ht hk0 hr0
  rw [m1, rounds_nil]
  show Right pend (adopt ((sh pend).foldl visit (t0, [])).1 [])
  exact m2

/-- From three steps on it depends on the order of the hash map: here the elbow ends as a root, cut off from the base. -/
theorem deep_detached :
    parentOf (process id [] [("wrist", "elbow"), ("elbow", "base"), ("base", "world")]) "elbow" = some none ∧
    parentOf (process List.reverse [] [("wrist", "elbow"), ("elbow", "base"), ("base", "world")]) "elbow" = some (some "base") := by
  decide +kernel

/-! ### C215: the printed tree -/

/-- `k` steps up from a frame. -/
inductive Up (fd : List Pend) : Nat → Name → Name → Prop
  | refl (x : Name) : Up fd 0 x x
  | step {k : Nat} {x c p : Name} : (c, p) ∈ fd → Up fd k x c → Up fd (k + 1) x p

theorem mem_under (fd : List Pend) : ∀ (n : Nat) (p x : Name), x ∈ under fd n p ↔ ∃ k, 1 ≤ k ∧ k ≤ n ∧ Up fd k x p := by
  intro n
  induction n with
  | zero =>
    intro p x
    refine ⟨fun h => (nomatch h), ?_⟩
    rintro ⟨k, h1, h2, _⟩
    omega
  | succ n ih =>
    intro p x
    unfold under
    simp only [List.mem_flatMap, List.mem_map, List.mem_filter, decide_eq_true_eq, List.mem_cons]
    constructor
    · rintro ⟨c, ⟨e, ⟨he, hp⟩, hc⟩, h⟩
      have hmem : (c, p) ∈ fd := by rw [← hc, ← hp]; exact he
      rcases h with h | h
      · rw [h]; exact ⟨1, by omega, by omega, .step hmem (.refl c)⟩
      · obtain ⟨k, h1, h2, h3⟩ := (ih c x).mp h
        exact ⟨k + 1, by omega, by omega, .step hmem h3⟩
    · rintro ⟨k, h1, h2, h3⟩
      cases h3 with
      | refl => omega
      | @step k _ c _ hm hu =>
        refine ⟨c, ⟨(c, p), ⟨hm, rfl⟩, rfl⟩, ?_⟩
        cases k with
        | zero => cases hu; exact Or.inl rfl
        | succ k => exact Or.inr ((ih c x).mpr ⟨k + 1, by omega, by omega, hu⟩)

theorem up_short : ∀ (n : Nat) (fd : List Pend) (k : Nat) (x r : Name), fd.length ≤ n → (fd.map Prod.fst).Nodup → r ∉ fd.map Prod.fst →
    Up fd k x r → k ≤ fd.length := by
  intro n
  induction n with
  | zero =>
    intro fd k x r hl _ _ hu
    cases hu with
    | refl => omega
    | step hm _ =>
      have : fd = [] := List.length_eq_zero_iff.mp (by omega)
      rw [this] at hm; exact nomatch hm
  | succ n ih =>
    intro fd k x r hl hn hr hu
    cases hu with
    | refl => omega
    | @step k _ c _ hm hu =>
      have hlt : (fd.filter fun e => decide (e.2 ≠ r)).length < fd.length := by
        rw [List.length_filter_lt_length_iff_exists]
        exact ⟨(c, r), hm, by simp⟩
      have hup : ∀ (k : Nat) (d : Name), Up fd k x d → d ≠ r → Up (fd.filter fun e => decide (e.2 ≠ r)) k x d := by
        intro k
        induction k with
        | zero => intro d h _; cases h; exact .refl _
        | succ k ihk =>
          intro d h hd
          cases h with
          | @step _ _ d' _ hm' hu' =>
            refine .step (List.mem_filter.mpr ⟨hm', by simpa using hd⟩) (ihk d' hu' ?_)
            intro e
            exact hr (List.mem_map.mpr ⟨(d', d), hm', e⟩)
      have hcr : c ≠ r := fun e => hr (List.mem_map.mpr ⟨(c, r), hm, e⟩)
      have hc : c ∉ (fd.filter fun e => decide (e.2 ≠ r)).map Prod.fst := by
        intro h
        obtain ⟨e, he, hec⟩ := List.mem_map.mp h
        obtain ⟨he1, he2⟩ := List.mem_filter.mp he
        have : e = (c, r) := List.inj_on_of_nodup_map hn he1 hm hec
        rw [this] at he2; simp at he2
      have := ih _ k x c (by omega) (hn.sublist (List.filter_sublist.map _)) hc (hup k c hu hcr)
      omega

/-- Printed are the parents that are nobody's child, and everything under one of them. -/
theorem printed_exact (fd : List Pend) (hn : (fd.map Prod.fst).Nodup) (x : Name) :
    x ∈ printed fd ↔ ∃ r k, r ∈ fd.map Prod.snd ∧ r ∉ fd.map Prod.fst ∧ Up fd k x r := by
  unfold printed
  simp only [List.mem_flatMap, mem_rootsOf, List.mem_cons, mem_under]
  constructor
  · rintro ⟨r, ⟨h1, h2⟩, rfl | ⟨k, _, _, h⟩⟩
    · exact ⟨x, 0, h1, h2, .refl x⟩
    · exact ⟨r, k, h1, h2, h⟩
  · rintro ⟨r, k, h1, h2, h⟩
    refine ⟨r, ⟨h1, h2⟩, ?_⟩
    cases k with
    | zero => cases h; exact Or.inl rfl
    | succ k => exact Or.inr ⟨k + 1, by omega, up_short _ fd _ x r (Nat.le_refl _) hn h2 h, h⟩

/-- Frames that are each other's parents are counted but not printed. -/
theorem loop_not_printed : printed [("a", "b"), ("b", "a"), ("arm", "world")] = ["world", "arm"] := by decide +kernel

/-! ### The hypotheses are met -/

example : (([("elbow", "base"), ("base", "world")] : List Pend).map Prod.fst).Nodup ∧
    ∀ e ∈ ([("elbow", "base"), ("base", "world")] : List Pend), e.2 ∉ (([("elbow", "base"), ("base", "world")] : List Pend).map Prod.fst) ∨
      ∃ g, (e.2, g) ∈ ([("elbow", "base"), ("base", "world")] : List Pend) ∧ g ∉ (([("elbow", "base"), ("base", "world")] : List Pend).map Prod.fst) := by
  refine ⟨by decide, ?_⟩
  intro e he
  rcases List.mem_cons.mp he with rfl | he
  · exact Or.inr ⟨"world", by decide, by decide⟩
  · rw [List.mem_singleton] at he; subst he; exact Or.inl (by decide)
example : Topological (fun n => n ∈ rootsOf [("elbow", "base"), ("base", "world")]) [("base", "world"), ("elbow", "base")] :=
  ⟨by decide, Or.inr rfl, trivial⟩
example : printed [("elbow", "base"), ("base", "world")] = ["world", "base", "elbow"] := by decide +kernel

end Horus.TfReader
