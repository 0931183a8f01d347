import Mathlib.Tactic.Common
import Mathlib.Data.List.Basic
import Mathlib.Data.List.Infix

/-!
Names: topic names and the files they mean, namespaces, the metadata files beside the topics, directory
permissions, and the removal of namespaces left by dead sessions.

Sources: horus_sys/src/shm/mod.rs, horus_core/src/communication/topic/mod.rs:883-907.
-/

namespace Horus.Names

/-! ### Model -/

/-- Length in bytes (`str::len`, mod.rs:459). -/
def bytes (n : List Char) : Nat := (n.map Char.utf8Size).sum

/-- `str::split` by a set of separators (mod.rs:479). -/
def splitBy (sep : Char → Bool) : List Char → List (List Char)
  | [] => [[]]
  | c :: cs =>
    if sep c then [] :: splitBy sep cs
    else
      match splitBy sep cs with
      | [] => [[c]]
      | x :: xs => (c :: x) :: xs

/-- The separators of both systems (mod.rs:479). -/
def anySep (c : Char) : Bool := c == '/' || c == '\\'

/-- The separator of this one (linux.rs:105). -/
def slash (c : Char) : Bool := c == '/'

/-- Is the second byte a colon (mod.rs:473-477)? -/
def driveLike : List Char → Bool
  | a :: b :: _ => a.utf8Size == 1 && b == ':'
  | _ => false

/-- `validate_region_name` (mod.rs:456-490). -/
def validRegion (n : List Char) : Bool :=
  !n.isEmpty && bytes n ≤ 512 && !n.contains '\x00' && n.head? != some '/' && n.head? != some '\\' &&
    !driveLike n &&
    (splitBy anySep n).all fun c => c != ['.', '.'] && c != ['.'] && bytes c ≤ 255

/-- Characters allowed in a topic name (topic/mod.rs:896-898). -/
def topicChar (c : Char) : Bool := c.isAlphanum || c == '_' || c == '/' || c == '-' || c == '.'

/-- The checks on a topic name: `with_capacity_and_kind` (topic/mod.rs:883-907), then `ShmRegion::new`
(linux.rs:68). -/
def validTopic (n : List Char) : Bool :=
  !n.isEmpty && bytes n ≤ 255 && n.all topicChar && validRegion n

/-- How the system walks a path from a directory: empty components and "." stay, ".." goes up. -/
def walk (d : List (List Char)) : List (List Char) → List (List Char)
  | [] => d
  | c :: cs => if c = [] ∨ c = ['.'] then walk d cs else if c = ['.', '.'] then walk d.dropLast cs else walk (d ++ [c]) cs

/-- `shm_topics_dir().join(name)` (mod.rs:206-208) as a file: an absolute name replaces the directory. -/
def resolve (base : List (List Char)) (n : List Char) : List (List Char) :=
  if n.head? = some '/' then walk [] (splitBy slash n) else walk base (splitBy slash n)

/-- `sanitize_namespace` (mod.rs:37-47). -/
def sanitize (n : List Char) : List Char := n.map fun c => if c.isAlphanum || c == '_' then c else '_'

/-- `generate_namespace` (mod.rs:105-126), from the environment variable and the namespace of a test
binary, if it is one. -/
def namespaceOf (env test : Option (List Char)) : List Char :=
  match env with
  | some n =>
    if n ≠ [] ∧ ¬ (sanitize n).all (· == '_') then sanitize n else test.getD "default".toList
  | none => test.getD "default".toList

/-- Name of the namespace's directory (mod.rs:167). -/
def dirName (ns : List Char) : List Char := "horus_".toList ++ ns

/-- Name of a topic's metadata file (mod.rs:588, 602). -/
def metaName (topic : List Char) : List Char := sanitize topic ++ ".meta".toList

/-! ### Containment -/

theorem splitBy_ne (sep : Char → Bool) (n : List Char) : splitBy sep n ≠ [] := by
  cases n with
  | nil => simp [splitBy]
  | cons c cs =>
    simp only [splitBy]
    split
    · simp
    · split <;> simp

/-- A component by '/' that has no other separator in it is a component by both. -/
theorem comp_both (n : List Char) :
    (∀ x ∈ (splitBy slash n).tail, (∀ c ∈ x, anySep c = false) → x ∈ (splitBy anySep n).tail) ∧
      ((∀ c ∈ (splitBy slash n).headD [], anySep c = false) → (splitBy anySep n).headD [] = (splitBy slash n).headD []) := by
  induction n with
  | nil => simp [splitBy]
  | cons c cs ih =>
    have hb := splitBy_ne anySep cs
    have hs := splitBy_ne slash cs
    simp only [splitBy]
    cases e1 : splitBy slash cs with
    | nil => exact absurd e1 hs
    | cons x xs =>
      cases e2 : splitBy anySep cs with
      | nil => exact absurd e2 hb
      | cons y ys =>
        rw [e1, e2] at ih
        simp only [List.tail_cons, List.headD_cons] at ih
        by_cases h1 : slash c = true
        · have h2 : anySep c = true := by simp [slash] at h1; simp [anySep, h1]
          simp only [h1, h2, if_true, List.tail_cons, List.headD_cons, List.mem_cons, implies_true, and_true]
          intro z hz hc
          rcases hz with rfl | hz
          · left; exact (ih.2 hc).symm
          · right; exact ih.1 z hz hc
        · simp only [Bool.not_eq_true] at h1
          simp only [h1, Bool.false_eq_true, if_false]
          by_cases h2 : anySep c = true
          · simp only [h2, if_true, List.tail_cons, List.headD_cons, List.mem_cons]
            refine ⟨fun z hz hc => Or.inr (ih.1 z hz hc), fun h => ?_⟩
            have := h c (Or.inl rfl)
            rw [h2] at this; simp at this
          · simp only [Bool.not_eq_true] at h2
            simp only [h2, Bool.false_eq_true, if_false, List.tail_cons, List.headD_cons, List.mem_cons]
            refine ⟨fun z hz hc => ih.1 z hz hc, fun h => ?_⟩
            rw [ih.2 (fun c' hc' => h c' (Or.inr hc'))]

theorem comp_mem {n x : List Char} (hx : x ∈ splitBy slash n) (hc : ∀ c ∈ x, anySep c = false) : x ∈ splitBy anySep n := by
  have h := comp_both n
  cases e1 : splitBy slash n with
  | nil => exact absurd e1 (splitBy_ne _ _)
  | cons y ys =>
    cases e2 : splitBy anySep n with
    | nil => exact absurd e2 (splitBy_ne _ _)
    | cons z zs =>
      rw [e1, e2] at h
      rw [e1] at hx
      simp only [List.tail_cons, List.headD_cons, List.mem_cons] at h hx ⊢
      rcases hx with rfl | hx
      · left; exact (h.2 hc).symm
      · right; exact h.1 x hx hc

/-- Walking plain components only goes down. -/
theorem walk_plain (d cs : List (List Char)) (h : ∀ c ∈ cs, c ≠ ['.', '.'] ∧ c ≠ ['.']) :
    walk d cs = d ++ cs.filter (fun c => !c.isEmpty) := by
  induction cs generalizing d with
  | nil => simp [walk]
  | cons c cs ih =>
    have hc := h c (by simp)
    have := fun d => ih d (fun x hx => h x (by simp [hx]))
    simp only [walk]
    by_cases he : c = []
    · subst he; simp [this]
    · rw [if_neg (by tauto), if_neg hc.1, this]
      simp [he]

theorem valid_comps {n : List Char} (hv : validRegion n = true) : ∀ c ∈ splitBy slash n, c ≠ ['.', '.'] ∧ c ≠ ['.'] := by
  simp only [validRegion, Bool.and_eq_true, List.all_eq_true, bne_iff_ne] at hv
  intro c hc
  constructor
  · rintro rfl
    exact (hv.2 _ (comp_mem hc (by decide))).1.1 rfl
  · rintro rfl
    exact (hv.2 _ (comp_mem hc (by decide))).1.2 rfl

theorem valid_relative {n : List Char} (hv : validRegion n = true) : n ≠ [] ∧ n.head? ≠ some '/' := by
  simp only [validRegion, Bool.and_eq_true, bne_iff_ne, Bool.not_eq_true', List.isEmpty_eq_false_iff] at hv
  exact ⟨hv.1.1.1.1.1.1, hv.1.1.1.2⟩

/-- An accepted name means a file strictly inside the topics directory, whatever that directory is. -/
theorem valid_stays_inside (base : List (List Char)) (n : List Char) (hv : validRegion n = true) :
    ∃ c cs, resolve base n = base ++ c :: cs ∧ ∀ x ∈ c :: cs, x ≠ [] ∧ x ≠ ['.'] ∧ x ≠ ['.', '.'] := by
  have hr := valid_relative hv
  have hc := valid_comps hv
  rw [resolve, if_neg hr.2, walk_plain _ _ hc]
  have hne : (splitBy slash n).filter (fun c => !c.isEmpty) ≠ [] := by
    obtain ⟨a, as, e⟩ := List.exists_cons_of_ne_nil hr.1
    have ha : slash a = false := by
      have := hr.2
      rw [e] at this
      simpa [slash] using this
    rw [e]
    simp only [splitBy, ha, Bool.false_eq_true, if_false]
    split <;> simp
  obtain ⟨c, cs, e⟩ := List.exists_cons_of_ne_nil hne
  refine ⟨c, cs, by rw [e], ?_⟩
  intro x hx
  rw [← e, List.mem_filter] at hx
  exact ⟨by simpa using hx.2, (hc x hx.1).2, (hc x hx.1).1⟩

/-- So a name that would lead anywhere else, for some directory, is refused. -/
theorem escaping_refused (base : List (List Char)) (n : List Char) (h : ¬ base <+: resolve base n) : validRegion n = false := by
  cases hv : validRegion n with
  | false => rfl
  | true =>
    obtain ⟨c, cs, e, _⟩ := valid_stays_inside base n hv
    exact absurd ⟨c :: cs, e.symm⟩ h

theorem splitBy_none {sep : Char → Bool} {n : List Char} (h : ∀ c ∈ n, sep c = false) : splitBy sep n = [n] := by
  induction n with
  | nil => rfl
  | cons c cs ih => simp [splitBy, h c (by simp), ih (fun x hx => h x (by simp [hx]))]

/-- A plain name is accepted and means the file of that name. -/
theorem plain_accepted (base : List (List Char)) (n : List Char) (hne : n ≠ []) (hl : bytes n ≤ 255)
    (hc : ∀ c ∈ n, c ≠ '/' ∧ c ≠ '\\' ∧ c ≠ '\x00' ∧ c ≠ ':') (hd : n ≠ ['.'] ∧ n ≠ ['.', '.']) :
    validRegion n = true ∧ resolve base n = base ++ [n] := by
  have h1 : ∀ c ∈ n, anySep c = false := by intro c h; have := hc c h; simp [anySep, this.1, this.2.1]
  have h2 : ∀ c ∈ n, slash c = false := by intro c h; have := hc c h; simp [slash, this.1]
  obtain ⟨a, as, e⟩ := List.exists_cons_of_ne_nil hne
  have hv : validRegion n = true := by
    simp only [validRegion, Bool.and_eq_true, splitBy_none h1, List.all_cons, List.all_nil, bne_iff_ne,
      Bool.not_eq_true', List.isEmpty_eq_false_iff, decide_eq_true_eq]
    refine ⟨⟨⟨⟨⟨⟨hne, by omega⟩, ?_⟩, ?_⟩, ?_⟩, ?_⟩, ⟨⟨hd.2, hd.1⟩, hl⟩, trivial⟩
    · rw [List.contains_eq_mem]
      simp only [decide_eq_false_iff_not]
      intro h; exact (hc _ h).2.2.1 rfl
    · rw [e]; simp only [List.head?_cons]; intro h; exact (hc a (by rw [e]; simp)).1 (by simpa using h)
    · rw [e]; simp only [List.head?_cons]; intro h; exact (hc a (by rw [e]; simp)).2.1 (by simpa using h)
    · cases has : as with
      | nil => rw [e, has]; rfl
      | cons b bs =>
        rw [e, has]
        have := (hc b (by rw [e, has]; simp)).2.2.2
        simp [driveLike, this]
  refine ⟨hv, ?_⟩
  rw [resolve, if_neg (valid_relative hv).2, splitBy_none h2]
  simp [walk, hne, hd]

/-- Joining the components gives the name back. -/
def joinSlash : List (List Char) → List Char
  | [] => []
  | [x] => x
  | x :: y :: ys => x ++ '/' :: joinSlash (y :: ys)

theorem join_split (n : List Char) : joinSlash (splitBy slash n) = n := by
  induction n with
  | nil => rfl
  | cons c cs ih =>
    simp only [splitBy]
    cases e : splitBy slash cs with
    | nil => exact absurd e (splitBy_ne _ _)
    | cons x xs =>
      rw [e] at ih
      by_cases h : slash c = true
      · have hcc : c = '/' := by simpa [slash] using h
        rw [if_pos h, joinSlash, ih, hcc]; rfl
      · simp only [h, Bool.false_eq_true, if_false]
        cases xs with
        | nil => simp only [joinSlash] at ih ⊢; rw [ih]
        | cons y ys => simp only [joinSlash, List.cons_append] at ih ⊢; rw [ih]

/-- Two accepted names without empty components mean the same file only if they are the same name. -/
theorem distinct_names_distinct_files (base : List (List Char)) (m n : List Char) (hm : validRegion m = true)
    (hn : validRegion n = true) (em : [] ∉ splitBy slash m) (en : [] ∉ splitBy slash n)
    (h : resolve base m = resolve base n) : m = n := by
  rw [resolve, resolve, if_neg (valid_relative hm).2, if_neg (valid_relative hn).2, walk_plain _ _ (valid_comps hm),
    walk_plain _ _ (valid_comps hn)] at h
  have h := List.append_cancel_left h
  have fm : ∀ l : List (List Char), [] ∉ l → l.filter (fun c => !c.isEmpty) = l := by
    intro l hl
    rw [List.filter_eq_self]
    intro x hx
    cases x with
    | nil => exact absurd hx hl
    | cons _ _ => rfl
  rw [fm _ em, fm _ en] at h
  rw [← join_split m, ← join_split n, h]

/-- But two topic names that differ only by a doubled slash share one file. -/
theorem double_slash_same_file :
    validTopic "arm/cmd".toList = true ∧ validTopic "arm//cmd".toList = true ∧ "arm/cmd" ≠ "arm//cmd" ∧
      ∀ base, resolve base "arm/cmd".toList = resolve base "arm//cmd".toList := by
  refine ⟨by decide, by decide, by decide, fun base => ?_⟩
  have h1 : splitBy slash "arm/cmd".toList = ["arm".toList, "cmd".toList] := by decide
  have h2 : splitBy slash "arm//cmd".toList = ["arm".toList, [], "cmd".toList] := by decide
  rw [resolve, resolve, if_neg (by decide), if_neg (by decide), h1, h2]
  simp [walk]

/-- The metadata file of one topic can be the shared memory of another: creating the first overwrites
the second. -/
theorem meta_overwrites_topic :
    validTopic "imu".toList = true ∧ validTopic "imu.meta".toList = true ∧
      ∀ base, resolve base "imu.meta".toList = base ++ [metaName "imu".toList] := by
  refine ⟨by decide, by decide, fun base => ?_⟩
  have h1 : splitBy slash "imu.meta".toList = ["imu.meta".toList] := by decide
  rw [resolve, if_neg (by decide), h1]
  simp [walk, metaName, sanitize]

/-- Two topics can share one metadata file. -/
theorem meta_names_collide :
    validTopic "arm.cmd".toList = true ∧ validTopic "arm_cmd".toList = true ∧
      metaName "arm.cmd".toList = metaName "arm_cmd".toList := by decide

/-! ### Namespaces -/

/-- Only letters, digits and underscores are left, so a namespace is one path component. -/
theorem sanitize_safe (n : List Char) : ∀ c ∈ sanitize n, c.isAlphanum = true ∨ c = '_' := by
  intro c hc
  obtain ⟨x, _, rfl⟩ := List.mem_map.mp hc
  split
  · rename_i h; simpa using h
  · right; rfl

theorem sanitize_id {n : List Char} (h : ∀ c ∈ n, c.isAlphanum = true ∨ c = '_') : sanitize n = n := by
  unfold sanitize
  conv_rhs => rw [← List.map_id n]
  apply List.map_congr_left
  intro c hc
  have := h c hc
  simp only [id]
  rw [if_pos (by simpa using this)]

/-- Exactly when two names become one: same length, and where they differ neither character is a letter
or a digit. -/
theorem sanitize_eq_iff (m n : List Char) : sanitize m = sanitize n ↔
    List.Forall₂ (fun a b => a = b ∨ (a.isAlphanum = false ∧ b.isAlphanum = false)) m n := by
  induction m generalizing n with
  | nil => cases n with
    | nil => simp [sanitize]
    | cons b n => exact ⟨fun h => by simp [sanitize] at h, fun h => by cases h⟩
  | cons a m ih =>
    cases n with
    | nil => exact ⟨fun h => by simp [sanitize] at h, fun h => by cases h⟩
    | cons b n =>
      have e : sanitize (a :: m) = sanitize (b :: n) ↔
          ((if (a.isAlphanum || a == '_') = true then a else '_') = (if (b.isAlphanum || b == '_') = true then b else '_')) ∧
            sanitize m = sanitize n := by simp [sanitize]
      rw [e, ih, List.forall₂_cons]
      refine and_congr_left fun _ => ?_
      have hu : Char.isAlphanum '_' = false := by decide
      by_cases ha : a.isAlphanum = true <;> by_cases hb : b.isAlphanum = true
      · simp [ha, hb]
      · have hb' : b.isAlphanum = false := by simpa using hb
        have : (if (b.isAlphanum || b == '_') = true then b else '_') = '_' := by
          rw [hb']; simp
        rw [this]
        simp only [ha, Bool.true_or, if_true, Bool.true_eq_false, false_and, or_false]
        constructor
        · rintro rfl; rw [hu] at ha; simp at ha
        · rintro rfl; rw [hb'] at ha; simp at ha
      · have ha' : a.isAlphanum = false := by simpa using ha
        have : (if (a.isAlphanum || a == '_') = true then a else '_') = '_' := by
          rw [ha']; simp
        rw [this]
        simp only [hb, Bool.true_or, if_true, Bool.true_eq_false, and_false, or_false]
        constructor
        · rintro rfl; rw [hu] at hb; simp at hb
        · rintro rfl; rw [ha'] at hb; simp at hb
      · have ha' : a.isAlphanum = false := by simpa using ha
        have hb' : b.isAlphanum = false := by simpa using hb
        have h1 : (if (a.isAlphanum || a == '_') = true then a else '_') = '_' := by rw [ha']; simp
        have h2 : (if (b.isAlphanum || b == '_') = true then b else '_') = '_' := by rw [hb']; simp
        rw [h1, h2]
        simp [ha', hb']

/-- Robots whose names are made of letters, digits and underscores, not underscores alone, have their own
namespace directories. Missing for the full property: other names, for which it is false
(`robots_collide`, `blank_name_shares_default`). -/
theorem robots_isolated_partial (m n : List Char) (tm tn : Option (List Char))
    (hm : ∀ c ∈ m, c.isAlphanum = true ∨ c = '_') (hn : ∀ c ∈ n, c.isAlphanum = true ∨ c = '_')
    (um : ∃ c ∈ m, c ≠ '_') (un : ∃ c ∈ n, c ≠ '_') (h : dirName (namespaceOf (some m) tm) = dirName (namespaceOf (some n) tn)) :
    m = n := by
  have key : ∀ (x : List Char) (t : Option (List Char)), (∀ c ∈ x, c.isAlphanum = true ∨ c = '_') → (∃ c ∈ x, c ≠ '_') →
      namespaceOf (some x) t = x := by
    intro x t hx ⟨c, hc, hcu⟩
    simp only [namespaceOf]
    rw [sanitize_id hx, if_pos]
    refine ⟨List.ne_nil_of_mem hc, ?_⟩
    simp only [List.all_eq_true, beq_iff_eq]
    intro h; exact hcu (h c hc)
  have h := List.append_cancel_left h
  rwa [key m tm hm um, key n tn hn un] at h

/-- A hyphen and an underscore are the same. -/
theorem robots_collide : "robot-1" ≠ "robot_1" ∧
    ∀ t, namespaceOf (some "robot-1".toList) t = namespaceOf (some "robot_1".toList) t := by
  refine ⟨by decide, fun t => ?_⟩
  have : sanitize "robot-1".toList = sanitize "robot_1".toList := by decide
  simp only [namespaceOf, this]
  rw [if_pos (by decide), if_pos (by decide)]

/-- A name with no letter or digit puts the robot into the shared namespace. -/
theorem blank_name_shares_default (n : List Char) (h : ∀ c ∈ n, c.isAlphanum = false) :
    namespaceOf (some n) none = namespaceOf none none := by
  simp only [namespaceOf]
  rw [if_neg]
  rintro ⟨_, h2⟩
  apply h2
  rw [List.all_eq_true]
  intro c hc
  obtain ⟨x, hx, rfl⟩ := List.mem_map.mp hc
  simp only [h x hx]
  simp

/-- Any environment gives a usable namespace: not empty, and one path component. -/
theorem namespace_usable (env : Option (List Char)) :
    namespaceOf env none ≠ [] ∧ ∀ c ∈ namespaceOf env none, c.isAlphanum = true ∨ c = '_' := by
  have hd : ("default".toList : List Char) ≠ [] ∧ ∀ c ∈ "default".toList, c.isAlphanum = true ∨ c = '_' := by decide
  cases env with
  | none => exact hd
  | some n =>
    simp only [namespaceOf, Option.getD_none]
    split
    · rename_i h
      exact ⟨by intro e; exact h.1 (by simpa [sanitize] using e), sanitize_safe n⟩
    · exact hd

/-! ### Permissions -/

/-- What `lstat` says about a path (mod.rs:294, 346). -/
structure Stat where
  isLink : Bool
  isDir : Bool
  uid : Nat
  mode : Nat

/-- `verify_shm_dir_ownership` (mod.rs:288-328). -/
def ownedDir (euid : Nat) : Option Stat → Bool
  | none => true
  | some s => !s.isLink && s.isDir && s.uid == euid

/-- `harden_existing_dir` (mod.rs:340-372): the mode afterwards. -/
def harden (euid : Nat) (s : Stat) : Nat :=
  if s.isLink || !s.isDir then s.mode
  else if s.uid != euid then s.mode
  else
    let m := s.mode &&& 0o777
    let m' := m &&& 0o700
    if m' != m then m' else s.mode

/-- A tree that somebody else made, or a link, or a file, is refused; nothing else is. -/
theorem foreign_tree_refused (euid : Nat) (s : Stat) :
    ownedDir euid (some s) = false ↔ s.isLink = true ∨ s.isDir = false ∨ s.uid ≠ euid := by
  simp only [ownedDir]
  cases s.isLink <;> cases s.isDir <;> simp

/-- Permissions are only ever taken away. -/
theorem harden_only_removes (euid : Nat) (s : Stat) (i : Nat) (h : (harden euid s).testBit i = true) : s.mode.testBit i = true := by
  unfold harden at h
  split at h
  · exact h
  · split at h
    · exact h
    · simp only at h
      split at h
      · simp only [Nat.testBit_and, Bool.and_eq_true] at h; exact h.1.1
      · exact h

/-- Of a directory that is ours, group and others can do nothing afterwards, and we can do what we could. -/
theorem harden_private (euid : Nat) (s : Stat) (hl : s.isLink = false) (hd : s.isDir = true) (hu : s.uid = euid) :
    (∀ i, i < 6 → (harden euid s).testBit i = false) ∧ ∀ i, 6 ≤ i → i < 9 → (harden euid s).testBit i = s.mode.testBit i := by
  have b700 : ∀ i, i < 9 → Nat.testBit 0o700 i = decide (6 ≤ i) := by decide
  have b777 : ∀ i, i < 9 → Nat.testBit 0o777 i = true := by decide
  simp only [harden, hl, hd, hu, Bool.or_self, Bool.not_true, Bool.false_eq_true, if_false, bne_self_eq_false]
  split
  · constructor
    · intro i hi
      simp only [Nat.testBit_and, b700 i (by omega)]
      have : ¬ 6 ≤ i := by omega
      simp [this]
    · intro i h1 h2
      simp only [Nat.testBit_and, b700 i (by omega), b777 i (by omega)]
      simp [h1]
  · rename_i hne
    have he : (s.mode &&& 0o777) &&& 0o700 = s.mode &&& 0o777 := by simpa using hne
    refine ⟨fun i hi => ?_, fun i _ _ => rfl⟩
    have := congrArg (fun x => Nat.testBit x i) he
    simp only [Nat.testBit_and, b700 i (by omega), b777 i (by omega)] at this
    have h6 : ¬ 6 ≤ i := by omega
    simpa [h6] using this.symm

/-- What is not ours is left alone. -/
theorem harden_foreign (euid : Nat) (s : Stat) (h : s.isLink = true ∨ s.isDir = false ∨ s.uid ≠ euid) : harden euid s = s.mode := by
  unfold harden
  rcases h with h | h | h
  · simp [h]
  · simp [h]
  · simp [h]

/-! ### Namespaces of dead sessions -/

/-- Value of a run of decimal digits (mod.rs:825-826). -/
def digits? : List Char → Option Nat
  | [] => none
  | cs => if cs.all Char.isDigit then some (cs.foldl (fun n c => n * 10 + (c.toNat - 48)) 0) else none

/-- `str::parse::<i32>` (mod.rs:825). -/
def parseI32 : List Char → Option Int
  | '-' :: cs => (digits? cs).bind fun n => if n ≤ 2147483648 then some (-(n : Int)) else none
  | '+' :: cs => (digits? cs).bind fun n => if n ≤ 2147483647 then some (n : Int) else none
  | cs => (digits? cs).bind fun n => if n ≤ 2147483647 then some (n : Int) else none

/-- `str::parse::<u32>` (mod.rs:826). -/
def parseU32 : List Char → Option Nat
  | '+' :: cs => (digits? cs).bind fun n => if n ≤ 4294967295 then some n else none
  | cs => (digits? cs).bind fun n => if n ≤ 4294967295 then some n else none

/-- `str::split_once` (mod.rs:824). -/
def splitOnce (pat : List Char) : List Char → Option (List Char × List Char)
  | [] => if pat = [] then some ([], []) else none
  | c :: cs =>
    if pat <+: (c :: cs) then some ([], (c :: cs).drop pat.length)
    else (splitOnce pat cs).map fun x => (c :: x.1, x.2)

/-- `parse_namespace_sid` (mod.rs:822-828). -/
def parseSid (d : List Char) : Option (Int × Nat) :=
  if "horus_sid".toList <+: d then
    (splitOnce "_uid".toList (d.drop 9)).bind fun x =>
      (parseI32 x.1).bind fun sid => (parseU32 x.2).map fun uid => (sid, uid)
  else none

/-- `session_alive` (mod.rs:832-843): is there a process with that number? -/
def sessionAlive (pids : Int → Bool) (sid : Int) : Bool := if sid ≤ 0 then false else pids sid

/-- Does `cleanup_stale_namespaces` (mod.rs:878-967) remove the directory? -/
def removes (current : List Char) (uid : Nat) (pids : Int → Bool) (d : List Char) : Bool :=
  if ¬ "horus_sid".toList <+: d then false
  else if d = dirName current then false
  else
    match parseSid d with
    | none => false
    | some (sid, u) => if u ≠ uid then false else !sessionAlive pids sid

/-- It removes exactly the directories of our own dead sessions, and never the one in use by the caller. -/
theorem removes_iff (current : List Char) (uid : Nat) (pids : Int → Bool) (d : List Char) :
    removes current uid pids d = true ↔
      d ≠ dirName current ∧ ∃ sid, parseSid d = some (sid, uid) ∧ (sid ≤ 0 ∨ pids sid = false) := by
  unfold removes
  by_cases hp : "horus_sid".toList <+: d
  · rw [if_neg (by simpa using hp)]
    by_cases hc : d = dirName current
    · simp [hc]
    · rw [if_neg hc]
      cases e : parseSid d with
      | none => simp
      | some x =>
        obtain ⟨sid, u⟩ := x
        simp only
        by_cases hu : u = uid
        · subst hu
          simp only [ne_eq, not_true_eq_false, if_false, sessionAlive]
          by_cases hs : sid ≤ 0 <;> simp [hs, hc]
        · simp [hu]
  · rw [if_pos (by simpa using hp)]
    have e : parseSid d = none := by unfold parseSid; rw [if_neg hp]
    rw [e]
    simp

/-- Namespaces that the user named stay, unless they look like a session's. -/
theorem named_namespace_stays (current : List Char) (uid : Nat) (pids : Int → Bool) (ns : List Char)
    (h : ¬ "sid".toList <+: ns) : removes current uid pids (dirName ns) = false := by
  unfold removes
  rw [if_pos]
  intro hp
  apply h
  have e : "horus_sid".toList = "horus_".toList ++ "sid".toList := by decide
  rw [e, dirName, List.prefix_append_right_inj] at hp
  exact hp

/-- The caller's own directory stays. -/
theorem own_namespace_stays (current : List Char) (uid : Nat) (pids : Int → Bool) :
    removes current uid pids (dirName current) = false := by
  unfold removes
  split
  · rfl
  · simp

/-- A process that outlives its session leader (started with `nohup`, say) loses its topics: the
directory goes although it is in use, since only the leader is looked at. -/
theorem orphaned_session_loses_topics :
    ∃ (pids : Int → Bool) (user : Int), pids user = true ∧
      removes "default".toList 1000 pids (dirName "sid4242_uid1000".toList) = true :=
  ⟨fun p => p == 5000, 5000, rfl, by decide⟩

/-! ### The hypotheses are met -/

example : validTopic "sensors.front/imu-2".toList = true ∧ validRegion "../x".toList = false ∧
    validRegion "/etc/passwd".toList = false ∧ validRegion "a/../../b".toList = false ∧ validRegion "C:x".toList = false ∧
    validRegion "a/./b".toList = false := by decide

example : [] ∉ splitBy slash "arm/cmd".toList := by decide

example : (∀ c ∈ "robot_7".toList, c.isAlphanum = true ∨ c = '_') ∧ ∃ c ∈ "robot_7".toList, c ≠ '_' := by decide

example : parseSid "horus_sid4242_uid1000".toList = some (4242, 1000) := by decide

example : harden 1000 ⟨false, true, 1000, 0o775⟩ = 0o700 ∧ harden 1000 ⟨false, true, 1000, 0o500⟩ = 0o500 := by decide

end Horus.Names
