import Verif.Region.Model

/-!
Sharing: who has which memory. Theorems about `Horus.Region.run`.
-/

namespace Horus.Region

theorem get_set {l : List Proc} {h k : Nat} {q r : Proc} (e : (l.set h q)[k]? = some r) :
    (k = h ∧ r = q) ∨ (k ≠ h ∧ l[k]? = some r) := by
  rw [List.getElem?_set] at e
  split at e
  · split at e
    · left; exact ⟨by omega, by simpa using e.symm⟩
    · simp at e
  · right; exact ⟨by omega, e⟩

theorem get_append {l : List Proc} {k : Nat} {q r : Proc} (e : (l ++ [q])[k]? = some r) :
    (k = l.length ∧ r = q) ∨ (k < l.length ∧ l[k]? = some r) := by
  rw [List.getElem?_append] at e
  split at e
  · right; exact ⟨by assumption, e⟩
  · left
    have : k - l.length = 0 := by
      by_contra hne
      rw [List.getElem?_eq_none (by simp; omega)] at e
      simp at e
    rw [this] at e
    exact ⟨by omega, by simpa using e.symm⟩

theorem not_locked {s : Sys} {h i : Nat} (e : s.lockedByOther h i = false) {k : Nat} {p : Proc}
    (hk : s.ps[k]? = some p) (hne : k ≠ h) (hi : p.ino = i) : p.st.shared = false ∧ p.st ≠ .excl := by
  simp only [Sys.lockedByOther, List.any_eq_false] at e
  have := e (p, k) (List.mk_mem_zipIdx_iff_getElem?.mpr hk)
  simp [hne, hi] at this
  exact this

theorem is_locked {s : Sys} {h i k : Nat} {p : Proc}
    (hk : s.ps[k]? = some p) (hne : k ≠ h) (hi : p.ino = i) (hs : p.st.shared = true) :
    s.lockedByOther h i = true := by
  simp only [Sys.lockedByOther, List.any_eq_true]
  exact ⟨(p, k), List.mk_mem_zipIdx_iff_getElem?.mpr hk, by simp [hne, hi, hs]⟩

/-- How one process changes in a step: same file, and never from a closed state to an open one. -/
inductive Moves : PSt → PSt → Prop
  | open1 (a b : PSt) : a.opening = true → (b.opening = true ∨ b = .locked) → Moves a b
  | held (a b : PSt) : a.shared = true → b.shared = true → Moves a b
  | same (a : PSt) : Moves a a

/-- What a step does to the list of processes and to the name. -/
inductive Change (s t : Sys) : Act → Prop
  | idle {a} : t.ps = s.ps → t.link = s.link → t.next = s.next → Change s t a
  | move {a} (h : Nat) (p q : Proc) : s.ps[h]? = some p → t.ps = s.ps.set h q → t.link = s.link →
      t.next = s.next → q.ino = p.ino → Moves p.st q.st → Change s t a
  | dies {a} (h : Nat) (p q : Proc) : s.ps[h]? = some p → t.ps = s.ps.set h q → t.link = s.link →
      t.next = s.next → q.ino = p.ino → q.st = .gone →
      (a = .crash h ∨ (a = .release h ∧ p.st.shared = true) ∨ p.st = .scan) → Change s t a
  | last (h : Nat) (p q : Proc) : s.ps[h]? = some p → t.ps = s.ps.set h q → t.link = s.link →
      t.next = s.next → q.ino = p.ino → p.st.shared = true → q.st = .excl → s.lockedByOther h p.ino = false →
      Change s t (.release h)
  | clear (h : Nat) (p q : Proc) : s.ps[h]? = some p → t.ps = s.ps.set h q → t.link = s.link →
      t.next = s.next → q.ino = p.ino → p.st = .scan → q.st = .swept → s.lockedByOther h p.ino = false →
      Change s t (.sweepTest h)
  | remove (h : Nat) (p q : Proc) : s.ps[h]? = some p → t.ps = s.ps.set h q → t.link = none →
      t.next = s.next → (p.st = .excl ∨ p.st = .swept) → q.st = .gone → q.ino = p.ino → Change s t (.unlink h)
  | create (z : Nat) (ty : List Char) (ts : Nat) (pod : Bool) (q : Proc) : s.link = none → t.link = some s.next →
      t.next = s.next + 1 → t.ps = s.ps ++ [q] → q.st = .fresh → q.ino = s.next → Change s t (.new z ty ts pod)
  | join (z : Nat) (ty : List Char) (ts : Nat) (pod : Bool) (q : Proc) (i : Nat) : s.link = some i →
      t.link = s.link → t.next = s.next → t.ps = s.ps ++ [q] → q.st = .found → q.ino = i → Change s t (.new z ty ts pod)
  | list (q : Proc) (i : Nat) : s.link = some i → t.link = s.link → t.next = s.next → t.ps = s.ps ++ [q] →
      q.st = .scan → q.ino = i → Change s t .sweep
  | vanished (q : Proc) : s.link = none → t.link = none → t.next = s.next → t.ps = s.ps ++ [q] →
      q.st = .swept → Change s t .sweep

theorem advance_change (s : Sys) (h : Nat) (p : Proc) (hp : s.ps[h]? = some p) :
    Change s (advance s h p) (.advance h) := by
  unfold advance
  split
  · rename_i hs
    exact .move h p { p with st := .ready } hp rfl rfl rfl rfl (by rw [hs]; exact .open1 _ _ rfl (Or.inl rfl))
  · rename_i hs
    exact .move h p { p with st := .statted, seen := s.len p.ino } hp rfl rfl rfl rfl (by rw [hs]; exact .open1 _ _ rfl (Or.inl rfl))
  · rename_i hs
    split
    · exact .move h p { p with st := .ready } hp rfl rfl rfl rfl (by rw [hs]; exact .open1 _ _ rfl (Or.inl rfl))
    · exact .move h p { p with st := .ready, size := p.seen } hp rfl rfl rfl rfl (by rw [hs]; exact .open1 _ _ rfl (Or.inl rfl))
  · rename_i hs
    split
    · exact .idle rfl rfl rfl
    · exact .move h p { p with st := .locked } hp rfl rfl rfl rfl (by rw [hs]; exact .open1 _ _ rfl (Or.inr rfl))
  · rename_i hs
    split
    · exact .move h p { p with st := .mapped } hp rfl rfl rfl rfl (by rw [hs]; exact .held _ _ rfl rfl)
    · exact .move h p { p with st := .mapped } hp rfl rfl rfl rfl (by rw [hs]; exact .held _ _ rfl rfl)
  · rename_i hs
    split
    · split
      · exact .move h p { p with st := .live } hp rfl rfl rfl rfl (by rw [hs]; exact .held _ _ rfl rfl)
      · exact .move h p { p with st := .waiting } hp rfl rfl rfl rfl (by rw [hs]; exact .held _ _ rfl rfl)
    · split
      · exact .move h p { p with st := .live } hp rfl rfl rfl rfl (by rw [hs]; exact .held _ _ rfl rfl)
      · exact .move h p { p with st := .failed } hp rfl rfl rfl rfl (by rw [hs]; exact .held _ _ rfl rfl)
  · rename_i hs
    split
    · exact .idle rfl rfl rfl
    · exact .move h p { p with st := .live, late := true } hp rfl rfl rfl rfl (by rw [hs]; exact .held _ _ rfl rfl)
  · exact .idle rfl rfl rfl

theorem step_change (s : Sys) (a : Act) : Change s (step s a) a := by
  cases a with
  | new z ty ts pod =>
    simp only [step]
    split
    · rename_i hl
      exact .create z ty ts pod _ hl rfl rfl rfl rfl rfl
    · rename_i i hl
      exact .join z ty ts pod _ i hl rfl rfl rfl rfl rfl
  | advance h =>
    simp only [step]
    split
    · rename_i p hp; exact advance_change s h p hp
    · exact .idle rfl rfl rfl
  | timeout h =>
    simp only [step]
    split
    · rename_i p hp
      split
      · rename_i hs
        exact .move h p { p with st := .failed } hp rfl rfl rfl rfl (by rw [hs]; exact .held _ _ rfl rfl)
      · exact .idle rfl rfl rfl
    · exact .idle rfl rfl rfl
  | grow h n =>
    simp only [step]
    split
    · rename_i p hp
      split
      · exact .move h p { p with size := n } hp rfl rfl rfl rfl (.same _)
      · exact .idle rfl rfl rfl
    · exact .idle rfl rfl rfl
  | release h =>
    simp only [step]
    split
    · rename_i p hp
      split
      · rename_i hs
        split
        · refine .dies h p { p with st := .gone } hp rfl rfl rfl rfl rfl (Or.inr (Or.inl ⟨rfl, ?_⟩))
          rcases hs with hs | hs <;> rw [hs] <;> rfl
        · rename_i hl
          refine .last h p { p with st := .excl } hp rfl rfl rfl rfl ?_ rfl (by simpa using hl)
          rcases hs with hs | hs <;> rw [hs] <;> rfl
      · exact .idle rfl rfl rfl
    · exact .idle rfl rfl rfl
  | unlink h =>
    simp only [step]
    split
    · rename_i p hp
      split
      · rename_i hs
        exact .remove h p { p with st := .gone } hp rfl rfl rfl hs rfl rfl
      · exact .idle rfl rfl rfl
    · exact .idle rfl rfl rfl
  | crash h =>
    simp only [step]
    split
    · rename_i p hp
      exact .dies h p { p with st := .gone } hp rfl rfl rfl rfl rfl (Or.inl rfl)
    · exact .idle rfl rfl rfl
  | sweep =>
    simp only [step]
    split
    · rename_i i hl
      exact .list _ i hl rfl rfl rfl rfl rfl
    · rename_i hl
      split
      · exact .idle rfl rfl rfl
      · exact .vanished _ hl hl rfl rfl rfl
  | sweepTest h =>
    simp only [step]
    split
    · rename_i p hp
      split
      · rename_i hs
        split
        · exact .dies h p { p with st := .gone } hp rfl rfl rfl rfl rfl (Or.inr (Or.inr hs))
        · rename_i hl
          exact .clear h p { p with st := .swept } hp rfl rfl rfl rfl hs rfl (by simpa using hl)
      · exact .idle rfl rfl rfl
    · exact .idle rfl rfl rfl

/-! ### One handle that stays open -/

/-- Handle `k` is up, holding its lock. -/
def Up (s : Sys) (k : Nat) : Prop := ∃ p, s.ps[k]? = some p ∧ p.st.shared = true

/-- An action that closes or kills handle `k`. -/
def ends (k : Nat) : Act → Bool
  | .release h => h == k
  | .crash h => h == k
  | _ => false

/-- Nothing is left over from an earlier file: every user of the name is on the file it now means, and
nobody is about to remove it. -/
def Settled (s : Sys) (i : Nat) : Prop :=
  s.link = some i ∧ ∀ (k : Nat) (p : Proc), s.ps[k]? = some p → p.st = .gone ∨ (p.ino = i ∧ p.st ≠ .excl ∧ p.st ≠ .swept)

theorem get_set_eq {l : List Proc} {h : Nat} {p q : Proc} (hp : l[h]? = some p) : (l.set h q)[h]? = some q := by
  have : h < l.length := by
    by_contra hh
    rw [List.getElem?_eq_none (by omega)] at hp; simp at hp
  simp [List.getElem?_set, this]

theorem get_set_ne {l : List Proc} {h k : Nat} {q r : Proc} (hne : h ≠ k) (hk : l[k]? = some r) :
    (l.set h q)[k]? = some r := by
  rw [List.getElem?_set, if_neg hne]; exact hk

theorem get_append_old {l : List Proc} {k : Nat} {q r : Proc} (hk : l[k]? = some r) : (l ++ [q])[k]? = some r := by
  have : k < l.length := by
    by_contra hh
    rw [List.getElem?_eq_none (by omega)] at hk; simp at hk
  rw [List.getElem?_append, if_pos this]; exact hk

theorem settled_step {s : Sys} {i k : Nat} (hs : Settled s i) (hu : Up s k) (a : Act) (ha : ends k a = false) :
    Settled (step s a) i ∧ Up (step s a) k := by
  obtain ⟨hl, hall⟩ := hs
  obtain ⟨pk, hk, hsh⟩ := hu
  have hki : pk.ino = i := by
    rcases hall k pk hk with h | h
    · rw [h] at hsh; simp [PSt.shared] at hsh
    · exact h.1
  have nolock : ∀ (h : Nat) (p : Proc), s.ps[h]? = some p → h ≠ k → p.st ≠ .gone →
      s.lockedByOther h p.ino = false → False := by
    intro h p hp hne hg hf
    rcases hall h p hp with h' | h'
    · exact hg h'
    · rw [is_locked hk (by omega) (hki.trans h'.1.symm) hsh] at hf
      simp at hf
  cases step_change s a with
  | idle e1 e2 e3 =>
    exact ⟨⟨by rw [e2]; exact hl, by rw [e1]; exact hall⟩, ⟨pk, by rw [e1]; exact hk, hsh⟩⟩
  | move h p q hp e1 e2 e3 e4 hm =>
    refine ⟨⟨by rw [e2]; exact hl, ?_⟩, ?_⟩
    · rw [e1]
      intro j r hj
      rcases get_set hj with ⟨rfl, rfl⟩ | ⟨_, hj⟩
      · have h1 := hall _ _ hp
        rw [e4]
        generalize p.st = a' at *
        generalize r.st = b at *
        cases hm with
        | open1 _ h2 h3 =>
          right
          refine ⟨?_, ?_⟩
          · rcases h1 with h1 | h1
            · subst h1; simp [PSt.opening] at h2
            · exact h1.1
          · cases b <;> simp_all [PSt.opening]
        | held _ h2 h3 =>
          right
          refine ⟨?_, ?_⟩
          · rcases h1 with h1 | h1
            · subst h1; simp [PSt.shared] at h2
            · exact h1.1
          · cases b <;> simp_all [PSt.shared]
        | same => exact h1
      · exact hall j r hj
    · by_cases he : h = k
      · subst he
        rw [hk] at hp
        cases hp
        refine ⟨q, by rw [e1]; exact get_set_eq hk, ?_⟩
        generalize pk.st = a' at *
        generalize q.st = b at *
        cases hm with
        | open1 _ h1 h2 => cases a' <;> simp_all [PSt.opening, PSt.shared]
        | held _ h1 h2 => exact h2
        | same => exact hsh
      · exact ⟨pk, by rw [e1]; exact get_set_ne he hk, hsh⟩
  | dies h p q hp e1 e2 e3 e4 h1 h2 =>
    have hne : h ≠ k := by
      rintro rfl
      rcases h2 with h2 | h2 | h2
      · subst h2; simp [ends] at ha
      · rw [h2.1] at ha; simp [ends] at ha
      · rw [hk] at hp; cases hp; rw [h2] at hsh; simp [PSt.shared] at hsh
    refine ⟨⟨by rw [e2]; exact hl, ?_⟩, ⟨pk, by rw [e1]; exact get_set_ne hne hk, hsh⟩⟩
    rw [e1]
    intro j r hj
    rcases get_set hj with ⟨_, rfl⟩ | ⟨_, hj⟩
    · left; exact h1
    · exact hall j r hj
  | last h p q hp e1 e2 e3 e4 h1 h2 hlk =>
    exfalso
    have : h ≠ k := by simpa [ends] using ha
    exact nolock h p hp this (by intro h'; rw [h'] at h1; simp [PSt.shared] at h1) hlk
  | clear h p q hp e1 e2 e3 e4 h1 h2 hlk =>
    exfalso
    by_cases he : h = k
    · subst he; rw [hk] at hp; cases hp; rw [h1] at hsh; simp [PSt.shared] at hsh
    · exact nolock h p hp he (by rw [h1]; simp) hlk
  | remove h p q hp e1 e2 e3 h1 h2 e4 =>
    exfalso
    rcases hall h p hp with h' | h'
    · rcases h1 with h1 | h1 <;> rw [h1] at h' <;> simp at h'
    · rcases h1 with h1 | h1
      · exact h'.2.1 h1
      · exact h'.2.2 h1
  | create z ty ts pod q e0 => rw [hl] at e0; simp at e0
  | join z ty ts pod q i' e0 e1 e2 e3 e4 e5 =>
    refine ⟨⟨by rw [e1]; exact hl, ?_⟩, ⟨pk, by rw [e3]; exact get_append_old hk, hsh⟩⟩
    rw [e3]
    intro j r hj
    rcases get_append hj with ⟨_, rfl⟩ | ⟨_, hj⟩
    · right
      rw [hl] at e0
      cases e0
      exact ⟨e5, by rw [e4]; simp, by rw [e4]; simp⟩
    · exact hall j r hj
  | list q i' e0 e1 e2 e3 e4 e5 =>
    refine ⟨⟨by rw [e1]; exact hl, ?_⟩, ⟨pk, by rw [e3]; exact get_append_old hk, hsh⟩⟩
    rw [e3]
    intro j r hj
    rcases get_append hj with ⟨_, rfl⟩ | ⟨_, hj⟩
    · right
      rw [hl] at e0
      cases e0
      exact ⟨e5, by rw [e4]; simp, by rw [e4]; simp⟩
    · exact hall j r hj
  | vanished q e0 => rw [hl] at e0; simp at e0

/-- While one handle stays open, nothing that others do (opening, closing, crashing, growing, sweeping,
in any interleaving) removes the file or splits its users: the name goes on meaning the same file, and
every handle that has the topic mapped, then or later, maps that file. -/
theorem open_handle_keeps_file {s : Sys} {i k : Nat} (hs : Settled s i) (hu : Up s k) (as : List Act)
    (ha : ∀ a ∈ as, ends k a = false) :
    (run s as).link = some i ∧
      ∀ (h : Nat) (p : Proc), (run s as).ps[h]? = some p → p.st.hasMap = true → p.ino = i := by
  have main : ∀ (as : List Act) (s : Sys), Settled s i → Up s k → (∀ a ∈ as, ends k a = false) →
      Settled (run s as) i := by
    intro as
    induction as with
    | nil => intro s hs _ _; exact hs
    | cons a as ih =>
      intro s hs hu ha
      have h1 := settled_step hs hu a (ha a (by simp))
      exact ih (step s a) h1.1 h1.2 (fun b hb => ha b (by simp [hb]))
  obtain ⟨h1, h2⟩ := main as s hs hu ha
  refine ⟨h1, fun h p hp hm => ?_⟩
  rcases h2 h p hp with h' | h'
  · rw [h'] at hm; simp [PSt.hasMap] at hm
  · exact h'.1

/-! ### Closing -/

/-- Closing a handle while another one is open on the same file removes nothing: the process is done and
the name still means what it meant. -/
theorem close_not_last {s : Sys} {h k : Nat} {p q : Proc} (hp : s.ps[h]? = some p) (hl : p.st = .live)
    (hk : s.ps[k]? = some q) (hne : k ≠ h) (hi : q.ino = p.ino) (hq : q.st.shared = true) :
    run s [.release h, .unlink h] = { s with ps := s.ps.set h { p with st := .gone } } := by
  have hlk := is_locked hk hne hi hq
  have e1 : step s (.release h) = { s with ps := s.ps.set h { p with st := .gone } } := by
    simp [step, hp, hl, hlk, Sys.put]
  have e2 : ({ s with ps := s.ps.set h { p with st := .gone } } : Sys).ps[h]? = some { p with st := .gone } :=
    get_set_eq hp
  rw [run, List.foldl_cons, e1, List.foldl_cons, List.foldl_nil]
  simp only [step, e2]
  simp

/-- Closing the only open handle removes the file's name, whoever created it. -/
theorem close_last {s : Sys} {h : Nat} {p : Proc} (hp : s.ps[h]? = some p) (hl : p.st = .live)
    (hal : ∀ (k : Nat) (q : Proc), s.ps[k]? = some q → k ≠ h → q.ino = p.ino → q.st = .gone) :
    (run s [.release h, .unlink h]).link = none := by
  have hlk : s.lockedByOther h p.ino = false := by
    simp only [Sys.lockedByOther, List.any_eq_false]
    rintro ⟨q, k⟩ hm
    have hk := List.mk_mem_zipIdx_iff_getElem?.mp hm
    by_cases h1 : k = h
    · simp [h1]
    by_cases h2 : q.ino = p.ino
    · simp [hal k q hk h1 h2, PSt.shared]
    · simp [h2]
  have e1 : step s (.release h) = { s with ps := s.ps.set h { p with st := .excl } } := by
    simp [step, hp, hl, hlk, Sys.put]
  have e2 : ({ s with ps := s.ps.set h { p with st := .excl } } : Sys).ps[h]? = some { p with st := .excl } :=
    get_set_eq hp
  rw [run, List.foldl_cons, e1, List.foldl_cons, List.foldl_nil]
  simp only [step, e2]
  simp

/-- A killed process leaves the file where it is. -/
theorem crash_keeps_file (s : Sys) (h : Nat) :
    (step s (.crash h)).link = s.link ∧ (step s (.crash h)).len = s.len ∧ (step s (.crash h)).hdr = s.hdr := by
  simp only [step]
  split <;> exact ⟨rfl, rfl, rfl⟩

/-! ### Opening while nobody closes or sweeps -/

/-- Is a removal of the name under way? -/
def PSt.removing : PSt → Bool
  | .excl | .swept | .scan => true
  | _ => false

/-- Nobody opens the topic while a close or a sweep is under way, and no close or sweep starts while
somebody is between `open` and `flock`. Everything else is free. -/
def Calm (s : Sys) : Act → Prop
  | .new _ _ _ _ => ∀ p ∈ s.ps, p.st.removing = false
  | .release _ => ∀ p ∈ s.ps, p.st.opening = false
  | .sweepTest _ => ∀ p ∈ s.ps, p.st.opening = false
  | .sweep => ∀ p ∈ s.ps, p.st.opening = false
  | _ => True

instance (s : Sys) (a : Act) : Decidable (Calm s a) := by
  cases a <;> unfold Calm <;> infer_instance

/-- A history all of whose steps are calm. -/
def CalmRun (s : Sys) : List Act → Prop
  | [] => True
  | a :: as => Calm s a ∧ CalmRun (step s a) as

instance : ∀ (s : Sys) (as : List Act), Decidable (CalmRun s as)
  | _, [] => isTrue trivial
  | s, a :: as => @instDecidableAnd _ _ (inferInstanceAs (Decidable (Calm s a)))
      (instDecidableCalmRun (step s a) as)

/-- Using the file: opening it or holding it. -/
def PSt.using : PSt → Bool := fun a => a.opening || a.shared

structure Inv (s : Sys) : Prop where
  on : ∀ (k : Nat) (p : Proc), s.ps[k]? = some p → p.st.using = true → s.link = some p.ino
  excl : ∀ (k : Nat) (p : Proc), s.ps[k]? = some p → p.st = .excl ∨ p.st = .swept →
    ∀ (j : Nat) (q : Proc), s.ps[j]? = some q → q.st.using = false
  scan : ∀ (k : Nat) (p : Proc), s.ps[k]? = some p → p.st = .scan →
    s.link = some p.ino ∨ ∀ (j : Nat) (q : Proc), s.ps[j]? = some q → q.st.using = false

theorem moves_using {a b : PSt} (h : Moves a b) : b.using = true → a.using = true := by
  cases h with
  | open1 _ h1 _ => intro _; simp [PSt.using, h1]
  | held _ h1 _ => intro _; simp [PSt.using, h1]
  | same => exact id

theorem moves_removing {a b : PSt} (h : Moves a b) (hb : b.removing = true) : a = b := by
  cases h with
  | open1 _ h1 h2 => cases b <;> simp_all [PSt.opening, PSt.removing]
  | held _ h1 h2 => cases b <;> simp_all [PSt.shared, PSt.removing]
  | same => rfl

/-- A change to one process that only takes away keeps the invariant. -/
theorem inv_set {s : Sys} (hi : Inv s) {h : Nat} {p q : Proc} (hp : s.ps[h]? = some p) (e4 : q.ino = p.ino)
    (hu : q.st.using = true → p.st.using = true) (hr : q.st.removing = true → p.st = q.st) {t : Sys}
    (e1 : t.ps = s.ps.set h q) (e2 : t.link = s.link) : Inv t := by
  have nouse : (∀ (j : Nat) (r : Proc), s.ps[j]? = some r → r.st.using = false) →
      ∀ (j : Nat) (r : Proc), t.ps[j]? = some r → r.st.using = false := by
    intro hn j r hj
    rw [e1] at hj
    rcases get_set hj with ⟨rfl, rfl⟩ | ⟨_, hj⟩
    · have := hn _ _ hp
      cases hh : r.st.using with
      | false => rfl
      | true => rw [hu hh] at this; exact this
    · exact hn j r hj
  constructor
  · intro k r hk hr'
    rw [e1] at hk
    rw [e2]
    rcases get_set hk with ⟨rfl, rfl⟩ | ⟨_, hk⟩
    · rw [e4]; exact hi.on _ _ hp (hu hr')
    · exact hi.on k r hk hr'
  · intro k r hk hr'
    apply nouse
    rw [e1] at hk
    rcases get_set hk with ⟨rfl, rfl⟩ | ⟨_, hk⟩
    · have := hr (by rcases hr' with h | h <;> rw [h] <;> rfl)
      exact hi.excl _ _ hp (by rw [this]; exact hr')
    · exact hi.excl k r hk hr'
  · intro k r hk hr'
    rw [e1] at hk
    rcases get_set hk with ⟨rfl, rfl⟩ | ⟨_, hk⟩
    · have := hr (by rw [hr']; rfl)
      rcases hi.scan _ _ hp (by rw [this]; exact hr') with h | h
      · left; rw [e2, e4]; exact h
      · right; exact nouse h
    · rcases hi.scan k r hk hr' with h | h
      · left; rw [e2]; exact h
      · right; exact nouse h

/-- Marking a process as about to remove the name keeps the invariant when nobody uses the file. -/
theorem inv_mark {s : Sys} (hi : Inv s) {h : Nat} {q : Proc} (hq : q.st = .excl ∨ q.st = .swept ∨ q.st = .gone) {t : Sys}
    (e1 : t.ps = s.ps.set h q)
    (hn : ∀ (j : Nat) (r : Proc), s.ps[j]? = some r → j ≠ h → r.st.using = false) : Inv t := by
  have nouse : ∀ (j : Nat) (r : Proc), t.ps[j]? = some r → r.st.using = false := by
    intro j r hj
    rw [e1] at hj
    rcases get_set hj with ⟨rfl, rfl⟩ | ⟨h', hj⟩
    · rcases hq with h | h | h <;> rw [h] <;> rfl
    · exact hn j r hj h'
  refine ⟨fun k r hk hr => ?_, fun _ _ _ _ => nouse, fun _ _ _ _ => Or.inr nouse⟩
  rw [nouse k r hk] at hr; simp at hr

theorem inv_step {s : Sys} (hi : Inv s) (a : Act) (hc : Calm s a) : Inv (step s a) := by
  cases step_change s a with
  | idle e1 e2 e3 =>
    exact ⟨by rw [e1, e2]; exact hi.on, by rw [e1]; exact hi.excl, by rw [e1, e2]; exact hi.scan⟩
  | move h p q hp e1 e2 e3 e4 hm => exact inv_set hi hp e4 (moves_using hm) (moves_removing hm) e1 e2
  | dies h p q hp e1 e2 e3 e4 h1 h2 =>
    exact inv_set hi hp e4 (by rw [h1]; simp [PSt.using, PSt.opening, PSt.shared]) (by rw [h1]; simp [PSt.removing]) e1 e2
  | last h p q hp e1 e2 e3 e4 h1 h2 hlk =>
    refine inv_mark hi (Or.inl h2) e1 ?_
    intro j r hj hne
    have ho := hc r (List.mem_of_getElem? hj)
    by_cases hsh : r.st.shared = true
    · exfalso
      have l1 := hi.on j r hj (by simp [PSt.using, hsh])
      have l2 := hi.on h p hp (by simp [PSt.using, h1])
      rw [l1] at l2
      have := not_locked hlk hj hne (by simpa using l2)
      rw [hsh] at this; simp at this
    · simp [PSt.using, ho, hsh]
  | clear h p q hp e1 e2 e3 e4 h1 h2 hlk =>
    refine inv_mark hi (Or.inr (Or.inl h2)) e1 ?_
    intro j r hj hne
    rcases hi.scan h p hp h1 with l2 | l2
    · have ho := hc r (List.mem_of_getElem? hj)
      by_cases hsh : r.st.shared = true
      · exfalso
        have l1 := hi.on j r hj (by simp [PSt.using, hsh])
        rw [l1] at l2
        have := not_locked hlk hj hne (by simpa using l2)
        rw [hsh] at this; simp at this
      · simp [PSt.using, ho, hsh]
    · exact l2 j r hj
  | remove h p q hp e1 e2 e3 h1 h2 e4 =>
    exact inv_mark hi (Or.inr (Or.inr h2)) e1 (fun j r hj _ => hi.excl h p hp h1 j r hj)
  | create z ty ts pod q e0 e1 e2 e3 e4 e5 =>
    have old : ∀ (j : Nat) (r : Proc), s.ps[j]? = some r → r.st.using = false := by
      intro j r hj
      cases hh : r.st.using with
      | false => rfl
      | true => have := hi.on j r hj hh; rw [e0] at this; simp at this
    constructor
    · intro k r hk hr
      rw [e3] at hk
      rcases get_append hk with ⟨_, rfl⟩ | ⟨_, hk⟩
      · rw [e1, e5]
      · rw [old k r hk] at hr; simp at hr
    · intro k r hk hr
      rw [e3] at hk
      exfalso
      rcases get_append hk with ⟨_, rfl⟩ | ⟨_, hk⟩
      · rw [e4] at hr; simp at hr
      · have := hc r (List.mem_of_getElem? hk)
        rcases hr with h | h <;> rw [h] at this <;> simp [PSt.removing] at this
    · intro k r hk hr
      rw [e3] at hk
      exfalso
      rcases get_append hk with ⟨_, rfl⟩ | ⟨_, hk⟩
      · rw [e4] at hr; simp at hr
      · have := hc r (List.mem_of_getElem? hk)
        rw [hr] at this; simp [PSt.removing] at this
  | join z ty ts pod q i e0 e1 e2 e3 e4 e5 =>
    constructor
    · intro k r hk hr
      rw [e3] at hk
      rw [e1]
      rcases get_append hk with ⟨_, rfl⟩ | ⟨_, hk⟩
      · rw [e0, e5]
      · exact hi.on k r hk hr
    · intro k r hk hr
      rw [e3] at hk
      exfalso
      rcases get_append hk with ⟨_, rfl⟩ | ⟨_, hk⟩
      · rw [e4] at hr; simp at hr
      · have := hc r (List.mem_of_getElem? hk)
        rcases hr with h | h <;> rw [h] at this <;> simp [PSt.removing] at this
    · intro k r hk hr
      rw [e3] at hk
      exfalso
      rcases get_append hk with ⟨_, rfl⟩ | ⟨_, hk⟩
      · rw [e4] at hr; simp at hr
      · have := hc r (List.mem_of_getElem? hk)
        rw [hr] at this; simp [PSt.removing] at this
  | list q i e0 e1 e2 e3 e4 e5 =>
    have nouse : (∀ (j : Nat) (r : Proc), s.ps[j]? = some r → r.st.using = false) →
        ∀ (j : Nat) (r : Proc), (step s .sweep).ps[j]? = some r → r.st.using = false := by
      intro hn j r hj
      rw [e3] at hj
      rcases get_append hj with ⟨_, rfl⟩ | ⟨_, hj⟩
      · rw [e4]; rfl
      · exact hn j r hj
    constructor
    · intro k r hk hr
      rw [e3] at hk
      rw [e1]
      rcases get_append hk with ⟨_, rfl⟩ | ⟨_, hk⟩
      · rw [e4] at hr; simp [PSt.using, PSt.opening, PSt.shared] at hr
      · exact hi.on k r hk hr
    · intro k r hk hr
      apply nouse
      rw [e3] at hk
      rcases get_append hk with ⟨_, rfl⟩ | ⟨_, hk⟩
      · rw [e4] at hr; simp at hr
      · exact hi.excl k r hk hr
    · intro k r hk hr
      rw [e3] at hk
      rcases get_append hk with ⟨_, rfl⟩ | ⟨_, hk⟩
      · left; rw [e1, e0, e5]
      · rcases hi.scan k r hk hr with h | h
        · left; rw [e1]; exact h
        · right; exact nouse h
  | vanished q e0 e1 e2 e3 e4 =>
    have old : ∀ (j : Nat) (r : Proc), s.ps[j]? = some r → r.st.using = false := by
      intro j r hj
      cases hh : r.st.using with
      | false => rfl
      | true => have := hi.on j r hj hh; rw [e0] at this; simp at this
    have nouse : ∀ (j : Nat) (r : Proc), (step s .sweep).ps[j]? = some r → r.st.using = false := by
      intro j r hj
      rw [e3] at hj
      rcases get_append hj with ⟨_, rfl⟩ | ⟨_, hj⟩
      · rw [e4]; rfl
      · exact old j r hj
    refine ⟨fun k r hk hr => ?_, fun _ _ _ _ => nouse, fun _ _ _ _ => Or.inr nouse⟩
    rw [nouse k r hk] at hr; simp at hr

theorem inv_run {s : Sys} (hi : Inv s) (as : List Act) (hc : CalmRun s as) : Inv (run s as) := by
  induction as generalizing s with
  | nil => exact hi
  | cons a as ih => exact ih (inv_step hi a hc.1) hc.2

theorem inv_init : Inv Sys.init := ⟨by simp [Sys.init], by simp [Sys.init], by simp [Sys.init]⟩

/-- In every calm history, whatever the interleaving of opens, crashes, growths and failed closes:
the name means the file of every handle that has the topic mapped, so all of them share one memory.
Missing for the full property: histories where an open overlaps the last close or a sweep, for which it
is false (`open_races_last_close`, `open_races_sweep`, …). -/
theorem one_memory_partial (as : List Act) (hc : CalmRun Sys.init as) (h k : Nat) (p q : Proc)
    (hp : (run Sys.init as).ps[h]? = some p) (hq : (run Sys.init as).ps[k]? = some q)
    (hpm : p.st.hasMap = true) (hqm : q.st.hasMap = true) :
    p.ino = q.ino ∧ (run Sys.init as).link = some p.ino := by
  have hi := inv_run inv_init as hc
  have use : ∀ a : PSt, a.hasMap = true → a.using = true := by intro a; cases a <;> simp [PSt.hasMap, PSt.using, PSt.shared]
  have l1 := hi.on h p hp (use _ hpm)
  have l2 := hi.on k q hq (use _ hqm)
  rw [l1] at l2
  exact ⟨by simpa using l2, l1⟩

/-! ### The histories that break it -/

/-- Opening in one go by process number `h`: open, size, lock, map, negotiate. -/
def opens (h : Nat) : List Act := [.advance h, .advance h, .advance h, .advance h]

/-- The joiner's extra step (`stat`). -/
def joins (h : Nat) : List Act := [.advance h, .advance h, .advance h, .advance h, .advance h]

/-- A live handle on a file that the topic's name no longer means, with another live handle on the file
that it does. -/
def Split (s : Sys) : Prop :=
  ∃ (h k : Nat) (p q : Proc), s.ps[h]? = some p ∧ s.ps[k]? = some q ∧ p.st = .live ∧ q.st = .live ∧ p.ino ≠ q.ino

def ty0 : List Char := "Imu".toList

/-- A subscriber that has opened the file but not yet locked it while the last holder closes ends up
alone on a deleted file: the next publisher gets a new one. -/
def lastCloseRace : List Act :=
  [.new 64 ty0 8 true] ++ opens 0 ++ [.new 64 ty0 8 true, .release 0, .unlink 0] ++ joins 1 ++
    [.new 64 ty0 8 true] ++ opens 2

theorem open_races_last_close : Split (run Sys.init lastCloseRace) :=
  ⟨1, 2, _, _, rfl, rfl, rfl, rfl, by decide⟩

/-- A sweep that runs between a creator's `open` and its `flock` deletes the file being created. -/
def sweepRace : List Act :=
  [.new 64 ty0 8 true, .sweep, .sweepTest 1, .unlink 1] ++ opens 0 ++ [.new 64 ty0 8 true] ++ opens 2

theorem open_races_sweep : Split (run Sys.init sweepRace) :=
  ⟨0, 2, _, _, rfl, rfl, rfl, rfl, by decide⟩

/-- Once one handle is left on a deleted file, its close deletes the file that others are using, and the
split goes on to the next opener. -/
def orphanClose : List Act := lastCloseRace ++ [.release 1, .unlink 1, .new 64 ty0 8 true] ++ opens 3

theorem orphan_close_deletes_live_file :
    (run Sys.init (lastCloseRace ++ [.release 1, .unlink 1])).link = none ∧ Split (run Sys.init orphanClose) :=
  ⟨rfl, 2, 3, _, _, rfl, rfl, rfl, rfl, by decide⟩

/-- A sweep tests a stale file, and before it removes the name the topic is opened again: it removes
the file in use. -/
def testThenRemove : List Act :=
  [.new 64 ty0 8 true] ++ opens 0 ++ [.crash 0, .sweep, .sweepTest 1, .new 64 ty0 8 true] ++ joins 2 ++
    [.unlink 1, .new 64 ty0 8 true] ++ opens 3

theorem sweep_removes_reopened_file : Split (run Sys.init testThenRemove) :=
  ⟨2, 3, _, _, rfl, rfl, rfl, rfl, by decide⟩

/-! ### The hypotheses are met -/

/-- One handle open, a second one between `open` and `flock`, a sweep that has opened the file. -/
def keeperSample : List Act :=
  [.new 64 ty0 8 true] ++ opens 0 ++ [.new 64 ty0 8 true, .sweep]

example : Settled (run Sys.init keeperSample) 0 ∧ Up (run Sys.init keeperSample) 0 := by
  refine ⟨⟨rfl, ?_⟩, ⟨_, rfl, rfl⟩⟩
  intro k p hk
  have : p ∈ (run Sys.init keeperSample).ps := List.mem_of_getElem? hk
  have all : ∀ p ∈ (run Sys.init keeperSample).ps, p.st = .gone ∨ (p.ino = 0 ∧ p.st ≠ .excl ∧ p.st ≠ .swept) := by
    decide
  exact all p this

/-- A calm history with three handles, a crash, a failed close and a sweep. -/
def calmSample : List Act :=
  [.new 64 ty0 8 true, .new 64 ty0 8 true] ++ opens 0 ++ joins 1 ++ [.new 64 ty0 8 true] ++ joins 2 ++
    [.crash 0, .sweep, .sweepTest 3, .release 1]

example : CalmRun Sys.init calmSample := by decide

example : (run Sys.init calmSample).link = some 0 ∧ ((run Sys.init calmSample).ps.map (·.st)) = [.gone, .gone, .live, .gone] :=
  ⟨rfl, rfl⟩

end Horus.Region
