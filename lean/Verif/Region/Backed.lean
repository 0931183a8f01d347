import Verif.Region.Share

/-!
Is the memory a handle has mapped always backed by the file? Touching a page past the end of the file
kills the process (SIGBUS).
-/

namespace Horus.Region

/-- Every handle that has the file mapped finds its whole mapping inside the file. -/
def Backed (s : Sys) : Prop :=
  ∀ (h : Nat) (p : Proc), s.ps[h]? = some p → p.st.hasMap = true → p.size ≤ s.len p.ino

/-- The step makes no existing file shorter. -/
def Grows (s : Sys) (a : Act) : Prop := ∀ i, i < s.next → s.len i ≤ (step s a).len i

/-- A history that makes no file shorter. -/
def GrowsRun (s : Sys) : List Act → Prop
  | [] => True
  | a :: as => Grows s a ∧ GrowsRun (step s a) as

/-- Past the point where the size is settled. -/
def PSt.sized : PSt → Bool
  | .ready | .locked | .mapped | .waiting | .live | .failed => true
  | _ => false

/-- What the process knows about the file's length is right. -/
def POk (len : Nat → Nat) (p : Proc) : Prop :=
  (p.st.sized = true → p.size ≤ len p.ino) ∧ (p.st = .statted → p.seen ≤ len p.ino)

structure BInv (s : Sys) : Prop where
  ino : ∀ (h : Nat) (p : Proc), s.ps[h]? = some p → p.ino < s.next
  ok : ∀ (h : Nat) (p : Proc), s.ps[h]? = some p → POk s.len p

theorem POk.mono {l l' : Nat → Nat} {p : Proc} (h : POk l p) (hl : l p.ino ≤ l' p.ino) : POk l' p :=
  ⟨fun h1 => Nat.le_trans (h.1 h1) hl, fun h1 => Nat.le_trans (h.2 h1) hl⟩

theorem binv_set {s t : Sys} (hi : BInv s) {h : Nat} {p q : Proc} (hp : s.ps[h]? = some p)
    (e1 : t.ps = s.ps.set h q) (e2 : t.next = s.next) (e3 : q.ino = p.ino)
    (hg : ∀ i, i < s.next → s.len i ≤ t.len i) (hq : POk t.len q) : BInv t := by
  constructor
  · intro k r hk
    rw [e1] at hk
    rw [e2]
    rcases get_set hk with ⟨rfl, rfl⟩ | ⟨_, hk⟩
    · rw [e3]; exact hi.ino _ _ hp
    · exact hi.ino _ _ hk
  · intro k r hk
    rw [e1] at hk
    rcases get_set hk with ⟨rfl, rfl⟩ | ⟨_, hk⟩
    · exact hq
    · exact (hi.ok _ _ hk).mono (hg _ (hi.ino _ _ hk))

theorem pok_off {l : Nat → Nat} {p : Proc} (h1 : p.st.sized = false) (h2 : p.st ≠ .statted) : POk l p :=
  ⟨fun h => by rw [h1] at h; simp at h, fun h => absurd h h2⟩

theorem binv_advance {s : Sys} (hi : BInv s) {h : Nat} {p : Proc} (hp : s.ps[h]? = some p)
    (hg : ∀ i, i < s.next → s.len i ≤ (advance s h p).len i) : BInv (advance s h p) := by
  have hok := hi.ok h p hp
  have sz : ∀ b : PSt, b.sized = true → p.st.sized = true → POk s.len { p with st := b } := by
    intro b hb hps
    exact ⟨fun _ => hok.1 hps, fun h => by rw [show b = .statted from h] at hb; simp [PSt.sized] at hb⟩
  unfold advance at hg ⊢
  split at hg
  · rename_i hs
    refine binv_set hi hp (q := { p with st := .ready }) rfl rfl rfl hg ⟨fun _ => ?_, by simp⟩
    simp
  · rename_i hs
    refine binv_set hi hp (q := { p with st := .statted, seen := s.len p.ino }) rfl rfl rfl hg ⟨by simp [PSt.sized], fun _ => ?_⟩
    simp [Sys.put]
  · rename_i hs
    split at hg
    · rename_i hlt
      rw [if_pos hlt]
      refine binv_set hi hp (q := { p with st := .ready }) rfl rfl rfl hg ⟨fun _ => ?_, by simp⟩
      simp
    · rename_i hlt
      rw [if_neg hlt]
      refine binv_set hi hp (q := { p with st := .ready, size := p.seen }) rfl rfl rfl hg ⟨fun _ => ?_, by simp⟩
      exact hok.2 hs
  · rename_i hs
    split at hg
    · rename_i hx; rw [if_pos hx]; exact hi
    · rename_i hx
      rw [if_neg hx]
      exact binv_set hi hp (q := { p with st := .locked }) rfl rfl rfl hg (sz _ rfl (by rw [hs]; rfl))
  · rename_i hs
    split at hg
    · rename_i hx
      rw [if_pos hx]
      exact binv_set hi hp (q := { p with st := .mapped }) rfl rfl rfl hg (sz _ rfl (by rw [hs]; rfl))
    · rename_i hx
      rw [if_neg hx]
      exact binv_set hi hp (q := { p with st := .mapped }) rfl rfl rfl hg (sz _ rfl (by rw [hs]; rfl))
  · rename_i hs
    have hz : p.st.sized = true := by rw [hs]; rfl
    split
    · split
      · exact binv_set hi hp (q := { p with st := .live }) rfl rfl rfl (fun _ _ => Nat.le_refl _) (sz _ rfl hz)
      · exact binv_set hi hp (q := { p with st := .waiting }) rfl rfl rfl (fun _ _ => Nat.le_refl _) (sz _ rfl hz)
    · split
      · exact binv_set hi hp (q := { p with st := .live }) rfl rfl rfl (fun _ _ => Nat.le_refl _) (sz _ rfl hz)
      · exact binv_set hi hp (q := { p with st := .failed }) rfl rfl rfl (fun _ _ => Nat.le_refl _) (sz _ rfl hz)
  · rename_i hs
    have hz : p.st.sized = true := by rw [hs]; rfl
    split
    · exact hi
    · refine binv_set hi hp (q := { p with st := .live, late := true }) rfl rfl rfl (fun _ _ => Nat.le_refl _) ?_
      exact ⟨fun _ => hok.1 hz, by simp⟩
  · exact hi

theorem binv_append {s t : Sys} (hi : BInv s) {q : Proc} (e1 : t.ps = s.ps ++ [q]) (e2 : s.next ≤ t.next)
    (e3 : q.ino < t.next) (h1 : q.st.sized = false) (h2 : q.st ≠ .statted)
    (hg : ∀ i, i < s.next → s.len i ≤ t.len i) : BInv t := by
  constructor
  · intro k r hk
    rw [e1] at hk
    rcases get_append hk with ⟨_, rfl⟩ | ⟨_, hk⟩
    · exact e3
    · exact Nat.lt_of_lt_of_le (hi.ino _ _ hk) e2
  · intro k r hk
    rw [e1] at hk
    rcases get_append hk with ⟨_, rfl⟩ | ⟨_, hk⟩
    · exact pok_off h1 h2
    · exact (hi.ok _ _ hk).mono (hg _ (hi.ino _ _ hk))

theorem binv_step {s : Sys} (hi : BInv s) (hlink : ∀ i, s.link = some i → i < s.next) (a : Act) (hg : Grows s a) :
    BInv (step s a) := by
  have refl : ∀ i, i < s.next → s.len i ≤ s.len i := fun _ _ => Nat.le_refl _
  unfold Grows at hg
  cases a with
  | new z ty ts pod =>
    simp only [step] at hg ⊢
    split
    · exact binv_append hi (q := { st := .fresh, ino := s.next, size := z, own := true, ty := ty, tsize := ts, pod := pod })
        rfl (Nat.le_succ _) (Nat.lt_succ_self _) rfl (by simp) (fun i hi => by simp only; rw [if_neg (by omega)]; exact Nat.le_refl _)
    · rename_i i hl
      exact binv_append hi (q := { st := .found, ino := i, size := z, ty := ty, tsize := ts, pod := pod })
        rfl (Nat.le_refl _) (hlink i hl) rfl (by simp) refl
  | advance h =>
    simp only [step] at hg ⊢
    split
    · rename_i p hp
      rw [hp] at hg
      exact binv_advance hi hp hg
    · exact hi
  | timeout h =>
    simp only [step]
    split
    · rename_i p hp
      split
      · rename_i hs
        refine binv_set hi hp (q := { p with st := .failed }) rfl rfl rfl refl ⟨fun _ => (hi.ok h p hp).1 (by rw [hs]; rfl), by simp⟩
      · exact hi
    · exact hi
  | grow h n =>
    simp only [step] at hg ⊢
    split
    · rename_i p hp
      rw [hp] at hg
      split
      · rename_i hs
        simp only [hs, and_self, if_true] at hg
        refine binv_set hi hp (q := { p with size := n }) rfl rfl rfl hg ⟨fun _ => ?_, fun h' => ?_⟩
        · simp
        · rw [show p.st = .statted from h'] at hs; simp at hs
      · exact hi
    · exact hi
  | release h =>
    simp only [step]
    split
    · rename_i p hp
      split
      · split
        · exact binv_set hi hp (q := { p with st := .gone }) rfl rfl rfl refl (pok_off rfl (by simp))
        · exact binv_set hi hp (q := { p with st := .excl }) rfl rfl rfl refl (pok_off rfl (by simp))
      · exact hi
    · exact hi
  | unlink h =>
    simp only [step]
    split
    · rename_i p hp
      split
      · exact binv_set hi hp (q := { p with st := .gone }) rfl rfl rfl refl (pok_off rfl (by simp))
      · exact hi
    · exact hi
  | crash h =>
    simp only [step]
    split
    · rename_i p hp
      exact binv_set hi hp (q := { p with st := .gone }) rfl rfl rfl refl (pok_off rfl (by simp))
    · exact hi
  | sweep =>
    simp only [step]
    split
    · rename_i i hl
      exact binv_append hi (q := { st := .scan, ino := i }) rfl (Nat.le_refl _) (hlink i hl) rfl (by simp) refl
    · split
      · exact hi
      · rename_i hn
        exact binv_append hi (q := { st := .swept, ino := 0 }) rfl (Nat.le_refl _) (by simp only; omega) rfl (by simp) refl
  | sweepTest h =>
    simp only [step]
    split
    · rename_i p hp
      split
      · split
        · exact binv_set hi hp (q := { p with st := .gone }) rfl rfl rfl refl (pok_off rfl (by simp))
        · exact binv_set hi hp (q := { p with st := .swept }) rfl rfl rfl refl (pok_off rfl (by simp))
      · exact hi
    · exact hi

/-- The name always means a file that was created. -/
theorem link_step {s : Sys} (hl : ∀ i, s.link = some i → i < s.next) (a : Act) :
    ∀ i, (step s a).link = some i → i < (step s a).next := by
  intro i h
  cases step_change s a with
  | idle e1 e2 e3 => rw [e3]; rw [e2] at h; exact hl i h
  | move _ _ _ _ e1 e2 e3 => rw [e3]; rw [e2] at h; exact hl i h
  | dies _ _ _ _ e1 e2 e3 => rw [e3]; rw [e2] at h; exact hl i h
  | last _ _ _ _ e1 e2 e3 => rw [e3]; rw [e2] at h; exact hl i h
  | clear _ _ _ _ e1 e2 e3 => rw [e3]; rw [e2] at h; exact hl i h
  | remove _ _ _ _ e1 e2 e3 => rw [e2] at h; simp at h
  | create _ _ _ _ _ e0 e1 e2 => rw [e1] at h; rw [e2]; simp at h; omega
  | join _ _ _ _ _ _ e0 e1 e2 => rw [e2]; rw [e1] at h; exact hl i h
  | list _ _ e0 e1 e2 => rw [e2]; rw [e1] at h; exact hl i h
  | vanished _ e0 e1 e2 => rw [e1] at h; simp at h

theorem binv_init : BInv Sys.init := ⟨by simp [Sys.init], by simp [Sys.init]⟩

theorem binv_run {s : Sys} (hi : BInv s) (hl : ∀ i, s.link = some i → i < s.next) (as : List Act)
    (hg : GrowsRun s as) : BInv (run s as) := by
  induction as generalizing s with
  | nil => exact hi
  | cons a as ih => exact ih (binv_step hi hl a hg.1) (link_step hl a) hg.2

theorem hasMap_sized {a : PSt} (h : a.hasMap = true) : a.sized = true := by cases a <;> simp_all [PSt.hasMap, PSt.sized]

/-- The only danger is a call that makes the file shorter: in every history without one, in any
interleaving of opens, growths, closes, crashes and sweeps, every mapping stays inside its file. -/
theorem backed_unless_shrunk (as : List Act) (hg : GrowsRun Sys.init as) : Backed (run Sys.init as) :=
  fun h p hp hm => ((binv_run binv_init (by simp [Sys.init]) as hg).ok h p hp).1 (hasMap_sized hm)

/-! ### Everybody opens with the same size -/

/-- All opens ask for `n` bytes and nobody grows the file. -/
def SameSize (n : Nat) : Act → Prop
  | .new z _ _ _ => z = n
  | .grow _ _ => False
  | _ => True

structure SInv (n : Nat) (s : Sys) : Prop where
  len : ∀ i, s.len i ≤ n
  size : ∀ (h : Nat) (p : Proc), s.ps[h]? = some p → p.st.using = true → p.size = n
  seen : ∀ (h : Nat) (p : Proc), s.ps[h]? = some p → p.seen ≤ n

theorem sinv_set' {n : Nat} {s t : Sys} (hi : SInv n s) {h : Nat} {q : Proc}
    (e1 : t.ps = s.ps.set h q) (hl : ∀ i, t.len i = s.len i ∨ t.len i = n) (hs : q.seen ≤ n)
    (hq : q.st.using = true → q.size = n) : SInv n t := by
  constructor
  · intro i
    rcases hl i with h | h
    · rw [h]; exact hi.len i
    · rw [h]; exact Nat.le_refl _
  · intro k r hk hu
    rw [e1] at hk
    rcases get_set hk with ⟨rfl, rfl⟩ | ⟨_, hk⟩
    · exact hq hu
    · exact hi.size _ _ hk hu
  · intro k r hk
    rw [e1] at hk
    rcases get_set hk with ⟨rfl, rfl⟩ | ⟨_, hk⟩
    · exact hs
    · exact hi.seen _ _ hk

theorem sinv_set {n : Nat} {s t : Sys} (hi : SInv n s) {h : Nat} {p q : Proc} (hp : s.ps[h]? = some p)
    (e1 : t.ps = s.ps.set h q) (hl : ∀ i, t.len i = s.len i ∨ t.len i = n)
    (hs : q.seen = p.seen) (hq : q.st.using = true → p.st.using = true ∧ q.size = p.size) : SInv n t := by
  refine sinv_set' hi e1 hl (by rw [hs]; exact hi.seen _ _ hp) (fun hu => ?_)
  rw [(hq hu).2]; exact hi.size _ _ hp (hq hu).1

theorem sinv_append {n : Nat} {s t : Sys} (hi : SInv n s) {q : Proc} (e1 : t.ps = s.ps ++ [q])
    (hl : ∀ i, t.len i = s.len i ∨ t.len i = 0) (hs : q.seen = 0) (hq : q.st.using = true → q.size = n) : SInv n t := by
  constructor
  · intro i
    rcases hl i with h | h
    · rw [h]; exact hi.len i
    · rw [h]; omega
  · intro k r hk hu
    rw [e1] at hk
    rcases get_append hk with ⟨_, rfl⟩ | ⟨_, hk⟩
    · exact hq hu
    · exact hi.size _ _ hk hu
  · intro k r hk
    rw [e1] at hk
    rcases get_append hk with ⟨_, rfl⟩ | ⟨_, hk⟩
    · rw [hs]; omega
    · exact hi.seen _ _ hk

/-- With one size, no step shortens a file. -/
theorem same_size_grows {n : Nat} {s : Sys} (hi : SInv n s) (a : Act) (ha : SameSize n a) : Grows s a := by
  have hset : ∀ (h : Nat) (p : Proc), s.ps[h]? = some p → p.st.using = true → ∀ i,
      s.len i ≤ if i = p.ino then p.size else s.len i := by
    intro h p hp hu i
    split
    · rw [hi.size h p hp hu]; exact hi.len i
    · exact Nat.le_refl _
  intro i hlt
  cases a with
  | new z ty ts pod =>
    simp only [step]
    split
    · simp only; rw [if_neg (by omega)]; exact Nat.le_refl _
    · exact Nat.le_refl _
  | advance h =>
    simp only [step]
    split
    · rename_i p hp
      unfold advance
      split
      · rename_i hs; exact hset h p hp (by rw [hs]; rfl) i
      · exact Nat.le_refl _
      · rename_i hs
        split
        · exact hset h p hp (by rw [hs]; rfl) i
        · exact Nat.le_refl _
      · split <;> exact Nat.le_refl _
      · split <;> exact Nat.le_refl _
      · split <;> split <;> exact Nat.le_refl _
      · split <;> exact Nat.le_refl _
      · exact Nat.le_refl _
    · exact Nat.le_refl _
  | grow h m => exact absurd ha (by simp [SameSize])
  | timeout h => simp only [step]; repeat' split
                 all_goals exact Nat.le_refl _
  | release h => simp only [step]; repeat' split
                 all_goals exact Nat.le_refl _
  | unlink h => simp only [step]; repeat' split
                all_goals exact Nat.le_refl _
  | crash h => simp only [step]; repeat' split
               all_goals exact Nat.le_refl _
  | sweep => simp only [step]; repeat' split
             all_goals exact Nat.le_refl _
  | sweepTest h => simp only [step]; repeat' split
                   all_goals exact Nat.le_refl _

theorem sinv_step {n : Nat} {s : Sys} (hi : SInv n s) (a : Act) (ha : SameSize n a) : SInv n (step s a) := by
  have id' : ∀ i, s.len i = s.len i ∨ s.len i = n := fun _ => Or.inl rfl
  cases a with
  | new z ty ts pod =>
    simp only [step]
    split
    · refine sinv_append hi (q := { st := .fresh, ino := s.next, size := z, own := true, ty := ty, tsize := ts, pod := pod })
        rfl (fun i => ?_) rfl (fun _ => ha)
      simp only
      split
      · right; rfl
      · left; rfl
    · rename_i i hl
      exact sinv_append hi (q := { st := .found, ino := i, size := z, ty := ty, tsize := ts, pod := pod })
        rfl (fun _ => Or.inl rfl) rfl (fun _ => ha)
  | advance h =>
    simp only [step]
    split
    · rename_i p hp
      have hw : ∀ st', p.st = st' → st'.using = true → ∀ i, (if i = p.ino then p.size else s.len i) = s.len i ∨
          (if i = p.ino then p.size else s.len i) = n := by
        intro st' e hu i
        split
        · right; exact hi.size h p hp (by rw [e]; exact hu)
        · left; rfl
      unfold advance
      split
      · rename_i hs
        exact sinv_set hi hp (q := { p with st := .ready }) rfl (hw _ hs rfl) rfl (fun _ => ⟨by rw [hs]; rfl, rfl⟩)
      · rename_i hs
        exact sinv_set' hi (q := { p with st := .statted, seen := s.len p.ino }) rfl id' (hi.len _) (fun _ => hi.size h p hp (by rw [hs]; rfl))
      · rename_i hs
        split
        · exact sinv_set hi hp (q := { p with st := .ready }) rfl (hw _ hs rfl) rfl (fun _ => ⟨by rw [hs]; rfl, rfl⟩)
        · rename_i hlt
          have h1 := hi.seen h p hp
          have h2 := hi.size h p hp (by rw [hs]; rfl)
          exact sinv_set' hi (q := { p with st := .ready, size := p.seen }) rfl id' h1 (fun _ => by simp only; omega)
      · rename_i hs
        split
        · exact hi
        · exact sinv_set hi hp (q := { p with st := .locked }) rfl id' rfl (fun _ => ⟨by rw [hs]; rfl, rfl⟩)
      · rename_i hs
        split
        · exact sinv_set hi hp (q := { p with st := .mapped }) rfl id' rfl (fun _ => ⟨by rw [hs]; rfl, rfl⟩)
        · exact sinv_set hi hp (q := { p with st := .mapped }) rfl id' rfl (fun _ => ⟨by rw [hs]; rfl, rfl⟩)
      · rename_i hs
        split
        · split
          · exact sinv_set hi hp (q := { p with st := .live }) rfl id' rfl (fun _ => ⟨by rw [hs]; rfl, rfl⟩)
          · exact sinv_set hi hp (q := { p with st := .waiting }) rfl id' rfl (fun _ => ⟨by rw [hs]; rfl, rfl⟩)
        · split
          · exact sinv_set hi hp (q := { p with st := .live }) rfl id' rfl (fun _ => ⟨by rw [hs]; rfl, rfl⟩)
          · exact sinv_set hi hp (q := { p with st := .failed }) rfl id' rfl (fun _ => ⟨by rw [hs]; rfl, rfl⟩)
      · rename_i hs
        split
        · exact hi
        · exact sinv_set hi hp (q := { p with st := .live, late := true }) rfl id' rfl (fun _ => ⟨by rw [hs]; rfl, rfl⟩)
      · exact hi
    · exact hi
  | timeout h =>
    simp only [step]
    split
    · rename_i p hp
      split
      · rename_i hs
        exact sinv_set hi hp (q := { p with st := .failed }) rfl id' rfl (fun _ => ⟨by rw [hs]; rfl, rfl⟩)
      · exact hi
    · exact hi
  | grow h m => exact absurd ha (by simp [SameSize])
  | release h =>
    simp only [step]
    split
    · rename_i p hp
      split
      · split
        · exact sinv_set hi hp (q := { p with st := .gone }) rfl id' rfl (by simp [PSt.using, PSt.opening, PSt.shared])
        · exact sinv_set hi hp (q := { p with st := .excl }) rfl id' rfl (by simp [PSt.using, PSt.opening, PSt.shared])
      · exact hi
    · exact hi
  | unlink h =>
    simp only [step]
    split
    · rename_i p hp
      split
      · exact sinv_set hi hp (q := { p with st := .gone }) rfl id' rfl (by simp [PSt.using, PSt.opening, PSt.shared])
      · exact hi
    · exact hi
  | crash h =>
    simp only [step]
    split
    · rename_i p hp
      exact sinv_set hi hp (q := { p with st := .gone }) rfl id' rfl (by simp [PSt.using, PSt.opening, PSt.shared])
    · exact hi
  | sweep =>
    simp only [step]
    split
    · rename_i i hl
      exact sinv_append hi (q := { st := .scan, ino := i }) rfl (fun _ => Or.inl rfl) rfl (by simp [PSt.using, PSt.opening, PSt.shared])
    · split
      · exact hi
      · exact sinv_append hi (q := { st := .swept, ino := 0 }) rfl (fun _ => Or.inl rfl) rfl (by simp [PSt.using, PSt.opening, PSt.shared])
  | sweepTest h =>
    simp only [step]
    split
    · rename_i p hp
      split
      · split
        · exact sinv_set hi hp (q := { p with st := .gone }) rfl id' rfl (by simp [PSt.using, PSt.opening, PSt.shared])
        · exact sinv_set hi hp (q := { p with st := .swept }) rfl id' rfl (by simp [PSt.using, PSt.opening, PSt.shared])
      · exact hi
    · exact hi

theorem sinv_init (n : Nat) : SInv n Sys.init := ⟨by simp [Sys.init], by simp [Sys.init], by simp [Sys.init]⟩

/-- When every handle opens the topic with the same size and nobody grows it, every mapping stays
inside its file, in every interleaving of opens, closes, crashes and sweeps. Missing for the full
property: different sizes and growth, for which it is false (`creator_truncates_joiner`,
`joiner_truncates_joiner`, `grow_truncates`). -/
theorem same_size_backed_partial (n : Nat) (as : List Act) (ha : ∀ a ∈ as, SameSize n a) : Backed (run Sys.init as) := by
  apply backed_unless_shrunk
  have : ∀ (as : List Act) (s : Sys), SInv n s → (∀ a ∈ as, SameSize n a) → GrowsRun s as := by
    intro as
    induction as with
    | nil => intro _ _ _; trivial
    | cons a as ih =>
      intro s hi h
      exact ⟨same_size_grows hi a (h a (by simp)), ih _ (sinv_step hi a (h a (by simp))) (fun b hb => h b (by simp [hb]))⟩
  exact this as _ (sinv_init n) ha

/-! ### Different sizes, one at a time -/

/-- Opens do not overlap, a handle grows the file only when nobody is opening it, and only when its own
mapping covers the whole file. -/
def Serial (s : Sys) : Act → Prop
  | .new _ _ _ _ => ∀ p ∈ s.ps, p.st.opening = false
  | .grow h _ => (∀ p ∈ s.ps, p.st.opening = false) ∧ ∀ p, s.ps[h]? = some p → s.len p.ino ≤ p.size
  | _ => True

instance (s : Sys) (a : Act) : Decidable (Serial s a) := by
  cases a with
  | grow h n =>
    unfold Serial
    cases e : s.ps[h]? with
    | none => exact decidable_of_iff (∀ p ∈ s.ps, p.st.opening = false) (by simp [e])
    | some q => exact decidable_of_iff ((∀ p ∈ s.ps, p.st.opening = false) ∧ s.len q.ino ≤ q.size) (by simp [e])
  | _ => unfold Serial; infer_instance

/-- A history all of whose steps are serial. -/
def SerialRun (s : Sys) : List Act → Prop
  | [] => True
  | a :: as => Serial s a ∧ SerialRun (step s a) as

instance instDecidableSerialRun : ∀ (s : Sys) (as : List Act), Decidable (SerialRun s as)
  | _, [] => isTrue trivial
  | s, a :: as => @instDecidableAnd _ _ (inferInstanceAs (Decidable (Serial s a)))
      (instDecidableSerialRun (step s a) as)

/-- At most one process is opening, and what it knows is current. -/
structure OInv (s : Sys) : Prop where
  one : ∀ (h k : Nat) (p q : Proc), s.ps[h]? = some p → s.ps[k]? = some q → p.st.opening = true → q.st.opening = true → h = k
  fresh : ∀ (h : Nat) (p : Proc), s.ps[h]? = some p → p.st = .fresh → s.len p.ino = 0
  seen : ∀ (h : Nat) (p : Proc), s.ps[h]? = some p → p.st = .statted → p.seen = s.len p.ino

theorem oinv_set {s t : Sys} (hi : OInv s) {h : Nat} {p q : Proc} (hp : s.ps[h]? = some p) (e1 : t.ps = s.ps.set h q)
    (hl : p.st.opening = false → t.len = s.len) (ho : q.st.opening = true → p.st.opening = true)
    (hf : q.st ≠ .fresh) (hs : q.st = .statted → q.seen = t.len q.ino) : OInv t := by
  have only : ∀ (k : Nat) (r : Proc), s.ps[k]? = some r → k ≠ h → r.st.opening = true → t.len = s.len := by
    intro k r hk hne hr
    apply hl
    cases hh : p.st.opening with
    | false => rfl
    | true => exact absurd (hi.one k h r p hk hp hr hh) hne
  constructor
  · intro a b x y ha hb hx hy
    rw [e1] at ha hb
    rcases get_set ha with ⟨rfl, rfl⟩ | ⟨ha', ha2⟩ <;> rcases get_set hb with ⟨rfl, rfl⟩ | ⟨hb', hb2⟩
    · rfl
    · exact hi.one _ _ _ _ hp hb2 (ho hx) hy
    · exact hi.one _ _ _ _ ha2 hp hx (ho hy)
    · exact hi.one _ _ _ _ ha2 hb2 hx hy
  · intro k r hk hr
    rw [e1] at hk
    rcases get_set hk with ⟨rfl, rfl⟩ | ⟨h', hk⟩
    · exact absurd hr hf
    · rw [only k r hk h' (by rw [hr]; rfl)]; exact hi.fresh k r hk hr
  · intro k r hk hr
    rw [e1] at hk
    rcases get_set hk with ⟨rfl, rfl⟩ | ⟨h', hk⟩
    · exact hs hr
    · rw [only k r hk h' (by rw [hr]; rfl)]; exact hi.seen k r hk hr

theorem oinv_other {s t : Sys} (hi : OInv s) {q : Proc} (e1 : t.ps = s.ps ++ [q]) (e2 : t.len = s.len)
    (ho : q.st.opening = false) : OInv t := by
  have hne : ∀ a, a.opening = true → q.st ≠ a := by intro a ha h; rw [h, ha] at ho; simp at ho
  constructor
  · intro a b x y ha hb hx hy
    rw [e1] at ha hb
    rcases get_append ha with ⟨_, rfl⟩ | ⟨_, ha⟩
    · rw [ho] at hx; simp at hx
    · rcases get_append hb with ⟨_, rfl⟩ | ⟨_, hb⟩
      · rw [ho] at hy; simp at hy
      · exact hi.one _ _ _ _ ha hb hx hy
  · intro k r hk hr
    rw [e1] at hk
    rcases get_append hk with ⟨_, rfl⟩ | ⟨_, hk⟩
    · exact absurd hr (hne _ rfl)
    · rw [e2]; exact hi.fresh k r hk hr
  · intro k r hk hr
    rw [e1] at hk
    rcases get_append hk with ⟨_, rfl⟩ | ⟨_, hk⟩
    · exact absurd hr (hne _ rfl)
    · rw [e2]; exact hi.seen k r hk hr

/-- Opening when nobody else is. -/
theorem oinv_open {s t : Sys} {q : Proc} (hn : ∀ p ∈ s.ps, p.st.opening = false) (e1 : t.ps = s.ps ++ [q])
    (hf : q.st = .fresh → t.len q.ino = 0) (hs : q.st ≠ .statted) : OInv t := by
  have old : ∀ (k : Nat) (r : Proc), s.ps[k]? = some r → r.st.opening = false := fun k r hk => hn r (List.mem_of_getElem? hk)
  constructor
  · intro a b x y ha hb hx hy
    rw [e1] at ha hb
    rcases get_append ha with ⟨h1, _⟩ | ⟨_, ha⟩
    · rcases get_append hb with ⟨h2, _⟩ | ⟨_, hb⟩
      · omega
      · rw [old _ _ hb] at hy; simp at hy
    · rw [old _ _ ha] at hx; simp at hx
  · intro k r hk hr
    rw [e1] at hk
    rcases get_append hk with ⟨_, rfl⟩ | ⟨_, hk⟩
    · exact hf hr
    · have := old _ _ hk; rw [hr] at this; simp [PSt.opening] at this
  · intro k r hk hr
    rw [e1] at hk
    rcases get_append hk with ⟨_, rfl⟩ | ⟨_, hk⟩
    · exact absurd hr hs
    · have := old _ _ hk; rw [hr] at this; simp [PSt.opening] at this

theorem oinv_advance {s : Sys} (hi : OInv s) {h : Nat} {p : Proc} (hp : s.ps[h]? = some p) : OInv (advance s h p) := by
  unfold advance
  split
  · rename_i hs
    exact oinv_set hi hp (q := { p with st := .ready }) rfl (by rw [hs]; simp [PSt.opening]) (by rw [hs]; simp [PSt.opening]) (by simp) (by simp)
  · rename_i hs
    exact oinv_set hi hp (q := { p with st := .statted, seen := s.len p.ino }) rfl (fun _ => rfl) (by rw [hs]; simp [PSt.opening]) (by simp) (fun _ => rfl)
  · rename_i hs
    split
    · exact oinv_set hi hp (q := { p with st := .ready }) rfl (by rw [hs]; simp [PSt.opening]) (by rw [hs]; simp [PSt.opening]) (by simp) (by simp)
    · exact oinv_set hi hp (q := { p with st := .ready, size := p.seen }) rfl (fun _ => rfl) (by rw [hs]; simp [PSt.opening]) (by simp) (by simp)
  · split
    · exact hi
    · exact oinv_set hi hp (q := { p with st := .locked }) rfl (fun _ => rfl) (by simp [PSt.opening]) (by simp) (by simp)
  · split
    · exact oinv_set hi hp (q := { p with st := .mapped }) rfl (fun _ => rfl) (by simp [PSt.opening]) (by simp) (by simp)
    · exact oinv_set hi hp (q := { p with st := .mapped }) rfl (fun _ => rfl) (by simp [PSt.opening]) (by simp) (by simp)
  · split
    · split
      · exact oinv_set hi hp (q := { p with st := .live }) rfl (fun _ => rfl) (by simp [PSt.opening]) (by simp) (by simp)
      · exact oinv_set hi hp (q := { p with st := .waiting }) rfl (fun _ => rfl) (by simp [PSt.opening]) (by simp) (by simp)
    · split
      · exact oinv_set hi hp (q := { p with st := .live }) rfl (fun _ => rfl) (by simp [PSt.opening]) (by simp) (by simp)
      · exact oinv_set hi hp (q := { p with st := .failed }) rfl (fun _ => rfl) (by simp [PSt.opening]) (by simp) (by simp)
  · split
    · exact hi
    · exact oinv_set hi hp (q := { p with st := .live, late := true }) rfl (fun _ => rfl) (by simp [PSt.opening]) (by simp) (by simp)
  · exact hi

theorem oinv_step {s : Sys} (hi : OInv s) (a : Act) (ha : Serial s a) : OInv (step s a) := by
  have off : ∀ (h : Nat) (p : Proc) (b : PSt) (t : Sys), s.ps[h]? = some p → b.opening = false →
      t.ps = s.ps.set h { p with st := b } → t.len = s.len → OInv t := by
    intro h p b t hp hb e1 e2
    exact oinv_set hi hp (q := { p with st := b }) e1 (fun _ => e2) (by simp [hb])
      (by intro h; rw [show b = .fresh from h] at hb; simp [PSt.opening] at hb)
      (by intro h; rw [show b = .statted from h] at hb; simp [PSt.opening] at hb)
  cases a with
  | new z ty ts pod =>
    simp only [step]
    split
    · exact oinv_open ha (q := { st := .fresh, ino := s.next, size := z, own := true, ty := ty, tsize := ts, pod := pod })
        rfl (fun _ => by simp) (by simp)
    · rename_i i hl
      exact oinv_open ha (q := { st := .found, ino := i, size := z, ty := ty, tsize := ts, pod := pod }) rfl (by simp) (by simp)
  | advance h =>
    simp only [step]
    split
    · rename_i p hp; exact oinv_advance hi hp
    · exact hi
  | timeout h =>
    simp only [step]
    split
    · rename_i p hp
      split
      · exact off h p .failed _ hp rfl rfl rfl
      · exact hi
    · exact hi
  | grow h n =>
    simp only [step]
    split
    · rename_i p hp
      split
      · have none' : ∀ (k : Nat) (r : Proc), s.ps[k]? = some r → r.st.opening = false := fun k r hk => ha.1 r (List.mem_of_getElem? hk)
        have now : ∀ (k : Nat) (r : Proc), (s.ps.set h { p with size := n })[k]? = some r → r.st.opening = false := by
          intro k r hk
          rcases get_set hk with ⟨_, rfl⟩ | ⟨_, hk⟩
          · exact none' h p hp
          · exact none' k r hk
        constructor
        · intro a b x y hx _ hx' _
          rw [now a x hx] at hx'; simp at hx'
        · intro k r hk hr
          have := now k r hk; rw [hr] at this; simp [PSt.opening] at this
        · intro k r hk hr
          have := now k r hk; rw [hr] at this; simp [PSt.opening] at this
      · exact hi
    · exact hi
  | release h =>
    simp only [step]
    split
    · rename_i p hp
      split
      · split
        · exact off h p .gone _ hp rfl rfl rfl
        · exact off h p .excl _ hp rfl rfl rfl
      · exact hi
    · exact hi
  | unlink h =>
    simp only [step]
    split
    · rename_i p hp
      split
      · exact off h p .gone _ hp rfl rfl rfl
      · exact hi
    · exact hi
  | crash h =>
    simp only [step]
    split
    · rename_i p hp; exact off h p .gone _ hp rfl rfl rfl
    · exact hi
  | sweep =>
    simp only [step]
    split
    · rename_i i hl; exact oinv_other hi (q := { st := .scan, ino := i }) rfl rfl rfl
    · split
      · exact hi
      · exact oinv_other hi (q := { st := .swept, ino := 0 }) rfl rfl rfl
  | sweepTest h =>
    simp only [step]
    split
    · rename_i p hp
      split
      · split
        · exact off h p .gone _ hp rfl rfl rfl
        · exact off h p .swept _ hp rfl rfl rfl
      · exact hi
    · exact hi

theorem serial_grows {s : Sys} (hi : OInv s) (a : Act) (ha : Serial s a) : Grows s a := by
  intro i hlt
  cases a with
  | new z ty ts pod =>
    simp only [step]
    split
    · simp only; rw [if_neg (by omega)]; exact Nat.le_refl _
    · exact Nat.le_refl _
  | advance h =>
    simp only [step]
    split
    · rename_i p hp
      unfold advance
      split
      · rename_i hs
        simp only
        split
        · rename_i e; rw [e, hi.fresh h p hp hs]; omega
        · exact Nat.le_refl _
      · exact Nat.le_refl _
      · rename_i hs
        split
        · rename_i hlt
          simp only
          split
          · rename_i e; rw [e, ← hi.seen h p hp hs]; omega
          · exact Nat.le_refl _
        · exact Nat.le_refl _
      · split <;> exact Nat.le_refl _
      · split <;> exact Nat.le_refl _
      · split <;> split <;> exact Nat.le_refl _
      · split <;> exact Nat.le_refl _
      · exact Nat.le_refl _
    · exact Nat.le_refl _
  | grow h m =>
    simp only [step]
    split
    · rename_i p hp
      split
      · rename_i hc
        simp only
        split
        · rename_i e; have := ha.2 p hp; rw [e]; omega
        · exact Nat.le_refl _
      · exact Nat.le_refl _
    · exact Nat.le_refl _
  | timeout h => simp only [step]; repeat' split
                 all_goals exact Nat.le_refl _
  | release h => simp only [step]; repeat' split
                 all_goals exact Nat.le_refl _
  | unlink h => simp only [step]; repeat' split
                all_goals exact Nat.le_refl _
  | crash h => simp only [step]; repeat' split
               all_goals exact Nat.le_refl _
  | sweep => simp only [step]; repeat' split
             all_goals exact Nat.le_refl _
  | sweepTest h => simp only [step]; repeat' split
                   all_goals exact Nat.le_refl _

/-- Different sizes and growth are safe as long as opens do not overlap each other or a growth, and only
a handle that maps the whole file grows it. -/
theorem serial_backed_partial (as : List Act) (ha : SerialRun Sys.init as) : Backed (run Sys.init as) := by
  apply backed_unless_shrunk
  have : ∀ (as : List Act) (s : Sys), OInv s → SerialRun s as → GrowsRun s as := by
    intro as
    induction as with
    | nil => intro _ _ _; trivial
    | cons a as ih => intro s hi h; exact ⟨serial_grows hi a h.1, ih _ (oinv_step hi a h.1) h.2⟩
  exact this as _ ⟨by simp [Sys.init], by simp [Sys.init], by simp [Sys.init]⟩ ha

/-! ### The histories that break it -/

/-- The creator sets the length after a joiner with a larger size has already set it and mapped. -/
def creatorLate : List Act :=
  [.new 64 ty0 8 true, .new 4096 ty0 8 true] ++ [.advance 1, .advance 1, .advance 1, .advance 1, .advance 0]

theorem creator_truncates_joiner : ¬ Backed (run Sys.init creatorLate) := by
  intro h
  have := h 1 _ rfl rfl
  exact absurd this (by decide)

/-- Two joiners that read the same length: the one with the smaller size truncates the other's. -/
def twoJoiners : List Act :=
  [.new 64 ty0 8 true] ++ opens 0 ++ [.new 4096 ty0 8 true, .new 128 ty0 8 true, .advance 1, .advance 2] ++
    [.advance 1, .advance 1, .advance 1, .advance 2]

theorem joiner_truncates_joiner : ¬ Backed (run Sys.init twoJoiners) := by
  intro h
  have := h 1 _ rfl rfl
  exact absurd this (by decide)

/-- Two live handles of the same type and the same size: one grows the file for a large message, and the
other, whose mapping is older, grows it to less. -/
def twoGrowers : List Act :=
  [.new 64 ty0 8 true] ++ opens 0 ++ [.new 64 ty0 8 true] ++ joins 1 ++ [.grow 0 4096, .grow 1 128]

theorem grow_truncates : ¬ Backed (run Sys.init twoGrowers) := by
  intro h
  have := h 0 _ rfl rfl
  exact absurd this (by decide)

/-! ### The hypotheses are met -/

/-- Overlapping opens of one size, a crash and a close. -/
def sameSizeSample : List Act :=
  [.new 64 ty0 8 true, .new 64 ty0 8 true, .advance 1, .advance 1] ++ opens 0 ++ [.advance 1, .advance 1, .advance 1, .crash 0, .sweep]

example : (∀ a ∈ sameSizeSample, SameSize 64 a) ∧ ((run Sys.init sameSizeSample).ps.map (·.st)) = [.gone, .live, .scan] := by
  refine ⟨?_, rfl⟩
  intro a ha
  simp [sameSizeSample, opens] at ha
  rcases ha with rfl | rfl | rfl | rfl | rfl | rfl | rfl <;> simp [SameSize]

/-- A small creator, a larger joiner, and a growth by the handle that maps everything. -/
def serialSample : List Act :=
  [.new 64 ty0 8 true] ++ opens 0 ++ [.new 256 ty0 8 true] ++ joins 1 ++ [.grow 1 512]

example : SerialRun Sys.init serialSample ∧ ((run Sys.init serialSample).ps.map fun p => (p.st, p.size)) = [(.live, 64), (.live, 512)] :=
  ⟨by decide, rfl⟩

end Horus.Region
