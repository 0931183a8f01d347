import Verif.Region.Backed

/-!
The header: who writes it, who checks it, and what a crash during creation leaves behind.
-/

namespace Horus.Region

/-! ### The specification: when two message types may share a topic -/

/-- A message type: name, size, plain-data flag. -/
structure MsgType where
  name : List Char
  size : Nat
  pod : Bool
  deriving DecidableEq, Repr

/-- Names that differ only in the case of ASCII letters, looking at their first 31 characters. -/
def SameShort (a b : List Char) : Prop := (a.take 31).map Char.toLower = (b.take 31).map Char.toLower

/-- The universal type, in any case. -/
def IsGeneric (n : List Char) : Prop := n.map Char.toLower = "genericmessage".toList

/-- May a handle of type `t` join a topic created with type `c`? -/
def MayJoin (c t : MsgType) : Prop :=
  IsGeneric c.name ∨ IsGeneric t.name ∨
    ((c.name = [] ∨ t.name = [] ∨ SameShort c.name t.name) ∧ (t.pod = true → c.size = t.size))

def Proc.msg (p : Proc) : MsgType := ⟨p.ty, p.tsize, p.pod⟩

theorem generic_lower : generic.map Char.toLower = "genericmessage".toList := by decide

theorem sameName_generic (n : List Char) : sameName n generic = true ↔ IsGeneric n := by
  simp only [sameName, IsGeneric, generic_lower, beq_iff_eq]

theorem generic_stored (n : List Char) : IsGeneric (asStored n) ↔ IsGeneric n := by
  simp only [IsGeneric, asStored]
  constructor
  · intro h
    have hl := congrArg List.length h
    simp at hl
    rw [List.take_of_length_le (by omega)] at h
    exact h
  · intro h
    have hl := congrArg List.length h
    simp at hl
    rw [List.take_of_length_le (by omega)]
    exact h

/-- The check that the code makes is exactly that. -/
theorem accepts_iff (c : MsgType) (t : MsgType) :
    accepts ⟨asStored c.name, c.size⟩ t.name t.size t.pod = true ↔ MayJoin c t := by
  simp only [accepts, MayJoin, Bool.and_eq_true, Bool.or_eq_true, sameName_generic, generic_stored]
  have hempty : (asStored c.name).isEmpty = true ↔ c.name = [] := by
    cases h : c.name <;> simp [asStored]
  have hshort : sameName (asStored c.name) (asStored t.name) = true ↔ SameShort c.name t.name := by
    simp [sameName, asStored, SameShort]
  rw [hempty, hshort, List.isEmpty_iff]
  have hsz : (((!t.pod) = true) ∨ (c.size == t.size) = true) ↔ (t.pod = true → c.size = t.size) := by
    cases t.pod <;> simp
  constructor
  · rintro ⟨h1, h2⟩
    rcases h1 with ((h1 | h1) | h1) | h1
    · rcases h1 with h1 | h1
      · exact Or.inr (Or.inl h1)
      · exact Or.inl h1
    all_goals
      rcases h2 with (h2 | h2) | h2
      · rcases h2 with h2 | h2
        · exact Or.inr (Or.inl h2)
        · exact Or.inl h2
      · exact Or.inr (Or.inr ⟨by tauto, hsz.mp (Or.inl h2)⟩)
      · exact Or.inr (Or.inr ⟨by tauto, hsz.mp (Or.inr h2)⟩)
  · rintro (h | h | ⟨h1, h2⟩)
    · exact ⟨by tauto, by tauto⟩
    · exact ⟨by tauto, by tauto⟩
    · have := hsz.mpr h2
      exact ⟨by tauto, by tauto⟩

/-! ### The invariant -/

/-- Not yet past the point where the creator writes the header. -/
def PSt.early : PSt → Bool
  | .fresh | .found | .statted | .ready | .locked | .mapped => true
  | _ => false

structure HInv (s : Sys) : Prop where
  ino : ∀ (h : Nat) (p : Proc), s.ps[h]? = some p → p.ino < s.next
  uniq : ∀ (h k : Nat) (p q : Proc), s.ps[h]? = some p → s.ps[k]? = some q → p.own = true → q.own = true →
    p.ino = q.ino → h = k
  blank : ∀ (h : Nat) (p : Proc), s.ps[h]? = some p → p.own = true → p.st.early = true → s.hdr p.ino = none
  made : ∀ i x, i < s.next → s.hdr i = some x →
    ∃ (k : Nat) (c : Proc), s.ps[k]? = some c ∧ c.own = true ∧ c.ino = i ∧ x = ⟨asStored c.ty, c.tsize⟩
  ok : ∀ (h : Nat) (p : Proc), s.ps[h]? = some p → p.st = .live → p.late = false →
    ∃ x, s.hdr p.ino = some x ∧ accepts x p.ty p.tsize p.pod = true

/-- The fields of a process that never change. -/
def SameId (p q : Proc) : Prop :=
  q.ino = p.ino ∧ q.own = p.own ∧ q.ty = p.ty ∧ q.tsize = p.tsize ∧ q.pod = p.pod

theorem hinv_set {s t : Sys} (hi : HInv s) {h : Nat} {p q : Proc} (hp : s.ps[h]? = some p)
    (e1 : t.ps = s.ps.set h q) (e2 : t.next = s.next) (e3 : t.hdr = s.hdr) (hid : SameId p q)
    (he : q.st.early = true → p.st.early = true)
    (hok : q.st = .live → q.late = false →
      (p.st = .live ∧ p.late = false) ∨ ∃ x, s.hdr p.ino = some x ∧ accepts x p.ty p.tsize p.pod = true) : HInv t := by
  obtain ⟨i1, i2, i3, i4, i5⟩ := hid
  constructor
  · intro k r hk
    rw [e1] at hk
    rw [e2]
    rcases get_set hk with ⟨rfl, rfl⟩ | ⟨_, hk2⟩
    · rw [i1]; exact hi.ino _ _ hp
    · exact hi.ino _ _ hk2
  · intro a b x y ha hb hx hy hxy
    rw [e1] at ha hb
    rcases get_set ha with ⟨rfl, rfl⟩ | ⟨_, ha2⟩ <;> rcases get_set hb with ⟨rfl, rfl⟩ | ⟨_, hb2⟩
    · rfl
    · exact hi.uniq _ _ _ _ hp hb2 (by rw [← i2]; exact hx) hy (by rw [← i1]; exact hxy)
    · exact hi.uniq _ _ _ _ ha2 hp hx (by rw [← i2]; exact hy) (by rw [← i1]; exact hxy)
    · exact hi.uniq _ _ _ _ ha2 hb2 hx hy hxy
  · intro k r hk ho hr
    rw [e1] at hk
    rw [e3]
    rcases get_set hk with ⟨rfl, rfl⟩ | ⟨_, hk2⟩
    · rw [i1]; exact hi.blank _ _ hp (by rw [← i2]; exact ho) (he hr)
    · exact hi.blank _ _ hk2 ho hr
  · intro i x hlt hx
    rw [e3] at hx
    rw [e2] at hlt
    obtain ⟨k, c, hk, h1, h2, h3⟩ := hi.made i x hlt hx
    rw [e1]
    by_cases hkh : h = k
    · subst hkh
      rw [hp] at hk
      cases hk
      exact ⟨h, q, get_set_eq hp, by rw [i2]; exact h1, by rw [i1]; exact h2, by rw [i3, i4]; exact h3⟩
    · exact ⟨k, c, get_set_ne hkh hk, h1, h2, h3⟩
  · intro k r hk hl hla
    rw [e1] at hk
    rw [e3]
    rcases get_set hk with ⟨rfl, rfl⟩ | ⟨_, hk2⟩
    · rw [i1, i3, i4, i5]
      rcases hok hl hla with h' | h'
      · exact hi.ok _ _ hp h'.1 h'.2
      · exact h'
    · exact hi.ok _ _ hk2 hl hla

theorem accepts_self (ty : List Char) (ts : Nat) (pod : Bool) : accepts ⟨asStored ty, ts⟩ ty ts pod = true := by
  simp [accepts, sameName]

/-- The creator writes the header. -/
theorem hinv_write {s t : Sys} (hi : HInv s) {h : Nat} {p : Proc} (hp : s.ps[h]? = some p) (ho : p.own = true)
    (hs : p.st.early = true) (e1 : t.ps = s.ps.set h { p with st := .live }) (e2 : t.next = s.next)
    (e3 : t.hdr = fun i => if i = p.ino then some ⟨asStored p.ty, p.tsize⟩ else s.hdr i) : HInv t := by
  have hb := hi.blank h p hp ho hs
  have keep : ∀ i x, s.hdr i = some x → t.hdr i = some x := by
    intro i x hx
    rw [e3]
    simp only
    rw [if_neg]
    · exact hx
    · rintro rfl; rw [hb] at hx; simp at hx
  constructor
  · intro k r hk
    rw [e1] at hk
    rw [e2]
    rcases get_set hk with ⟨rfl, rfl⟩ | ⟨_, hk2⟩
    · exact hi.ino _ p hp
    · exact hi.ino _ _ hk2
  · intro a b x y ha hb' hx hy hxy
    rw [e1] at ha hb'
    rcases get_set ha with ⟨rfl, rfl⟩ | ⟨_, ha2⟩ <;> rcases get_set hb' with ⟨rfl, rfl⟩ | ⟨_, hb2⟩
    · rfl
    · exact hi.uniq _ _ p _ hp hb2 ho hy hxy
    · exact hi.uniq _ _ _ p ha2 hp hx ho hxy
    · exact hi.uniq _ _ _ _ ha2 hb2 hx hy hxy
  · intro k r hk hor hr
    rw [e1] at hk
    rcases get_set hk with ⟨rfl, rfl⟩ | ⟨hne, hk2⟩
    · simp [PSt.early] at hr
    · rw [e3]
      simp only
      rw [if_neg]
      · exact hi.blank _ _ hk2 hor hr
      · intro heq
        exact hne (hi.uniq _ _ _ _ hk2 hp hor ho heq)
  · intro i x hlt hx
    rw [e2] at hlt
    rw [e3] at hx
    simp only at hx
    rw [e1]
    split at hx
    · rename_i hii
      exact ⟨h, { p with st := .live }, get_set_eq hp, ho, hii.symm, by simpa using hx.symm⟩
    · obtain ⟨k, c, hk, h1, h2, h3⟩ := hi.made i x hlt hx
      have hkh : h ≠ k := by
        rintro rfl
        rw [hp] at hk; cases hk
        rename_i hne
        exact hne h2.symm
      exact ⟨k, c, get_set_ne hkh hk, h1, h2, h3⟩
  · intro k r hk hl hla
    rw [e1] at hk
    rcases get_set hk with ⟨rfl, rfl⟩ | ⟨_, hk2⟩
    · exact ⟨⟨asStored p.ty, p.tsize⟩, by rw [e3]; simp, accepts_self _ _ _⟩
    · obtain ⟨x, hx, hx'⟩ := hi.ok _ _ hk2 hl hla
      exact ⟨x, keep _ _ hx, hx'⟩

theorem hinv_append {s t : Sys} (hi : HInv s) {q : Proc} (e1 : t.ps = s.ps ++ [q]) (e2 : s.next ≤ t.next)
    (hq : q.ino < t.next) (hh : ∀ i, i < s.next → t.hdr i = s.hdr i) (hn : ∀ i, s.next ≤ i → i < t.next → t.hdr i = none)
    (ho : q.own = true → s.next ≤ q.ino) (hl : q.st ≠ .live) : HInv t := by
  constructor
  · intro k r hk
    rw [e1] at hk
    rcases get_append hk with ⟨_, rfl⟩ | ⟨_, hk2⟩
    · exact hq
    · exact Nat.lt_of_lt_of_le (hi.ino _ _ hk2) e2
  · intro a b x y ha hb hx hy hxy
    rw [e1] at ha hb
    rcases get_append ha with ⟨h1, rfl⟩ | ⟨_, ha2⟩ <;> rcases get_append hb with ⟨h2, h2'⟩ | ⟨_, hb2⟩
    · omega
    · have := ho hx; have := hi.ino _ _ hb2; omega
    · have := ho (by rw [← h2']; exact hy); have := hi.ino _ _ ha2; rw [h2'] at hxy; omega
    · exact hi.uniq _ _ _ _ ha2 hb2 hx hy hxy
  · intro k r hk hor hr
    rw [e1] at hk
    rcases get_append hk with ⟨_, rfl⟩ | ⟨_, hk2⟩
    · exact hn _ (ho hor) hq
    · rw [hh _ (hi.ino _ _ hk2)]; exact hi.blank _ _ hk2 hor hr
  · intro i x hlt hx
    by_cases hlt' : i < s.next
    · rw [hh i hlt'] at hx
      obtain ⟨k, c, hk, h1⟩ := hi.made i x hlt' hx
      exact ⟨k, c, by rw [e1]; exact get_append_old hk, h1⟩
    · rw [hn i (by omega) hlt] at hx; simp at hx
  · intro k r hk hl' hla
    rw [e1] at hk
    rcases get_append hk with ⟨_, rfl⟩ | ⟨_, hk2⟩
    · exact absurd hl' hl
    · rw [hh _ (hi.ino _ _ hk2)]; exact hi.ok _ _ hk2 hl' hla

theorem hinv_advance {s : Sys} (hi : HInv s) {h : Nat} {p : Proc} (hp : s.ps[h]? = some p) : HInv (advance s h p) := by
  have id' : ∀ st sz sn la, SameId p { p with st := st, size := sz, seen := sn, late := la } := fun _ _ _ _ => ⟨rfl, rfl, rfl, rfl, rfl⟩
  unfold advance
  split
  · rename_i hs
    exact hinv_set hi hp (q := { p with st := .ready }) rfl rfl rfl ⟨rfl, rfl, rfl, rfl, rfl⟩ (by rw [hs]; simp [PSt.early]) (by simp)
  · rename_i hs
    exact hinv_set hi hp (q := { p with st := .statted, seen := s.len p.ino }) rfl rfl rfl ⟨rfl, rfl, rfl, rfl, rfl⟩ (by rw [hs]; simp [PSt.early]) (by simp)
  · rename_i hs
    split
    · exact hinv_set hi hp (q := { p with st := .ready }) rfl rfl rfl ⟨rfl, rfl, rfl, rfl, rfl⟩ (by rw [hs]; simp [PSt.early]) (by simp)
    · exact hinv_set hi hp (q := { p with st := .ready, size := p.seen }) rfl rfl rfl ⟨rfl, rfl, rfl, rfl, rfl⟩ (by rw [hs]; simp [PSt.early]) (by simp)
  · rename_i hs
    split
    · exact hi
    · exact hinv_set hi hp (q := { p with st := .locked }) rfl rfl rfl ⟨rfl, rfl, rfl, rfl, rfl⟩ (by rw [hs]; simp [PSt.early]) (by simp)
  · rename_i hs
    split
    · rename_i ho
      have hb := hi.blank h p hp ho (by rw [hs]; rfl)
      refine hinv_set hi hp (q := { p with st := .mapped }) rfl rfl ?_ ⟨rfl, rfl, rfl, rfl, rfl⟩ (by rw [hs]; simp [PSt.early]) (by simp)
      funext i
      simp only
      split
      · rename_i e; rw [e, hb]
      · rfl
    · exact hinv_set hi hp (q := { p with st := .mapped }) rfl rfl rfl ⟨rfl, rfl, rfl, rfl, rfl⟩ (by rw [hs]; simp [PSt.early]) (by simp)
  · rename_i hs
    split
    · split
      · rename_i ho
        exact hinv_write hi hp ho (by rw [hs]; rfl) rfl rfl rfl
      · exact hinv_set hi hp (q := { p with st := .waiting }) rfl rfl rfl ⟨rfl, rfl, rfl, rfl, rfl⟩ (by simp [PSt.early]) (by simp)
    · rename_i x hx
      split
      · rename_i ha
        exact hinv_set hi hp (q := { p with st := .live }) rfl rfl rfl ⟨rfl, rfl, rfl, rfl, rfl⟩ (by simp [PSt.early]) (fun _ _ => Or.inr ⟨x, hx, ha⟩)
      · exact hinv_set hi hp (q := { p with st := .failed }) rfl rfl rfl ⟨rfl, rfl, rfl, rfl, rfl⟩ (by simp [PSt.early]) (by simp)
  · split
    · exact hi
    · exact hinv_set hi hp (q := { p with st := .live, late := true }) rfl rfl rfl ⟨rfl, rfl, rfl, rfl, rfl⟩ (by simp [PSt.early]) (by simp)
  · exact hi

theorem hinv_step {s : Sys} (hi : HInv s) (hlink : ∀ i, s.link = some i → i < s.next) (a : Act) : HInv (step s a) := by
  have off : ∀ (h : Nat) (p : Proc) (b : PSt) (t : Sys), s.ps[h]? = some p → b.early = false → b ≠ .live →
      t.ps = s.ps.set h { p with st := b } → t.next = s.next → t.hdr = s.hdr → HInv t := by
    intro h p b t hp hb hl e1 e2 e3
    exact hinv_set hi hp (q := { p with st := b }) e1 e2 e3 ⟨rfl, rfl, rfl, rfl, rfl⟩ (by simp [hb]) (fun h => absurd h hl)
  cases a with
  | new z ty ts pod =>
    simp only [step]
    split
    · refine hinv_append hi (q := { st := .fresh, ino := s.next, size := z, own := true, ty := ty, tsize := ts, pod := pod })
        rfl (Nat.le_succ _) (Nat.lt_succ_self _) ?_ ?_ (fun _ => Nat.le_refl _) (by simp)
      · intro i hi; simp only; rw [if_neg (by omega)]
      · intro i h1 h2; simp only at h2 ⊢; rw [if_pos (by omega)]
    · rename_i i hl
      exact hinv_append hi (q := { st := .found, ino := i, size := z, ty := ty, tsize := ts, pod := pod })
        rfl (Nat.le_refl _) (hlink i hl) (fun _ _ => rfl) (fun i h1 h2 => by simp only at h2; omega) (by simp) (by simp)
  | advance h =>
    simp only [step]
    split
    · rename_i p hp; exact hinv_advance hi hp
    · exact hi
  | timeout h =>
    simp only [step]
    split
    · rename_i p hp
      split
      · exact off h p .failed _ hp rfl (by simp) rfl rfl rfl
      · exact hi
    · exact hi
  | grow h n =>
    simp only [step]
    split
    · rename_i p hp
      split
      · exact hinv_set hi hp (q := { p with size := n }) rfl rfl rfl ⟨rfl, rfl, rfl, rfl, rfl⟩ id (fun h1 h2 => Or.inl ⟨h1, h2⟩)
      · exact hi
    · exact hi
  | release h =>
    simp only [step]
    split
    · rename_i p hp
      split
      · split
        · exact off h p .gone _ hp rfl (by simp) rfl rfl rfl
        · exact off h p .excl _ hp rfl (by simp) rfl rfl rfl
      · exact hi
    · exact hi
  | unlink h =>
    simp only [step]
    split
    · rename_i p hp
      split
      · exact off h p .gone _ hp rfl (by simp) rfl rfl rfl
      · exact hi
    · exact hi
  | crash h =>
    simp only [step]
    split
    · rename_i p hp; exact off h p .gone _ hp rfl (by simp) rfl rfl rfl
    · exact hi
  | sweep =>
    simp only [step]
    split
    · rename_i i hl
      exact hinv_append hi (q := { st := .scan, ino := i }) rfl (Nat.le_refl _) (hlink i hl) (fun _ _ => rfl)
        (fun i h1 h2 => by simp only at h2; omega) (by simp) (by simp)
    · split
      · exact hi
      · rename_i hn
        exact hinv_append hi (q := { st := .swept, ino := 0 }) rfl (Nat.le_refl _) (by simp only; omega) (fun _ _ => rfl)
          (fun i h1 h2 => by simp only at h2; omega) (by simp) (by simp)
  | sweepTest h =>
    simp only [step]
    split
    · rename_i p hp
      split
      · split
        · exact off h p .gone _ hp rfl (by simp) rfl rfl rfl
        · exact off h p .swept _ hp rfl (by simp) rfl rfl rfl
      · exact hi
    · exact hi

theorem hinv_run (as : List Act) : HInv (run Sys.init as) := by
  have : ∀ (as : List Act) (s : Sys), HInv s → (∀ i, s.link = some i → i < s.next) → HInv (run s as) := by
    intro as
    induction as with
    | nil => intro s h _; exact h
    | cons a as ih => intro s h hl; exact ih _ (hinv_step h hl a) (link_step hl a)
  refine this as _ ⟨by simp [Sys.init], by simp [Sys.init], by simp [Sys.init], by simp [Sys.init], by simp [Sys.init]⟩ (by simp [Sys.init])

/-! ### Agreement on the message type -/

/-- In every history, a handle that is open and did not have to wait for the header was checked against
the handle that created its file: the two types may share a topic. Missing for the full property: a
handle that waited is not checked (`waiting_joiner_unchecked`). -/
theorem joined_after_check_partial (as : List Act) (h : Nat) (p : Proc) (hp : (run Sys.init as).ps[h]? = some p)
    (hl : p.st = .live) (hw : p.late = false) :
    ∃ (k : Nat) (c : Proc), (run Sys.init as).ps[k]? = some c ∧ c.own = true ∧ c.ino = p.ino ∧ MayJoin c.msg p.msg := by
  have hi := hinv_run as
  obtain ⟨x, hx, ha⟩ := hi.ok h p hp hl hw
  obtain ⟨k, c, hk, h1, h2, h3⟩ := hi.made p.ino x (hi.ino h p hp) hx
  refine ⟨k, c, hk, h1, h2, ?_⟩
  rw [h3] at ha
  exact (accepts_iff c.msg p.msg).mp ha

/-- Hence two such handles on one file have the same name up to case and length 31, and the same size when
both are plain data, unless one of them or the creator of the file is generic or unnamed. -/
theorem two_handles_agree_partial (as : List Act) (h k : Nat) (p q : Proc)
    (hp : (run Sys.init as).ps[h]? = some p) (hq : (run Sys.init as).ps[k]? = some q)
    (hpl : p.st = .live) (hql : q.st = .live) (hpw : p.late = false) (hqw : q.late = false) (hf : p.ino = q.ino)
    (named : ∀ (j : Nat) (c : Proc), (run Sys.init as).ps[j]? = some c → ¬ IsGeneric c.ty ∧ c.ty ≠ []) :
    SameShort p.ty q.ty ∧ (p.pod = true → q.pod = true → p.tsize = q.tsize) := by
  have hi := hinv_run as
  obtain ⟨a, c, ha, h1, h2, h3⟩ := joined_after_check_partial as h p hp hpl hpw
  obtain ⟨b, d, hb, g1, g2, g3⟩ := joined_after_check_partial as k q hq hql hqw
  have hab := hi.uniq a b c d ha hb h1 g1 (by rw [h2, g2, hf])
  subst hab
  rw [ha] at hb
  cases hb
  have np := named h p hp
  have nq := named k q hq
  have nc := named a c ha
  have g : ∀ t : Proc, ¬ IsGeneric t.ty → t.ty ≠ [] → MayJoin c.msg t.msg →
      SameShort c.ty t.ty ∧ (t.pod = true → c.tsize = t.tsize) := by
    intro t t1 t2 ht
    rcases ht with ht | ht | ⟨ht, hs⟩
    · exact absurd ht nc.1
    · exact absurd ht t1
    · refine ⟨?_, hs⟩
      rcases ht with ht | ht | ht
      · exact absurd ht nc.2
      · exact absurd ht t2
      · exact ht
  have r1 := g p np.1 np.2 h3
  have r2 := g q nq.1 nq.2 g3
  exact ⟨r1.1.symm.trans r2.1, fun e1 e2 => (r1.2 e1).symm.trans (r2.2 e2)⟩

/-- A joiner whose type does not fit is refused. -/
theorem mismatch_refused {s : Sys} {h : Nat} {p : Proc} (c : MsgType) (hp : s.ps[h]? = some p) (hs : p.st = .mapped)
    (hh : s.hdr p.ino = some ⟨asStored c.name, c.size⟩) (hm : ¬ MayJoin c p.msg) :
    (step s (.advance h)).ps[h]? = some { p with st := .failed } := by
  have : accepts ⟨asStored c.name, c.size⟩ p.ty p.tsize p.pod = false := by
    cases e : accepts ⟨asStored c.name, c.size⟩ p.ty p.tsize p.pod with
    | false => rfl
    | true => exact absurd ((accepts_iff c p.msg).mp e) hm
  have e : step s (.advance h) = s.put h { p with st := .failed } := by
    simp only [step, hp, advance, hs, hh, this]
    simp
  rw [e]
  exact get_set_eq hp

/-- And one whose type fits is let in. -/
theorem fitting_type_admitted {s : Sys} {h : Nat} {p : Proc} (c : MsgType) (hp : s.ps[h]? = some p) (hs : p.st = .mapped)
    (hh : s.hdr p.ino = some ⟨asStored c.name, c.size⟩) (hm : MayJoin c p.msg) :
    (step s (.advance h)).ps[h]? = some { p with st := .live } := by
  have : accepts ⟨asStored c.name, c.size⟩ p.ty p.tsize p.pod = true := (accepts_iff c p.msg).mpr hm
  have e : step s (.advance h) = s.put h { p with st := .live } := by
    simp only [step, hp, advance, hs, hh, this]
    simp
  rw [e]
  exact get_set_eq hp

/-- A joiner that arrives before the creator has written the header is let in with any type. -/
def waitingJoin : List Act :=
  [.new 64 "CmdVel".toList 16 true, .advance 0, .new 64 "LaserScan".toList 1480 true] ++ joins 1 ++
    [.advance 0, .advance 0, .advance 0, .advance 1]

theorem waiting_joiner_unchecked :
    ∃ p q, (run Sys.init waitingJoin).ps[0]? = some p ∧ (run Sys.init waitingJoin).ps[1]? = some q ∧
      p.st = .live ∧ q.st = .live ∧ p.ino = q.ino ∧ ¬ MayJoin p.msg q.msg := by
  refine ⟨_, _, rfl, rfl, rfl, rfl, rfl, ?_⟩
  rw [← accepts_iff]
  decide

/-- A generic creator lets in two handles that do not fit each other. -/
def viaGeneric : List Act :=
  [.new 64 generic 16 true] ++ opens 0 ++ [.new 64 "CmdVel".toList 16 true] ++ joins 1 ++ [.new 64 "LaserScan".toList 1480 true] ++ joins 2

theorem generic_creator_admits_all :
    ∃ p q, (run Sys.init viaGeneric).ps[1]? = some p ∧ (run Sys.init viaGeneric).ps[2]? = some q ∧
      p.st = .live ∧ q.st = .live ∧ p.late = false ∧ q.late = false ∧ p.ino = q.ino ∧ ¬ MayJoin p.msg q.msg := by
  refine ⟨_, _, rfl, rfl, rfl, rfl, rfl, rfl, rfl, ?_⟩
  rw [← accepts_iff]
  decide

/-- Two different long names with the same first 31 characters and the same size are taken for the same
type. -/
theorem long_names_collide :
    ∃ a b : MsgType, a.name ≠ b.name ∧ a.name.map Char.toLower ≠ b.name.map Char.toLower ∧ MayJoin a b :=
  ⟨⟨"ActionFeedback<CancelTopicFeedback>".toList, 8, true⟩, ⟨"ActionFeedback<CancelTopicFeedbomb>".toList, 8, true⟩,
    by decide, by decide, by rw [← accepts_iff]; decide⟩

/-! ### A creator that dies -/

/-- The creator always finds a blank header: the code's branch that reinitialises the header left by a
dead process (topic/mod.rs:1032-1037) is never taken. -/
theorem owner_header_blank (as : List Act) (h : Nat) (p : Proc) (hp : (run Sys.init as).ps[h]? = some p)
    (ho : p.own = true) (hs : p.st = .mapped) : (run Sys.init as).hdr p.ino = none :=
  (hinv_run as).blank h p hp ho (by rw [hs]; rfl)

/-- The creator of file `i` is gone, the header was never written. -/
structure Headless (s : Sys) (i : Nat) : Prop where
  blank : s.hdr i = none
  lt : i < s.next
  dead : ∀ (h : Nat) (p : Proc), s.ps[h]? = some p → p.ino = i → p.own = false ∨ p.st = .gone
  none_live : ∀ (h : Nat) (p : Proc), s.ps[h]? = some p → p.ino = i → p.st ≠ .live

theorem headless_set {s t : Sys} {i h : Nat} {p q : Proc} (hi : Headless s i) (hp : s.ps[h]? = some p)
    (e1 : t.ps = s.ps.set h q) (e2 : t.next = s.next) (e3 : t.hdr i = s.hdr i) (hid : q.ino = p.ino ∧ q.own = p.own)
    (hg : p.st = .gone → q.st = .gone) (hl : q.st = .live → p.st = .live ∨ p.ino ≠ i) : Headless t i := by
  refine ⟨by rw [e3]; exact hi.blank, by rw [e2]; exact hi.lt, ?_, ?_⟩
  · intro k r hk hr
    rw [e1] at hk
    rcases get_set hk with ⟨rfl, rfl⟩ | ⟨_, hk2⟩
    · rcases hi.dead _ _ hp (by rw [← hid.1]; exact hr) with h' | h'
      · left; rw [hid.2]; exact h'
      · right; exact hg h'
    · exact hi.dead _ _ hk2 hr
  · intro k r hk hr hrl
    rw [e1] at hk
    rcases get_set hk with ⟨rfl, rfl⟩ | ⟨_, hk2⟩
    · rcases hl hrl with h' | h'
      · exact hi.none_live _ _ hp (by rw [← hid.1]; exact hr) h'
      · exact h' (by rw [← hid.1]; exact hr)
    · exact hi.none_live _ _ hk2 hr hrl

theorem headless_append {s t : Sys} {i : Nat} {q : Proc} (hi : Headless s i) (e1 : t.ps = s.ps ++ [q]) (e2 : s.next ≤ t.next)
    (e3 : t.hdr i = s.hdr i) (hq : q.ino = i → q.own = false) (hl : q.st ≠ .live) : Headless t i := by
  refine ⟨by rw [e3]; exact hi.blank, Nat.lt_of_lt_of_le hi.lt e2, ?_, ?_⟩
  · intro k r hk hr
    rw [e1] at hk
    rcases get_append hk with ⟨_, rfl⟩ | ⟨_, hk2⟩
    · left; exact hq hr
    · exact hi.dead _ _ hk2 hr
  · intro k r hk hr
    rw [e1] at hk
    rcases get_append hk with ⟨_, rfl⟩ | ⟨_, hk2⟩
    · exact hl
    · exact hi.none_live _ _ hk2 hr

theorem headless_advance {s : Sys} {i h : Nat} {p : Proc} (hi : Headless s i) (hp : s.ps[h]? = some p) :
    Headless (advance s h p) i := by
  have notown : ∀ st, p.st = st → st ≠ .gone → p.own = true → p.ino ≠ i := by
    intro st e hne ho hpi
    rcases hi.dead h p hp hpi with h' | h'
    · rw [ho] at h'; simp at h'
    · exact hne (e ▸ h')
  unfold advance
  split
  · rename_i hs
    exact headless_set hi hp (q := { p with st := .ready }) rfl rfl rfl ⟨rfl, rfl⟩ (by rw [hs]; simp) (by simp)
  · rename_i hs
    exact headless_set hi hp (q := { p with st := .statted, seen := s.len p.ino }) rfl rfl rfl ⟨rfl, rfl⟩ (by rw [hs]; simp) (by simp)
  · rename_i hs
    split
    · exact headless_set hi hp (q := { p with st := .ready }) rfl rfl rfl ⟨rfl, rfl⟩ (by rw [hs]; simp) (by simp)
    · exact headless_set hi hp (q := { p with st := .ready, size := p.seen }) rfl rfl rfl ⟨rfl, rfl⟩ (by rw [hs]; simp) (by simp)
  · rename_i hs
    split
    · exact hi
    · exact headless_set hi hp (q := { p with st := .locked }) rfl rfl rfl ⟨rfl, rfl⟩ (by rw [hs]; simp) (by simp)
  · rename_i hs
    split
    · rename_i ho
      have := notown _ hs (by simp) ho
      exact headless_set hi hp (q := { p with st := .mapped }) rfl rfl (if_neg (Ne.symm this)) ⟨rfl, rfl⟩ (by rw [hs]; simp) (by simp)
    · exact headless_set hi hp (q := { p with st := .mapped }) rfl rfl rfl ⟨rfl, rfl⟩ (by rw [hs]; simp) (by simp)
  · rename_i hs
    split
    · split
      · rename_i ho
        have := notown _ hs (by simp) ho
        exact headless_set hi hp (q := { p with st := .live }) rfl rfl (if_neg (Ne.symm this)) ⟨rfl, rfl⟩ (by rw [hs]; simp) (fun _ => Or.inr this)
      · exact headless_set hi hp (q := { p with st := .waiting }) rfl rfl rfl ⟨rfl, rfl⟩ (by rw [hs]; simp) (by simp)
    · rename_i x hx
      split
      · refine headless_set hi hp (q := { p with st := .live }) rfl rfl rfl ⟨rfl, rfl⟩ (by rw [hs]; simp) (fun _ => Or.inr ?_)
        rintro rfl
        rw [hi.blank] at hx; simp at hx
      · exact headless_set hi hp (q := { p with st := .failed }) rfl rfl rfl ⟨rfl, rfl⟩ (by rw [hs]; simp) (by simp)
  · rename_i hs
    split
    · exact hi
    · rename_i x hx
      refine headless_set hi hp (q := { p with st := .live, late := true }) rfl rfl rfl ⟨rfl, rfl⟩ (by rw [hs]; simp) (fun _ => Or.inr ?_)
      rintro rfl
      rw [hi.blank] at hx; simp at hx
  · exact hi

theorem headless_step {s : Sys} {i : Nat} (hi : Headless s i) (a : Act) : Headless (step s a) i := by
  have off : ∀ (h : Nat) (p : Proc) (b : PSt) (t : Sys), s.ps[h]? = some p → b ≠ .live → (p.st = .gone → b = .gone) →
      t.ps = s.ps.set h { p with st := b } → t.next = s.next → t.hdr = s.hdr → Headless t i := by
    intro h p b t hp hl hg e1 e2 e3
    exact headless_set hi hp (q := { p with st := b }) e1 e2 (by rw [e3]) ⟨rfl, rfl⟩ hg (fun h => absurd h hl)
  have hlt := hi.lt
  cases a with
  | new z ty ts pod =>
    simp only [step]
    split
    · exact headless_append hi (q := { st := .fresh, ino := s.next, size := z, own := true, ty := ty, tsize := ts, pod := pod })
        rfl (Nat.le_succ _) (if_neg (by omega)) (by intro h; simp only at h; omega) (by simp)
    · rename_i j hl
      exact headless_append hi (q := { st := .found, ino := j, size := z, ty := ty, tsize := ts, pod := pod }) rfl (Nat.le_refl _) rfl (by simp) (by simp)
  | advance h =>
    simp only [step]
    split
    · rename_i p hp; exact headless_advance hi hp
    · exact hi
  | timeout h =>
    simp only [step]
    split
    · rename_i p hp
      split
      · rename_i hs; exact off h p .failed _ hp (by simp) (by rw [hs]; simp) rfl rfl rfl
      · exact hi
    · exact hi
  | grow h n =>
    simp only [step]
    split
    · rename_i p hp
      split
      · exact headless_set hi hp (q := { p with size := n }) rfl rfl rfl ⟨rfl, rfl⟩ id Or.inl
      · exact hi
    · exact hi
  | release h =>
    simp only [step]
    split
    · rename_i p hp
      split
      · rename_i hs
        split
        · exact off h p .gone _ hp (by simp) (by simp) rfl rfl rfl
        · exact off h p .excl _ hp (by simp) (by rcases hs with hs | hs <;> rw [hs] <;> simp) rfl rfl rfl
      · exact hi
    · exact hi
  | unlink h =>
    simp only [step]
    split
    · rename_i p hp
      split
      · exact off h p .gone _ hp (by simp) (by simp) rfl rfl rfl
      · exact hi
    · exact hi
  | crash h =>
    simp only [step]
    split
    · rename_i p hp; exact off h p .gone _ hp (by simp) (by simp) rfl rfl rfl
    · exact hi
  | sweep =>
    simp only [step]
    split
    · rename_i j hl
      exact headless_append hi (q := { st := .scan, ino := j }) rfl (Nat.le_refl _) rfl (by simp) (by simp)
    · split
      · exact hi
      · exact headless_append hi (q := { st := .swept, ino := 0 }) rfl (Nat.le_refl _) rfl (by simp) (by simp)
  | sweepTest h =>
    simp only [step]
    split
    · rename_i p hp
      split
      · rename_i hs
        split
        · exact off h p .gone _ hp (by simp) (by simp) rfl rfl rfl
        · exact off h p .swept _ hp (by simp) (by rw [hs]; simp) rfl rfl rfl
      · exact hi
    · exact hi

/-- After the creator died before writing the header, nobody ever gets that file open, however long they
wait and however many they are: a way out exists only once the file is removed. -/
theorem headless_never_opens {s : Sys} {i : Nat} (hi : Headless s i) (as : List Act) (h : Nat) (p : Proc)
    (hp : (run s as).ps[h]? = some p) (hf : p.ino = i) : p.st ≠ .live := by
  have : ∀ (as : List Act) (s : Sys), Headless s i → Headless (run s as) i := by
    intro as
    induction as with
    | nil => intro s h; exact h
    | cons a as ih => intro s h; exact ih _ (headless_step h a)
  exact (this as s hi).none_live h p hp hf

/-- Two joiners that keep overlapping keep the useless file alive: each gives up while the other still
holds its lock, so neither removes it. -/
def overlapping : List Act :=
  [.new 64 ty0 8 true, .crash 0, .new 64 ty0 8 true] ++ joins 1 ++ [.new 64 ty0 8 true] ++ joins 2 ++
    [.timeout 1, .release 1, .unlink 1, .new 64 ty0 8 true] ++ joins 3 ++ [.timeout 2, .release 2, .unlink 2]

theorem overlapping_joiners_stuck :
    (run Sys.init overlapping).link = some 0 ∧ (run Sys.init overlapping).ps.map (·.st) = [.gone, .gone, .gone, .waiting] :=
  ⟨rfl, rfl⟩

/-! ### Recovery -/

/-- Everybody is gone; the name means file `i`. -/
structure Abandoned (s : Sys) (i : Nat) : Prop where
  link : s.link = some i
  gone : ∀ p ∈ s.ps, p.st = .gone

theorem last_get (l : List Proc) (q : Proc) : (l ++ [q])[l.length]? = some q := by simp

theorem last_set (l : List Proc) (q r : Proc) : (l ++ [q]).set l.length r = l ++ [r] := by simp

theorem solo_locked {l : List Proc} (hg : ∀ p ∈ l, p.st = .gone) (q : Proc) (lk : Option Nat) (nx : Nat) (ln : Nat → Nat)
    (hd : Nat → Option Hdr) (i : Nat) : Sys.lockedByOther ⟨lk, nx, ln, hd, l ++ [q]⟩ l.length i = false := by
  simp only [Sys.lockedByOther, List.any_eq_false]
  rintro ⟨r, k⟩ hm
  have hk := List.mk_mem_zipIdx_iff_getElem?.mp hm
  rcases get_append hk with ⟨h1, _⟩ | ⟨_, h1⟩
  · simp [h1]
  · simp [hg r (List.mem_of_getElem? h1), PSt.shared]

theorem solo_excl {l : List Proc} (hg : ∀ p ∈ l, p.st = .gone) (q : Proc) (lk : Option Nat) (nx : Nat) (ln : Nat → Nat)
    (hd : Nat → Option Hdr) (i : Nat) : Sys.exclByOther ⟨lk, nx, ln, hd, l ++ [q]⟩ l.length i = false := by
  simp only [Sys.exclByOther, List.any_eq_false]
  rintro ⟨r, k⟩ hm
  have hk := List.mk_mem_zipIdx_iff_getElem?.mp hm
  rcases get_append hk with ⟨h1, _⟩ | ⟨_, h1⟩
  · simp [h1]
  · simp [hg r (List.mem_of_getElem? h1)]

/-- Opening the topic once, alone, without waiting: `new` and all its steps. -/
def attempt (s : Sys) (z : Nat) (t : MsgType) : Sys :=
  run s (.new z t.name t.size t.pod :: joins s.ps.length)

/-- Giving up, alone: the timeout if it is waiting, and the drop. -/
def giveUp (s : Sys) : Sys :=
  run s [.timeout (s.ps.length - 1), .release (s.ps.length - 1), .unlink (s.ps.length - 1)]

/-- The process that made the last attempt. -/
def lastSt (s : Sys) : Option PSt := s.ps.getLast?.map (·.st)

theorem attempt_none {s : Sys} (hl : s.link = none) (hg : ∀ p ∈ s.ps, p.st = .gone) (z : Nat) (t : MsgType) :
    lastSt (attempt s z t) = some .live ∧ (attempt s z t).link = some s.next ∧
      (attempt s z t).hdr s.next = some ⟨asStored t.name, t.size⟩ ∧ (attempt s z t).len s.next = z := by
  obtain ⟨lk, nx, ln, hd, l⟩ := s
  simp only at hl hg
  subst hl
  simp [attempt, joins, run, step, advance, Sys.put, solo_excl hg, lastSt]

theorem attempt_blank {s : Sys} {i : Nat} (ha : Abandoned s i) (hb : s.hdr i = none) (z : Nat) (t : MsgType) :
    lastSt (attempt s z t) = some .waiting ∧ (attempt s z t).link = some i ∧
      (attempt s z t).ps.length = s.ps.length + 1 ∧ (attempt s z t).ps.take s.ps.length = s.ps ∧
      (attempt s z t).hdr = s.hdr ∧ (attempt s z t).next = s.next := by
  obtain ⟨lk, nx, ln, hd, l⟩ := s
  obtain ⟨hl, hg⟩ := ha
  simp only at hl hg hb
  subst hl
  by_cases hz : ln i < z
  · simp [attempt, joins, run, step, advance, Sys.put, solo_excl hg, lastSt, hz, hb]
  · simp [attempt, joins, run, step, advance, Sys.put, solo_excl hg, lastSt, hz, hb]

theorem attempt_set {s : Sys} {i : Nat} (ha : Abandoned s i) (c : MsgType) (hb : s.hdr i = some ⟨asStored c.name, c.size⟩)
    (z : Nat) (t : MsgType) :
    (lastSt (attempt s z t) = some .live ↔ MayJoin c t) ∧ (lastSt (attempt s z t) = some .failed ↔ ¬ MayJoin c t) ∧
      (attempt s z t).link = some i ∧ (attempt s z t).ps.length = s.ps.length + 1 ∧
      (attempt s z t).ps.take s.ps.length = s.ps ∧ (attempt s z t).hdr = s.hdr ∧ (attempt s z t).next = s.next := by
  rw [← accepts_iff]
  obtain ⟨lk, nx, ln, hd, l⟩ := s
  obtain ⟨hl, hg⟩ := ha
  simp only at hl hg hb
  subst hl
  by_cases hz : ln i < z <;> by_cases hacc : accepts ⟨asStored c.name, c.size⟩ t.name t.size t.pod = true
  all_goals simp [attempt, joins, run, step, advance, Sys.put, solo_excl hg, lastSt, hz, hb, hacc]

/-- A sole process that gives up removes the file. -/
theorem giveUp_alone {l : List Proc} (hg : ∀ p ∈ l, p.st = .gone) (q : Proc) (hq : q.st = .waiting ∨ q.st = .failed)
    (lk : Option Nat) (nx : Nat) (ln : Nat → Nat) (hd : Nat → Option Hdr) :
    giveUp ⟨lk, nx, ln, hd, l ++ [q]⟩ = ⟨none, nx, ln, hd, l ++ [{ q with st := .gone }]⟩ := by
  rcases hq with hq | hq
  · simp [giveUp, run, step, Sys.put, solo_locked hg, hq]
  · simp [giveUp, run, step, Sys.put, solo_locked hg, hq]

theorem take_last {l m : List Proc} (h1 : m.length = l.length + 1) (h2 : m.take l.length = l) : ∃ q, m = l ++ [q] := by
  have := List.take_append_drop l.length m
  rw [h2] at this
  have hd : (m.drop l.length).length = 1 := by simp; omega
  obtain ⟨q, hq⟩ := List.length_eq_one_iff.mp hd
  exact ⟨q, by rw [← hq]; exact this.symm⟩

/-- After a crash of the creator before it wrote the header, with nobody else around: the next process
to open the topic fails after its timeout, but in failing removes the file, and the one after that gets
a fresh topic of its own type and size. -/
theorem crashed_creator_recovers {s : Sys} {i : Nat} (ha : Abandoned s i) (hb : s.hdr i = none) (z z' : Nat) (t t' : MsgType) :
    lastSt (attempt s z t) = some .waiting ∧ (giveUp (attempt s z t)).link = none ∧
      lastSt (attempt (giveUp (attempt s z t)) z' t') = some .live ∧
      (attempt (giveUp (attempt s z t)) z' t').hdr s.next = some ⟨asStored t'.name, t'.size⟩ := by
  obtain ⟨h1, h2, h3, h4, h5, h6⟩ := attempt_blank ha hb z t
  obtain ⟨q, hq⟩ := take_last h3 h4
  generalize attempt s z t = u at *
  obtain ⟨lk, nx, ln, hd, l⟩ := u
  simp only at hq h6
  subst hq
  have hqs : q.st = .waiting := by simpa [lastSt] using h1
  rw [giveUp_alone ha.gone q (Or.inl hqs)]
  refine ⟨h1, rfl, ?_⟩
  have := attempt_none (s := ⟨none, nx, ln, hd, s.ps ++ [{ q with st := .gone }]⟩) rfl
    (by intro p hp; rcases List.mem_append.mp hp with hp | hp
        · exact ha.gone p hp
        · simp at hp; rw [hp]) z' t'
  exact ⟨this.1, by rw [← h6]; exact this.2.2.1⟩

/-- A topic left behind by a killed session keeps its header: a program with the same type adopts it as
it is, without waiting. -/
theorem killed_session_adopted {s : Sys} {i : Nat} (ha : Abandoned s i) (c t : MsgType)
    (hb : s.hdr i = some ⟨asStored c.name, c.size⟩) (z : Nat) (hm : MayJoin c t) :
    lastSt (attempt s z t) = some .live ∧ (attempt s z t).link = some i ∧ (attempt s z t).hdr i = s.hdr i := by
  obtain ⟨h1, _, h3, _, _, h5, _⟩ := attempt_set ha c hb z t
  exact ⟨h1.mpr hm, h3, by rw [h5]⟩

/-- With another type the first start fails although nobody uses the topic, and the second succeeds. -/
theorem killed_session_fails_once {s : Sys} {i : Nat} (ha : Abandoned s i) (c t : MsgType)
    (hb : s.hdr i = some ⟨asStored c.name, c.size⟩) (z : Nat) (hm : ¬ MayJoin c t) :
    lastSt (attempt s z t) = some .failed ∧ lastSt (attempt (giveUp (attempt s z t)) z t) = some .live := by
  obtain ⟨_, h1, h2, h3, h4, h5, h6⟩ := attempt_set ha c hb z t
  have h1 := h1.mpr hm
  obtain ⟨q, hq⟩ := take_last h3 h4
  generalize attempt s z t = u at *
  obtain ⟨lk, nx, ln, hd, l⟩ := u
  simp only at hq h6
  subst hq
  have hqs : q.st = .failed := by simpa [lastSt] using h1
  rw [giveUp_alone ha.gone q (Or.inr hqs)]
  refine ⟨h1, ?_⟩
  have := attempt_none (s := ⟨none, nx, ln, hd, s.ps ++ [{ q with st := .gone }]⟩) rfl
    (by intro p hp; rcases List.mem_append.mp hp with hp | hp
        · exact ha.gone p hp
        · simp at hp; rw [hp]) z t
  exact this.1

/-- A sweep with nobody around removes what a crash left. -/
theorem sweep_removes_abandoned {s : Sys} {i : Nat} (ha : Abandoned s i) :
    (run s [.sweep, .sweepTest s.ps.length, .unlink s.ps.length]).link = none := by
  obtain ⟨lk, nx, ln, hd, l⟩ := s
  obtain ⟨hl, hg⟩ := ha
  simp only at hl hg
  subst hl
  simp [run, step, Sys.put, solo_locked hg]

/-! ### The hypotheses are met -/

example : Abandoned (run Sys.init [.new 64 ty0 8 true, .advance 0, .crash 0]) 0 ∧
    Headless (run Sys.init [.new 64 ty0 8 true, .advance 0, .crash 0]) 0 := by
  refine ⟨⟨rfl, by decide⟩, ⟨rfl, by decide, ?_, ?_⟩⟩
  all_goals
    intro h p hp hi
    have hm := List.mem_of_getElem? hp
    have all : ∀ p ∈ (run Sys.init [.new 64 ty0 8 true, .advance 0, .crash 0]).ps, (p.own = false ∨ p.st = .gone) ∧ p.st ≠ .live := by decide
    first | exact (all p hm).1 | exact (all p hm).2

example : MayJoin ⟨"Imu".toList, 8, true⟩ ⟨"imu".toList, 8, true⟩ ∧ ¬ MayJoin ⟨"Imu".toList, 8, true⟩ ⟨"CmdVel".toList, 8, true⟩ ∧
    ¬ MayJoin ⟨"Imu".toList, 8, true⟩ ⟨"Imu".toList, 16, true⟩ := by
  simp only [← accepts_iff]; decide

/-- Two checked handles on one file. -/
example : ((run Sys.init ([.new 64 ty0 8 true] ++ opens 0 ++ [.new 64 ty0 8 true] ++ joins 1)).ps.map fun p => (p.st, p.late, p.ino)) =
    [(.live, false, 0), (.live, false, 0)] := rfl

end Horus.Region
