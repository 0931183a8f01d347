import Verif.Presence.Model
/-
C24 and C77: remote presence stays in its directory and its namespace, never panics on a packet,
and shows a host exactly while it keeps broadcasting.
-/
namespace Horus.Presence

/-! ### Parsing -/

theorem parseNodes_total (dec : Bytes → Text) (d : Bytes) (n pos : Nat) :
    ∃ l, parseNodes dec d n pos = some l ∧ l.length ≤ n := by
  induction n generalizing pos with
  | zero => exact ⟨[], rfl, Nat.le_refl _⟩
  | succ n ih =>
    simp only [parseNodes]
    by_cases h1 : pos + 2 > d.length
    · rw [if_pos h1]; exact ⟨[], rfl, by simp⟩
    rw [if_neg h1, u16At, if_pos (by omega)]
    simp only
    by_cases h2 : pos + 2 + leAt d pos 2 > d.length
    · rw [if_pos h2]; exact ⟨[], rfl, by simp⟩
    rw [if_neg h2, sliceAt, if_pos (by omega)]
    simp only
    by_cases h3 : pos + 2 + leAt d pos 2 + 8 > d.length
    · rw [if_pos h3]; exact ⟨[], rfl, by simp⟩
    rw [if_neg h3, u64At, if_pos (by omega)]
    simp only
    obtain ⟨l, e, hl⟩ := ih (pos + 2 + leAt d pos 2 + 8)
    rw [e]
    exact ⟨_, rfl, by simp; omega⟩

/-- **C24, memory safety.** No packet makes the receiver read outside it. -/
theorem parse_never_panics (dec : Bytes → Text) (ns : Text) (d : Bytes) :
    parse dec ns d ≠ .panic := by
  simp only [parse]
  by_cases h0 : d.length < 6
  · rw [if_pos h0]; simp
  rw [if_neg h0, u16At, if_pos (by omega)]
  simp only
  by_cases h1 : 2 + leAt d 0 2 > d.length
  · rw [if_pos h1]; simp
  rw [if_neg h1, sliceAt, if_pos (by omega)]
  simp only
  split; · simp
  by_cases h2 : 2 + leAt d 0 2 + 2 > d.length
  · rw [if_pos h2]; simp
  rw [if_neg h2, u16At, if_pos (by omega)]
  simp only
  by_cases h3 : 2 + leAt d 0 2 + 2 + leAt d (2 + leAt d 0 2) 2 > d.length
  · rw [if_pos h3]; simp
  rw [if_neg h3, sliceAt, if_pos (by omega)]
  simp only
  split; · simp
  by_cases h4 : 2 + leAt d 0 2 + 2 + leAt d (2 + leAt d 0 2) 2 + 8 > d.length
  · rw [if_pos h4]; simp
  rw [if_neg h4, u64At, if_pos (by omega)]
  simp only
  by_cases h5 : 2 + leAt d 0 2 + 2 + leAt d (2 + leAt d 0 2) 2 + 8 + 2 > d.length
  · rw [if_pos h5]; simp
  rw [if_neg h5, u16At, if_pos (by omega)]
  simp only
  obtain ⟨l, e, _⟩ := parseNodes_total dec d
    (leAt d (2 + leAt d 0 2 + 2 + leAt d (2 + leAt d 0 2) 2 + 8) 2)
    (2 + leAt d 0 2 + 2 + leAt d (2 + leAt d 0 2) 2 + 10)
  rw [e]; simp

/-- An accepted packet carries this machine's namespace and a host id that passed the check. -/
theorem accepted_only {dec : Bytes → Text} {ns : Text} {d : Bytes} {r : Record}
    (h : parse dec ns d = .accepted r) :
    r.ns = ns ∧ isSafe r.host = true ∧ r.nodes.length < 65536 := by
  simp only [parse] at h
  by_cases h0 : d.length < 6
  · rw [if_pos h0] at h; cases h
  rw [if_neg h0, u16At, if_pos (by omega)] at h
  simp only at h
  by_cases h1 : 2 + leAt d 0 2 > d.length
  · rw [if_pos h1] at h; cases h
  rw [if_neg h1, sliceAt, if_pos (by omega)] at h
  simp only at h
  split at h; · cases h
  rename_i hns
  by_cases h2 : 2 + leAt d 0 2 + 2 > d.length
  · rw [if_pos h2] at h; cases h
  rw [if_neg h2, u16At, if_pos (by omega)] at h
  simp only at h
  by_cases h3 : 2 + leAt d 0 2 + 2 + leAt d (2 + leAt d 0 2) 2 > d.length
  · rw [if_pos h3] at h; cases h
  rw [if_neg h3, sliceAt, if_pos (by omega)] at h
  simp only at h
  split at h; · cases h
  rename_i hsafe
  by_cases h4 : 2 + leAt d 0 2 + 2 + leAt d (2 + leAt d 0 2) 2 + 8 > d.length
  · rw [if_pos h4] at h; cases h
  rw [if_neg h4, u64At, if_pos (by omega)] at h
  simp only at h
  by_cases h5 : 2 + leAt d 0 2 + 2 + leAt d (2 + leAt d 0 2) 2 + 8 + 2 > d.length
  · rw [if_pos h5] at h; cases h
  rw [if_neg h5, u16At, if_pos (by omega)] at h
  simp only at h
  obtain ⟨l, e, hl⟩ := parseNodes_total dec d
    (leAt d (2 + leAt d 0 2 + 2 + leAt d (2 + leAt d 0 2) 2 + 8) 2)
    (2 + leAt d 0 2 + 2 + leAt d (2 + leAt d 0 2) 2 + 10)
  rw [e] at h
  simp only at h
  injection h with h
  subst h
  refine ⟨by simpa using hns, by simpa using hsafe, ?_⟩
  have hb : leAt d (2 + leAt d 0 2 + 2 + leAt d (2 + leAt d 0 2) 2 + 8) 2 < 65536 := by
    have hb := leNat_lt (slice d (2 + leAt d 0 2 + 2 + leAt d (2 + leAt d 0 2) 2 + 8) 2)
    rw [slice_length _ _ _ (by omega)] at hb
    exact hb
  exact Nat.lt_of_le_of_lt hl hb

/-! ### Paths -/

theorem segs_ne_nil (p : Text) : segs p ≠ [] := by
  induction p with
  | nil => simp [segs]
  | cons c cs ih =>
    simp only [segs]
    split
    · simp
    · split <;> simp

theorem segs_noslash {n : Text} (h : '/' ∉ n) : segs n = [n] := by
  induction n with
  | nil => rfl
  | cons c cs ih =>
    simp only [List.mem_cons, not_or] at h
    simp only [segs]
    rw [if_neg (fun e => h.1 e.symm), ih h.2]

theorem segs_join (d n : Text) (h : '/' ∉ n) : segs (d ++ '/' :: n) = segs d ++ [n] := by
  induction d with
  | nil => simp [segs, segs_noslash h]
  | cons c cs ih =>
    simp only [List.cons_append, segs, ih]
    by_cases hc : c = '/'
    · simp [hc]
    · rw [if_neg hc, if_neg hc]
      rcases hs : segs cs with _ | ⟨s, ss⟩
      · exact absurd hs (segs_ne_nil cs)
      · simp

/-- Specification: `p` names an entry directly inside `dir` — its components are those of `dir`
and one ordinary name, so no `..`, no root and no separator was smuggled in. -/
def DirectlyIn (dir : Text) (name p : Text) : Prop :=
  components p = components dir ++ [.normal name]

theorem components_join {d n : Text} (hd : d ≠ []) (hn : '/' ∉ n) (h0 : n ≠ []) (h1 : n ≠ ['.'])
    (h2 : n ≠ ['.', '.']) : DirectlyIn d n (d ++ '/' :: n) := by
  have hh : (d ++ '/' :: n).head? = d.head? := by
    cases d with
    | nil => exact absurd rfl hd
    | cons a b => rfl
  simp only [DirectlyIn, components, hh, segs_join d n hn]
  rcases hs : segs d with _ | ⟨s, ss⟩
  · exact absurd hs (segs_ne_nil d)
  · have hi : innerComp n = some (.normal n) := by
      simp only [innerComp]; rw [if_neg (by simp [h0, h1]), if_neg h2]
    simp [List.filterMap_append, hi]

/-- Joining with a directory written with or without a trailing slash. -/
theorem join_directly {dir n : Text} (hd : dir ≠ []) (hn : '/' ∉ n) (h0 : n ≠ [])
    (h1 : n ≠ ['.']) (h2 : n ≠ ['.', '.']) : DirectlyIn dir n (join dir n) := by
  simp only [join]
  split
  · rename_i hl
    -- dir = d' ++ "/"
    obtain ⟨d', rfl⟩ : ∃ d', dir = d' ++ ['/'] := by
      rw [List.getLast?_eq_some_iff] at hl; exact hl
    have hsj := segs_join d' n hn
    have hse : segs (d' ++ ['/']) = segs d' ++ [[]] := segs_join d' [] (by simp)
    have hi : innerComp n = some (.normal n) := by
      simp only [innerComp]; rw [if_neg (by simp [h0, h1]), if_neg h2]
    have hh : (d' ++ ['/'] ++ n).head? = (d' ++ ['/']).head? := by
      cases d' <;> simp
    simp only [DirectlyIn, components, hh]
    rw [show d' ++ ['/'] ++ n = d' ++ '/' :: n by simp, hsj, hse]
    rcases hs : segs d' with _ | ⟨s, ss⟩
    · exact absurd hs (segs_ne_nil d')
    · have hz : innerComp [] = none := rfl
      simp [List.filterMap_append, hi, hz]
  · exact components_join hd hn h0 h1 h2

theorem safe_noslash {h : Text} (hs : isSafe h = true) : '/' ∉ h := by
  simp only [isSafe] at hs
  split at hs; · cases hs
  split at hs; · cases hs
  rename_i _ h2
  intro hm
  apply h2
  simp [hm]

theorem fileName_noslash {h : Text} (hs : '/' ∉ h) : '/' ∉ fileName h := by
  simp only [fileName, List.mem_append, not_or]
  exact ⟨⟨by decide, hs⟩, by decide⟩

theorem tmpName_noslash {h : Text} (hs : '/' ∉ h) : '/' ∉ tmpName h := by
  simp only [tmpName, List.mem_append, not_or]
  exact ⟨fileName_noslash hs, by decide⟩

theorem fileName_head (h : Text) : ∃ t, fileName h = 'r' :: 'e' :: t := ⟨_, rfl⟩

theorem join_file {dir h : Text} (hd : dir ≠ []) (hs : '/' ∉ h) :
    DirectlyIn dir (fileName h) (join dir (fileName h)) ∧
    DirectlyIn dir (tmpName h) (join dir (tmpName h)) := by
  obtain ⟨t, ht⟩ := fileName_head h
  constructor
  · apply join_directly hd (fileName_noslash hs) <;> rw [ht] <;> simp
  · apply join_directly hd (tmpName_noslash hs) <;> rw [tmpName, ht] <;> simp

theorem fileName_inj {a b : Text} (h : fileName a = fileName b) : a = b := by
  simp only [fileName] at h
  rw [List.append_cancel_right_eq] at h
  exact List.append_cancel_left h

theorem join_inj {d a b : Text} (h : join d a = join d b) : a = b := by
  simp only [join] at h
  split at h
  · exact List.append_cancel_left h
  · have := List.append_cancel_left h
    injection this

/-- A temporary file is never another host's published file. -/
theorem tmp_is_not_a_record (d a b : Text) : join d (tmpName a) ≠ join d (fileName b) := by
  intro h
  have h := join_inj h
  have e : (tmpName a).getLast? = some 'p' := by
    simp only [tmpName]; rw [List.getLast?_append]; rfl
  have e2 : (fileName b).getLast? = some 'n' := by
    simp only [fileName]; rw [List.getLast?_append]; rfl
  rw [h, e2] at e
  cases e

/-! ### Histories -/

/-- Invariant of the receiver. -/
structure Inv (e : Env) (s : State) : Prop where
  ok : s.active.Ok
  okF : s.files.Ok
  path : ∀ h p t, s.active.get h = some (p, t) →
    p = join e.dir (fileName h) ∧ t ≤ s.clock ∧ isSafe h = true
  file : ∀ p r, s.files.get p = some r →
    p = join e.dir (fileName r.host) ∧ (s.active.get r.host).isSome ∧ r.ns = e.ns

theorem inv_init (e : Env) : Inv e init :=
  ⟨Map.Ok.nil, Map.Ok.nil, by intro h p t hh; simp [init] at hh, by intro p r h; simp [init] at h⟩

/-- What a cleanup keeps. -/
theorem get_cleanup {m : Map Text (Text × Nat)} (hm : m.Ok) (now : Nat) (h : Text) :
    Map.get (m.filter fun x => decide (now - x.2.2 ≤ deadTimeout)) h =
      (Map.get m h).filter fun v => decide (now - v.2 ≤ deadTimeout) :=
  Map.get_filter hm _ h

theorem mem_stale {m : Map Text (Text × Nat)} (hm : m.Ok) (now : Nat) (p : Text) :
    p ∈ ((m.filter fun x => decide (now - x.2.2 > deadTimeout)).map fun x => x.2.1) ↔
      ∃ h t, Map.get m h = some (p, t) ∧ now - t > deadTimeout := by
  simp only [List.mem_map, List.mem_filter, decide_eq_true_eq]
  constructor
  · rintro ⟨⟨h, p', t⟩, ⟨h1, h2⟩, rfl⟩
    exact ⟨h, t, Map.get_of_mem hm h1, h2⟩
  · rintro ⟨h, t, h1, h2⟩
    exact ⟨(h, p, t), ⟨Map.mem_of_get h1, h2⟩, rfl⟩

theorem inv_step {e : Env} {s : State} (i : Inv e s) (ev : Event) : Inv e (step e s ev).1 := by
  cases ev with
  | packet dt data ok =>
    simp only [step]
    cases hp : parse e.dec e.ns data with
    | panic => exact ⟨i.ok, i.okF, fun h p t hh => by
        obtain ⟨a, b, c⟩ := i.path h p t hh; exact ⟨a, Nat.le_trans b (by simp), c⟩, i.file⟩
    | ignored => exact ⟨i.ok, i.okF, fun h p t hh => by
        obtain ⟨a, b, c⟩ := i.path h p t hh; exact ⟨a, Nat.le_trans b (by simp), c⟩, i.file⟩
    | accepted r =>
      obtain ⟨a1, a2, _⟩ := accepted_only hp
      refine ⟨i.ok.set _ _, ?_, ?_, ?_⟩
      · simp only; split
        · exact i.okF.set _ _
        · exact i.okF
      · intro h p t hh
        simp only at hh ⊢
        rw [Map.get_set] at hh
        split at hh
        · rename_i he; subst he
          simp only [Option.some.injEq, Prod.mk.injEq] at hh
          exact ⟨hh.1.symm, by omega, a2⟩
        · obtain ⟨a, b, c⟩ := i.path h p t hh
          exact ⟨a, by omega, c⟩
      · intro p q hh
        simp only at hh ⊢
        have old : ∀ (x : s.files.get p = some q), p = join e.dir (fileName q.host) ∧
            (Map.get (Map.set s.active r.host (join e.dir (fileName r.host), s.clock + dt))
              q.host).isSome ∧ q.ns = e.ns := by
          intro x
          obtain ⟨b1, b2, b3⟩ := i.file p q x
          refine ⟨b1, ?_, b3⟩
          rw [Map.get_set]; split
          · simp
          · exact b2
        split at hh
        · rw [Map.get_set] at hh
          split at hh
          · rename_i he
            simp only [Option.some.injEq] at hh
            subst hh
            exact ⟨he.symm, by simp, a1⟩
          · exact old hh
        · exact old hh
  | cleanup dt =>
    simp only [step]
    refine ⟨i.ok.filter _, i.okF.filter _, ?_, ?_⟩
    · intro h p t hh
      simp only at hh ⊢
      rw [get_cleanup i.ok] at hh
      rw [Option.filter_eq_some_iff] at hh
      obtain ⟨a, b, c⟩ := i.path h p t hh.1
      exact ⟨a, by omega, c⟩
    · intro p q hh
      simp only at hh ⊢
      rw [Map.get_filter_key s.files
        (fun x => !((s.active.filter fun x => decide (s.clock + dt - x.2.2 > deadTimeout)).map
          fun x => x.2.1).contains x)] at hh
      split at hh
      swap; · cases hh
      rename_i hc
      obtain ⟨b1, b2, b3⟩ := i.file p q hh
      refine ⟨b1, ?_, b3⟩
      obtain ⟨⟨p', t⟩, hg⟩ := Option.isSome_iff_exists.mp b2
      obtain ⟨c1, c2, _⟩ := i.path _ _ _ hg
      rw [get_cleanup i.ok, hg]
      by_cases hst : s.clock + dt - t ≤ deadTimeout
      · simp [Option.filter, hst]
      · exfalso
        have : p ∈ ((s.active.filter fun x => decide (s.clock + dt - x.2.2 > deadTimeout)).map
            fun x => x.2.1) := by
          rw [mem_stale i.ok]
          exact ⟨q.host, t, by rw [hg, c1, b1], by omega⟩
        simp [this] at hc

theorem inv_run {e : Env} {s : State} (i : Inv e s) (evs : List Event) : Inv e (run e s evs).1 := by
  induction evs generalizing s with
  | nil => exact i
  | cons ev evs ih => exact ih (inv_step i ev)

theorem touched_step {e : Env} {s : State} (i : Inv e s) (ev : Event) (p : Text)
    (hp : p ∈ (step e s ev).2) :
    ∃ h, isSafe h = true ∧ (p = join e.dir (fileName h) ∨ p = join e.dir (tmpName h)) := by
  cases ev with
  | packet dt data ok =>
    simp only [step] at hp
    cases hq : parse e.dec e.ns data with
    | panic => rw [hq] at hp; simp at hp
    | ignored => rw [hq] at hp; simp at hp
    | accepted r =>
      rw [hq] at hp
      simp only [List.mem_cons, List.not_mem_nil, or_false] at hp
      exact ⟨r.host, (accepted_only hq).2.1, hp.symm⟩
  | cleanup dt =>
    simp only [step] at hp
    rw [mem_stale i.ok] at hp
    obtain ⟨h, t, hg, _⟩ := hp
    obtain ⟨a, _, c⟩ := i.path _ _ _ hg
    exact ⟨h, c, .inl a⟩

/-- **C24.** Over every history of packets, whatever their bytes, every path the receiver creates,
replaces or deletes is an entry directly inside the nodes directory, named `remote_…`. -/
theorem never_leaves_directory (e : Env) (hd : e.dir ≠ []) (evs : List Event) (p : Text)
    (hp : p ∈ (run e init evs).2) :
    ∃ name, DirectlyIn e.dir name p ∧ '/' ∉ name ∧ remotePfx <+: name := by
  suffices h : ∀ s, Inv e s → p ∈ (run e s evs).2 →
      ∃ h, isSafe h = true ∧ (p = join e.dir (fileName h) ∨ p = join e.dir (tmpName h)) by
    obtain ⟨x, hs, hp⟩ := h init (inv_init e) hp
    clear h
    have hn := safe_noslash hs
    obtain ⟨d1, d2⟩ := join_file hd hn
    rcases hp with rfl | rfl
    · exact ⟨_, d1, fileName_noslash hn, ⟨x ++ jsonExt, by simp [fileName]⟩⟩
    · exact ⟨_, d2, tmpName_noslash hn,
        ⟨x ++ jsonExt ++ tmpExt, by simp [tmpName, fileName]⟩⟩
  clear hp
  induction evs with
  | nil => intro s _ hp; simp [run] at hp
  | cons ev evs ih =>
    intro s i hp
    simp only [run, List.mem_append] at hp
    rcases hp with hp | hp
    · exact touched_step i ev p hp
    · exact ih _ (inv_step i ev) hp

/-- **C24, namespace.** Every remote record on disk came from a broadcast of this machine's own
namespace and lies at the path of its host. -/
theorem records_in_namespace (e : Env) (evs : List Event) (p : Text) (r : Record)
    (h : (run e init evs).1.files.get p = some r) :
    r.ns = e.ns ∧ p = join e.dir (fileName r.host) := by
  obtain ⟨a, _, c⟩ := (inv_run (inv_init e) evs).file p r h
  exact ⟨c, a⟩

/-! ### A host is listed while it broadcasts (C77) -/

/-- Specification: when host `h` was last heard, reading the history backwards. -/
def lastHeard (e : Env) (h : Text) : Nat → List Event → Option Nat
  | _, [] => none
  | t, .packet dt data _ :: evs =>
    match lastHeard e h (t + dt) evs with
    | some x => some x
    | none => match parse e.dec e.ns data with
      | .accepted r => if r.host = h then some (t + dt) else none
      | _ => none
  | t, .cleanup dt :: evs => lastHeard e h (t + dt) evs

/-- Time passed before the event. -/
def Event.dt : Event → Nat
  | .packet dt _ _ => dt
  | .cleanup dt => dt

/-- Specification: the time at the end of a history. -/
def endTime (evs : List Event) : Nat := (evs.map Event.dt).sum

theorem clock_run (e : Env) (s : State) (evs : List Event) :
    (run e s evs).1.clock = s.clock + endTime evs := by
  induction evs generalizing s with
  | nil => simp [run, endTime]
  | cons ev evs ih =>
    simp only [run, ih]
    have : (step e s ev).1.clock = s.clock + ev.dt := by
      cases ev with
      | packet dt data ok =>
        simp only [step, Event.dt]; split <;> rfl
      | cleanup dt => rfl
    rw [this]; simp [endTime]; omega

/-- Effect of one event on what is known of a host. -/
def heardStep (e : Env) (h : Text) (clock : Nat) (k : Option Nat) : Event → Option Nat
  | .packet dt data _ => match parse e.dec e.ns data with
    | .accepted r => if r.host = h then some (clock + dt) else k
    | _ => k
  | .cleanup _ => k

/-- Effect of a history on what is known of a host. -/
def heardRun (e : Env) (h : Text) : Nat → Option Nat → List Event → Option Nat
  | _, k, [] => k
  | c, k, ev :: evs => heardRun e h (c + ev.dt) (heardStep e h c k ev) evs

theorem heardRun_eq (e : Env) (h : Text) (c : Nat) (k : Option Nat) (evs : List Event) :
    heardRun e h c k evs = (lastHeard e h c evs).or k := by
  induction evs generalizing c k with
  | nil => simp [heardRun, lastHeard]
  | cons ev evs ih =>
    simp only [heardRun, ih]
    cases ev with
    | cleanup dt => simp [lastHeard, heardStep, Event.dt]
    | packet dt data ok =>
      simp only [lastHeard, heardStep, Event.dt]
      cases lastHeard e h (c + dt) evs with
      | some x => simp
      | none =>
        simp only [Option.none_or]
        cases parse e.dec e.ns data with
        | accepted r => simp only; split <;> simp
        | _ => simp

/-- What a host's entry says, relative to when it was last heard. -/
def Tracks (s : State) (h : Text) (k : Option Nat) : Prop :=
  match k with
  | none => s.active.get h = none
  | some t => t ≤ s.clock ∧
    ((∃ p, s.active.get h = some (p, t)) ∨ s.active.get h = none ∧ s.clock - t > deadTimeout)

theorem tracks_step {e : Env} {s : State} (i : Inv e s) {h : Text} {k : Option Nat}
    (t : Tracks s h k) (ev : Event) :
    Tracks (step e s ev).1 h (heardStep e h s.clock k ev) := by
  cases ev with
  | packet dt data ok =>
    simp only [step, heardStep]
    have grow : ∀ (act : Map Text (Text × Nat)) (fl : Map Text Record), act.get h = s.active.get h →
        Tracks { active := act, files := fl, clock := s.clock + dt } h k := by
      intro act fl ha
      cases k with
      | none => simp only [Tracks] at t ⊢; rw [ha, t]
      | some x =>
        simp only [Tracks] at t ⊢
        rw [ha]
        refine ⟨by omega, ?_⟩
        rcases t.2 with ⟨p, hp⟩ | ⟨h1, h2⟩
        · exact .inl ⟨p, hp⟩
        · exact .inr ⟨h1, by omega⟩
    cases hp : parse e.dec e.ns data with
    | panic => exact grow _ _ rfl
    | ignored => exact grow _ _ rfl
    | accepted r =>
      simp only
      by_cases hr : r.host = h
      · rw [if_pos hr]
        simp only [Tracks]
        exact ⟨Nat.le_refl _, .inl ⟨_, by rw [← hr, Map.get_set_self]⟩⟩
      · rw [if_neg hr]
        exact grow _ _ (Map.get_set_ne _ _ hr)
  | cleanup dt =>
    simp only [step, heardStep]
    cases k with
    | none =>
      simp only [Tracks] at t ⊢
      rw [get_cleanup i.ok, t]; rfl
    | some x =>
      simp only [Tracks] at t ⊢
      refine ⟨by omega, ?_⟩
      rw [get_cleanup i.ok]
      rcases t.2 with ⟨p, hp⟩ | ⟨h1, h2⟩
      · rw [hp]
        by_cases hs : s.clock + dt - x ≤ deadTimeout
        · exact .inl ⟨p, by simp [Option.filter, hs]⟩
        · exact .inr ⟨by simp [Option.filter, hs], by omega⟩
      · exact .inr ⟨by rw [h1]; rfl, by omega⟩

theorem tracks_run {e : Env} {s : State} (i : Inv e s) {h : Text} {k : Option Nat}
    (t : Tracks s h k) (evs : List Event) :
    Tracks (run e s evs).1 h (heardRun e h s.clock k evs) := by
  induction evs generalizing s k with
  | nil => exact t
  | cons ev evs ih =>
    have hc : (step e s ev).1.clock = s.clock + ev.dt := by
      have := clock_run e s [ev]
      simpa [run, endTime] using this
    have := ih (inv_step i ev) (tracks_step i t ev)
    rw [hc] at this
    exact this

theorem step_clock (e : Env) (s : State) (ev : Event) :
    (step e s ev).1.clock = s.clock + ev.dt := by
  have := clock_run e s [ev]
  simpa [run, endTime] using this

theorem run_append (e : Env) (s : State) (a b : List Event) :
    (run e s (a ++ b)).1 = (run e (run e s a).1 b).1 := by
  induction a generalizing s with
  | nil => rfl
  | cons ev a ih => simp only [List.cons_append, run, ih]

/-- **C77, exactness.** After any history ending in a cleanup, the receiver lists a host exactly
if its last accepted broadcast is at most thirty seconds old. -/
theorem listed_iff_recent (e : Env) (evs : List Event) (dt : Nat) (h : Text) :
    ((run e init (evs ++ [.cleanup dt])).1.active.get h).isSome ↔
      ∃ t, lastHeard e h 0 evs = some t ∧ endTime evs + dt - t ≤ deadTimeout := by
  have i := inv_run (inv_init e) evs
  have tr := tracks_run (inv_init e) (h := h) (k := none) (s := init) (by simp [Tracks, init]) evs
  rw [heardRun_eq, Option.or_none, show init.clock = 0 from rfl] at tr
  have hc := clock_run e init evs
  rw [show init.clock = 0 from rfl, Nat.zero_add] at hc
  rw [run_append]
  simp only [run, step]
  rw [get_cleanup i.ok, hc]
  cases hl : lastHeard e h 0 evs with
  | none =>
    rw [hl] at tr
    simp only [Tracks] at tr
    rw [tr]; simp
  | some t =>
    rw [hl] at tr
    simp only [Tracks, hc] at tr
    rcases tr.2 with ⟨p, hp⟩ | ⟨h1, h2⟩
    · rw [hp]
      by_cases hs : endTime evs + dt - t ≤ deadTimeout
      · simp [Option.filter, hs]; omega
      · simp [Option.filter, hs]; omega
    · rw [h1]
      constructor
      · simp
      · rintro ⟨t', e1, e2⟩
        injection e1 with e1; subst e1
        omega

/-- No record of a host outlives its listing: a file on disk always belongs to a listed host. -/
theorem file_implies_listed (e : Env) (evs : List Event) (p : Text) (r : Record)
    (h : (run e init evs).1.files.get p = some r) :
    ((run e init evs).1.active.get r.host).isSome :=
  ((inv_run (inv_init e) evs).file p r h).2.1

/-- A record accepted and written is on disk, and shows exactly what was broadcast. -/
theorem accepted_is_on_disk (e : Env) (evs : List Event) (dt : Nat) (data : Bytes) (r : Record)
    (h : parse e.dec e.ns data = .accepted r) :
    (run e init (evs ++ [.packet dt data true])).1.files.get (join e.dir (fileName r.host))
      = some r := by
  rw [run_append]
  simp [run, step, h]

/-- Distinct hosts never share a file: a broadcast by one leaves the other's record alone. -/
theorem other_records_kept (e : Env) (s : State) (dt : Nat) (data : Bytes) (ok : Bool) (r : Record)
    (h : parse e.dec e.ns data = .accepted r) (other : Text) (hne : other ≠ r.host) :
    (step e s (.packet dt data ok)).1.files.get (join e.dir (fileName other))
      = s.files.get (join e.dir (fileName other)) := by
  simp only [step, h]
  cases ok with
  | false => rfl
  | true =>
    simp only [if_true]
    exact Map.get_set_ne _ _ fun x => hne (fileName_inj (join_inj x)).symm

/-! ### What is sent is what is shown -/

theorem leAt_mid (pre rest : Bytes) (k n : Nat) (hn : n < 256 ^ k) :
    leAt (pre ++ (le k n ++ rest)) pre.length k = n := by
  rw [leAt_append_right _ _ _ _ (Nat.le_refl _), Nat.sub_self, leAt_le_append,
    Nat.mod_eq_of_lt hn]

theorem slice_mid (pre x rest : Bytes) : slice (pre ++ (x ++ rest)) pre.length x.length = x := by
  rw [slice_append_right _ _ _ _ (Nat.le_refl _), Nat.sub_self, slice_append_left _ _ _ rfl]

theorem parseNodes_build (dec : Bytes → Text) (hdec : ∀ t, dec (enc t) = t) (pre : Bytes)
    (nodes : List (Text × Nat)) (hn : ∀ x ∈ nodes, (enc x.1).length < 65536 ∧ x.2 < 2 ^ 64) :
    parseNodes dec (pre ++ nodes.flatMap fun x => le 2 (enc x.1).length ++ enc x.1 ++ le 8 x.2)
      nodes.length pre.length = some nodes := by
  induction nodes generalizing pre with
  | nil => rfl
  | cons x xs ih =>
    obtain ⟨a1, a2⟩ := hn x (by simp)
    have hd : pre ++ (x :: xs).flatMap (fun x => le 2 (enc x.1).length ++ enc x.1 ++ le 8 x.2) =
        pre ++ (le 2 (enc x.1).length ++ (enc x.1 ++ (le 8 x.2 ++
          xs.flatMap fun x => le 2 (enc x.1).length ++ enc x.1 ++ le 8 x.2))) := by
      simp [List.flatMap_cons]
    generalize hD : pre ++ (x :: xs).flatMap
      (fun x => le 2 (enc x.1).length ++ enc x.1 ++ le 8 x.2) = D at hd ⊢
    generalize htail : (xs.flatMap fun x => le 2 (enc x.1).length ++ enc x.1 ++ le 8 x.2) = tail
      at hd ih
    have hlen : D.length = pre.length + (2 + ((enc x.1).length + (8 + tail.length))) := by
      rw [hd]; simp
    have e1 : leAt D pre.length 2 = (enc x.1).length := by
      rw [hd]; exact leAt_mid _ _ _ _ (by simpa using a1)
    have e2 : slice D (pre.length + 2) (enc x.1).length = enc x.1 := by
      have := slice_mid (pre ++ le 2 (enc x.1).length) (enc x.1) (le 8 x.2 ++ tail)
      rw [List.length_append, le_length, List.append_assoc] at this
      rw [hd]; exact this
    have e3 : leAt D (pre.length + 2 + (enc x.1).length) 8 = x.2 := by
      have := leAt_mid (pre ++ le 2 (enc x.1).length ++ enc x.1) tail 8 x.2 (by simpa using a2)
      rw [List.length_append, List.length_append, le_length, List.append_assoc,
        List.append_assoc] at this
      rw [hd]; exact this
    have e4 := ih (pre ++ le 2 (enc x.1).length ++ enc x.1 ++ le 8 x.2)
      (fun y hy => hn y (by simp [hy]))
    have hD2 : pre ++ le 2 (enc x.1).length ++ enc x.1 ++ le 8 x.2 ++ tail = D := by
      rw [hd]; simp
    rw [hD2] at e4
    simp only [List.length_append, le_length] at e4
    simp only [List.length_cons, parseNodes]
    rw [if_neg (by omega), u16At, if_pos (by omega), e1]
    simp only
    rw [if_neg (by omega), sliceAt, if_pos (by omega), e2]
    simp only
    rw [if_neg (by omega), u64At, if_pos (by omega), e3]
    simp only
    rw [e4, hdec]

/-- **C77, content.** A broadcast built from local presence is accepted by a receiver of the same
namespace and yields exactly the sender's host id, timestamp and node list, provided names and
counts fit their 16-bit length fields. -/
theorem broadcast_round_trip (dec : Bytes → Text) (hdec : ∀ t, dec (enc t) = t) (ns host : Text)
    (stamp : Nat) (nodes : List (Text × Nat)) (hns : (enc ns).length < 65536)
    (hsafe : isSafe host = true) (hst : stamp < 2 ^ 64) (hcount : nodes.length < 65536)
    (hn : ∀ x ∈ nodes, (enc x.1).length < 65536 ∧ x.2 < 2 ^ 64) :
    parse dec ns (build ns host stamp nodes) =
      .accepted { host := host, stamp := stamp, ns := ns, nodes := nodes } := by
  have hh : (enc host).length ≤ 128 := by
    simp only [isSafe] at hsafe
    split at hsafe
    · cases hsafe
    · omega
  generalize htail : (nodes.flatMap fun x => le 2 (enc x.1).length ++ enc x.1 ++ le 8 x.2) = tail
  have hB : build ns host stamp nodes = le 2 (enc ns).length ++ (enc ns ++ (le 2 (enc host).length ++
      (enc host ++ (le 8 stamp ++ (le 2 nodes.length ++ tail))))) := by
    rw [← htail]; simp [build]
  generalize hD : build ns host stamp nodes = D at hB ⊢
  have hlen : D.length = 2 + ((enc ns).length + (2 + ((enc host).length + (8 + (2 + tail.length))))) := by
    rw [hB]; simp
  have e1 : leAt D 0 2 = (enc ns).length := by
    have := leAt_mid [] (enc ns ++ (le 2 (enc host).length ++
      (enc host ++ (le 8 stamp ++ (le 2 nodes.length ++ tail))))) 2 (enc ns).length (by simpa using hns)
    rw [hB]; exact this
  have e2 : slice D 2 (enc ns).length = enc ns := by
    have := slice_mid (le 2 (enc ns).length) (enc ns) (le 2 (enc host).length ++
      (enc host ++ (le 8 stamp ++ (le 2 nodes.length ++ tail))))
    rw [le_length] at this
    rw [hB]; exact this
  have e3 : leAt D (2 + (enc ns).length) 2 = (enc host).length := by
    have := leAt_mid (le 2 (enc ns).length ++ enc ns) (enc host ++ (le 8 stamp ++
      (le 2 nodes.length ++ tail))) 2 (enc host).length (by omega)
    rw [List.length_append, le_length, List.append_assoc] at this
    rw [hB]; exact this
  have e4 : slice D (2 + (enc ns).length + 2) (enc host).length = enc host := by
    have := slice_mid (le 2 (enc ns).length ++ enc ns ++ le 2 (enc host).length) (enc host)
      (le 8 stamp ++ (le 2 nodes.length ++ tail))
    simp only [List.length_append, le_length, List.append_assoc] at this
    rw [hB, Nat.add_assoc]; exact this
  have e5 : leAt D (2 + (enc ns).length + 2 + (enc host).length) 8 = stamp := by
    have := leAt_mid (le 2 (enc ns).length ++ enc ns ++ le 2 (enc host).length ++ enc host)
      (le 2 nodes.length ++ tail) 8 stamp (by simpa using hst)
    simp only [List.length_append, le_length, List.append_assoc] at this
    rw [hB]
    rw [show 2 + (enc ns).length + 2 + (enc host).length
      = 2 + ((enc ns).length + (2 + (enc host).length)) by omega]
    exact this
  have e6 : leAt D (2 + (enc ns).length + 2 + (enc host).length + 8) 2 = nodes.length := by
    have := leAt_mid (le 2 (enc ns).length ++ enc ns ++ le 2 (enc host).length ++ enc host ++
      le 8 stamp) tail 2 nodes.length (by simpa using hcount)
    simp only [List.length_append, le_length, List.append_assoc] at this
    rw [hB]
    rw [show 2 + (enc ns).length + 2 + (enc host).length + 8
      = 2 + ((enc ns).length + (2 + ((enc host).length + 8))) by omega]
    exact this
  have e7 : parseNodes dec D nodes.length (2 + (enc ns).length + 2 + (enc host).length + 10)
      = some nodes := by
    have := parseNodes_build dec hdec (le 2 (enc ns).length ++ enc ns ++ le 2 (enc host).length ++
      enc host ++ le 8 stamp ++ le 2 nodes.length) nodes hn
    rw [htail] at this
    simp only [List.length_append, le_length, List.append_assoc] at this
    rw [hB]
    rw [show 2 + (enc ns).length + 2 + (enc host).length + 10
      = 2 + ((enc ns).length + (2 + ((enc host).length + (8 + 2)))) by omega]
    exact this
  simp only [parse]
  rw [if_neg (by omega), u16At, if_pos (by omega), e1]
  simp only
  rw [if_neg (by omega), sliceAt, if_pos (by omega), e2]
  simp only [hdec]
  rw [if_neg (by simp), if_neg (by omega), u16At, if_pos (by omega), e3]
  simp only
  rw [if_neg (by omega), sliceAt, if_pos (by omega), e4]
  simp only [hdec]
  rw [if_neg (by simp [hsafe]), if_neg (by omega), u64At, if_pos (by omega), e5]
  simp only
  rw [if_neg (by omega), u16At, if_pos (by omega), e6]
  simp only
  rw [e7]

/-! ### Local scan -/

/-- Scanning the nodes directory never removes (and never lists as a local node) a remote host's
record, whatever it contains. -/
theorem scan_keeps_remote (host : Text) (k : Kind) : scanOne (fileName host) k = (false, true) := by
  have : isHostRecord (fileName host) = true := by
    simp only [isHostRecord, Bool.or_eq_true]
    left
    rw [List.isPrefixOf_iff_prefix]
    exact ⟨host ++ jsonExt, by simp [fileName]⟩
  simp [scanOne, this]

/-- A scan removes a file only if it is a parsed record of a dead process, or has been
unparseable for the grace period; it lists exactly live ones. -/
theorem scan_removes_only_dead {file : Text} {k : Kind} :
    ((scanOne file k).2 = false → k = .node false ∨ k = .unparseable true) ∧
    ((scanOne file k).1 = true → k = .node true) := by
  simp only [scanOne]
  split
  · simp
  split
  · cases k with
    | node a => cases a <;> simp
    | unparseable o => cases o <;> simp
    | unreadable => simp
  · simp

/-- A live local node is listed by the scan, unless its name starts like a host record. -/
theorem live_node_listed_partial (node : Text)
    (h1 : ¬ remotePfx <+: localFile node) (h2 : ¬ bridgedPfx <+: localFile node) :
    scanOne (localFile node) (.node true) = (true, true) := by
  have e : isHostRecord (localFile node) = false := by
    simp only [isHostRecord, Bool.or_eq_false_iff]
    constructor <;> rw [← Bool.not_eq_true, List.isPrefixOf_iff_prefix]
    · exact h1
    · exact h2
  have e2 : jsonExt.isSuffixOf (localFile node) = true := by
    rw [List.isSuffixOf_iff_suffix]; exact ⟨node, rfl⟩
  simp only [scanOne, e, e2]; rfl

/-- Without that proviso it fails: a live local node called `remote_x` is never listed, and its
file is the very one a remote host `x` overwrites. -/
theorem node_named_like_host : scanOne (localFile (remotePfx ++ ['x'])) (.node true) = (false, true) ∧
    localFile (remotePfx ++ ['x']) = fileName ['x'] := by decide

/-! ### Limits -/

/-- Names are not escaped: one node with a crafted name produces byte for byte the file of two
nodes, so what a monitor shows need not be what was broadcast. -/
theorem crafted_name_forges_node (fmt showNat : Nat → Text) (host ns a b : Text) (st r1 r2 : Nat) :
    render fmt showNat { host := host, stamp := st, ns := ns, nodes := [(a ++ lit "\",\"rate_hz\":" ++ fmt r1 ++ lit "}" ++ ',' :: lit "{\"name\":\"" ++ b, r2)] }
      = render fmt showNat { host := host, stamp := st, ns := ns, nodes := [(a, r1), (b, r2)] } := by
  simp [render, nodeJson, commaJoin]

/-- There is no limit on the number of remote hosts: every accepted new one adds an entry. -/
theorem new_host_adds_entry (e : Env) (s : State) (dt : Nat) (data : Bytes) (ok : Bool) (r : Record)
    (h : parse e.dec e.ns data = .accepted r) (hnew : s.active.get r.host = none) :
    (step e s (.packet dt data ok)).1.active.length = s.active.length + 1 := by
  simp [step, h, Map.length_set, hnew]

/-! ### Non-vacuity -/

/-- A decoder good enough for ASCII. -/
def ascii : Bytes → Text := List.map fun b => Char.ofNat b.toNat

/-- A concrete environment. -/
def exEnv : Env := { dir := "/dev/shm/nodes".toList, dec := ascii, ns := "lab".toList }

/-- A broadcast of one host with two nodes. -/
def exPacket : Bytes := build "lab".toList "00af".toList 7 [("cam".toList, 5), ("imu".toList, 9)]

example : parse ascii "lab".toList exPacket = .accepted { host := "00af".toList, stamp := 7, ns := "lab".toList, nodes := [("cam".toList, 5), ("imu".toList, 9)] } := by
  decide +kernel

example : parse ascii "other".toList exPacket = .ignored ∧
    isSafe "../x".toList = false ∧ isSafe ".".toList = false ∧ isSafe "a.b".toList = true := by
  decide +kernel

example : (run exEnv init [.packet 1 exPacket true, .cleanup 30000000000]).1.files.length = 1 ∧
    (run exEnv init [.packet 1 exPacket true, .cleanup 30000000001]).1.files.length = 0 ∧
    (run exEnv init [.packet 1 exPacket true, .cleanup 30000000001]).2.length = 3 := by
  decide +kernel

example : components (join exEnv.dir (fileName "00af".toList)) =
    [.root, .normal "dev".toList, .normal "shm".toList, .normal "nodes".toList,
     .normal "remote_00af.json".toList] := by decide +kernel

end Horus.Presence
