import Verif.Guard.Props
import Mathlib.Data.List.Induction
/-
C201: what the network layer is told about the topics a process has open. Models the lifecycle hook of
horus_core/src/communication/topic/mod.rs:161-305 and its callers (`new` 979-984, `ensure_role` 1348-1354, `clone`
2529-2550, `drop` 2587-2589) with the registry of horus_net/src/registry.rs behind it (horus_net/src/lib.rs:60-108).

Simplified: type hash and size are left out. A handle's first send or receive is one step. The hook is installed in three
kinds of steps (set, snapshot, one replayed event at a time), so that other threads may act in between.
-/
namespace Horus.Guard
open Horus.Discovery (Role)

/-- A topic handle: its name, and the directions it has been used in. Source: topic/mod.rs:1325-1337. -/
structure Hnd where
  name : Bytes
  sent : Bool := false
  rcvd : Bool := false
  deriving DecidableEq

/-- `LiveTopic`: handles counted on the name, directions seen. Source: topic/mod.rs:208-214. -/
structure LiveTopic where
  handles : Nat := 1
  pub : Bool := false
  sub : Bool := false
  deriving DecidableEq

/-- `TopicLifecycleEvent`. Source: topic/mod.rs:163-188. -/
inductive Ev
  | created (n : Bytes)
  | role (n : Bytes) (publisher : Bool)
  | dropped (n : Bytes)
  deriving DecidableEq

/-- The process: its open handles, the table `LIVE_TOPICS`, whether the hook is set, the events still to be replayed to
it, and the registry behind it. -/
structure Proc where
  open_ : List Hnd := []
  live : Map Bytes LiveTopic := []
  hook : Bool := false
  replay : List Ev := []
  reg : Registry := []

/-- What the hook does with an event. Source: horus_net/src/lib.rs:63-107. -/
def hookOp : Ev → RegOp
  | .created n => .reg n .subscriber
  | .role n p => .reg n (if p then .publisher else .subscriber)
  | .dropped n => .unreg n .both

/-- The table's part of `notify_topic_lifecycle`. Source: topic/mod.rs:257-299. -/
def record (live : Map Bytes LiveTopic) : Ev → Map Bytes LiveTopic
  | .created n =>
    match Map.get live n with
    | some l => Map.set live n { l with handles := l.handles + 1 }
    | none => Map.set live n {}
  | .role n p =>
    match Map.get live n with
    | some l => Map.set live n (if p then { l with pub := true } else { l with sub := true })
    | none => live
  | .dropped n =>
    match Map.get live n with
    | some l => if l.handles - 1 = 0 then Map.del live n else Map.set live n { l with handles := l.handles - 1 }
    | none => live

/-- `notify_topic_lifecycle`. Source: topic/mod.rs:257-304. -/
def notify (p : Proc) (e : Ev) : Proc :=
  { p with live := record p.live e, reg := if p.hook then (hookOp e).apply p.reg else p.reg }

/-- Events of one live topic, as replayed: creation, then the directions. Source: topic/mod.rs:236-246. -/
def replayOf (n : Bytes) (l : LiveTopic) : List Ev :=
  .created n :: (if l.pub then [.role n true] else []) ++ (if l.sub then [.role n false] else [])

/-- What happens in the process. Handles are named by their position. -/
inductive LAct
  | new (n : Bytes)
  | clone (i : Nat)
  | send (i : Nat)
  | recv (i : Nat)
  | drop (i : Nat)
  /-- `TOPIC_LIFECYCLE_HOOK.set` (230). -/
  | setHook
  /-- The snapshot under the lock (236-251). -/
  | snap
  /-- One replayed event (253-255). -/
  | next
  deriving DecidableEq

/-- One step. `Clone` copies the handle with no directions and says nothing. Source: topic/mod.rs:228-255, 979, 1348, 2530, 2587. -/
def lstep (p : Proc) : LAct → Proc
  | .new n => notify { p with open_ := p.open_ ++ [⟨n, false, false⟩] } (.created n)
  | .clone i =>
    match p.open_.drop i with
    | h :: _ => { p with open_ := p.open_ ++ [⟨h.name, false, false⟩] }
    | [] => p
  | .send i =>
    match p.open_.drop i with
    | h :: r => if h.sent then p else notify { p with open_ := p.open_.take i ++ { h with sent := true } :: r } (.role h.name true)
    | [] => p
  | .recv i =>
    match p.open_.drop i with
    | h :: r => if h.rcvd then p else notify { p with open_ := p.open_.take i ++ { h with rcvd := true } :: r } (.role h.name false)
    | [] => p
  | .drop i =>
    match p.open_.drop i with
    | h :: r => notify { p with open_ := p.open_.take i ++ r } (.dropped h.name)
    | [] => p
  | .setHook => { p with hook := true }
  | .snap => if p.hook then { p with replay := p.live.flatMap fun x => replayOf x.1 x.2 } else p
  | .next =>
    match p.replay with
    | e :: es => { p with replay := es, reg := (hookOp e).apply p.reg }
    | [] => p

/-- A history. -/
def lrun (p : Proc) (as : List LAct) : Proc := as.foldl lstep p

/-! ## Specification -/

/-- Some open handle of the process is on the topic. -/
def HasOpen (p : Proc) (n : Bytes) : Prop := ∃ h ∈ p.open_, h.name = n

/-- Some open handle of the process has published on the topic. -/
def HasSent (p : Proc) (n : Bytes) : Prop := ∃ h ∈ p.open_, h.name = n ∧ h.sent = true

/-- The registry says the truth, on the side of safety: an open topic is registered, one that an open handle publishes is
registered as published, and one that is not open is not registered. -/
def Truthful (p : Proc) : Prop := ∀ n,
  (HasOpen p n → hasSubscribers p.reg n = true) ∧
  (HasSent p n → hasPublishers p.reg n = true) ∧
  (¬ HasOpen p n → hasSubscribers p.reg n = false ∧ hasPublishers p.reg n = false)

/-- No handle is cloned in the history. -/
def NoClone (as : List LAct) : Prop := ∀ i, LAct.clone i ∉ as

/-- Each handle dropped in the history is at that moment the only one on its topic. -/
def SoleDrops (p : Proc) : List LAct → Prop
  | [] => True
  | .drop i :: as => (∀ h r, p.open_.drop i = h :: r → ∀ x ∈ p.open_.take i ++ r, x.name ≠ h.name) ∧ SoleDrops (lstep p (.drop i)) as
  | a :: as => SoleDrops (lstep p a) as

/-- Installing the hook while nothing else happens: the replay of a list of events. -/
def installed (p : Proc) : Proc :=
  let p1 := lstep (lstep p .setHook) .snap
  lrun p1 (List.replicate p1.replay.length .next)

/-! ## Proofs -/

/-- Open handles on a name. -/
def cnt (l : List Hnd) (n : Bytes) : Nat := l.countP fun h => decide (h.name = n)

theorem cnt_pos (p : Proc) (n : Bytes) : 0 < cnt p.open_ n ↔ HasOpen p n := by
  simp [cnt, List.countP_pos_iff, HasOpen]

theorem split_mem {l : List Hnd} {i : Nat} {h : Hnd} {r : List Hnd} (e : l.drop i = h :: r) (x : Hnd) :
    x ∈ l ↔ x ∈ l.take i ++ h :: r := by
  rw [← e, List.take_append_drop]

theorem split_at {l : List Hnd} {i : Nat} {h : Hnd} {r : List Hnd} (e : l.drop i = h :: r) : l = l.take i ++ h :: r := by
  rw [← e, List.take_append_drop]

/-- The table is right. -/
structure Tab (p : Proc) : Prop where
  ok : Map.Ok p.live
  num : ∀ n, (match Map.get p.live n with | some l => l.handles | none => 0) = cnt p.open_ n
  pos : ∀ n l, Map.get p.live n = some l → 0 < l.handles
  pub : ∀ n l, Map.get p.live n = some l → HasSent p n → l.pub = true

theorem tab_nil : Tab {} := by
  refine ⟨Map.Ok.nil, ?_, ?_, ?_⟩ <;> intros <;> simp_all [cnt]

theorem record_ok (m : Map Bytes LiveTopic) (e : Ev) (h : Map.Ok m) : Map.Ok (record m e) := by
  cases e <;> simp only [record] <;> split
  all_goals first
    | exact h.set _ _
    | exact h
    | (split
       · exact h.del _
       · exact h.set _ _)

theorem tab_step (p : Proc) (a : LAct) (ht : Tab p) (hc : ∀ i, a ≠ .clone i) : Tab (lstep p a) := by
  obtain ⟨hok, hn, hpos, hp⟩ := ht
  have same : ∀ p' : Proc, p'.open_ = p.open_ → p'.live = p.live → Tab p' := by
    intro p' h1 h2
    refine ⟨by rw [h2]; exact hok, ?_, ?_, ?_⟩
    · intro n; rw [h1, h2]; exact hn n
    · intro n l; rw [h2]; exact hpos n l
    · intro n l; rw [h2]; simp only [HasSent, h1]; exact hp n l
  -- a handle's first use in one direction
  have use : ∀ (i : Nat) (h h' : Hnd) (r : List Hnd) (b : Bool) (p' : Proc), p.open_.drop i = h :: r → h'.name = h.name →
      (h'.sent = true → h.sent = true ∨ b = true) → p'.open_ = p.open_.take i ++ h' :: r → p'.live = record p.live (.role h.name b) → Tab p' := by
    intro i h h' r b p' e hnm hsent ho hlv
    have hs := split_at e
    obtain ⟨T, hT⟩ : ∃ T, p.open_.take i = T := ⟨_, rfl⟩
    rw [hT] at hs ho
    have hcnt : ∀ n, cnt p'.open_ n = cnt p.open_ n := by
      intro n; rw [ho, hs]; simp [cnt, List.countP_append, List.countP_cons, hnm]
    have hsnt : ∀ n, HasSent p' n → HasSent p n ∨ (n = h.name ∧ b = true) := by
      rintro n ⟨x, hx, hxn, hxs⟩
      rw [ho] at hx
      rcases List.mem_append.1 hx with hx | hx
      · exact Or.inl ⟨x, by rw [hs]; simp [hx], hxn, hxs⟩
      · rcases List.mem_cons.1 hx with hx | hx
        · subst hx
          rcases hsent hxs with h1 | h1
          · exact Or.inl ⟨h, by rw [hs]; simp, by rw [← hxn, hnm], h1⟩
          · exact Or.inr ⟨by rw [← hxn, hnm], h1⟩
        · exact Or.inl ⟨x, by rw [hs]; simp [hx], hxn, hxs⟩
    have hlive : 0 < cnt p.open_ h.name := by rw [cnt_pos]; exact ⟨h, by rw [hs]; simp, rfl⟩
    obtain ⟨l0, hl0⟩ : ∃ l, Map.get p.live h.name = some l := by
      cases hg : Map.get p.live h.name with
      | none => have := hn h.name; rw [hg] at this; simp at this; omega
      | some l => exact ⟨l, rfl⟩
    have hrec : record p.live (.role h.name b) = Map.set p.live h.name (if b then { l0 with pub := true } else { l0 with sub := true }) := by
      simp [record, hl0]
    refine ⟨by rw [hlv]; exact record_ok _ _ hok, ?_, ?_, ?_⟩
    · intro n
      rw [hcnt, ← hn n, hlv, hrec]
      by_cases en : h.name = n
      · subst en; rw [Map.get_set_self, hl0]; cases b <;> rfl
      · rw [Map.get_set_ne _ _ en]
    · intro n l
      rw [hlv, hrec]
      by_cases en : h.name = n
      · subst en; rw [Map.get_set_self]; intro e; cases e
        have := hpos _ _ hl0
        cases b <;> exact this
      · rw [Map.get_set_ne _ _ en]; exact hpos n l
    · intro n l
      rw [hlv, hrec]
      by_cases en : h.name = n
      · subst en; rw [Map.get_set_self]; intro e hsn; cases e
        cases b with
        | true => rfl
        | false =>
          rcases hsnt _ hsn with h1 | ⟨_, h1⟩
          · exact hp _ l0 hl0 h1
          · cases h1
      · rw [Map.get_set_ne _ _ en]
        intro e hsn
        rcases hsnt n hsn with h1 | ⟨h1, _⟩
        · exact hp n l e h1
        · exact absurd h1.symm en
  cases a with
  | clone i => exact absurd rfl (hc i)
  | setHook => exact same _ rfl rfl
  | snap => simp only [lstep]; split <;> exact same _ rfl rfl
  | next => simp only [lstep]; split <;> exact same _ rfl rfl
  | new n =>
    have hcnt : ∀ m, cnt (p.open_ ++ [⟨n, false, false⟩]) m = cnt p.open_ m + if n = m then 1 else 0 := by
      intro m; simp [cnt, List.countP_append, List.countP_cons]
    have hsnt : ∀ m, HasSent (lstep p (.new n)) m → HasSent p m := by
      rintro m ⟨x, hx, h1, h2⟩
      have hx : x ∈ p.open_ ++ [⟨n, false, false⟩] := hx
      rcases List.mem_append.1 hx with hx | hx
      · exact ⟨x, hx, h1, h2⟩
      · simp at hx; subst hx; cases h2
    have hlv : (lstep p (.new n)).live = record p.live (.created n) := rfl
    refine ⟨by rw [hlv]; exact record_ok _ _ hok, ?_, ?_, ?_⟩
    · intro m
      show _ = cnt (p.open_ ++ [⟨n, false, false⟩]) m
      rw [hcnt, ← hn m, hlv]
      simp only [record]
      by_cases em : n = m
      · subst em
        cases hg : Map.get p.live n <;> simp
      · cases hg : Map.get p.live n <;> simp [em, Map.get_set_ne _ _ em]
    · intro m l
      rw [hlv]
      simp only [record]
      by_cases em : n = m
      · subst em
        cases hg : Map.get p.live n <;> (simp only [Map.get_set_self]; intro e; cases e)
        · exact Nat.one_pos
        · exact Nat.succ_pos _
      · cases hg : Map.get p.live n <;> (simp only [Map.get_set_ne _ _ em]; exact hpos m l)
    · intro m l
      rw [hlv]
      simp only [record]
      intro e hs
      have hs := hsnt m hs
      by_cases em : n = m
      · subst em
        cases hg : Map.get p.live n with
        | none =>
          have h0 := hn n; rw [hg] at h0
          obtain ⟨x, hx, h1, _⟩ := hs
          have : 0 < cnt p.open_ n := (cnt_pos p n).2 ⟨x, hx, h1⟩
          simp at h0; omega
        | some l0 =>
          rw [hg] at e; simp only [Map.get_set_self] at e; cases e
          exact hp n l0 hg hs
      · cases hg : Map.get p.live n <;> (rw [hg] at e; simp only [Map.get_set_ne _ _ em] at e; exact hp m l e hs)
  | send i =>
    simp only [lstep]
    split
    · rename_i h r e
      split
      · exact same _ rfl rfl
      · exact use i h { h with sent := true } r true _ e rfl (fun _ => Or.inr rfl) rfl rfl
    · exact same _ rfl rfl
  | recv i =>
    simp only [lstep]
    split
    · rename_i h r e
      split
      · exact same _ rfl rfl
      · exact use i h { h with rcvd := true } r false _ e rfl (fun hx => Or.inl hx) rfl rfl
    · exact same _ rfl rfl
  | drop i =>
    simp only [lstep]
    split
    · rename_i h r e
      have hs := split_at e
      have hcnt : ∀ m, cnt p.open_ m = cnt (p.open_.take i ++ r) m + if h.name = m then 1 else 0 := by
        intro m
        have : cnt p.open_ m = cnt (p.open_.take i ++ h :: r) m := by rw [← hs]
        rw [this]; simp [cnt, List.countP_append, List.countP_cons, Nat.add_assoc]
      have hsnt : ∀ m, HasSent (notify { p with open_ := p.open_.take i ++ r } (.dropped h.name)) m → HasSent p m := by
        rintro m ⟨x, hx, h1, h2⟩
        have hx : x ∈ p.open_.take i ++ r := hx
        refine ⟨x, ?_, h1, h2⟩
        rw [split_mem e]
        rcases List.mem_append.1 hx with hx | hx <;> simp [hx]
      have hlive : 0 < cnt p.open_ h.name := by rw [cnt_pos]; exact ⟨h, by rw [hs]; simp, rfl⟩
      obtain ⟨l0, hl0⟩ : ∃ l, Map.get p.live h.name = some l := by
        cases hg : Map.get p.live h.name with
        | none => have := hn h.name; rw [hg] at this; simp at this; omega
        | some l => exact ⟨l, rfl⟩
      have hnum : l0.handles = cnt p.open_ h.name := by have := hn h.name; rw [hl0] at this; exact this
      have hrec : record p.live (.dropped h.name) = if l0.handles - 1 = 0 then Map.del p.live h.name else Map.set p.live h.name { l0 with handles := l0.handles - 1 } := by
        simp [record, hl0]
      have hlv : (notify { p with open_ := p.open_.take i ++ r } (.dropped h.name)).live = record p.live (.dropped h.name) := rfl
      refine ⟨by rw [hlv]; exact record_ok _ _ hok, ?_, ?_, ?_⟩
      · intro m
        show _ = cnt (p.open_.take i ++ r) m
        have h1 := hcnt m
        have h2 := hn m
        rw [hlv, hrec]
        by_cases em : h.name = m
        · subst em
          rw [if_pos rfl] at h1
          clear h2
          by_cases hz : l0.handles - 1 = 0
          · rw [if_pos hz, Map.get_del_self]; dsimp only; omega
          · rw [if_neg hz, Map.get_set_self]; show l0.handles - 1 = _; omega
        · rw [if_neg em] at h1
          by_cases hz : l0.handles - 1 = 0
          · rw [if_pos hz, Map.get_del_ne _ em]; omega
          · rw [if_neg hz, Map.get_set_ne _ _ em]; omega
      · intro m l
        rw [hlv, hrec]
        by_cases em : h.name = m
        · subst em
          split
          · rw [Map.get_del_self]; intro e; cases e
          · rw [Map.get_set_self]; intro e; cases e; dsimp only; omega
        · split
          · rw [Map.get_del_ne _ em]; exact hpos m l
          · rw [Map.get_set_ne _ _ em]; exact hpos m l
      · intro m l
        rw [hlv, hrec]
        intro e hsn
        have hsn := hsnt m hsn
        by_cases em : h.name = m
        · subst em
          split at e
          · rw [Map.get_del_self] at e; cases e
          · rw [Map.get_set_self] at e; cases e
            exact hp _ l0 hl0 hsn
        · split at e
          · rw [Map.get_del_ne _ em] at e; exact hp m l e hsn
          · rw [Map.get_set_ne _ _ em] at e; exact hp m l e hsn
    · exact same _ rfl rfl

theorem lrun_snoc (p : Proc) (as : List LAct) (a : LAct) : lrun p (as ++ [a]) = lstep (lrun p as) a := by
  simp [lrun, List.foldl_append]

theorem tab_run (as : List LAct) (p : Proc) (h : Tab p) (hc : NoClone as) : Tab (lrun p as) := by
  induction as generalizing p with
  | nil => exact h
  | cons a as ih =>
    refine ih (lstep p a) (tab_step p a h ?_) ?_
    · intro i e; exact hc i (by simp [e])
    · intro i hi; exact hc i (by simp [hi])

theorem reg_unset (as : List LAct) (hh : ∀ a ∈ as, a ≠ .setHook) :
    (lrun {} as).hook = false ∧ (lrun {} as).reg = [] ∧ (lrun {} as).replay = [] := by
  induction as using List.reverseRecOn with
  | nil => exact ⟨rfl, rfl, rfl⟩
  | append_singleton as a ih =>
    obtain ⟨h1, h2, h3⟩ := ih (fun x hx => hh x (by simp [hx]))
    have ha := hh a (by simp)
    rw [lrun_snoc]
    generalize lrun {} as = p at h1 h2 h3 ⊢
    cases a with
    | setHook => exact absurd rfl ha
    | new n => exact ⟨h1, by simp [lstep, notify, h1, h2], h3⟩
    | clone i => simp only [lstep]; split <;> exact ⟨h1, h2, h3⟩
    | send i =>
      simp only [lstep]; split
      · split
        · exact ⟨h1, h2, h3⟩
        · exact ⟨h1, by simp [notify, h1, h2], h3⟩
      · exact ⟨h1, h2, h3⟩
    | recv i =>
      simp only [lstep]; split
      · split
        · exact ⟨h1, h2, h3⟩
        · exact ⟨h1, by simp [notify, h1, h2], h3⟩
      · exact ⟨h1, h2, h3⟩
    | drop i =>
      simp only [lstep]; split
      · exact ⟨h1, by simp [notify, h1, h2], h3⟩
      · exact ⟨h1, h2, h3⟩
    | snap => simp [lstep, h1, h2, h3]
    | next => simp [lstep, h1, h2, h3]

theorem replay_all (p : Proc) : lrun p (List.replicate p.replay.length .next) =
    { p with replay := [], reg := (p.replay.map hookOp).foldl RegOp.apply p.reg } := by
  obtain ⟨o, l, h, rp, rg⟩ := p
  dsimp only
  induction rp generalizing rg with
  | nil => rfl
  | cons e es ih =>
    rw [List.length_cons, List.replicate_succ]
    show lrun (lstep ⟨o, l, h, e :: es, rg⟩ .next) _ = _
    simp only [lstep, List.map_cons, List.foldl_cons]
    exact ih ((hookOp e).apply rg)

theorem flags_replay (l : Map Bytes LiveTopic) (r : Registry) (n : Bytes) :
    hasSubscribers (((l.flatMap fun x => replayOf x.1 x.2).map hookOp).foldl RegOp.apply r) n =
      (hasSubscribers r n || decide (n ∈ Map.keys l)) ∧
    hasPublishers (((l.flatMap fun x => replayOf x.1 x.2).map hookOp).foldl RegOp.apply r) n =
      (hasPublishers r n || l.any fun x => decide (x.1 = n) && x.2.pub) := by
  induction l generalizing r with
  | nil => simp [Map.keys]
  | cons x l ih =>
    rw [List.flatMap_cons, List.map_append, List.foldl_append]
    obtain ⟨h1, h2⟩ := ih (((replayOf x.1 x.2).map hookOp).foldl RegOp.apply r)
    rw [h1, h2]
    obtain ⟨d2, d1⟩ := registry_dirs ((replayOf x.1 x.2).map hookOp) r n
    rw [d1, d2]
    obtain ⟨m, lt⟩ := x
    have hk : decide (n ∈ Map.keys ((m, lt) :: l)) = (decide (m = n) || decide (n ∈ Map.keys l)) := by
      rw [Bool.eq_iff_iff]; simp only [Map.keys, List.map_cons, List.mem_cons, decide_eq_true_eq, Bool.or_eq_true, @eq_comm _ n m]
      exact or_congr Iff.rfl decide_eq_true_iff.symm
    rw [hk]
    obtain ⟨c, pb, sb⟩ := lt
    by_cases em : m = n
    · subst em
      cases pb <;> cases sb <;> simp [replayOf, hookOp, dirOn, Subscribes, Publishes]
    · cases pb <;> cases sb <;> simp [replayOf, hookOp, dirOn, Subscribes, Publishes, em]

theorem truthful_of_tab (p : Proc) (ht : Tab p) (hr : p.reg = []) : Truthful (installed p) := by
  have hin : installed p = { p with hook := true, replay := [], reg := (((p.live.flatMap fun x => replayOf x.1 x.2)).map hookOp).foldl RegOp.apply [] } := by
    have hs : lstep (lstep p .setHook) .snap = { p with hook := true, replay := p.live.flatMap fun x => replayOf x.1 x.2 } := by
      simp [lstep]
    simp only [installed, hs]
    rw [replay_all]
    simp [hr]
  intro n
  rw [hin]
  obtain ⟨f1, f2⟩ := flags_replay p.live [] n
  have e1 : hasPublishers ([] : Registry) n = false := rfl
  have e2 : hasSubscribers ([] : Registry) n = false := rfl
  rw [e2] at f1; rw [e1] at f2
  dsimp only
  rw [f1, f2]
  simp only [Bool.false_or]
  have hnum := ht.num n
  refine ⟨?_, ?_, ?_⟩
  · intro ho
    have ho : HasOpen p n := ho
    have := (cnt_pos p n).2 ho
    cases hg : Map.get p.live n with
    | none => rw [hg] at hnum; simp at hnum; omega
    | some l => simp [Map.mem_keys_iff, hg]
  · intro hs
    have hs : HasSent p n := hs
    obtain ⟨x, hx, h1, h2⟩ := hs
    have := (cnt_pos p n).2 ⟨x, hx, h1⟩
    cases hg : Map.get p.live n with
    | none => rw [hg] at hnum; simp at hnum; omega
    | some l =>
      have hl := ht.pub n l hg ⟨x, hx, h1, h2⟩
      have hm := Map.mem_of_get hg
      rw [List.any_eq_true]
      exact ⟨(n, l), hm, by simp [hl]⟩
  · intro hno
    have hno : ¬ HasOpen p n := hno
    have h0 : cnt p.open_ n = 0 := by
      have := cnt_pos p n
      by_contra hc
      exact hno (this.1 (by omega))
    have hg : Map.get p.live n = none := by
      cases hg : Map.get p.live n with
      | none => rfl
      | some l => rw [hg] at hnum; have := ht.pos n l hg; simp at hnum; omega
    have hk : n ∉ Map.keys p.live := by rw [Map.mem_keys_iff, hg]; simp
    refine ⟨by simp [hk], ?_⟩
    rw [Bool.eq_false_iff]
    intro ha
    rw [List.any_eq_true] at ha
    obtain ⟨x, hx, h1⟩ := ha
    simp at h1
    exact hk (by rw [← h1.1]; exact List.mem_map_of_mem hx)

/-- **A network started late learns the truth.** Whatever handles were opened, used and dropped before networking starts,
once the hook is installed the registry is truthful about every topic.

Missing: cloned handles (`clone_forgotten`), and handles dropped by other threads during the installation (`ghost_topic`). -/
theorem late_start_partial (as : List LAct) (hc : NoClone as) (hh : ∀ a ∈ as, a ≠ .setHook) :
    Truthful (installed (lrun {} as)) :=
  truthful_of_tab _ (tab_run as {} tab_nil hc) (reg_unset as hh).2.1

theorem flags_notify (p : Proc) (e : Ev) (hk : p.hook = true) : (notify p e).reg = (hookOp e).apply p.reg := by
  simp [notify, hk]

theorem truthful_step (p : Proc) (a : LAct) (ht : Truthful p) (hk : p.hook = true) (hr : p.replay = [])
    (hc : ∀ i, a ≠ .clone i) (hns : a ≠ .snap)
    (hs : ∀ i, a = .drop i → ∀ h r, p.open_.drop i = h :: r → ∀ x ∈ p.open_.take i ++ r, x.name ≠ h.name) :
    Truthful (lstep p a) := by
  have use : ∀ (i : Nat) (h h' : Hnd) (r : List Hnd) (b : Bool) (p' : Proc), p.open_.drop i = h :: r → h'.name = h.name →
      (h'.sent = true → h.sent = true ∨ b = true) → p'.open_ = p.open_.take i ++ h' :: r →
      p'.reg = (hookOp (.role h.name b)).apply p.reg → Truthful p' := by
    intro i h h' r b p' e hnm hsent ho hrg n
    have hsp := split_at e
    obtain ⟨T, hT⟩ : ∃ T, p.open_.take i = T := ⟨_, rfl⟩
    rw [hT] at hsp ho
    have hopen : HasOpen p' n ↔ HasOpen p n := by
      simp only [HasOpen, ho]; rw [hsp]
      constructor
      · rintro ⟨x, hx, h1⟩
        rcases List.mem_append.1 hx with hx | hx
        · exact ⟨x, by simp [hx], h1⟩
        · rcases List.mem_cons.1 hx with rfl | hx
          · exact ⟨h, by simp, by rw [← hnm]; exact h1⟩
          · exact ⟨x, by simp [hx], h1⟩
      · rintro ⟨x, hx, h1⟩
        rcases List.mem_append.1 hx with hx | hx
        · exact ⟨x, by simp [hx], h1⟩
        · rcases List.mem_cons.1 hx with rfl | hx
          · exact ⟨h', by simp, by rw [hnm]; exact h1⟩
          · exact ⟨x, by simp [hx], h1⟩
    have hopenh : HasOpen p h.name := ⟨h, by rw [hsp]; simp, rfl⟩
    have hsnt : HasSent p' n → HasSent p n ∨ (n = h.name ∧ b = true) := by
      rintro ⟨x, hx, hxn, hxs⟩
      rw [ho] at hx
      rcases List.mem_append.1 hx with hx | hx
      · exact Or.inl ⟨x, by rw [hsp]; simp [hx], hxn, hxs⟩
      · rcases List.mem_cons.1 hx with hx | hx
        · subst hx
          rcases hsent hxs with h1 | h1
          · exact Or.inl ⟨h, by rw [hsp]; simp, by rw [← hxn, hnm], h1⟩
          · exact Or.inr ⟨by rw [← hxn, hnm], h1⟩
        · exact Or.inl ⟨x, by rw [hsp]; simp [hx], hxn, hxs⟩
    obtain ⟨f1, f2⟩ := reg_flags p.reg (hookOp (.role h.name b)) n
    obtain ⟨t1, t2, t3⟩ := ht n
    rw [hrg, f1, f2, hopen]
    simp only [hookOp]
    refine ⟨?_, ?_, ?_⟩
    · intro hx; simp [t1 hx]
    · intro hx
      rcases hsnt hx with h1 | ⟨h1, h2⟩
      · simp [t2 h1]
      · subst h1 h2; simp [Publishes]
    · intro hx
      have hne : h.name ≠ n := by rintro rfl; exact hx hopenh
      simp only [hne, false_and, if_false]
      exact t3 hx
  cases a with
  | clone i => exact absurd rfl (hc i)
  | snap => exact absurd rfl hns
  | setHook => exact ht
  | next => simp only [lstep, hr]; exact ht
  | new n =>
    intro m
    obtain ⟨f1, f2⟩ := reg_flags p.reg (hookOp (.created n)) m
    obtain ⟨t1, t2, t3⟩ := ht m
    have hreg : (lstep p (.new n)).reg = (hookOp (.created n)).apply p.reg := flags_notify _ _ hk
    rw [hreg, f1, f2]
    have hopen : HasOpen (lstep p (.new n)) m ↔ HasOpen p m ∨ n = m := by
      show (∃ h ∈ p.open_ ++ [⟨n, false, false⟩], h.name = m) ↔ _
      constructor
      · rintro ⟨x, hx, h1⟩
        rcases List.mem_append.1 hx with hx | hx
        · exact Or.inl ⟨x, hx, h1⟩
        · simp at hx; subst hx; exact Or.inr h1
      · rintro (⟨x, hx, h1⟩ | h1)
        · exact ⟨x, by simp [hx], h1⟩
        · exact ⟨⟨n, false, false⟩, by simp, h1⟩
    have hsnt : HasSent (lstep p (.new n)) m → HasSent p m := by
      rintro ⟨x, hx, h1, h2⟩
      have hx : x ∈ p.open_ ++ [⟨n, false, false⟩] := hx
      rcases List.mem_append.1 hx with hx | hx
      · exact ⟨x, hx, h1, h2⟩
      · simp at hx; subst hx; cases h2
    rw [hopen]
    simp only [hookOp, Subscribes, Publishes]
    refine ⟨?_, ?_, ?_⟩
    · rintro (hx | hx)
      · simp [t1 hx]
      · simp [hx]
    · intro hx; simp [t2 (hsnt hx)]
    · intro hx
      have h1 : ¬ HasOpen p m := fun h => hx (Or.inl h)
      have h2 : n ≠ m := fun h => hx (Or.inr h)
      simp [h2, t3 h1]
  | send i =>
    simp only [lstep]; split
    · rename_i h r e
      split
      · exact ht
      · exact use i h { h with sent := true } r true _ e rfl (fun _ => Or.inr rfl) rfl (flags_notify _ _ hk)
    · exact ht
  | recv i =>
    simp only [lstep]; split
    · rename_i h r e
      split
      · exact ht
      · exact use i h { h with rcvd := true } r false _ e rfl (fun hx => Or.inl hx) rfl (flags_notify _ _ hk)
    · exact ht
  | drop i =>
    simp only [lstep]; split
    · rename_i h r e
      have hsole := hs i rfl h r e
      have hsp := split_at e
      intro m
      have hreg : (notify { p with open_ := p.open_.take i ++ r } (.dropped h.name)).reg = (hookOp (.dropped h.name)).apply p.reg := flags_notify _ _ hk
      obtain ⟨f1, f2⟩ := reg_flags p.reg (hookOp (.dropped h.name)) m
      obtain ⟨t1, t2, t3⟩ := ht m
      rw [hreg, f1, f2]
      simp only [hookOp, Subscribes, Publishes]
      by_cases em : h.name = m
      · have hno : ∀ x ∈ p.open_.take i ++ r, x.name ≠ m := by rw [← em]; exact hsole
        simp only [em, and_self, if_true]
        refine ⟨?_, ?_, ?_⟩
        · rintro ⟨x, hx, h1⟩; exact absurd h1 (hno x hx)
        · rintro ⟨x, hx, h1, _⟩; exact absurd h1 (hno x hx)
        · intro _; trivial
      · simp only [em, false_and, if_false]
        have hmem : ∀ x, x ∈ p.open_.take i ++ r → x ∈ p.open_ := by
          intro x hx
          rw [split_mem e]
          rcases List.mem_append.1 hx with hx | hx <;> simp [hx]
        refine ⟨?_, ?_, ?_⟩
        · rintro ⟨x, hx, h1⟩; exact t1 ⟨x, hmem x hx, h1⟩
        · rintro ⟨x, hx, h1, h2⟩; exact t2 ⟨x, hmem x hx, h1, h2⟩
        · intro hx
          apply t3
          rintro ⟨x, hx2, h1⟩
          apply hx
          refine ⟨x, ?_, h1⟩
          show x ∈ p.open_.take i ++ r
          have hx2 : x ∈ p.open_.take i ++ h :: r := (split_mem e x).1 hx2
          rcases List.mem_append.1 hx2 with h3 | h3
          · simp [h3]
          · rcases List.mem_cons.1 h3 with rfl | h3
            · exact absurd h1 em
            · simp [h3]
    · exact ht

/-- **A network that runs keeps the truth**, as long as no handle is cloned and a handle is dropped only when it is the
last on its topic.

Missing: a handle dropped while another is open on the topic (`open_topic_forgotten`). -/
theorem truth_kept_partial (before as : List LAct) (hc : NoClone (before ++ as)) (hb : ∀ a ∈ before, a ≠ .setHook)
    (hn : LAct.snap ∉ as) (hs : SoleDrops (installed (lrun {} before)) as) :
    Truthful (lrun (installed (lrun {} before)) as) := by
  have h0 := late_start_partial before (fun i h => hc i (by simp [h])) hb
  have hin : (installed (lrun {} before)).hook = true ∧ (installed (lrun {} before)).replay = [] := by
    simp only [installed]
    rw [replay_all]
    refine ⟨?_, rfl⟩
    simp [lstep]
  have hca : NoClone as := fun i h => hc i (by simp [h])
  generalize installed (lrun {} before) = p at h0 hin hs ⊢
  clear hc hb
  induction as generalizing p with
  | nil => exact h0
  | cons a as ih =>
    have hk : ∀ q : Proc, q.hook = true → q.replay = [] → a ≠ .snap → (lstep q a).hook = true ∧ (lstep q a).replay = [] := by
      intro q h1 h2 h3
      cases a with
      | snap => exact absurd rfl h3
      | new n => exact ⟨h1, h2⟩
      | clone i => simp only [lstep]; split <;> exact ⟨h1, h2⟩
      | send i =>
        simp only [lstep]; split
        · split <;> exact ⟨h1, h2⟩
        · exact ⟨h1, h2⟩
      | recv i =>
        simp only [lstep]; split
        · split <;> exact ⟨h1, h2⟩
        · exact ⟨h1, h2⟩
      | drop i => simp only [lstep]; split <;> exact ⟨h1, h2⟩
      | setHook => exact ⟨rfl, h2⟩
      | next => simp only [lstep, h2]; exact ⟨h1, trivial⟩
    have hns : a ≠ .snap := by rintro rfl; exact hn (by simp)
    refine ih (fun h => hn (by simp [h])) (fun i h => hca i (by simp [h])) (lstep p a) ?_ (hk p hin.1 hin.2 hns) ?_
    · refine truthful_step p a h0 hin.1 hin.2 (fun i e => hca i (by simp [e])) hns ?_
      intro i e
      subst e
      exact hs.1
    · cases a <;> first | exact hs | exact hs.2

/-- Consequence for safety: on such histories a remote peer is never let write to a topic that an open handle of this
process publishes. -/
theorem own_commands_safe_partial (before as : List LAct) (hc : NoClone (before ++ as)) (hb : ∀ a ∈ before, a ≠ .setHook)
    (hn : LAct.snap ∉ as) (hs : SoleDrops (installed (lrun {} before)) as) (t : Bytes) (hsys : ¬ SystemName t)
    (hsent : HasSent (lrun (installed (lrun {} before)) as) t) :
    allowImport .auto (some (lrun (installed (lrun {} before)) as).reg) t = false := by
  have h := (truth_kept_partial before as hc hb hn hs t).2.1 hsent
  rw [← Bool.not_eq_true, import_allowed_iff]
  simp [hsys, h]

/-- Non-vacuity: two nodes open and use two topics, networking starts, one topic is closed and reopened. -/
example : let p := lrun (installed (lrun {} [.new [97], .send 0, .new [98], .recv 1])) [.drop 1, .new [98], .recv 1]
    hasPublishers p.reg [97] = true ∧ hasSubscribers p.reg [98] = true ∧ hasPublishers p.reg [98] = false := by decide

/-- **An open topic is forgotten.** Two handles are open on a topic and one is dropped: the registry forgets the topic,
although the other handle still uses it — and does not learn of it again, since its directions have been reported. -/
theorem open_topic_forgotten (n : Bytes) (k : Nat) :
    let p := lrun (installed (lrun {} [.new n, .recv 0, .new n])) (.drop 1 :: List.replicate k (.recv 0))
    HasOpen p n ∧ hasSubscribers p.reg n = false := by
  have h0 : lrun (installed (lrun {} [.new n, .recv 0, .new n])) [.drop 1] =
      { open_ := [⟨n, false, true⟩], live := [(n, ⟨1, false, true⟩)], hook := true, replay := [], reg := [] } := by
    simp [lrun, installed, lstep, notify, record, Map.set, Map.get, Map.del, hookOp, replayOf, RegOp.apply, register, unregister, Role.merge, Role.remove, List.replicate]
  have h1 : ∀ k, lrun { open_ := [⟨n, false, true⟩], live := [(n, ⟨1, false, true⟩)], hook := true, replay := [], reg := [] } (List.replicate k (.recv 0)) =
      { open_ := [⟨n, false, true⟩], live := [(n, ⟨1, false, true⟩)], hook := true, replay := [], reg := [] } := by
    intro k
    induction k with
    | zero => rfl
    | succ k ih => rw [List.replicate_succ]; exact ih
  have h2 : lrun (installed (lrun {} [.new n, .recv 0, .new n])) (.drop 1 :: List.replicate k (.recv 0)) =
      { open_ := [⟨n, false, true⟩], live := [(n, ⟨1, false, true⟩)], hook := true, replay := [], reg := [] } := by
    rw [← h1 k, ← h0]; rfl
  dsimp only
  rw [h2]
  exact ⟨⟨_, List.mem_singleton_self _, rfl⟩, rfl⟩

/-- **A remote peer may overwrite this robot's own commands.** A node publishes a topic; another handle on it is opened
and dropped, and one more is opened. The publishing handle is still open and publishing, yet the guard now admits remote
writes to the topic. -/
theorem own_commands_overwritten (n : Bytes) (hs : ¬ SystemName n) :
    let p := lrun (installed (lrun {} [.new n, .send 0])) [.new n, .drop 1, .new n, .send 0]
    HasSent p n ∧ allowImport .auto (some p.reg) n = true := by
  have h0 : lrun (installed (lrun {} [.new n, .send 0])) [.new n, .drop 1, .new n, .send 0] =
      { open_ := [⟨n, true, false⟩, ⟨n, false, false⟩], live := [(n, ⟨2, true, false⟩)], hook := true, replay := [], reg := [(n, .subscriber)] } := by
    simp [lrun, installed, lstep, notify, record, Map.set, Map.get, Map.del, hookOp, replayOf, RegOp.apply, register, unregister, Role.merge, Role.remove, List.replicate]
  dsimp only
  rw [h0]
  refine ⟨⟨_, List.mem_cons_self, rfl, rfl⟩, ?_⟩
  rw [import_allowed_iff]
  simp [hs, hasSubscribers, hasPublishers, Map.get]

/-- A clone is not counted: when it is dropped before networking starts, the topic is not announced, although the handle
it was cloned from is open. -/
theorem clone_forgotten (n : Bytes) :
    let p := installed (lrun {} [.new n, .clone 0, .drop 1])
    HasOpen p n ∧ hasSubscribers p.reg n = false := by
  have h0 : installed (lrun {} [.new n, .clone 0, .drop 1]) = { open_ := [⟨n, false, false⟩], live := [], hook := true, replay := [], reg := [] } := by
    simp [lrun, installed, lstep, notify, record, Map.set, Map.get, Map.del]
  dsimp only
  rw [h0]
  exact ⟨⟨_, List.mem_singleton_self _, rfl⟩, rfl⟩

/-- A topic dropped by another thread while the hook is being installed stays registered although nobody has it open. -/
theorem ghost_topic (n : Bytes) :
    let p := lrun {} [.new n, .setHook, .snap, .drop 0, .next]
    ¬ HasOpen p n ∧ hasSubscribers p.reg n = true := by
  have h0 : lrun {} [.new n, .setHook, .snap, .drop 0, .next] = { open_ := [], live := [], hook := true, replay := [], reg := [(n, .subscriber)] } := by
    simp [lrun, lstep, notify, record, Map.set, Map.get, Map.del, hookOp, replayOf, RegOp.apply, register, unregister]
  dsimp only
  rw [h0]
  exact ⟨by simp [HasOpen], by simp [hasSubscribers, Map.get]⟩

end Horus.Guard
