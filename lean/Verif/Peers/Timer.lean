import Verif.Peers.Props
/-
The replicator's timer: link supervision and discovery together. Source: /repo/horus_net/src/replicator.rs:316-359
(announcements and heartbeats received), 690-804 (handle_timer: heartbeat check first, then, once a second, discovery),
/repo/horus_net/src/heartbeat.rs:27-36 (LinkLostAction::from_str). Builds on Verif/Peers/Model.lean.
-/
namespace Horus.Peers

/-! ### The model -/

/-- replicator.rs:41, 690-778: the node and the time of its last discovery round, in ns. -/
structure Net where
  node : Node
  lastDisc : Nat

/-- What reaches the replicator. -/
inductive NEv
  | announce (a : Announcement) (t : Nat)
  | heartbeat (p : PeerId) (t : Nat)
  | timer (t : Nat)

/-- replicator.rs:776: `DISCOVERY_INTERVAL` is one second. -/
abbrev DISC : Nat := 1000000000

/-- One event: announcements (replicator.rs:334-335), heartbeats (354-358), the timer (718-804). -/
def Net.step (n : Net) : NEv → Net
  | .announce a t => { n with node := n.node.onAnnouncement a t }
  | .heartbeat p t => { n with node := { n.node with hb := n.node.hb.onReceived p t } }
  | .timer t =>
    let node : Node := { n.node with hb := (n.node.hb.tick t).1 }
    if t - n.lastDisc ≥ DISC then ⟨node.onDiscoveryTimer t, t⟩ else { n with node := node }

/-- The peers for which the configured action is taken on an event (replicator.rs:718-743): only the timer takes it. -/
def Net.acts (n : Net) : NEv → List PeerId
  | .timer t => n.node.hb.reports t
  | _ => []

def Net.run (n : Net) (evs : List NEv) : Net := evs.foldl Net.step n

/-- heartbeat.rs:17-25 `LinkLostAction`. -/
inductive Action
  | warn
  | safeState
  | stop
deriving DecidableEq

/-- heartbeat.rs:29-35 `from_str`. -/
def Action.fromStr (s : String) : Action :=
  let l := s.map Char.toLower
  if l = "safe_state" ∨ l = "safestate" then .safeState else if l = "stop" then .stop else .warn

/-! ### C216 -/

/-- Nothing more is heard from the peer. -/
def NSilent (p : PeerId) : NEv → Prop
  | .announce a _ => a.peerId ≠ p
  | .heartbeat q _ => q ≠ p
  | .timer _ => True

def Net.Ok (n : Net) : Prop := Map.Ok n.node.table.peers ∧ Map.Ok n.node.hb.peers

theorem ok_foldl_remove (l : List PeerId) : ∀ (h : Heartbeat), Map.Ok h.peers → Map.Ok (l.foldl Heartbeat.removePeer h).peers := by
  induction l with
  | nil => intro h hk; exact hk
  | cons p l ih => intro h hk; rw [List.foldl_cons]; exact ih _ (apply_ok h hk (.remove p 0))

theorem step_ok (n : Net) (h : n.Ok) (e : NEv) : (n.step e).Ok := by
  cases e with
  | announce a t => exact ⟨papply_ok _ h.1 (.announce a t), apply_ok _ h.2 (.add a.peerId a.sourceAddr t)⟩
  | heartbeat p t => exact ⟨h.1, apply_ok _ h.2 (.recv p t)⟩
  | timer t =>
    have h2 : Map.Ok (n.node.hb.tick t).1.peers := apply_ok _ h.2 (.tick t)
    unfold Net.step
    dsimp only
    split
    · unfold Node.onDiscoveryTimer
      dsimp only
      split
      · exact ⟨papply_ok _ h.1 (.check t), h2⟩
      · exact ⟨papply_ok _ (papply_ok _ h.1 (.check t)) .purge, ok_foldl_remove _ _ h2⟩
    · exact ⟨h.1, h2⟩

theorem run_ok' (evs : List NEv) : ∀ (n : Net), n.Ok → (n.run evs).Ok := by
  induction evs with
  | nil => intro n h; exact h
  | cons e evs ih => intro n h; exact ih _ (step_ok n h e)

theorem cfg_foldl_remove (l : List PeerId) : ∀ (h : Heartbeat), (l.foldl Heartbeat.removePeer h).interval = h.interval ∧ (l.foldl Heartbeat.removePeer h).threshold = h.threshold := by
  induction l with
  | nil => intro h; exact ⟨rfl, rfl⟩
  | cons p l ih => intro h; rw [List.foldl_cons]; exact ih _

theorem step_cfg (n : Net) (e : NEv) : (n.step e).node.hb.interval = n.node.hb.interval ∧ (n.step e).node.hb.threshold = n.node.hb.threshold ∧
    (n.step e).node.table.missThreshold = n.node.table.missThreshold := by
  cases e with
  | announce a t =>
    obtain ⟨h1, h2⟩ := apply_cfg n.node.hb (.add a.peerId a.sourceAddr t)
    refine ⟨h1, h2, ?_⟩
    unfold Net.step Node.onAnnouncement PeerTable.updatePeer
    dsimp only
    split
    · rfl
    · split
      · split <;> rfl
      · rfl
  | heartbeat p t =>
    obtain ⟨h1, h2⟩ := apply_cfg n.node.hb (.recv p t)
    exact ⟨h1, h2, rfl⟩
  | timer t =>
    unfold Net.step
    dsimp only
    split
    · unfold Node.onDiscoveryTimer
      dsimp only
      split
      · exact ⟨rfl, rfl, rfl⟩
      · obtain ⟨h1, h2⟩ := cfg_foldl_remove ((n.node.table.checkLiveness t).2) (n.node.hb.tick t).1
        exact ⟨h1, h2, rfl⟩
    · exact ⟨rfl, rfl, rfl⟩

/-- What the timer does about one peer: the check, and the removal when discovery is due and has not heard of it. -/
theorem timer_peer (n : Net) (hok : n.Ok) (t : Nat) (p : PeerId) (s : HbState) (i : PeerInfo)
    (hs : Map.get n.node.hb.peers p = some s) (hi : Map.get n.node.table.peers p = some i) (ha : i.alive = true) :
    (t - n.lastDisc ≥ DISC ∧ i.lastSeen + n.node.table.missThreshold * DISC < t → Map.get (n.step (.timer t)).node.hb.peers p = none) ∧
    (¬ (t - n.lastDisc ≥ DISC ∧ i.lastSeen + n.node.table.missThreshold * DISC < t) →
      Map.get (n.step (.timer t)).node.hb.peers p = some (s.tick n.node.hb.interval n.node.hb.threshold t).1 ∧
      Map.get (n.step (.timer t)).node.table.peers p = some i) := by
  have hg : Map.get (n.node.hb.tick t).1.peers p = some (s.tick n.node.hb.interval n.node.hb.threshold t).1 := by rw [get_tick, hs]; rfl
  have hd := discovery_timer_exact ⟨n.node.table, (n.node.hb.tick t).1⟩ hok.1 t p
  have hl := liveness_exact n.node.table hok.1 t p
  unfold Net.step
  dsimp only at hd ⊢
  by_cases hdue : t - n.lastDisc ≥ DISC
  · rw [if_pos hdue]
    dsimp only
    by_cases hgone : i.lastSeen + n.node.table.missThreshold * DISC < t
    · exact ⟨fun _ => (hd.1 ⟨i, hi, ha, hgone⟩).2, fun h => absurd ⟨hdue, hgone⟩ h⟩
    · refine ⟨fun h => absurd h.2 hgone, fun _ => ?_⟩
      have hng : ¬ ∃ i, Map.get n.node.table.peers p = some i ∧ i.alive = true ∧ i.lastSeen + n.node.table.missThreshold * 1000000000 < t := by
        rintro ⟨j, hj, _, hlt⟩
        rw [hi] at hj
        cases hj
        exact hgone hlt
      refine ⟨by rw [hd.2 hng]; exact hg, ?_⟩
      have hnm : p ∉ (n.node.table.checkLiveness t).2 := fun h => hng (hl.1.mp h)
      have h2 := hl.2
      rw [if_neg hnm, hi] at h2
      unfold Node.onDiscoveryTimer
      dsimp only
      split
      · have hm : Map.get (n.node.table.checkLiveness t).1.peers p =
            (Map.get n.node.table.peers p).map (fun i => if i.stale n.node.table.timeout t then { i with alive := false } else i) :=
          Map.get_mapVal n.node.table.peers (fun i => if i.stale n.node.table.timeout t then { i with alive := false } else i) p
        rw [hm, hi]
        have hst : i.stale n.node.table.timeout t = false := by
          unfold PeerInfo.stale PeerTable.timeout
          rw [ha, Bool.true_and, decide_eq_false_iff_not]
          have hd' : DISC = 1000000000 := rfl
          rw [hd'] at hgone
          clear hng hnm hd
          omega
        simp [hst]
      · rw [h2]; simp [Option.filter, ha]
  · rw [if_neg hdue]
    exact ⟨fun h => absurd h.1 hdue, fun _ => ⟨hg, hi⟩⟩

theorem count_small {iv th since : Nat} (hiv : 0 < iv) (hth : 2 ≤ th) (h : since < th * iv) : ¬ expectedCount iv since ≥ th := by
  intro he
  unfold expectedCount at he
  have h2 : since / max iv 1 < th := by
    rw [Nat.max_eq_left (by omega : 1 ≤ iv), Nat.div_lt_iff_lt_mul hiv]; omega
  have h1 : th ≤ max (since / max iv 1) 1 := Nat.le_trans he (Nat.mod_le _ _)
  omega

/-- Until its missed beats count, a silent peer is either watched unchanged or already forgotten. -/
def Watched (p : PeerId) (tr ta : Nat) (n : Net) : Prop :=
  ∃ s i, Map.get n.node.hb.peers p = some s ∧ s.lastReceived = tr ∧ s.everReceived = true ∧ s.linkAlive = true ∧ s.actionFired = false ∧
    Map.get n.node.table.peers p = some i ∧ i.alive = true ∧ i.lastSeen = ta

theorem watched_step (p : PeerId) (tr ta : Nat) (n : Net) (hok : n.Ok) (e : NEv) (hsil : NSilent p e) (hw : Watched p tr ta n)
    (hiv : 0 < n.node.hb.interval) (hth : 2 ≤ n.node.hb.threshold)
    (hearly : ∀ t, e = .timer t → t < tr + n.node.hb.threshold * n.node.hb.interval) :
    p ∉ n.acts e ∧ (Watched p tr ta (n.step e) ∨ Map.get (n.step e).node.hb.peers p = none) ∧
    ((∀ t, e = .timer t → ¬ (t - n.lastDisc ≥ DISC ∧ ta + n.node.table.missThreshold * DISC < t)) → Watched p tr ta (n.step e)) ∧
    ((∃ t, e = .timer t ∧ t - n.lastDisc ≥ DISC ∧ ta + n.node.table.missThreshold * DISC < t) → Map.get (n.step e).node.hb.peers p = none) := by
  obtain ⟨s, i, h1, h2, h3, h4, h5, h6, h7, h8⟩ := hw
  cases e with
  | announce a t =>
    have hne : a.peerId ≠ p := hsil
    have g1 : Map.get (n.node.hb.addPeer a.peerId a.sourceAddr t).peers p = some s := by
      have := get_apply n.node.hb (.add a.peerId a.sourceAddr t) p
      dsimp only at this
      rw [if_neg (fun h => hne h.1), h1] at this
      exact this
    have g2 := announce_keeps_live n.node.table hok.1 a t p i h6 h7 (fun h => hne h.symm)
    have w : Watched p tr ta (n.step (.announce a t)) := ⟨s, i, g1, h2, h3, h4, h5, g2, h7, h8⟩
    refine ⟨by simp [Net.acts], Or.inl w, fun _ => w, ?_⟩
    rintro ⟨_, h, _⟩
    cases h
  | heartbeat q t =>
    have hne : q ≠ p := hsil
    have g1 : Map.get (n.node.hb.onReceived q t).peers p = some s := by
      have := get_apply n.node.hb (.recv q t) p
      dsimp only at this
      rw [if_neg hne, h1] at this
      exact this
    have w : Watched p tr ta (n.step (.heartbeat q t)) := ⟨s, i, g1, h2, h3, h4, h5, h6, h7, h8⟩
    refine ⟨by simp [Net.acts], Or.inl w, fun _ => w, ?_⟩
    rintro ⟨_, h, _⟩
    cases h
  | timer t =>
    have hlt := hearly t rfl
    have hcnt : ¬ expectedCount n.node.hb.interval (t - s.lastReceived) ≥ n.node.hb.threshold := by
      rw [h2]
      have : 0 < n.node.hb.threshold * n.node.hb.interval := Nat.mul_pos (by omega) hiv
      exact count_small hiv hth (by omega)
    have hrep : p ∉ n.node.hb.reports t := by
      rw [mem_reports _ hok.2]
      rintro ⟨s', hs', hr⟩
      rw [h1] at hs'
      cases hs'
      rw [tick_report_iff] at hr
      exact hcnt hr.2.1
    obtain ⟨t1, t2⟩ := timer_peer n hok t p s i h1 h6 h7
    have hstay : ¬ (t - n.lastDisc ≥ DISC ∧ i.lastSeen + n.node.table.missThreshold * DISC < t) → Watched p tr ta (n.step (.timer t)) := by
      intro hng
      obtain ⟨k1, k2⟩ := t2 hng
      obtain ⟨f1, _, f3⟩ := tick_fields n.node.hb.interval n.node.hb.threshold s t
      refine ⟨_, i, k1, by rw [f1, h2], by rw [f3, h3], ?_, ?_, k2, h7, h8⟩
      · rw [tick_alive, h4, decide_eq_false hcnt]; simp
      · rw [tick_fired, h5, decide_eq_false hcnt]; simp
    refine ⟨hrep, ?_, fun h => hstay (by rw [h8]; exact h t rfl), ?_⟩
    · by_cases hg : t - n.lastDisc ≥ DISC ∧ i.lastSeen + n.node.table.missThreshold * DISC < t
      · exact Or.inr (t1 hg)
      · exact Or.inl (hstay hg)
    · rintro ⟨t', ht', hd, hg⟩
      cases ht'
      exact t1 ⟨hd, by rw [h8]; exact hg⟩

/-- A forgotten peer stays forgotten, and no action is taken for it. -/
theorem forgotten_step (p : PeerId) (n : Net) (hok : n.Ok) (e : NEv) (hsil : NSilent p e) (hn : Map.get n.node.hb.peers p = none) :
    p ∉ n.acts e ∧ Map.get (n.step e).node.hb.peers p = none := by
  cases e with
  | announce a t =>
    have hne : a.peerId ≠ p := hsil
    refine ⟨by simp [Net.acts], ?_⟩
    have := get_apply n.node.hb (.add a.peerId a.sourceAddr t) p
    dsimp only at this
    rw [if_neg (fun h => hne h.1), hn] at this
    exact this
  | heartbeat q t =>
    have hne : q ≠ p := hsil
    refine ⟨by simp [Net.acts], ?_⟩
    have := get_apply n.node.hb (.recv q t) p
    dsimp only at this
    rw [if_neg hne, hn] at this
    exact this
  | timer t =>
    refine ⟨?_, ?_⟩
    · show p ∉ n.node.hb.reports t
      rw [mem_reports _ hok.2]
      rintro ⟨s, hs, _⟩
      rw [hn] at hs; cases hs
    · have hg : Map.get (n.node.hb.tick t).1.peers p = none := by rw [get_tick, hn]; rfl
      unfold Net.step
      dsimp only
      split
      · unfold Node.onDiscoveryTimer
        dsimp only
        split
        · exact hg
        · have : ∀ (l : List PeerId) (h : Heartbeat), Map.get h.peers p = none → Map.get (l.foldl Heartbeat.removePeer h).peers p = none := by
            intro l
            induction l with
            | nil => intro h hh; exact hh
            | cons q l ih =>
              intro h hh
              rw [List.foldl_cons]
              refine ih _ ?_
              have := get_apply h (.remove q 0) p
              dsimp only at this
              rw [hh, ite_self] at this
              exact this
          exact this _ _ hg
      · exact hg

theorem forgotten_run (p : PeerId) : ∀ (evs : List NEv) (n : Net), n.Ok → (∀ e ∈ evs, NSilent p e) → Map.get n.node.hb.peers p = none →
    ∀ pre e post, evs = pre ++ e :: post → p ∉ (n.run pre).acts e := by
  intro evs
  induction evs with
  | nil => intro n _ _ _ pre e post h; exact absurd h (by simp)
  | cons a evs ih =>
    intro n hok hsil hn pre e post h
    obtain ⟨k1, k2⟩ := forgotten_step p n hok a (hsil a List.mem_cons_self) hn
    cases pre with
    | nil => cases h; exact k1
    | cons b pre =>
      cases h
      exact ih (n.step a) (step_ok n hok a) (fun e he => hsil e (List.mem_cons_of_mem _ he)) k2 pre e post rfl

/-- The state of a peer that was heard, and the run up to the time its missed beats would count. -/
theorem watched_run (p : PeerId) (tr ta : Nat) : ∀ (evs : List NEv) (n : Net), n.Ok → (∀ e ∈ evs, NSilent p e) → Watched p tr ta n →
    0 < n.node.hb.interval → 2 ≤ n.node.hb.threshold → (∀ t, .timer t ∈ evs → t < tr + n.node.hb.threshold * n.node.hb.interval) →
    (Watched p tr ta (n.run evs) ∨ Map.get (n.run evs).node.hb.peers p = none) ∧
    ((∀ t, .timer t ∈ evs → t ≤ ta + n.node.table.missThreshold * DISC) → Watched p tr ta (n.run evs)) ∧
    ∀ pre e post, evs = pre ++ e :: post → p ∉ (n.run pre).acts e := by
  intro evs
  induction evs with
  | nil => intro n _ _ hw _ _ _; exact ⟨Or.inl hw, fun _ => hw, fun pre e post h => absurd h (by simp)⟩
  | cons a evs ih =>
    intro n hok hsil hw hiv hth hearly
    obtain ⟨k1, k2, k3, _⟩ := watched_step p tr ta n hok a (hsil a List.mem_cons_self) hw hiv hth (fun t h => hearly t (by rw [h]; exact List.mem_cons_self))
    obtain ⟨c1, c2, c3⟩ := step_cfg n a
    have hsil' : ∀ e ∈ evs, NSilent p e := fun e he => hsil e (List.mem_cons_of_mem _ he)
    have hok' := step_ok n hok a
    rcases k2 with hw' | hn'
    · have hi := ih (n.step a) hok' hsil' hw' (by rw [c1]; exact hiv) (by rw [c2]; exact hth)
        (fun t h => by rw [c1, c2]; exact hearly t (List.mem_cons_of_mem _ h))
      obtain ⟨i1, i2, i3⟩ := hi
      refine ⟨i1, fun h => i2 fun t ht => by rw [c3]; exact h t (List.mem_cons_of_mem _ ht), ?_⟩
      intro pre e post h
      cases pre with
      | nil => cases h; exact k1
      | cons b pre => cases h; exact i3 pre e post rfl
    · refine ⟨Or.inr ?_, ?_, ?_⟩
      · have : ∀ (evs : List NEv) (n : Net), n.Ok → (∀ e ∈ evs, NSilent p e) → Map.get n.node.hb.peers p = none → Map.get (n.run evs).node.hb.peers p = none := by
          intro evs
          induction evs with
          | nil => intro n _ _ h; exact h
          | cons a evs ih => intro n hok hs h; exact ih _ (step_ok n hok a) (fun e he => hs e (List.mem_cons_of_mem _ he)) (forgotten_step p n hok a (hs a List.mem_cons_self) h).2
        exact this evs _ hok' hsil' hn'
      · intro h
        have hw' := k3 (fun t ht hc => by have := h t (by rw [ht]; exact List.mem_cons_self); omega)
        obtain ⟨s, _, hs, _⟩ := hw'
        rw [hn'] at hs; cases hs
      · intro pre e post h
        cases pre with
        | nil => cases h; exact k1
        | cons b pre => cases h; exact forgotten_run p (pre ++ e :: post) (n.step a) hok' hsil' hn' pre e post rfl

/-- A peer that falls silent is acted on by the first timer run `threshold × interval` after its last heartbeat, provided
discovery has not timed it out before. -/
theorem acted_on (n : Net) (hok : n.Ok) (p : PeerId) (tr ta t : Nat) (mid : List NEv) (hw : Watched p tr ta n) (hsil : ∀ e ∈ mid, NSilent p e)
    (hiv : 0 < n.node.hb.interval) (hth : 2 ≤ n.node.hb.threshold)
    (hearly : ∀ t', .timer t' ∈ mid → t' < tr + n.node.hb.threshold * n.node.hb.interval ∧ t' ≤ ta + n.node.table.missThreshold * DISC)
    (hlate : tr + n.node.hb.threshold * n.node.hb.interval ≤ t) (hwrap : t < tr + 2 ^ 32 * n.node.hb.interval) :
    p ∈ (n.run mid).acts (.timer t) := by
  obtain ⟨_, h2, _⟩ := watched_run p tr ta mid n hok hsil hw hiv hth (fun t ht => (hearly t ht).1)
  obtain ⟨s, i, g1, g2, g3, g4, g5, _⟩ := h2 fun t ht => (hearly t ht).2
  have hcfg : ∀ (evs : List NEv) (n : Net), (n.run evs).node.hb.interval = n.node.hb.interval ∧ (n.run evs).node.hb.threshold = n.node.hb.threshold := by
    intro evs
    induction evs with
    | nil => intro n; exact ⟨rfl, rfl⟩
    | cons e evs ih =>
      intro n
      obtain ⟨a, b⟩ := ih (n.step e)
      obtain ⟨c, d, _⟩ := step_cfg n e
      exact ⟨a.trans c, b.trans d⟩
  obtain ⟨c1, c2⟩ := hcfg mid n
  show p ∈ (n.run mid).node.hb.reports t
  rw [mem_reports _ (run_ok' mid n hok).2]
  refine ⟨s, g1, ?_⟩
  rw [tick_report_iff, c1, c2]
  refine ⟨by simp [HbState.introduced, g3], ?_, g4, g5⟩
  unfold expectedCount
  rw [g2, Nat.max_eq_left (by omega : 1 ≤ n.node.hb.interval)]
  have hlo : n.node.hb.threshold ≤ (t - tr) / n.node.hb.interval := (Nat.le_div_iff_mul_le hiv).mpr (by omega)
  have hhi : (t - tr) / n.node.hb.interval < 2 ^ 32 := by rw [Nat.div_lt_iff_lt_mul hiv]; omega
  rw [Nat.max_eq_left (by omega), Nat.mod_eq_of_lt hhi]
  exact hlo

/-- If discovery times the peer out first, it is forgotten and the configured action is never taken for it. -/
theorem never_acted_on (n : Net) (hok : n.Ok) (p : PeerId) (tr ta td : Nat) (before after : List NEv) (hw : Watched p tr ta n)
    (hsil : ∀ e ∈ before ++ .timer td :: after, NSilent p e) (hiv : 0 < n.node.hb.interval) (hth : 2 ≤ n.node.hb.threshold)
    (hearly : ∀ t, .timer t ∈ before ++ [.timer td] → t < tr + n.node.hb.threshold * n.node.hb.interval)
    (hdue : td - (n.run before).lastDisc ≥ DISC) (hgone : ta + n.node.table.missThreshold * DISC < td) :
    ∀ pre e post, before ++ .timer td :: after = pre ++ e :: post → p ∉ (n.run pre).acts e := by
  have hcfg : ∀ (evs : List NEv) (n : Net), (n.run evs).node.hb.interval = n.node.hb.interval ∧ (n.run evs).node.hb.threshold = n.node.hb.threshold ∧
      (n.run evs).node.table.missThreshold = n.node.table.missThreshold := by
    intro evs
    induction evs with
    | nil => intro n; exact ⟨rfl, rfl, rfl⟩
    | cons e evs ih =>
      intro n
      obtain ⟨a, b, b'⟩ := ih (n.step e)
      obtain ⟨c, d, d'⟩ := step_cfg n e
      exact ⟨a.trans c, b.trans d, b'.trans d'⟩
  obtain ⟨c1, c2, c3⟩ := hcfg before n
  have hsb : ∀ e ∈ before, NSilent p e := fun e he => hsil e (List.mem_append_left _ he)
  have hsa : ∀ e ∈ after, NSilent p e := fun e he => hsil e (List.mem_append_right _ (List.mem_cons_of_mem _ he))
  obtain ⟨r1, _, r3⟩ := watched_run p tr ta before n hok hsb hw hiv hth (fun t ht => hearly t (List.mem_append_left _ ht))
  have hokb := run_ok' before n hok
  have hstep : p ∉ (n.run before).acts (.timer td) ∧ Map.get ((n.run before).step (.timer td)).node.hb.peers p = none := by
    rcases r1 with hw' | hn'
    · obtain ⟨k1, _, _, k4⟩ := watched_step p tr ta (n.run before) hokb (.timer td) trivial hw' (by rw [c1]; exact hiv) (by rw [c2]; exact hth)
        (fun t h => by cases h; rw [c1, c2]; exact hearly td (by simp))
      exact ⟨k1, k4 ⟨td, rfl, hdue, by rw [c3]; exact hgone⟩⟩
    · exact forgotten_step p _ hokb _ trivial hn'
  intro pre e post heq
  rcases List.append_eq_append_iff.mp heq with ⟨as, h1, h2⟩ | ⟨bs, h1, h2⟩
  · cases as with
    | nil =>
      rw [List.nil_append] at h2
      rw [List.append_nil] at h1
      cases h2
      rw [h1]; exact hstep.1
    | cons a as =>
      rw [List.cons_append] at h2
      have h2a := (List.cons.inj h2).1
      have h2b := (List.cons.inj h2).2
      rw [h1, ← h2a]
      have : n.run (before ++ .timer td :: as) = ((n.run before).step (.timer td)).run as := by
        simp [Net.run, List.foldl_append]
      rw [this]
      exact forgotten_run p after _ (step_ok _ hokb _) hsa hstep.2 as e post h2b
  · cases bs with
    | nil =>
      rw [List.nil_append] at h2
      rw [List.append_nil] at h1
      cases h2
      rw [← h1]; exact hstep.1
    | cons b bs =>
      rw [List.cons_append] at h2
      have h2a := (List.cons.inj h2).1
      rw [h2a]
      refine r3 pre b bs h1

/-- The action is anything but a warning only for three spellings; every other text, misspelt or not, means warn. -/
theorem action_exact (s : String) :
    (Action.fromStr s = .safeState ↔ s.map Char.toLower = "safe_state" ∨ s.map Char.toLower = "safestate") ∧
    (Action.fromStr s = .stop ↔ s.map Char.toLower = "stop") := by
  unfold Action.fromStr
  dsimp only
  generalize s.map Char.toLower = l
  by_cases h1 : l = "safe_state" ∨ l = "safestate"
  · rw [if_pos h1]
    refine ⟨⟨fun _ => h1, fun _ => rfl⟩, ⟨fun h => (nomatch h), ?_⟩⟩
    rintro rfl
    exact absurd h1 (by decide)
  · rw [if_neg h1]
    by_cases h2 : l = "stop"
    · rw [if_pos h2]; exact ⟨⟨fun h => (nomatch h), fun h => absurd h h1⟩, ⟨fun _ => h2, fun _ => rfl⟩⟩
    · rw [if_neg h2]; exact ⟨⟨fun h => (nomatch h), fun h => absurd h h1⟩, ⟨fun h => (nomatch h), fun h => absurd h h2⟩⟩

theorem misspelt_action : Action.fromStr "estop" = .warn ∧ Action.fromStr "safe-state" = .warn ∧ Action.fromStr "STOP" = .stop := by decide +kernel

/-! ### The hypotheses are met -/

/-- Peer 7, last announcement and heartbeat at 10 s, watched with the given settings. -/
def watching (interval threshold : Nat) : Net :=
  ⟨⟨⟨3, [(7, ⟨1, 9000, [], 10000000000, true⟩)]⟩, ⟨interval, threshold, [(7, ⟨1, 10000000000, 10000000000, 0, 9000000000, true, true, false⟩)]⟩⟩, 10000000000⟩

theorem watching_ok (i th : Nat) : (watching i th).Ok := by
  constructor <;> exact List.nodup_singleton _

theorem watching_watched (i th : Nat) : Watched 7 10000000000 10000000000 (watching i th) := ⟨_, _, rfl, rfl, rfl, rfl, rfl, rfl, rfl, rfl⟩

/-- Default settings: acted on 150 ms after the last heartbeat. -/
example : 7 ∈ ((watching 50000000 3).run [.timer 10050000000, .timer 10100000000]).acts (.timer 10150000000) :=
  acted_on _ (watching_ok _ _) 7 10000000000 10000000000 _ _ (watching_watched _ _) (by simp [NSilent]) (by decide) (by decide)
    (by simp [watching, DISC]) (by decide) (by decide)

/-- A heartbeat of 1 s with five misses allowed: discovery forgets the peer after 3 s, and the robot never stops. -/
theorem slow_heartbeat_never_stops (after : List NEv) (hs : ∀ e ∈ after, NSilent 7 e) :
    ∀ pre e post, [NEv.timer 11000000000, .timer 12000000000, .timer 13000000000] ++ .timer 14000000000 :: after = pre ++ e :: post →
      7 ∉ ((watching 1000000000 5).run pre).acts e := by
  refine never_acted_on (watching 1000000000 5) (watching_ok _ _) 7 10000000000 10000000000 14000000000 _ after (watching_watched _ _) ?_ (by decide) (by decide) ?_ ?_ (by decide)
  · intro e he
    simp only [List.cons_append, List.nil_append, List.mem_cons] at he
    rcases he with rfl | rfl | rfl | rfl | he
    · trivial
    · trivial
    · trivial
    · trivial
    · exact hs e he
  · simp [watching]
  · decide

end Horus.Peers
