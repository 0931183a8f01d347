import Verif.Replay.NavProps
/-
Replaying a recording in a scheduler (C94), and the file names recordings go by (C97).
-/
namespace Horus.Replay

/- C94: what replay publishes. -/

/-- The nodes the program adds itself. -/
def added : List Op → List Bytes
  | [] => []
  | .add n :: l => n :: added l
  | _ :: l => added l

/-- The nodes it replays. -/
def replayed : List Op → List Bytes
  | [] => []
  | .addReplay r :: l => r.name :: replayed l
  | _ :: l => replayed l

/-- Until it has a live node of a replayed name, a scheduler that only replays has published nothing. -/
structure Quiet (A R : List Bytes) (s : Sch) : Prop where
  live : ∀ n ∈ s.nodes, n.ctx = true → n.name ∈ A
  rep : ∀ n ∈ s.nodes, n.ctx = false → n.init = false
  reps : ∀ k, Map.has s.reps k = true → k ∈ R
  silent : s.pub = []

theorem quiet_exec {A R : List Bytes} (hAR : ∀ n ∈ A, n ∉ R) {s : Sch} (h : Quiet A R s) (env : Nat → NodeEnv) (i : Nat) :
    Quiet A R (s.exec env i) := by
  unfold Sch.exec
  cases hn : s.nodes[i]? with
  | none => exact h
  | some n =>
    have hm : n ∈ s.nodes := List.mem_of_getElem? hn
    by_cases hc : n.stopped = false ∧ n.init = true ∧ (env i).admit = true
    · simp only [hc, and_self, if_true]
      have hctx : n.ctx = true := by
        cases hq : n.ctx with
        | true => rfl
        | false => have := h.rep n hm hq; rw [hc.2.1] at this; cases this
      have hnr : Map.get s.reps n.name = none := by
        cases hq : Map.get s.reps n.name with
        | none => rfl
        | some x =>
          have : n.name ∈ R := h.reps _ (by unfold Map.has; rw [hq]; rfl)
          exact absurd this (hAR _ (h.live n hm hctx))
      have hp : s.prepare n.name = s := by unfold Sch.prepare; rw [hnr]
      rw [hp, if_pos hctx]
      exact ⟨h.live, h.rep, h.reps, h.silent⟩
    · simp only [hc, if_false]
      exact h

theorem quiet_execs {A R : List Bytes} (hAR : ∀ n ∈ A, n ∉ R) (env : Nat → NodeEnv) (order : List Nat) {s : Sch} (h : Quiet A R s) :
    Quiet A R (order.foldl (fun s i => s.exec env i) s) := by
  induction order generalizing s with
  | nil => exact h
  | cons i l ih => exact ih (quiet_exec hAR h env i)

theorem initStep_spec (n : Node) (e : NodeEnv) : (n.initStep e).name = n.name ∧ (n.initStep e).ctx = n.ctx ∧
    (n.ctx = false → (n.initStep e).init = n.init) := by
  unfold Node.initStep
  split
  · rename_i h
    exact ⟨rfl, rfl, fun hc => by rw [h.2.1] at hc; cases hc⟩
  · exact ⟨rfl, rfl, fun _ => rfl⟩

theorem quiet_init {A R : List Bytes} {s : Sch} (h : Quiet A R s) (env : Nat → NodeEnv) : Quiet A R (s.initAll env) := by
  refine ⟨?_, ?_, h.reps, h.silent⟩
  · intro n hn hc
    obtain ⟨i, hi, rfl⟩ := List.mem_mapIdx.1 hn
    have := initStep_spec s.nodes[i] (env i)
    rw [this.1]
    exact h.live _ (List.getElem_mem _) (this.2.1 ▸ hc)
  · intro n hn hc
    obtain ⟨i, hi, rfl⟩ := List.mem_mapIdx.1 hn
    have := initStep_spec s.nodes[i] (env i)
    have hc' : (s.nodes[i]).ctx = false := this.2.1 ▸ hc
    rw [this.2.2 hc']
    exact h.rep _ (List.getElem_mem _) hc'

theorem mem_modify {α : Type} {l : List α} {i : Nat} {f : α → α} {a : α} (h : a ∈ l.modify i f) : a ∈ l ∨ ∃ b ∈ l, a = f b := by
  induction l generalizing i with
  | nil => cases i <;> simp at h
  | cons x l ih =>
    cases i with
    | zero =>
      rw [List.modify_zero_cons] at h
      rcases List.mem_cons.1 h with rfl | h
      · exact Or.inr ⟨x, List.mem_cons_self, rfl⟩
      · exact Or.inl (List.mem_cons_of_mem _ h)
    | succ i =>
      rw [List.modify_succ_cons] at h
      rcases List.mem_cons.1 h with rfl | h
      · exact Or.inl List.mem_cons_self
      · rcases ih h with h | ⟨b, hb, e⟩
        · exact Or.inl (List.mem_cons_of_mem _ h)
        · exact Or.inr ⟨b, List.mem_cons_of_mem _ hb, e⟩

theorem seekAll_has (reps : Map Bytes Replayer) (t : Nat) (k : Bytes) : Map.has (seekAll reps t) k = Map.has reps k := by
  have e : ∀ (β : Type) (k0 : Bytes) (v : β) (m : Map Bytes β), (Map.get ((k0, v) :: m) k).isSome = if k0 = k then true else (Map.get m k).isSome := by
    intro β k0 v m
    by_cases h : k0 = k
    · rw [if_pos h, Map.get, if_pos h]; rfl
    · rw [if_neg h, Map.get, if_neg h]
  show (Map.get (seekAll reps t) k).isSome = (Map.get reps k).isSome
  induction reps with
  | nil => rfl
  | cons kv l ih =>
    obtain ⟨k', v⟩ := kv
    show (Map.get ((k', (v.seek t).2) :: seekAll l t) k).isSome = (Map.get ((k', v) :: l) k).isSome
    rw [e, e]
    by_cases h : k' = k
    · rw [if_pos h, if_pos h]
    · rw [if_neg h, if_neg h, ih]

theorem quiet_step {A R : List Bytes} (hAR : ∀ n ∈ A, n ∉ R) {s : Sch} (h : Quiet A R s) (op : Op)
    (ha : ∀ n ∈ added [op], n ∈ A) (hr : ∀ n ∈ replayed [op], n ∈ R) : Quiet A R (s.step op) := by
  cases op with
  | add name =>
    refine ⟨?_, ?_, h.reps, h.silent⟩
    · intro n hn hc
      rcases List.mem_append.1 hn with hn | hn
      · exact h.live n hn hc
      · simp at hn; subst hn
        exact ha name (by simp [added])
    · intro n hn hc
      rcases List.mem_append.1 hn with hn | hn
      · exact h.rep n hn hc
      · simp at hn; subst hn; cases hc
  | addReplay r =>
    unfold Sch.step
    by_cases he : r.snaps = []
    · simp only [he, if_true]; exact h
    · simp only [he, if_false]
      refine ⟨?_, ?_, ?_, h.silent⟩
      · intro n hn hc
        rcases List.mem_append.1 hn with hn | hn
        · exact h.live n hn hc
        · simp at hn; subst hn; cases hc
      · intro n hn hc
        rcases List.mem_append.1 hn with hn | hn
        · exact h.rep n hn hc
        · simp at hn; subst hn; rfl
      · intro k hk
        by_cases e : r.name = k
        · rw [← e]; exact hr _ (by simp [replayed])
        · unfold Map.has at hk
          rw [Map.get_set_ne _ _ e] at hk
          exact h.reps k hk
  | startAt t =>
    refine ⟨h.live, h.rep, ?_, h.silent⟩
    intro k hk
    have hk : Map.has (seekAll s.reps t) k = true := hk
    rw [seekAll_has] at hk
    exact h.reps k hk
  | override node topic value => exact ⟨h.live, h.rep, h.reps, h.silent⟩
  | stopNode i =>
    refine ⟨?_, ?_, h.reps, h.silent⟩
    · intro n hn hc
      rcases mem_modify hn with hn | ⟨b, hb, rfl⟩
      · exact h.live n hn hc
      · exact h.live b hb hc
    · intro n hn hc
      rcases mem_modify hn with hn | ⟨b, hb, rfl⟩
      · exact h.rep n hn hc
      · exact h.rep b hb hc
  | tick env order =>
    have := quiet_execs hAR env order (quiet_init h env)
    exact ⟨this.live, this.rep, this.reps, this.silent⟩

/-- C94 does not hold: whatever recordings a program replays, with whatever settings, overrides, other
nodes and number of ticks, nothing recorded is ever published, unless the program also adds a live node
of a replayed node's name. -/
theorem replay_publishes_nothing (topics : Map Bytes Bytes) (ops : List Op) (h : ∀ n ∈ added ops, n ∉ replayed ops) :
    ((Sch.empty topics).run ops).pub = [] := by
  have main : ∀ (A R : List Bytes), (∀ n ∈ A, n ∉ R) → ∀ (ops : List Op), (∀ n ∈ added ops, n ∈ A) →
      (∀ n ∈ replayed ops, n ∈ R) → ∀ s, Quiet A R s → Quiet A R (s.run ops) := by
    intro A R hAR ops
    induction ops with
    | nil => intro _ _ s hs; exact hs
    | cons op ops ih =>
      intro ha hr s hs
      have ha' : (∀ n ∈ added [op], n ∈ A) ∧ ∀ n ∈ added ops, n ∈ A := by
        cases op <;> simp_all [added]
      have hr' : (∀ n ∈ replayed [op], n ∈ R) ∧ ∀ n ∈ replayed ops, n ∈ R := by
        cases op <;> simp_all [replayed]
      exact ih ha'.2 hr'.2 _ (quiet_step hAR hs op ha'.1 hr'.1)
  refine (main (added ops) (replayed ops) h ops (fun _ h => h) (fun _ h => h) _ ?_).silent
  refine ⟨fun n hn => (by cases hn), fun n hn => (by cases hn), ?_, rfl⟩
  intro k hk; cases hk

/-- With a live node of that name, k ticks on which it runs. -/
def liveTicks (k : Nat) (env : Nat → NodeEnv) (order : List Nat) : List Op := List.replicate k (.tick env order)

/-- The replayer after `k` advances. -/
theorem advances (r : Rec) (k : Nat) (h : r.snaps ≠ []) :
    ∃ t, (Nat.repeat (fun x : Replayer => x.advance.2) k (Replayer.new r)) = ⟨r, min k (r.snaps.length - 1), t⟩ := by
  have hlen : 0 < r.snaps.length := List.length_pos_iff.2 h
  induction k with
  | zero => exact ⟨0, by simp [Nat.repeat, Replayer.new]⟩
  | succ k ih =>
    obtain ⟨t, ht⟩ := ih
    rw [Nat.repeat, ht]
    unfold Replayer.advance
    by_cases hc : min k (r.snaps.length - 1) + 1 < r.snaps.length
    · rw [if_pos hc]
      exact ⟨_, by
        simp only [Replayer.mk.injEq, true_and]
        exact ⟨by omega, rfl⟩⟩
    · rw [if_neg hc]
      exact ⟨t, by
        simp only [Replayer.mk.injEq, true_and, and_true]
        omega⟩

/-- One tick of a scheduler whose first node is live and replayed under the same name, and whose other
node is the one `add_replay` made. -/
theorem same_name_tick (name : Bytes) (x : Replayer) (s : Sch) (b : Bool) (snap : Snap) (env : Nat → NodeEnv) (order : List Nat)
    (hnodes : s.nodes = [⟨name, true, b, false⟩, ⟨name, false, false, false⟩]) (hrep : Map.get s.reps name = some x) (hcur : x.cur = some snap)
    (hin : (env 0).initOk = true) (hadm : (env 0).admit = true) (hcount : order.count 0 = 1) :
    let s' := s.step (.tick env order)
    s'.nodes = [⟨name, true, true, false⟩, ⟨name, false, false, false⟩] ∧ Map.get s'.reps name = some x.advance.2 ∧ s'.ovr = s.ovr ∧
    s'.pub = s.pub ++ [(name, replayOuts snap (Map.get s.ovr name))] ∧
    s'.topics = (env 0).pubs.foldl (fun t kv => Map.set t kv.1 kv.2) ((replayOuts snap (Map.get s.ovr name)).foldl writeTopic s.topics) := by
  -- other indices do nothing
  have other : ∀ (s : Sch), s.nodes = [⟨name, true, true, false⟩, ⟨name, false, false, false⟩] → ∀ l : List Nat, 0 ∉ l →
      l.foldl (fun s i => s.exec env i) s = s := by
    intro s hs l
    induction l with
    | nil => intro _; rfl
    | cons i l ih =>
      intro h0
      have hi : i ≠ 0 := fun e => h0 (by rw [e]; exact List.mem_cons_self)
      have : s.exec env i = s := by
        unfold Sch.exec
        rw [hs]
        match i, hi with
        | 1, _ => simp
        | (j + 2), _ => simp
      rw [List.foldl_cons, this]
      exact ih (fun h => h0 (List.mem_cons_of_mem _ h))
  obtain ⟨l1, l2, he, h1, h2⟩ : ∃ l1 l2, order = l1 ++ 0 :: l2 ∧ 0 ∉ l1 ∧ 0 ∉ l2 := by
    have hm : 0 ∈ order := List.count_pos_iff.1 (by omega)
    obtain ⟨l1, l2, he, h1⟩ := List.eq_append_cons_of_mem hm
    refine ⟨l1, l2, he, h1, ?_⟩
    intro h2
    rw [he, List.count_append, List.count_cons_self] at hcount
    have := List.count_pos_iff.2 h2
    omega
  have hinit : (s.initAll env).nodes = [⟨name, true, true, false⟩, ⟨name, false, false, false⟩] := by
    unfold Sch.initAll
    simp only [hnodes]
    simp [List.mapIdx_cons, Node.initStep, hin]
  simp only [Sch.step]
  rw [he, List.foldl_append, List.foldl_cons, other _ hinit l1 h1]
  have hexec : (s.initAll env).exec env 0 =
      { s.initAll env with
          reps := Map.set s.reps name x.advance.2
          pub := s.pub ++ [(name, replayOuts snap (Map.get s.ovr name))]
          topics := (env 0).pubs.foldl (fun t kv => Map.set t kv.1 kv.2) ((replayOuts snap (Map.get s.ovr name)).foldl writeTopic s.topics) } := by
    unfold Sch.exec
    rw [hinit]
    simp only [List.getElem?_cons_zero, hadm, and_self, if_true]
    have hp : (s.initAll env).prepare name =
        { s.initAll env with
            reps := Map.set s.reps name x.advance.2
            topics := (replayOuts snap (Map.get s.ovr name)).foldl writeTopic s.topics
            pub := s.pub ++ [(name, replayOuts snap (Map.get s.ovr name))] } := by
      unfold Sch.prepare
      have hr : Map.get (s.initAll env).reps name = some x := hrep
      rw [hr]
      simp only [hcur]
      rfl
    rw [hp]
  rw [hexec, other _ (by exact hinit) l2 h2]
  exact ⟨hinit, Map.get_set_self _ _ _, rfl, rfl, rfl⟩

/-- C94, the part that holds: a program that first adds a live node and then replays a recording under
the same name sees, on every tick that runs the node, what the recording has: on the k-th tick the
outputs of snapshot k, with the overrides in place of the recorded data; after the end, the last
snapshot's again and again. -/
theorem replay_same_name_partial (r : Rec) (h : r.snaps ≠ []) (topics : Map Bytes Bytes) (ovr : List (Bytes × Bytes))
    (env : Nat → NodeEnv) (order : List Nat) (hin : (env 0).initOk = true) (hadm : (env 0).admit = true) (hcount : order.count 0 = 1) (k : Nat) :
    let s := (Sch.empty topics).run ([.add r.name, .addReplay r] ++ ovr.map (fun kv => .override r.name kv.1 kv.2) ++ liveTicks k env order)
    s.pub = (List.range k).map fun i =>
      (r.name, ((r.snaps[min i (r.snaps.length - 1)]?).map fun x => x.outs.map fun kv => (kv.1, ((ovr.reverse.find? fun o => o.1 = kv.1).map Prod.snd).getD kv.2)).getD []) := by
  have hlen : 0 < r.snaps.length := List.length_pos_iff.2 h
  -- the overrides
  have hov : ∀ (ovr : List (Bytes × Bytes)) (s : Sch),
      let s' := s.run (ovr.map (fun kv => Op.override r.name kv.1 kv.2))
      s'.nodes = s.nodes ∧ s'.reps = s.reps ∧ s'.pub = s.pub ∧
      ∀ t, ((Map.get s'.ovr r.name).bind fun o => Map.get o t) =
        (((ovr.reverse.find? fun o => o.1 = t).map Prod.snd).or ((Map.get s.ovr r.name).bind fun o => Map.get o t)) := by
    intro ovr
    induction ovr with
    | nil => intro s; exact ⟨rfl, rfl, rfl, fun t => by simp [Sch.run]⟩
    | cons kv l ih =>
      intro s
      obtain ⟨h1, h2, h3, h4⟩ := ih (s.step (.override r.name kv.1 kv.2))
      refine ⟨h1, h2, h3, fun t => ?_⟩
      have h4 := h4 t
      refine Eq.trans h4 ?_
      have hg : ((Map.get (s.step (.override r.name kv.1 kv.2)).ovr r.name).bind fun o => Map.get o t) =
          if kv.1 = t then some kv.2 else ((Map.get s.ovr r.name).bind fun o => Map.get o t) := by
        show ((Map.get (Map.set s.ovr r.name (Map.set ((Map.get s.ovr r.name).getD []) kv.1 kv.2)) r.name).bind fun o => Map.get o t) = _
        rw [Map.get_set_self]
        show Map.get (Map.set ((Map.get s.ovr r.name).getD []) kv.1 kv.2) t = _
        by_cases e : kv.1 = t
        · rw [if_pos e, ← e, Map.get_set_self]
        · rw [if_neg e, Map.get_set_ne _ _ e]
          cases Map.get s.ovr r.name <;> rfl
      rw [hg, List.reverse_cons, List.find?_append]
      cases hf : l.reverse.find? fun o => o.1 = t with
      | some o => simp
      | none =>
        by_cases e : kv.1 = t
        · simp [e]
        · simp [e]
  simp only
  have hrun : ∀ (s : Sch) (a b : List Op), s.run (a ++ b) = (s.run a).run b := by
    intro s a b; unfold Sch.run; rw [List.foldl_append]
  rw [hrun, hrun]
  generalize hs0 : ((Sch.empty topics).run [.add r.name, .addReplay r]) = s0
  have hs0n : s0.nodes = [⟨r.name, true, false, false⟩, ⟨r.name, false, false, false⟩] ∧ Map.get s0.reps r.name = some (Replayer.new r) ∧
      s0.pub = [] ∧ s0.ovr = [] := by
    rw [← hs0]
    simp only [Sch.run, List.foldl_cons, List.foldl_nil, Sch.step, h, if_false, Sch.empty]
    exact ⟨rfl, Map.get_set_self _ _ _, by trivial, by trivial⟩
  obtain ⟨o1, o2, o3, o4⟩ := hov ovr s0
  generalize s0.run (ovr.map (fun kv => Op.override r.name kv.1 kv.2)) = s1 at o1 o2 o3 o4
  rw [hs0n.1] at o1
  rw [hs0n.2.2.1] at o3
  have o2 : Map.get s1.reps r.name = some (Replayer.new r) := by rw [o2]; exact hs0n.2.1
  have o4 : ∀ t, ((Map.get s1.ovr r.name).bind fun o => Map.get o t) = (ovr.reverse.find? fun o => o.1 = t).map Prod.snd := by
    intro t
    rw [o4 t, hs0n.2.2.2]
    show Option.or _ none = _
    simp
  have main : ∀ k, ∃ b, (s1.run (liveTicks k env order)).nodes = [⟨r.name, true, b, false⟩, ⟨r.name, false, false, false⟩] ∧
      Map.get (s1.run (liveTicks k env order)).reps r.name = some (Nat.repeat (fun x : Replayer => x.advance.2) k (Replayer.new r)) ∧
      (s1.run (liveTicks k env order)).ovr = s1.ovr ∧
      (s1.run (liveTicks k env order)).pub = (List.range k).map fun i =>
        (r.name, ((r.snaps[min i (r.snaps.length - 1)]?).map fun x => replayOuts x (Map.get s1.ovr r.name)).getD []) := by
    intro k
    induction k with
    | zero => exact ⟨false, o1, o2, rfl, by rw [show liveTicks 0 env order = [] from rfl]; exact o3⟩
    | succ k ih =>
      obtain ⟨b, i1, i2, i3, i4⟩ := ih
      have hl : liveTicks (k + 1) env order = liveTicks k env order ++ [.tick env order] := by
        unfold liveTicks; rw [List.replicate_succ']
      rw [hl, hrun]
      generalize s1.run (liveTicks k env order) = s2 at i1 i2 i3 i4
      obtain ⟨t, ht⟩ := advances r k h
      have hidx : min k (r.snaps.length - 1) < r.snaps.length := by omega
      have hcur : (Nat.repeat (fun x : Replayer => x.advance.2) k (Replayer.new r)).cur = some r.snaps[min k (r.snaps.length - 1)] := by
        rw [ht]
        unfold Replayer.cur
        exact List.getElem?_eq_getElem hidx
      have := same_name_tick r.name _ s2 b _ env order i1 i2 hcur hin hadm hcount
      simp only at this
      obtain ⟨q1, q2, q3, q4, -⟩ := this
      refine ⟨true, q1, ?_, q3.trans i3, ?_⟩
      · exact q2
      · refine q4.trans ?_
        rw [i4, i3, List.range_succ, List.map_append]
        congr 1
        rw [List.map_singleton, List.getElem?_eq_getElem hidx]
        rfl
  obtain ⟨b, -, -, -, hp⟩ := main k
  rw [hp]
  apply List.map_congr_left
  intro i _
  congr 1
  congr 1
  congr 1
  funext x
  unfold replayOuts
  apply List.map_congr_left
  intro kv _
  rw [o4]

/-- Non-vacuity: a run of three ticks over a recording with two snapshots, one topic overridden. -/
example : ((Sch.empty [([2], []), ([3], [])]).run
      ([.add [110], .addReplay ⟨2, [97], [110], [], 0, none, 0, 1, [⟨0, 0, [], [([2], [1]), ([3], [4])], none, 0, none, false⟩, ⟨1, 0, [], [([2], [2])], none, 0, none, false⟩], none, []⟩,
        .override [110] [3] [7]] ++ liveTicks 3 (fun _ => ⟨true, true, []⟩) [1, 0])).pub =
    [([110], [([2], [1]), ([3], [7])]), ([110], [([2], [2])]), ([110], [([2], [2])])] := by decide

/-- The same program without the live node: nothing. -/
example : ((Sch.empty [([2], []), ([3], [])]).run
      ([.addReplay ⟨2, [97], [110], [], 0, none, 0, 1, [⟨0, 0, [], [([2], [1]), ([3], [4])], none, 0, none, false⟩, ⟨1, 0, [], [([2], [2])], none, 0, none, false⟩], none, []⟩] ++
        liveTicks 3 (fun _ => ⟨true, true, []⟩) [1, 0])).pub = [] := by decide

/-- Starting past the end of the recordings is not an error and replays from where they stood. -/
theorem start_past_end_ignored (s : Sch) (t : Nat) (h : ∀ kv ∈ s.reps, ∀ x ∈ kv.2.r.snaps, x.tick < t) : (s.step (.startAt t)).reps = s.reps := by
  show seekAll s.reps t = s.reps
  unfold seekAll
  conv_rhs => rw [← List.map_id s.reps]
  apply List.map_congr_left
  intro kv hkv
  have hs := seek_spec kv.2 t
  have : (kv.2.seek t).1 = false := by
    cases hq : (kv.2.seek t).1 with
    | false => rfl
    | true =>
      obtain ⟨x, hx, hle⟩ := hs.1.1 hq
      have := h kv hkv x hx
      omega
  rw [hs.2.2.1 this]
  rfl

/-- Starting at a tick the recordings reach: every replayer stands on its first snapshot of that tick or
later. -/
theorem start_at_spec (s : Sch) (t : Nat) (kv : Bytes × Replayer) (hkv : kv ∈ s.reps) (h : ∃ x ∈ kv.2.r.snaps, t ≤ x.tick) :
    ∃ y, (kv.1, y) ∈ (s.step (.startAt t)).reps ∧ y.r = kv.2.r ∧ ∃ j x, y.On j ∧ y.r.snaps[j]? = some x ∧ t ≤ x.tick ∧
      ∀ m a, m < j → y.r.snaps[m]? = some a → a.tick < t := by
  refine ⟨(kv.2.seek t).2, List.mem_map.2 ⟨kv, hkv, rfl⟩, (seek_spec kv.2 t).2.1, ?_⟩
  have hs := seek_spec kv.2 t
  obtain ⟨j, x, h1, h2, -, h4, h5⟩ := hs.2.2.2 (hs.1.2 h)
  rw [hs.2.1]
  exact ⟨j, x, h1, h2, h4, h5⟩

/- The replay clock. -/

theorem afterTicks_total (r : SRec) (orders : List (List Bytes)) : (orders.foldl SRec.afterTick r).total = r.total := by
  induction orders generalizing r with
  | nil => rfl
  | cons o l ih => rw [List.foldl_cons, ih]; rfl

/-- C94 does not hold for time: however many ticks were recorded, the replay clock has no times to step
through and shows 0 for ever. -/
theorem replay_clock_zero (r : SRec) (h : r.total = 0) (orders : List (List Bytes)) (k : Nat) :
    timesOf (orders.foldl SRec.afterTick r) = some [] ∧ ((RClock.mk [] 0).advances k).now = 0 := by
  refine ⟨?_, ?_⟩
  · unfold timesOf
    rw [afterTicks_total, h]
    rfl
  · have : (RClock.mk [] 0).advances k = ⟨[], 0⟩ := by
      induction k with
      | zero => rfl
      | succ k ih => rw [RClock.advances, ih]; rfl
    rw [this]
    rfl

/-- Were the ticks counted, the clock would show k periods after k ticks and stand still at the end. -/
theorem replay_clock_counts (r : SRec) (ts : List Nat) (h : timesOf r = some ts) (ht : 0 < r.total) (k : Nat) :
    ((RClock.mk ts 0).advances k).now = min k (r.total - 1) * periodNs r.started r.ended r.total := by
  have hts : ts = (List.range r.total).map fun i => i * periodNs r.started r.ended r.total := by
    unfold timesOf at h
    split at h
    · cases h
    · exact (Option.some.inj h).symm
  have hlen : ts.length = r.total := by rw [hts]; simp
  have : (RClock.mk ts 0).advances k = ⟨ts, min k (r.total - 1)⟩ := by
    induction k with
    | zero => simp [RClock.advances]
    | succ k ih =>
      rw [RClock.advances, ih]
      unfold RClock.advance
      simp only [hlen]
      by_cases hc : min k (r.total - 1) < r.total - 1
      · rw [if_pos hc]
        congr 1
        omega
      · rw [if_neg hc]
        congr 1
        omega
  rw [this]
  unfold RClock.now
  have hlt : min k (r.total - 1) < r.total := by omega
  have : ts[min k (r.total - 1)]? = some (min k (r.total - 1) * periodNs r.started r.ended r.total) := by
    rw [hts, List.getElem?_map, List.getElem?_range hlt]
    rfl
  simp only [this]
  rfl

/-- The recorded order is kept by node name and looked up by node id: an id that is not also a node's
name gets order 0, whatever was recorded. -/
theorem order_lost (r : SRec) (id : Bytes) (h : ∀ o ∈ r.order, id ∉ o) : prioOf r id = 0 := by
  unfold prioOf
  cases ho : r.order with
  | nil => rfl
  | cons o l =>
    have hid := h o (by rw [ho]; exact List.mem_cons_self)
    have : (o.zipIdx.reverse.find? fun p => p.1 = id) = none := by
      rw [List.find?_eq_none]
      intro p hp
      have hm : p.1 ∈ o := by
        have := List.mem_reverse.1 hp
        obtain ⟨x, i⟩ := p
        exact List.fst_mem_of_mem_zipIdx this
      simp only [decide_eq_true_eq]
      intro e
      exact hid (e ▸ hm)
    simp only [this]
    rfl

/- C97: names. -/

theorem splitSlash_noslash (s : List Char) : ∀ w ∈ splitSlash s, '/' ∉ w := by
  induction s with
  | nil => intro w hw; simp [splitSlash] at hw; subst hw; simp
  | cons c s ih =>
    intro w hw
    unfold splitSlash at hw
    by_cases hc : c = '/'
    · rw [if_pos hc] at hw
      rcases List.mem_cons.1 hw with rfl | hw
      · simp
      · exact ih w hw
    · rw [if_neg hc] at hw
      cases hs : splitSlash s with
      | nil =>
        rw [hs] at hw
        simp at hw
        subst hw
        simp [Ne.symm hc]
      | cons a l =>
        rw [hs] at hw
        rcases List.mem_cons.1 hw with rfl | hw
        · intro hm
          rcases List.mem_cons.1 hm with e | hm
          · exact hc e.symm
          · exact ih a (by rw [hs]; exact List.mem_cons_self) hm
        · exact ih w (by rw [hs]; exact List.mem_cons_of_mem _ hw)

/-- C97. Whatever name a program gives a session or node, the path component made of it stays in the
directory: it has no separator, is not empty and is neither `.` nor `..`. -/
theorem sanitize_safe (s : List Char) : '/' ∉ sanitize s ∧ sanitize s ≠ [] ∧ sanitize s ≠ ['.'] ∧ sanitize s ≠ ['.', '.'] := by
  unfold sanitize
  cases h : ((splitSlash s).filter normal).getLast? with
  | none => exact ⟨by decide, by decide, by decide, by decide⟩
  | some w =>
    have hm := List.mem_of_getLast? h
    have hf := List.mem_filter.1 hm
    have hn := hf.2
    unfold normal at hn
    simp only [Bool.and_eq_true, decide_eq_true_eq] at hn
    exact ⟨splitSlash_noslash s w hf.1, hn.1.1, hn.1.2, hn.2⟩

theorem noAt_noslash {s : List Char} (h : '/' ∉ s) : '/' ∉ noAt s := by
  unfold noAt
  intro hm
  obtain ⟨c, hc, e⟩ := List.mem_map.1 hm
  by_cases hq : c = '@'
  · rw [if_pos hq] at e; revert e; decide
  · rw [if_neg hq] at e; exact h (e ▸ hc)

theorem count_noAt (s : List Char) : (noAt s).count '@' = 0 := by
  rw [List.count_eq_zero]
  unfold noAt
  intro hm
  obtain ⟨c, hc, e⟩ := List.mem_map.1 hm
  by_cases hq : c = '@'
  · rw [if_pos hq] at e; revert e; decide
  · rw [if_neg hq] at e; exact hq e

/-- The file a recording is saved in: inside the session's directory, with exactly one `@`. -/
theorem saved_name_safe (name id : List Char) : '/' ∉ savedName name id ∧ savedName name id ≠ ['.'] ∧ savedName name id ≠ ['.', '.'] ∧
    (savedName name id).count '@' = 1 := by
  refine ⟨?_, ?_, ?_, ?_⟩
  · unfold savedName
    simp only [List.mem_append, not_or]
    exact ⟨⟨⟨noAt_noslash (sanitize_safe name).1, by decide⟩, noAt_noslash (sanitize_safe id).1⟩, by decide⟩
  · intro e
    have := congrArg List.length e
    simp [savedName] at this
    omega
  · intro e
    have := congrArg List.length e
    simp [savedName] at this
    omega
  · unfold savedName
    rw [List.count_append, List.count_append, List.count_append, count_noAt, count_noAt]
    rfl

/-- A name that needs no change. -/
def Plain (s : List Char) : Prop := '/' ∉ s ∧ '@' ∉ s ∧ s ≠ [] ∧ s ≠ ['.'] ∧ s ≠ ['.', '.']

theorem splitSlash_plain (s : List Char) (h : '/' ∉ s) : splitSlash s = [s] := by
  induction s with
  | nil => rfl
  | cons c s ih =>
    rw [splitSlash, if_neg (fun e : c = '/' => h (e ▸ List.mem_cons_self)), ih (fun e => h (List.mem_cons_of_mem _ e))]

theorem sanitize_plain (s : List Char) (h : '/' ∉ s) (h1 : s ≠ []) (h2 : s ≠ ['.']) (h3 : s ≠ ['.', '.']) : sanitize s = s := by
  unfold sanitize
  rw [splitSlash_plain s h]
  have : [s].filter normal = [s] := by
    rw [List.filter_cons_of_pos]
    · rfl
    · unfold normal; simp [h1, h2, h3]
  rw [this]
  rfl

theorem noAt_plain (s : List Char) (h : '@' ∉ s) : noAt s = s := by
  unfold noAt
  conv_rhs => rw [← List.map_id s]
  apply List.map_congr_left
  intro c hc
  have : c ≠ '@' := fun e => h (e ▸ hc)
  simp [this]

/-- Names without `/` and `@`: the recording is found under the name it was saved under. -/
theorem plain_found (name id : List Char) (hn : Plain name) (hi : Plain id) : lookedUpName name id = savedName name id := by
  obtain ⟨n1, n2, n3, n4, n5⟩ := hn
  obtain ⟨i1, i2, i3, i4, i5⟩ := hi
  unfold lookedUpName registeredName savedName
  rw [sanitize_plain name n1 n3 n4 n5, sanitize_plain id i1 i3 i4 i5, noAt_plain name n2, noAt_plain id i2]
  apply sanitize_plain
  · simp only [List.mem_append, not_or]
    exact ⟨⟨⟨n1, by decide⟩, i1⟩, by decide⟩
  · simp
  · intro e
    have := congrArg List.length e
    simp at this
    omega
  · intro e
    have := congrArg List.length e
    simp at this
    omega

/-- Two nodes with plain names never share a file. -/
theorem plain_injective (n1 i1 n2 i2 : List Char) (h1 : Plain n1) (h2 : Plain n2) (h3 : Plain i1) (h4 : Plain i2)
    (h : savedName n1 i1 = savedName n2 i2) : n1 = n2 ∧ i1 = i2 := by
  unfold savedName at h
  rw [sanitize_plain n1 h1.1 h1.2.2.1 h1.2.2.2.1 h1.2.2.2.2, sanitize_plain n2 h2.1 h2.2.2.1 h2.2.2.2.1 h2.2.2.2.2,
    sanitize_plain i1 h3.1 h3.2.2.1 h3.2.2.2.1 h3.2.2.2.2, sanitize_plain i2 h4.1 h4.2.2.1 h4.2.2.2.1 h4.2.2.2.2,
    noAt_plain n1 h1.2.1, noAt_plain n2 h2.2.1, noAt_plain i1 h3.2.1, noAt_plain i2 h4.2.1] at h
  have h := List.append_cancel_right h
  rw [List.append_assoc, List.append_assoc] at h
  have key : ∀ (a b c d : List Char), '@' ∉ a → '@' ∉ b → a ++ (['@'] ++ c) = b ++ (['@'] ++ d) → a = b ∧ c = d := by
    intro a
    induction a with
    | nil =>
      intro b c d _ hb e
      cases b with
      | nil => simp at e; exact ⟨rfl, e⟩
      | cons x b =>
        simp at e
        exact absurd (e.1 ▸ List.mem_cons_self) hb
    | cons x a ih =>
      intro b c d ha hb e
      cases b with
      | nil =>
        simp at e
        exact absurd (e.1 ▸ List.mem_cons_self) ha
      | cons y b =>
        simp only [List.cons_append, List.cons.injEq] at e
        obtain ⟨h1, h2⟩ := ih b c d (fun h => ha (List.mem_cons_of_mem _ h)) (fun h => hb (List.mem_cons_of_mem _ h)) e.2
        rw [e.1, h1]
        exact ⟨rfl, h2⟩
  exact key _ _ _ _ h1.2.1 h2.2.1 h

/-- What is missing from C97: the recording of a node with an `@` in its name is saved, and never found
again by `replay_from`. -/
theorem at_name_lost (name id : List Char) (hn : '@' ∈ name) (hs : '/' ∉ name) (hi : '/' ∉ id) (name' id' : List Char) :
    lookedUpName name id ≠ savedName name' id' := by
  intro e
  have h1 := (saved_name_safe name' id').2.2.2
  rw [← e] at h1
  have hp : lookedUpName name id = registeredName name id := by
    unfold lookedUpName
    apply sanitize_plain
    · unfold registeredName
      simp only [List.mem_append, not_or]
      exact ⟨⟨⟨hs, by decide⟩, hi⟩, by decide⟩
    · simp [registeredName]
    · intro e
      have := congrArg List.length e
      simp [registeredName] at this
      omega
    · intro e
      have := congrArg List.length e
      simp [registeredName] at this
      omega
  rw [hp] at h1
  unfold registeredName at h1
  rw [List.count_append, List.count_append, List.count_append] at h1
  have : 0 < name.count '@' := List.count_pos_iff.2 hn
  have h2 : ['@'].count '@' = 1 := by decide
  omega

/-- And two nodes whose names differ only there share a file when their ids agree. -/
example : savedName "arm@left".toList "1".toList = savedName "arm_left".toList "1".toList := by decide

/-- Non-vacuity: a hostile name, a plain one and one that is lost. -/
example : sanitize "../../etc/passwd".toList = "passwd".toList ∧ sanitize "..".toList = "unnamed".toList ∧
    lookedUpName "cam".toList "1a".toList = savedName "cam".toList "1a".toList ∧
    lookedUpName "cam@2".toList "1a".toList ≠ savedName "cam@2".toList "1a".toList := by decide

end Horus.Replay
