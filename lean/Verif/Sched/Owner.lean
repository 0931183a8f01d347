/-
Which node publishes and which receives what: the association of topics with
nodes that `horus topic info`, `horus node info` and the dependency graph of
the scheduler read.  It is filled by the first `send` and `recv` of a handle.

Modelled source: horus_core/src/communication/topic/mod.rs (306-478 the
registry; 2907-3036 constructors; 3054-3119 resolving the owner, `send`,
`recv`; 3123-3161 the other methods; 3164-3181 `clone`; 3193-3409 pool-backed
types; 2718-2727 drop).
-/
import Verif.LogBuf.Attribute
import Mathlib.Data.List.Induction
import Mathlib.Logic.Function.Iterate

namespace Horus.Owner
open Horus.Attribute (Name Ctxs)

inductive Role | pub | sub | both
deriving DecidableEq, Repr

/-- An entry: node, role, type name.

Models horus_core/src/communication/topic/mod.rs:315-320. -/
structure Assoc where
  node : Name
  role : Role
  ty : String
deriving DecidableEq, Repr

/-- The upgrade of a role.

Models horus_core/src/communication/topic/mod.rs:379-386. -/
def upgrade : Role → Role → Role
  | .pub, .sub => .both
  | .sub, .pub => .both
  | r, _ => r

/-- `register_with_type` on the entries of the topic: the first entry of the
node is upgraded, or a new one is appended.

Models horus_core/src/communication/topic/mod.rs:373-394. -/
def addEntry (n : Name) (r : Role) (ty : String) : List Assoc → List Assoc
  | [] => [⟨n, r, ty⟩]
  | a :: as => if a.node = n then { a with role := upgrade a.role r } :: as else a :: addEntry n r ty as

/-- The registry: entries by topic, and its version.

Models horus_core/src/communication/topic/mod.rs:329-336. -/
structure Reg where
  topics : String → List Assoc := fun _ => []
  version : Nat := 0

/-- `register_with_type`; the version goes up when the entries change.

Models horus_core/src/communication/topic/mod.rs:366-395. -/
def register (g : Reg) (topic : String) (n : Name) (r : Role) (ty : String) : Reg :=
  if addEntry n r ty (g.topics topic) = g.topics topic then g
  else ⟨fun x => if x = topic then addEntry n r ty (g.topics topic) else g.topics x, g.version + 1⟩

/-- `publishers_of_topic`, `subscribers_of_topic`.

Models horus_core/src/communication/topic/mod.rs:449-478. -/
def publishers (g : Reg) (topic : String) : List Name :=
  ((g.topics topic).filter fun a => a.role == .pub || a.role == .both).map Assoc.node
def subscribers (g : Reg) (topic : String) : List Name :=
  ((g.topics topic).filter fun a => a.role == .sub || a.role == .both).map Assoc.node

/-- A handle.  `direct`: the message is its own wire form; otherwise it is an
image, point cloud, depth image or tensor.

Models the fields of `Topic` set at
horus_core/src/communication/topic/mod.rs:2925-2934. -/
structure Handle where
  topic : String
  ty : String
  direct : Bool
  owner : Option Name
  attempts : Nat
  regPub : Bool
  regSub : Bool
deriving DecidableEq, Repr

/-- `MAX_ATTEMPTS`. Models horus_core/src/communication/topic/mod.rs:3067. -/
def maxAttempts : Nat := 256

structure St where
  ctx : Ctxs := fun _ => none
  handles : Nat → Option Handle := fun _ => none
  reg : Reg := {}

/-- The owner a constructor records.

Models horus_core/src/communication/topic/mod.rs:2918-2923. -/
def ownerNow (c : Ctxs) (t : Nat) : Option Name :=
  let n := Attribute.currentName c t
  if n = "unknown" then none else some n

/-- `Topic::new` on thread `t`.

Models horus_core/src/communication/topic/mod.rs:2907-2935 (and the two other
constructors, which do the same). -/
def newHandle (c : Ctxs) (t : Nat) (topic ty : String) (direct : Bool) : Handle :=
  ⟨topic, ty, direct, ownerNow c t, 0, false, false⟩

/-- `resolve_owner`: the answer and the handle with its attempts counted.

Models horus_core/src/communication/topic/mod.rs:3054-3080. -/
def resolve (c : Ctxs) (t : Nat) (h : Handle) : Option Name × Handle :=
  match h.owner with
  | some n => (some n, h)
  | none =>
    if maxAttempts ≤ h.attempts then (none, h)
    else if Attribute.inside c t = true ∧ Attribute.currentName c t ≠ "unknown" then
      (some (Attribute.currentName c t), h)
    else (none, { h with attempts := h.attempts + 1 })

def flag (h : Handle) : Role → Bool
  | .sub => h.regSub
  | _ => h.regPub

def setFlag (h : Handle) : Role → Handle
  | .sub => { h with regSub := true }
  | _ => { h with regPub := true }

/-- `send` (`r = pub`) and `recv` (`r = sub`) of a direct type.

Models horus_core/src/communication/topic/mod.rs:3084-3119. -/
def useDirect (c : Ctxs) (g : Reg) (t : Nat) (h : Handle) (r : Role) : Handle × Reg :=
  if flag h r then (h, g)
  else match (resolve c t h).1 with
    | some n => (setFlag (resolve c t h).2 r, register g h.topic n r h.ty)
    | none => ((resolve c t h).2, g)

/-- `send` and `recv` of a pool-backed type: only the constructor's owner
counts, and the flag is set in any case.

Models horus_core/src/communication/topic/mod.rs:3193-3204, 3223-3234 (images;
the same for point clouds, depth images and tensors to line 3405). -/
def usePool (g : Reg) (h : Handle) (r : Role) : Handle × Reg :=
  if flag h r then (h, g)
  else match h.owner with
    | some n => (setFlag h r, register g h.topic n r h.ty)
    | none => (setFlag h r, g)

def use (c : Ctxs) (g : Reg) (t : Nat) (h : Handle) (r : Role) : Handle × Reg :=
  if h.direct then useDirect c g t h r else usePool g h r

/-- What happens: calls of nodes begin and end, handles are made, cloned, used
and dropped.  `other` is any of `try_send`, `send_blocking`, `read_latest` and
`try_recv`, which do not register. -/
inductive Ev
  | enter (t : Nat) (n : Name)
  | leave (t : Nat)
  | new (t id : Nat) (topic ty : String) (direct : Bool)
  | clone (id new : Nat)
  | send (t id : Nat)
  | recv (t id : Nat)
  | other (t id : Nat)
  | drop (id : Nat)
deriving DecidableEq, Repr

def put (s : St) (id : Nat) (h : Option Handle) : Nat → Option Handle :=
  fun x => if x = id then h else s.handles x

def useAt (s : St) (t id : Nat) (r : Role) : St :=
  match s.handles id with
  | none => s
  | some h => { s with handles := put s id (some (use s.ctx s.reg t h r).1), reg := (use s.ctx s.reg t h r).2 }

/-- One event.  Dropping a handle leaves the registry as it is: `unregister` is
called from nowhere.

Models horus_core/src/communication/topic/mod.rs:2718-2727, 3123-3181. -/
def step (s : St) : Ev → St
  | .enter t n => { s with ctx := Attribute.enter s.ctx t n 0 0 }
  | .leave t => { s with ctx := Attribute.leave s.ctx t }
  | .new t id topic ty direct => { s with handles := put s id (some (newHandle s.ctx t topic ty direct)) }
  | .clone id new => { s with handles := put s new (s.handles id) }
  | .send t id => useAt s t id .pub
  | .recv t id => useAt s t id .sub
  | .other _ _ => s
  | .drop id => { s with handles := put s id none }

def run (s : St) (h : List Ev) : St := h.foldl step s

/-! ### Lemmas on entries -/

theorem mem_addEntry_node (n : Name) (r : Role) (ty : String) (l : List Assoc) :
    ∃ a ∈ addEntry n r ty l, a.node = n ∧ (a.role = r ∨ a.role = .both ∨ r = .both) := by
  induction l with
  | nil => exact ⟨⟨n, r, ty⟩, by simp [addEntry], rfl, Or.inl rfl⟩
  | cons b bs ih =>
    by_cases hb : b.node = n
    · refine ⟨{ b with role := upgrade b.role r }, by simp [addEntry, hb], hb, ?_⟩
      cases h1 : b.role <;> cases r <;> simp [upgrade]
    · obtain ⟨a, ha, h⟩ := ih
      exact ⟨a, by simp [addEntry, hb, ha], h⟩

/-- Covers: having role `r` counts as being `q`. -/
def Covers (r q : Role) : Prop := r = q ∨ r = .both

theorem covers_upgrade (r q p : Role) (h : Covers r q) : Covers (upgrade r p) q := by
  rcases h with rfl | rfl
  · cases r <;> cases p <;> simp [upgrade, Covers]
  · cases p <;> simp [upgrade, Covers]

theorem addEntry_keeps (n : Name) (r : Role) (ty : String) (l : List Assoc) (m : Name) (q : Role)
    (h : ∃ a ∈ l, a.node = m ∧ Covers a.role q) :
    ∃ a ∈ addEntry n r ty l, a.node = m ∧ Covers a.role q := by
  induction l with
  | nil => obtain ⟨a, ha, -⟩ := h; exact absurd ha (by simp)
  | cons b bs ih =>
    obtain ⟨a, ha, hm, hc⟩ := h
    by_cases hb : b.node = n
    · rcases List.mem_cons.1 ha with rfl | ha
      · exact ⟨{ a with role := upgrade a.role r }, by simp [addEntry, hb], hm, covers_upgrade _ _ _ hc⟩
      · exact ⟨a, by simp [addEntry, hb, ha], hm, hc⟩
    · rcases List.mem_cons.1 ha with rfl | ha
      · exact ⟨a, by simp [addEntry, hb], hm, hc⟩
      · obtain ⟨x, hx, h'⟩ := ih ⟨a, ha, hm, hc⟩
        exact ⟨x, by simp [addEntry, hb, hx], h'⟩

theorem addEntry_only (n : Name) (r : Role) (ty : String) (l : List Assoc) (m : Name) (q : Role)
    (hq : q ≠ .both) (h : ∃ a ∈ addEntry n r ty l, a.node = m ∧ Covers a.role q) :
    (∃ a ∈ l, a.node = m ∧ Covers a.role q) ∨ (m = n ∧ Covers r q) := by
  induction l with
  | nil =>
    obtain ⟨a, ha, hm, hc⟩ := h
    simp only [addEntry, List.mem_singleton] at ha
    subst ha
    exact Or.inr ⟨hm.symm, hc⟩
  | cons b bs ih =>
    obtain ⟨a, ha, hm, hc⟩ := h
    by_cases hb : b.node = n
    · simp only [addEntry, hb, if_true, List.mem_cons] at ha
      rcases ha with rfl | ha
      · have hmb : b.node = m := by rw [hb]; exact hm
        have hmn : m = n := hmb.symm.trans hb
        have : Covers b.role q ∨ Covers r q := by
          have hc' : Covers (upgrade b.role r) q := hc
          clear hc ih hm
          revert hc' hq
          cases b.role <;> cases r <;> cases q <;> simp [upgrade, Covers]
        rcases this with h | h
        · exact Or.inl ⟨b, List.mem_cons_self, hmb, h⟩
        · exact Or.inr ⟨hmn, h⟩
      · exact Or.inl ⟨a, List.mem_cons_of_mem _ ha, hm, hc⟩
    · simp only [addEntry, hb, if_false, List.mem_cons] at ha
      rcases ha with rfl | ha
      · exact Or.inl ⟨a, List.mem_cons_self, hm, hc⟩
      · rcases ih ⟨a, ha, hm, hc⟩ with ⟨x, hx, h'⟩ | h
        · exact Or.inl ⟨x, List.mem_cons_of_mem _ hx, h'⟩
        · exact Or.inr h

theorem addEntry_nodes (n : Name) (r : Role) (ty : String) (l : List Assoc) :
    (n ∈ l.map Assoc.node → (addEntry n r ty l).map Assoc.node = l.map Assoc.node) ∧
    (n ∉ l.map Assoc.node → (addEntry n r ty l).map Assoc.node = l.map Assoc.node ++ [n]) := by
  induction l with
  | nil => simp [addEntry]
  | cons b bs ih =>
    by_cases hb : b.node = n
    · simp [addEntry, hb]
    · constructor
      · intro h
        have h' : n ∈ bs.map Assoc.node := by
          rw [List.map_cons, List.mem_cons] at h
          exact h.resolve_left fun e => hb e.symm
        simp [addEntry, hb, ih.1 h']
      · intro h
        have h' : n ∉ bs.map Assoc.node := fun e => h (by rw [List.map_cons]; exact List.mem_cons_of_mem _ e)
        simp [addEntry, hb, ih.2 h']

/-! ### Specification -/

/-- The registry names `n` as a user of the topic in role `q`. -/
def Named (g : Reg) (topic : String) (n : Name) (q : Role) : Prop :=
  ∃ a ∈ g.topics topic, a.node = n ∧ Covers a.role q

theorem publishers_named (g : Reg) (topic : String) (n : Name) :
    n ∈ publishers g topic ↔ Named g topic n .pub := by
  simp only [publishers, List.mem_map, List.mem_filter, Bool.or_eq_true, beq_iff_eq, Named, Covers]
  constructor
  · rintro ⟨a, ⟨h1, h2⟩, h3⟩; exact ⟨a, h1, h3, h2⟩
  · rintro ⟨a, h1, h3, h2⟩; exact ⟨a, ⟨h1, h2⟩, h3⟩

theorem subscribers_named (g : Reg) (topic : String) (n : Name) :
    n ∈ subscribers g topic ↔ Named g topic n .sub := by
  simp only [subscribers, List.mem_map, List.mem_filter, Bool.or_eq_true, beq_iff_eq, Named, Covers]
  constructor
  · rintro ⟨a, ⟨h1, h2⟩, h3⟩; exact ⟨a, h1, h3, h2⟩
  · rintro ⟨a, h1, h3, h2⟩; exact ⟨a, ⟨h1, h2⟩, h3⟩

theorem register_topics (g : Reg) (topic : String) (n : Name) (r : Role) (ty x : String) :
    (register g topic n r ty).topics x =
      if x = topic then addEntry n r ty (g.topics topic) else g.topics x := by
  unfold register
  split
  · rename_i h
    by_cases hx : x = topic
    · subst hx; simp [h]
    · simp [hx]
  · rfl

theorem register_named (g : Reg) (topic : String) (n : Name) (r : Role) (ty : String)
    (hr : r ≠ .both) : Named (register g topic n r ty) topic n r := by
  obtain ⟨a, ha, hn, h⟩ := mem_addEntry_node n r ty (g.topics topic)
  refine ⟨a, by rw [register_topics, if_pos rfl]; exact ha, hn, ?_⟩
  rcases h with h | h | h
  · exact Or.inl h
  · exact Or.inr h
  · exact absurd h hr

theorem register_keeps (g : Reg) (topic : String) (n : Name) (r : Role) (ty : String)
    (x : String) (m : Name) (q : Role) (h : Named g x m q) :
    Named (register g topic n r ty) x m q := by
  unfold Named
  rw [register_topics]
  by_cases hx : x = topic
  · subst hx; rw [if_pos rfl]; exact addEntry_keeps n r ty _ m q h
  · rw [if_neg hx]; exact h

theorem register_only (g : Reg) (topic : String) (n : Name) (r : Role) (ty : String)
    (x : String) (m : Name) (q : Role) (hq : q ≠ .both) (h : Named (register g topic n r ty) x m q) :
    Named g x m q ∨ (x = topic ∧ m = n ∧ Covers r q) := by
  unfold Named at h
  rw [register_topics] at h
  by_cases hx : x = topic
  · subst hx
    rw [if_pos rfl] at h
    rcases addEntry_only n r ty _ m q hq h with h | h
    · exact Or.inl h
    · exact Or.inr ⟨rfl, h⟩
  · rw [if_neg hx] at h; exact Or.inl h

/-- What one use of a handle does to the registry: nothing, or one
registration. -/
theorem use_reg (c : Ctxs) (g : Reg) (t : Nat) (h : Handle) (r : Role) :
    (use c g t h r).2 = g ∨
    ∃ n, (use c g t h r).2 = register g h.topic n r h.ty ∧
      (h.owner = some n ∨ (h.owner = none ∧ h.direct = true ∧ Attribute.inside c t = true ∧
        Attribute.currentName c t = n ∧ n ≠ "unknown")) := by
  unfold use
  cases hd : h.direct
  · simp only [Bool.false_eq_true, if_false, usePool]
    by_cases hf : flag h r = true
    · exact Or.inl (by simp [hf])
    · cases ho : h.owner with
      | none => exact Or.inl (by simp [hf])
      | some n => exact Or.inr ⟨n, by simp [hf], Or.inl rfl⟩
  · simp only [if_true, useDirect]
    by_cases hf : flag h r = true
    · exact Or.inl (by simp [hf])
    · cases ho : h.owner with
      | some n => exact Or.inr ⟨n, by simp [hf, resolve, ho], Or.inl rfl⟩
      | none =>
        by_cases ha : maxAttempts ≤ h.attempts
        · exact Or.inl (by simp [hf, resolve, ho, ha])
        · by_cases hc : Attribute.inside c t = true ∧ Attribute.currentName c t ≠ "unknown"
          · exact Or.inr ⟨Attribute.currentName c t, by simp [hf, resolve, ho, ha, hc], Or.inr ⟨rfl, by trivial, hc.1, rfl, hc.2⟩⟩
          · exact Or.inl (by simp only [hf, resolve, ho, ha, hc, if_false, Bool.false_eq_true])

/-! ### Theorems: the registry -/

/-- Names once registered stay, whatever happens later. -/
theorem named_stays (h : List Ev) : ∀ (s : St) (x : String) (n : Name) (q : Role),
    Named s.reg x n q → Named (run s h).reg x n q := by
  induction h with
  | nil => intro s x n q hn; exact hn
  | cons e es ih =>
    intro s x n q hn
    refine ih (step s e) x n q ?_
    have hu : ∀ t id r, Named (useAt s t id r).reg x n q := by
      intro t id r
      unfold useAt
      cases hh : s.handles id with
      | none => exact hn
      | some hd =>
        show Named (use s.ctx s.reg t hd r).2 x n q
        rcases use_reg s.ctx s.reg t hd r with h | ⟨m, h, -⟩
        · rw [h]; exact hn
        · rw [h]; exact register_keeps _ _ _ _ _ _ _ _ hn
    cases e with
    | send t id => exact hu t id .pub
    | recv t id => exact hu t id .sub
    | _ => exact hn

/-- A node has at most one entry per topic. -/
theorem one_entry (h : List Ev) : ∀ s : St, (∀ x, ((s.reg.topics x).map Assoc.node).Nodup) →
    ∀ x, (((run s h).reg.topics x).map Assoc.node).Nodup := by
  induction h with
  | nil => intro s hs; exact hs
  | cons e es ih =>
    intro s hs
    refine ih (step s e) ?_
    have hu : ∀ t id r x, (((useAt s t id r).reg.topics x).map Assoc.node).Nodup := by
      intro t id r x
      unfold useAt
      cases hh : s.handles id with
      | none => exact hs x
      | some hd =>
        show (((use s.ctx s.reg t hd r).2.topics x).map Assoc.node).Nodup
        rcases use_reg s.ctx s.reg t hd r with h | ⟨m, h, -⟩
        · rw [h]; exact hs x
        · rw [h, register_topics]
          by_cases hx : x = hd.topic
          · rw [if_pos hx]
            by_cases hm : m ∈ (s.reg.topics hd.topic).map Assoc.node
            · rw [(addEntry_nodes m r hd.ty _).1 hm]; exact hs _
            · rw [(addEntry_nodes m r hd.ty _).2 hm]
              exact List.nodup_append.2 ⟨hs _, by simp, fun a ha b hb => by
                rw [List.mem_singleton] at hb; rw [hb]; rintro rfl; exact hm ha⟩
          · rw [if_neg hx]; exact hs x
    cases e with
    | send t id => exact hu t id .pub
    | recv t id => exact hu t id .sub
    | _ => exact hs

/-- The version the scheduler watches moves exactly when the entries do. -/
theorem version_watches (s : St) (e : Ev) :
    ((step s e).reg.version = s.reg.version ∧ (step s e).reg.topics = s.reg.topics) ∨
    ((step s e).reg.version = s.reg.version + 1 ∧ (step s e).reg.topics ≠ s.reg.topics) := by
  have hu : ∀ t id r, ((useAt s t id r).reg.version = s.reg.version ∧ (useAt s t id r).reg.topics = s.reg.topics) ∨
      ((useAt s t id r).reg.version = s.reg.version + 1 ∧ (useAt s t id r).reg.topics ≠ s.reg.topics) := by
    intro t id r
    unfold useAt
    cases hh : s.handles id with
    | none => exact Or.inl ⟨rfl, rfl⟩
    | some hd =>
      dsimp only
      rcases use_reg s.ctx s.reg t hd r with h | ⟨m, h, -⟩
      · rw [h]; exact Or.inl ⟨rfl, rfl⟩
      · rw [h]
        by_cases he : addEntry m r hd.ty (s.reg.topics hd.topic) = s.reg.topics hd.topic
        · left; simp [register, he]
        · right
          refine ⟨by simp [register, he], fun hc => he ?_⟩
          have := congrFun hc hd.topic
          rwa [register_topics, if_pos rfl] at this
  cases e with
  | send t id => exact hu t id .pub
  | recv t id => exact hu t id .sub
  | _ => exact Or.inl ⟨rfl, rfl⟩

/-! ### Theorems: who is named -/

/-- Where a handle's owner comes from: it was made in a call of that node. -/
def Born (h : List Ev) (topic : String) (n : Name) : Prop :=
  ∃ a b t id ty d, h = a ++ Ev.new t id topic ty d :: b ∧ Attribute.currentName (run {} a).ctx t = n

theorem use_same (c : Ctxs) (g : Reg) (t : Nat) (h : Handle) (r : Role) :
    (use c g t h r).1.owner = h.owner ∧ (use c g t h r).1.topic = h.topic := by
  unfold use usePool useDirect resolve
  cases r <;> (split_ifs <;> cases ho : h.owner <;> simp [setFlag, ho])

theorem Born.mono {h : List Ev} {e : Ev} {x : String} {n : Name} (hb : Born h x n) : Born (h ++ [e]) x n := by
  obtain ⟨a, b, t, id, ty, d, rfl, h1⟩ := hb
  exact ⟨a, b ++ [e], t, id, ty, d, by simp, h1⟩

/-- The owner of a handle is the node in whose call it, or the handle it is a
clone of, was made. -/
theorem owner_born (h : List Ev) : ∀ (id : Nat) (hd : Handle) (n : Name),
    (run {} h).handles id = some hd → hd.owner = some n → Born h hd.topic n ∧ n ≠ "unknown" := by
  induction h using List.reverseRecOn with
  | nil => intro id hd n hh; exact absurd hh (by simp [run])
  | append_singleton h e ih =>
    intro id hd n hh ho
    have old : ∀ i, (run {} h).handles i = some hd → Born (h ++ [e]) hd.topic n ∧ n ≠ "unknown" :=
      fun i hi => ⟨(ih i hd n hi ho).1.mono, (ih i hd n hi ho).2⟩
    have he : run {} (h ++ [e]) = step (run {} h) e := by simp [run]
    rw [he] at hh
    have key : ∀ t j r, (useAt (run {} h) t j r).handles id = some hd → Born (h ++ [e]) hd.topic n ∧ n ≠ "unknown" := by
      intro t j r hu
      unfold useAt at hu
      cases hj : (run {} h).handles j with
      | none => rw [hj] at hu; exact old id hu
      | some g =>
        rw [hj] at hu
        dsimp only [put] at hu
        by_cases hid : id = j
        · rw [if_pos hid] at hu
          have hs := use_same (run {} h).ctx (run {} h).reg t g r
          have hg : (use (run {} h).ctx (run {} h).reg t g r).1 = hd := Option.some.inj hu
          rw [hg] at hs
          have := ih j g n hj (hs.1 ▸ ho)
          rw [hs.2]
          exact ⟨this.1.mono, this.2⟩
        · rw [if_neg hid] at hu; exact old id hu
    cases e with
    | send t j => exact key t j .pub hh
    | recv t j => exact key t j .sub hh
    | enter t m => exact old id hh
    | leave t => exact old id hh
    | other t j => exact old id hh
    | drop j =>
      dsimp only [step, put] at hh
      by_cases hid : id = j
      · rw [if_pos hid] at hh; exact absurd hh (by simp)
      · rw [if_neg hid] at hh; exact old id hh
    | clone i j =>
      dsimp only [step, put] at hh
      by_cases hid : id = j
      · rw [if_pos hid] at hh; exact old i hh
      · rw [if_neg hid] at hh; exact old id hh
    | new t j topic ty d =>
      dsimp only [step, put] at hh
      by_cases hid : id = j
      · rw [if_pos hid] at hh
        have hg : newHandle (run {} h).ctx t topic ty d = hd := Option.some.inj hh
        subst hg
        dsimp only [newHandle, ownerNow] at ho ⊢
        by_cases hn : Attribute.currentName (run {} h).ctx t = "unknown"
        · rw [if_pos hn] at ho; exact absurd ho (by simp)
        · rw [if_neg hn] at ho
          have hm := Option.some.inj ho
          exact ⟨⟨h, [], t, j, ty, d, rfl, hm⟩, hm ▸ hn⟩
      · rw [if_neg hid] at hh; exact old id hh

/-- A use of a handle of the topic in role `q`. -/
def Used (h : List Ev) (topic : String) (n : Name) (q : Role) : Prop :=
  ∃ a b t id hd, (h = a ++ Ev.send t id :: b ∧ q = .pub ∨ h = a ++ Ev.recv t id :: b ∧ q = .sub) ∧
    (run {} a).handles id = some hd ∧ hd.topic = topic ∧
    (hd.owner = some n ∨ Attribute.currentName (run {} a).ctx t = n)

theorem run_snoc (s : St) (h : List Ev) (e : Ev) : run s (h ++ [e]) = step (run s h) e := by
  simp [run]

theorem Used.mono {h : List Ev} {e : Ev} {x : String} {n : Name} {q : Role} (hu : Used h x n q) :
    Used (h ++ [e]) x n q := by
  obtain ⟨a, b, t, id, hd, hh, h1⟩ := hu
  refine ⟨a, b ++ [e], t, id, hd, ?_, h1⟩
  rcases hh with ⟨rfl, hq⟩ | ⟨rfl, hq⟩
  · exact Or.inl ⟨by simp, hq⟩
  · exact Or.inr ⟨by simp, hq⟩

/-- A node is named as publisher (subscriber) of a topic only if a handle of the
topic was sent on (received on) that was made in, or used in, a call of the
node. -/
theorem named_used (h : List Ev) (x : String) (n : Name) (q : Role) (hq : q ≠ .both)
    (hn : Named (run {} h).reg x n q) : Used h x n q := by
  induction h using List.reverseRecOn with
  | nil =>
    obtain ⟨a, ha, -⟩ := hn
    exact absurd ha (by simp [run])
  | append_singleton h e ih =>
    rw [run_snoc] at hn
    have key : ∀ t id r, (r = .pub ∧ e = .send t id ∨ r = .sub ∧ e = .recv t id) →
        Named (useAt (run {} h) t id r).reg x n q → Used (h ++ [e]) x n q := by
      intro t id r hr hn
      unfold useAt at hn
      cases hh : (run {} h).handles id with
      | none => rw [hh] at hn; exact (ih hn).mono
      | some hd =>
        rw [hh] at hn
        have hn' : Named (use (run {} h).ctx (run {} h).reg t hd r).2 x n q := hn
        rcases use_reg (run {} h).ctx (run {} h).reg t hd r with h1 | ⟨m, h1, h2⟩
        · rw [h1] at hn'; exact (ih hn').mono
        · rw [h1] at hn'
          rcases register_only _ _ _ _ _ _ _ _ hq hn' with h3 | ⟨rfl, rfl, hc⟩
          · exact (ih h3).mono
          · have hrq : r = q := by
              rcases hc with hc | hc
              · exact hc
              · rcases hr with ⟨h, -⟩ | ⟨h, -⟩ <;> rw [h] at hc <;> exact absurd hc (by decide)
            subst hrq
            refine ⟨h, [], t, id, hd, ?_, hh, rfl, ?_⟩
            · rcases hr with ⟨hr, rfl⟩ | ⟨hr, rfl⟩
              · exact Or.inl ⟨rfl, hr⟩
              · exact Or.inr ⟨rfl, hr⟩
            · rcases h2 with h2 | ⟨-, -, -, h2, -⟩
              · exact Or.inl h2
              · exact Or.inr h2
    cases e with
    | send t id => exact key t id .pub (Or.inl ⟨rfl, rfl⟩) hn
    | recv t id => exact key t id .sub (Or.inr ⟨rfl, rfl⟩) hn
    | _ => exact (ih hn).mono

/-- A handle made in a call of a node has that owner, and its first send names
the node as publisher wherever it is made. -/
theorem made_inside_named (s : St) (t id : Nat) (h : Handle) (n : Name) (hh : s.handles id = some h)
    (ho : h.owner = some n) (hf : h.regPub = false) :
    Named (step s (.send t id)).reg h.topic n .pub := by
  show Named (useAt s t id .pub).reg h.topic n .pub
  unfold useAt
  rw [hh]
  show Named (use s.ctx s.reg t h .pub).2 h.topic n .pub
  cases hd : h.direct
  · simp only [use, hd, usePool, flag, hf, ho, Bool.false_eq_true, if_false]
    exact register_named _ _ _ _ _ (by decide)
  · simp only [use, hd, useDirect, flag, hf, resolve, ho, Bool.false_eq_true, if_false, if_true]
    exact register_named _ _ _ _ _ (by decide)

/-- A handle of a direct type made outside every call (in a node's constructor)
is named with the node in whose call it is first sent on, if it has been used
fewer than 256 times before without an owner. -/
theorem first_use_named (s : St) (t id : Nat) (h : Handle) (n : Name) (hh : s.handles id = some h)
    (hd : h.direct = true) (ho : h.owner = none) (hf : h.regPub = false) (ha : h.attempts < maxAttempts)
    (hi : Attribute.inside s.ctx t = true) (hc : Attribute.currentName s.ctx t = n)
    (hn : n ≠ "unknown") : Named (step s (.send t id)).reg h.topic n .pub := by
  show Named (useAt s t id .pub).reg h.topic n .pub
  unfold useAt
  rw [hh]
  show Named (use s.ctx s.reg t h .pub).2 h.topic n .pub
  have ha' : ¬maxAttempts ≤ h.attempts := Nat.not_le.2 ha
  subst hc
  simp only [use, hd, useDirect, flag, hf, resolve, ho, ha', hi, hn, ne_eq, not_false_eq_true, and_self,
    Bool.false_eq_true, if_false, if_true]
  exact register_named _ _ _ _ _ (by decide)

theorem first_recv_named (s : St) (t id : Nat) (h : Handle) (n : Name) (hh : s.handles id = some h)
    (hd : h.direct = true) (ho : h.owner = none) (hf : h.regSub = false) (ha : h.attempts < maxAttempts)
    (hi : Attribute.inside s.ctx t = true) (hc : Attribute.currentName s.ctx t = n)
    (hn : n ≠ "unknown") : Named (step s (.recv t id)).reg h.topic n .sub := by
  show Named (useAt s t id .sub).reg h.topic n .sub
  unfold useAt
  rw [hh]
  show Named (use s.ctx s.reg t h .sub).2 h.topic n .sub
  have ha' : ¬maxAttempts ≤ h.attempts := Nat.not_le.2 ha
  subst hc
  simp only [use, hd, useDirect, flag, hf, resolve, ho, ha', hi, hn, ne_eq, not_false_eq_true, and_self,
    Bool.false_eq_true, if_false, if_true]
  exact register_named _ _ _ _ _ (by decide)

/-! ### Findings -/

/-- The only events that can change the registry are sends and receives. -/
theorem quiet_event (s : St) (e : Ev) (hs : ∀ t id, e ≠ .send t id) (hr : ∀ t id, e ≠ .recv t id) :
    (step s e).reg = s.reg := by
  cases e with
  | send t id => exact absurd rfl (hs t id)
  | recv t id => exact absurd rfl (hr t id)
  | _ => rfl

/-- **Finding.**  Programs that publish with `try_send` and `send_blocking` and
read with `read_latest` and `try_recv` are unknown to the registry: a history
without `send` and `recv` names nobody. -/
theorem other_methods_unseen (h : List Ev) (hs : ∀ t id, Ev.send t id ∉ h) (hr : ∀ t id, Ev.recv t id ∉ h)
    (s : St) : (run s h).reg = s.reg := by
  induction h generalizing s with
  | nil => rfl
  | cons e es ih =>
    show (run (step s e) es).reg = s.reg
    rw [ih (fun t id hm => hs t id (List.mem_cons_of_mem _ hm)) (fun t id hm => hr t id (List.mem_cons_of_mem _ hm))]
    refine quiet_event s e ?_ ?_
    · rintro t id rfl; exact hs t id List.mem_cons_self
    · rintro t id rfl; exact hr t id List.mem_cons_self

/-- **Finding.**  An image, point cloud, depth or tensor topic made in a
constructor (outside every call) is never put down to a node, however it is
used. -/
theorem pool_constructor_unseen (c : Ctxs) (g : Reg) (t : Nat) (h : Handle) (r : Role)
    (hd : h.direct = false) (ho : h.owner = none) :
    (use c g t h r).2 = g ∧ (use c g t h r).1.owner = none ∧ (use c g t h r).1.direct = false := by
  by_cases hf : flag h r = true
  · simp [use, hd, usePool, hf, ho]
  · cases r <;> simp [use, hd, usePool, hf, ho, setFlag]

/-- **Finding.**  After 256 uses without an owner a handle is never put down to
a node. -/
theorem exhausted_unseen (c : Ctxs) (g : Reg) (t : Nat) (h : Handle) (r : Role)
    (ho : h.owner = none) (ha : maxAttempts ≤ h.attempts) :
    (use c g t h r).2 = g ∧ (use c g t h r).1.owner = none ∧ maxAttempts ≤ (use c g t h r).1.attempts := by
  by_cases hf : flag h r = true
  · cases hd : h.direct <;> simp [use, hd, usePool, useDirect, hf, ho, ha]
  · cases hd : h.direct <;> cases r <;> simp [use, hd, usePool, useDirect, hf, ho, ha, resolve, setFlag]

/-- Sending on a thread outside every call counts as such a use: 256 of them
(say, while `main` waits for a peer) exhaust the handle. -/
theorem outside_uses_exhaust (k : Nat) (c : Ctxs) (g : Reg) (t : Nat) (h : Handle)
    (hd : h.direct = true) (ho : h.owner = none) (hf : h.regPub = false)
    (hi : Attribute.inside c t = false) (hk : h.attempts + k ≤ maxAttempts) :
    ((fun p : Handle × Reg => use c p.2 t p.1 .pub)^[k] (h, g)) =
      ({ h with attempts := h.attempts + k }, g) := by
  induction k generalizing h with
  | zero => simp
  | succ k ih =>
    have hlt : ¬maxAttempts ≤ h.attempts := by omega
    have h1 : use c g t h .pub = ({ h with attempts := h.attempts + 1 }, g) := by
      simp [use, hd, useDirect, flag, hf, resolve, ho, hlt, hi]
    rw [Function.iterate_succ_apply]
    dsimp only
    rw [h1, ih { h with attempts := h.attempts + 1 } hd ho hf (by dsimp only; omega)]
    simp only [Prod.mk.injEq, Handle.mk.injEq, true_and, and_true, and_self]
    omega

/-- **Finding.**  A node called "unknown" is never named by its uses. -/
theorem unknown_unseen (c : Ctxs) (g : Reg) (t : Nat) (h : Handle) (r : Role) (ho : h.owner = none)
    (hn : Attribute.currentName c t = "unknown") : (use c g t h r).2 = g := by
  rcases use_reg c g t h r with h1 | ⟨m, -, h2 | ⟨-, -, -, h3, h4⟩⟩
  · exact h1
  · rw [ho] at h2; exact absurd h2 (by simp)
  · exact absurd (h3.symm.trans hn) h4

/-- **Finding.**  The clone of a handle that has been sent on never names the
node it is given to. -/
theorem clone_unseen : ∃ h : List Ev, Ev.send 0 2 ∈ h ∧
    Attribute.currentName (run {} (h.take 6)).ctx 0 = "b" ∧ h[6]? = some (.send 0 2) ∧
    publishers (run {} h).reg "x" = ["a"] :=
  ⟨[.new 0 1 "x" "T" true, .enter 0 "a", .send 0 1, .leave 0, .clone 1 2, .enter 0 "b", .send 0 2], by decide +kernel⟩

/-- **Finding.**  A handle made in the `init` of one node and sent on by another
is put down to the first. -/
theorem given_away_misnamed : ∃ h : List Ev,
    publishers (run {} h).reg "x" = ["a"] ∧ Attribute.currentName (run {} (h.take 4)).ctx 0 = "b" ∧
    h.drop 4 = [.send 0 1] ∧ ∀ e ∈ h.take 4, ∀ t id, e ≠ Ev.send t id :=
  ⟨[.enter 0 "a", .new 0 1 "x" "T" true, .leave 0, .enter 0 "b", .send 0 1], by decide +kernel, by decide +kernel, rfl, by
    intro e he t id
    simp only [List.take_succ_cons, List.take_zero, List.mem_cons, List.not_mem_nil, or_false] at he
    rcases he with rfl | rfl | rfl | rfl <;> simp⟩

/-- **Finding.**  A dropped handle stays in the registry: nothing takes a node
off a topic. -/
theorem dropped_stays (s : St) (h : List Ev) (x : String) (n : Name) (q : Role)
    (hn : Named s.reg x n q) (id : Nat) : Named (run s (.drop id :: h)).reg x n q :=
  named_stays (.drop id :: h) s x n q hn

/-! ### Cases -/

example : publishers (run {} [.new 0 1 "x" "T" true, .enter 0 "a", .send 0 1, .recv 0 1, .leave 0]).reg "x" = ["a"] ∧ subscribers (run {} [.new 0 1 "x" "T" true, .enter 0 "a", .send 0 1, .recv 0 1, .leave 0]).reg "x" = ["a"] := by decide +kernel
example : publishers (run {} [.new 0 1 "img" "Image" false, .enter 0 "cam", .send 0 1]).reg "img" = [] := by decide +kernel
example : publishers (run {} [.enter 0 "cam", .new 0 1 "img" "Image" false, .send 0 1]).reg "img" = ["cam"] := by decide +kernel

end Horus.Owner
