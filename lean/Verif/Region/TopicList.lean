import Mathlib.Data.Char
import Mathlib.Data.List.Lex
import Mathlib.Data.List.Sort
import Mathlib.Data.List.Induction
import Verif.Region.Names

/-!
# Listing topics, and what listing does to them

`find_topics` (`horus_sys/src/discover/mod.rs:291-446`) merges the files of the topics directory, the
descriptions beside them (`<name>.meta`) and the node presence files; `horus topic list` and the other
commands built on it (`horus_manager/src/discovery/topics.rs:3-123`) then delete the files of topics
whose creator is dead, show the rest and classify them. `horus run` sweeps the directory first
(`topics.rs:131-144`).

The second part is a history of processes that open, close and leave topics
(`horus_sys/src/shm/linux.rs:63-171, 261-310`) while somebody lists. System calls are atomic here; their
interleavings are the subject of `Horus.Region`. Not modelled: directories that cannot be read,
descriptions that do not parse (skipped by the code), process identifiers that are used again.
-/

namespace Horus.TopicList

open Horus.Names (validRegion sanitize)

/-- Text. -/
abbrev Text := List Char

/-! ### Listing -/

/-- `TopicMeta` (shm/mod.rs:556-565), without the time. -/
structure Meta where
  name : Text
  size : Nat
  pid : Nat
deriving DecidableEq

/-- A directory entry that is a file (discover/mod.rs:310-366): a description or a region, which some
process has open (`locked`, `is_shm_file_stale` is false) or not. -/
inductive Entry
  | desc (m : Meta)
  | raw (name : Text) (size : Nat) (locked : Bool)
deriving DecidableEq

/-- A running node (discover/mod.rs:122-145): what it publishes with type names, what it subscribes. -/
structure Node where
  name : Text
  pubs : List (Text × Text)
  subs : List Text

/-- `DiscoveredTopic` (discover/mod.rs:252-261), without the time. -/
structure Topic where
  name : Text
  size : Nat
  pid : Nat
  alive : Bool
  pubs : List Text := []
  subs : List Text := []
  ty : Option Text := none
deriving DecidableEq

/-- One update of the table. -/
inductive Op
  | ins (t : Topic)
  | pub (topic node ty : Text)
  | sub (topic node : Text)
deriving DecidableEq

/-- The topic an update is about. -/
def Op.name : Op → Text
  | .ins t => t.name
  | .pub n _ _ => n
  | .sub n _ => n

/-- The record inserted when the topic is new (discover/mod.rs:328-337, 351-360, 405-416, 425-436). -/
def Op.fresh : Op → Topic
  | .ins t => { name := t.name, size := t.size, pid := t.pid, alive := t.alive }
  | .pub n _ _ => { name := n, size := 0, pid := 0, alive := true }
  | .sub n _ => { name := n, size := 0, pid := 0, alive := true }

/-- `entry(..).or_insert(..)` (same lines); the table is a list in place of the hash map. -/
def orInsert (t : List Topic) (x : Topic) : List Topic := if x.name ∈ t.map (·.name) then t else t ++ [x]

/-- What an update adds to the record (discover/mod.rs:417-422, 437-439). -/
def Op.upd : Op → Topic → Topic
  | .ins _, x => x
  | .pub _ a ty, x => { x with pubs := if a ∈ x.pubs then x.pubs else x.pubs ++ [a], ty := if x.ty = none ∧ ty ≠ [] then some ty else x.ty }
  | .sub _ a, x => { x with subs := if a ∈ x.subs then x.subs else x.subs ++ [a] }

/-- One update applied. -/
def apply (t : List Topic) (o : Op) : List Topic := (orInsert t o.fresh).map fun x => if x.name = o.name then o.upd x else x

/-- The updates of a directory entry (discover/mod.rs:311-365); `alive` is `is_process_alive`. -/
def entryOps (alive : Nat → Bool) : Entry → List Op
  | .desc m => if validRegion m.name then [.ins { name := m.name, size := m.size, pid := m.pid, alive := alive m.pid }] else []
  | .raw n s l => [.ins { name := n, size := s, pid := 0, alive := l }]

/-- The updates of a node (discover/mod.rs:403-441). -/
def nodeOps (nd : Node) : List Op := nd.pubs.map (fun p => .pub p.1 nd.name p.2) ++ nd.subs.map (fun n => .sub n nd.name)

/-- All updates in order: the topics directory, the descriptions in its two subdirectories
(discover/mod.rs:368-397), the nodes. -/
def work (alive : Nat → Bool) (dir : List Entry) (sub : List Meta) (nodes : List Node) : List Op :=
  (dir ++ sub.map Entry.desc).flatMap (entryOps alive) ++ nodes.flatMap nodeOps

/-- `find_topics` (discover/mod.rs:291-446). -/
def find (alive : Nat → Bool) (dir : List Entry) (sub : List Meta) (nodes : List Node) : List Topic :=
  ((work alive dir sub nodes).foldl apply []).insertionSort fun a b => a.name ≤ b.name

/-- The topics whose files are deleted (topics.rs:16-23). -/
def doomed (l : List Topic) : List Topic := l.filter fun t => !t.alive && decide (0 < t.pid)

/-- The topics shown (topics.rs:25-27). -/
def shown (l : List Topic) : List Topic := l.filter (·.alive)

/-- `TopicStatus`. -/
inductive Status
  | active | idle | stale
deriving DecidableEq

/-- `compute_topic_status` and `downgrade_without_header` (topics.rs:153-201); `age` in seconds. -/
def status (live : Bool) (age : Option Nat) (header : Bool) : Status :=
  if header then
    match live, age with
    | true, some s => if s < 30 then .active else .idle
    | true, none => .idle
    | false, some s => if 300 ≤ s then .stale else .idle
    | false, none => .stale
  else .stale

/-- The rate shown, in messages per second (topics.rs:104-119): two counts half a second apart. -/
def rate (before after : Nat) : Nat := (after - before) * 2

/-! ### Proofs about the list -/

theorem names_orInsert (t : List Topic) (x : Topic) : (orInsert t x).map (·.name) = if x.name ∈ t.map (·.name) then t.map (·.name) else t.map (·.name) ++ [x.name] := by
  unfold orInsert; split <;> simp

theorem upd_name (o : Op) (x : Topic) : (o.upd x).name = x.name := by cases o <;> rfl

theorem fresh_name (o : Op) : o.fresh.name = o.name := by cases o <;> rfl

theorem names_apply (t : List Topic) (o : Op) : (apply t o).map (·.name) = if o.name ∈ t.map (·.name) then t.map (·.name) else t.map (·.name) ++ [o.name] := by
  have : (apply t o).map (·.name) = (orInsert t o.fresh).map (·.name) := by
    unfold apply
    rw [List.map_map]
    refine List.map_congr_left fun x _ => ?_
    dsimp only [Function.comp]
    split
    · exact upd_name o x
    · rfl
  rw [this, names_orInsert, fresh_name]

/-- The type a publication offers for topic `n`. -/
def offers (n : Text) : Op → Option Text
  | .pub m _ ty => if m = n ∧ ty ≠ [] then some ty else none
  | _ => none

/-- What the table says after the updates `ops`. -/
structure Says (ops : List Op) (t : List Topic) : Prop where
  once : (t.map (·.name)).Nodup
  names : ∀ n, n ∈ t.map (·.name) ↔ ∃ o ∈ ops, o.name = n
  pubs : ∀ x ∈ t, (∀ a, a ∈ x.pubs ↔ ∃ ty, Op.pub x.name a ty ∈ ops) ∧ x.pubs.Nodup
  subs : ∀ x ∈ t, (∀ a, a ∈ x.subs ↔ Op.sub x.name a ∈ ops) ∧ x.subs.Nodup
  ty : ∀ x ∈ t, x.ty = (ops.filterMap (offers x.name)).head?
  base : ∀ x ∈ t, (ops.find? fun o => decide (o.name = x.name)).map (fun o => (o.fresh.size, o.fresh.pid, o.fresh.alive)) = some (x.size, x.pid, x.alive)

theorem says_nil : Says [] [] := by
  refine ⟨by simp, by simp, ?_, ?_, ?_, ?_⟩ <;> intro x hx <;> cases hx

theorem nodup_add (l : List Text) (a : Text) (h : l.Nodup) : (if a ∈ l then l else l ++ [a]).Nodup := by
  split
  · exact h
  · rename_i hn
    exact List.nodup_append.2 ⟨h, by simp, by intro x hx y hy; simp at hy; subst hy; exact fun e => hn (e ▸ hx)⟩

theorem mem_add (l : List Text) (a b : Text) : b ∈ (if a ∈ l then l else l ++ [a]) ↔ b ∈ l ∨ b = a := by
  split
  · rename_i h; constructor
    · exact Or.inl
    · rintro (h' | rfl); exacts [h', h]
  · simp

theorem head_append (l : List Text) (o : Option Text) : (l ++ o.toList).head? = if l.head? = none then o else l.head? := by
  cases l with
  | nil => cases o <;> rfl
  | cons a l => simp

theorem filterMap_snoc (ops : List Op) (o : Op) (n : Text) : (ops ++ [o]).filterMap (offers n) = ops.filterMap (offers n) ++ (offers n o).toList := by
  rw [List.filterMap_append]
  cases h : offers n o <;> simp [h]

/-- An element of the table after an update: an old one, changed if it is the one named, or the fresh
one. -/
theorem mem_apply {t : List Topic} {o : Op} {x : Topic} (h : x ∈ apply t o) :
    (∃ y ∈ t, (y.name ≠ o.name ∧ x = y) ∨ (y.name = o.name ∧ x = o.upd y)) ∨ (o.name ∉ t.map (·.name) ∧ x = o.upd o.fresh) := by
  unfold apply at h
  obtain ⟨y, hy, rfl⟩ := List.mem_map.1 h
  unfold orInsert at hy
  rw [fresh_name] at hy
  by_cases hn : o.name ∈ t.map (·.name)
  · rw [if_pos hn] at hy
    refine Or.inl ⟨y, hy, ?_⟩
    by_cases e : y.name = o.name
    · exact Or.inr ⟨e, by rw [if_pos e]⟩
    · exact Or.inl ⟨e, by rw [if_neg e]⟩
  · rw [if_neg hn] at hy
    rcases List.mem_append.1 hy with hy | hy
    · refine Or.inl ⟨y, hy, ?_⟩
      by_cases e : y.name = o.name
      · exact Or.inr ⟨e, by rw [if_pos e]⟩
      · exact Or.inl ⟨e, by rw [if_neg e]⟩
    · rw [List.mem_singleton] at hy
      subst hy
      exact Or.inr ⟨hn, by rw [if_pos (fresh_name o)]⟩

theorem find_snoc_some (ops : List Op) (o : Op) (n : Text) (h : ∃ o ∈ ops, o.name = n) : (ops ++ [o]).find? (fun o => decide (o.name = n)) = ops.find? fun o => decide (o.name = n) := by
  rw [List.find?_append]
  obtain ⟨p, hp, e⟩ := h
  have : (ops.find? fun o => decide (o.name = n)).isSome = true := by
    rw [List.find?_isSome]; exact ⟨p, hp, by simpa using e⟩
  obtain ⟨q, hq⟩ := Option.isSome_iff_exists.1 this
  rw [hq]; rfl

theorem find_snoc_none (ops : List Op) (o : Op) (h : ¬ ∃ p ∈ ops, p.name = o.name) : (ops ++ [o]).find? (fun p => decide (p.name = o.name)) = some o := by
  rw [List.find?_append]
  have : (ops.find? fun p => decide (p.name = o.name)) = none := by
    rw [List.find?_eq_none]; intro p hp; simpa using fun e => h ⟨p, hp, e⟩
  rw [this]; simp

theorem says_step (ops : List Op) (t : List Topic) (o : Op) (h : Says ops t) : Says (ops ++ [o]) (apply t o) := by
  have hname : ∀ y ∈ t, ∃ p ∈ ops, p.name = y.name := fun y hy => (h.names y.name).1 (List.mem_map_of_mem hy)
  have hnone : o.name ∉ t.map (·.name) → ∀ p ∈ ops, p.name ≠ o.name := fun hn p hp e => hn ((h.names o.name).2 ⟨p, hp, e⟩)
  refine ⟨?_, ?_, ?_, ?_, ?_, ?_⟩
  · rw [names_apply]; exact nodup_add _ _ h.once
  · intro n
    rw [names_apply, mem_add, h.names]
    constructor
    · rintro (⟨p, hp, e⟩ | rfl)
      · exact ⟨p, by simp [hp], e⟩
      · exact ⟨o, by simp, rfl⟩
    · rintro ⟨p, hp, e⟩
      rcases List.mem_append.1 hp with hp | hp
      · exact Or.inl ⟨p, hp, e⟩
      · rw [List.mem_singleton] at hp; subst hp; exact Or.inr e.symm
  · intro x hx
    rcases mem_apply hx with ⟨y, hy, ⟨hne, rfl⟩ | ⟨he, rfl⟩⟩ | ⟨hn, rfl⟩
    · refine ⟨fun a => ?_, (h.pubs _ hy).2⟩
      rw [(h.pubs _ hy).1]
      simp only [List.mem_append, List.mem_singleton]
      constructor
      · rintro ⟨ty, hm⟩; exact ⟨ty, Or.inl hm⟩
      · rintro ⟨ty, hm | hm⟩
        · exact ⟨ty, hm⟩
        · exact absurd (by rw [← hm]; rfl) hne
    · rw [upd_name]
      cases o with
      | ins z =>
        refine ⟨fun a => ?_, (h.pubs _ hy).2⟩
        show a ∈ y.pubs ↔ _
        rw [(h.pubs _ hy).1]; simp
      | sub m b =>
        refine ⟨fun a => ?_, (h.pubs _ hy).2⟩
        show a ∈ y.pubs ↔ _
        rw [(h.pubs _ hy).1]; simp
      | pub m b ty =>
        have he' : y.name = m := he
        refine ⟨fun a => ?_, nodup_add _ _ (h.pubs _ hy).2⟩
        show a ∈ (if b ∈ y.pubs then y.pubs else y.pubs ++ [b]) ↔ _
        rw [mem_add, (h.pubs _ hy).1]
        simp only [List.mem_append, List.mem_singleton, Op.pub.injEq]
        constructor
        · rintro (⟨ty', hm⟩ | rfl)
          · exact ⟨ty', Or.inl hm⟩
          · exact ⟨ty, Or.inr ⟨he', rfl, rfl⟩⟩
        · rintro ⟨ty', hm | hm⟩
          · exact Or.inl ⟨ty', hm⟩
          · exact Or.inr hm.2.1
    · have hno := hnone hn
      rw [upd_name, fresh_name]
      cases o with
      | ins z =>
        refine ⟨fun a => ?_, by simp [Op.upd, Op.fresh]⟩
        simp only [Op.upd, Op.fresh, List.not_mem_nil, List.mem_append, List.mem_singleton, false_iff, not_exists, not_or]
        exact fun ty => ⟨fun hm => hno _ hm rfl, by simp⟩
      | sub m b =>
        refine ⟨fun a => ?_, by simp [Op.upd, Op.fresh]⟩
        simp only [Op.upd, Op.fresh, List.not_mem_nil, List.mem_append, List.mem_singleton, false_iff, not_exists, not_or]
        exact fun ty => ⟨fun hm => hno _ hm rfl, by simp⟩
      | pub m b ty =>
        refine ⟨fun a => ?_, by simp [Op.upd, Op.fresh]⟩
        simp only [Op.upd, Op.fresh, Op.name, List.not_mem_nil, if_false, List.nil_append, List.mem_append, List.mem_singleton, Op.pub.injEq, true_and]
        constructor
        · rintro rfl; exact ⟨ty, Or.inr ⟨rfl, rfl⟩⟩
        · rintro ⟨ty', hm | hm⟩
          · exact absurd rfl (hno (.pub m a ty') hm)
          · exact hm.1
  · intro x hx
    rcases mem_apply hx with ⟨y, hy, ⟨hne, rfl⟩ | ⟨he, rfl⟩⟩ | ⟨hn, rfl⟩
    · refine ⟨fun a => ?_, (h.subs _ hy).2⟩
      rw [(h.subs _ hy).1]
      simp only [List.mem_append, List.mem_singleton]
      constructor
      · exact Or.inl
      · rintro (hm | hm)
        · exact hm
        · exact absurd (by rw [← hm]; rfl) hne
    · rw [upd_name]
      cases o with
      | ins z =>
        refine ⟨fun a => ?_, (h.subs _ hy).2⟩
        show a ∈ y.subs ↔ _
        rw [(h.subs _ hy).1]; simp
      | pub m b ty =>
        refine ⟨fun a => ?_, (h.subs _ hy).2⟩
        show a ∈ y.subs ↔ _
        rw [(h.subs _ hy).1]; simp
      | sub m b =>
        have he' : y.name = m := he
        refine ⟨fun a => ?_, nodup_add _ _ (h.subs _ hy).2⟩
        show a ∈ (if b ∈ y.subs then y.subs else y.subs ++ [b]) ↔ _
        rw [mem_add, (h.subs _ hy).1]
        simp only [List.mem_append, List.mem_singleton, Op.sub.injEq, he', true_and]
    · have hno := hnone hn
      rw [upd_name, fresh_name]
      cases o with
      | ins z =>
        refine ⟨fun a => ?_, by simp [Op.upd, Op.fresh]⟩
        simp only [Op.upd, Op.fresh, List.not_mem_nil, List.mem_append, List.mem_singleton, false_iff, not_or]
        exact ⟨fun hm => hno _ hm rfl, by simp⟩
      | pub m b ty =>
        refine ⟨fun a => ?_, by simp [Op.upd, Op.fresh]⟩
        simp only [Op.upd, Op.fresh, List.not_mem_nil, List.mem_append, List.mem_singleton, false_iff, not_or]
        exact ⟨fun hm => hno _ hm rfl, by simp⟩
      | sub m b =>
        refine ⟨fun a => ?_, by simp [Op.upd, Op.fresh]⟩
        simp only [Op.upd, Op.fresh, Op.name, List.not_mem_nil, if_false, List.nil_append, List.mem_append, List.mem_singleton, Op.sub.injEq, true_and]
        constructor
        · rintro rfl; exact Or.inr rfl
        · rintro (hm | hm)
          · exact absurd rfl (hno (.sub m a) hm)
          · exact hm
  · intro x hx
    rw [filterMap_snoc, head_append]
    rcases mem_apply hx with ⟨y, hy, ⟨hne, rfl⟩ | ⟨he, rfl⟩⟩ | ⟨hn, rfl⟩
    · have ho : offers x.name o = none := by
        cases o with
        | ins z => rfl
        | sub m b => rfl
        | pub m b ty => simp only [offers]; rw [if_neg]; rintro ⟨e, _⟩; exact hne e.symm
      rw [ho, ← h.ty _ hy]; split
      · assumption
      · rfl
    · rw [upd_name, ← h.ty _ hy]
      cases o with
      | ins z => simp only [Op.upd, offers]; split <;> simp_all
      | sub m b => simp only [Op.upd, offers]; split <;> simp_all
      | pub m b ty =>
        have he' : y.name = m := he
        simp only [Op.upd, offers, he', true_and]
        by_cases h1 : y.ty = none <;> by_cases h2 : ty = [] <;> simp [h1, h2]
    · have hno := hnone hn
      have hf : ops.filterMap (offers o.name) = [] := by
        rw [List.filterMap_eq_nil_iff]
        intro p hp
        cases p with
        | ins z => rfl
        | sub m b => rfl
        | pub m b ty => simp only [offers]; rw [if_neg]; rintro ⟨e, _⟩; exact hno _ hp e
      rw [upd_name, fresh_name, hf]
      cases o with
      | ins z => simp [Op.upd, Op.fresh, offers]
      | sub m b => simp [Op.upd, Op.fresh, offers]
      | pub m b ty => by_cases h2 : ty = [] <;> simp [Op.upd, Op.fresh, offers, Op.name, h2]
  · intro x hx
    rcases mem_apply hx with ⟨y, hy, ⟨hne, rfl⟩ | ⟨he, rfl⟩⟩ | ⟨hn, rfl⟩
    · rw [find_snoc_some _ _ _ (hname _ hy)]; exact h.base _ hy
    · rw [upd_name, find_snoc_some _ _ _ (hname _ hy)]
      have := h.base _ hy
      cases o <;> exact this
    · rw [upd_name, fresh_name, find_snoc_none _ _ fun ⟨p, hp, e⟩ => hnone hn p hp e]
      cases o <;> rfl

theorem says_all (ops : List Op) : Says ops (ops.foldl apply []) := by
  induction ops using List.reverseRecOn with
  | nil => exact says_nil
  | append_singleton ops o ih => rw [List.foldl_append]; exact says_step ops _ o ih

theorem mem_find {alive : Nat → Bool} {dir : List Entry} {sub : List Meta} {nodes : List Node} {x : Topic} : x ∈ find alive dir sub nodes ↔ x ∈ (work alive dir sub nodes).foldl apply [] := by
  unfold find; exact List.mem_insertionSort _

theorem ins_mem {alive : Nat → Bool} {dir : List Entry} {sub : List Meta} {nodes : List Node} {t : Topic} :
    Op.ins t ∈ work alive dir sub nodes ↔ ∃ e ∈ dir ++ sub.map Entry.desc, Op.ins t ∈ entryOps alive e := by
  unfold work
  rw [List.mem_append, List.mem_flatMap, List.mem_flatMap]
  constructor
  · rintro (h | ⟨nd, _, h⟩)
    · exact h
    · simp [nodeOps] at h
  · exact Or.inl

theorem pub_mem {alive : Nat → Bool} {dir : List Entry} {sub : List Meta} {nodes : List Node} {n a ty : Text} :
    Op.pub n a ty ∈ work alive dir sub nodes ↔ ∃ nd ∈ nodes, nd.name = a ∧ (n, ty) ∈ nd.pubs := by
  unfold work
  rw [List.mem_append, List.mem_flatMap, List.mem_flatMap]
  constructor
  · rintro (⟨e, _, h⟩ | ⟨nd, hnd, h⟩)
    · cases e <;> simp [entryOps] at h
    · simp only [nodeOps, List.mem_append, List.mem_map, Op.pub.injEq, reduceCtorEq, and_false, exists_false, or_false] at h
      obtain ⟨p, hp, rfl, rfl, rfl⟩ := h
      exact ⟨nd, hnd, rfl, hp⟩
  · rintro ⟨nd, hnd, rfl, hp⟩
    exact Or.inr ⟨nd, hnd, by simp only [nodeOps, List.mem_append, List.mem_map]; exact Or.inl ⟨(n, ty), hp, rfl⟩⟩

theorem sub_mem {alive : Nat → Bool} {dir : List Entry} {sub : List Meta} {nodes : List Node} {n a : Text} :
    Op.sub n a ∈ work alive dir sub nodes ↔ ∃ nd ∈ nodes, nd.name = a ∧ n ∈ nd.subs := by
  unfold work
  rw [List.mem_append, List.mem_flatMap, List.mem_flatMap]
  constructor
  · rintro (⟨e, _, h⟩ | ⟨nd, hnd, h⟩)
    · cases e <;> simp [entryOps] at h
    · simp only [nodeOps, List.mem_append, List.mem_map, Op.sub.injEq, reduceCtorEq, and_false, exists_false, false_or] at h
      obtain ⟨p, hp, rfl, rfl⟩ := h
      exact ⟨nd, hnd, rfl, hp⟩
  · rintro ⟨nd, hnd, rfl, hp⟩
    exact Or.inr ⟨nd, hnd, by simp only [nodeOps, List.mem_append, List.mem_map]; exact Or.inr ⟨n, hp, rfl⟩⟩

/-- A directory entry speaks of the topic: a description with a valid name, or the region's file. -/
def Speaks (e : Entry) (n : Text) : Prop :=
  match e with
  | .desc m => m.name = n ∧ validRegion n = true
  | .raw m _ _ => m = n

/-! ### C265 -/

/-- **What is listed**: each topic once, in order of name; exactly the topics that a file or a valid
description speaks of and those a running node publishes or subscribes. -/
theorem listed_exact (alive : Nat → Bool) (dir : List Entry) (sub : List Meta) (nodes : List Node) :
    ((find alive dir sub nodes).map (·.name)).Pairwise (· < ·) ∧
    ∀ n, n ∈ (find alive dir sub nodes).map (·.name) ↔
      (∃ e ∈ dir ++ sub.map Entry.desc, Speaks e n) ∨ (∃ nd ∈ nodes, (∃ ty, (n, ty) ∈ nd.pubs) ∨ n ∈ nd.subs) := by
  have S := says_all (work alive dir sub nodes)
  constructor
  · have hs : ((find alive dir sub nodes).map (·.name)).Pairwise (· ≤ ·) := by
      rw [List.pairwise_map]
      have : Std.Total (fun a b : Topic => a.name ≤ b.name) := ⟨fun a b => le_total a.name b.name⟩
      have : IsTrans Topic (fun a b => a.name ≤ b.name) := ⟨fun a b c => le_trans⟩
      exact List.pairwise_insertionSort (fun a b : Topic => a.name ≤ b.name) _
    have hn : ((find alive dir sub nodes).map (·.name)).Nodup := by
      have hp : List.Perm (find alive dir sub nodes) ((work alive dir sub nodes).foldl apply []) := List.perm_insertionSort _ _
      exact (hp.map (·.name)).nodup_iff.2 S.once
    exact (List.Pairwise.and hs hn).imp fun h => lt_of_le_of_ne h.1 h.2
  · intro n
    have : n ∈ (find alive dir sub nodes).map (·.name) ↔ n ∈ ((work alive dir sub nodes).foldl apply []).map (·.name) := by
      simp only [List.mem_map, mem_find]
    rw [this, S.names]
    constructor
    · rintro ⟨o, ho, rfl⟩
      cases o with
      | ins t =>
        obtain ⟨e, he, hm⟩ := ins_mem.1 ho
        refine Or.inl ⟨e, he, ?_⟩
        cases e with
        | desc m =>
          simp only [entryOps] at hm
          split at hm
          · rename_i hv
            simp only [List.mem_singleton, Op.ins.injEq] at hm
            subst hm
            exact ⟨rfl, hv⟩
          · cases hm
        | raw m s l =>
          simp only [entryOps, List.mem_singleton, Op.ins.injEq] at hm
          subst hm; rfl
      | pub m a ty =>
        obtain ⟨nd, hnd, _, hp⟩ := pub_mem.1 ho
        exact Or.inr ⟨nd, hnd, Or.inl ⟨ty, hp⟩⟩
      | sub m a =>
        obtain ⟨nd, hnd, _, hp⟩ := sub_mem.1 ho
        exact Or.inr ⟨nd, hnd, Or.inr hp⟩
    · rintro (⟨e, he, hs⟩ | ⟨nd, hnd, ⟨ty, hp⟩ | hp⟩)
      · cases e with
        | desc m =>
          obtain ⟨rfl, hv⟩ := hs
          exact ⟨.ins { name := m.name, size := m.size, pid := m.pid, alive := alive m.pid }, ins_mem.2 ⟨_, he, by simp [entryOps, hv]⟩, rfl⟩
        | raw m s l =>
          have hs' : m = n := hs
          subst hs'
          exact ⟨.ins { name := m, size := s, pid := 0, alive := l }, ins_mem.2 ⟨_, he, by simp [entryOps]⟩, rfl⟩
      · exact ⟨.pub n nd.name ty, pub_mem.2 ⟨nd, hnd, rfl, hp⟩, rfl⟩
      · exact ⟨.sub n nd.name, sub_mem.2 ⟨nd, hnd, rfl, hp⟩, rfl⟩

/-- **Who uses it**: the publishers shown for a topic are exactly the running nodes that publish it, each
once, and likewise the subscribers. -/
theorem users_exact (alive : Nat → Bool) (dir : List Entry) (sub : List Meta) (nodes : List Node) (x : Topic) (hx : x ∈ find alive dir sub nodes) :
    (∀ a, a ∈ x.pubs ↔ ∃ nd ∈ nodes, nd.name = a ∧ ∃ ty, (x.name, ty) ∈ nd.pubs) ∧ x.pubs.Nodup ∧
    (∀ a, a ∈ x.subs ↔ ∃ nd ∈ nodes, nd.name = a ∧ x.name ∈ nd.subs) ∧ x.subs.Nodup := by
  have S := says_all (work alive dir sub nodes)
  have hx' := mem_find.1 hx
  refine ⟨fun a => ?_, (S.pubs x hx').2, fun a => ?_, (S.subs x hx').2⟩
  · rw [(S.pubs x hx').1]
    constructor
    · rintro ⟨ty, h⟩
      obtain ⟨nd, h1, h2, h3⟩ := pub_mem.1 h
      exact ⟨nd, h1, h2, ty, h3⟩
    · rintro ⟨nd, h1, h2, ty, h3⟩
      exact ⟨ty, pub_mem.2 ⟨nd, h1, h2, h3⟩⟩
  · rw [(S.subs x hx').1]; exact sub_mem

theorem offers_entries (alive : Nat → Bool) (n : Text) (l : List Entry) : (l.flatMap (entryOps alive)).filterMap (offers n) = [] := by
  rw [List.filterMap_eq_nil_iff]
  intro o ho
  obtain ⟨e, _, h⟩ := List.mem_flatMap.1 ho
  cases e with
  | desc m => simp only [entryOps] at h; split at h <;> simp at h; subst h; rfl
  | raw m s b => simp only [entryOps, List.mem_singleton] at h; subst h; rfl

theorem offers_nodes (n : Text) (nodes : List Node) : (nodes.flatMap nodeOps).filterMap (offers n) = ((nodes.flatMap (·.pubs)).filter fun p => decide (p.1 = n ∧ p.2 ≠ [])).map (·.2) := by
  induction nodes with
  | nil => rfl
  | cons nd nodes ih =>
    rw [List.flatMap_cons, List.flatMap_cons, List.filterMap_append, List.filter_append, List.map_append, ih]
    congr 1
    simp only [nodeOps, List.filterMap_append, List.filterMap_map]
    have hs : nd.subs.filterMap (offers n ∘ fun n => Op.sub n nd.name) = [] := by
      rw [List.filterMap_eq_nil_iff]; intro n _; rfl
    rw [hs, List.append_nil]
    generalize nd.pubs = ps
    induction ps with
    | nil => rfl
    | cons p ps ihp =>
      rw [List.filterMap_cons, List.filter_cons]
      dsimp only [Function.comp, offers]
      by_cases h : p.1 = n ∧ p.2 ≠ []
      · rw [if_pos h, if_pos (by simpa using h), List.map_cons, ← ihp]
      · rw [if_neg h, if_neg (by simpa using h), ← ihp]

/-- **Its type** is the first type name, not empty, that a publisher gives, in the order of the nodes. -/
theorem type_first (alive : Nat → Bool) (dir : List Entry) (sub : List Meta) (nodes : List Node) (x : Topic) (hx : x ∈ find alive dir sub nodes) :
    x.ty = (((nodes.flatMap (·.pubs)).filter fun p => decide (p.1 = x.name ∧ p.2 ≠ [])).head?).map (·.2) := by
  have S := says_all (work alive dir sub nodes)
  rw [S.ty x (mem_find.1 hx)]
  unfold work
  rw [List.filterMap_append, offers_entries, List.nil_append, offers_nodes, List.head?_map]

/-- The verdict of a directory entry: size, creator (0 when unknown) and whether it is in use. -/
def verdict (alive : Nat → Bool) : Entry → Nat × Nat × Bool
  | .desc m => (m.size, m.pid, alive m.pid)
  | .raw _ s l => (s, 0, l)

/-- Decides `Speaks`. -/
def speaks (n : Text) : Entry → Bool
  | .desc m => decide (m.name = n) && validRegion n
  | .raw m _ _ => decide (m = n)

theorem speaks_iff (n : Text) (e : Entry) : speaks n e = true ↔ Speaks e n := by
  cases e <;> simp [speaks, Speaks]

theorem find_entries (alive : Nat → Bool) (n : Text) (l : List Entry) :
    ((l.flatMap (entryOps alive)).find? fun o => decide (o.name = n)).map (fun o => (o.fresh.size, o.fresh.pid, o.fresh.alive)) = (l.find? (speaks n)).map (verdict alive) := by
  induction l with
  | nil => rfl
  | cons e l ih =>
    rw [List.flatMap_cons, List.find?_append, List.find?_cons]
    have key : (speaks n e = true ∧ ((entryOps alive e).find? fun o => decide (o.name = n)).map (fun o => (o.fresh.size, o.fresh.pid, o.fresh.alive)) = some (verdict alive e)) ∨ (speaks n e = false ∧ ((entryOps alive e).find? fun o => decide (o.name = n)) = none) := by
      cases e with
      | raw m s b =>
        by_cases h : m = n
        · left; simp [entryOps, speaks, h, Op.name, Op.fresh, verdict]
        · right; simp [entryOps, speaks, h, Op.name]
      | desc m =>
        by_cases hv : validRegion m.name = true
        · by_cases h : m.name = n
          · left; subst h; simp [entryOps, speaks, hv, Op.name, Op.fresh, verdict]
          · right; simp [entryOps, speaks, h, hv, Op.name]
        · right
          refine ⟨?_, by simp [entryOps, hv]⟩
          by_cases h : m.name = n
          · subst h; simp [speaks, hv]
          · simp [speaks, h]
    rcases key with ⟨h1, h2⟩ | ⟨h1, h2⟩
    · obtain ⟨o, ho, hv⟩ := Option.map_eq_some_iff.1 h2
      rw [h1, ho]
      simpa using hv
    · rw [h1, h2, Option.none_or]; exact ih

/-- **In use or not** is what the first entry that speaks of the topic says, in the order the directory
is read; a topic known only from a node counts as in use. -/
theorem first_decides (alive : Nat → Bool) (dir : List Entry) (sub : List Meta) (nodes : List Node) (x : Topic) (hx : x ∈ find alive dir sub nodes) :
    (x.size, x.pid, x.alive) = (((dir ++ sub.map Entry.desc).find? (speaks x.name)).map (verdict alive)).getD (0, 0, true) := by
  have S := says_all (work alive dir sub nodes)
  have hb := S.base x (mem_find.1 hx)
  rw [← find_entries]
  unfold work at hb
  rw [List.find?_append] at hb
  cases hf : (((dir ++ sub.map Entry.desc).flatMap (entryOps alive)).find? fun o => decide (o.name = x.name)) with
  | some o => rw [hf] at hb; simpa using hb.symm
  | none =>
    rw [hf] at hb
    simp only [Option.none_or] at hb
    cases hn : ((nodes.flatMap nodeOps).find? fun o => decide (o.name = x.name)) with
    | none => rw [hn] at hb; cases hb
    | some o =>
      rw [hn] at hb
      obtain ⟨nd, _, ho⟩ := List.mem_flatMap.1 (List.mem_of_find?_eq_some hn)
      simp only [Option.map_some, Option.some.injEq] at hb
      rw [← hb]
      simp only [nodeOps, List.mem_append, List.mem_map] at ho
      rcases ho with ⟨p, _, rfl⟩ | ⟨p, _, rfl⟩ <;> rfl

/-- **What is deleted**: only topics whose first entry is a description with a valid name and a creator
that is not running; in particular no name that leads out of the topics directory. -/
theorem deleted_only (alive : Nat → Bool) (dir : List Entry) (sub : List Meta) (nodes : List Node) (x : Topic) (hx : x ∈ doomed (find alive dir sub nodes)) :
    ∃ m, (dir ++ sub.map Entry.desc).find? (speaks x.name) = some (.desc m) ∧ m.name = x.name ∧ validRegion x.name = true ∧ alive m.pid = false ∧ 0 < m.pid := by
  unfold doomed at hx
  obtain ⟨hx, hd⟩ := List.mem_filter.1 hx
  simp only [Bool.and_eq_true, Bool.not_eq_true', decide_eq_true_eq] at hd
  have hf := first_decides alive dir sub nodes x hx
  cases he : (dir ++ sub.map Entry.desc).find? (speaks x.name) with
  | none =>
    rw [he] at hf
    have : x.pid = 0 := by simpa using (Prod.mk.inj (Prod.mk.inj hf).2).1
    omega
  | some e =>
    rw [he] at hf
    have hs := List.find?_some he
    cases e with
    | raw m s l =>
      have : x.pid = 0 := by simpa [verdict] using (Prod.mk.inj (Prod.mk.inj hf).2).1
      omega
    | desc m =>
      have hs' := (speaks_iff _ _).1 hs
      simp only [Option.map_some, Option.getD_some, verdict, Prod.mk.injEq] at hf
      exact ⟨m, rfl, hs'.1, hs'.2, by rw [← hf.2.2]; exact hd.1, by rw [← hf.2.1]; exact hd.2⟩

/-- **The status shown**: active means a running creator, a file touched within 30 seconds and a readable
header; stale means no header, or no known creator and nothing for five minutes. -/
theorem status_exact (live : Bool) (age : Option Nat) (header : Bool) :
    (status live age header = .active ↔ header = true ∧ live = true ∧ ∃ s, age = some s ∧ s < 30) ∧
    (status live age header = .stale ↔ header = false ∨ (live = false ∧ ∀ s, age = some s → 300 ≤ s)) := by
  cases header <;> cases live <;> cases age with
  | none => simp [status]
  | some s =>
    simp only [status]
    first
      | simp; done
      | (by_cases h : s < 30 <;> by_cases h' : 300 ≤ s <;> simp [h, h'])

/-- **The rate shown** is twice the messages of half a second, and never negative. -/
theorem rate_exact (before k : Nat) : rate before (before + k) = 2 * k ∧ ∀ after, after ≤ before → rate before after = 0 := by
  unfold rate
  exact ⟨by omega, fun after h => by omega⟩

/-- **Finding: a topic in use can be deleted and hidden, or kept and shown, by the order of the
directory.** The creator (1) is gone, another process has the topic open. -/
theorem order_decides :
    let m : Meta := ⟨['i', 'm', 'u'], 9, 1⟩
    let f := Entry.raw ['i', 'm', 'u'] 9 true
    (doomed (find (fun _ => false) [.desc m, f] [] [])).map (·.name) = [['i', 'm', 'u']] ∧ shown (find (fun _ => false) [.desc m, f] [] []) = [] ∧
    doomed (find (fun _ => false) [f, .desc m] [] []) = [] ∧ (shown (find (fun _ => false) [f, .desc m] [] [])).map (·.name) = [['i', 'm', 'u']] := by
  decide +kernel

/-- **Finding: a topic in use is shown as stale** when its file is read before its description and has
not been touched for five minutes: its creator then counts as unknown. -/
theorem used_shown_stale :
    (shown (find (fun _ => true) [.raw ['i', 'm', 'u'] 9 true, .desc ⟨['i', 'm', 'u'], 9, 1⟩] [] [])).map (fun t => (t.name, status (decide (0 < t.pid)) (some 300) true)) = [(['i', 'm', 'u'], .stale)] ∧
    (shown (find (fun _ => true) [.desc ⟨['i', 'm', 'u'], 9, 1⟩, .raw ['i', 'm', 'u'] 9 true] [] [])).map (fun t => (t.name, status (decide (0 < t.pid)) (some 300) true)) = [(['i', 'm', 'u'], .idle)] := by
  decide +kernel

/-- **Finding: names from node files are not checked**; one that leads out of the directory is listed
(and its header is then read), while a description with that name is refused. -/
theorem node_names_unchecked :
    (find (fun _ => true) [] [] [⟨['n'], [(['.', '.', '/', 'x'], [])], []⟩]).map (·.name) = [['.', '.', '/', 'x']] ∧
    find (fun _ => true) [.desc ⟨['.', '.', '/', 'x'], 1, 1⟩] [] [] = [] := by
  decide +kernel

/-! ### Listing while topics are in use -/

/-- The directory, its descriptions and who has what open. `link`: the region a name leads to; `metas`:
the description at a file stem (shm/mod.rs:588): topic and creator; `holds`: process, topic, region. -/
structure Sys where
  link : Text → Option Nat := fun _ => none
  next : Nat := 0
  metas : Text → Option (Text × Nat) := fun _ => none
  holds : List (Nat × Text × Nat) := []
  gone : List Nat := []

/-- What happens. `list first`: somebody lists the topics; `first n` says that the directory gives the
description of `n` before its file. -/
inductive Act
  | «open» (p : Nat) (n : Text)
  | close (p : Nat) (n : Text)
  | exit (p : Nat)
  | sweep
  | list (first : Text → Bool)

/-- No slash: the file lies in the topics directory itself, where the scans look (discover/mod.rs:310-313,
topics.rs:132-137). -/
def flat (n : Text) : Bool := !n.contains '/'

/-- The stem under which listing deletes a description (topics.rs:19): only dots are replaced. -/
def dots (n : Text) : Text := n.map fun c => if c = '.' then '_' else c

/-- Does anyone have the region open (`is_shm_file_stale`, shm/mod.rs:674-709)? -/
def used (s : Sys) (i : Nat) : Bool := s.holds.any fun h => h.2.2 == i

/-- Does listing delete the topic (`first_decides`, topics.rs:16-23)? -/
def kills (s : Sys) (first : Text → Bool) (n : Text) : Bool :=
  match s.metas (sanitize n) with
  | some (m, p) => decide (m = n) && s.gone.contains p && (first n || !flat n || (s.link n).isNone)
  | none => false

/-- One event. Opening joins the region the name leads to, or creates one and its description
(linux.rs:100-161); closing removes both names when nobody else has the region open (linux.rs:297-307);
a process that ends just lets go; the sweep deletes the files in the directory that nobody has locked,
descriptions included (topics.rs:131-144). -/
def step (s : Sys) : Act → Sys
  | .open p n =>
    if s.gone.contains p || s.holds.any (fun h => h.1 == p && h.2.1 == n) then s
    else match s.link n with
      | some i => { s with holds := (p, n, i) :: s.holds }
      | none => { s with link := fun m => if m = n then some s.next else s.link m, next := s.next + 1, metas := fun f => if f = sanitize n then some (n, p) else s.metas f, holds := (p, n, s.next) :: s.holds }
  | .close p n =>
    match s.holds.find? fun h => h.1 == p && h.2.1 == n with
    | none => s
    | some (_, _, i) =>
      let rest := s.holds.filter fun h => !(h.1 == p && h.2.1 == n)
      if rest.any fun h => h.2.2 == i then { s with holds := rest }
      else { s with holds := rest, link := fun m => if m = n then none else s.link m, metas := fun f => if f = sanitize n then none else s.metas f }
  | .exit p => { s with gone := p :: s.gone, holds := s.holds.filter fun h => !(h.1 == p) }
  | .sweep => { s with link := fun n => if flat n && !((s.link n).any (used s)) then none else s.link n, metas := fun _ => none }
  | .list first => { s with link := fun n => if kills s first n then none else s.link n, metas := fun f => match s.metas f with | some (n, p) => if kills s first n && decide (dots n = f) then none else some (n, p) | none => none }

/-- A history. -/
def run (s : Sys) (as : List Act) : Sys := as.foldl step s

/-- Every process that has a topic open is on the region its name leads to. -/
def Together (s : Sys) : Prop := ∀ p n i, (p, n, i) ∈ s.holds → s.link n = some i

/-- The step deletes no topic that somebody has open. -/
def Harmless (s : Sys) : Act → Prop
  | .list first => ∀ p n i, (p, n, i) ∈ s.holds → kills s first n = false
  | _ => True

/-- Every step of the history does. -/
def Careful : Sys → List Act → Prop
  | _, [] => True
  | s, a :: as => Harmless s a ∧ Careful (step s a) as

/-- The working invariant: everyone is together, and regions belong to one name. -/
structure Ok (s : Sys) : Prop where
  tog : Together s
  inj : ∀ n m i, s.link n = some i → s.link m = some i → n = m
  lt : ∀ n i, s.link n = some i → i < s.next

theorem ok_step (s : Sys) (a : Act) (h : Ok s) (ha : Harmless s a) : Ok (step s a) := by
  cases a with
  | «open» p n =>
    simp only [step]
    split
    · exact h
    · cases hl : s.link n with
      | some i =>
        dsimp only
        refine ⟨?_, h.inj, h.lt⟩
        intro q m j hm
        rcases List.mem_cons.1 hm with hm | hm
        · cases hm; exact hl
        · exact h.tog q m j hm
      | none =>
        dsimp only
        refine ⟨?_, ?_, ?_⟩
        · intro q m j hm
          dsimp only at hm ⊢
          rcases List.mem_cons.1 hm with hm' | hm'
          · cases hm'; rw [if_pos rfl]
          · rw [if_neg]
            · exact h.tog q m j hm'
            · rintro rfl; rw [h.tog q m j hm'] at hl; cases hl
        · intro m k i h1 h2
          dsimp only at h1 h2
          split at h1 <;> split at h2
          · simp_all
          · cases h1; exact absurd (h.lt k _ h2) (Nat.lt_irrefl _)
          · cases h2; exact absurd (h.lt m _ h1) (Nat.lt_irrefl _)
          · exact h.inj m k i h1 h2
        · intro m i h1
          dsimp only at h1 ⊢
          split at h1
          · cases h1; omega
          · exact Nat.lt_succ_of_lt (h.lt m i h1)
  | close p n =>
    simp only [step]
    cases hf : (s.holds.find? fun h => h.1 == p && h.2.1 == n) with
    | none => exact h
    | some x =>
      obtain ⟨q, m, i⟩ := x
      have hq := List.find?_some hf
      have hx := List.mem_of_find?_eq_some hf
      simp only [Bool.and_eq_true, beq_iff_eq] at hq
      obtain ⟨rfl, rfl⟩ := hq
      dsimp only
      split
      · exact ⟨fun a b c hm => h.tog a b c (List.mem_filter.1 hm).1, h.inj, h.lt⟩
      · rename_i hr
        simp only [Bool.not_eq_true, List.any_eq_false, beq_iff_eq] at hr
        have hli := h.tog q m i hx
        refine ⟨?_, ?_, ?_⟩
        · intro a b c hm
          dsimp only at hm ⊢
          have hbc := h.tog a b c (List.mem_filter.1 hm).1
          rw [if_neg]
          · exact hbc
          · rintro rfl
            rw [hli] at hbc
            cases hbc
            exact hr _ hm rfl
        · intro a b c h1 h2
          dsimp only at h1 h2
          split at h1
          · cases h1
          · split at h2
            · cases h2
            · exact h.inj a b c h1 h2
        · intro a c h1
          dsimp only at h1 ⊢
          split at h1
          · cases h1
          · exact h.lt a c h1
  | exit p => exact ⟨fun a b c hm => h.tog a b c (List.mem_filter.1 hm).1, h.inj, h.lt⟩
  | sweep =>
    simp only [step]
    refine ⟨?_, ?_, ?_⟩
    · intro a b c hm
      have hbc := h.tog a b c hm
      dsimp only at hm ⊢
      rw [if_neg]
      · exact hbc
      · rw [hbc]
        simp only [Option.any_some, Bool.and_eq_true, Bool.not_eq_true', not_and, Bool.not_eq_false]
        intro _
        unfold used
        rw [List.any_eq_true]
        exact ⟨_, hm, by simp⟩
    · intro a b c h1 h2
      dsimp only at h1 h2
      split at h1
      · cases h1
      · split at h2
        · cases h2
        · exact h.inj a b c h1 h2
    · intro a c h1
      dsimp only at h1 ⊢
      split at h1
      · cases h1
      · exact h.lt a c h1
  | list first =>
    simp only [step]
    refine ⟨?_, ?_, ?_⟩
    · intro a b c hm
      dsimp only at hm ⊢
      rw [if_neg (by rw [ha a b c hm]; decide)]
      exact h.tog a b c hm
    · intro a b c h1 h2
      dsimp only at h1 h2
      split at h1
      · cases h1
      · split at h2
        · cases h2
        · exact h.inj a b c h1 h2
    · intro a c h1
      dsimp only at h1 ⊢
      split at h1
      · cases h1
      · exact h.lt a c h1

theorem ok_run (as : List Act) : ∀ s, Ok s → Careful s as → Ok (run s as) := by
  induction as with
  | nil => intro s h _; exact h
  | cons a as ih => intro s h hc; exact ih _ (ok_step s a h hc.1) hc.2

theorem ok_init : Ok {} := by
  refine ⟨?_, ?_, ?_⟩
  · intro p n i h; cases h
  · intro n m i h; cases h
  · intro n i h; cases h

/-- **Users of a topic stay together**, through opening, closing, leaving, sweeping and listing, as long as
no listing deletes a topic that is open: all processes that have a topic open share one region. -/
theorem together_partial (as : List Act) (hc : Careful {} as) (p q : Nat) (n : Text) (i j : Nat)
    (hp : (p, n, i) ∈ (run {} as).holds) (hq : (q, n, j) ∈ (run {} as).holds) : i = j := by
  have h := (ok_run as {} ok_init hc).tog
  have := h p n i hp
  rw [h q n j hq] at this
  exact (Option.some.inj this).symm

/-- Everything but listing. -/
def noList : Act → Bool
  | .list _ => false
  | _ => true

theorem careful_noList (as : List Act) (hn : ∀ a ∈ as, noList a = true) : ∀ s, Careful s as := by
  induction as with
  | nil => intro s; trivial
  | cons a as ih =>
    intro s
    refine ⟨?_, ih (fun b hb => hn b (List.mem_cons_of_mem _ hb)) _⟩
    have ha := hn a List.mem_cons_self
    cases a with
    | list f => cases ha
    | _ => trivial

/-- **Without listing they always stay together**, whatever else happens in whatever order. -/
theorem together_without_list (as : List Act) (hn : ∀ a ∈ as, noList a = true) (p q : Nat) (n : Text) (i j : Nat)
    (hp : (p, n, i) ∈ (run {} as).holds) (hq : (q, n, j) ∈ (run {} as).holds) : i = j :=
  together_partial as (careful_noList as hn _) p q n i j hp hq

/-- **A topic whose creator runs is not deleted by listing**, and one whose creator is gone is, although
others have it open, when the directory gives its description first. -/
theorem kills_iff (s : Sys) (first : Text → Bool) (n : Text) :
    kills s first n = true ↔ ∃ p, s.metas (sanitize n) = some (n, p) ∧ p ∈ s.gone ∧ (first n = true ∨ '/' ∈ n ∨ s.link n = none) := by
  unfold kills flat
  cases hm : s.metas (sanitize n) with
  | none => simp
  | some x =>
    obtain ⟨m, p⟩ := x
    simp only [Bool.and_eq_true, Bool.or_eq_true, decide_eq_true_eq, Bool.not_not, List.contains_iff_mem, Option.isNone_iff_eq_none, Option.some.injEq, Prod.mk.injEq]
    constructor
    · rintro ⟨⟨rfl, h2⟩, h3⟩
      exact ⟨p, ⟨rfl, rfl⟩, h2, by tauto⟩
    · rintro ⟨q, ⟨h1, rfl⟩, h2, h3⟩
      exact ⟨⟨h1, h2⟩, by tauto⟩

/-- Example of a careful history with a listing: creator and user both run. -/
example : Careful {} [.open 1 ['a'], .open 2 ['a'], .list fun _ => true] := by
  refine ⟨trivial, trivial, ?_, trivial⟩
  intro p n i _
  unfold kills
  split
  · rename_i m q _; simp [step]
  · rfl

/-- **Finding: listing splits a topic in use.** For every topic and any three processes: one creates it, a
second joins, the first ends, somebody lists the topics with the description read first, and a third
opens it. The second and third then have different regions: nothing one sends reaches the other. -/
theorem list_splits (n : Text) (p q r : Nat) (hpq : p ≠ q) (hpr : p ≠ r) (hqr : q ≠ r) (first : Text → Bool) (hf : first n = true) :
    (run {} [.open p n, .open q n, .exit p, .list first, .open r n]).holds = [(r, n, 1), (q, n, 0)] := by
  simp [run, step, kills, hf, hpq.symm, hpr.symm, hpq, hpr, hqr]

/-- **Finding: the remaining user of the split topic, on closing, deletes the new one's name**; the next
process gets a third region while the third process still runs. -/
theorem orphan_close_removes (n : Text) (p q r t : Nat) (hpq : p ≠ q) (hpr : p ≠ r) (hqr : q ≠ r) (hpt : p ≠ t) (hrt : r ≠ t) (first : Text → Bool) (hf : first n = true) :
    (run {} [.open p n, .open q n, .exit p, .list first, .open r n, .close q n, .open t n]).holds = [(t, n, 2), (r, n, 1)] := by
  simp [run, step, kills, hf, hpq, hpr, hqr, hpq.symm, hpr.symm, hqr.symm, hpt, hrt, hpt.symm, hrt.symm]

/-- **Finding: starting a program hides nested topics.** After the sweep of `horus run` no description is
left, so a topic with a slash in its name that no node file speaks of is no longer listed, though it is
open and works. -/
theorem sweep_hides (s : Sys) (f : Text) : (step s .sweep).metas f = none := rfl

/-- **The sweep never takes the file of a topic in use**, nor any file below a subdirectory. -/
theorem sweep_keeps (s : Sys) (n : Text) (i : Nat) (h : s.link n = some i) :
    (step s .sweep).link n = some i ↔ '/' ∈ n ∨ ∃ p m, (p, m, i) ∈ s.holds := by
  simp only [step, h, flat, used, Option.any_some]
  constructor
  · intro hh
    split at hh
    · cases hh
    · rename_i hc
      by_cases hs : '/' ∈ n
      · exact Or.inl hs
      · right
        simp only [Bool.and_eq_true, Bool.not_eq_true', not_and, Bool.not_eq_false] at hc
        have := hc (by simpa using hs)
        obtain ⟨⟨p, m, j⟩, hx, he⟩ := List.any_eq_true.1 this
        have he' : j = i := by simpa using he
        subst he'
        exact ⟨p, m, hx⟩
  · rintro (hs | ⟨p, m, hx⟩)
    · rw [if_neg (by simp [hs])]
    · rw [if_neg]
      have : (s.holds.any fun h => h.2.2 == i) = true := List.any_eq_true.2 ⟨_, hx, by simp⟩
      simp [this]

/-- **Finding: three names, one description.** Topics `a.b`, `a_b` and `a/b` are different regions and
share the description `a_b`; closing any of them removes the description of the others. -/
theorem shared_description :
    sanitize ['a', '.', 'b'] = sanitize ['a', '_', 'b'] ∧ sanitize ['a', '/', 'b'] = sanitize ['a', '_', 'b'] ∧
    (run {} [.open 1 ['a', '.', 'b'], .open 2 ['a', '_', 'b'], .close 2 ['a', '_', 'b']]).metas (sanitize ['a', '.', 'b']) = none ∧
    (run {} [.open 1 ['a', '.', 'b'], .open 2 ['a', '_', 'b'], .close 2 ['a', '_', 'b']]).holds = [(1, ['a', '.', 'b'], 0)] := by
  decide +kernel

/-- **Finding: a description can outlive its topic** when the name has a slash: listing deletes the
region's name and looks for the description under another stem. -/
theorem description_left :
    (run {} [.open 1 ['a', '/', 'b'], .exit 1, .list fun _ => true]).link ['a', '/', 'b'] = none ∧
    (run {} [.open 1 ['a', '/', 'b'], .exit 1, .list fun _ => true]).metas (sanitize ['a', '/', 'b']) = some (['a', '/', 'b'], 1) := by
  decide +kernel

end Horus.TopicList
