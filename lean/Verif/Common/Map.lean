import Mathlib.Tactic.Common
/-
A tiny finite map (association list) used to model Rust's `HashMap` / `BTreeMap`.
Only key lookup, insertion, removal and size are observable; iteration order is not relied on
unless a model says so.
-/
namespace Horus

/-- Finite map as an association list. -/
abbrev Map (κ ν : Type) := List (κ × ν)

namespace Map
variable {κ ν : Type} [DecidableEq κ]

/-- `HashMap::get`. -/
def get (m : Map κ ν) (k : κ) : Option ν :=
  match m with
  | [] => none
  | (k', v) :: rest => if k' = k then some v else get rest k

/-- `HashMap::insert`: replace in place if present, else add. -/
def set (m : Map κ ν) (k : κ) (v : ν) : Map κ ν :=
  match m with
  | [] => [(k, v)]
  | (k', v') :: rest => if k' = k then (k, v) :: rest else (k', v') :: set rest k v

/-- `HashMap::remove`. -/
def del (m : Map κ ν) (k : κ) : Map κ ν :=
  m.filter fun p => p.1 ≠ k

/-- `HashMap::contains_key`. -/
def has (m : Map κ ν) (k : κ) : Bool := (get m k).isSome

/-- The keys. -/
def keys (m : Map κ ν) : List κ := m.map Prod.fst

/-- No key occurs twice (always true of a `HashMap`). -/
def Ok (m : Map κ ν) : Prop := (keys m).Nodup

@[simp] theorem get_nil (k : κ) : get ([] : Map κ ν) k = none := rfl

theorem get_cons (k' : κ) (v : ν) (m : Map κ ν) (k : κ) :
    get ((k', v) :: m) k = if k' = k then some v else get m k := rfl

theorem get_set (m : Map κ ν) (k k' : κ) (v : ν) :
    get (set m k v) k' = if k = k' then some v else get m k' := by
  induction m with
  | nil => simp [set, get_cons]
  | cons p m ih =>
    obtain ⟨a, b⟩ := p
    unfold set
    by_cases h : a = k
    · subst h
      by_cases h2 : a = k' <;> simp [get_cons, h2]
    · simp only [h, if_false, get_cons, ih]
      by_cases h2 : a = k'
      · subst h2
        have : ¬ k = a := fun e => h e.symm
        simp [this]
      · simp [h2]

@[simp] theorem get_set_self (m : Map κ ν) (k : κ) (v : ν) : get (set m k v) k = some v := by
  simp [get_set]

theorem get_set_ne (m : Map κ ν) {k k' : κ} (v : ν) (h : k ≠ k') :
    get (set m k v) k' = get m k' := by
  simp [get_set, h]

theorem get_filter_key (m : Map κ ν) (p : κ → Bool) (k : κ) :
    get (List.filter (fun x => p x.1) m) k = if p k then get m k else none := by
  induction m with
  | nil => simp
  | cons x m ih =>
    obtain ⟨a, b⟩ := x
    by_cases hp : p a = true
    · simp only [List.filter_cons, hp, if_true, get_cons, ih]
      by_cases h : a = k
      · subst h; simp [hp]
      · simp [h]
    · have hp' : p a = false := by simpa using hp
      simp only [List.filter_cons, hp', get_cons, Bool.false_eq_true, if_false, ih]
      by_cases h : a = k
      · subst h; simp [hp']
      · simp [h]

theorem get_del (m : Map κ ν) (k k' : κ) :
    get (del m k) k' = if k = k' then none else get m k' := by
  have := get_filter_key m (fun x => decide (x ≠ k)) k'
  unfold del
  rw [this]
  by_cases h : k = k'
  · subst h; simp
  · have : k' ≠ k := fun e => h e.symm
    simp [h, this]

@[simp] theorem get_del_self (m : Map κ ν) (k : κ) : get (del m k) k = none := by
  simp [get_del]

theorem get_del_ne (m : Map κ ν) {k k' : κ} (h : k ≠ k') : get (del m k) k' = get m k' := by
  simp [get_del, h]

theorem mem_keys_iff (m : Map κ ν) (k : κ) : k ∈ keys m ↔ (get m k).isSome := by
  induction m with
  | nil => simp [keys]
  | cons p m ih =>
    obtain ⟨a, b⟩ := p
    simp only [keys, List.map_cons, List.mem_cons, get_cons]
    simp only [keys] at ih
    rw [ih]
    by_cases h : a = k
    · simp [h]
    · have : ¬ k = a := fun e => h e.symm
      simp [h, this]

theorem mem_of_get {m : Map κ ν} {k : κ} {v : ν} (h : get m k = some v) : (k, v) ∈ m := by
  induction m with
  | nil => simp at h
  | cons p m ih =>
    obtain ⟨a, b⟩ := p
    rw [get_cons] at h
    split at h
    · rename_i e; subst e; simp at h; subst h; simp
    · exact List.mem_cons_of_mem _ (ih h)

theorem get_of_mem {m : Map κ ν} (hm : Ok m) {k : κ} {v : ν} (h : (k, v) ∈ m) :
    get m k = some v := by
  induction m with
  | nil => simp at h
  | cons p m ih =>
    obtain ⟨a, b⟩ := p
    simp only [Ok, keys, List.map_cons, List.nodup_cons] at hm
    rw [get_cons]
    rcases List.mem_cons.mp h with e | e
    · injection e with e1 e2; simp [e1, e2]
    · have : a ≠ k := by
        rintro rfl
        exact hm.1 (List.mem_map.mpr ⟨_, e, rfl⟩)
      simp [this]; exact ih hm.2 e

theorem keys_set (m : Map κ ν) (k : κ) (v : ν) :
    keys (set m k v) = if k ∈ keys m then keys m else keys m ++ [k] := by
  induction m with
  | nil => simp [set, keys]
  | cons p m ih =>
    obtain ⟨a, b⟩ := p
    unfold set
    by_cases h : a = k
    · subst h; simp [keys]
    · have h' : ¬ k = a := fun e => h e.symm
      simp only [h, if_false]
      by_cases hk : k ∈ keys m
      · rw [if_pos hk] at ih
        rw [if_pos (show k ∈ keys ((a, b) :: m) from List.mem_cons_of_mem _ hk)]
        simp only [keys, List.map_cons] at *
        rw [ih]
      · rw [if_neg hk] at ih
        rw [if_neg (by
          simp only [keys, List.map_cons, List.mem_cons, not_or] at *
          exact ⟨h', hk⟩)]
        simp only [keys, List.map_cons] at *
        rw [ih]; rfl

theorem Ok.set {m : Map κ ν} (hm : Ok m) (k : κ) (v : ν) : Ok (Map.set m k v) := by
  unfold Ok at *
  rw [keys_set]
  split
  · exact hm
  · rename_i h
    rw [List.nodup_append]
    refine ⟨hm, by simp, ?_⟩
    intro a ha b hb
    simp at hb
    subst hb
    rintro rfl
    exact h ha

omit [DecidableEq κ] in
theorem Ok.filter {m : Map κ ν} (hm : Ok m) (p : κ × ν → Bool) : Ok (List.filter p m) := by
  unfold Ok keys at *
  exact hm.sublist (List.Sublist.map _ List.filter_sublist)

theorem Ok.del {m : Map κ ν} (hm : Ok m) (k : κ) : Ok (Map.del m k) := hm.filter _

omit [DecidableEq κ] in
theorem Ok.nil : Ok ([] : Map κ ν) := by simp [Ok, keys]

omit [DecidableEq κ] in
theorem length_keys (m : Map κ ν) : (keys m).length = m.length := by simp [keys]

theorem length_set (m : Map κ ν) (k : κ) (v : ν) :
    (set m k v).length = if (get m k).isSome then m.length else m.length + 1 := by
  rw [← length_keys, keys_set]
  by_cases h : k ∈ keys m
  · have := (mem_keys_iff m k).mp h
    simp [h, this, length_keys]
  · have : ¬ (get m k).isSome := fun e => h ((mem_keys_iff m k).mpr e)
    simp only [h, if_false, this]
    simp [length_keys]

theorem length_del_le (m : Map κ ν) (k : κ) : (del m k).length ≤ m.length := List.length_filter_le _ _

theorem length_del_lt (m : Map κ ν) (k : κ) (h : (get m k).isSome) : (del m k).length < m.length := by
  unfold del
  rw [List.length_filter_lt_length_iff_exists]
  obtain ⟨v, hv⟩ := Option.isSome_iff_exists.mp h
  exact ⟨_, mem_of_get hv, by simp⟩

theorem get_filter {m : Map κ ν} (hm : Ok m) (p : κ × ν → Bool) (k : κ) :
    get (List.filter p m) k = (get m k).filter (fun v => p (k, v)) := by
  induction m with
  | nil => simp
  | cons x m ih =>
    obtain ⟨a, b⟩ := x
    simp only [Ok, keys, List.map_cons, List.nodup_cons] at hm
    have ih := ih hm.2
    by_cases h : a = k
    · subst h
      have hn : get m a = none := by
        cases hg : get m a with
        | none => rfl
        | some v => exact absurd ((mem_keys_iff m a).mpr (by simp [hg])) hm.1
      by_cases hp : p (a, b) = true
      · simp [hp, get_cons, Option.filter]
      · have hp' : p (a, b) = false := by simpa using hp
        simp [hp', get_cons, ih, hn, Option.filter]
    · by_cases hp : p (a, b) = true
      · simp [hp, get_cons, h, ih]
      · have hp' : p (a, b) = false := by simpa using hp
        simp [hp', get_cons, h, ih]

theorem get_mapVal (m : Map κ ν) (f : ν → ν) (k : κ) :
    get (m.map fun x => (x.1, f x.2)) k = (get m k).map f := by
  induction m with
  | nil => rfl
  | cons x m ih =>
    obtain ⟨a, b⟩ := x
    simp only [List.map_cons, get_cons, ih]
    split <;> simp

omit [DecidableEq κ] in
theorem keys_mapVal (m : Map κ ν) (f : ν → ν) : keys (m.map fun x => (x.1, f x.2)) = keys m := by
  simp [keys]

omit [DecidableEq κ] in
theorem Ok.mapVal {m : Map κ ν} (hm : Ok m) (f : ν → ν) : Ok (m.map fun x => (x.1, f x.2)) := by
  unfold Ok; rw [keys_mapVal]; exact hm

theorem mem_filter_keys {m : Map κ ν} (hm : Ok m) (q : ν → Bool) (k : κ) :
    k ∈ (List.filter (fun x => q x.2) m).map Prod.fst ↔ ∃ v, get m k = some v ∧ q v = true := by
  simp only [List.mem_map, List.mem_filter]
  constructor
  · rintro ⟨⟨a, b⟩, ⟨h1, h2⟩, rfl⟩
    exact ⟨b, get_of_mem hm h1, h2⟩
  · rintro ⟨v, h1, h2⟩
    exact ⟨(k, v), ⟨mem_of_get h1, h2⟩, rfl⟩

end Map
end Horus
