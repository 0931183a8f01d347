import Verif.Fragment.Model
namespace Horus.Fragment
open Horus.Wire

theorem chunks_flatten (n : Nat) (hn : 0 < n) (l : Bytes) : (chunks n l).flatten = l := by
  fun_induction chunks n l with
  | case1 l h =>
    rcases h with h | h
    · simp [h]
    · omega
  | case2 l h ih => simp [ih]

theorem chunks_mem_length (n : Nat) (l c : Bytes) (hc : c ∈ chunks n l) : c.length ≤ n := by
  fun_induction chunks n l with
  | case1 l h => simp at hc
  | case2 l h ih =>
    rcases List.mem_cons.mp hc with rfl | h'
    · simp; omega
    · exact ih h'

theorem chunks_length (n : Nat) (hn : 0 < n) (l : Bytes) :
    (chunks n l).length = (l.length + (n - 1)) / n := by
  fun_induction chunks n l with
  | case1 l h =>
    rcases h with h | h
    · simp [h, Nat.div_eq_of_lt (show n - 1 < n by omega)]
    · omega
  | case2 l h ih =>
    have hl : l.length ≠ 0 := fun e => h (Or.inl (List.length_eq_zero_iff.mp e))
    simp only [List.length_cons, ih, List.length_drop]
    rcases Nat.lt_or_ge l.length n with hlt | hge
    · have e : l.length - n = 0 := by omega
      have e2 : (l.length + (n - 1)) / n = 1 := by
        have : l.length + (n - 1) = (l.length - 1) + n := by omega
        rw [this, Nat.add_div_right _ hn, Nat.div_eq_of_lt (by omega)]
      rw [e, e2, Nat.div_eq_of_lt (by omega)]
    · have : l.length + (n - 1) = (l.length - n + (n - 1)) + n := by omega
      rw [this, Nat.add_div_right _ hn]

/-- Slots filled so far agree with the chunks `cs`. -/
def Agree (fr : List (Option Bytes)) (cs : List Bytes) : Prop :=
  fr.length = cs.length ∧ ∀ (i : Nat) (d : Bytes), fr[i]? = some (some d) → cs[i]? = some d

theorem Agree.cons {o : Option Bytes} {fr : List (Option Bytes)} {c : Bytes} {cs : List Bytes}
    (h : Agree (o :: fr) (c :: cs)) : (∀ d, o = some d → c = d) ∧ Agree fr cs := by
  refine ⟨?_, ?_, ?_⟩
  · intro d hd
    have := h.2 0 d (by simp [hd])
    simpa using this
  · have := h.1; simp at this; exact this
  · intro i d hd
    have := h.2 (i + 1) d (by simpa using hd)
    simpa using this

theorem agree_bytes_le (fr : List (Option Bytes)) : ∀ cs, Agree fr cs →
    (fr.filterMap id).flatten.length ≤ cs.flatten.length := by
  induction fr with
  | nil => intro cs _; simp
  | cons o fr ih =>
    intro cs h
    cases cs with
    | nil => have := h.1; simp at this
    | cons c cs =>
      obtain ⟨h1, h2⟩ := h.cons
      have := ih cs h2
      cases o with
      | none => simp only [List.filterMap_cons, id, List.flatten_cons, List.length_append]; omega
      | some d =>
        have := h1 d rfl
        subst this
        simp only [List.filterMap_cons, id, List.flatten_cons, List.length_append]; omega

theorem agree_full (fr : List (Option Bytes)) : ∀ cs, Agree fr cs →
    (∀ i, i < fr.length → ∃ d, fr[i]? = some (some d)) → fr.filterMap id = cs := by
  induction fr with
  | nil =>
    intro cs h _
    have := h.1
    cases cs <;> simp_all
  | cons o fr ih =>
    intro cs h hall
    cases cs with
    | nil => have := h.1; simp at this
    | cons c cs =>
      obtain ⟨h1, h2⟩ := h.cons
      obtain ⟨d, hd⟩ := hall 0 (by simp)
      simp at hd
      subst hd
      have hc := h1 d rfl
      subst hc
      simp only [List.filterMap_cons, id]
      rw [ih cs h2 ?_]
      intro i hi
      obtain ⟨d', hd'⟩ := hall (i + 1) (by simpa using hi)
      exact ⟨d', by simpa using hd'⟩

theorem filterMap_set_length (fr : List (Option Bytes)) : ∀ (i : Nat) (d : Bytes),
    fr[i]? = some none → ((fr.set i (some d)).filterMap id).length = (fr.filterMap id).length + 1 := by
  induction fr with
  | nil => intro i d h; simp at h
  | cons o fr ih =>
    intro i d h
    cases i with
    | zero => simp at h; subst h; simp
    | succ i =>
      simp at h
      cases o with
      | none => simp [ih i d h]
      | some x => simp [ih i d h]

theorem filterMap_set_bytes (fr : List (Option Bytes)) : ∀ (i : Nat) (d : Bytes),
    fr[i]? = some none → ((fr.set i (some d)).filterMap id).flatten.length
      = (fr.filterMap id).flatten.length + d.length := by
  induction fr with
  | nil => intro i d h; simp at h
  | cons o fr ih =>
    intro i d h
    cases i with
    | zero =>
      simp at h; subst h
      simp only [List.set_cons_zero, List.filterMap_cons, id, List.flatten_cons, List.length_append]
      omega
    | succ i =>
      simp only [List.getElem?_cons_succ] at h
      cases o with
      | none =>
        simp only [List.set_cons_succ, List.filterMap_cons, id]
        exact ih i d h
      | some x =>
        simp only [List.set_cons_succ, List.filterMap_cons, id, List.flatten_cons, List.length_append,
          ih i d h]
        omega

theorem filterMap_length_full (fr : List (Option Bytes)) :
    (fr.filterMap id).length = fr.length ↔ ∀ i, i < fr.length → ∃ d, fr[i]? = some (some d) := by
  induction fr with
  | nil => simp
  | cons o fr ih =>
    have hle : (fr.filterMap id).length ≤ fr.length := List.length_filterMap_le _ _
    cases o with
    | none =>
      simp only [List.filterMap_cons, id, List.length_cons]
      constructor
      · intro h; omega
      · intro h; obtain ⟨d, hd⟩ := h 0 (by omega); simp at hd
    | some d =>
      simp only [List.filterMap_cons, id, List.length_cons, Nat.add_right_cancel_iff, ih]
      constructor
      · intro h i hi
        cases i with
        | zero => exact ⟨d, rfl⟩
        | succ i => obtain ⟨x, hx⟩ := h i (by omega); exact ⟨x, by simpa using hx⟩
      · intro h i hi
        obtain ⟨x, hx⟩ := h (i + 1) (by omega)
        exact ⟨x, by simpa using hx⟩

theorem filterMap_replicate_none (n : Nat) :
    (List.replicate n (none : Option Bytes)).filterMap id = [] := by
  induction n with
  | zero => rfl
  | succ n ih => simp [List.replicate_succ]

theorem run_append (r : Reassembler) (a b : List Event) :
    run r (a ++ b) = ((run (run r a).1 b).1, (run r a).2 ++ (run (run r a).1 b).2) := by
  induction a generalizing r with
  | nil => simp [run]
  | cons e a ih => simp [run, ih]

/-- `feed` touches at most the key of its fragment. -/
theorem feed_get_ne (now : Nat) (r : Reassembler) (f : Frag) (k : UInt32 × UInt32)
    (h : (f.topicHash, f.fragmentId) ≠ k ∨ f.fragmentCount.toNat = 1) :
    (feed now r f).1.get k = r.get k := by
  unfold feed
  by_cases h1 : f.fragmentCount.toNat = 1
  · simp only [h1, if_true]
    repeat' split
    all_goals rfl
  · have hk : (f.topicHash, f.fragmentId) ≠ k := h.resolve_right h1
    simp only
    repeat' split
    all_goals simp [Map.get_set_ne, Map.get_del_ne, hk]

theorem feed_ok (now : Nat) (r : Reassembler) (f : Frag) (h : Map.Ok r) : Map.Ok (feed now r f).1 := by
  unfold feed
  simp only
  repeat' split
  all_goals first | exact h | exact h.set _ _ | exact (h.set _ _).del _ | exact (h.set _ _).set _ _

theorem step_ok (r : Reassembler) (e : Event) (h : Map.Ok r) : Map.Ok (step r e).1 := by
  cases e with
  | arrive now f => exact feed_ok now r f h
  | gc now => exact h.filter _

theorem run_ok (es : List Event) : ∀ r, Map.Ok r → Map.Ok (run r es).1 := by
  induction es with
  | nil => intro r h; exact h
  | cons e es ih => intro r h; exact ih _ (step_ok r e h)

end Horus.Fragment
