import Verif.Wire.Model
import Mathlib.Data.List.Infix
/-!
C210: which messages are sent with which care.

Source: /repo/horus_net/src/priority.rs:31-86, 109-129, replicator.rs:591-608, 622-686, 745-772, reliability.rs:54-60.
Simplification: names are lists of characters; `Char.toLower` changes A to Z only, as `to_ascii_lowercase`.
-/

namespace Horus.Priority

open Horus.Wire

abbrev Str := List Char

/-! ### Model -/

/-- `str::contains`. -/
def contains (s : Str) (k : Str) : Bool := s.tails.any fun t => k.isPrefixOf t

/-- `to_ascii_lowercase`. -/
def lower (s : Str) : Str := s.map Char.toLower

/-- priority.rs:32-39. -/
def inferFromTopic (name : Str) : Priority :=
  if contains (lower name) "estop".toList || contains (lower name) "emergency".toList || contains (lower name) "safety".toList then .immediate else .normal

/-- priority.rs:44-59. -/
def autoInfer (name : Str) (nodeHasBudget : Bool) (size : Nat) : Priority :=
  if inferFromTopic name = .immediate then .immediate
  else if nodeHasBudget then .realTime
  else if size > 64 * 1024 then .bulk
  else .normal

/-- priority.rs:62-73. -/
def forSystemTopic (name : Str) : Priority :=
  if name = "_horus.estop".toList then .immediate
  else if name = "_horus.presence".toList then .normal
  else if name = "_horus.logs".toList then .bulk
  else .normal

/-- priority.rs:77-85. -/
def fromStr (s : Str) : Priority :=
  let l := lower s
  if l = "immediate".toList then .immediate
  else if l = "realtime".toList ∨ l = "real_time".toList ∨ l = "rt".toList then .realTime
  else if l = "normal".toList then .normal
  else if l = "bulk".toList then .bulk
  else .normal

/-- reliability.rs:54-60. -/
def copies : Reliability → Nat
  | .latched => 3
  | .redundant => 2
  | .none => 1

/-- What an exported message is sent with. -/
structure Care where
  priority : Priority
  reliability : Reliability
  copies : Nat
  throttled : Bool
  deriving DecidableEq

/-- replicator.rs:591-608, 627, 664-676: care taken for a message read from a topic. -/
def exported (name : Str) (size : Nat) : Care :=
  let p := autoInfer name false size
  ⟨p, Reliability.defaultFor p, copies (Reliability.defaultFor p), decide ¬(p = .immediate ∨ p = .realTime)⟩

/-! ### Specification -/

/-- The name mentions one of the safety words, in any mixture of cases. -/
def SafetyName (name : Str) : Prop :=
  ∃ a w b, name = a ++ w ++ b ∧ (lower w = "estop".toList ∨ lower w = "emergency".toList ∨ lower w = "safety".toList)

/-! ### Proofs -/

theorem contains_iff (s k : Str) : contains s k = true ↔ k <:+: s := by
  unfold contains
  rw [List.any_eq_true]
  constructor
  · rintro ⟨t, h1, h2⟩
    rw [List.mem_tails] at h1
    have h3 := List.isPrefixOf_iff_prefix.1 h2
    exact h3.isInfix.trans h1.isInfix
  · rintro ⟨a, b, h⟩
    exact ⟨k ++ b, by rw [List.mem_tails]; exact ⟨a, by rw [← h]; simp⟩, by rw [List.isPrefixOf_iff_prefix]; exact List.prefix_append _ _⟩

theorem infix_lower (name k : Str) : k <:+: lower name ↔ ∃ a w b, name = a ++ w ++ b ∧ lower w = k := by
  constructor
  · rintro ⟨a, b, h⟩
    refine ⟨name.take a.length, (name.drop a.length).take k.length, (name.drop a.length).drop k.length, ?_, ?_⟩
    · rw [List.append_assoc, List.take_append_drop, List.take_append_drop]
    · unfold lower at h ⊢
      rw [List.map_take, List.map_drop, ← h, List.append_assoc, List.drop_left, List.take_left]
  · rintro ⟨a, w, b, rfl, rfl⟩
    exact ⟨lower a, lower b, by simp [lower]⟩

theorem immediate_iff (name : Str) : inferFromTopic name = .immediate ↔ SafetyName name := by
  unfold inferFromTopic SafetyName
  constructor
  · intro h
    by_cases hc : (contains (lower name) "estop".toList || contains (lower name) "emergency".toList || contains (lower name) "safety".toList) = true
    · simp only [Bool.or_eq_true, contains_iff, infix_lower] at hc
      rcases hc with (⟨a, w, b, h1, h2⟩ | ⟨a, w, b, h1, h2⟩) | ⟨a, w, b, h1, h2⟩
      · exact ⟨a, w, b, h1, Or.inl h2⟩
      · exact ⟨a, w, b, h1, Or.inr (Or.inl h2)⟩
      · exact ⟨a, w, b, h1, Or.inr (Or.inr h2)⟩
    · rw [if_neg hc] at h; cases h
  · rintro ⟨a, w, b, h1, h2⟩
    rw [if_pos]
    simp only [Bool.or_eq_true, contains_iff, infix_lower]
    rcases h2 with h2 | h2 | h2
    · exact Or.inl (Or.inl ⟨a, w, b, h1, h2⟩)
    · exact Or.inl (Or.inr ⟨a, w, b, h1, h2⟩)
    · exact Or.inr ⟨a, w, b, h1, h2⟩

/-- C210. A message on a topic whose name mentions emergency stop, emergency or safety is sent three
times, past the send limit, and again until it is acknowledged, however large it is. -/
theorem safety_sent_with_care (name : Str) (size : Nat) (h : SafetyName name) : exported name size = ⟨.immediate, .latched, 3, false⟩ := by
  have := (immediate_iff name).2 h
  simp [exported, autoInfer, this, Reliability.defaultFor, copies]

/-- C210. No other message is: it is sent once and may be held back by the send limit; more than 64 KiB
is bulk. -/
theorem others_sent_once (name : Str) (size : Nat) (h : ¬ SafetyName name) :
    exported name size = ⟨if 65536 < size then .bulk else .normal, .none, 1, true⟩ := by
  have : inferFromTopic name ≠ .immediate := fun e => h ((immediate_iff name).1 e)
  unfold exported autoInfer
  rw [if_neg this]
  by_cases hs : 65536 < size
  · rw [if_neg (by simp), if_pos hs]; rfl
  · rw [if_neg (by simp), if_neg hs]; rfl

/-- Disagreement. Motor commands are meant to be sent twice and past the send limit ("RealTime"), but
the sender never learns that a node has a budget: no exported message is ever real-time. -/
theorem realtime_never (name : Str) (size : Nat) : (exported name size).priority ≠ .realTime ∧ (exported name size).copies ≠ 2 := by
  by_cases h : SafetyName name
  · rw [safety_sent_with_care name size h]; decide
  · rw [others_sent_once name size h]
    refine ⟨?_, show (1 : Nat) ≠ 2 by decide⟩
    dsimp only; split <;> decide

/-- C210. With a budget known, the documented precedence holds: safety names, then budget, then size. -/
theorem precedence (name : Str) (budget : Bool) (size : Nat) :
    (autoInfer name budget size = .immediate ↔ SafetyName name) ∧
    (autoInfer name budget size = .realTime ↔ ¬ SafetyName name ∧ budget = true) ∧
    (autoInfer name budget size = .bulk ↔ ¬ SafetyName name ∧ budget = false ∧ 65536 < size) ∧
    (autoInfer name budget size = .normal ↔ ¬ SafetyName name ∧ budget = false ∧ size ≤ 65536) := by
  rw [← immediate_iff]
  unfold autoInfer
  by_cases h : inferFromTopic name = .immediate
  · rw [if_pos h]; simp [h]
  · rw [if_neg h]
    cases budget with
    | true => simp [h]
    | false =>
      by_cases hs : 65536 < size
      · have : ¬ size ≤ 65536 := by omega
        simp [h, hs, this]
      · have : size ≤ 65536 := by omega
        simp [h, hs, this]

/-- C210. The system topics keep the order of importance: the emergency stop is immediate and the only
one that is; a topic with another name is ordinary. -/
theorem system_topics (name : Str) :
    (forSystemTopic name = .immediate ↔ name = "_horus.estop".toList) ∧ (forSystemTopic name = .bulk ↔ name = "_horus.logs".toList) ∧
    forSystemTopic name ≠ .realTime := by
  unfold forSystemTopic
  by_cases h1 : name = "_horus.estop".toList
  · subst h1; decide
  · rw [if_neg h1]
    by_cases h2 : name = "_horus.presence".toList
    · subst h2; decide
    · rw [if_neg h2]
      by_cases h3 : name = "_horus.logs".toList
      · subst h3; decide
      · rw [if_neg h3]
        exact ⟨⟨fun h => (nomatch h), fun h => absurd h h1⟩, ⟨fun h => (nomatch h), fun h => absurd h h3⟩, by decide⟩

/-- C210. A configured priority is understood in any mixture of cases, and anything else means normal. -/
theorem configured (s : Str) :
    (fromStr s = .immediate ↔ lower s = "immediate".toList) ∧
    (fromStr s = .realTime ↔ lower s = "realtime".toList ∨ lower s = "real_time".toList ∨ lower s = "rt".toList) ∧
    (fromStr s = .bulk ↔ lower s = "bulk".toList) := by
  unfold fromStr
  dsimp only
  generalize lower s = l
  by_cases h1 : l = "immediate".toList
  · subst h1; decide
  rw [if_neg h1]
  by_cases h2 : l = "realtime".toList ∨ l = "real_time".toList ∨ l = "rt".toList
  · rw [if_pos h2]
    refine ⟨⟨fun h => (nomatch h), fun h => absurd h h1⟩, ⟨fun _ => h2, fun _ => rfl⟩, ⟨fun h => (nomatch h), fun h => ?_⟩⟩
    subst h; rcases h2 with h2 | h2 | h2 <;> revert h2 <;> decide
  rw [if_neg h2]
  by_cases h3 : l = "normal".toList
  · subst h3; decide
  rw [if_neg h3]
  by_cases h4 : l = "bulk".toList
  · subst h4; decide
  rw [if_neg h4]
  exact ⟨⟨fun h => (nomatch h), fun h => absurd h h1⟩, ⟨fun h => (nomatch h), fun h => absurd h h2⟩, ⟨fun h => (nomatch h), fun h => absurd h h4⟩⟩

/-- Non-vacuity: "Arm.EStop" is a safety name, "motor.cmd_vel" is not. -/
example : SafetyName "Arm.EStop".toList := ⟨"Arm.".toList, "EStop".toList, [], by decide, by decide⟩
example : ¬ SafetyName "motor.cmd_vel".toList := fun h => by have := (immediate_iff _).2 h; revert this; decide +kernel
example : exported "motor.cmd_vel".toList 64 = ⟨.normal, .none, 1, true⟩ := by decide +kernel

end Horus.Priority
