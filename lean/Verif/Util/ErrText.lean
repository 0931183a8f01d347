import Verif.Util.Retry
import Mathlib.Data.List.Infix
import Mathlib.Tactic.Common
/-!
C239: what an error that is given context says, and how it is treated.

Sources: /repo/horus_core/src/error.rs:763-808 (fmt_contextual, strip_error_label), 923-970 (conversions), 1037-1052
(horus_context), 1209-1231 (severity); services/types.rs:164-173, actions/types.rs:438-447 (conversions).
Simplifications: white space is any set of characters that has the blank and the line end and not the colon
(`Char::is_whitespace`); errors without a severity of their own are one kind.
-/

namespace Horus.ErrText

open Horus.Retry (Severity Outcome retry Config)

abbrev Text := List Char

/-! ### Model -/

section
variable (ws : Char → Bool)

/-- `str::trim_end`. -/
def trimEnd (s : Text) : Text := (s.reverse.dropWhile ws).reverse

/-- `str::find(": ")`: what precedes the first colon and blank, and what follows them. -/
def cut : Text → Option (Text × Text)
  | ':' :: ' ' :: s => some ([], s)
  | c :: s => (cut s).map fun r => (c :: r.1, r.2)
  | [] => none

def bytes (s : Text) : Nat := (s.map Char.utf8Size).sum

/-- error.rs:797-808: the first line is searched; `rest` is the remainder of the text. -/
def stripLabel (s : Text) : Text :=
  let head := s.takeWhile (· != '\n')
  let rest := s.dropWhile (· != '\n')
  match cut head with
  | some (l, r) => if bytes l ≤ 40 then r ++ rest else s
  | none => s

def causedBy : Text := "\n  Caused by:".toList

/-- error.rs:763-791. -/
def render (message source : Text) : Text :=
  let m := trimEnd ws message
  let c := trimEnd ws source
  if c = m then m
  else if stripLabel c = m then m
  else if (m ++ causedBy).isPrefixOf c then c
  else m ++ causedBy ++ ' ' :: c

/-- The kinds of errors that have a severity of their own (error.rs:1211-1230), and the others. -/
inductive Kind
  | topicFull | networkFault | poolExhausted | timeout | stale
  | invalidDescriptor | shmCreateFailed | mmapFailed | initPanic | reInitPanic | shutdownPanic
  | other
  deriving DecidableEq

inductive Err
  | plain (k : Kind) (text : Text)
  | context (message : Text) (source : Err)

/-- `Display`. -/
def Err.text : Err → Text
  | .plain _ t => t
  | .context m s => render ws m s.text

/-- error.rs:1209-1231. -/
def Err.severity : Err → Severity
  | .plain .topicFull _ => .transient
  | .plain .networkFault _ => .transient
  | .plain .poolExhausted _ => .transient
  | .plain .timeout _ => .transient
  | .plain .stale _ => .transient
  | .plain .invalidDescriptor _ => .fatal
  | .plain .shmCreateFailed _ => .fatal
  | .plain .mmapFailed _ => .fatal
  | .plain .initPanic _ => .fatal
  | .plain .reInitPanic _ => .fatal
  | .plain .shutdownPanic _ => .fatal
  | _ => .permanent

/-- services/types.rs:167-172, actions/types.rs:441-446, error.rs:925-928: the label and the error's own text. -/
def converted (label t : Text) : Err := .context (label ++ t) (.plain .other t)

/-- services/types.rs:160-162. -/
inductive ServiceError
  | timeout | transport (t : Text) | serviceFailed (t : Text) | noServer
  deriving DecidableEq

def ServiceError.isTransient : ServiceError → Bool
  | .timeout => true
  | .transport _ => true
  | _ => false

/-- services/types.rs:135-149. -/
def ServiceError.text : ServiceError → Text
  | .timeout => "service call timed out".toList
  | .transport t => "transport error: ".toList ++ t
  | .serviceFailed t => "service returned error: ".toList ++ t
  | .noServer => "no server is available for this service".toList

def ServiceError.toErr (e : ServiceError) : Err := converted "Service call failed: ".toList e.text

/-! ### Specification -/

/-- The messages and the text at the bottom of an error, as far as they are not white space. -/
def Err.parts : Err → List Text
  | .plain _ t => [trimEnd ws t]
  | .context m s => trimEnd ws m :: s.parts

/-- The cause only puts a label before the message. -/
def Restates (m c : Text) : Prop := ∃ l, c = l ++ ": ".toList ++ m ∧ '\n' ∉ l ∧ bytes l ≤ 40

/-- No level of the error only puts a label before the message around it. -/
def Err.Unlabelled : Err → Prop
  | .plain _ _ => True
  | .context m s => ¬ Restates (trimEnd ws m) (trimEnd ws (s.text ws)) ∧ s.Unlabelled

/-! ### Proofs -/

theorem tw_mem {p : Char → Bool} {l : Text} {c : Char} (h : c ∈ l.takeWhile p) : p c = true := by
  induction l with
  | nil => simp at h
  | cons a l ih =>
    rw [List.takeWhile_cons] at h
    by_cases ha : p a = true
    · rw [if_pos ha] at h
      rcases List.mem_cons.1 h with rfl | h
      · exact ha
      · exact ih h
    · rw [if_neg ha] at h; simp at h

theorem trimEnd_prefix (s : Text) : ∃ b, s = trimEnd ws s ++ b ∧ ∀ c ∈ b, ws c = true := by
  refine ⟨(s.reverse.takeWhile ws).reverse, ?_, ?_⟩
  · have := congrArg List.reverse (List.takeWhile_append_dropWhile (p := ws) (l := s.reverse))
    rw [List.reverse_append, List.reverse_reverse] at this
    exact this.symm
  · intro c hc
    exact tw_mem (List.mem_reverse.1 hc)

theorem trimEnd_ends (s : Text) (x : Char) (a : Text) (h : trimEnd ws s = a ++ [x]) : ws x = false := by
  unfold trimEnd at h
  have h' := congrArg List.reverse h
  rw [List.reverse_reverse, List.reverse_append, List.reverse_singleton, List.singleton_append] at h'
  have := List.head?_dropWhile_not ws s.reverse
  rw [h', List.head?_cons] at this
  simpa using this

theorem trimEnd_append_ws (s b : Text) (hb : ∀ c ∈ b, ws c = true) : trimEnd ws (s ++ b) = trimEnd ws s := by
  unfold trimEnd
  rw [List.reverse_append, List.dropWhile_append_of_pos (fun c hc => hb c (List.mem_reverse.1 hc))]

theorem trimEnd_keep (s : Text) (x : Char) (hx : ws x = false) (b : Text) : trimEnd ws (s ++ x :: b) = s ++ x :: trimEnd ws b := by
  unfold trimEnd
  rw [List.reverse_append, List.reverse_cons, List.append_assoc, List.dropWhile_append]
  by_cases h : (b.reverse.dropWhile ws).isEmpty = true
  · rw [if_pos h, List.singleton_append, List.dropWhile_cons, if_neg (by simp [hx])]
    rw [List.isEmpty_iff.1 h]
    simp
  · rw [if_neg h]
    simp

theorem trimEnd_idem (s : Text) : trimEnd ws (trimEnd ws s) = trimEnd ws s := by
  obtain ⟨b, h1, h2⟩ := trimEnd_prefix ws s
  conv_rhs => rw [h1]
  rw [trimEnd_append_ws ws _ _ h2]

/-- Text that does not end in white space and occurs in another is not touched by trimming that. -/
theorem infix_trim (x s : Text) (hx : trimEnd ws x = x) (h : x <:+: s) : x <:+: trimEnd ws s := by
  obtain ⟨a, b, rfl⟩ := h
  rcases List.eq_nil_or_concat' x with rfl | ⟨y, c, rfl⟩
  · exact List.nil_infix
  · have hc := trimEnd_ends ws (y ++ [c]) c y hx
    rw [show a ++ (y ++ [c]) ++ b = (a ++ y) ++ c :: b by simp, trimEnd_keep ws _ _ hc]
    exact ⟨a, trimEnd ws b, by simp⟩

theorem cut_spec (s l r : Text) (h : cut s = some (l, r)) : s = l ++ ": ".toList ++ r := by
  induction s generalizing l with
  | nil => simp [cut] at h
  | cons c s ih =>
    rw [cut.eq_def] at h
    split at h
    · rename_i s' heq
      cases h
      rw [heq]; rfl
    · rename_i c' s' _ heq
      cases heq
      cases hs : cut s with
      | none => rw [hs] at h; cases h
      | some p =>
        rw [hs] at h
        cases h
        rw [show c :: p.1 ++ ": ".toList ++ p.2 = c :: (p.1 ++ ": ".toList ++ p.2) by simp, ← ih p.1 (by rw [hs])]
    · rename_i heq; cases heq

theorem strip_spec (s : Text) : stripLabel s = s ∨ ∃ l, s = l ++ ": ".toList ++ stripLabel s ∧ '\n' ∉ l ∧ bytes l ≤ 40 := by
  unfold stripLabel
  dsimp only
  cases h : cut (s.takeWhile (· != '\n')) with
  | none => left; rfl
  | some p =>
    obtain ⟨l, r⟩ := p
    dsimp only
    by_cases hb : bytes l ≤ 40
    · rw [if_pos hb]
      right
      have hs := cut_spec _ _ _ h
      refine ⟨l, ?_, ?_, hb⟩
      · rw [← List.append_assoc, ← hs, List.takeWhile_append_dropWhile]
      · intro hn
        have hm : '\n' ∈ s.takeWhile (· != '\n') := by rw [hs]; simp [hn]
        have := tw_mem hm
        simp at this
    · rw [if_neg hb]; left; rfl

theorem is_prefix (p s : Text) : p.isPrefixOf s = true ↔ ∃ r, s = p ++ r := by
  rw [List.isPrefixOf_iff_prefix]
  exact ⟨fun ⟨r, h⟩ => ⟨r, h.symm⟩, fun ⟨r, h⟩ => ⟨r, h.symm⟩⟩

/-- C239. The text of an error with context begins with the message. -/
theorem begins_with_message (message source : Text) : trimEnd ws message <+: render ws message source := by
  unfold render
  dsimp only
  by_cases h1 : trimEnd ws source = trimEnd ws message
  · rw [if_pos h1]
  · rw [if_neg h1]
    by_cases h2 : stripLabel (trimEnd ws source) = trimEnd ws message
    · rw [if_pos h2]
    · rw [if_neg h2]
      by_cases h3 : (trimEnd ws message ++ causedBy).isPrefixOf (trimEnd ws source) = true
      · rw [if_pos h3]
        obtain ⟨r, hr⟩ := (is_prefix ..).1 h3
        rw [hr, List.append_assoc]
        exact List.prefix_append _ _
      · rw [if_neg h3, List.append_assoc]
        exact List.prefix_append _ _

/-- C239. It also has the whole text of the cause, unless that is the message behind a short label.
Missing from the full claim: a label that says more than the message (`label_lost`). -/
theorem keeps_cause_partial (message source : Text) (h : ¬ Restates (trimEnd ws message) (trimEnd ws source)) :
    trimEnd ws source <:+: render ws message source := by
  unfold render
  dsimp only
  by_cases h1 : trimEnd ws source = trimEnd ws message
  · rw [if_pos h1, h1]
  · rw [if_neg h1]
    by_cases h2 : stripLabel (trimEnd ws source) = trimEnd ws message
    · exfalso
      rcases strip_spec (trimEnd ws source) with hs | ⟨l, hl, hn, hb⟩
      · exact h1 (by rw [← hs, h2])
      · rw [h2] at hl; exact h ⟨l, hl, hn, hb⟩
    · rw [if_neg h2]
      by_cases h3 : (trimEnd ws message ++ causedBy).isPrefixOf (trimEnd ws source) = true
      · rw [if_pos h3]
      · rw [if_neg h3]
        exact ⟨trimEnd ws message ++ causedBy ++ [' '], [], by simp⟩

/-- C239. However often an error is given context, every message and the error's own text can be read in the
result, unless one level only puts a label before the message around it. -/
theorem all_parts_read_partial (e : Err) (h : e.Unlabelled ws) : ∀ p ∈ e.parts ws, p <:+: e.text ws := by
  induction e with
  | plain k t =>
    intro p hp
    rw [List.mem_singleton.1 hp]
    obtain ⟨b, hb, _⟩ := trimEnd_prefix ws t
    exact ⟨[], b, hb.symm⟩
  | context m s ih =>
    intro p hp
    rcases List.mem_cons.1 hp with rfl | hp
    · exact (begins_with_message ws m _).isInfix
    · have hpt : trimEnd ws p = p := by
        clear ih h
        induction s with
        | plain k t => rw [List.mem_singleton.1 hp]; exact trimEnd_idem ws t
        | context m' s' ih' =>
          rcases List.mem_cons.1 hp with rfl | hp'
          · exact trimEnd_idem ws m'
          · exact ih' (List.mem_cons_of_mem _ hp') hp'
      exact (infix_trim ws p _ hpt (ih h.2 p hp)).trans (keeps_cause_partial ws m _ h.1)

/-- The first line end: nothing that has one can be made longer at the front without moving it. -/
theorem no_shift (l m r : Text) (hl : '\n' ∉ l) (hl0 : l ≠ []) (h : l ++ m = m ++ '\n' :: r) : False := by
  by_cases hm : '\n' ∈ m
  · have e1 : (l ++ m).takeWhile (· != '\n') = l ++ m.takeWhile (· != '\n') :=
      List.takeWhile_append_of_pos fun c hc => by
        have : c ≠ '\n' := fun e => hl (e ▸ hc)
        simpa using this
    have e2 : (m ++ '\n' :: r).takeWhile (· != '\n') = m.takeWhile (· != '\n') := by
      rw [List.takeWhile_append, if_neg]
      intro hlen
      have : m.takeWhile (· != '\n') = m := by
        refine (List.takeWhile_prefix _).eq_of_length hlen
      rw [← this] at hm
      have := tw_mem hm
      simp at this
    rw [h, e2] at e1
    have := congrArg List.length e1
    rw [List.length_append] at this
    cases l with
    | nil => exact hl0 rfl
    | cons a l => rw [List.length_cons] at this; omega
  · have : '\n' ∈ l ++ m := by rw [h]; simp
    rcases List.mem_append.1 this with h1 | h1
    · exact hl h1
    · exact hm h1

/-- C239. Giving an error the same context again changes nothing (but white space at the end). -/
theorem same_context_again (hws : ws ' ' = true) (hc : ws ':' = false) (message source : Text) :
    trimEnd ws (render ws message (render ws message source)) = trimEnd ws (render ws message source) := by
  have key : ∀ r, trimEnd ws (render ws message (trimEnd ws message ++ causedBy ++ r)) = trimEnd ws (trimEnd ws message ++ causedBy ++ r) := by
    intro r
    have hq : trimEnd ws (trimEnd ws message ++ causedBy ++ r) = trimEnd ws message ++ causedBy ++ trimEnd ws r := by
      have e : causedBy = "\n  Caused by".toList ++ [':'] := by decide +kernel
      rw [e, show trimEnd ws message ++ ("\n  Caused by".toList ++ [':']) ++ r = (trimEnd ws message ++ "\n  Caused by".toList) ++ ':' :: r by simp, trimEnd_keep ws _ _ hc]
      simp
    generalize hm : trimEnd ws message = m at hq ⊢
    unfold render
    dsimp only
    rw [hm, hq]
    have h1 : m ++ causedBy ++ trimEnd ws r ≠ m := by
      intro h
      have := congrArg List.length h
      have hl : causedBy.length = 13 := by decide +kernel
      rw [List.length_append, List.length_append, hl] at this
      omega
    rw [if_neg h1]
    have h2 : stripLabel (m ++ causedBy ++ trimEnd ws r) ≠ m := by
      intro h
      rcases strip_spec (m ++ causedBy ++ trimEnd ws r) with hs | ⟨l, hl, hn, _⟩
      · exact h1 (by rw [← hs, h])
      · rw [h] at hl
        refine no_shift (l ++ ": ".toList) m ("  Caused by:".toList ++ trimEnd ws r) ?_ (by simp) ?_
        · intro hx
          rcases List.mem_append.1 hx with hx | hx
          · exact hn hx
          · exact absurd hx (by decide)
        · have e2 : causedBy = '\n' :: "  Caused by:".toList := by decide +kernel
          rw [← hl, e2, List.append_assoc, List.cons_append]
    have h3 : (m ++ causedBy).isPrefixOf (m ++ causedBy ++ trimEnd ws r) = true := (is_prefix (m ++ causedBy) (m ++ causedBy ++ trimEnd ws r)).2 ⟨trimEnd ws r, Eq.refl _⟩
    rw [if_neg h2, if_pos h3, ← hq, trimEnd_idem]
  have hself : trimEnd ws (render ws message (trimEnd ws message)) = trimEnd ws (trimEnd ws message) := by
    unfold render
    dsimp only
    rw [if_pos (trimEnd_idem ws message)]
  have hcases : render ws message source = trimEnd ws message ∨ ∃ r, render ws message source = trimEnd ws message ++ causedBy ++ r := by
    unfold render
    dsimp only
    by_cases h1 : trimEnd ws source = trimEnd ws message
    · rw [if_pos h1]; exact Or.inl rfl
    · rw [if_neg h1]
      by_cases h2 : stripLabel (trimEnd ws source) = trimEnd ws message
      · rw [if_pos h2]; exact Or.inl rfl
      · rw [if_neg h2]
        by_cases h3 : (trimEnd ws message ++ causedBy).isPrefixOf (trimEnd ws source) = true
        · rw [if_pos h3]; exact Or.inr ((is_prefix ..).1 h3)
        · rw [if_neg h3]; exact Or.inr ⟨_, rfl⟩
  rcases hcases with h | ⟨r, h⟩
  · rw [h]; exact hself
  · rw [h]; exact key r

/-- C239 fails: a cause that says why, "permission denied: …", is dropped if the message repeats the rest. -/
theorem label_lost : render Char.isWhitespace "/dev/ttyUSB0".toList "Permission denied: /dev/ttyUSB0".toList = "/dev/ttyUSB0".toList := by
  decide +kernel

/-- C239 fails: HORUS's own conversions (services, actions, identifiers) put the label into the message, so the
text of every such error is there twice. -/
theorem said_twice (label t : Text) (hl : label ≠ []) (ht : trimEnd ws t = t) (ht0 : t ≠ []) :
    (converted label t).text ws = label ++ t ++ causedBy ++ ' ' :: t := by
  have hm : trimEnd ws (label ++ t) = label ++ t := by
    rcases List.eq_nil_or_concat' t with rfl | ⟨y, c, rfl⟩
    · exact absurd rfl ht0
    · have hc := trimEnd_ends ws (y ++ [c]) c y ht
      rw [show label ++ (y ++ [c]) = (label ++ y) ++ c :: [] by simp, trimEnd_keep ws _ _ hc]
      rfl
  have hlen : 0 < label.length := List.length_pos_iff.2 hl
  show render ws (label ++ t) t = _
  unfold render
  dsimp only
  rw [hm, ht]
  rw [if_neg (fun h => by have := congrArg List.length h; rw [List.length_append] at this; omega)]
  have h2 : stripLabel t ≠ label ++ t := by
    intro h
    rcases strip_spec t with hs | ⟨l, hs, _⟩
    · rw [h] at hs; have := congrArg List.length hs; rw [List.length_append] at this; omega
    · rw [h] at hs; have := congrArg List.length hs; simp at this; omega
  rw [if_neg h2]
  rw [if_neg]
  intro h
  obtain ⟨r, hr⟩ := (is_prefix ..).1 h
  have := congrArg List.length hr
  simp only [List.length_append] at this
  omega

/-- C239 fails: context makes every error permanent: one that would be tried again is not any more, and one that
must stop the node does not. -/
theorem context_permanent (m : Text) (e : Err) : (Err.context m e).severity = .permanent := rfl

/-- C239 fails: an operation whose error is given context is called once, whatever the number of retries. -/
theorem context_not_retried {α : Type} (c : Config) (f : Nat → Text × Err) :
    (retry c (fun k => (Outcome.err (Err.context (f k).1 (f k).2) (Err.context (f k).1 (f k).2).severity : Outcome α Err))).2.1 = 1 := by
  unfold retry Horus.Retry.loop
  dsimp only
  cases c.retries with
  | zero => rfl
  | succ n =>
    dsimp only
    rw [if_neg (by rw [context_permanent]; decide)]

/-- Which errors are worth another try: a full topic, a fault of the network, an exhausted pool, a transform that
timed out or is stale, and no others. -/
theorem transient_exact (e : Err) : e.severity = .transient ↔
    ∃ t k, e = .plain k t ∧ (k = .topicFull ∨ k = .networkFault ∨ k = .poolExhausted ∨ k = .timeout ∨ k = .stale) := by
  cases e with
  | context m s => simp [Err.severity]
  | plain k t => cases k <;> simp [Err.severity]

/-- Which errors are final: corrupted or missing shared memory and panics outside a tick, and no others. -/
theorem fatal_exact (e : Err) : e.severity = .fatal ↔
    ∃ t k, e = .plain k t ∧ (k = .invalidDescriptor ∨ k = .shmCreateFailed ∨ k = .mmapFailed ∨ k = .initPanic ∨ k = .reInitPanic ∨ k = .shutdownPanic) := by
  cases e with
  | context m s => simp [Err.severity]
  | plain k t => cases k <;> simp [Err.severity]

/-- A service call is worth another try exactly if it timed out or the transport failed: not if the server answered
with an error, nor if there is none. -/
theorem service_transient (e : ServiceError) : e.isTransient = true ↔ e = .timeout ∨ ∃ t, e = .transport t := by
  cases e <;> simp [ServiceError.isTransient]

/-- C239 fails: the service errors that the service calls transient are permanent once converted. -/
theorem service_transient_lost (e : ServiceError) (_ : e.isTransient = true) : e.toErr.severity = .permanent := rfl

end

/-! ### Non-vacuity -/

def exErr : Err := .context "starting camera".toList (.context "opening /dev/video0 ".toList (.plain .poolExhausted "Memory error: no slots".toList))

example : exErr.text Char.isWhitespace = "starting camera\n  Caused by: opening /dev/video0\n  Caused by: Memory error: no slots".toList := by decide +kernel

theorem exNot (m c : Text) (h : ¬ m <:+ c) : ¬ Restates m c := by
  rintro ⟨l, h1, _⟩
  exact h ⟨l ++ ": ".toList, h1.symm⟩

example : ∀ p ∈ exErr.parts Char.isWhitespace, p <:+: exErr.text Char.isWhitespace :=
  all_parts_read_partial _ _ ⟨exNot _ _ (by decide +kernel), exNot _ _ (by decide +kernel), trivial⟩

/-- Without context the same error is tried again. -/
example : (Err.plain .poolExhausted "x".toList).severity = .transient ∧ (Err.plain .invalidDescriptor "x".toList).severity = .fatal := by decide

example : ServiceError.timeout.toErr.text Char.isWhitespace = "Service call failed: service call timed out\n  Caused by: service call timed out".toList := by decide +kernel

end Horus.ErrText
