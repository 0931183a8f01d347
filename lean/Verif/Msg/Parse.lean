import Verif.Msg.Model
import Mathlib.Tactic.Common
import Mathlib.Data.List.Nodup

/-!
C119: the `.hmsg` parser accepts exactly the grammar and drops nothing.

The parser reports every error it finds and fails if there is one; the model fails at the first one, so
`recover` (parse.rs:309-323) and the messages are not modelled. Doc comments are read but not kept, and the
positions of tokens are left out.
-/

namespace Horus.Msg

/-! ### Model -/

/-- `Tok` (parse.rs:34-42). -/
inductive Tok
  | ident (s : Str)
  | int (n : Nat)
  | str (s : Str)
  | doc (s : Str)
  | punct (c : Char)
  deriving DecidableEq, Repr

/-- `NOT_POD` (parse.rs:249-256). -/
def notPod : List Str := ["String", "Vec", "Box", "Option", "HashMap", "str"].map String.toList

/-- `parse_docs` (parse.rs:326-338): what is left after the doc comments. -/
def pDocs : List Tok → List Tok
  | .doc _ :: r => pDocs r
  | r => r

/-- `parse_attrs` (parse.rs:343-391): the topic and what is left. -/
def pAttrs (topic : Option Str) : List Tok → Option (Option Str × List Tok)
  | .punct '#' :: .punct '[' :: .ident n :: .punct '=' :: .str s :: .punct ']' :: r =>
    if n = "topic".toList then pAttrs (some s) r else none
  | .punct '#' :: _ => none
  | r => some (topic, r)

/-- `parse_type` (parse.rs:393-500). -/
def pType : List Tok → Option (Ty × List Tok)
  | .punct '[' :: r =>
    match pType r with
    | some (t, .punct ';' :: .int n :: .punct ']' :: r') => if n = 0 then none else some (.arr t n, r')
    | _ => none
  | .ident s :: r =>
    if s ∈ notPod then none
    else if r.head? = some (.punct '<') then none
    else
      match Prim.fromName s with
      | some p => some (.prim p, r)
      | none => some (.ref s, r)
  | _ => none

/-- The loop over the fields (parse.rs:545-638), with the number of tokens as fuel. `none` is an error,
`some none` the return without one at the end of the file (parse.rs:580). -/
def pFields : Nat → List Field → List Tok → Option (Option (List Field × List Tok))
  | 0, _, _ => none
  | _ + 1, _, [] => none
  | k + 1, acc, toks =>
    match pDocs toks with
    | [] => some none
    | .punct '}' :: r => some (some (acc, r))
    | .ident n :: .punct ':' :: r =>
      if n = "pub".toList then none
      else
        match pType r with
        | none => none
        | some (t, r') =>
          if n ∈ acc.map (·.name) then none
          else
            match r' with
            | .punct ',' :: r'' => pFields k (acc ++ [⟨n, t⟩]) r''
            | .punct '}' :: r'' => some (some (acc ++ [⟨n, t⟩], r''))
            | _ => none
    | _ => none

/-- `parse_message` (parse.rs:502-660): `none` is an error. -/
def pMessage (toks : List Tok) : Option (Option MsgDef × List Tok) :=
  match pAttrs none (pDocs toks) with
  | none => none
  | some (topic, r) =>
    match pDocs r with
    | [] => some (none, [])
    | .ident name :: .punct '{' :: body =>
      if ¬ (name.head?.any Char.isUpper) then none
      else
        match pFields body.length.succ [] body with
        | none => none
        | some none => some (none, [])
        | some (some (fs, rest)) => if fs = [] then none else some (some ⟨name, fs, topic⟩, rest)
    | _ => none

/-- `parse_file` after the tokenizer (parse.rs:683-695), with the number of tokens as fuel. -/
def pFile : Nat → List Tok → Option (List MsgDef)
  | _, [] => some []
  | 0, _ => none
  | k + 1, toks =>
    match pMessage toks with
    | none => none
    | some (m, rest) =>
      match pFile k rest with
      | none => none
      | some ms => some (m.toList ++ ms)

/-- `parse_file` on tokens. -/
def parseToks (toks : List Tok) : Option (List MsgDef) := pFile toks.length toks

/-! ### Specification: the grammar -/

/-- Doc comments. -/
def Docs (ts : List Tok) : Prop := ∀ t ∈ ts, ∃ s, t = .doc s

/-- The tokens of a type: a primitive, a name, or `[T; N]` with `N` at least 1. -/
inductive TypeG : Ty → List Tok → Prop
  | prim {s : Str} {p : Prim} (h : Prim.fromName s = some p) (hn : s ∉ notPod) : TypeG (.prim p) [.ident s]
  | ref {s : Str} (h : Prim.fromName s = none) (hn : s ∉ notPod) : TypeG (.ref s) [.ident s]
  | arr {t : Ty} {ts : List Tok} {n : Nat} (h : TypeG t ts) (hn : n ≠ 0) :
      TypeG (.arr t n) (.punct '[' :: ts ++ [.punct ';', .int n, .punct ']'])

/-- The tokens after the opening brace up to and with the closing one: `name: type` with a comma between
two of them, maybe one after the last, and doc comments before each. -/
inductive BodyG : List Field → List Tok → Prop
  | done {ds : List Tok} (hd : Docs ds) : BodyG [] (ds ++ [.punct '}'])
  | last {ds ts : List Tok} {f : Field} (hd : Docs ds) (ht : TypeG f.ty ts) :
      BodyG [f] (ds ++ .ident f.name :: .punct ':' :: ts ++ [.punct '}'])
  | cons {ds ts rest : List Tok} {f : Field} {fs : List Field} (hd : Docs ds) (ht : TypeG f.ty ts) (hr : BodyG fs rest) :
      BodyG (f :: fs) (ds ++ .ident f.name :: .punct ':' :: ts ++ .punct ',' :: rest)

/-- `#[topic = "s"]`. -/
def attr (s : Str) : List Tok := [.punct '#', .punct '[', .ident "topic".toList, .punct '=', .str s, .punct ']']

/-- The tokens of a message; of several topics the last one counts. -/
structure MsgG (m : MsgDef) (ts : List Tok) : Prop where
  shape : ∃ (ds ds' : List Tok) (topics : List Str) (body : List Tok),
    ts = ds ++ topics.flatMap attr ++ ds' ++ .ident m.name :: .punct '{' :: body ∧
    Docs ds ∧ Docs ds' ∧ m.topic = topics.getLast? ∧ BodyG m.fields body
  upper : m.name.head?.any Char.isUpper = true
  nonempty : m.fields ≠ []
  names : (m.fields.map (·.name)).Nodup
  notPub : ∀ f ∈ m.fields, f.name ≠ "pub".toList

/-- The tokens of a file: those of its messages. -/
inductive FileG : List MsgDef → List Tok → Prop
  | nil : FileG [] []
  | cons {m ms ts rest} (h : MsgG m ts) (hr : FileG ms rest) : FileG (m :: ms) (ts ++ rest)

/-! ### completeness -/

theorem pDocs_docs {ds : List Tok} (h : Docs ds) (r : List Tok) : pDocs (ds ++ r) = pDocs r := by
  induction ds with
  | nil => rfl
  | cons d ds ih =>
    obtain ⟨s, rfl⟩ := h d List.mem_cons_self
    exact ih fun t ht => h t (List.mem_cons_of_mem _ ht)

theorem pDocs_other {t : Tok} {r : List Tok} (h : ∀ s, t ≠ .doc s) : pDocs (t :: r) = t :: r := by
  cases t <;> first | rfl | exact absurd rfl (h _)

theorem pType_complete {t : Ty} {ts : List Tok} (h : TypeG t ts) (r : List Tok) (hr : r.head? ≠ some (.punct '<')) :
    pType (ts ++ r) = some (t, r) := by
  induction h generalizing r with
  | prim h hn => simp [pType, hn, hr, h]
  | ref h hn => simp [pType, hn, hr, h]
  | @arr t ts n h hn ih =>
    have := ih (.punct ';' :: .int n :: .punct ']' :: r) (by simp)
    simp only [List.cons_append, List.append_assoc, List.nil_append]
    simp [pType, this, hn]

theorem pFields_complete {fs : List Field} {body : List Tok} (h : BodyG fs body) (acc : List Field) (r : List Tok) (k : Nat)
    (hk : body.length ≤ k) (hn : ((acc ++ fs).map (·.name)).Nodup) (hp : ∀ f ∈ fs, f.name ≠ "pub".toList) :
    pFields k acc (body ++ r) = some (some (acc ++ fs, r)) := by
  have fresh : ∀ (acc : List Field) (f : Field) (fs : List Field), ((acc ++ f :: fs).map (·.name)).Nodup → f.name ∉ acc.map (·.name) := by
    intro acc f fs hn hm
    rw [List.map_append, List.map_cons] at hn
    exact (List.disjoint_of_nodup_append hn) hm List.mem_cons_self
  have unf : ∀ (k : Nat) (acc : List Field) (ds : List Tok) (t : Tok) (r : List Tok), Docs ds → (∀ s, t ≠ .doc s) →
      ∃ x xs, ds ++ t :: r = x :: xs ∧ pDocs (x :: xs) = t :: r := by
    intro k acc ds t r hd ht
    cases hx : ds ++ t :: r with
    | nil => simp at hx
    | cons x xs => exact ⟨x, xs, rfl, by rw [← hx, pDocs_docs hd, pDocs_other ht]⟩
  induction h generalizing acc k with
  | @done ds hd =>
    obtain ⟨x, xs, hx, hxd⟩ := unf k acc ds (.punct '}') r hd (by simp)
    match k, hk with
    | 0, hk => simp at hk
    | k + 1, _ =>
      rw [List.append_assoc, List.singleton_append, hx]
      unfold pFields
      rw [hxd]
      simp
  | @last ds ts f hd ht =>
    obtain ⟨x, xs, hx, hxd⟩ := unf k acc ds (.ident f.name) (.punct ':' :: (ts ++ .punct '}' :: r)) hd (by simp)
    match k, hk with
    | 0, hk => simp at hk
    | k + 1, _ =>
      have e : ds ++ .ident f.name :: .punct ':' :: ts ++ [.punct '}'] ++ r = x :: xs := by rw [← hx]; simp
      rw [e]
      unfold pFields
      rw [hxd]
      simp only [if_neg (hp f List.mem_cons_self), pType_complete ht (.punct '}' :: r) (by simp), if_neg (fresh acc f [] hn)]
  | @cons ds ts rest f fs hd ht hr ih =>
    obtain ⟨x, xs, hx, hxd⟩ := unf k acc ds (.ident f.name) (.punct ':' :: (ts ++ .punct ',' :: (rest ++ r))) hd (by simp)
    match k, hk with
    | 0, hk => simp at hk
    | k + 1, hk =>
      have e : ds ++ .ident f.name :: .punct ':' :: ts ++ .punct ',' :: rest ++ r = x :: xs := by rw [← hx]; simp
      rw [e]
      unfold pFields
      rw [hxd]
      simp only [if_neg (hp f List.mem_cons_self), pType_complete ht (.punct ',' :: (rest ++ r)) (by simp), if_neg (fresh acc f fs hn)]
      have := ih (acc ++ [f]) k (by simp at hk; omega) (by simpa using hn) (fun g hg => hp g (List.mem_cons_of_mem _ hg))
      simpa using this

theorem pAttrs_complete (topics : List Str) (r : List Tok) (hr : r.head? ≠ some (.punct '#')) (t : Option Str) :
    pAttrs t (topics.flatMap attr ++ r) = some (topics.getLast?.or t, r) := by
  induction topics generalizing t with
  | nil =>
    match r, hr with
    | [], _ => simp [pAttrs]
    | x :: r, hr =>
      simp only [List.flatMap_nil, List.nil_append, List.getLast?_nil, Option.none_or]
      unfold pAttrs
      simp only [List.head?_cons, ne_eq, Option.some.injEq] at hr
      split
      · next h => injection h with h _; exact absurd h hr
      · next h => injection h with h _; exact absurd h hr
      · rfl
  | cons s topics ih =>
    have step : ∀ r, pAttrs t (.punct '#' :: .punct '[' :: .ident "topic".toList :: .punct '=' :: .str s :: .punct ']' :: r) = pAttrs (some s) r := by
      intro r; rw [pAttrs]; simp
    rw [List.flatMap_cons, List.append_assoc]
    show pAttrs t (.punct '#' :: .punct '[' :: .ident "topic".toList :: .punct '=' :: .str s :: .punct ']' :: (topics.flatMap attr ++ r)) = _
    rw [step, ih (some s)]
    cases topics with
    | nil => rfl
    | cons a l =>
      rw [List.getLast?_cons_cons]
      cases hl : (a :: l).getLast? with
      | none => simp at hl
      | some y => rfl

theorem pMessage_complete {m : MsgDef} {ts : List Tok} (h : MsgG m ts) (r : List Tok) : pMessage (ts ++ r) = some (some m, r) := by
  obtain ⟨⟨ds, ds', topics, body, rfl, hd, hd', ht, hb⟩, hu, hne, hn, hp⟩ := h
  have e : ds ++ topics.flatMap attr ++ ds' ++ .ident m.name :: .punct '{' :: body ++ r =
      ds ++ (topics.flatMap attr ++ (ds' ++ .ident m.name :: .punct '{' :: (body ++ r))) := by simp
  have e1 : pDocs (topics.flatMap attr ++ (ds' ++ .ident m.name :: .punct '{' :: (body ++ r))) =
      topics.flatMap attr ++ pDocs (ds' ++ .ident m.name :: .punct '{' :: (body ++ r)) ∨ topics ≠ [] := by
    cases topics with
    | nil => left; rfl
    | cons => right; exact List.cons_ne_nil _ _
  have e2 : pDocs (ds' ++ .ident m.name :: .punct '{' :: (body ++ r)) = .ident m.name :: .punct '{' :: (body ++ r) := by
    rw [pDocs_docs hd', pDocs_other (by simp)]
  have e3 : ∃ r', pAttrs none (pDocs (topics.flatMap attr ++ (ds' ++ .ident m.name :: .punct '{' :: (body ++ r)))) = some (m.topic, r') ∧
      pDocs r' = .ident m.name :: .punct '{' :: (body ++ r) := by
    cases topics with
    | nil =>
      refine ⟨.ident m.name :: .punct '{' :: (body ++ r), ?_, pDocs_other (by simp)⟩
      rw [List.flatMap_nil, List.nil_append, e2, ht]
      exact pAttrs_complete [] _ (by simp) none
    | cons s topics =>
      refine ⟨ds' ++ .ident m.name :: .punct '{' :: (body ++ r), ?_, e2⟩
      have : pDocs ((s :: topics).flatMap attr ++ (ds' ++ .ident m.name :: .punct '{' :: (body ++ r))) =
          (s :: topics).flatMap attr ++ (ds' ++ .ident m.name :: .punct '{' :: (body ++ r)) := by
        rw [List.flatMap_cons]; exact pDocs_other (by simp)
      rw [this, pAttrs_complete (s :: topics) _ ?_ none, ht]
      · simp
      · cases ds' with
        | nil => simp
        | cons d ds' => obtain ⟨s, rfl⟩ := hd' d List.mem_cons_self; simp
  obtain ⟨r', h1, h2⟩ := e3
  unfold pMessage
  rw [e, pDocs_docs hd, h1]
  simp only [h2]
  rw [pFields_complete hb [] r _ (by simp; omega) (by simpa using hn) hp]
  simp [hu, hne]

theorem msgG_ne_nil {m : MsgDef} {ts : List Tok} (h : MsgG m ts) : ts ≠ [] := by
  obtain ⟨⟨ds, ds', topics, body, rfl, _⟩, _⟩ := h
  simp

theorem pFile_complete {ms : List MsgDef} {ts : List Tok} (h : FileG ms ts) (k : Nat) (hk : ts.length ≤ k) : pFile k ts = some ms := by
  induction h generalizing k with
  | nil => unfold pFile; rfl
  | @cons m ms ts rest hm _ ih =>
    have hne : 0 < ts.length := List.length_pos_iff.mpr (msgG_ne_nil hm)
    rw [List.length_append] at hk
    match k, hk with
    | 0, hk => omega
    | k + 1, hk =>
      cases hx : ts ++ rest with
      | nil => exact absurd (List.append_eq_nil_iff.mp hx).1 (msgG_ne_nil hm)
      | cons x xs =>
        unfold pFile
        rw [← hx, pMessage_complete hm rest]
        simp only
        rw [ih k (by omega)]
        rfl

/-- C119. A file that follows the grammar is accepted, and gives its messages, all of them, in order. -/
theorem wellformed_file_parsed {ms : List MsgDef} {ts : List Tok} (h : FileG ms ts) : parseToks ts = some ms :=
  pFile_complete h _ (Nat.le_refl _)

/-! ### soundness -/

theorem pDocs_split (ts : List Tok) : ∃ ds, ts = ds ++ pDocs ts ∧ Docs ds := by
  induction ts with
  | nil => exact ⟨[], rfl, fun t h => by cases h⟩
  | cons t ts ih =>
    cases t with
    | doc s =>
      obtain ⟨ds, h1, h2⟩ := ih
      refine ⟨.doc s :: ds, ?_, ?_⟩
      · show _ = _ :: (ds ++ pDocs ts)
        rw [← h1]
      · intro t ht
        rcases List.mem_cons.mp ht with rfl | ht
        · exact ⟨s, rfl⟩
        · exact h2 t ht
    | _ => exact ⟨[], rfl, fun t h => by cases h⟩

theorem pType_sound {ts r : List Tok} {t : Ty} (h : pType ts = some (t, r)) : ∃ us, ts = us ++ r ∧ TypeG t us := by
  fun_induction pType ts generalizing t r with
  | case1 => cases h
  | case2 r0 t0 n r' ht hn ih =>
    obtain ⟨us, h1, h2⟩ := ih ht
    cases h
    exact ⟨.punct '[' :: us ++ [.punct ';', .int n, .punct ']'], by rw [h1]; simp, .arr h2 hn⟩
  | case3 => cases h
  | case4 => cases h
  | case5 => cases h
  | case6 s r0 h1 h2 p hp => cases h; exact ⟨[.ident s], rfl, .prim hp h1⟩
  | case7 s r0 h1 h2 hp => cases h; exact ⟨[.ident s], rfl, .ref hp h1⟩
  | case8 => cases h

theorem pAttrs_sound {ts r : List Tok} {t t' : Option Str} (h : pAttrs t ts = some (t', r)) :
    ∃ topics : List Str, ts = topics.flatMap attr ++ r ∧ t' = topics.getLast?.or t := by
  fun_induction pAttrs t ts with
  | case1 t s r0 ih =>
    obtain ⟨topics, h1, h2⟩ := ih h
    refine ⟨s :: topics, ?_, ?_⟩
    · rw [h1]; simp [attr]
    · rw [h2]
      cases topics with
      | nil => rfl
      | cons a l =>
        rw [List.getLast?_cons_cons]
        cases hl : (a :: l).getLast? with
        | none => simp at hl
        | some y => rfl
  | case2 => cases h
  | case3 => cases h
  | case4 t r0 _ _ => cases h; exact ⟨[], rfl, by simp⟩

theorem pFields_sound {k : Nat} {acc fs : List Field} {toks r : List Tok} (h : pFields k acc toks = some (some (fs, r)))
    (hn : (acc.map (·.name)).Nodup) :
    ∃ gs body, fs = acc ++ gs ∧ toks = body ++ r ∧ BodyG gs body ∧ (fs.map (·.name)).Nodup ∧ ∀ g ∈ gs, g.name ≠ "pub".toList := by
  have snoc : ∀ (acc : List Field) (n : Str) (t : Ty), (acc.map (·.name)).Nodup → n ∉ acc.map (·.name) →
      ((acc ++ [(⟨n, t⟩ : Field)]).map (·.name)).Nodup := by
    intro acc n t h1 h2
    rw [List.map_append]
    exact List.Nodup.append h1 (by simp) (by simpa using h2)
  induction k generalizing acc toks with
  | zero => cases h
  | succ k ih =>
    cases toks with
    | nil => cases h
    | cons x xs =>
      unfold pFields at h
      obtain ⟨ds, hds, hdd⟩ := pDocs_split (x :: xs)
      split at h
      · cases h
      · next r0 hr0 =>
        cases h
        rw [hr0] at hds
        exact ⟨[], ds ++ [.punct '}'], by simp, by rw [hds]; simp, .done hdd, hn, fun g hg => by cases hg⟩
      · next n r0 hr0 =>
        rw [hr0] at hds
        by_cases hpub : n = "pub".toList
        · rw [if_pos hpub] at h; cases h
        rw [if_neg hpub] at h
        split at h
        · cases h
        · next t r' ht =>
          obtain ⟨us, h1, h2⟩ := pType_sound ht
          by_cases hmem : n ∈ acc.map (·.name)
          · rw [if_pos hmem] at h; cases h
          rw [if_neg hmem] at h
          split at h
          · next r'' =>
            obtain ⟨gs, body, h3, h4, h5, h6, h7⟩ := ih h (snoc acc n t hn hmem)
            refine ⟨⟨n, t⟩ :: gs, ds ++ .ident n :: .punct ':' :: us ++ .punct ',' :: body, by rw [h3]; simp, ?_, .cons (f := ⟨n, t⟩) hdd h2 h5, h6, ?_⟩
            · rw [hds, h1, h4]; simp
            · intro g hg
              rcases List.mem_cons.mp hg with rfl | hg
              · exact hpub
              · exact h7 g hg
          · next r'' =>
            cases h
            refine ⟨[⟨n, t⟩], ds ++ .ident n :: .punct ':' :: us ++ [.punct '}'], rfl, ?_, .last (f := ⟨n, t⟩) hdd h2, snoc acc n t hn hmem, ?_⟩
            · rw [hds, h1]; simp
            · intro g hg
              cases List.mem_singleton.mp hg
              exact hpub
          · cases h
      · cases h

theorem docs_last {ts : List Tok} (hne : ts ≠ []) (h : Docs ts) : ∃ part s, ts = part ++ [.doc s] := by
  obtain ⟨s, hs⟩ := h (ts.getLast hne) (List.getLast_mem hne)
  exact ⟨ts.dropLast, s, by rw [← hs, List.dropLast_append_getLast hne]⟩

theorem pFields_dropped {k : Nat} {acc : List Field} {toks : List Tok} (h : pFields k acc toks = some none) :
    ∃ part s, toks = part ++ [.doc s] := by
  induction k generalizing acc toks with
  | zero => cases h
  | succ k ih =>
    cases toks with
    | nil => cases h
    | cons x xs =>
      unfold pFields at h
      obtain ⟨ds, hds, hdd⟩ := pDocs_split (x :: xs)
      split at h
      · next hr0 =>
        rw [hr0, List.append_nil] at hds
        rw [hds]
        exact docs_last (by rw [← hds]; exact List.cons_ne_nil _ _) hdd
      · cases h
      · next n r0 hr0 =>
        rw [hr0] at hds
        by_cases hpub : n = "pub".toList
        · rw [if_pos hpub] at h; cases h
        rw [if_neg hpub] at h
        split at h
        · cases h
        · next t r' ht =>
          obtain ⟨us, h1, h2⟩ := pType_sound ht
          by_cases hmem : n ∈ acc.map (·.name)
          · rw [if_pos hmem] at h; cases h
          rw [if_neg hmem] at h
          split at h
          · next r'' =>
            obtain ⟨part, s, hp⟩ := ih h
            refine ⟨ds ++ .ident n :: .punct ':' :: us ++ .punct ',' :: part, s, ?_⟩
            rw [hds, h1, hp]; simp
          · cases h
          · cases h
      · cases h

/-- What the parser passes over in silence: doc comments and topics with no message after them, or a
message that breaks off after a doc comment. -/
def Dangling (ts : List Tok) : Prop :=
  ∃ (ds ds' : List Tok) (topics : List Str), Docs ds ∧ Docs ds' ∧
    (ts = ds ++ topics.flatMap attr ++ ds' ∨
      ∃ name part s, ts = ds ++ topics.flatMap attr ++ ds' ++ .ident name :: .punct '{' :: part ++ [.doc s])

theorem pMessage_sound {ts r : List Tok} {o : Option MsgDef} (h : pMessage ts = some (o, r)) :
    (∃ m us, o = some m ∧ ts = us ++ r ∧ MsgG m us) ∨ (o = none ∧ r = [] ∧ Dangling ts) := by
  unfold pMessage at h
  obtain ⟨ds, hds, hdd⟩ := pDocs_split ts
  split at h
  · cases h
  · next topic r0 ha =>
    obtain ⟨topics, h1, h2⟩ := pAttrs_sound ha
    obtain ⟨ds', hds', hdd'⟩ := pDocs_split r0
    have e : ts = ds ++ topics.flatMap attr ++ ds' ++ pDocs r0 := by
      rw [hds, h1]
      conv => lhs; rw [hds']
      simp
    split at h
    · next hr =>
      cases h
      rw [hr] at e
      exact .inr ⟨rfl, rfl, ds, ds', topics, hdd, hdd', .inl (by simpa using e)⟩
    · next name body hr =>
      rw [hr] at e
      by_cases hu : name.head?.any Char.isUpper = true
      swap
      · rw [if_pos hu] at h; cases h
      rw [if_neg (not_not_intro hu)] at h
      split at h
      · cases h
      · next hf =>
        cases h
        obtain ⟨part, s, hp⟩ := pFields_dropped hf
        exact .inr ⟨rfl, rfl, ds, ds', topics, hdd, hdd', .inr ⟨name, part, s, by rw [e, hp]; simp⟩⟩
      · next fs rest hf =>
        split_ifs at h with hne
        cases h
        obtain ⟨gs, body', h3, h4, h5, h6, h7⟩ := pFields_sound hf (by simp)
        rw [List.nil_append] at h3
        subst h3
        refine .inl ⟨_, ds ++ topics.flatMap attr ++ ds' ++ .ident name :: .punct '{' :: body', rfl, ?_, ?_⟩
        · rw [e, h4]; simp
        · exact ⟨⟨ds, ds', topics, body', rfl, hdd, hdd', by rw [h2]; simp, h5⟩, by simpa using hu, hne, h6, h7⟩
    · cases h

/-- C119. What the parser accepts is a well-formed file and the messages it gives are those in the file,
except for what it passes over at the end (`Dangling`). Missing for the full property: the end of the
file, where it is false (`cut_message_dropped`). -/
theorem parse_sound_partial {ts : List Tok} {ms : List MsgDef} (h : parseToks ts = some ms) :
    ∃ pre tail, ts = pre ++ tail ∧ FileG ms pre ∧ (tail = [] ∨ Dangling tail) := by
  unfold parseToks at h
  generalize ts.length = k at h
  induction k generalizing ts ms with
  | zero =>
    cases ts with
    | nil => cases h; exact ⟨[], [], rfl, .nil, .inl rfl⟩
    | cons x xs => cases h
  | succ k ih =>
    cases hts : ts with
    | nil => rw [hts] at h; cases h; exact ⟨[], [], rfl, .nil, .inl rfl⟩
    | cons x xs =>
      rw [hts] at h
      unfold pFile at h
      rw [← hts] at h ⊢
      split at h
      · cases h
      · next o rest hm =>
        split at h
        · cases h
        · next ms' hf =>
          cases h
          rcases pMessage_sound hm with ⟨m, us, rfl, h1, h2⟩ | ⟨rfl, rfl, h1⟩
          · obtain ⟨pre, tail, h3, h4, h5⟩ := ih hf
            exact ⟨us ++ pre, tail, by rw [h1, h3]; simp, .cons h2 h4, h5⟩
          · have : ms' = [] := by
              cases k <;> (unfold pFile at hf; cases hf; rfl)
            subst this
            exact ⟨[], ts, rfl, .nil, .inr h1⟩

/-- C119. If the file ends with a closing brace, the parser accepts it exactly if it follows the grammar,
and gives exactly its messages. -/
theorem closed_file_exact {ts : List Tok} (hc : ts.getLast? = some (.punct '}')) (ms : List MsgDef) :
    parseToks ts = some ms ↔ FileG ms ts := by
  refine ⟨fun h => ?_, wellformed_file_parsed⟩
  obtain ⟨pre, tail, rfl, h1, h2⟩ := parse_sound_partial h
  by_cases ht : tail = []
  · subst ht; simpa using h1
  · exfalso
    rcases h2 with h2 | ⟨ds, ds', topics, hd, hd', h2⟩
    · exact ht h2
    · rw [List.getLast?_append_of_ne_nil _ ht] at hc
      rcases h2 with rfl | ⟨name, part, s, rfl⟩
      · have hm := List.mem_of_getLast? hc
        by_cases h3 : ds' = []
        · subst h3
          rw [List.append_nil] at hc ht
          by_cases h4 : topics = []
          · subst h4
            simp only [List.flatMap_nil, List.append_nil] at hc
            obtain ⟨s, hs⟩ := hd _ (List.mem_of_getLast? hc)
            cases hs
          · obtain ⟨init, s, rfl⟩ : ∃ init s, topics = init ++ [s] := ⟨topics.dropLast, topics.getLast h4, (List.dropLast_append_getLast h4).symm⟩
            rw [List.flatMap_append] at hc
            simp [attr] at hc
        · rw [List.getLast?_append_of_ne_nil _ h3] at hc
          obtain ⟨s, hs⟩ := hd' _ (List.mem_of_getLast? hc)
          cases hs
      · rw [List.getLast?_append_of_ne_nil _ (List.cons_ne_nil _ _)] at hc
        simp at hc

/-! ### where it drops a message -/

/-- `A { x: u8, } B { y: u8, /// end`: the second message was never finished. -/
def cutFile : List Tok :=
  [.ident ['A'], .punct '{', .ident ['x'], .punct ':', .ident ['u', '8'], .punct ',', .punct '}',
   .ident ['B'], .punct '{', .ident ['y'], .punct ':', .ident ['u', '8'], .punct ',', .doc ['e', 'n', 'd']]

/-- C119 fails at the end of a file: `B`, cut off after a doc comment, is dropped and no error is given,
although the file follows no grammar. -/
theorem cut_message_dropped :
    parseToks cutFile = some [⟨['A'], [⟨['x'], .prim .u8⟩], none⟩] ∧ ∀ ms, ¬ FileG ms cutFile := by
  have h : parseToks cutFile = some [⟨['A'], [⟨['x'], .prim .u8⟩], none⟩] := by decide +kernel
  refine ⟨h, fun ms hf => ?_⟩
  have hl : ∀ ms ts, FileG ms ts → ts ≠ [] → ts.getLast? = some (.punct '}') := by
    have hb : ∀ fs body, BodyG fs body → body.getLast? = some (.punct '}') := by
      intro fs body h
      induction h with
      | done => simp
      | last => rw [List.getLast?_append_of_ne_nil _ (List.cons_ne_nil _ _)]; rfl
      | @cons ds ts rest f fs hd ht hr ih =>
        have hne : rest ≠ [] := by rintro rfl; simp at ih
        rw [List.append_cons, List.getLast?_append_of_ne_nil _ hne]; exact ih
    intro ms ts h
    induction h with
    | nil => intro h; exact absurd rfl h
    | @cons m ms ts rest hm _ ih =>
      intro _
      by_cases hr : rest = []
      · subst hr
        obtain ⟨⟨ds, ds', topics, body, rfl, _, _, _, hbody⟩, _⟩ := hm
        have := hb _ _ hbody
        have hne : body ≠ [] := by rintro rfl; simp at this
        rw [List.append_nil, List.append_cons, List.append_cons, List.getLast?_append_of_ne_nil _ hne]; exact this
      · rw [List.getLast?_append_of_ne_nil _ hr]; exact ih hr
  have := hl ms _ hf (by unfold cutFile; simp)
  unfold cutFile at this
  simp at this

/-- C119 fails at the end of a file: a topic and a doc comment with no message after them are accepted. -/
theorem attributes_dropped (s d : Str) : parseToks (.doc d :: attr s) = some [] := by
  simp [parseToks, attr, pFile, pMessage, pDocs, pAttrs]

/-- The hypotheses are met: the example of the module documentation (parse.rs:3-14). -/
example : FileG [⟨['W'], [⟨['t'], .prim .f32⟩, ⟨['h'], .arr (.prim .f32) 16⟩], some ['d']⟩]
    (.doc ['r'] :: attr ['d'] ++ [.ident ['W'], .punct '{', .doc ['C'], .ident ['t'], .punct ':', .ident ['f', '3', '2'], .punct ',',
      .ident ['h'], .punct ':', .punct '[', .ident ['f', '3', '2'], .punct ';', .int 16, .punct ']', .punct '}']) := by
  have t1 : TypeG (.prim .f32) [.ident ['f', '3', '2']] := .prim (by decide) (by decide)
  have d0 : Docs [] := fun t h => by cases h
  have d1 : ∀ s, Docs [.doc s] := fun s t h => ⟨s, List.mem_singleton.mp h⟩
  have b : BodyG [⟨['h'], .arr (.prim .f32) 16⟩] _ := .last (f := ⟨['h'], .arr (.prim .f32) 16⟩) d0 (.arr (n := 16) t1 (by decide))
  have b' : BodyG (⟨['t'], .prim .f32⟩ :: _) _ := .cons (f := ⟨['t'], .prim .f32⟩) (d1 ['C']) t1 b
  have key : MsgG ⟨['W'], [⟨['t'], .prim .f32⟩, ⟨['h'], .arr (.prim .f32) 16⟩], some ['d']⟩ _ :=
    ⟨⟨[.doc ['r']], [], [['d']], _, rfl, d1 _, d0, rfl, b'⟩, by decide, by decide, by decide, by decide⟩
  have := FileG.cons key .nil
  rw [List.append_nil] at this
  exact this

end Horus.Msg
