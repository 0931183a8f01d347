import Verif.Guard.Model
/-
Properties C13 (topic patterns mean what they say) and C14 (import/export guard).
-/
namespace Horus.Guard
open Horus.Discovery (Role)

/-! ### Specification: what a pattern means -/

/-- `Glob pattern topic`: the pattern spells the topic when every `*` may stand for any
(possibly empty) run of characters and every other character stands for itself. -/
inductive Glob : Bytes → Bytes → Prop
  | nil : Glob [] []
  | lit (c : UInt8) (p t : Bytes) : c ≠ star → Glob p t → Glob (c :: p) (c :: t)
  | star (u p t : Bytes) : Glob p t → Glob (Guard.star :: p) (u ++ t)

/-! ### Pieces between stars -/

/-- The pieces `ps` occur in order, the first as a prefix, the last as a suffix. -/
def InOrder : List Bytes → Bytes → Prop
  | [], _ => False
  | [p], t => t = p
  | p :: q :: ps, t => ∃ u r, t = p ++ (u ++ r) ∧ InOrder (q :: ps) r

/-- As `InOrder`, with an arbitrary run in front. -/
def AfterStar (ps : List Bytes) (t : Bytes) : Prop := ∃ u r, t = u ++ r ∧ InOrder ps r

theorem splitStar_ne_nil (p : Bytes) : splitStar p ≠ [] := by
  cases p with
  | nil => simp [splitStar]
  | cons c cs =>
    unfold splitStar
    split
    · simp
    · split <;> simp

theorem glob_iff_inOrder (p t : Bytes) : Glob p t ↔ InOrder (splitStar p) t := by
  induction p generalizing t with
  | nil =>
    simp only [splitStar, InOrder]
    constructor
    · intro h; cases h; rfl
    · rintro rfl; exact .nil
  | cons c cs ih =>
    obtain ⟨q, qs, hq⟩ := List.exists_cons_of_ne_nil (splitStar_ne_nil cs)
    unfold splitStar
    by_cases hc : c = star
    · subst hc
      simp only [if_true, hq, InOrder, List.nil_append]
      constructor
      · intro h
        cases h with
        | lit _ _ _ hne _ => exact absurd rfl hne
        | star u _ r hr => exact ⟨u, r, rfl, hq ▸ (ih r).mp hr⟩
      · rintro ⟨u, r, rfl, hr⟩
        exact .star u cs r ((ih r).mpr (hq ▸ hr))
    · simp only [if_neg hc, hq]
      cases qs with
      | nil =>
        simp only [InOrder]
        constructor
        · intro h
          cases h with
          | lit _ _ r _ hr =>
            have := (ih r).mp hr
            rw [hq] at this
            simp only [InOrder] at this
            rw [this]
          | star => exact absurd rfl hc
        · rintro rfl
          refine .lit c _ _ hc ((ih q).mpr ?_)
          rw [hq]; rfl
      | cons q2 qs =>
        simp only [InOrder]
        constructor
        · intro h
          cases h with
          | lit _ _ r _ hr =>
            have := (ih r).mp hr
            rw [hq] at this
            obtain ⟨u, r', h1, h2⟩ := this
            exact ⟨u, r', by simp [h1], h2⟩
          | star => exact absurd rfl hc
        · rintro ⟨u, r, rfl, hr⟩
          refine .lit c _ _ hc ((ih _).mpr ?_)
          rw [hq]
          exact ⟨u, r, rfl, hr⟩

/-! ### Leftmost search -/

theorem findSub_none (p t : Bytes) (h : findSub p t = none) (u r : Bytes) : t ≠ u ++ (p ++ r) := by
  induction t generalizing u with
  | nil =>
    unfold findSub at h
    split at h
    · simp at h
    · intro e; simp_all
  | cons c cs ih =>
    unfold findSub at h
    split at h
    · simp at h
    · rename_i hp
      simp only [Option.map_eq_none_iff] at h
      intro e
      cases u with
      | nil => apply hp; rw [List.isPrefixOf_iff_prefix]; exact ⟨r, by simpa using e.symm⟩
      | cons d u =>
        simp only [List.cons_append, List.cons.injEq] at e
        exact ih h u e.2

theorem findSub_some (p t : Bytes) (k : Nat) (h : findSub p t = some k) :
    (∃ u r, t = u ++ (p ++ r) ∧ u.length = k) ∧
    ∀ u r, t = u ++ (p ++ r) → k ≤ u.length := by
  induction t generalizing k with
  | nil =>
    unfold findSub at h
    split at h
    · rename_i hp; subst hp; simp at h; subst h; simp
    · simp at h
  | cons c cs ih =>
    unfold findSub at h
    split at h
    · rename_i hp
      simp at h; subst h
      rw [List.isPrefixOf_iff_prefix] at hp
      obtain ⟨r, hr⟩ := hp
      exact ⟨⟨[], r, by simp [hr], rfl⟩, by simp⟩
    · rename_i hp
      simp only [Option.map_eq_some_iff] at h
      obtain ⟨j, hj, rfl⟩ := h
      obtain ⟨⟨u, r, h1, h2⟩, h3⟩ := ih j hj
      refine ⟨⟨c :: u, r, by simp [h1], by simp [h2]⟩, ?_⟩
      intro u' r' e
      cases u' with
      | nil => exact absurd (List.isPrefixOf_iff_prefix.mpr ⟨r', by simpa using e.symm⟩) hp
      | cons d u' =>
        simp only [List.cons_append, List.cons.injEq] at e
        have := h3 u' r' e.2
        simp; omega

theorem AfterStar.mono {ps : List Bytes} {t : Bytes} (h : AfterStar ps t) (v : Bytes) :
    AfterStar ps (v ++ t) := by
  obtain ⟨u, r, rfl, hr⟩ := h
  exact ⟨v ++ u, r, by simp, hr⟩

theorem afterStar_single (p t : Bytes) : AfterStar [p] t ↔ p <:+ t := by
  unfold AfterStar
  simp only [InOrder]
  constructor
  · rintro ⟨u, r, rfl, rfl⟩; exact ⟨u, rfl⟩
  · rintro ⟨u, rfl⟩; exact ⟨u, p, rfl, rfl⟩

theorem afterStar_step (p q : Bytes) (ps : List Bytes) (t : Bytes) :
    AfterStar (p :: q :: ps) t ↔
      ∃ k, findSub p t = some k ∧ AfterStar (q :: ps) (t.drop (k + p.length)) := by
  constructor
  · rintro ⟨u, r, rfl, u2, r2, rfl, hr⟩
    cases hf : findSub p (u ++ (p ++ (u2 ++ r2))) with
    | none => exact absurd rfl (findSub_none _ _ hf u (u2 ++ r2))
    | some k =>
      obtain ⟨⟨a, b, hab, hk⟩, hmin⟩ := findSub_some _ _ _ hf
      have hle := hmin u (u2 ++ r2) rfl
      refine ⟨k, rfl, ?_⟩
      have hd : (u ++ (p ++ (u2 ++ r2))).drop (u.length + p.length) = u2 ++ r2 := by
        rw [← List.append_assoc u, List.drop_append_of_le_length (by simp)]
        simp
      have : (u ++ (p ++ (u2 ++ r2))).drop (k + p.length)
          = ((u ++ (p ++ (u2 ++ r2))).drop (k + p.length)).take (u.length - k) ++ (u2 ++ r2) := by
        conv_lhs => rw [← List.take_append_drop (u.length - k)
          ((u ++ (p ++ (u2 ++ r2))).drop (k + p.length))]
        rw [List.drop_drop, show k + p.length + (u.length - k) = u.length + p.length by omega, hd]
      rw [this]
      exact AfterStar.mono ⟨u2, r2, rfl, hr⟩ _
  · rintro ⟨k, hf, u2, r2, he, hr⟩
    obtain ⟨⟨a, b, hab, hk⟩, -⟩ := findSub_some _ _ _ hf
    refine ⟨a, p ++ b, hab, u2, r2, ?_, hr⟩
    have : t.drop (k + p.length) = b := by
      rw [hab, ← hk, ← List.append_assoc, List.drop_append_of_le_length (by simp)]
      simp
    rw [this] at he
    rw [he]

theorem findSub_nil (t : Bytes) : findSub [] t = some 0 := by
  cases t <;> simp [findSub]

/-- The part of the loop after the first star decides `AfterStar`. -/
theorem globLoop_after (n : Nat) (ps : List Bytes) :
    ∀ (i : Nat) (t : Bytes), 0 < i → ps ≠ [] → i + ps.length = n →
      (globLoop n i ps t = true ↔ AfterStar ps t) := by
  induction ps with
  | nil => intro i t _ h; exact absurd rfl h
  | cons p ps ih =>
    intro i t hi _ hn
    cases ps with
    | nil =>
      rw [afterStar_single]
      simp only [List.length_cons, List.length_nil] at hn
      unfold globLoop
      by_cases hp : p = []
      · subst hp; simp [globLoop]
      · rw [if_neg hp, if_neg (by omega), if_pos (by omega)]
        simp only [globLoop]
        by_cases hs : p.isSuffixOf t = true
        · simp only [hs, if_true, true_iff]; exact List.isSuffixOf_iff_suffix.mp hs
        · simp only [hs, Bool.false_eq_true, if_false, false_iff]
          exact fun h => hs (List.isSuffixOf_iff_suffix.mpr h)
    | cons q ps =>
      rw [afterStar_step]
      simp only [List.length_cons] at hn
      unfold globLoop
      by_cases hp : p = []
      · subst hp
        rw [if_pos rfl, ih (i + 1) t (by omega) (by simp) (by simp; omega)]
        simp [findSub_nil]
      · rw [if_neg hp, if_neg (by omega), if_neg (by omega)]
        cases hf : findSub p t with
        | none => simp
        | some k =>
          simp only [Option.some.injEq]
          rw [ih (i + 1) _ (by omega) (by simp) (by simp; omega)]
          simp

theorem splitStar_no_star (p : Bytes) (h : star ∉ p) : splitStar p = [p] := by
  induction p with
  | nil => rfl
  | cons c cs ih =>
    simp only [List.mem_cons, not_or] at h
    unfold splitStar
    rw [if_neg (fun e => h.1 e.symm), ih h.2]

theorem splitStar_star (p : Bytes) (h : star ∈ p) : ∃ a b ps, splitStar p = a :: b :: ps := by
  induction p with
  | nil => simp at h
  | cons c cs ih =>
    unfold splitStar
    by_cases hc : c = star
    · obtain ⟨q, qs, hq⟩ := List.exists_cons_of_ne_nil (splitStar_ne_nil cs)
      exact ⟨[], q, qs, by simp [hc, hq]⟩
    · have : star ∈ cs := by
        rcases List.mem_cons.mp h with e | e
        · exact absurd e.symm hc
        · exact e
      obtain ⟨a, b, ps, e⟩ := ih this
      exact ⟨c :: a, b, ps, by simp [hc, e]⟩

theorem globLoop_zero (a b : Bytes) (ps : List Bytes) (t : Bytes) :
    globLoop (a :: b :: ps).length 0 (a :: b :: ps) t = true ↔ InOrder (a :: b :: ps) t := by
  unfold globLoop
  have hrest : ∀ r, globLoop (a :: b :: ps).length (0 + 1) (b :: ps) r = true ↔ AfterStar (b :: ps) r :=
    fun r => globLoop_after _ (b :: ps) 1 r (by omega) (by simp) (by simp; omega)
  by_cases ha : a = []
  · subst ha
    rw [if_pos rfl, hrest]
    simp [InOrder, AfterStar]
  · rw [if_neg ha, if_pos rfl]
    by_cases hp : a.isPrefixOf t = true
    · rw [if_pos hp, hrest]
      obtain ⟨r, rfl⟩ := List.isPrefixOf_iff_prefix.mp hp
      simp only [List.drop_left, InOrder, AfterStar, List.append_cancel_left_eq]
    · simp only [hp, Bool.false_eq_true, if_false, false_iff, InOrder]
      rintro ⟨u, r, rfl, -⟩
      exact hp (List.isPrefixOf_iff_prefix.mpr ⟨u ++ r, rfl⟩)

/-- **C13.** For every topic and every pattern, whatever the number and position of the stars,
the matcher answers yes exactly when the pattern spells the topic. -/
theorem globMatch_iff (topic pattern : Bytes) :
    globMatch topic pattern = true ↔ Glob pattern topic := by
  unfold globMatch
  split
  · rename_i h; subst h
    simp only [true_iff]
    have := Glob.star topic [] [] .nil
    simpa using this
  · split
    · rename_i h
      rw [glob_iff_inOrder, splitStar_no_star _ h]
      simp [InOrder]
    · rename_i h
      simp only [not_not] at h
      obtain ⟨a, b, ps, e⟩ := splitStar_star pattern h
      rw [glob_iff_inOrder, e]
      cases ps with
      | nil =>
        simp only [Bool.and_eq_true, decide_eq_true_eq, List.isPrefixOf_iff_prefix,
          List.isSuffixOf_iff_suffix, InOrder]
        constructor
        · rintro ⟨⟨⟨r, rfl⟩, hs⟩, hl⟩
          simp only [List.length_append] at hl
          obtain ⟨v, hv⟩ := List.suffix_of_suffix_length_le hs (List.suffix_append a r) (by omega)
          exact ⟨v, b, by rw [hv], rfl⟩
        · rintro ⟨u, r, rfl, rfl⟩
          exact ⟨⟨⟨_, rfl⟩, ⟨a ++ u, by simp⟩⟩, by simp⟩
      | cons c ps => exact globLoop_zero a b (c :: ps) topic

theorem globMatchAny_iff (topic : Bytes) (ps : List Bytes) :
    globMatchAny topic ps = true ↔ ∃ p ∈ ps, Glob p topic := by
  simp [globMatchAny, List.any_eq_true, globMatch_iff]

/-- Decidability of the specification, for the examples. -/
instance (p t : Bytes) : Decidable (Glob p t) := decidable_of_iff _ (globMatch_iff t p)

/-- Three-star pattern: `a*b*c` spells `aXbbc` and does not spell `acb`. -/
example : Glob [97,42,98,42,99] [97,88,98,98,99] ∧ ¬ Glob [97,42,98,42,99] [97,99,98] := by decide
/-- Prefix and suffix may not overlap: `ab*ba` does not spell `aba`. -/
example : ¬ Glob [97,98,42,98,97] [97,98,97] ∧ Glob [97,98,42,98,97] [97,98,98,97] := by decide

/-! ### C14: the guard -/

/-- The three reserved names. -/
def SystemName (t : Bytes) : Prop := t = SYS_PRESENCE ∨ t = SYS_LOGS ∨ t = SYS_ESTOP

theorem isSystemTopic_iff (t : Bytes) : isSystemTopic t = true ↔ SystemName t := by
  simp [isSystemTopic, SystemName, or_assoc]

/-- **C14 (import).** A remote write is admitted exactly for the reserved system topics, or when
the policy names the topic: never under Deny, under an allow-list only if a listed pattern spells
it, under Auto only if this host subscribes to it and does not publish it. -/
theorem import_allowed_iff (mode : ImportMode) (reg : Option Registry) (t : Bytes) :
    allowImport mode reg t = true ↔
      SystemName t ∨
      (∃ ps, mode = .allowList ps ∧ ∃ p ∈ ps, Glob p t) ∨
      (mode = .auto ∧ ∃ r, reg = some r ∧ hasSubscribers r t = true ∧ hasPublishers r t = false) := by
  rw [← isSystemTopic_iff]
  unfold allowImport
  by_cases hs : isSystemTopic t = true
  · simp [hs]
  · have hs' : isSystemTopic t = false := by simpa using hs
    simp only [hs', Bool.false_eq_true, if_false, false_or]
    cases mode with
    | deny => simp
    | allowList ps => simp [globMatchAny_iff]
    | auto =>
      cases reg with
      | none => simp
      | some r =>
        simp only [hasSubscribers, hasPublishers, reduceCtorEq, false_and, exists_false, false_or,
          true_and, Option.some.injEq, exists_eq_left']
        cases Map.get r t with
        | none => simp
        | some ro => cases ro <;> simp

/-- **C14 (export).** A topic leaves the host exactly when the export policy says so; the system
topics get no exemption. -/
theorem export_allowed_iff (mode : ExportMode) (t : Bytes) :
    allowExport mode t = true ↔
      mode = .all ∨
      (∃ ps, mode = .allowList ps ∧ ∃ p ∈ ps, Glob p t) ∨
      (∃ ps, mode = .denyList ps ∧ ∀ p ∈ ps, ¬ Glob p t) := by
  have key : ∀ ps, (!globMatchAny t ps) = true ↔ ∀ p ∈ ps, ¬ Glob p t := by
    intro ps
    rw [Bool.not_eq_true', ← Bool.not_eq_true, globMatchAny_iff]
    simp
  unfold allowExport
  cases mode <;> simp only [ite_self] <;> simp [globMatchAny_iff, key]

/-- A concrete guard: allow-list `camera.*`, topic `camera.x` in, `imu` out. -/
example : allowImport (.allowList [[99,97,109,46,42]]) none [99,97,109,46,120] = true ∧
    allowImport (.allowList [[99,97,109,46,42]]) none [105,109,117] = false := by decide
/-- Denied system topic on export. -/
example : allowExport (.denyList [SYS_LOGS]) SYS_LOGS = false := by decide

/-! #### What the registry says after a history

Specification: the host publishes (subscribes) a topic after a history iff the last operation on
that topic touching that direction was a registration. -/

/-- Does the role include publishing / subscribing? -/
def Publishes : Role → Bool | .publisher | .both => true | .subscriber => false
/-- Does the role include subscribing? -/
def Subscribes : Role → Bool | .subscriber | .both => true | .publisher => false

/-- Whether direction `dir` of topic `n` is on after the history (starting value `cur`). -/
def dirOn (dir : Role → Bool) (n : Bytes) (cur : Bool) : List RegOp → Bool
  | [] => cur
  | .reg m ro :: ops => dirOn dir n (if m = n ∧ dir ro = true then true else cur) ops
  | .unreg m ro :: ops => dirOn dir n (if m = n ∧ dir ro = true then false else cur) ops

theorem reg_flags (r : Registry) (op : RegOp) (n : Bytes) :
    hasPublishers (op.apply r) n =
      (match op with
       | .reg m ro => if m = n ∧ Publishes ro = true then true else hasPublishers r n
       | .unreg m ro => if m = n ∧ Publishes ro = true then false else hasPublishers r n) ∧
    hasSubscribers (op.apply r) n =
      (match op with
       | .reg m ro => if m = n ∧ Subscribes ro = true then true else hasSubscribers r n
       | .unreg m ro => if m = n ∧ Subscribes ro = true then false else hasSubscribers r n) := by
  cases op with
  | reg m ro =>
    simp only [RegOp.apply, register, hasPublishers, hasSubscribers]
    by_cases hm : m = n
    · subst hm
      cases h : Map.get r m with
      | none => cases ro <;> simp [Publishes, Subscribes]
      | some old => cases old <;> cases ro <;> simp [Publishes, Subscribes, Role.merge]
    · cases h : Map.get r m <;> simp [hm, Map.get_set_ne _ _ hm]
  | unreg m ro =>
    simp only [RegOp.apply, unregister, hasPublishers, hasSubscribers]
    by_cases hm : m = n
    · subst hm
      cases h : Map.get r m with
      | none => simp [h]
      | some old =>
        cases old <;> cases ro <;>
          simp [Publishes, Subscribes, Role.remove, h]
    · cases h : Map.get r m with
      | none => simp [hm]
      | some old =>
        cases h2 : old.remove ro <;> simp [hm, h2, Map.get_set_ne _ _ hm, Map.get_del_ne _ hm]

theorem registry_dirs (ops : List RegOp) (r : Registry) (n : Bytes) :
    hasPublishers (ops.foldl RegOp.apply r) n = dirOn Publishes n (hasPublishers r n) ops ∧
    hasSubscribers (ops.foldl RegOp.apply r) n = dirOn Subscribes n (hasSubscribers r n) ops := by
  induction ops generalizing r with
  | nil => exact ⟨rfl, rfl⟩
  | cons op ops ih =>
    obtain ⟨h1, h2⟩ := ih (op.apply r)
    obtain ⟨e1, e2⟩ := reg_flags r op n
    simp only [List.foldl_cons]
    rw [h1, h2, e1, e2]
    cases op <;> exact ⟨rfl, rfl⟩

/-- **C14 (Auto, over histories).** Whatever topics were opened and closed in whatever order, Auto
admits a remote write to an ordinary topic exactly when the most recent subscribe-side operation on
it is a registration and the most recent publish-side operation is not. -/
theorem auto_import_history (ops : List RegOp) (t : Bytes) (hs : ¬ SystemName t) :
    allowImport .auto (some (runReg ops)) t = true ↔
      dirOn Subscribes t false ops = true ∧ dirOn Publishes t false ops = false := by
  rw [import_allowed_iff]
  obtain ⟨h1, h2⟩ := registry_dirs ops [] t
  have e1 : hasPublishers ([] : Registry) t = false := rfl
  have e2 : hasSubscribers ([] : Registry) t = false := rfl
  rw [e1] at h1; rw [e2] at h2
  simp [hs, runReg, h1, h2]

/-- A topic nobody here ever opened is never imported under Auto. -/
theorem auto_never_opened (ops : List RegOp) (t : Bytes) (hs : ¬ SystemName t)
    (h : ∀ op ∈ ops, match op with | .reg m _ => m ≠ t | .unreg m _ => m ≠ t) :
    allowImport .auto (some (runReg ops)) t = false := by
  rw [← Bool.not_eq_true, auto_import_history ops t hs]
  have : ∀ (ops : List RegOp) (dir : Role → Bool),
      (∀ op ∈ ops, match op with | .reg m _ => m ≠ t | .unreg m _ => m ≠ t) →
      dirOn dir t false ops = false := by
    intro ops dir h
    induction ops with
    | nil => rfl
    | cons op ops ih =>
      have h0 := h op (by simp)
      have hr := ih (fun o ho => h o (List.mem_cons_of_mem _ ho))
      cases op <;> simp only at h0 <;> simp [dirOn, h0, hr]
  simp [this ops _ h]

/-- Once this host has published a topic, Auto refuses remote writes to it until the publish side
is closed again, whatever is opened in between. -/
theorem auto_own_topic_protected (pre post : List RegOp) (t : Bytes) (ro : Role)
    (hs : ¬ SystemName t) (hp : Publishes ro = true)
    (h : ∀ op ∈ post, match op with | .reg _ _ => True | .unreg m r => m ≠ t ∨ Publishes r = false) :
    allowImport .auto (some (runReg (pre ++ .reg t ro :: post))) t = false := by
  rw [← Bool.not_eq_true, auto_import_history _ t hs]
  have key : ∀ (post : List RegOp),
      (∀ op ∈ post, match op with | .reg _ _ => True | .unreg m r => m ≠ t ∨ Publishes r = false) →
      dirOn Publishes t true post = true := by
    intro post h
    induction post with
    | nil => rfl
    | cons op post ih =>
      have hr := ih (fun o ho => h o (List.mem_cons_of_mem _ ho))
      have h0 := h op (by simp)
      cases op with
      | reg m r => simp [dirOn, hr]
      | unreg m r =>
        have : ¬ (m = t ∧ Publishes r = true) := by
          rintro ⟨rfl, h2⟩
          rcases h0 with e | e
          · exact e rfl
          · simp [h2] at e
        simp only [dirOn, if_neg this, hr]
  have app : ∀ (pre : List RegOp) (cur : Bool),
      dirOn Publishes t cur (pre ++ .reg t ro :: post) = true := by
    intro pre
    induction pre with
    | nil => intro cur; simp [dirOn, hp, key post h]
    | cons op pre ih => intro cur; cases op <;> simp only [List.cons_append, dirOn, ih]
  simp [app]

/-- Disagreement with the claim "Auto imports what a local subscriber reads": roles are not
counted, so when two handles subscribe and one closes, the other stops receiving. -/
theorem second_subscriber_forgotten (t : Bytes) (hs : ¬ SystemName t) :
    allowImport .auto (some (runReg [.reg t .subscriber, .reg t .subscriber, .unreg t .both])) t
      = false := by
  rw [← Bool.not_eq_true, auto_import_history _ t hs]
  simp [dirOn, Subscribes, Publishes]

/-- Hypotheses of the history theorems are met: subscribe, then publish elsewhere. -/
example : allowImport .auto (some (runReg [.reg [105] .subscriber, .reg [106] .publisher])) [105] = true := by
  decide

/-- **C14 (configuration).** Whatever the text of the import setting: the resulting allow-list is
never empty and contains no empty pattern; Auto arises only from an unset, blank or `auto` setting;
so no typo turns a restriction into "import everything". -/
theorem parseImport_safe (trim lower : Bytes → Bytes) (raw : Bytes) :
    (∀ ps, parseImport trim lower raw = .allowList ps →
      ps ≠ [] ∧ (∀ p ∈ ps, p ≠ [] ∧ ∃ q ∈ splitComma (trim raw), p = trim q)) ∧
    (parseImport trim lower raw = .auto ↔ trim raw = [] ∨ lower (trim raw) = kwAuto) := by
  simp only [parseImport]
  by_cases h1 : trim raw = []
  · simp [h1]
  · by_cases h2 : lower (trim raw) = kwAuto
    · simp [h2]
    · by_cases h3 : lower (trim raw) ∈ kwDeny
      · simp [h1, h2, h3]
      · simp only [h1, h2, h3, if_false, or_self, iff_false]
        by_cases h4 : ((splitComma (trim raw)).map trim).filter (fun s => decide (s ≠ [])) = []
        · simp only [if_pos h4]; simp
        · simp only [h4, if_false, ImportMode.allowList.injEq, reduceCtorEq, not_false_eq_true,
            and_true]
          rintro ps rfl
          refine ⟨h4, ?_⟩
          intro p hp
          simp only [List.mem_filter, List.mem_map, decide_eq_true_eq] at hp
          obtain ⟨⟨q, hq, rfl⟩, hne⟩ := hp
          exact ⟨hne, q, hq, rfl⟩

/-- Every non-blank entry of a list setting is honoured. -/
theorem parseImport_complete (trim lower : Bytes → Bytes) (raw q : Bytes)
    (h1 : trim raw ≠ []) (h2 : lower (trim raw) ≠ kwAuto) (h3 : lower (trim raw) ∉ kwDeny)
    (hq : q ∈ splitComma (trim raw)) (hne : trim q ≠ []) :
    ∃ ps, parseImport trim lower raw = .allowList ps ∧ trim q ∈ ps := by
  have hm : trim q ∈ ((splitComma (trim raw)).map trim).filter (fun s => decide (s ≠ [])) := by
    simp only [List.mem_filter, List.mem_map, decide_eq_true_eq]
    exact ⟨⟨q, hq, rfl⟩, hne⟩
  refine ⟨_, ?_, hm⟩
  simp only [parseImport, h1, h2, h3, if_false]
  rw [if_neg (List.ne_nil_of_mem hm)]

/-- `"a,,b"` gives the two patterns `a` and `b`; `","` gives Deny, not Auto. -/
example : parseImport id id [97,44,44,98] = .allowList [[97],[98]] ∧ parseImport id id [44] = .deny := by
  decide

end Horus.Guard
