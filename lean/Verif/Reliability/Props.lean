import Verif.Reliability.Model
import Mathlib.Data.List.Induction
import Mathlib.Data.List.Dedup
import Mathlib.Data.List.Perm.Subperm
/-
Properties C08 (redundant copies delivered at most once) and C09 (latched resends).
-/
namespace Horus.Reliability
open Horus.Wire

/-! ### C08 -/

theorem isNewMessage_of_get (d : Dedup) (k : UInt16 × UInt32) (seq : UInt32) :
    isNewMessage d k.1 k.2 seq =
      if (match d.get k with | some last => isOld last seq | none => false) = true then (d, false)
      else ((enforceKeyCap d).set k seq, true) := rfl

/-- One arrival: sender hash, topic hash, sequence number. -/
abbrev Arrival := (UInt16 × UInt32) × UInt32

/-- The deduplicator over a history, with the accept decision of each arrival. -/
def accepts (d : Dedup) : List Arrival → Dedup × List (Arrival × Bool)
  | [] => (d, [])
  | a :: as =>
    let (d1, b) := isNewMessage d a.1.1 a.1.2 a.2
    let (d2, bs) := accepts d1 as
    (d2, (a, b) :: bs)

/-- Sequence numbers accepted for one (sender, topic), in order of arrival. -/
def acceptedSeqs (k : UInt16 × UInt32) (out : List (Arrival × Bool)) : List Nat :=
  out.filterMap fun (a, b) => if b && decide (a.1 = k) then some a.2.toNat else none

theorem accepts_append (d : Dedup) (a b : List Arrival) :
    accepts d (a ++ b) = ((accepts (accepts d a).1 b).1, (accepts d a).2 ++ (accepts (accepts d a).1 b).2) := by
  induction a generalizing d with
  | nil => simp [accepts]
  | cons e a ih => simp [accepts, ih]

theorem accepts_ok (as : List Arrival) : ∀ d : Dedup, Map.Ok d → Map.Ok (accepts d as).1 := by
  induction as with
  | nil => intro d h; exact h
  | cons a as ih =>
    intro d h
    refine ih (isNewMessage d a.1.1 a.1.2 a.2).1 ?_
    simp only [isNewMessage_of_get]
    generalize (match d.get a.1 with | some last => isOld last a.2 | none => false) = old
    cases old
    · simp only [Bool.false_eq_true, if_false]
      unfold enforceKeyCap
      split
      · exact h.set _ _
      · exact Map.Ok.nil.set _ _
    · simpa using h

/-- Keys in the table are keys of arrivals. -/
theorem accepts_keys (as : List Arrival) : ∀ d : Dedup, ∀ k ∈ Map.keys (accepts d as).1,
    k ∈ Map.keys d ∨ k ∈ as.map Prod.fst := by
  induction as with
  | nil => intro d k h; exact Or.inl h
  | cons a as ih =>
    intro d k h
    have h := ih _ k h
    rcases h with h | h
    · have hsub : ∀ k, k ∈ Map.keys (isNewMessage d a.1.1 a.1.2 a.2).1 → k ∈ Map.keys d ∨ k = a.1 := by
        intro k h
        simp only [isNewMessage_of_get] at h
        generalize (match d.get a.1 with | some last => isOld last a.2 | none => false) = old at h
        cases old
        · simp only [Bool.false_eq_true, if_false, Map.keys_set] at h
          have hcap : ∀ k, k ∈ Map.keys (enforceKeyCap d) → k ∈ Map.keys d := by
            intro k hk
            unfold enforceKeyCap at hk
            split at hk
            · exact hk
            · simp [Map.keys] at hk
          split at h
          · exact Or.inl (hcap k h)
          · rcases List.mem_append.mp h with h | h
            · exact Or.inl (hcap k h)
            · simp at h; exact Or.inr h
        · simp at h; exact Or.inl h
      rcases hsub k h with h | h
      · exact Or.inl h
      · exact Or.inr (by simp [h])
    · exact Or.inr (by simp only [List.map_cons, List.mem_cons]; exact Or.inr h)

theorem isOld_of_close (last seq : UInt32)
    (h : (last.toNat : Int) - seq.toNat < 2147483647) :
    isOld last seq = decide (seq.toNat ≤ last.toNat) := by
  unfold isOld
  by_cases hle : seq ≤ last
  · have hle' : seq.toNat ≤ last.toNat := UInt32.le_iff_toNat_le.mp hle
    have : (last - seq < 0x7FFFFFFF) := by
      rw [UInt32.lt_iff_toNat_lt, UInt32.toNat_sub_of_le _ _ hle]
      have : (0x7FFFFFFF : UInt32).toNat = 2147483647 := by decide
      rw [this]; omega
    simp [hle, hle', this]
  · have hle' : ¬ seq.toNat ≤ last.toNat := fun h => hle (UInt32.le_iff_toNat_le.mpr h)
    simp [hle, hle']

/-- The hypotheses of the intended regime: fewer than 4096 distinct (sender, topic) pairs, and the
sequence numbers seen on one pair stay within half the number space of each other. -/
structure Regime (as : List Arrival) : Prop where
  fewKeys : ((as.map Prod.fst).dedup).length < 4096
  close : ∀ a ∈ as, ∀ b ∈ as, a.1 = b.1 → (a.2.toNat : Int) - b.2.toNat < 2147483647

theorem table_small (as : List Arrival) (h : ((as.map Prod.fst).dedup).length < 4096) :
    (accepts [] as).1.length < 4096 := by
  have hok : Map.Ok (accepts [] as).1 := accepts_ok as [] Map.Ok.nil
  have hsub : Map.keys (accepts [] as).1 ⊆ (as.map Prod.fst).dedup := by
    intro k hk
    rcases accepts_keys as [] k hk with h | h
    · simp [Map.keys] at h
    · exact List.mem_dedup.mpr h
  have := (List.subperm_of_subset hok hsub).length_le
  rw [Map.length_keys] at this
  omega

/-- C08, the exact rule: in the intended regime an arrival is accepted if and only if its sequence
number is larger than that of every earlier arrival on the same (sender, topic). -/
theorem accepted_iff_new (as : List Arrival) (a : Arrival) (h : Regime (as ++ [a])) :
    (isNewMessage (accepts [] as).1 a.1.1 a.1.2 a.2).2 = true ↔
      ∀ b ∈ as, b.1 = a.1 → b.2.toNat < a.2.toNat := by
  -- the table holds the maximum of the arrivals of each key
  have main : ∀ as : List Arrival, Regime as → ∀ k,
      (∀ s, (accepts [] as).1.get k = some s →
        (∃ b ∈ as, b.1 = k ∧ b.2 = s) ∧ ∀ b ∈ as, b.1 = k → b.2.toNat ≤ s.toNat) ∧
      ((accepts [] as).1.get k = none → ∀ b ∈ as, b.1 ≠ k) := by
    intro as
    induction as using List.reverseRecOn with
    | nil => intro _ k; simp [accepts]
    | append_singleton as a ih =>
      intro hr k
      have hr' : Regime as := by
        constructor
        · refine Nat.lt_of_le_of_lt ?_ hr.fewKeys
          apply (List.subperm_of_subset (List.nodup_dedup _) _).length_le
          intro x hx
          rw [List.mem_dedup] at *
          simp only [List.map_append, List.mem_append]
          exact Or.inl hx
        · exact fun x hx y hy => hr.close x (by simp [hx]) y (by simp [hy])
      have ih := ih hr'
      have hsmall := table_small as hr'.fewKeys
      rw [accepts_append]
      simp only [accepts]
      have ih_a := ih a.1
      simp only [isNewMessage_of_get]
      cases hg : (accepts [] as).1.get a.1 with
      | none =>
        simp only [Bool.false_eq_true, if_false]
        have hcap : enforceKeyCap (accepts [] as).1 = (accepts [] as).1 := by
          unfold enforceKeyCap; rw [if_pos hsmall]
        rw [hcap, Map.get_set]
        by_cases hk : a.1 = k
        · subst hk
          simp only [if_true, Option.some.injEq, reduceCtorEq, false_imp_iff, and_true]
          rintro s rfl
          refine ⟨⟨a, by simp, rfl, rfl⟩, ?_⟩
          intro b hb hbk
          rcases List.mem_append.mp hb with hb | hb
          · exact absurd hbk (ih_a.2 hg b hb)
          · simp at hb; subst hb; exact Nat.le_refl _
        · simp only [hk, if_false]
          refine ⟨fun s hs => ?_, fun hn b hb => ?_⟩
          · obtain ⟨⟨b, hb, hbk, hbs⟩, hmax⟩ := (ih k).1 s hs
            refine ⟨⟨b, by simp [hb], hbk, hbs⟩, ?_⟩
            intro c hc hck
            rcases List.mem_append.mp hc with hc | hc
            · exact hmax c hc hck
            · simp at hc; subst hc; exact absurd hck hk
          · rcases List.mem_append.mp hb with hb | hb
            · exact (ih k).2 hn b hb
            · simp at hb; subst hb; exact hk
      | some last =>
        obtain ⟨⟨b0, hb0, hb0k, hb0s⟩, hmax⟩ := ih_a.1 last hg
        have hclose := hr.close b0 (by simp [hb0]) a (by simp) hb0k
        rw [hb0s] at hclose
        simp only [isOld_of_close _ _ hclose]
        by_cases hle : a.2.toNat ≤ last.toNat
        · simp only [hle, decide_true, if_true]
          refine ⟨fun s hs => ?_, fun hn b hb => ?_⟩
          · obtain ⟨⟨b, hb, hbk, hbs⟩, hmax'⟩ := (ih k).1 s hs
            refine ⟨⟨b, by simp [hb], hbk, hbs⟩, ?_⟩
            intro c hc hck
            rcases List.mem_append.mp hc with hc | hc
            · exact hmax' c hc hck
            · simp at hc; subst hc
              rw [← hck, hg] at hs
              simp at hs; subst hs; exact hle
          · rcases List.mem_append.mp hb with hb | hb
            · exact (ih k).2 hn b hb
            · simp at hb; subst hb
              rintro rfl
              simp [hg] at hn
        · simp only [hle, decide_false, Bool.false_eq_true, if_false]
          have hcap : enforceKeyCap (accepts [] as).1 = (accepts [] as).1 := by
            unfold enforceKeyCap; rw [if_pos hsmall]
          rw [hcap, Map.get_set]
          by_cases hk : a.1 = k
          · subst hk
            simp only [if_true, Option.some.injEq, reduceCtorEq, false_imp_iff, and_true]
            rintro s rfl
            refine ⟨⟨a, by simp, rfl, rfl⟩, ?_⟩
            intro b hb hbk
            rcases List.mem_append.mp hb with hb | hb
            · have := hmax b hb hbk; omega
            · simp at hb; subst hb; exact Nat.le_refl _
          · simp only [hk, if_false]
            refine ⟨fun s hs => ?_, fun hn b hb => ?_⟩
            · obtain ⟨⟨b, hb, hbk, hbs⟩, hmax'⟩ := (ih k).1 s hs
              refine ⟨⟨b, by simp [hb], hbk, hbs⟩, ?_⟩
              intro c hc hck
              rcases List.mem_append.mp hc with hc | hc
              · exact hmax' c hc hck
              · simp at hc; subst hc; exact absurd hck hk
            · rcases List.mem_append.mp hb with hb | hb
              · exact (ih k).2 hn b hb
              · simp at hb; subst hb; exact hk
  have hr' : Regime as := by
    constructor
    · refine Nat.lt_of_le_of_lt ?_ h.fewKeys
      apply (List.subperm_of_subset (List.nodup_dedup _) _).length_le
      intro x hx
      rw [List.mem_dedup] at *
      simp only [List.map_append, List.mem_append]
      exact Or.inl hx
    · exact fun x hx y hy => h.close x (by simp [hx]) y (by simp [hy])
  obtain ⟨m1, m2⟩ := main as hr' a.1
  simp only [isNewMessage_of_get]
  cases hg : (accepts [] as).1.get a.1 with
  | none =>
    simp only [Bool.false_eq_true, if_false, true_iff]
    intro b hb hbk
    exact absurd hbk (m2 hg b hb)
  | some last =>
    obtain ⟨⟨b0, hb0, hb0k, hb0s⟩, hmax⟩ := m1 last hg
    have hclose := h.close b0 (by simp [hb0]) a (by simp) hb0k
    rw [hb0s] at hclose
    simp only [isOld_of_close _ _ hclose]
    by_cases hle : a.2.toNat ≤ last.toNat
    · simp only [hle, decide_true, if_true, Bool.false_eq_true, false_iff]
      intro hall
      have := hall b0 hb0 hb0k
      rw [hb0s] at this
      omega
    · simp only [hle, decide_false, Bool.false_eq_true, if_false, true_iff]
      intro b hb hbk
      have := hmax b hb hbk
      omega

/-- C08: in the intended regime, for every (sender, topic) the accepted sequence numbers are
strictly increasing; in particular each is accepted at most once. -/
theorem accepted_increasing (as : List Arrival) (h : Regime as) (k : UInt16 × UInt32) :
    (acceptedSeqs k (accepts [] as).2).Pairwise (· < ·) := by
  have hmem : ∀ as : List Arrival, ∀ d s, s ∈ acceptedSeqs k (accepts d as).2 →
      ∃ b ∈ as, b.1 = k ∧ b.2.toNat = s := by
    intro as
    induction as with
    | nil => intro d s hs; simp [accepts, acceptedSeqs] at hs
    | cons a as ih =>
      intro d s hs
      simp only [accepts, acceptedSeqs, List.filterMap_cons] at hs
      split at hs
      · obtain ⟨b, hb, r⟩ := ih _ s hs; exact ⟨b, by simp [hb], r⟩
      · rename_i v hv
        rcases List.mem_cons.mp hs with rfl | hs
        · split at hv
          · rename_i hc
            simp only [Bool.and_eq_true, decide_eq_true_eq] at hc
            simp only [Option.some.injEq] at hv
            exact ⟨a, by simp, hc.2, hv⟩
          · simp at hv
        · obtain ⟨b, hb, r⟩ := ih _ s hs; exact ⟨b, by simp [hb], r⟩
  induction as using List.reverseRecOn with
  | nil => simp [accepts, acceptedSeqs]
  | append_singleton as a ih =>
    have hr' : Regime as := by
      constructor
      · refine Nat.lt_of_le_of_lt ?_ h.fewKeys
        apply (List.subperm_of_subset (List.nodup_dedup _) _).length_le
        intro x hx
        rw [List.mem_dedup] at *
        simp only [List.map_append, List.mem_append]
        exact Or.inl hx
      · exact fun x hx y hy => h.close x (by simp [hx]) y (by simp [hy])
    have hiff := accepted_iff_new as a h
    rw [accepts_append]
    simp only [accepts, acceptedSeqs, List.filterMap_append, List.filterMap_cons, List.filterMap_nil]
    split
    · simpa [acceptedSeqs] using ih hr'
    · rename_i v hv
      split at hv
      · rename_i hc
        simp only [Bool.and_eq_true, decide_eq_true_eq] at hc
        simp only [Option.some.injEq] at hv
        subst hv
        rw [List.pairwise_append]
        refine ⟨ih hr', by simp, ?_⟩
        intro s hs t ht
        simp only [List.mem_singleton] at ht
        subst ht
        obtain ⟨b, hb, hbk, rfl⟩ := hmem as [] s hs
        exact hiff.mp hc.1 b hb (hbk.trans hc.2.symm)
      · simp at hv

/-- Non-vacuity of C08: redundant copies and a reordering, two topics. -/
example : Regime [((1, 7), 5), ((1, 7), 5), ((1, 7), 6), ((1, 8), 5), ((1, 7), 5)] := by
  constructor <;> decide

/-- C08 fails across the 32-bit wrap: with sequence numbers half the space apart the same
(topic, sequence) is accepted twice. -/
theorem wrap_redelivers :
    (acceptedSeqs (1, 7) (accepts [] [((1, 7), 0x80000000), ((1, 7), 0), ((1, 7), 0x80000000)]).2)
      = [0x80000000, 0, 0x80000000] := by decide

/-- C08 fails when the table is full: any accepted message on another key wipes it, and an already
accepted message is accepted again. -/
theorem full_table_redelivers (d : Dedup) (hd : 4096 ≤ d.length) (k k2 : UInt16 × UInt32) (hk : k ≠ k2)
    (s s2 : UInt32) (_h2 : d.get k2 = some s2) (hn : d.get k = none) :
    (isNewMessage d k2.1 k2.2 s2).2 = false ∧
    (isNewMessage (isNewMessage d k.1 k.2 s).1 k2.1 k2.2 s2).2 = true := by
  constructor
  · unfold isNewMessage
    simp [_h2, isOld]
  · have e : (isNewMessage d k.1 k.2 s).1 = [(k, s)] := by
      rw [isNewMessage_of_get]
      unfold enforceKeyCap
      simp only [hn, Bool.false_eq_true, if_false]
      rw [if_neg (by simp only [MAX_TRACKED_KEYS]; omega)]
      rfl
    rw [e]
    unfold isNewMessage
    simp [Map.get_cons, hk]

/-- Such full tables are reachable: 4096 senders-topics each sending once. -/
theorem full_table_reachable :
    ∃ as : List Arrival, (accepts [] as).1.length = 4096 ∧
      (accepts [] as).1.get (0, 0) = some 5 ∧ (accepts [] as).1.get (1, 0) = none := by
  have key : ∀ n, n ≤ 4096 →
      (accepts [] ((List.range n).map fun i => (((0 : UInt16), UInt32.ofNat i), (5 : UInt32)))).1.length = n ∧
      (∀ k : UInt16 × UInt32, (accepts [] ((List.range n).map fun i => (((0 : UInt16), UInt32.ofNat i), (5 : UInt32)))).1.get k =
        if k.1 = 0 ∧ k.2.toNat < n then some 5 else none) := by
    intro n
    induction n with
    | zero => intro _; simp [accepts]
    | succ n ih =>
      intro hn
      obtain ⟨hl, hg⟩ := ih (by omega)
      rw [List.range_succ, List.map_append, accepts_append]
      simp only [List.map_cons, List.map_nil, accepts]
      have hnone : (accepts [] ((List.range n).map fun i => (((0 : UInt16), UInt32.ofNat i), (5 : UInt32)))).1.get
          (0, UInt32.ofNat n) = none := by
        rw [hg]
        simp only [UInt32.toNat_ofNat']
        rw [if_neg]
        have : n % 2 ^ 32 = n := Nat.mod_eq_of_lt (by omega)
        omega
      unfold isNewMessage
      simp only [hnone, Bool.false_eq_true, if_false]
      have hcap : enforceKeyCap (accepts [] ((List.range n).map fun i => (((0 : UInt16), UInt32.ofNat i), (5 : UInt32)))).1
          = (accepts [] ((List.range n).map fun i => (((0 : UInt16), UInt32.ofNat i), (5 : UInt32)))).1 := by
        unfold enforceKeyCap
        rw [if_pos (by simp only [MAX_TRACKED_KEYS]; omega)]
      rw [hcap]
      constructor
      · rw [Map.length_set, hnone]
        simp [hl]
      · intro k
        rw [Map.get_set, hg]
        by_cases e : (0, UInt32.ofNat n) = k
        · subst e
          simp only [if_true, UInt32.toNat_ofNat']
          rw [if_pos]
          have : n % 2 ^ 32 = n := Nat.mod_eq_of_lt (by omega)
          simp; omega
        · simp only [e, if_false]
          by_cases h0 : k.1 = 0
          · have hne : k.2.toNat ≠ n := by
              intro h
              apply e
              have : k.2 = UInt32.ofNat n := by rw [← h]; simp
              rw [← this, ← h0]
            have : (k.2.toNat < n ↔ k.2.toNat < n + 1) := by omega
            simp [h0, this]
          · simp [h0]
  obtain ⟨a, b⟩ := key 4096 (by omega)
  exact ⟨_, a, by rw [b]; decide, by rw [b]; decide⟩

/-- The deduplication table never exceeds 4096 entries, whatever arrives. -/
theorem dedup_table_bounded (as : List Arrival) : (accepts [] as).1.length ≤ 4096 := by
  have : ∀ (as : List Arrival) (d : Dedup), d.length ≤ 4096 → (accepts d as).1.length ≤ 4096 := by
    intro as
    induction as with
    | nil => intro d h; exact h
    | cons a as ih =>
      intro d h
      refine ih (isNewMessage d a.1.1 a.1.2 a.2).1 ?_
      simp only [isNewMessage_of_get]
      generalize (match d.get a.1 with | some last => isOld last a.2 | none => false) = old
      cases old
      · simp only [Bool.false_eq_true, if_false]
        unfold enforceKeyCap
        rw [Map.length_set]
        simp only [MAX_TRACKED_KEYS]
        split
        · split <;> omega
        · simp
      · simpa using h
  exact this as [] (by simp)

/-- System topics bypass deduplication entirely: every copy gets through, whatever is in the
(unauthenticated) table. -/
theorem system_topics_never_deduped (isSystem : UInt32 → Bool) (d : Dedup) (sender : UInt16)
    (ms : List InMessage) :
    (dedupMessages isSystem d sender ms).2.filter (fun m => isSystem m.topicHash) =
      ms.filter (fun m => isSystem m.topicHash) := by
  induction ms generalizing d with
  | nil => rfl
  | cons m ms ih =>
    unfold dedupMessages
    by_cases hs : isSystem m.topicHash = true
    · simp [hs, ih]
    · have hs' : isSystem m.topicHash = false := by simpa using hs
      simp only [hs', Bool.false_eq_true, if_false]
      split
      · simp [hs', ih]
      · simp [hs', ih]

/-! ### C09 -/

/-- Times at which the history resent (topic, seq). -/
def resendTimes (k : UInt32 × UInt32) (out : List (Event × List (UInt32 × UInt32 × Bytes))) : List Nat :=
  out.filterMap fun (e, o) => match e with
    | .tick now => if (o.any fun r => decide ((r.1, r.2.1) = k)) then some now else none
    | _ => none

/-- Event `e` latches message `k` again. -/
def Relatches (k : UInt32 × UInt32) : Event → Prop
  | .latch _ t s _ => (t, s) = k
  | _ => False

/-- Event `e` acknowledges message `k`. -/
def Acks (k : UInt32 × UInt32) : Event → Prop
  | .ack t s => (t, s) = k
  | _ => False

theorem tick_get (now : Nat) (l : Latches) (hok : Map.Ok l) (k : UInt32 × UInt32) :
    (tickResends now l).1.get k = ((l.get k).bind (tickEntry now)).map Prod.fst ∧
    (∀ p, (k.1, k.2, p) ∈ (tickResends now l).2 ↔
      ∃ e e', l.get k = some e ∧ tickEntry now e = some (e', true) ∧ e'.payload = p) ∧
    (∀ x ∈ Map.keys (tickResends now l).1, x ∈ Map.keys l) := by
  induction l with
  | nil => simp [tickResends, Map.keys]
  | cons x l ih =>
    obtain ⟨k0, e⟩ := x
    have hok' : Map.Ok l := by
      simp only [Map.Ok, Map.keys, List.map_cons, List.nodup_cons] at hok; exact hok.2
    have hk0 : k0 ∉ Map.keys l := by
      simp only [Map.Ok, Map.keys, List.map_cons, List.nodup_cons] at hok; exact hok.1
    obtain ⟨i1, i2, i3⟩ := ih hok'
    have hsub : ∀ x, x ∈ Map.keys (tickResends now l).1 → x ∈ Map.keys ((k0, e) :: l) :=
      fun x hx => List.mem_cons_of_mem _ (i3 x hx)
    have hcons : ∀ (e' : Latched) x, x ∈ Map.keys ((k0, e') :: (tickResends now l).1) →
        x ∈ Map.keys ((k0, e) :: l) := by
      intro e' x hx
      rcases List.mem_cons.mp hx with h | h
      · exact List.mem_cons.mpr (Or.inl h)
      · exact hsub x h
    unfold tickResends
    by_cases hk : k0 = k
    · subst hk
      have hn : Map.get l k0 = none := by
        cases h : Map.get l k0 with
        | none => rfl
        | some v => exact absurd ((Map.mem_keys_iff l k0).mpr (by simp [h])) hk0
      have hnr : ∀ p, (k0.1, k0.2, p) ∉ (tickResends now l).2 := by
        intro p hp
        obtain ⟨e, e', h, _⟩ := (i2 p).mp hp
        simp [hn] at h
      cases ht : tickEntry now e with
      | none =>
        simp only [Map.get_cons, if_true, Option.bind_some, ht, Option.map_none, i1, hn, Option.bind_none]
        refine ⟨trivial, fun p => ?_, hsub⟩
        simp only [hnr p, false_iff]
        rintro ⟨a, b, h1, h2, h3⟩
        simp only [Option.some.injEq] at h1
        subst h1
        simp [ht] at h2
      | some r =>
        obtain ⟨e', b⟩ := r
        cases b with
        | true =>
          simp only [Map.get_cons, if_true, Option.bind_some, ht, Option.map_some]
          refine ⟨trivial, fun p => ?_, hcons e'⟩
          simp only [List.mem_cons, hnr p, or_false, Prod.mk.injEq, true_and]
          constructor
          · rintro rfl; exact ⟨e, e', rfl, ht, rfl⟩
          · rintro ⟨a, b, h1, h2, h3⟩
            simp only [Option.some.injEq] at h1
            subst h1
            rw [ht] at h2
            simp at h2
            rw [h2, h3]
        | false =>
          simp only [Map.get_cons, if_true, Option.bind_some, ht, Option.map_some]
          refine ⟨trivial, fun p => ?_, hcons e'⟩
          simp only [hnr p, false_iff]
          rintro ⟨a, b, h1, h2, h3⟩
          simp only [Option.some.injEq] at h1
          subst h1
          rw [ht] at h2
          simp at h2
    · have hne : ∀ p q : Bytes, (k.1, k.2, p) ≠ (k0.1, k0.2, q) := by
        intro p q h
        simp only [Prod.mk.injEq] at h
        exact hk (Prod.ext h.1.symm h.2.1.symm)
      cases ht : tickEntry now e with
      | none =>
        simp only [Map.get_cons, hk, if_false]
        exact ⟨i1, i2, hsub⟩
      | some r =>
        obtain ⟨e', b⟩ := r
        cases b with
        | true =>
          simp only [Map.get_cons, hk, if_false]
          refine ⟨i1, fun p => ?_, hcons e'⟩
          simp only [List.mem_cons, hne, false_or]
          exact i2 p
        | false =>
          simp only [Map.get_cons, hk, if_false]
          exact ⟨i1, i2, hcons e'⟩

theorem tick_ok (now : Nat) (l : Latches) (hok : Map.Ok l) : Map.Ok (tickResends now l).1 := by
  induction l with
  | nil => exact Map.Ok.nil
  | cons x l ih =>
    obtain ⟨k0, e⟩ := x
    have hok' : Map.Ok l := by
      simp only [Map.Ok, Map.keys, List.map_cons, List.nodup_cons] at hok; exact hok.2
    have hk0 : k0 ∉ Map.keys l := by
      simp only [Map.Ok, Map.keys, List.map_cons, List.nodup_cons] at hok; exact hok.1
    have h3 := (tick_get now l hok' k0).2.2
    have hcons : ∀ e' : Latched, Map.Ok ((k0, e') :: (tickResends now l).1) := by
      intro e'
      simp only [Map.Ok, Map.keys, List.map_cons, List.nodup_cons]
      exact ⟨fun h => hk0 (h3 _ h), ih hok'⟩
    unfold tickResends
    cases ht : tickEntry now e with
    | none => exact ih hok'
    | some r =>
      obtain ⟨e', b⟩ := r
      cases b <;> exact hcons e'

theorem step_ok (l : Latches) (e : Event) (h : Map.Ok l) : Map.Ok (step l e).1 := by
  cases e with
  | latch now t s p => exact h.set _ _
  | ack t s => exact h.del _
  | tick now => exact tick_ok now l h

theorem resent_iff (now : Nat) (l : Latches) (hok : Map.Ok l) (k : UInt32 × UInt32) :
    ((tickResends now l).2.any fun r => decide ((r.1, r.2.1) = k)) = true ↔
      ∃ e, l.get k = some e ∧ 10000000 ≤ now - e.lastSent ∧ e.resendCount < 100 := by
  obtain ⟨_, h2, _⟩ := tick_get now l hok k
  simp only [List.any_eq_true, decide_eq_true_eq]
  constructor
  · rintro ⟨⟨t, s, p⟩, hm, hk⟩
    simp only at hk
    subst hk
    obtain ⟨e, e', hg, ht, _⟩ := (h2 p).mp hm
    refine ⟨e, hg, ?_⟩
    unfold tickEntry at ht
    simp only [LATCH_RESEND_INTERVAL, MAX_LATCH_RESENDS] at ht
    split at ht
    · split at ht
      · simp at ht
      · omega
    · simp at ht
  · rintro ⟨e, hg, h1, h3⟩
    refine ⟨(k.1, k.2, e.payload), (h2 _).mpr ⟨e, { e with resendCount := e.resendCount + 1, lastSent := now }, hg, ?_, rfl⟩, rfl⟩
    unfold tickEntry
    simp only [LATCH_RESEND_INTERVAL, MAX_LATCH_RESENDS]
    rw [if_pos (by omega), if_neg (by omega)]

/-- After an acknowledgement, and until latched again, a message is never resent. -/
theorem no_resend_when_absent (k : UInt32 × UInt32) (es : List Event) :
    ∀ l : Latches, Map.Ok l → l.get k = none → (∀ e ∈ es, ¬ Relatches k e) →
    resendTimes k (run l es).2 = [] ∧ (run l es).1.get k = none := by
  induction es with
  | nil => intro l _ h _; exact ⟨rfl, h⟩
  | cons x es ih =>
    intro l hok hn hre
    have hstep : (step l x).1.get k = none := by
      cases x with
      | latch now t s p =>
        have : (t, s) ≠ k := hre _ (List.mem_cons_self)
        simp only [step, startLatch]
        rw [Map.get_set_ne _ _ this]; exact hn
      | ack t s =>
        simp only [step, onAck, Map.get_del]
        split
        · rfl
        · exact hn
      | tick now =>
        simp only [step]
        rw [(tick_get now l hok k).1, hn]; rfl
    obtain ⟨r1, r2⟩ := ih (step l x).1 (step_ok l x hok) hstep (fun e he => hre e (List.mem_cons_of_mem _ he))
    refine ⟨?_, r2⟩
    simp only [run, resendTimes, List.filterMap_cons]
    cases x with
    | latch now t s p => exact r1
    | ack t s => exact r1
    | tick now =>
      have : ((step l (.tick now)).2.any fun r => decide ((r.1, r.2.1) = k)) = false := by
        rw [Bool.eq_false_iff]
        intro h
        obtain ⟨e, hg, _⟩ := (resent_iff now l hok k).mp h
        simp [hn] at hg
      simp only [this, Bool.false_eq_true, if_false]
      exact r1

/-- `ts` are resend times: each at least 10 ms after the previous (the first after `t`). -/
def Spaced (t : Nat) : List Nat → Prop
  | [] => True
  | u :: us => t + 10000000 ≤ u ∧ Spaced u us

theorem resends_main (k : UInt32 × UInt32) (es : List Event) :
    ∀ (l : Latches) (e : Latched), Map.Ok l → l.get k = some e → (∀ x ∈ es, ¬ Relatches k x) →
    e.resendCount ≤ 100 →
    (resendTimes k (run l es).2).length + e.resendCount ≤ 100 ∧
    Spaced e.lastSent (resendTimes k (run l es).2) ∧
    ((∀ x ∈ es, ¬ Acks k x) → (resendTimes k (run l es).2).length + e.resendCount < 100 →
      ∃ e', (run l es).1.get k = some e' ∧ e'.payload = e.payload ∧
        e'.resendCount = (resendTimes k (run l es).2).length + e.resendCount ∧
        e'.lastSent = (resendTimes k (run l es).2).getLast?.getD e.lastSent) := by
  induction es with
  | nil =>
    intro l e _ hg _ hc
    exact ⟨by simpa [run, resendTimes] using hc, trivial, fun _ _ => ⟨e, hg, rfl, by simp [run, resendTimes], by simp [run, resendTimes]⟩⟩
  | cons x es ih =>
    intro l e hok hg hre hc
    have hre' : ∀ y ∈ es, ¬ Relatches k y := fun y hy => hre y (List.mem_cons_of_mem _ hy)
    cases x with
    | latch now t s p =>
      have hne : (t, s) ≠ k := hre _ List.mem_cons_self
      have hg' : (step l (.latch now t s p)).1.get k = some e := by
        simp only [step, startLatch]; rw [Map.get_set_ne _ _ hne]; exact hg
      obtain ⟨a, b, c⟩ := ih _ e (step_ok l _ hok) hg' hre' hc
      exact ⟨a, b, fun hack => c (fun y hy => hack y (List.mem_cons_of_mem _ hy))⟩
    | ack t s =>
      by_cases hk : (t, s) = k
      · have hn : (step l (.ack t s)).1.get k = none := by
          simp only [step, onAck, Map.get_del, hk, if_true]
        obtain ⟨r1, r2⟩ := no_resend_when_absent k es _ (step_ok l _ hok) hn hre'
        have : resendTimes k (run l (.ack t s :: es)).2 = [] := r1
        rw [this]
        exact ⟨by simpa using hc, trivial, fun hack => absurd hk (hack _ List.mem_cons_self)⟩
      · have hg' : (step l (.ack t s)).1.get k = some e := by
          simp only [step, onAck, Map.get_del, hk, if_false]; exact hg
        obtain ⟨a, b, c⟩ := ih _ e (step_ok l _ hok) hg' hre' hc
        exact ⟨a, b, fun hack => c (fun y hy => hack y (List.mem_cons_of_mem _ hy))⟩
    | tick now =>
      have hget := (tick_get now l hok k).1
      rw [hg, Option.bind_some] at hget
      by_cases hdue : 10000000 ≤ now - e.lastSent
      · by_cases hcnt : e.resendCount < 100
        · have hres : ((step l (.tick now)).2.any fun r => decide ((r.1, r.2.1) = k)) = true :=
            (resent_iff now l hok k).mpr ⟨e, hg, hdue, hcnt⟩
          have hte : tickEntry now e = some ({ e with resendCount := e.resendCount + 1, lastSent := now }, true) := by
            unfold tickEntry
            simp only [LATCH_RESEND_INTERVAL, MAX_LATCH_RESENDS]
            rw [if_pos (by omega), if_neg (by omega)]
          rw [hte] at hget
          obtain ⟨a, b, c⟩ := ih (step l (.tick now)).1 _ (step_ok l _ hok) hget hre' (by simp only; omega)
          have hrt : resendTimes k (run l (.tick now :: es)).2 =
              now :: resendTimes k (run (step l (.tick now)).1 es).2 := by
            simp only [run, resendTimes, List.filterMap_cons, hres, if_true]
          rw [hrt]
          simp only at a b c
          refine ⟨by simp only [List.length_cons]; omega, ⟨by omega, b⟩, ?_⟩
          intro hack hlt
          simp only [List.length_cons] at hlt
          obtain ⟨e', h1, h2, h3, h4⟩ := c (fun y hy => hack y (List.mem_cons_of_mem _ hy)) (by omega)
          refine ⟨e', h1, h2, by simp only [List.length_cons]; omega, ?_⟩
          rw [h4]
          rw [List.getLast?_cons]; rfl
        · have hno : ((step l (.tick now)).2.any fun r => decide ((r.1, r.2.1) = k)) = false := by
            rw [Bool.eq_false_iff]
            intro h
            obtain ⟨e2, hg2, _, hc2⟩ := (resent_iff now l hok k).mp h
            rw [hg] at hg2; simp at hg2; subst hg2; omega
          have hte : tickEntry now e = none := by
            unfold tickEntry
            simp only [LATCH_RESEND_INTERVAL, MAX_LATCH_RESENDS]
            rw [if_pos (by omega), if_pos (by omega)]
          rw [hte] at hget
          obtain ⟨r1, r2⟩ := no_resend_when_absent k es (step l (.tick now)).1 (step_ok l _ hok) hget hre'
          have hrt : resendTimes k (run l (.tick now :: es)).2 = [] := by
            simp only [run, resendTimes, List.filterMap_cons, hno, Bool.false_eq_true, if_false]
            exact r1
          rw [hrt]
          exact ⟨by simpa using hc, trivial, fun _ hlt => by simp at hlt; omega⟩
      · have hno : ((step l (.tick now)).2.any fun r => decide ((r.1, r.2.1) = k)) = false := by
          rw [Bool.eq_false_iff]
          intro h
          obtain ⟨e2, hg2, hd, _⟩ := (resent_iff now l hok k).mp h
          rw [hg] at hg2; simp at hg2; subst hg2; omega
        have hte : tickEntry now e = some (e, false) := by
          unfold tickEntry
          simp only [LATCH_RESEND_INTERVAL]
          rw [if_neg (by omega)]
        rw [hte] at hget
        obtain ⟨a, b, c⟩ := ih (step l (.tick now)).1 e (step_ok l _ hok) hget hre' hc
        have hrt : resendTimes k (run l (.tick now :: es)).2 =
            resendTimes k (run (step l (.tick now)).1 es).2 := by
          simp only [run, resendTimes, List.filterMap_cons, hno, Bool.false_eq_true, if_false]
        rw [hrt]
        exact ⟨a, b, fun hack => c (fun y hy => hack y (List.mem_cons_of_mem _ hy))⟩

/-- C09: after a message is latched at `t0` (in any state), and until it is latched again, it is
resent at most 100 times, at least 10 ms apart. -/
theorem latch_resends_bounded (l : Latches) (hok : Map.Ok l) (t0 : Nat) (topic seq : UInt32) (p : Bytes)
    (es : List Event) (hre : ∀ x ∈ es, ¬ Relatches (topic, seq) x) :
    (resendTimes (topic, seq) (run l (.latch t0 topic seq p :: es)).2).length ≤ 100 ∧
    Spaced t0 (resendTimes (topic, seq) (run l (.latch t0 topic seq p :: es)).2) := by
  have := resends_main (topic, seq) es (startLatch t0 l topic seq p)
    { payload := p, resendCount := 0, lastSent := t0 } (step_ok l (.latch t0 topic seq p) hok)
    (by simp [startLatch]) hre (by simp)
  exact ⟨this.1, this.2.1⟩

/-- C09: once acknowledged, a message is not resent (until latched again). -/
theorem no_resend_after_ack (l : Latches) (hok : Map.Ok l) (topic seq : UInt32) (es : List Event)
    (hre : ∀ x ∈ es, ¬ Relatches (topic, seq) x) :
    resendTimes (topic, seq) (run l (.ack topic seq :: es)).2 = [] :=
  (no_resend_when_absent (topic, seq) es (onAck l topic seq) (hok.del _) (by simp [onAck]) hre).1

/-- C09: an unacknowledged message is retained, with its payload, and the next timer tick at least
10 ms after the last transmission resends it, until 100 resends have been made. -/
theorem latch_retained (l : Latches) (hok : Map.Ok l) (t0 : Nat) (topic seq : UInt32) (p : Bytes)
    (es : List Event) (hre : ∀ x ∈ es, ¬ Relatches (topic, seq) x)
    (hack : ∀ x ∈ es, ¬ Acks (topic, seq) x)
    (hlt : (resendTimes (topic, seq) (run l (.latch t0 topic seq p :: es)).2).length < 100)
    (now : Nat)
    (hnow : ((resendTimes (topic, seq) (run l (.latch t0 topic seq p :: es)).2).getLast?.getD t0)
      + 10000000 ≤ now) :
    (topic, seq, p) ∈ (step (run l (.latch t0 topic seq p :: es)).1 (.tick now)).2 := by
  have hmain := resends_main (topic, seq) es (startLatch t0 l topic seq p)
    { payload := p, resendCount := 0, lastSent := t0 } (step_ok l (.latch t0 topic seq p) hok)
    (by simp [startLatch]) hre (by simp)
  have e1 : resendTimes (topic, seq) (run l (.latch t0 topic seq p :: es)).2
      = resendTimes (topic, seq) (run (startLatch t0 l topic seq p) es).2 := rfl
  rw [e1] at hlt hnow
  obtain ⟨e', hg, hp, hc, hl⟩ := hmain.2.2 hack (by simpa using hlt)
  have hokr : ∀ (es : List Event) (l : Latches), Map.Ok l → Map.Ok (run l es).1 := by
    intro es
    induction es with
    | nil => intro l h; exact h
    | cons x es ih => intro l h; exact ih _ (step_ok l x h)
  have hok' : Map.Ok (run l (.latch t0 topic seq p :: es)).1 := hokr _ l hok
  have hg' : (run l (.latch t0 topic seq p :: es)).1.get (topic, seq) = some e' := hg
  refine ((tick_get now _ hok' (topic, seq)).2.1 p).mpr ⟨e', { e' with resendCount := e'.resendCount + 1, lastSent := now }, hg', ?_, hp⟩
  unfold tickEntry
  simp only [LATCH_RESEND_INTERVAL, MAX_LATCH_RESENDS]
  rw [if_pos (by simp only at hl; omega), if_neg (by simp only at hc; omega)]

/-- Non-vacuity of C09: a message latched at time 0 is resent at 10 ms and 25 ms, not at 12 ms, and
not after the acknowledgement. -/
example : resendTimes (7, 1) (run [] [.latch 0 7 1 [9], .tick 10000000, .tick 12000000, .tick 25000000,
    .ack 7 1, .tick 50000000]).2 = [10000000, 25000000] := by decide

end Horus.Reliability
