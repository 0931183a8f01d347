import Verif.Fragment.Lemmas
import Mathlib.Data.List.Induction
/-
Properties C05 (fragmentation reassembles exactly) and C06 (reassembly memory is bounded).
-/
namespace Horus.Fragment
open Horus.Wire

/-! ### C05 -/

/-- The message a receiver should obtain: everything the sender passed except the topic name,
which is not on the wire. -/
def original (m : OutMessage) : Reassembled :=
  { topicHash := m.topicHash, sequence := m.sequence, timestampNs := m.timestampNs,
    priority := m.priority, reliability := m.reliability, encoding := m.encoding,
    payload := m.payload }

/-- Event `e` is the arrival of one of the fragments in `frags`. -/
def IsOwn (frags : List Frag) (e : Event) : Prop := ∃ now, ∃ f ∈ frags, e = .arrive now f

/-- Event `e` is the arrival of a fragment that does not belong to a multi-fragment message with
the same topic and fragment id, or a timer collection. -/
def IsForeign (topic id : UInt32) : Event → Prop
  | .arrive _ f => (f.topicHash, f.fragmentId) ≠ (topic, id) ∨ f.fragmentCount.toNat = 1
  | .gc _ => True

/-- C05: no fragment's payload exceeds 1400 bytes, and there are at most 749 fragments. -/
theorem fragment_sizes (id : UInt32) (m : OutMessage) :
    (∀ f ∈ (fragment id m).2, f.payload.length ≤ 1400) ∧ (fragment id m).2.length ≤ 749 := by
  unfold fragment
  simp only
  split
  · rename_i h; simpa using h
  · split
    · simp
    · rename_i h1 h2
      constructor
      · intro f hf
        simp only [List.mem_map] at hf
        obtain ⟨⟨c, i⟩, hc, rfl⟩ := hf
        simp only
        have := List.mem_zipIdx' hc
        exact chunks_mem_length 1400 m.payload c (by
          rw [this.2]; exact List.getElem_mem _)
      · simp only [List.length_map, List.length_zipIdx]
        rw [chunks_length 1400 (by omega)]
        simp only [MAX_REASSEMBLY_SIZE] at h2
        omega

/-- C05: a payload of more than 1 MiB is refused outright. -/
theorem fragment_too_big (id : UInt32) (m : OutMessage) (h : 1048576 < m.payload.length) :
    (fragment id m).2 = [] := by
  unfold fragment
  simp only
  rw [if_neg (by simp only [MAX_FRAGMENT_PAYLOAD]; omega), if_pos (by simpa using h)]

/-- C05, small messages: one fragment, delivered at once and unchanged, whatever else is pending. -/
theorem reassemble_single (id : UInt32) (m : OutMessage) (h : m.payload.length ≤ 1400)
    (r : Reassembler) (now : Nat) :
    ∃ f, (fragment id m).2 = [f] ∧ feed now r f = (r, some (original m)) := by
  unfold fragment
  simp only
  rw [if_pos (by simpa using h)]
  refine ⟨_, rfl, ?_⟩
  unfold feed
  have : (UInt32.ofNat m.payload.length).toNat = m.payload.length := by
    rw [UInt32.toNat_ofNat']; omega
  simp only [this]
  rw [if_neg (by simp only [MAX_REASSEMBLY_SIZE]; omega), if_neg (by simp), if_pos (by simp)]
  rfl

/-- The fragment with index `i` of a fragmented message. -/
def ownFrag (id : UInt32) (m : OutMessage) (i : Nat) (c : Bytes) : Frag :=
  { topicHash := m.topicHash, sequence := m.sequence, timestampNs := m.timestampNs,
    priority := m.priority, reliability := m.reliability, encoding := m.encoding,
    fragmentId := id, fragmentIndex := UInt16.ofNat i,
    fragmentCount := UInt16.ofNat (chunks 1400 m.payload).length,
    totalPayloadLen := UInt32.ofNat m.payload.length, payload := c }

theorem mem_fragment (id : UInt32) (m : OutMessage) (h1 : 1400 < m.payload.length)
    (h2 : m.payload.length ≤ 1048576) (f : Frag) :
    f ∈ (fragment id m).2 ↔ ∃ i c, (chunks 1400 m.payload)[i]? = some c ∧ f = ownFrag id m i c := by
  unfold fragment
  simp only
  rw [if_neg (by simp only [MAX_FRAGMENT_PAYLOAD]; omega),
    if_neg (by simp only [MAX_REASSEMBLY_SIZE]; omega)]
  simp only [List.mem_map, Prod.exists, List.mem_zipIdx_iff_getElem?]
  constructor
  · rintro ⟨c, i, h, rfl⟩; exact ⟨i, c, h, rfl⟩
  · rintro ⟨i, c, h, rfl⟩; exact ⟨c, i, h, rfl⟩

theorem chunk_count (m : OutMessage) (h1 : 1400 < m.payload.length)
    (h2 : m.payload.length ≤ 1048576) :
    1 < (chunks 1400 m.payload).length ∧ (chunks 1400 m.payload).length ≤ 749 := by
  rw [chunks_length 1400 (by omega)]
  omega

/-- Slot `j` of a pending message has been filled. -/
def Filled (p : Pending) (j : Nat) : Prop := ∃ d, p.fragments[j]? = some (some d)

/-- Invariant of the pending entry of message `m`. -/
structure OwnInv (m : OutMessage) (t0 : Nat) (p : Pending) : Prop where
  agree : Agree p.fragments (chunks 1400 m.payload)
  count : p.receivedCount = (p.fragments.filterMap id).length
  bytes : p.receivedBytes = (p.fragments.filterMap id).flatten.length
  expected : p.expectedCount.toNat = (chunks 1400 m.payload).length
  total : p.totalLen.toNat = m.payload.length
  seen : p.firstSeen = t0
  meta1 : { p.finish with payload := [] } = { original m with payload := [] }

theorem OwnInv.full_iff {m : OutMessage} {t0 : Nat} {p : Pending} (h : OwnInv m t0 p) :
    p.receivedCount = p.expectedCount.toNat ↔ ∀ j, j < (chunks 1400 m.payload).length → Filled p j := by
  rw [h.count, h.expected, ← h.agree.1, filterMap_length_full]
  rfl

theorem OwnInv.finish_eq {m : OutMessage} {t0 : Nat} {p : Pending} (h : OwnInv m t0 p)
    (hf : ∀ j, j < (chunks 1400 m.payload).length → Filled p j) : p.finish = original m := by
  have hp : p.fragments.filterMap id = chunks 1400 m.payload :=
    agree_full _ _ h.agree (by rw [h.agree.1]; exact hf)
  have hm := h.meta1
  simp only [Pending.finish, original, Reassembled.mk.injEq] at hm ⊢
  rw [hp, chunks_flatten 1400 (by omega)]
  simp [hm]

theorem OwnInv.fresh (id : UInt32) (m : OutMessage) (h1 : 1400 < m.payload.length)
    (h2 : m.payload.length ≤ 1048576) (now i : Nat) (c : Bytes) :
    OwnInv m now (Pending.fresh now (ownFrag id m i c)) := by
  have hc := chunk_count m h1 h2
  have e : (UInt16.ofNat (chunks 1400 m.payload).length).toNat = (chunks 1400 m.payload).length := by
    rw [UInt16.toNat_ofNat']; omega
  constructor
  · constructor
    · simp only [Pending.fresh, ownFrag, List.length_replicate, e]
    · intro j d hd
      simp only [Pending.fresh] at hd
      rw [List.getElem?_replicate] at hd
      split at hd <;> simp at hd
  · simp [Pending.fresh]
  · simp [Pending.fresh]
  · simp only [Pending.fresh, ownFrag, e]
  · simp only [Pending.fresh, ownFrag, UInt32.toNat_ofNat']; omega
  · rfl
  · rfl

theorem Agree.set {fr : List (Option Bytes)} {cs : List Bytes} (h : Agree fr cs) (i : Nat) (c : Bytes)
    (hc : cs[i]? = some c) : Agree (fr.set i (some c)) cs := by
  refine ⟨by simp [h.1], ?_⟩
  intro j d hd
  rw [List.getElem?_set] at hd
  split at hd
  · rename_i e
    subst e
    split at hd
    · simp at hd; subst hd; exact hc
    · simp at hd
  · exact h.2 j d hd

/-- Effect of one own fragment on a reassembler whose entry for the message is `p` (or fresh). -/
theorem feed_own (id : UInt32) (m : OutMessage) (h1 : 1400 < m.payload.length)
    (h2 : m.payload.length ≤ 1048576) (r : Reassembler) (now i t0 : Nat) (c : Bytes) (p : Pending)
    (hi : (chunks 1400 m.payload)[i]? = some c)
    (hp : p = (r.get (m.topicHash, id)).getD (Pending.fresh now (ownFrag id m i c)))
    (hroom : (r.get (m.topicHash, id)).isSome ∨ r.length < 256)
    (hinv : OwnInv m t0 p)
    (hnot : ¬ ∀ j, j < (chunks 1400 m.payload).length → Filled p j) :
    ∃ p', OwnInv m t0 p' ∧ (∀ j, j < (chunks 1400 m.payload).length → (Filled p' j ↔ Filled p j ∨ j = i)) ∧
      (((∀ j, j < (chunks 1400 m.payload).length → Filled p' j) ∧
          (feed now r (ownFrag id m i c)).2 = some (original m) ∧
          (feed now r (ownFrag id m i c)).1.get (m.topicHash, id) = none) ∨
       ((¬ ∀ j, j < (chunks 1400 m.payload).length → Filled p' j) ∧
          (feed now r (ownFrag id m i c)).2 = none ∧
          (feed now r (ownFrag id m i c)).1.get (m.topicHash, id) = some p')) := by
  have hcnt := chunk_count m h1 h2
  have hilt : i < (chunks 1400 m.payload).length := by
    rcases List.getElem?_eq_some_iff.mp hi with ⟨h, _⟩; exact h
  have e16 : (UInt16.ofNat (chunks 1400 m.payload).length).toNat = (chunks 1400 m.payload).length := by
    rw [UInt16.toNat_ofNat']; omega
  have ei : (UInt16.ofNat i).toNat = i := by rw [UInt16.toNat_ofNat']; omega
  have e32 : (UInt32.ofNat m.payload.length).toNat = m.payload.length := by
    rw [UInt32.toNat_ofNat']; omega
  have hkey : ((ownFrag id m i c).topicHash, (ownFrag id m i c).fragmentId) = (m.topicHash, id) := rfl
  have c1 : ¬ (ownFrag id m i c).totalPayloadLen.toNat > MAX_REASSEMBLY_SIZE := by
    simp only [ownFrag, e32, MAX_REASSEMBLY_SIZE]; omega
  have c2 : ¬ ((ownFrag id m i c).fragmentCount.toNat = 0 ∨
      (ownFrag id m i c).fragmentCount.toNat > MAX_FRAGMENTS_PER_MESSAGE) := by
    simp only [ownFrag, e16, MAX_FRAGMENTS_PER_MESSAGE]; omega
  have c3 : ¬ (ownFrag id m i c).fragmentCount.toNat = 1 := by
    simp only [ownFrag, e16]; omega
  have c4 : ¬ ((r.get (m.topicHash, id)).isNone ∧ r.length ≥ MAX_PENDING_MESSAGES) := by
    simp only [MAX_PENDING_MESSAGES, ge_iff_le, not_and, Nat.not_le]
    intro hn
    rcases hroom with h | h
    · rw [Option.isNone_iff_eq_none] at hn; simp [hn] at h
    · exact h
  have c5 : ¬ (ownFrag id m i c).fragmentIndex.toNat ≥ p.fragments.length := by
    simp only [ownFrag, ei, hinv.agree.1]; omega
  have hidx : (ownFrag id m i c).fragmentIndex.toNat = i := ei
  have hpay : (ownFrag id m i c).payload = c := rfl
  have hfeed : feed now r (ownFrag id m i c) =
      (match p.fragments[i]? with
        | some none =>
          let newBytes := p.receivedBytes + c.length
          if newBytes > p.totalLen.toNat then ((r.set (m.topicHash, id) p).del (m.topicHash, id), none)
          else
            let p' := { p with receivedBytes := newBytes, fragments := p.fragments.set i (some c), receivedCount := p.receivedCount + 1 }
            if p'.receivedCount = p'.expectedCount.toNat then
              ((r.set (m.topicHash, id) p).del (m.topicHash, id), some p'.finish)
            else ((r.set (m.topicHash, id) p).set (m.topicHash, id) p', none)
        | _ =>
          if p.receivedCount = p.expectedCount.toNat then
            ((r.set (m.topicHash, id) p).del (m.topicHash, id), some p.finish)
          else (r.set (m.topicHash, id) p, none)) := by
    unfold feed
    simp only
    rw [if_neg c1, if_neg c2, if_neg c3, hkey, if_neg c4, ← hp, if_neg c5, hidx, hpay]
    rfl
  rw [hfeed]
  have hil : i < p.fragments.length := by rw [hinv.agree.1]; exact hilt
  have hnf : ¬ p.receivedCount = p.expectedCount.toNat := fun h => hnot (hinv.full_iff.mp h)
  cases hs : p.fragments[i]? with
  | none => rw [List.getElem?_eq_none_iff] at hs; omega
  | some o =>
    cases o with
    | some d =>
      simp only
      rw [if_neg hnf]
      refine ⟨p, hinv, ?_, Or.inr ⟨hnot, rfl, by simp⟩⟩
      intro j _
      constructor
      · exact Or.inl
      · rintro (h | rfl)
        · exact h
        · exact ⟨d, hs⟩
    | none =>
      simp only
      have hfl : p.fragments.length = (chunks 1400 m.payload).length := hinv.agree.1
      have hp' : OwnInv m t0 { p with receivedBytes := p.receivedBytes + c.length, fragments := p.fragments.set i (some c), receivedCount := p.receivedCount + 1 } := by
        constructor
        · exact hinv.agree.set i c hi
        · simp only [filterMap_set_length _ _ c hs, hinv.count]
        · simp only [filterMap_set_bytes _ _ c hs, hinv.bytes]
        · exact hinv.expected
        · exact hinv.total
        · exact hinv.seen
        · have := hinv.meta1
          simpa [Pending.finish] using this
      have hle := agree_bytes_le _ _ hp'.agree
      rw [← hp'.bytes, chunks_flatten 1400 (by omega)] at hle
      simp only at hle
      rw [if_neg (by rw [hinv.total]; omega)]
      have hfill : ∀ j, j < (chunks 1400 m.payload).length →
          (Filled { p with receivedBytes := p.receivedBytes + c.length, fragments := p.fragments.set i (some c), receivedCount := p.receivedCount + 1 } j ↔ Filled p j ∨ j = i) := by
        intro j hj
        unfold Filled
        simp only
        by_cases hji : j = i
        · subst hji
          simp [hil]
        · have : ¬ i = j := fun e => hji e.symm
          simp [this, hji]
      by_cases hfull : p.receivedCount + 1 = p.expectedCount.toNat
      · rw [if_pos hfull]
        have hall := hp'.full_iff.mp hfull
        refine ⟨_, hp', hfill, Or.inl ⟨hall, ?_, ?_⟩⟩
        · simp only [hp'.finish_eq hall]
        · simp
      · rw [if_neg hfull]
        exact ⟨_, hp', hfill, Or.inr ⟨fun h => hfull (hp'.full_iff.mpr h), rfl, by simp⟩⟩

/-- What is true of the reassembler's entry for message `m` at any time. -/
def KeyInv (id : UInt32) (m : OutMessage) (r : Reassembler) : Prop :=
  r.get (m.topicHash, id) = none ∨ ∃ t0 p, r.get (m.topicHash, id) = some p ∧ OwnInv m t0 p ∧
    ¬ ∀ j, j < (chunks 1400 m.payload).length → Filled p j

theorem keyInv_step (id : UInt32) (m : OutMessage) (h1 : 1400 < m.payload.length)
    (h2 : m.payload.length ≤ 1048576) (r : Reassembler) (hok : Map.Ok r) (hk : KeyInv id m r) (e : Event)
    (he : IsOwn (fragment id m).2 e ∨ IsForeign m.topicHash id e) :
    KeyInv id m (step r e).1 ∧
    (IsOwn (fragment id m).2 e → (step r e).2 = none ∨ (step r e).2 = some (original m)) := by
  have hcc := chunk_count m h1 h2
  by_cases ho : IsOwn (fragment id m).2 e
  · obtain ⟨now, f, hf, rfl⟩ := ho
    obtain ⟨i, c, hi, rfl⟩ := (mem_fragment id m h1 h2 f).mp hf
    simp only [step]
    by_cases hroom : (r.get (m.topicHash, id)).isSome ∨ r.length < 256
    · have key : ∃ t0, OwnInv m t0 ((r.get (m.topicHash, id)).getD (Pending.fresh now (ownFrag id m i c))) ∧
          ¬ ∀ j, j < (chunks 1400 m.payload).length →
            Filled ((r.get (m.topicHash, id)).getD (Pending.fresh now (ownFrag id m i c))) j := by
        rcases hk with hn | ⟨t0, p, hg, hinv, hnot⟩
        · refine ⟨now, ?_, ?_⟩
          · rw [hn]; exact OwnInv.fresh id m h1 h2 now i c
          · rw [hn]
            intro hall
            obtain ⟨d, hd⟩ := hall 0 (by omega)
            simp only [Option.getD_none, Pending.fresh] at hd
            rw [List.getElem?_replicate] at hd
            split at hd <;> simp at hd
        · rw [hg]; exact ⟨t0, hinv, hnot⟩
      obtain ⟨t0, hinv, hnot⟩ := key
      obtain ⟨p', hp', _, hres⟩ := feed_own id m h1 h2 r now i t0 c _ hi rfl hroom hinv hnot
      rcases hres with ⟨_, ho, hg⟩ | ⟨hn, ho, hg⟩
      · exact ⟨Or.inl hg, fun _ => Or.inr ho⟩
      · exact ⟨Or.inr ⟨t0, p', hg, hp', hn⟩, fun _ => Or.inl ho⟩
    · have hnone : feed now r (ownFrag id m i c) = (r, none) := by
        rw [not_or] at hroom
        have e16 : (UInt16.ofNat (chunks 1400 m.payload).length).toNat
            = (chunks 1400 m.payload).length := by rw [UInt16.toNat_ofNat']; omega
        have e32 : (UInt32.ofNat m.payload.length).toNat = m.payload.length := by
          rw [UInt32.toNat_ofNat']; omega
        unfold feed
        simp only
        rw [if_neg (by simp only [ownFrag, e32, MAX_REASSEMBLY_SIZE]; omega),
          if_neg (by simp only [ownFrag, e16, MAX_FRAGMENTS_PER_MESSAGE]; omega),
          if_neg (by simp only [ownFrag, e16]; omega)]
        rw [if_pos]
        refine ⟨?_, by simp only [MAX_PENDING_MESSAGES]; omega⟩
        have : ((ownFrag id m i c).topicHash, (ownFrag id m i c).fragmentId) = (m.topicHash, id) := rfl
        rw [this]
        simpa using hroom.1
      rw [hnone]
      exact ⟨hk, fun _ => Or.inl rfl⟩
  · have hfo := he.resolve_left ho
    refine ⟨?_, fun h => absurd h ho⟩
    cases e with
    | arrive now f =>
      have := feed_get_ne now r f _ hfo
      simp only [step, KeyInv, this]
      exact hk
    | gc now =>
      simp only [step, gcStale, KeyInv]
      rw [Map.get_filter hok]
      rcases hk with hn | ⟨t0, p, hg, hinv, hnot⟩
      · left; rw [hn]; rfl
      · rw [hg]
        simp only [Option.filter]
        split
        · right; exact ⟨t0, p, rfl, hinv, hnot⟩
        · left; rfl

/-- C05, exactness: in any history (any order, duplication and loss of this message's fragments,
interleaved with any other fragments and timer collections), whatever a fragment of this message
makes the reassembler deliver is exactly the original message. -/
theorem reassemble_exact (id : UInt32) (m : OutMessage) (h1 : 1400 < m.payload.length)
    (h2 : m.payload.length ≤ 1048576) (es : List Event)
    (hes : ∀ e ∈ es, IsOwn (fragment id m).2 e ∨ IsForeign m.topicHash id e) :
    ∀ r : Reassembler, Map.Ok r → r.get (m.topicHash, id) = none →
    ∀ e o, (e, o) ∈ (run r es).2 → IsOwn (fragment id m).2 e → o = none ∨ o = some (original m) := by
  have main : ∀ (es : List Event), (∀ e ∈ es, IsOwn (fragment id m).2 e ∨ IsForeign m.topicHash id e) →
      ∀ r : Reassembler, Map.Ok r → KeyInv id m r →
      ∀ e o, (e, o) ∈ (run r es).2 → IsOwn (fragment id m).2 e → o = none ∨ o = some (original m) := by
    intro es
    induction es with
    | nil => intro _ r _ _ e o h; simp [run] at h
    | cons x es ih =>
      intro hes r hok hk e o hmem hown
      have hstep := keyInv_step id m h1 h2 r hok hk x (hes x (by simp))
      simp only [run, List.mem_cons, Prod.mk.injEq] at hmem
      rcases hmem with ⟨rfl, rfl⟩ | hmem
      · exact hstep.2 hown
      · exact ih (fun y hy => hes y (by simp [hy])) _ (step_ok r x hok) hstep.1 e o hmem hown
  intro r hok hn
  exact main es hes r hok (Or.inl hn)

/-- Some event in `es` is the arrival of this message's fragment number `j`. -/
def Arrived (frags : List Frag) (es : List Event) (j : Nat) : Prop :=
  ∃ now, ∃ f ∈ frags, f.fragmentIndex.toNat = j ∧ Event.arrive now f ∈ es

/-- C05, completion: when the first fragment (any of them) finds room in the reassembler and no
timer collection happens more than 100 ms later, then nothing is delivered for the message while
some fragment is still missing, and the arrival that supplies the last missing fragment delivers
exactly the original message. Other traffic in between is arbitrary. -/
theorem reassemble_complete (id : UInt32) (m : OutMessage) (h1 : 1400 < m.payload.length)
    (h2 : m.payload.length ≤ 1048576) (r : Reassembler) (hok : Map.Ok r)
    (hn : r.get (m.topicHash, id) = none) (hroom : r.length < 256)
    (t0 : Nat) (f0 : Frag) (hf0 : f0 ∈ (fragment id m).2) (pre : List Event)
    (hpre : ∀ e ∈ pre, IsOwn (fragment id m).2 e ∨ IsForeign m.topicHash id e)
    (hgc : ∀ t, Event.gc t ∈ pre → t - t0 < 100000000)
    (hmiss : ∃ j, j < (fragment id m).2.length ∧ ¬ Arrived (fragment id m).2 (.arrive t0 f0 :: pre) j) :
    (∀ e o, (e, o) ∈ (run r (.arrive t0 f0 :: pre)).2 → IsOwn (fragment id m).2 e → o = none) ∧
    (∀ now f, f ∈ (fragment id m).2 →
      (∀ j, j < (fragment id m).2.length →
        Arrived (fragment id m).2 (.arrive t0 f0 :: pre ++ [.arrive now f]) j) →
      (step (run r (.arrive t0 f0 :: pre)).1 (.arrive now f)).2 = some (original m)) := by
  have hcc := chunk_count m h1 h2
  have hlen : (fragment id m).2.length = (chunks 1400 m.payload).length := by
    unfold fragment
    simp only
    rw [if_neg (by simp only [MAX_FRAGMENT_PAYLOAD]; omega),
      if_neg (by simp only [MAX_REASSEMBLY_SIZE]; omega)]
    simp
  have hidx : ∀ i c, (chunks 1400 m.payload)[i]? = some c → (ownFrag id m i c).fragmentIndex.toNat = i := by
    intro i c hi
    have : i < (chunks 1400 m.payload).length := (List.getElem?_eq_some_iff.mp hi).1
    simp only [ownFrag, UInt16.toNat_ofNat']; omega
  -- state after any prefix with a missing fragment
  have state : ∀ (l : List Event), (∀ e ∈ l, IsOwn (fragment id m).2 e ∨ IsForeign m.topicHash id e) →
      (∀ t, Event.gc t ∈ l → t - t0 < 100000000) →
      (∃ j, j < (fragment id m).2.length ∧ ¬ Arrived (fragment id m).2 (.arrive t0 f0 :: l) j) →
      (∃ p, (run r (.arrive t0 f0 :: l)).1.get (m.topicHash, id) = some p ∧ OwnInv m t0 p ∧
        ∀ j, j < (chunks 1400 m.payload).length →
          (Filled p j ↔ Arrived (fragment id m).2 (.arrive t0 f0 :: l) j)) ∧
      (∀ e o, (e, o) ∈ (run r (.arrive t0 f0 :: l)).2 → IsOwn (fragment id m).2 e → o = none) := by
    intro l
    induction l using List.reverseRecOn with
    | nil =>
      intro _ _ hmiss
      obtain ⟨i, c, hi, rfl⟩ := (mem_fragment id m h1 h2 f0).mp hf0
      have hfr := OwnInv.fresh id m h1 h2 t0 i c
      have hempty : ∀ j, ¬ Filled (Pending.fresh t0 (ownFrag id m i c)) j := by
        rintro j ⟨d, hd⟩
        simp only [Pending.fresh] at hd
        rw [List.getElem?_replicate] at hd
        split at hd <;> simp at hd
      have hnot : ¬ ∀ j, j < (chunks 1400 m.payload).length →
          Filled (Pending.fresh t0 (ownFrag id m i c)) j := fun h => hempty 0 (h 0 (by omega))
      obtain ⟨p', hp', hfill, hres⟩ := feed_own id m h1 h2 r t0 i t0 c _ hi (by rw [hn]; rfl)
        (Or.inr hroom) hfr hnot
      have harr : ∀ j, j < (chunks 1400 m.payload).length →
          (Filled p' j ↔ Arrived (fragment id m).2 [.arrive t0 (ownFrag id m i c)] j) := by
        intro j hj
        rw [hfill j hj]
        constructor
        · rintro (h | rfl)
          · exact absurd h (hempty j)
          · exact ⟨t0, _, hf0, hidx _ c hi, by simp⟩
        · rintro ⟨now, f, hf, hfi, hmem⟩
          simp at hmem
          rw [hmem.2, hidx i c hi] at hfi
          exact Or.inr hfi.symm
      rcases hres with ⟨hall, _, _⟩ | ⟨_, ho, hg⟩
      · obtain ⟨j, hj, hnj⟩ := hmiss
        rw [hlen] at hj
        exact absurd ((harr j hj).mp (hall j hj)) hnj
      · refine ⟨⟨p', by simpa [run, step] using hg, hp', harr⟩, ?_⟩
        intro e o hmem _
        simp [run, step, ho] at hmem
        exact hmem.2
    | append_singleton l x ih =>
      intro hl hg hmiss
      have hsub : ∀ j, Arrived (fragment id m).2 (.arrive t0 f0 :: l) j →
          Arrived (fragment id m).2 (.arrive t0 f0 :: (l ++ [x])) j := by
        rintro j ⟨now, f, hf, hfi, hmem⟩
        refine ⟨now, f, hf, hfi, ?_⟩
        rw [← List.cons_append]
        exact List.mem_append_left _ hmem
      have hmiss' : ∃ j, j < (fragment id m).2.length ∧ ¬ Arrived (fragment id m).2 (.arrive t0 f0 :: l) j := by
        obtain ⟨j, hj, hnj⟩ := hmiss
        exact ⟨j, hj, fun h => hnj (hsub j h)⟩
      obtain ⟨⟨p, hgp, hinv, hfilled⟩, hout⟩ := ih (fun e he => hl e (by simp [he]))
        (fun t ht => hg t (by simp [ht])) hmiss'
      have hrun : run r (.arrive t0 f0 :: (l ++ [x])) =
          ((step (run r (.arrive t0 f0 :: l)).1 x).1,
            (run r (.arrive t0 f0 :: l)).2 ++ [(x, (step (run r (.arrive t0 f0 :: l)).1 x).2)]) := by
        rw [← List.cons_append, run_append]
        simp [run]
      have hokl : Map.Ok (run r (.arrive t0 f0 :: l)).1 := run_ok _ _ hok
      have hnotp : ¬ ∀ j, j < (chunks 1400 m.payload).length → Filled p j := by
        obtain ⟨j, hj, hnj⟩ := hmiss'
        rw [hlen] at hj
        exact fun h => hnj ((hfilled j hj).mp (h j hj))
      rw [hrun]
      by_cases ho : IsOwn (fragment id m).2 x
      · obtain ⟨now, f, hf, rfl⟩ := ho
        obtain ⟨i, c, hi, rfl⟩ := (mem_fragment id m h1 h2 f).mp hf
        obtain ⟨p', hp', hfill, hres⟩ := feed_own id m h1 h2 (run r (.arrive t0 f0 :: l)).1 now i t0 c p hi
          (by rw [hgp]; rfl) (by rw [hgp]; simp) hinv hnotp
        have harr : ∀ j, j < (chunks 1400 m.payload).length →
            (Filled p' j ↔ Arrived (fragment id m).2
              (.arrive t0 f0 :: (l ++ [.arrive now (ownFrag id m i c)])) j) := by
          intro j hj
          rw [hfill j hj, hfilled j hj]
          constructor
          · rintro (h | rfl)
            · exact hsub j h
            · exact ⟨now, _, hf, hidx _ c hi, by simp⟩
          · rintro ⟨now', f', hf', hfi, hmem⟩
            rw [← List.cons_append, List.mem_append] at hmem
            rcases hmem with hmem | hmem
            · exact Or.inl ⟨now', f', hf', hfi, hmem⟩
            · simp at hmem
              rw [hmem.2, hidx i c hi] at hfi
              exact Or.inr hfi.symm
        rcases hres with ⟨hall, _, _⟩ | ⟨_, ho, hgg⟩
        · obtain ⟨j, hj, hnj⟩ := hmiss
          rw [hlen] at hj
          exact absurd ((harr j hj).mp (hall j hj)) hnj
        · refine ⟨⟨p', hgg, hp', harr⟩, ?_⟩
          intro e o hmem hown
          rw [List.mem_append] at hmem
          rcases hmem with hmem | hmem
          · exact hout e o hmem hown
          · simp [step, ho] at hmem
            exact hmem.2
      · have hfo := (hl x (by simp)).resolve_left ho
        have hsame : (step (run r (.arrive t0 f0 :: l)).1 x).1.get (m.topicHash, id) = some p := by
          cases x with
          | arrive now f => rw [show (step (run r (.arrive t0 f0 :: l)).1 (.arrive now f)).1
                = (feed now (run r (.arrive t0 f0 :: l)).1 f).1 from rfl, feed_get_ne _ _ _ _ hfo, hgp]
          | gc now =>
            have ht := hg now (by simp)
            simp only [step, gcStale]
            rw [Map.get_filter hokl, hgp]
            simp only [Option.filter, hinv.seen, FRAGMENT_TIMEOUT]
            rw [if_pos (by simpa using ht)]
        refine ⟨⟨p, hsame, hinv, ?_⟩, ?_⟩
        · intro j hj
          rw [hfilled j hj]
          constructor
          · exact hsub j
          · rintro ⟨now, f, hf, hfi, hmem⟩
            rw [← List.cons_append, List.mem_append] at hmem
            rcases hmem with hmem | hmem
            · exact ⟨now, f, hf, hfi, hmem⟩
            · simp at hmem
              exact absurd ⟨now, f, hf, hmem.symm⟩ ho
        · intro e o hmem hown
          rw [List.mem_append] at hmem
          rcases hmem with hmem | hmem
          · exact hout e o hmem hown
          · simp at hmem
            rw [hmem.1] at hown
            exact absurd hown ho
  obtain ⟨⟨p, hgp, hinv, hfilled⟩, hout⟩ := state pre hpre hgc hmiss
  refine ⟨hout, ?_⟩
  intro now f hf hall
  obtain ⟨i, c, hi, rfl⟩ := (mem_fragment id m h1 h2 f).mp hf
  have hnotp : ¬ ∀ j, j < (chunks 1400 m.payload).length → Filled p j := by
    obtain ⟨j, hj, hnj⟩ := hmiss
    rw [hlen] at hj
    exact fun h => hnj ((hfilled j hj).mp (h j hj))
  obtain ⟨p', hp', hfill, hres⟩ := feed_own id m h1 h2 (run r (.arrive t0 f0 :: pre)).1 now i t0 c p hi
    (by rw [hgp]; rfl) (by rw [hgp]; simp) hinv hnotp
  rcases hres with ⟨_, ho, _⟩ | ⟨hnall, _, _⟩
  · exact ho
  · exfalso
    apply hnall
    intro j hj
    rw [hfill j hj, hfilled j hj]
    obtain ⟨now', f', hf', hfi, hmem⟩ := hall j (by rw [hlen]; exact hj)
    rw [List.mem_append] at hmem
    rcases hmem with hmem | hmem
    · exact Or.inl ⟨now', f', hf', hfi, hmem⟩
    · simp at hmem
      rw [hmem.2, hidx i c hi] at hfi
      exact Or.inr hfi.symm

/-- A concrete 1401-byte message (two fragments) used by the examples below. -/
def sampleMsg : OutMessage :=
  { topicName := [116], topicHash := 7, payload := List.replicate 1401 5, timestampNs := 1,
    sequence := 2, priority := .normal, reliability := .none, encoding := .podLe }

/-- Non-vacuity of C05: the two fragments of `sampleMsg`, in reverse order with a duplicate and a
foreign fragment in between. -/
example :
    let f0 := ownFrag 0 sampleMsg 0 (List.replicate 1400 5)
    let f1 := ownFrag 0 sampleMsg 1 [5]
    (fragment 0 sampleMsg).2 = [f0, f1] ∧
    ((run [] [.arrive 0 f1, .arrive 1 f1, .arrive 2 { f0 with topicHash := 9 }, .gc 3, .arrive 4 f0]).2.map
      fun x => x.2.map (·.payload.length)) = [none, none, none, none, some 1401] := by
  decide +kernel

/-- C05 fails in one respect, and here is the witness: the reassembler keeps no record of
completed messages, so a complete second set of duplicates delivers the message a second time. -/
theorem reassemble_twice :
    ((run [] ((fragment 0 sampleMsg).2.map (.arrive 0) ++ (fragment 0 sampleMsg).2.map (.arrive 0))).2.filterMap
      fun x => x.2) = [original sampleMsg, original sampleMsg] := by
  decide +kernel

/-! ### C06 -/

/-- Bounds on one pending entry, and where its bytes came from. -/
structure Bounded (hist : List Frag) (k : UInt32 × UInt32) (p : Pending) : Prop where
  slots : p.fragments.length ≤ 749
  slotsEq : p.fragments.length = p.expectedCount.toNat
  notFull : p.receivedCount < p.expectedCount.toNat
  count : p.receivedCount = (p.fragments.filterMap id).length
  bytesEq : p.receivedBytes = (p.fragments.filterMap id).flatten.length
  bytes : p.receivedBytes ≤ p.totalLen.toNat
  total : p.totalLen.toNat ≤ 1048576
  topic : p.topicHash = k.1
  origin : ∀ (i : Nat) (d : Bytes), p.fragments[i]? = some (some d) →
    ∃ f ∈ hist, (f.topicHash, f.fragmentId) = k ∧ f.fragmentIndex.toNat = i ∧ f.payload = d

theorem Bounded.mono {hist hist' : List Frag} {k : UInt32 × UInt32} {p : Pending}
    (h : Bounded hist k p) (hs : ∀ f ∈ hist, f ∈ hist') : Bounded hist' k p :=
  ⟨h.slots, h.slotsEq, h.notFull, h.count, h.bytesEq, h.bytes, h.total, h.topic,
    fun i d hd =>
      let ⟨f, hf, r⟩ := h.origin i d hd
      ⟨f, hs f hf, r⟩⟩

/-- A delivered message is made only of bytes received on the same topic under one fragment id,
and is at most 1 MiB unless it came in a single fragment. -/
def MadeOf (hist : List Frag) (o : Reassembled) : Prop :=
  (∃ f ∈ hist, f.topicHash = o.topicHash ∧ o.payload = f.payload) ∨
  (o.payload.length ≤ 1048576 ∧ ∃ (id : UInt32) (fs : List Frag),
    (∀ f ∈ fs, f ∈ hist ∧ f.topicHash = o.topicHash ∧ f.fragmentId = id) ∧
    (fs.map (·.fragmentIndex.toNat)) = List.range fs.length ∧
    o.payload = (fs.map (·.payload)).flatten)

theorem collect_origin (hist : List Frag) (k : UInt32 × UInt32) (fr : List (Option Bytes))
    (hall : ∀ i, i < fr.length → ∃ d, fr[i]? = some (some d))
    (horg : ∀ (i : Nat) (d : Bytes), fr[i]? = some (some d) →
      ∃ f ∈ hist, (f.topicHash, f.fragmentId) = k ∧ f.fragmentIndex.toNat = i ∧ f.payload = d) :
    ∃ fs : List Frag, (∀ f ∈ fs, f ∈ hist ∧ f.topicHash = k.1 ∧ f.fragmentId = k.2) ∧
      fs.map (·.fragmentIndex.toNat) = List.range fs.length ∧ fs.length = fr.length ∧
      fr.filterMap id = fs.map (·.payload) := by
  induction fr using List.reverseRecOn with
  | nil => exact ⟨[], by simp, rfl, rfl, rfl⟩
  | append_singleton fr o ih =>
    obtain ⟨fs, a, b, c, d⟩ := ih (by
        intro i hi
        obtain ⟨d, hd⟩ := hall i (by simp; omega)
        exact ⟨d, by rw [List.getElem?_append_left hi] at hd; exact hd⟩) (by
        intro i d hd
        have hi : i < fr.length := (List.getElem?_eq_some_iff.mp hd).1
        exact horg i d (by rw [List.getElem?_append_left hi]; exact hd))
    obtain ⟨x, hx⟩ := hall fr.length (by simp)
    obtain ⟨f, hf, hk, hi, hp⟩ := horg fr.length x hx
    simp at hx
    subst hx
    refine ⟨fs ++ [f], ?_, ?_, by simp [c], ?_⟩
    · intro g hg
      rcases List.mem_append.mp hg with hg | hg
      · exact a g hg
      · simp at hg; subst hg; exact ⟨hf, by rw [← hk], by rw [← hk]⟩
    · simp [b, List.range_succ, hi, c]
    · simp [d, hp]

/-- The fragments that arrived in a history. -/
def arrivedFrags (es : List Event) : List Frag :=
  es.filterMap fun e => match e with | .arrive _ f => some f | .gc _ => none

theorem feed_bounded (now : Nat) (r : Reassembler) (f : Frag) (hist : List Frag) (hf : f ∈ hist)
    (hlen : r.length ≤ 256)
    (hr : ∀ k p, r.get k = some p → Bounded hist k p) :
    (feed now r f).1.length ≤ 256 ∧ (∀ k p, (feed now r f).1.get k = some p → Bounded hist k p) ∧
    (∀ o, (feed now r f).2 = some o → MadeOf hist o) := by
  unfold feed
  by_cases c1 : f.totalPayloadLen.toNat > MAX_REASSEMBLY_SIZE
  · rw [if_pos c1]; exact ⟨hlen, hr, by simp⟩
  rw [if_neg c1]
  by_cases c2 : f.fragmentCount.toNat = 0 ∨ f.fragmentCount.toNat > MAX_FRAGMENTS_PER_MESSAGE
  · rw [if_pos c2]; exact ⟨hlen, hr, by simp⟩
  rw [if_neg c2]
  by_cases c3 : f.fragmentCount.toNat = 1
  · rw [if_pos c3]
    refine ⟨hlen, hr, ?_⟩
    intro o ho
    simp only [Option.some.injEq] at ho
    subst ho
    exact Or.inl ⟨f, hf, rfl, rfl⟩
  rw [if_neg c3]
  simp only
  by_cases c4 : (r.get (f.topicHash, f.fragmentId)).isNone ∧ r.length ≥ MAX_PENDING_MESSAGES
  · rw [if_pos c4]; exact ⟨hlen, hr, by simp⟩
  rw [if_neg c4]
  simp only [MAX_REASSEMBLY_SIZE, MAX_FRAGMENTS_PER_MESSAGE, not_or, Nat.not_lt, gt_iff_lt] at c1 c2
  generalize hp : (r.get (f.topicHash, f.fragmentId)).getD (Pending.fresh now f) = p
  generalize hk : (f.topicHash, f.fragmentId) = k at *
  have hB : Bounded hist k p := by
    cases hg : r.get k with
    | some q => rw [hg] at hp; simp at hp; subst hp; exact hr k q hg
    | none =>
      rw [hg] at hp; simp at hp; subst hp
      constructor
      · simp [Pending.fresh]; omega
      · simp [Pending.fresh]
      · simp [Pending.fresh]; omega
      · simp [Pending.fresh]
      · simp [Pending.fresh]
      · simp [Pending.fresh]
      · simp [Pending.fresh]; omega
      · simp [Pending.fresh, ← hk]
      · intro i d hd
        simp only [Pending.fresh] at hd
        rw [List.getElem?_replicate] at hd
        split at hd <;> simp at hd
  have hsetlen : ∀ q, (r.set k q).length ≤ 256 := by
    intro q
    rw [Map.length_set]
    split
    · exact hlen
    · rename_i h
      simp only [MAX_PENDING_MESSAGES, ge_iff_le, not_and, Nat.not_le] at c4
      have := c4 (by simpa using h)
      omega
  have hset : ∀ q, Bounded hist k q → ∀ k' q', (r.set k q).get k' = some q' → Bounded hist k' q' := by
    intro q hq k' q' h
    rw [Map.get_set] at h
    split at h
    · rename_i e; subst e; simp at h; subst h; exact hq
    · exact hr k' q' h
  have hset2 : ∀ q, Bounded hist k q →
      ∀ k' q', ((r.set k p).set k q).get k' = some q' → Bounded hist k' q' := by
    intro q hq k' q' h
    rw [Map.get_set, Map.get_set] at h
    split at h
    · rename_i e; subst e; simp at h; subst h; exact hq
    · exact hr k' q' h
  have hdel : ∀ k' q', ((r.set k p).del k).get k' = some q' → Bounded hist k' q' := by
    intro k' q' h
    rw [Map.get_del, Map.get_set] at h
    split at h
    · simp at h
    · exact hr k' q' h
  have hdellen : ((r.set k p).del k).length ≤ 256 := Nat.le_trans (Map.length_del_le _ _) (hsetlen p)
  by_cases c5 : f.fragmentIndex.toNat ≥ p.fragments.length
  · rw [if_pos c5]; exact ⟨hsetlen p, hset p hB, by simp⟩
  rw [if_neg c5]
  have hnf : ¬ p.receivedCount = p.expectedCount.toNat := by have := hB.notFull; omega
  cases hs : p.fragments[f.fragmentIndex.toNat]? with
  | none => rw [List.getElem?_eq_none_iff] at hs; omega
  | some o =>
    cases o with
    | some d =>
      simp only
      rw [if_neg hnf]
      exact ⟨hsetlen p, hset p hB, by simp⟩
    | none =>
      simp only
      by_cases c6 : p.receivedBytes + f.payload.length > p.totalLen.toNat
      · rw [if_pos c6]; exact ⟨hdellen, hdel, by simp⟩
      rw [if_neg c6]
      have horg : ∀ (i : Nat) (d : Bytes),
          (p.fragments.set f.fragmentIndex.toNat (some f.payload))[i]? = some (some d) →
          ∃ g ∈ hist, (g.topicHash, g.fragmentId) = k ∧ g.fragmentIndex.toNat = i ∧ g.payload = d := by
        intro i d hd
        rw [List.getElem?_set] at hd
        split at hd
        · rename_i e
          split at hd
          · simp at hd; exact ⟨f, hf, hk, e, hd⟩
          · simp at hd
        · exact hB.origin i d hd
      by_cases c7 : p.receivedCount + 1 = p.expectedCount.toNat
      · rw [if_pos c7]
        refine ⟨hdellen, hdel, ?_⟩
        intro o ho
        simp only [Option.some.injEq] at ho
        subst ho
        have hfull : ∀ i, i < (p.fragments.set f.fragmentIndex.toNat (some f.payload)).length →
            ∃ d, (p.fragments.set f.fragmentIndex.toNat (some f.payload))[i]? = some (some d) := by
          rw [← filterMap_length_full, filterMap_set_length _ _ _ hs, ← hB.count]
          simp [hB.slotsEq, c7]
        obtain ⟨fs, a, b, _, d⟩ := collect_origin hist k _ hfull horg
        right
        refine ⟨?_, k.2, fs, ?_, b, ?_⟩
        · simp only [Pending.finish, filterMap_set_bytes _ _ _ hs, ← hB.bytesEq]
          have := hB.total
          omega
        · intro g hg
          obtain ⟨x, y, z⟩ := a g hg
          exact ⟨x, by simp only [Pending.finish, hB.topic, y], z⟩
        · simp only [Pending.finish, d]
      · rw [if_neg c7]
        have hB' : Bounded hist k { p with receivedBytes := p.receivedBytes + f.payload.length, fragments := p.fragments.set f.fragmentIndex.toNat (some f.payload), receivedCount := p.receivedCount + 1 } := by
          constructor
          · simpa using hB.slots
          · simpa using hB.slotsEq
          · have := hB.notFull; simp only; omega
          · simp only [filterMap_set_length _ _ _ hs, hB.count]
          · simp only [filterMap_set_bytes _ _ _ hs, hB.bytesEq]
          · simp only; omega
          · exact hB.total
          · exact hB.topic
          · exact horg
        refine ⟨?_, hset2 _ hB', by simp⟩
        rw [Map.length_set]
        simp only [Map.get_set_self, Option.isSome_some, if_true]
        exact hsetlen p

/-- C06: after any history of fragments (hostile headers included) and timer collections, the
reassembler holds at most 256 partial messages, each with at most 749 slots and at most 1 MiB of
stored payload, and everything stored or delivered consists only of bytes that arrived for that
topic and fragment id. -/
theorem reassembler_bounded (es : List Event) :
    (run [] es).1.length ≤ 256 ∧
    (∀ k p, (k, p) ∈ (run [] es).1 →
      p.fragments.length ≤ 749 ∧ (p.fragments.filterMap id).flatten.length ≤ 1048576 ∧
      ∀ (i : Nat) (d : Bytes), p.fragments[i]? = some (some d) →
        ∃ f ∈ arrivedFrags es, (f.topicHash, f.fragmentId) = k ∧ f.fragmentIndex.toNat = i ∧ f.payload = d) ∧
    (∀ e o, (e, some o) ∈ (run [] es).2 → MadeOf (arrivedFrags es) o) := by
  have main : ∀ (es : List Event) (r : Reassembler) (hist : List Frag), Map.Ok r → r.length ≤ 256 →
      (∀ k p, r.get k = some p → Bounded hist k p) → (∀ f ∈ arrivedFrags es, f ∈ hist) →
      (run r es).1.length ≤ 256 ∧ (∀ k p, (run r es).1.get k = some p → Bounded hist k p) ∧
      (∀ e o, (e, some o) ∈ (run r es).2 → MadeOf hist o) := by
    intro es
    induction es with
    | nil => intro r hist _ hl hr _; exact ⟨hl, hr, by simp [run]⟩
    | cons x es ih =>
      intro r hist hok hl hr hsub
      have hstep : (step r x).1.length ≤ 256 ∧ (∀ k p, (step r x).1.get k = some p → Bounded hist k p) ∧
          (∀ o, (step r x).2 = some o → MadeOf hist o) := by
        cases x with
        | arrive now f => exact feed_bounded now r f hist (hsub f (by simp [arrivedFrags])) hl hr
        | gc now =>
          refine ⟨Nat.le_trans (List.length_filter_le _ _) hl, ?_, by simp [step]⟩
          intro k p h
          simp only [step, gcStale] at h
          rw [Map.get_filter hok] at h
          have := Option.eq_some_of_filter_eq_some h
          exact hr k p this
      have hrest := ih (step r x).1 hist (step_ok r x hok) hstep.1 hstep.2.1 (by
        intro f hf
        apply hsub
        simp only [arrivedFrags, List.filterMap_cons]
        split
        · exact hf
        · exact List.mem_cons_of_mem _ hf)
      refine ⟨hrest.1, hrest.2.1, ?_⟩
      intro e o hmem
      simp only [run, List.mem_cons, Prod.mk.injEq] at hmem
      rcases hmem with ⟨_, ho⟩ | hmem
      · exact hstep.2.2 o ho.symm
      · exact hrest.2.2 e o hmem
  obtain ⟨a, b, c⟩ := main es [] (arrivedFrags es) Map.Ok.nil (by simp) (by simp) (fun f hf => hf)
  refine ⟨a, ?_, c⟩
  intro k p hmem
  have hok : Map.Ok (run [] es).1 := run_ok es [] Map.Ok.nil
  have hB := b k p (Map.get_of_mem hok hmem)
  refine ⟨hB.slots, ?_, hB.origin⟩
  have h1 := hB.bytes
  have h2 := hB.total
  rw [← hB.bytesEq]
  omega

/-- Messages sent one after another through one fragmenter (fragment.rs:69-121, called from
replicator.rs:628). -/
def fragmentAll (id : UInt32) : List OutMessage → List (List Frag)
  | [] => []
  | m :: ms => (fragment id m).2 :: fragmentAll (fragment id m).1 ms

theorem fragment_ids (id : UInt32) (m : OutMessage) (f : Frag) (hf : f ∈ (fragment id m).2) :
    f.fragmentCount.toNat = 1 ∨ (f.fragmentId = id ∧ (fragment id m).1 = id + 1) := by
  unfold fragment at hf ⊢
  simp only at hf ⊢
  split at hf
  · simp only [List.mem_singleton] at hf; subst hf; exact Or.inl rfl
  · split at hf
    · simp at hf
    · simp only [List.mem_map] at hf
      rename_i h1 h2
      obtain ⟨⟨c, i⟩, _, rfl⟩ := hf
      rw [if_neg h1, if_neg h2]; exact Or.inr ⟨rfl, rfl⟩

theorem fragment_next (id : UInt32) (m : OutMessage) : ∃ k : Nat, k ≤ 1 ∧ (fragment id m).1 = id + UInt32.ofNat k := by
  unfold fragment
  simp only
  split
  · exact ⟨0, by omega, by simp⟩
  · split
    · exact ⟨0, by omega, by simp⟩
    · exact ⟨1, by omega, rfl⟩

theorem fragmentAll_ids (ms : List OutMessage) : ∀ (id : UInt32) (j : Nat) (fs : List Frag),
    (fragmentAll id ms)[j]? = some fs → ∀ f ∈ fs, f.fragmentCount.toNat = 1 ∨
      ∃ k, k ≤ j ∧ f.fragmentId = id + UInt32.ofNat k := by
  induction ms with
  | nil => intro id j fs h; simp [fragmentAll] at h
  | cons m ms ih =>
    intro id j fs h f hf
    cases j with
    | zero =>
      simp only [fragmentAll, List.getElem?_cons_zero, Option.some.injEq] at h
      subst h
      rcases fragment_ids id m f hf with h1 | ⟨h1, _⟩
      · exact Or.inl h1
      · exact Or.inr ⟨0, Nat.le_refl _, by simp [h1]⟩
    | succ j =>
      simp only [fragmentAll, List.getElem?_cons_succ] at h
      rcases ih _ j fs h f hf with h1 | ⟨k, hk, he⟩
      · exact Or.inl h1
      · obtain ⟨k', hk', he'⟩ := fragment_next id m
        refine Or.inr ⟨k' + k, by omega, ?_⟩
        rw [he, he', UInt32.ofNat_add, UInt32.add_assoc]

/-- C05: of up to 2^32 messages sent in a row, the fragments of two different messages never share a
fragment id (unless one of them is a whole message in one fragment, which the receiver does not
store). So to one message's reassembly the other's fragments are foreign, as `reassemble_exact` and
`reassemble_complete` ask. -/
theorem messages_keep_apart (ms : List OutMessage) : ∀ (id : UInt32), ms.length ≤ 2 ^ 32 →
    ∀ (i j : Nat) (fs gs : List Frag), i < j → (fragmentAll id ms)[i]? = some fs →
    (fragmentAll id ms)[j]? = some gs → ∀ f ∈ fs, ∀ g ∈ gs,
    f.fragmentId ≠ g.fragmentId ∨ f.fragmentCount.toNat = 1 ∨ g.fragmentCount.toNat = 1 := by
  induction ms with
  | nil => intro id _ i j fs gs _ h; simp [fragmentAll] at h
  | cons m ms ih =>
    intro id hlen i j fs gs hij hi hj f hf g hg
    obtain ⟨j, rfl⟩ : ∃ j', j = j' + 1 := ⟨j - 1, by omega⟩
    simp only [fragmentAll, List.getElem?_cons_succ] at hj
    have hjl : j < ms.length := by
      have h1 := (List.getElem?_eq_some_iff.mp hj).1
      have : ∀ (ms : List OutMessage) (id : UInt32), (fragmentAll id ms).length = ms.length := by
        intro ms; induction ms with
        | nil => intro _; rfl
        | cons m ms ih => intro id; simp [fragmentAll, ih]
      rw [this] at h1; exact h1
    simp only [List.length_cons] at hlen
    cases i with
    | zero =>
      simp only [fragmentAll, List.getElem?_cons_zero, Option.some.injEq] at hi
      subst hi
      rcases fragment_ids id m f hf with h1 | ⟨h1, h2⟩
      · exact Or.inr (Or.inl h1)
      · rcases fragmentAll_ids ms _ j gs hj g hg with h3 | ⟨k, hk, he⟩
        · exact Or.inr (Or.inr h3)
        · left
          rw [h1, he, h2]
          intro e
          have e' := congrArg UInt32.toNat e
          simp only [UInt32.toNat_add, UInt32.toNat_ofNat', UInt32.toNat_one] at e'
          have := id.toNat_lt
          omega
    | succ i =>
      simp only [fragmentAll, List.getElem?_cons_succ] at hi
      exact ih _ (by omega) i j fs gs (by omega) hi hj f hf g hg

/-- C06: a timer collection discards every partial message first seen 100 ms ago or earlier. -/
theorem gc_discards_stale (now : Nat) (r : Reassembler) (k : UInt32 × UInt32) (p : Pending) :
    (k, p) ∈ gcStale now r ↔ (k, p) ∈ r ∧ now - p.firstSeen < 100000000 := by
  simp [gcStale, List.mem_filter]

/-- Non-vacuity of `messages_keep_apart`: two messages sent in a row, both in several fragments. -/
example : ((fragmentAll 7 [sampleMsg, sampleMsg]).map fun fs => fs.map fun f => (f.fragmentId, f.fragmentCount))
    = [[(7, 2), (7, 2)], [(8, 2), (8, 2)]] := by decide +kernel

/-- Non-vacuity of C06: a hostile history really does leave partial state behind. -/
example : (run [] [.arrive 0 { ownFrag 3 sampleMsg 0 [1] with fragmentIndex := 5000 },
    .arrive 0 (ownFrag 4 sampleMsg 1 [1, 2])]).1.length = 2 := by decide +kernel

end Horus.Fragment
