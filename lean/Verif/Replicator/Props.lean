import Verif.Replicator.Model
import Verif.Discovery.Props
import Verif.Fragment.Props
import Verif.Reliability.Props
import Mathlib.Algebra.Order.BigOperators.Group.List
import Mathlib.Algebra.Order.Group.Nat
import Mathlib.Algebra.Order.Ring.Nat
/-
Property C07 (end-to-end replication of one message) and the acknowledgement finding.
-/
namespace Horus.Replicator
open Horus.Wire Horus.Discovery Horus.Fragment Horus.Reliability

theorem classify_single (utf8 : Bytes → Bool) (sender : UInt16) (seq : UInt32) (m : OutMessage)
    (hfit : 36 + m.payload.length ≤ 65536) :
    classify utf8 (encodeSingle 65536 (PacketHeader.new 0 sender seq) m) = .data [delivered m] ∧
    leAt (encodeSingle 65536 (PacketHeader.new 0 sender seq) m) 6 2 = sender.toNat := by
  have hd := (decode_encodeSingle 65536 (PacketHeader.new 0 sender seq) m (by
    refine ⟨rfl, rfl, ?_, ?_⟩ <;> (simp only [PacketHeader.new]; decide)) (by omega)).1 hfit
  have e : encodeSingle 65536 (PacketHeader.new 0 sender seq) m
      = (PacketHeader.new 0 sender seq).encode ++ (m.header.encode ++ m.payload) := by
    unfold encodeSingle
    rw [if_neg (by simp only [PH, MH]; omega)]
  constructor
  · unfold classify
    rw [hd.1, e, decodeAnnouncement_none_of_bit7 _ _ _ (by simp only [PacketHeader.new]; decide),
      PacketHeader.decode_encode _ _ rfl rfl]
    have a : hasFlag (PacketHeader.new 0 sender seq).flags F_HEARTBEAT = false := by
      simp only [PacketHeader.new]; decide
    have b : hasFlag (PacketHeader.new 0 sender seq).flags F_ACK = false := by
      simp only [PacketHeader.new]; decide
    have c : hasFlag (PacketHeader.new 0 sender seq).flags F_FRAGMENT = false := by
      simp only [PacketHeader.new]; decide
    simp [a, b, c]
  · rw [e]
    simp [PacketHeader.encode, PacketHeader.new, leAt_append_right, leAt_le_append, leAt_cons_succ]

theorem receive_single (utf8 : Bytes → Bool) (isSystem : UInt32 → Bool) (now : Nat) (rx : Receiver)
    (sender : UInt16) (seq : UInt32) (m : OutMessage) (hfit : 36 + m.payload.length ≤ 65536)
    (hord : isSystem m.topicHash = false) :
    (receive utf8 isSystem now rx (encodeSingle 65536 (PacketHeader.new 0 sender seq) m)).2 =
      (if (isNewMessage rx.dedup sender m.topicHash m.sequence).2 then [delivered m] else []) ∧
    (receive utf8 isSystem now rx (encodeSingle 65536 (PacketHeader.new 0 sender seq) m)).1.dedup =
      (isNewMessage rx.dedup sender m.topicHash m.sequence).1 := by
  obtain ⟨h1, h2⟩ := classify_single utf8 sender seq m hfit
  unfold receive
  rw [h1]
  simp only [h2, UInt16.ofNat_toNat, dedupMessages]
  have : isSystem (delivered m).topicHash = false := hord
  simp only [this, Bool.false_eq_true, if_false]
  exact ⟨rfl, rfl⟩

/-- C07, the part that holds: a message of at most 1400 bytes on an ordinary topic, not already
seen, sent as `handle_export` sends it, is handed to the receiving application byte-identical. -/
theorem replicate_small_partial (utf8 : Bytes → Bool) (isSystem : UInt32 → Bool) (now : Nat)
    (rx : Receiver) (nextId : UInt32) (sender : UInt16) (seq0 : UInt32) (m : OutMessage)
    (hlen : m.payload.length ≤ 1400) (hord : isSystem m.topicHash = false)
    (hnew : (isNewMessage rx.dedup sender m.topicHash m.sequence).2 = true) :
    ∃ pkt, exportMessage nextId sender seq0 m = [pkt] ∧
      (receive utf8 isSystem now rx pkt).2 = [delivered m] := by
  have hfrag : (fragment nextId m).2 =
      [{ topicHash := m.topicHash, sequence := m.sequence, timestampNs := m.timestampNs,
         priority := m.priority, reliability := m.reliability, encoding := m.encoding,
         fragmentId := 0, fragmentIndex := 0, fragmentCount := 1,
         totalPayloadLen := UInt32.ofNat m.payload.length, payload := m.payload }] := by
    unfold fragment
    simp only
    rw [if_pos (by simpa using hlen)]
  refine ⟨encodeSingle 65536 (PacketHeader.new 0 sender (seq0 + UInt32.ofNat 0)) m, ?_, ?_⟩
  · unfold exportMessage
    rw [hfrag]
    have hp : fragPacket sender (seq0 + UInt32.ofNat 0) m
        { topicHash := m.topicHash, sequence := m.sequence, timestampNs := m.timestampNs,
          priority := m.priority, reliability := m.reliability, encoding := m.encoding,
          fragmentId := 0, fragmentIndex := 0, fragmentCount := 1,
          totalPayloadLen := UInt32.ofNat m.payload.length, payload := m.payload } =
        encodeSingle 65536 (PacketHeader.new 0 sender (seq0 + UInt32.ofNat 0)) m := rfl
    simp only [List.zipIdx_cons, List.zipIdx_nil, List.map_cons, List.map_nil, hp]
    have hne : encodeSingle 65536 (PacketHeader.new 0 sender (seq0 + UInt32.ofNat 0)) m ≠ [] := by
      unfold encodeSingle
      rw [if_neg (by simp only [PH, MH]; omega)]
      intro h
      have := congrArg List.length h
      simp at this
    rw [List.filter_cons_of_pos (by simpa only [decide_eq_true_eq] using hne), List.filter_nil]
  · rw [(receive_single utf8 isSystem now rx sender _ m (by omega) hord).1, hnew]
    rfl

/-- Non-vacuity: a fresh receiver accepts any first message. -/
example (sender : UInt16) (t s : UInt32) : (isNewMessage [] sender t s).2 = true := rfl

/-! ### Large messages -/

/-- Receiving a list of datagrams at given times. -/
def receiveAll (utf8 : Bytes → Bool) (isSystem : UInt32 → Bool) (rx : Receiver) :
    List (Nat × Bytes) → Receiver × List InMessage
  | [] => (rx, [])
  | (now, b) :: rest =>
    let (rx1, o) := receive utf8 isSystem now rx b
    let (rx2, os) := receiveAll utf8 isSystem rx1 rest
    (rx2, o ++ os)

/-- What the receiver makes of the packet carrying chunk `c` of message `m`: the first 12 bytes of
the chunk are taken for a fragment header. -/
def misparse (m : OutMessage) (c : Bytes) : Option Frag :=
  match FragmentHeader.decode c with
  | none => none
  | some fh => some
    { topicHash := m.topicHash, sequence := m.sequence, timestampNs := m.timestampNs,
      priority := m.priority, reliability := m.reliability, encoding := m.encoding,
      fragmentId := fh.fragmentId, fragmentIndex := fh.fragmentIndex,
      fragmentCount := fh.fragmentCount, totalPayloadLen := fh.totalPayloadLen, payload := c.drop 12 }

theorem misparse_length (m : OutMessage) (c : Bytes) (f : Frag) (h : misparse m c = some f) :
    f.payload.length + 12 = c.length := by
  unfold misparse FragmentHeader.decode at h
  split at h
  · simp at h
  · rename_i fh hfh
    split at hfh
    · simp at hfh
    · rename_i hlt
      simp only [FH] at hlt
      simp only [Option.some.injEq] at h
      subst h
      simp
      omega

/-- Every packet exported for a large message is taken for a fragment whose header is the first
12 payload bytes. -/
theorem receive_large (utf8 : Bytes → Bool) (isSystem : UInt32 → Bool) (now : Nat) (rx : Receiver)
    (nextId : UInt32) (sender : UInt16) (seq0 : UInt32) (m : OutMessage)
    (h1 : 1400 < m.payload.length) (h2 : m.payload.length ≤ 1048576)
    (pkt : Bytes) (hpkt : pkt ∈ exportMessage nextId sender seq0 m) :
    ∃ c ∈ chunks 1400 m.payload, receive utf8 isSystem now rx pkt =
      match misparse m c with
      | none => (rx, [])
      | some f => ({ rx with reasm := (feed now rx.reasm f).1 },
                   ((feed now rx.reasm f).2.map ofReassembled).toList) := by
  unfold exportMessage at hpkt
  simp only [List.mem_filter, List.mem_map, Prod.exists] at hpkt
  obtain ⟨⟨f, i, hmem, rfl⟩, _⟩ := hpkt
  have hf : f ∈ (fragment nextId m).2 := by
    have := List.mem_zipIdx' hmem
    rw [this.2]; exact List.getElem_mem _
  have hcc := chunk_count m h1 h2
  obtain ⟨j, c, hc, rfl⟩ := (mem_fragment nextId m h1 h2 f).mp hf
  have hcm : c ∈ chunks 1400 m.payload := List.mem_of_getElem? hc
  refine ⟨c, hcm, ?_⟩
  have hcl := chunks_mem_length 1400 m.payload c hcm
  have hcount : (ownFrag nextId m j c).fragmentCount.toNat > 1 := by
    simp only [ownFrag, UInt16.toNat_ofNat']
    rw [Nat.mod_eq_of_lt (by omega)]
    omega
  have hp : fragPacket sender (seq0 + UInt32.ofNat i) m (ownFrag nextId m j c) =
      (PacketHeader.new (0 ||| F_FRAGMENT) sender (seq0 + UInt32.ofNat i)).encode ++
        ((fragOut m (ownFrag nextId m j c)).header.encode ++ c) := by
    unfold fragPacket
    simp only
    rw [if_pos hcount]
    unfold encodeSingle
    have : (fragOut m (ownFrag nextId m j c)).payload = c := rfl
    rw [this, if_neg (by simp only [PH, MH]; omega)]
  rw [hp]
  unfold receive
  have hcls : classify utf8 ((PacketHeader.new (0 ||| F_FRAGMENT) sender (seq0 + UInt32.ofNat i)).encode ++
        ((fragOut m (ownFrag nextId m j c)).header.encode ++ c)) = .fragment := by
    unfold classify
    rw [decodeAnnouncement_none_of_bit7 _ _ _ (by simp only [PacketHeader.new]; decide),
      PacketHeader.decode_encode _ _ rfl rfl]
    have a : hasFlag (PacketHeader.new (0 ||| F_FRAGMENT) sender (seq0 + UInt32.ofNat i)).flags F_HEARTBEAT = false := by
      simp only [PacketHeader.new]; decide
    have b : hasFlag (PacketHeader.new (0 ||| F_FRAGMENT) sender (seq0 + UInt32.ofNat i)).flags F_ACK = false := by
      simp only [PacketHeader.new]; decide
    have d : hasFlag (PacketHeader.new (0 ||| F_FRAGMENT) sender (seq0 + UInt32.ofNat i)).flags F_FRAGMENT = true := by
      simp only [PacketHeader.new]; decide
    simp only [a, b, d, Bool.false_eq_true, if_false, if_true]
  have hparse : parseFragment ((PacketHeader.new (0 ||| F_FRAGMENT) sender (seq0 + UInt32.ofNat i)).encode ++
        ((fragOut m (ownFrag nextId m j c)).header.encode ++ c)) = misparse m c := by
    have hPH : (PacketHeader.new (0 ||| F_FRAGMENT) sender (seq0 + UInt32.ofNat i)).encode.length = 12 := by simp
    have hMH : (fragOut m (ownFrag nextId m j c)).header.encode.length = 24 := by simp
    unfold parseFragment misparse
    have d1 : List.drop PH ((PacketHeader.new (0 ||| F_FRAGMENT) sender (seq0 + UInt32.ofNat i)).encode ++
        ((fragOut m (ownFrag nextId m j c)).header.encode ++ c)) =
        (fragOut m (ownFrag nextId m j c)).header.encode ++ c := by
      rw [List.drop_append]; simp [PH]
    have d2 : List.drop (PH + MH) ((PacketHeader.new (0 ||| F_FRAGMENT) sender (seq0 + UInt32.ofNat i)).encode ++
        ((fragOut m (ownFrag nextId m j c)).header.encode ++ c)) = c := by
      rw [← List.drop_drop, d1, List.drop_append]; simp [MH]
    have d3 : List.drop (PH + MH + FH) ((PacketHeader.new (0 ||| F_FRAGMENT) sender (seq0 + UInt32.ofNat i)).encode ++
        ((fragOut m (ownFrag nextId m j c)).header.encode ++ c)) = c.drop 12 := by
      rw [← List.drop_drop, d2]
    rw [d1, d2, d3, MessageHeader.decode_encode]
    rfl
  rw [hcls]
  simp only [hparse]
  cases misparse m c <;> rfl

/-- C07 fails above 1400 bytes, for every message: whatever packets of the message arrive, in any
order and any number of times, at a fresh receiver, nothing it hands to the application carries
the published payload. (The sender omits the fragment header the receiver expects.) -/
theorem large_never_delivered (utf8 : Bytes → Bool) (isSystem : UInt32 → Bool)
    (nextId : UInt32) (sender : UInt16) (seq0 : UInt32) (m : OutMessage)
    (h1 : 1400 < m.payload.length) (h2 : m.payload.length ≤ 1048576)
    (arrivals : List (Nat × Bytes))
    (ha : ∀ x ∈ arrivals, x.2 ∈ exportMessage nextId sender seq0 m) :
    ∀ msg ∈ (receiveAll utf8 isSystem ⟨[], []⟩ arrivals).2, msg.payload ≠ m.payload := by
  -- translate into a history of the reassembler
  have tr : ∀ (arrivals : List (Nat × Bytes)) (rx : Receiver),
      (∀ x ∈ arrivals, x.2 ∈ exportMessage nextId sender seq0 m) →
      ∃ es : List Fragment.Event,
        (∀ f ∈ arrivedFrags es, ∃ c ∈ chunks 1400 m.payload, misparse m c = some f) ∧
        ∀ msg ∈ (receiveAll utf8 isSystem rx arrivals).2,
          ∃ e o, (e, some o) ∈ (Fragment.run rx.reasm es).2 ∧ msg = ofReassembled o := by
    intro arrivals
    induction arrivals with
    | nil => intro rx _; exact ⟨[], by simp [arrivedFrags], by simp [receiveAll]⟩
    | cons x rest ih =>
      intro rx hx
      obtain ⟨now, b⟩ := x
      obtain ⟨c, hc, hrec⟩ := receive_large utf8 isSystem now rx nextId sender seq0 m h1 h2 b
        (hx (now, b) (by simp))
      cases hm : misparse m c with
      | none =>
        rw [hm] at hrec
        obtain ⟨es, e1, e2⟩ := ih rx (fun y hy => hx y (by simp [hy]))
        refine ⟨es, e1, ?_⟩
        intro msg hmsg
        simp only [receiveAll, hrec, List.nil_append] at hmsg
        exact e2 msg hmsg
      | some f =>
        rw [hm] at hrec
        obtain ⟨es, e1, e2⟩ := ih { rx with reasm := (feed now rx.reasm f).1 }
          (fun y hy => hx y (by simp [hy]))
        refine ⟨.arrive now f :: es, ?_, ?_⟩
        · intro g hg
          simp only [arrivedFrags, List.filterMap_cons, List.mem_cons] at hg
          rcases hg with rfl | hg
          · exact ⟨c, hc, hm⟩
          · exact e1 g hg
        · intro msg hmsg
          simp only [receiveAll, hrec, List.mem_append] at hmsg
          rcases hmsg with hmsg | hmsg
          · simp only [Option.mem_toList, Option.map_eq_some_iff] at hmsg
            obtain ⟨o, ho, rfl⟩ := hmsg
            exact ⟨_, o, by simp only [Fragment.run, Fragment.step, List.mem_cons, Prod.mk.injEq]; exact Or.inl ⟨rfl, ho.symm⟩, rfl⟩
          · obtain ⟨e, o, h, r⟩ := e2 msg hmsg
            exact ⟨e, o, by simp only [Fragment.run, Fragment.step, List.mem_cons]; exact Or.inr h, r⟩
  obtain ⟨es, e1, e2⟩ := tr arrivals ⟨[], []⟩ ha
  intro msg hmsg heq
  obtain ⟨e, o, hrun, rfl⟩ := e2 msg hmsg
  have hmade := (reassembler_bounded es).2.2 e o hrun
  have hpay : o.payload = m.payload := heq
  rcases hmade with ⟨f, hf, _, hp⟩ | ⟨_, id, fs, hfs, hidx, hp⟩
  · obtain ⟨c, hc, hm⟩ := e1 f hf
    have := misparse_length m c f hm
    have := chunks_mem_length 1400 m.payload c hc
    rw [← hpay, hp] at h1
    omega
  · have hnd : fs.Nodup := by
      have : (fs.map (·.fragmentIndex.toNat)).Nodup := by rw [hidx]; exact List.nodup_range
      exact List.Nodup.of_map _ this
    have hsub : fs ⊆ (chunks 1400 m.payload).filterMap (misparse m) := by
      intro f hf
      obtain ⟨c, hc, hm⟩ := e1 f (hfs f hf).1
      exact List.mem_filterMap.mpr ⟨c, hc, hm⟩
    have hle : (fs.map (·.payload.length)).sum ≤
        (((chunks 1400 m.payload).filterMap (misparse m)).map (·.payload.length)).sum := by
      obtain ⟨l, hl, hs⟩ := List.subperm_of_subset hnd hsub
      rw [← (hl.map (·.payload.length)).sum_eq]
      exact (hs.map (·.payload.length)).sum_le_sum (by simp)
    have hsum : ∀ cs : List Bytes, ((cs.filterMap (misparse m)).map (·.payload.length)).sum
        + 12 * (cs.filterMap (misparse m)).length ≤ cs.flatten.length := by
      intro cs
      induction cs with
      | nil => simp
      | cons c cs ih =>
        simp only [List.filterMap_cons, List.flatten_cons, List.length_append]
        split
        · omega
        · rename_i f hf
          have := misparse_length m c f hf
          simp only [List.map_cons, List.sum_cons, List.length_cons]
          omega
    have hs := hsum (chunks 1400 m.payload)
    rw [chunks_flatten 1400 (by omega)] at hs
    have hlen : o.payload.length = (fs.map (·.payload.length)).sum := by
      rw [hp, List.length_flatten, List.map_map]
      rfl
    have hne : ((chunks 1400 m.payload).filterMap (misparse m)).length ≠ 0 := by
      intro h0
      have h00 := List.length_eq_zero_iff.mp h0
      rw [h00] at hsub
      have : fs = [] := List.subset_nil.mp hsub
      rw [hpay, this] at hlen
      simp only [List.map_nil, List.sum_nil] at hlen
      omega
    rw [hpay] at hlen
    omega

/-- Non-vacuity: the two packets of a 1401-byte message are really sent. -/
example : (exportMessage 0 9 1 sampleMsg).length = 2 := by decide +kernel

/-! ### Acknowledgement of resends -/

/-- A resend of a latched message whose first copy was accepted is silently dropped by the
receiver's deduplication, so it is never acknowledged again: if the first acknowledgement is lost,
the sender keeps resending until it gives up. -/
theorem resend_not_acknowledged (utf8 : Bytes → Bool) (isSystem : UInt32 → Bool) (now now' : Nat)
    (rx : Receiver) (sender : UInt16) (seq seq' : UInt32) (m : OutMessage)
    (hlen : 36 + m.payload.length ≤ 65536) (hord : isSystem m.topicHash = false)
    (hnew : (isNewMessage rx.dedup sender m.topicHash m.sequence).2 = true) :
    (receive utf8 isSystem now' (receive utf8 isSystem now rx
        (encodeSingle 65536 (PacketHeader.new 0 sender seq) m)).1
      (resendPacket sender seq' (m.topicHash, m.sequence, m.payload))).2 = [] := by
  obtain ⟨_, hd⟩ := receive_single utf8 isSystem now rx sender seq m hlen hord
  unfold resendPacket
  refine ((receive_single utf8 isSystem now' _ sender seq' _ ?_ ?_).1).trans ?_
  · exact hlen
  · exact hord
  simp only [hd]
  have hold : (isNewMessage (isNewMessage rx.dedup sender m.topicHash m.sequence).1 sender
      m.topicHash m.sequence).2 = false := by
    have key : (isNewMessage rx.dedup sender m.topicHash m.sequence).1.get (sender, m.topicHash)
        = some m.sequence := by
      have := isNewMessage_of_get rx.dedup (sender, m.topicHash) m.sequence
      simp only at this
      rw [this] at hnew ⊢
      cases hg : Map.get rx.dedup (sender, m.topicHash) with
      | none => simp
      | some last =>
        rw [hg] at hnew
        cases hb : isOld last m.sequence with
        | true => simp [hb] at hnew
        | false => simp [hb]
    have := isNewMessage_of_get (isNewMessage rx.dedup sender m.topicHash m.sequence).1
      (sender, m.topicHash) m.sequence
    simp only at this
    rw [this, key]
    simp [isOld]
  simp [hold]

/-! ### Acknowledgements -/

/-- C09, C66: a latched message that is written to the receiver's ring is acknowledged, and the
acknowledgement, once it reaches the sender, ends exactly that latch. Messages of the other classes are
never acknowledged, nor are refused ones. -/
theorem ack_ends_latch (utf8 : Bytes → Bool) (c : ImportCtx) (m : InMessage) (l : Latches)
    (sender : UInt16) (seq : UInt32) :
    (m.reliability = .latched → (processOrdinary c m).1 = true →
      ∃ a, (processOrdinary c m).2 = some a ∧
        ∀ k, Map.get (onPacketAck utf8 l (encodeAck sender seq a)) k =
          if k = (m.topicHash, m.sequence) then none else Map.get l k) ∧
    (m.reliability ≠ .latched → (processOrdinary c m).2 = none) ∧
    (c.guardAllows = some false → processOrdinary c m = (false, none)) := by
  refine ⟨?_, ?_, ?_⟩
  · intro hm hw
    have h1 : ¬ c.guardAllows = some false := by intro e; simp [processOrdinary, e] at hw
    have h2 : ¬ (c.guardAllows.isSome ∧ c.localType ≠ 0 ∧ c.remoteType ≠ 0 ∧ c.localType ≠ c.remoteType) := by
      intro e; simp only [processOrdinary, if_neg h1, if_pos e] at hw; simp at hw
    refine ⟨⟨m.topicHash, m.sequence⟩, by simp only [processOrdinary, if_neg h1, if_neg h2, ackFor, if_pos hm], ?_⟩
    intro k
    unfold onPacketAck
    rw [classify_ack]
    simp only [onAck]
    by_cases e : k = (m.topicHash, m.sequence)
    · rw [if_pos e, e]; exact Map.get_del_self _ _
    · rw [if_neg e]; exact Map.get_del_ne _ (fun h => e h.symm)
  · intro hm
    unfold processOrdinary
    split
    · rfl
    · split
      · rfl
      · simp [ackFor, hm]
  · intro e; simp [processOrdinary, e]

/-- Disagreement with C66's purpose: a latched message for a topic without a local ring is dropped and
acknowledged all the same, so the sender stops resending a message nobody received. -/
theorem acknowledged_but_dropped (m : InMessage) (hm : m.reliability = .latched) :
    processOrdinary ⟨some true, 5, 5, false⟩ m = (false, some ⟨m.topicHash, m.sequence⟩) := by
  simp [processOrdinary, ackFor, hm]

end Horus.Replicator
