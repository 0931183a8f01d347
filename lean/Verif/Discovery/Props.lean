import Verif.Discovery.Model
import Verif.Wire.Props
/-
Properties C03 (packet kinds never confused), C04 (announcement round trip),
C19 (topic matching is symmetric and type safe).
-/
namespace Horus.Discovery
open Horus.Wire

/-! ### C04: announcement round trip -/

theorem wt_encode_length (w : WireTopicEntry) : w.encode.length = 76 := by
  simp only [WireTopicEntry.encode, MAX_TOPIC_NAME, List.length_append, List.length_cons,
    List.length_nil, List.length_take, List.length_replicate, le_length]
  omega

/-- One topic entry round-trips when its name fits the wire format. -/
theorem wireTopic_decode_encode (utf8 : Bytes → Bool) (w : WireTopicEntry) (rest : Bytes)
    (hn : w.name.length ≤ 63) (hu : utf8 w.name = true) :
    WireTopicEntry.decode utf8 (w.encode ++ rest) = some w := by
  have hl : ¬ (w.encode ++ rest).length < WT := by
    simp [wt_encode_length]
  have hmin : min w.name.length MAX_TOPIC_NAME = w.name.length := Nat.min_eq_left hn
  unfold WireTopicEntry.decode
  rw [if_neg hl]
  have h0 : leAt (w.encode ++ rest) 0 1 = w.name.length := by
    simp only [WireTopicEntry.encode, hmin, List.cons_append, List.nil_append, leAt_cons_zero,
      UInt8.toNat_ofNat']
    omega
  have hname : slice (w.encode ++ rest) 1 w.name.length = w.name := by
    simp only [WireTopicEntry.encode, hmin, List.cons_append, List.nil_append,
      List.take_length, List.append_assoc]
    rw [slice_cons_succ _ _ 0]
    exact slice_append_left _ _ _ rfl
  simp only [h0, hname, hu]
  rw [if_neg (by omega)]
  have hpad : ∀ (tail : Bytes) (off k : Nat), 64 ≤ off →
      leAt (UInt8.ofNat w.name.length :: (w.name ++ (List.replicate (63 - w.name.length) 0 ++ tail))) off k
        = leAt tail (off - 64) k := by
    intro tail off k ho
    obtain ⟨o, rfl⟩ : ∃ o, off = o + 1 := ⟨off - 1, by omega⟩
    rw [leAt_cons_succ, leAt_append_right _ _ _ _ (by omega),
      leAt_append_right _ _ _ _ (by simp; omega)]
    congr 1
    simp; omega
  cases w with
  | mk name th ts role pod prio =>
    simp only at *
    simp only [WireTopicEntry.encode, hmin, List.cons_append, List.nil_append, List.take_length,
      List.append_assoc, Bool.not_true, Bool.false_eq_true, if_false]
    rw [hpad _ 64 4 (by omega), hpad _ 68 4 (by omega), hpad _ 72 1 (by omega),
      hpad _ 73 1 (by omega), hpad _ 74 1 (by omega)]
    simp [leAt_append_right, leAt_le_append, leAt_cons_zero, leAt_cons_succ]

theorem decodeTopics_encode (utf8 : Bytes → Bool) (ws : List WireTopicEntry) :
    ∀ (pre : Bytes), (∀ w ∈ ws, w.name.length ≤ 63 ∧ utf8 w.name = true) →
    decodeTopics utf8 (pre ++ (ws.map WireTopicEntry.encode).flatten) ws.length pre.length = ws := by
  induction ws with
  | nil => intro pre _; rfl
  | cons w ws ih =>
    intro pre h
    simp only [List.length_cons, decodeTopics, List.map_cons, List.flatten_cons]
    rw [if_neg (by simp [wt_encode_length])]
    have hd : (pre ++ (w.encode ++ (ws.map WireTopicEntry.encode).flatten)).drop pre.length
        = w.encode ++ (ws.map WireTopicEntry.encode).flatten := by simp
    rw [hd, wireTopic_decode_encode utf8 w _ (h w (by simp)).1 (h w (by simp)).2]
    have := ih (pre ++ w.encode) (fun x hx => h x (by simp [hx]))
    simp only [List.length_append, wt_encode_length, List.append_assoc] at this
    simp only [WT, this]

theorem annHeader_decode_encode (h : AnnouncementHeader) (rest : Bytes)
    (hm : h.magic = MAGIC) (hv : h.version = VERSION) (hf : h.flags &&& ANNOUNCEMENT_FLAG ≠ 0)
    (hp : h.peerId.length = 16) (hs : h.secretHash.length = 4) :
    AnnouncementHeader.decode (h.encode ++ rest) = some h := by
  have hl : ¬ (h.encode ++ rest).length < AH := by
    simp only [AnnouncementHeader.encode, AH, List.length_append, List.length_cons,
      List.length_nil, le_length, hp, hs]
    omega
  unfold AnnouncementHeader.decode
  rw [if_neg hl]
  cases h with
  | mk magic version flags peerId port secret count =>
    simp only at hm hv hf hp hs
    have e1 : slice (AnnouncementHeader.encode ⟨magic, version, flags, peerId, port, secret, count⟩ ++ rest) 6 16
        = peerId := by
      simp only [AnnouncementHeader.encode, List.append_assoc]
      rw [slice_append_right _ _ _ _ (by simp), slice_append_right _ _ _ _ (by simp),
        slice_append_right _ _ _ _ (by simp)]
      simp only [le_length, List.length_cons, List.length_nil]
      exact slice_append_left _ _ _ hp
    have e2 : slice (AnnouncementHeader.encode ⟨magic, version, flags, peerId, port, secret, count⟩ ++ rest) 24 4
        = secret := by
      simp only [AnnouncementHeader.encode, List.append_assoc]
      rw [slice_append_right _ _ _ _ (by simp), slice_append_right _ _ _ _ (by simp),
        slice_append_right _ _ _ _ (by simp), slice_append_right _ _ _ _ (by simp [hp]),
        slice_append_right _ _ _ _ (by simp [hp])]
      simp only [le_length, List.length_cons, List.length_nil, hp]
      exact slice_append_left _ _ _ hs
    simp only [e1, e2]
    simp [AnnouncementHeader.encode, leAt_append_right, leAt_le_append, leAt_cons_zero,
      leAt_cons_succ, hm, hv, hf, hp, hs]

/-- The entries a peer should learn from an announcement: the first 200, with the role coded
1/2/3, the POD bit 0/1 and the inferred priority. -/
def announced (topics : List TopicEntry) : List WireTopicEntry :=
  (topics.take 200).map WireTopicEntry.ofEntry

theorem flags_ann (b : Bool) :
    (ANNOUNCEMENT_FLAG ||| (if b then ANNOUNCEMENT_HAS_SECRET else 0)) &&& ANNOUNCEMENT_FLAG ≠ 0 := by
  cases b <;> decide

/-- C04: every announcement whose topic names are at most 63 bytes comes back exactly: peer id,
port, secret, and the first 200 topics in order. -/
theorem decode_encodeAnnouncement (utf8 : Bytes → Bool) (peerId : Bytes) (port : UInt16)
    (secret : Bytes) (topics : List TopicEntry)
    (hp : peerId.length = 16) (hs : secret.length = 4)
    (hn : ∀ t ∈ topics, t.name.length ≤ 63 ∧ utf8 t.name = true) :
    decodeAnnouncement utf8 (encodeAnnouncement peerId port secret topics) =
      some { peerId := peerId, dataPort := port, secretHash := secret,
             hasSecret := decide (secret ≠ [0, 0, 0, 0]), topics := announced topics } := by
  unfold decodeAnnouncement encodeAnnouncement
  simp only
  rw [annHeader_decode_encode _ _ rfl rfl ?_ hp hs]
  · simp only [Option.some.injEq, PeerAnnouncement.mk.injEq, true_and]
    constructor
    · by_cases h : secret = [0, 0, 0, 0]
      · simp [h, ANNOUNCEMENT_FLAG, ANNOUNCEMENT_HAS_SECRET]; decide
      · simp [h, ANNOUNCEMENT_FLAG, ANNOUNCEMENT_HAS_SECRET]; decide
    · have hlen : (topics.take (min topics.length MAX_TOPICS)).length = min topics.length MAX_TOPICS := by
        simp
      have htake : topics.take (min topics.length MAX_TOPICS) = topics.take 200 := by
        rcases Nat.le_total topics.length 200 with h | h
        · simp [Nat.min_eq_left h, List.take_of_length_le h]
        · simp [Nat.min_eq_right h]
      have key := decodeTopics_encode utf8 (announced topics)
        (AnnouncementHeader.encode
          { magic := MAGIC, version := VERSION,
            flags := ANNOUNCEMENT_FLAG ||| (if secret ≠ [0, 0, 0, 0] then ANNOUNCEMENT_HAS_SECRET else 0),
            peerId := peerId, dataPort := port, secretHash := secret,
            topicCount := UInt16.ofNat (min topics.length MAX_TOPICS) }) (by
          intro w hw
          simp only [announced, List.mem_map] at hw
          obtain ⟨t, ht, rfl⟩ := hw
          exact hn t (List.mem_of_mem_take ht))
      have hc : (UInt16.ofNat (min topics.length MAX_TOPICS)).toNat = (announced topics).length := by
        simp only [announced, List.length_map, List.length_take, UInt16.toNat_ofNat']
        have : min topics.length MAX_TOPICS ≤ 200 := Nat.min_le_right _ _
        simp only [MAX_TOPICS] at *
        rw [Nat.mod_eq_of_lt (by omega), Nat.min_comm]
      have hpre : ∀ c, (AnnouncementHeader.encode
          { magic := MAGIC, version := VERSION,
            flags := ANNOUNCEMENT_FLAG ||| (if secret ≠ [0, 0, 0, 0] then ANNOUNCEMENT_HAS_SECRET else 0),
            peerId := peerId, dataPort := port, secretHash := secret,
            topicCount := c }).length = 30 := by
        intro c; simp [AnnouncementHeader.encode, hp, hs]
      rw [hpre] at key
      rw [hc, htake]
      have e : (topics.take 200).map (fun e => (WireTopicEntry.ofEntry e).encode)
          = (announced topics).map WireTopicEntry.encode := by
        simp [announced, List.map_map, Function.comp_def]
      rw [e]
      exact key
  · by_cases h : secret = [0, 0, 0, 0] <;> simp [h] <;> decide

/-- Non-vacuity of C04: two topics, one of them with a 63-byte name. -/
example : ∀ t ∈ [TopicEntry.mk (List.replicate 63 97) 1 4 .both true, TopicEntry.mk [98] 2 0 .subscriber false],
    t.name.length ≤ 63 ∧ (fun _ => true) t.name = true := by decide

/-- The documented exception of C04 really loses the name: a 64-byte topic is announced under
its 63-byte prefix, so two different topics become indistinguishable to peers. -/
theorem longName_conflated (utf8 : Bytes → Bool) :
    ∃ t1 t2 : TopicEntry, t1.name ≠ t2.name ∧ t1.typeHash = t2.typeHash ∧
      (decodeAnnouncement utf8 (encodeAnnouncement (List.replicate 16 0) 9 [0, 0, 0, 0] [t1])).map (·.topics)
      = (decodeAnnouncement utf8 (encodeAnnouncement (List.replicate 16 0) 9 [0, 0, 0, 0] [t2])).map (·.topics) := by
  refine ⟨⟨List.replicate 63 97 ++ [98], 1, 4, .publisher, true⟩,
    ⟨List.replicate 63 97 ++ [99], 1, 4, .publisher, true⟩, by decide, rfl, ?_⟩
  have e : encodeAnnouncement (List.replicate 16 0) 9 [0, 0, 0, 0]
        [⟨List.replicate 63 97 ++ [98], 1, 4, .publisher, true⟩]
      = encodeAnnouncement (List.replicate 16 0) 9 [0, 0, 0, 0]
        [⟨List.replicate 63 97 ++ [99], 1, 4, .publisher, true⟩] := by decide +kernel
  rw [e]

/-! ### C03: packet kinds -/

theorem decodeAnnouncement_none_of_bit7 (utf8 : Bytes → Bool) (h : PacketHeader) (rest : Bytes)
    (hb : h.flags &&& 0x80 = 0) : decodeAnnouncement utf8 (h.encode ++ rest) = none := by
  have : AnnouncementHeader.decode (h.encode ++ rest) = none := by
    unfold AnnouncementHeader.decode
    have e : UInt8.ofNat (leAt (h.encode ++ rest) 5 1) = h.flags := by
      simp [PacketHeader.encode, leAt_append_right, leAt_cons_zero, leAt_cons_succ]
    simp only [e, ANNOUNCEMENT_FLAG, hb]
    repeat' split
    all_goals simp_all
  simp [decodeAnnouncement, this]

/-- C03: a heartbeat is recognised as exactly that heartbeat. -/
theorem classify_heartbeat (utf8 : Bytes → Bool) (sender : UInt16) (seq : UInt32)
    (p : HeartbeatPayload) (hp : p.peerId.length = 16) :
    classify utf8 (encodeHeartbeat sender seq p) = .heartbeat (some p) := by
  unfold classify encodeHeartbeat
  rw [decodeAnnouncement_none_of_bit7 _ _ _ (by simp only [PacketHeader.new]; decide), PacketHeader.decode_encode _ _ rfl rfl]
  have h1 : hasFlag (PacketHeader.new (0 ||| F_HEARTBEAT) sender seq).flags F_HEARTBEAT = true := by
    simp only [PacketHeader.new]; decide
  simp only [h1, if_true]
  congr 1
  have hl : p.encode.length = 20 := by simp [HeartbeatPayload.encode, hp]
  unfold decodeHeartbeat
  rw [if_neg (by simp [hl])]
  have hd : ((PacketHeader.new (0 ||| F_HEARTBEAT) sender seq).encode ++ p.encode).drop PH = p.encode := by
    rw [show PH = (PacketHeader.new (0 ||| F_HEARTBEAT) sender seq).encode.length by simp]
    simp
  rw [hd]
  unfold HeartbeatPayload.decode
  rw [if_neg (by omega)]
  cases p with
  | mk id s =>
    simp only at hp
    simp [HeartbeatPayload.encode, slice_append_left _ _ _ hp, leAt_append_right, hp, leAt_le]

/-- C03: an acknowledgement is recognised as exactly that acknowledgement. -/
theorem classify_ack (utf8 : Bytes → Bool) (sender : UInt16) (seq : UInt32) (p : AckPayload) :
    classify utf8 (encodeAck sender seq p) = .ack (some p) := by
  unfold classify encodeAck
  rw [decodeAnnouncement_none_of_bit7 _ _ _ (by simp only [PacketHeader.new]; decide), PacketHeader.decode_encode _ _ rfl rfl]
  have h0 : hasFlag (PacketHeader.new (0 ||| F_ACK) sender seq).flags F_HEARTBEAT = false := by
    simp only [PacketHeader.new]; decide
  have h1 : hasFlag (PacketHeader.new (0 ||| F_ACK) sender seq).flags F_ACK = true := by
    simp only [PacketHeader.new]; decide
  simp only [h0, h1, if_true, Bool.false_eq_true, if_false]
  congr 1
  have hl : p.encode.length = 8 := by simp [AckPayload.encode]
  unfold decodeAck
  rw [if_neg (by simp [hl])]
  have hd : ((PacketHeader.new (0 ||| F_ACK) sender seq).encode ++ p.encode).drop PH = p.encode := by
    rw [show PH = (PacketHeader.new (0 ||| F_ACK) sender seq).encode.length by simp]
    simp
  rw [hd]
  unfold AckPayload.decode
  rw [if_neg (by omega)]
  cases p
  simp [AckPayload.encode, leAt_append_right, leAt_le, leAt_le_append]

/-- C03: a data packet (any flags among batch/delta/compressed) is recognised as data and yields
its messages; in particular it is never swallowed as an announcement. -/
theorem classify_data (utf8 : Bytes → Bool) (bufLen : Nat) (h : PacketHeader) (ms : List OutMessage)
    (out : Bytes) (hh : DataHeader h) (h7 : h.flags &&& 0x80 = 0) (hfr : h.flags &&& 8 = 0)
    (hlen : ∀ m ∈ ms, m.payload.length < 2 ^ 32) (henc : encodeBatch bufLen h ms = some out) :
    classify utf8 out = .data (ms.map delivered) := by
  have hd := decode_encodeBatch bufLen h ms out hh hlen henc
  have hpre : ∃ rest, out = h.encode ++ rest := by
    unfold encodeBatch at henc
    split at henc
    · simp at henc
    · simp only [Option.map_eq_some_iff] at henc
      obtain ⟨b, _, rfl⟩ := henc
      exact ⟨b, rfl⟩
  obtain ⟨rest, rfl⟩ := hpre
  unfold classify
  rw [decodeAnnouncement_none_of_bit7 _ _ _ h7, PacketHeader.decode_encode _ _ hh.1 hh.2.1, hd]
  have a : hasFlag h.flags F_HEARTBEAT = false := by simp [hasFlag, F_HEARTBEAT, hh.2.2.1]
  have b : hasFlag h.flags F_ACK = false := by simp [hasFlag, F_ACK, hh.2.2.2]
  have c : hasFlag h.flags F_FRAGMENT = false := by simp [hasFlag, F_FRAGMENT, hfr]
  simp [a, b, c]

/-- C03: an announcement is recognised as that announcement, never as data. -/
theorem classify_announcement (utf8 : Bytes → Bool) (peerId : Bytes) (port : UInt16)
    (secret : Bytes) (topics : List TopicEntry)
    (hp : peerId.length = 16) (hs : secret.length = 4)
    (hn : ∀ t ∈ topics, t.name.length ≤ 63 ∧ utf8 t.name = true) :
    classify utf8 (encodeAnnouncement peerId port secret topics) =
      .announcement { peerId := peerId, dataPort := port, secretHash := secret,
                      hasSecret := decide (secret ≠ [0, 0, 0, 0]), topics := announced topics } := by
  unfold classify
  rw [decode_encodeAnnouncement utf8 peerId port secret topics hp hs hn]

/-- C03, for arbitrary (hostile) bytes: the announcement interpretation needs bit 7 of byte 5,
and whatever is taken for a heartbeat/ack has the corresponding flag bit and bit 7 clear, unless
it is shorter than an announcement header. -/
theorem classify_by_flag_bits (utf8 : Bytes → Bool) (buf : Bytes) :
    (∀ a, classify utf8 buf = .announcement a → UInt8.ofNat (leNat ((buf.drop 5).take 1)) &&& 0x80 ≠ 0) ∧
    (∀ p, classify utf8 buf = .heartbeat p → UInt8.ofNat (leNat ((buf.drop 5).take 1)) &&& 16 ≠ 0 ∧
      (30 ≤ buf.length → UInt8.ofNat (leNat ((buf.drop 5).take 1)) &&& 0x80 = 0)) ∧
    (∀ p, classify utf8 buf = .ack p → UInt8.ofNat (leNat ((buf.drop 5).take 1)) &&& 32 ≠ 0 ∧
      UInt8.ofNat (leNat ((buf.drop 5).take 1)) &&& 16 = 0 ∧
      (30 ≤ buf.length → UInt8.ofNat (leNat ((buf.drop 5).take 1)) &&& 0x80 = 0)) ∧
    (∀ ms, classify utf8 buf = .data ms → UInt8.ofNat (leNat ((buf.drop 5).take 1)) &&& 56 = 0 ∧
      (30 ≤ buf.length → UInt8.ofNat (leNat ((buf.drop 5).take 1)) &&& 0x80 = 0)) := by
  have hflag : ∀ h, PacketHeader.decode buf = some h → h.flags = UInt8.ofNat (leNat ((buf.drop 5).take 1))
      ∧ UInt32.ofNat (leAt buf 0 4) = MAGIC ∧ UInt8.ofNat (leAt buf 4 1) = VERSION := by
    intro h hd
    unfold PacketHeader.decode at hd
    simp only at hd
    split at hd
    · simp at hd
    · split at hd
      · simp at hd
      · split at hd
        · simp at hd
        · rename_i h1 h2 h3
          simp only [Option.some.injEq] at hd
          subst hd
          exact ⟨rfl, by simpa using h2, by simpa using h3⟩
  have hann : ∀ a, decodeAnnouncement utf8 buf = some a →
      UInt8.ofNat (leNat ((buf.drop 5).take 1)) &&& 0x80 ≠ 0 := by
    intro a ha
    unfold decodeAnnouncement at ha
    cases hh : AnnouncementHeader.decode buf with
    | none => simp [hh] at ha
    | some hd =>
      unfold AnnouncementHeader.decode at hh
      simp only at hh
      split at hh
      · simp at hh
      · split at hh
        · simp at hh
        · split at hh
          · simp at hh
          · split at hh
            · simp at hh
            · rename_i h4
              exact h4
  have hno : decodeAnnouncement utf8 buf = none → ∀ h, PacketHeader.decode buf = some h →
      30 ≤ buf.length → UInt8.ofNat (leNat ((buf.drop 5).take 1)) &&& 0x80 = 0 := by
    intro hn h hd h30
    obtain ⟨_, hm, hv⟩ := hflag h hd
    unfold decodeAnnouncement at hn
    cases hh : AnnouncementHeader.decode buf with
    | some x => simp [hh] at hn
    | none =>
      unfold AnnouncementHeader.decode at hh
      rw [if_neg (by simp only [AH]; omega)] at hh
      simp only [hm, hv, ne_eq, not_true, if_false] at hh
      split at hh
      · rename_i h4; exact h4
      · simp at hh
  have bits : ∀ f : UInt8, f &&& 16 = 0 → f &&& 32 = 0 → f &&& 8 = 0 → f &&& 56 = 0 := by
    intro f a b c
    have : (56 : UInt8) = 16 ||| (32 ||| 8) := by decide
    have d : ∀ x y z : UInt8, x &&& (y ||| z) = (x &&& y) ||| (x &&& z) := by
      intro x y z
      apply UInt8.toBitVec_inj.mp
      simp [BitVec.and_or_distrib_left]
    rw [this, d, d, a, b, c]
    rfl
  unfold classify
  cases ha : decodeAnnouncement utf8 buf with
  | some a => simpa using hann a ha
  | none =>
    cases hd : PacketHeader.decode buf with
    | none => simp
    | some h =>
      obtain ⟨hf, _, _⟩ := hflag h hd
      have h80 := hno ha h hd
      rw [← hf] at h80 ⊢
      simp only [hasFlag, F_HEARTBEAT, F_ACK, F_FRAGMENT]
      by_cases a : h.flags &&& 16 = 0
      · by_cases b : h.flags &&& 32 = 0
        · by_cases c : h.flags &&& 8 = 0
          · have hb := bits _ a b c
            simp only [a, b, c, bne_self_eq_false, Bool.false_eq_true, if_false]
            cases hp : decodePacket buf with
            | none => simp
            | some r => simp [hb]; exact h80
          · simp [a, b, c]
        · simp [a, b]; exact h80
      · simp [a]; exact h80

example : ∃ h : PacketHeader, DataHeader h ∧ h.flags &&& 0x80 = 0 ∧ h.flags &&& 8 = 0 ∧
    (encodeBatch 1500 h [⟨[97], 5, [1, 2, 3], 9, 1, .realTime, .redundant, .podLe⟩]).isSome :=
  ⟨PacketHeader.new F_BATCH 3 4, by decide, by decide, by decide, by decide⟩

/-! ### C19: matching -/

/-- Host with entries `la` publishes topic `t` with type `ty`. -/
def Publishes (la : List TopicEntry) (t : Bytes) (ty : UInt32) : Prop :=
  ∃ e ∈ la, e.name = t ∧ e.typeHash = ty ∧ (e.role = .publisher ∨ e.role = .both)

/-- Host with entries `la` subscribes to topic `t` with type `ty`. -/
def Subscribes (la : List TopicEntry) (t : Bytes) (ty : UInt32) : Prop :=
  ∃ e ∈ la, e.name = t ∧ e.typeHash = ty ∧ (e.role = .subscriber ∨ e.role = .both)

theorem role_wire_pub (r : Role) : (r.toWire = 1 ∨ r.toWire = 3) ↔ (r = .publisher ∨ r = .both) := by
  cases r <;> decide
theorem role_wire_sub (r : Role) : (r.toWire = 2 ∨ r.toWire = 3) ↔ (r = .subscriber ∨ r = .both) := by
  cases r <;> decide

/-- C19: what is planned for export to a peer is exactly what the local host publishes and the
peer subscribes to, with the same name and type. -/
theorem export_iff (la lb : List TopicEntry) (t : Bytes) :
    (∃ m ∈ findMatches la (lb.map WireTopicEntry.ofEntry), m.topic = t ∧ m.export = true) ↔
    ∃ ty, Publishes la t ty ∧ Subscribes lb t ty := by
  constructor
  · rintro ⟨m, hm, rfl, he⟩
    simp only [findMatches, List.mem_flatMap, List.mem_filterMap, List.mem_map] at hm
    obtain ⟨l, hl, r, ⟨b, hb, rfl⟩, hmo⟩ := hm
    unfold matchOne at hmo
    simp only at hmo
    split at hmo
    · simp at hmo
    · split at hmo
      · simp at hmo
      · rename_i hn ht
        split at hmo
        · simp only [Option.some.injEq] at hmo
          subst hmo
          simp only [decide_eq_true_eq] at he
          refine ⟨l.typeHash, ⟨l, hl, rfl, rfl, he.1⟩, ⟨b, hb, ?_, ?_, ?_⟩⟩
          · exact (Classical.not_not.mp hn).symm
          · exact (Classical.not_not.mp ht).symm
          · exact (role_wire_sub _).mp he.2
        · simp at hmo
  · rintro ⟨ty, ⟨l, hl, hn, ht, hr⟩, ⟨b, hb, hn', ht', hr'⟩⟩
    have hr2 := (role_wire_sub b.role).mpr hr'
    refine ⟨{ topic := l.name, «export» := true,
              «import» := decide ((l.role = .subscriber ∨ l.role = .both) ∧ (b.role.toWire = 1 ∨ b.role.toWire = 3)),
              typeHash := l.typeHash, isPod := l.isPod }, ?_, hn, rfl⟩
    simp only [findMatches, List.mem_flatMap, List.mem_filterMap, List.mem_map]
    refine ⟨l, hl, _, ⟨b, hb, rfl⟩, ?_⟩
    have h1 : l.name = b.name := hn.trans hn'.symm
    have h2 : l.typeHash = b.typeHash := ht.trans ht'.symm
    simp [matchOne, WireTopicEntry.ofEntry, h1, h2, hr, hr2]
    rw [Bool.eq_iff_iff]
    simp only [decide_eq_true_eq, Bool.and_eq_true, Bool.or_eq_true]
    exact decide_eq_true_iff

/-- C19: what is planned for import from a peer, likewise. -/
theorem import_iff (la lb : List TopicEntry) (t : Bytes) :
    (∃ m ∈ findMatches lb (la.map WireTopicEntry.ofEntry), m.topic = t ∧ m.import = true) ↔
    ∃ ty, Publishes la t ty ∧ Subscribes lb t ty := by
  constructor
  · rintro ⟨m, hm, rfl, he⟩
    simp only [findMatches, List.mem_flatMap, List.mem_filterMap, List.mem_map] at hm
    obtain ⟨l, hl, r, ⟨b, hb, rfl⟩, hmo⟩ := hm
    unfold matchOne at hmo
    simp only at hmo
    split at hmo
    · simp at hmo
    · split at hmo
      · simp at hmo
      · rename_i hn ht
        split at hmo
        · simp only [Option.some.injEq] at hmo
          subst hmo
          simp only [decide_eq_true_eq] at he
          refine ⟨l.typeHash, ⟨b, hb, ?_, ?_, ?_⟩, ⟨l, hl, rfl, rfl, he.1⟩⟩
          · exact (Classical.not_not.mp hn).symm
          · exact (Classical.not_not.mp ht).symm
          · exact (role_wire_pub _).mp he.2
        · simp at hmo
  · rintro ⟨ty, ⟨b, hb, hn', ht', hr'⟩, ⟨l, hl, hn, ht, hr⟩⟩
    have hr2 := (role_wire_pub b.role).mpr hr'
    refine ⟨{ topic := l.name, «import» := true,
              «export» := decide ((l.role = .publisher ∨ l.role = .both) ∧ (b.role.toWire = 2 ∨ b.role.toWire = 3)),
              typeHash := l.typeHash, isPod := l.isPod }, ?_, hn, rfl⟩
    simp only [findMatches, List.mem_flatMap, List.mem_filterMap, List.mem_map]
    refine ⟨l, hl, _, ⟨b, hb, rfl⟩, ?_⟩
    have h1 : l.name = b.name := hn.trans hn'.symm
    have h2 : l.typeHash = b.typeHash := ht.trans ht'.symm
    simp [matchOne, WireTopicEntry.ofEntry, h1, h2, hr, hr2]
    rw [Bool.eq_iff_iff]
    simp only [decide_eq_true_eq, Bool.and_eq_true, Bool.or_eq_true]
    exact decide_eq_true_iff

/-- C19, end to end through the announcements actually exchanged: with at most 200 topics and
names of at most 63 bytes on both hosts, A exports `t` to B iff B imports `t` from A. -/
theorem matching_symmetric (utf8 : Bytes → Bool) (la lb : List TopicEntry)
    (ida idb : Bytes) (pa pb : UInt16) (sa sb : Bytes) (annA annB : PeerAnnouncement)
    (hida : ida.length = 16) (hidb : idb.length = 16) (hsa : sa.length = 4) (hsb : sb.length = 4)
    (hla : la.length ≤ 200) (hlb : lb.length ≤ 200)
    (hna : ∀ t ∈ la, t.name.length ≤ 63 ∧ utf8 t.name = true)
    (hnb : ∀ t ∈ lb, t.name.length ≤ 63 ∧ utf8 t.name = true)
    (hA : decodeAnnouncement utf8 (encodeAnnouncement ida pa sa la) = some annA)
    (hB : decodeAnnouncement utf8 (encodeAnnouncement idb pb sb lb) = some annB) (t : Bytes) :
    (∃ m ∈ findMatches la annB.topics, m.topic = t ∧ m.export = true) ↔
    (∃ m ∈ findMatches lb annA.topics, m.topic = t ∧ m.import = true) := by
  rw [decode_encodeAnnouncement utf8 ida pa sa la hida hsa hna] at hA
  rw [decode_encodeAnnouncement utf8 idb pb sb lb hidb hsb hnb] at hB
  simp only [Option.some.injEq] at hA hB
  subst hA; subst hB
  simp only [announced, List.take_of_length_le hla, List.take_of_length_le hlb]
  rw [export_iff, import_iff]

/-- Non-vacuity of C19: A publishes, B subscribes, and both plans contain the topic. -/
example :
    let a := [TopicEntry.mk [105] 7 4 .publisher true]
    let b := [TopicEntry.mk [105] 7 4 .subscriber true]
    ((findMatches a (b.map WireTopicEntry.ofEntry)).map fun m => (m.export, m.import)) = [(true, false)] ∧
    ((findMatches b (a.map WireTopicEntry.ofEntry)).map fun m => (m.export, m.import)) = [(false, true)] := by
  decide

end Horus.Discovery
