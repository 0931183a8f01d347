import Verif.Wire.Lemmas
/-
Properties C01 and C02: the data-packet codec.
-/
namespace Horus.Wire

/-! ### Specification -/

/-- What a receiver is supposed to see of a sent message. -/
def delivered (m : OutMessage) : InMessage :=
  { topicHash := m.topicHash, payload := m.payload, timestampNs := m.timestampNs,
    sequence := m.sequence, priority := m.priority, reliability := m.reliability,
    encoding := m.encoding }

/-- A header the library itself would put on a data packet. -/
def DataHeader (h : PacketHeader) : Prop :=
  h.magic = 0x484F5253 ∧ h.version = 1 ∧ h.flags &&& 16 = 0 ∧ h.flags &&& 32 = 0

instance (h : PacketHeader) : Decidable (DataHeader h) := by unfold DataHeader; infer_instance

/-! ### C01 -/

theorem hasFlag_false_of_data {h : PacketHeader} (hh : DataHeader h) :
    (hasFlag h.flags F_HEARTBEAT || hasFlag h.flags F_ACK) = false := by
  obtain ⟨_, _, h3, h4⟩ := hh
  simp [hasFlag, F_HEARTBEAT, F_ACK, h3, h4]

/-- C01 (batch): every batch that fits the buffer comes back exactly. -/
theorem decode_encodeBatch (bufLen : Nat) (h : PacketHeader) (ms : List OutMessage) (out : Bytes)
    (hh : DataHeader h) (hlen : ∀ m ∈ ms, m.payload.length < 2 ^ 32)
    (henc : encodeBatch bufLen h ms = some out) :
    decodePacket out = some (h, ms.map delivered) := by
  unfold encodeBatch at henc
  split at henc
  · simp at henc
  · cases hb : encodeBatchLoop bufLen PH ms with
    | none => simp [hb] at henc
    | some body =>
      simp only [hb, Option.map_some, Option.some.injEq] at henc
      subst henc
      unfold decodePacket
      rw [PacketHeader.decode_encode h body hh.1 hh.2.1]
      simp only [hasFlag_false_of_data hh]
      have := encodeBatchLoop_decode bufLen ms PH body h.encode hb hlen
      simp only [PacketHeader.encode_length] at this
      simp only [PH, this, Bool.false_eq_true, if_false]
      rfl

/-- C01 (batch): the encoder succeeds exactly when everything fits the buffer, and then writes
12 + Σ (24 + payload) bytes. -/
theorem encodeBatch_fits (bufLen : Nat) (h : PacketHeader) (ms : List OutMessage) :
    (12 + (ms.map fun m => 24 + m.payload.length).sum ≤ bufLen →
      ∃ out, encodeBatch bufLen h ms = some out ∧
        out.length = 12 + (ms.map fun m => 24 + m.payload.length).sum) ∧
    (bufLen < 12 + (ms.map fun m => 24 + m.payload.length).sum → encodeBatch bufLen h ms = none) := by
  have key : ∀ (ms : List OutMessage) (off : Nat),
      (off + (ms.map fun m => 24 + m.payload.length).sum ≤ bufLen →
        ∃ b, encodeBatchLoop bufLen off ms = some b ∧ b.length = (ms.map fun m => 24 + m.payload.length).sum) ∧
      (off ≤ bufLen → bufLen < off + (ms.map fun m => 24 + m.payload.length).sum →
        encodeBatchLoop bufLen off ms = none) := by
    intro ms
    induction ms with
    | nil => intro off; constructor
             · intro _; exact ⟨[], rfl, rfl⟩
             · intro h1 h2; simp at h2; omega
    | cons m ms ih =>
      intro off
      obtain ⟨i1, i2⟩ := ih (off + MH + m.payload.length)
      simp only [MH] at i1 i2
      constructor
      · intro hle
        simp only [List.map_cons, List.sum_cons] at hle ⊢
        obtain ⟨b, hb, hbl⟩ := i1 (by omega)
        refine ⟨m.header.encode ++ (m.payload ++ b), ?_, by simp [hbl]; omega⟩
        simp only [encodeBatchLoop, MH]
        rw [if_neg (by omega), if_neg (by omega), hb]
      · intro h1 h2
        simp only [List.map_cons, List.sum_cons] at h2
        simp only [encodeBatchLoop, MH]
        split
        · rfl
        · split
          · rfl
          · rw [i2 (by omega) (by omega)]
  obtain ⟨k1, k2⟩ := key ms PH
  unfold encodeBatch
  simp only [PH] at *
  constructor
  · intro hle
    obtain ⟨b, hb, hbl⟩ := k1 hle
    rw [if_neg (by omega), hb]
    exact ⟨_, rfl, by simp [hbl]⟩
  · intro hlt
    split
    · rfl
    · rw [k2 (by omega) hlt]; rfl

/-- C01 (single): a message either fits and comes back exactly, or nothing is written. -/
theorem decode_encodeSingle (bufLen : Nat) (h : PacketHeader) (m : OutMessage)
    (hh : DataHeader h) (hlen : m.payload.length < 2 ^ 32) :
    (36 + m.payload.length ≤ bufLen →
      decodePacket (encodeSingle bufLen h m) = some (h, [delivered m]) ∧
      (encodeSingle bufLen h m).length = 36 + m.payload.length) ∧
    (bufLen < 36 + m.payload.length → encodeSingle bufLen h m = []) := by
  constructor
  · intro hfit
    unfold encodeSingle
    rw [if_neg (by simp only [PH, MH]; omega)]
    refine ⟨?_, by simp; omega⟩
    unfold decodePacket
    rw [PacketHeader.decode_encode h _ hh.1 hh.2.1]
    simp only [hasFlag_false_of_data hh]
    have h1 := decodeLoop_message h.encode m [] hlen
    simp only [List.append_nil, PacketHeader.encode_length] at h1
    have h2 := decodeLoop_nil (h.encode ++ (m.header.encode ++ m.payload))
    have e : (h.encode ++ (m.header.encode ++ m.payload)).length = 12 + MH + m.payload.length := by
      simp [MH]; omega
    rw [e] at h2
    rw [h2] at h1
    simp only [PH, h1, Option.map_some, Bool.false_eq_true, if_false]
    rfl
  · intro hsmall
    unfold encodeSingle
    rw [if_pos (by simp only [PH, MH]; omega)]

/-- Non-vacuity: a two-message batch with different payload sizes. -/
example :
    let h := PacketHeader.new F_BATCH 7 42
    let m1 : OutMessage := ⟨[97], 5, [1, 2, 3], 9, 1, .realTime, .redundant, .podLe⟩
    let m2 : OutMessage := ⟨[98], 6, [], 10, 2, .bulk, .none, .bincode⟩
    DataHeader h ∧ (∀ m ∈ [m1, m2], m.payload.length < 2 ^ 32) ∧
      (encodeBatch 1500 h [m1, m2]).isSome := by
  refine ⟨by decide, by decide, by decide⟩

/-! ### C02 -/

/-- `Tiles buf pos ms`: from byte `pos` of the datagram on, the messages `ms` are laid out one
after another, each a 24-byte header whose fields are the message's and whose length field is
followed by exactly that many payload bytes, all inside the datagram. -/
def Tiles (buf : Bytes) : Nat → List InMessage → Prop
  | _, [] => True
  | pos, m :: ms =>
    pos + 24 + m.payload.length ≤ buf.length ∧
    leNat ((buf.drop (pos + 4)).take 4) = m.payload.length ∧
    m.payload = (buf.drop (pos + 24)).take m.payload.length ∧
    leNat ((buf.drop pos).take 4) = m.topicHash.toNat ∧
    leNat ((buf.drop (pos + 8)).take 8) = m.timestampNs.toNat ∧
    leNat ((buf.drop (pos + 16)).take 4) = m.sequence.toNat ∧
    Tiles buf (pos + 24 + m.payload.length) ms

/-- Where the decoder stopped: nothing after `pos` is a complete message. -/
def Exhausted (buf : Bytes) (pos : Nat) : Prop :=
  buf.length < pos + 24 ∨ buf.length < pos + 24 + leNat ((buf.drop (pos + 4)).take 4)

/-- End position of a tiling. -/
def tilesEnd (pos : Nat) (ms : List InMessage) : Nat :=
  pos + (ms.map fun m => 24 + m.payload.length).sum

theorem leAt_lt (buf : Bytes) (off k : Nat) : leAt buf off k < 256 ^ k := by
  have h := leNat_lt (slice buf off k)
  have hl : (slice buf off k).length ≤ k := by simp [slice]; omega
  exact Nat.lt_of_lt_of_le h (Nat.pow_le_pow_right (by omega) hl)

theorem decodeLoop_some (buf : Bytes) (offset : Nat) :
    ∃ ms, decodeLoop buf offset = some ms ∧ Tiles buf offset ms ∧
      Exhausted buf (tilesEnd offset ms) := by
  fun_induction decodeLoop buf offset with
  | case1 offset h hdec =>
    exfalso
    unfold MessageHeader.decode at hdec
    rw [if_neg (by simp [MH] at *; omega)] at hdec
    simp at hdec
  | case2 offset h mh hdec off plen hgt =>
    refine ⟨[], rfl, trivial, ?_⟩
    unfold MessageHeader.decode at hdec
    rw [if_neg (by simp [MH] at *; omega)] at hdec
    simp only [Option.some.injEq] at hdec
    right
    have : plen = leNat ((buf.drop (offset + 4)).take 4) := by
      simp only [plen, ← hdec, leAt_drop]
      have := leAt_lt buf (offset + 4) 4
      simp only [UInt32.toNat_ofNat']
      rw [Nat.mod_eq_of_lt (by simpa using this)]
      rfl
    simp only [tilesEnd, List.map_nil, List.sum_nil, Nat.add_zero]
    rw [← this]
    simp only [off, MH] at hgt
    omega
  | case3 offset h mh hdec off plen hle hnone ih =>
    exfalso
    obtain ⟨ms, h1, _⟩ := ih
    rw [hnone] at h1; simp at h1
  | case4 offset h mh hdec off plen hle rest hrest ih =>
    obtain ⟨ms, h1, h2, h3⟩ := ih
    rw [hrest] at h1
    simp only [Option.some.injEq] at h1
    subst h1
    unfold MessageHeader.decode at hdec
    rw [if_neg (by simp [MH] at *; omega)] at hdec
    simp only [Option.some.injEq] at hdec
    have hp : plen = leNat ((buf.drop (offset + 4)).take 4) := by
      simp only [plen, ← hdec, leAt_drop]
      have := leAt_lt buf (offset + 4) 4
      simp only [UInt32.toNat_ofNat']
      rw [Nat.mod_eq_of_lt (by simpa using this)]
      rfl
    have hsl : (slice buf off plen).length = plen := slice_length _ _ _ (by simp only [off, MH] at *; omega)
    have e1 : mh.topicHash.toNat = leNat ((buf.drop offset).take 4) := by
      rw [← hdec]
      have := leAt_lt buf offset 4
      simp only [leAt_drop, UInt32.toNat_ofNat', Nat.add_zero]
      rw [Nat.mod_eq_of_lt (by simpa using this)]; rfl
    have e2 : mh.timestampNs.toNat = leNat ((buf.drop (offset + 8)).take 8) := by
      rw [← hdec]
      have := leAt_lt buf (offset + 8) 8
      simp only [leAt_drop, UInt64.toNat_ofNat']
      rw [Nat.mod_eq_of_lt (by simpa using this)]; rfl
    have e3 : mh.sequence.toNat = leNat ((buf.drop (offset + 16)).take 4) := by
      rw [← hdec]
      have := leAt_lt buf (offset + 16) 4
      simp only [leAt_drop, UInt32.toNat_ofNat']
      rw [Nat.mod_eq_of_lt (by simpa using this)]; rfl
    refine ⟨_, rfl, ⟨?_, ?_, ?_, e1.symm, e2.symm, e3.symm, ?_⟩, ?_⟩
    · simp only [hsl]; simp only [off, MH] at hle; omega
    · simp only [hsl]; exact hp.symm
    · simp only [hsl]; rfl
    · simp only [hsl]; exact h2
    · simp only [tilesEnd, List.map_cons, List.sum_cons, hsl] at h3 ⊢
      have : offset + (24 + plen + (List.map (fun m => 24 + m.payload.length) rest).sum)
          = off + plen + (List.map (fun m => 24 + m.payload.length) rest).sum := by
        simp only [off, MH]; omega
      rw [this]; exact h3
  | case5 offset h =>
    refine ⟨[], rfl, trivial, Or.inl ?_⟩
    simp only [tilesEnd, List.map_nil, List.sum_nil, Nat.add_zero]
    simp only [MH] at h
    omega

/-- C02: whatever bytes arrive, either the packet is refused, and then it is too short or its
magic/version is wrong, or the returned messages tile the datagram from byte 12 on, with
nothing decodable left over (for packets not flagged heartbeat/ack). -/
theorem decodePacket_sound (buf : Bytes) :
    (decodePacket buf = none ∧
      (buf.length < 12 ∨ leNat (buf.take 4) ≠ 0x484F5253 ∨ leNat ((buf.drop 4).take 1) ≠ 1)) ∨
    (∃ h ms, decodePacket buf = some (h, ms) ∧ 12 ≤ buf.length ∧ Tiles buf 12 ms ∧
      12 + (ms.map fun m => 24 + m.payload.length).sum ≤ buf.length ∧
      ms.length ≤ (buf.length - 12) / 24 ∧
      (h.flags &&& 16 = 0 → h.flags &&& 32 = 0 →
        Exhausted buf (12 + (ms.map fun m => 24 + m.payload.length).sum))) := by
  have tl : ∀ (ms : List InMessage) (pos : Nat), pos ≤ buf.length → Tiles buf pos ms →
      pos + (ms.map fun m => 24 + m.payload.length).sum ≤ buf.length := by
    intro ms
    induction ms with
    | nil => intro pos hp _; simpa using hp
    | cons m ms ih =>
      intro pos hp ht
      obtain ⟨h1, _, _, _, _, _, h7⟩ := ht
      have := ih _ h1 h7
      simp only [List.map_cons, List.sum_cons]; omega
  have cnt : ∀ ms : List InMessage, 24 * ms.length ≤ (ms.map fun m => 24 + m.payload.length).sum := by
    intro ms
    induction ms with
    | nil => simp
    | cons m ms ih => simp only [List.length_cons, List.map_cons, List.sum_cons]; omega
  by_cases hl : buf.length < 12
  · left
    exact ⟨by simp [decodePacket, PacketHeader.decode, PH, hl], Or.inl hl⟩
  · by_cases hm : leNat (buf.take 4) = 0x484F5253
    · by_cases hv : leNat ((buf.drop 4).take 1) = 1
      · right
        have hd : ∃ h, PacketHeader.decode buf = some h := by
          unfold PacketHeader.decode
          rw [if_neg (by simp only [PH]; omega)]
          have m1 : UInt32.ofNat (leAt buf 0 4) = MAGIC := by
            simp only [leAt, slice, List.drop_zero, hm]; rfl
          have v1 : UInt8.ofNat (leAt buf 4 1) = VERSION := by
            simp only [leAt, slice, hv]; rfl
          simp [m1, v1]
        obtain ⟨h, hh⟩ := hd
        obtain ⟨ms, h1, h2, h3⟩ := decodeLoop_some buf 12
        unfold decodePacket
        rw [hh]
        simp only [PH, h1]
        cases hf : (hasFlag h.flags F_HEARTBEAT || hasFlag h.flags F_ACK) with
        | true =>
          refine ⟨h, [], by simp, by omega, trivial, by simp; omega, by simp, ?_⟩
          intro a b
          simp only [hasFlag, F_HEARTBEAT, F_ACK, a, b] at hf
          simp at hf
        | false =>
          have t := tl ms 12 (by omega) h2
          have c := cnt ms
          exact ⟨h, ms, by simp, by omega, h2, t, by omega, fun _ _ => h3⟩
      · left
        refine ⟨?_, Or.inr (Or.inr hv)⟩
        unfold decodePacket PacketHeader.decode
        rw [if_neg (by simp only [PH]; omega)]
        have v1 : UInt8.ofNat (leAt buf 4 1) ≠ VERSION := by
          intro hc
          apply hv
          have h2 := leAt_lt buf 4 1
          have := congrArg UInt8.toNat hc
          simp only [UInt8.toNat_ofNat'] at this
          rw [Nat.mod_eq_of_lt (by simpa using h2)] at this
          exact this
        split <;> simp_all
    · left
      refine ⟨?_, Or.inr (Or.inl hm)⟩
      unfold decodePacket PacketHeader.decode
      rw [if_neg (by simp only [PH]; omega)]
      have m1 : UInt32.ofNat (leAt buf 0 4) ≠ MAGIC := by
        intro hc
        apply hm
        have h2 := leAt_lt buf 0 4
        have := congrArg UInt32.toNat hc
        simp only [UInt32.toNat_ofNat'] at this
        rw [Nat.mod_eq_of_lt (by simpa using h2)] at this
        exact this
      simp [m1]

/-- Non-vacuity: a datagram holding one message and a truncated second one is accepted, yields
exactly the first message. -/
example :
    let h := PacketHeader.new F_BATCH 7 42
    let m : OutMessage := ⟨[], 5, [1, 2, 3], 9, 1, .realTime, .redundant, .podLe⟩
    decodePacket (encodeSingle 100 h m ++ (m.header.encode ++ [1])) = some (h, [delivered m]) := by
  decide +kernel

end Horus.Wire
