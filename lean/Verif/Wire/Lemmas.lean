import Verif.Wire.Model
/- Helper lemmas for the wire codec. -/
namespace Horus.Wire

@[simp] theorem Priority.ofU8_toU8 (p : Priority) : Priority.ofU8 p.toU8 = p := by
  cases p <;> rfl
@[simp] theorem Reliability.ofU8_toU8 (p : Reliability) : Reliability.ofU8 p.toU8 = p := by
  cases p <;> rfl
@[simp] theorem Encoding.ofU8_toU8 (p : Encoding) : Encoding.ofU8 p.toU8 = p := by
  cases p <;> rfl

@[simp] theorem PacketHeader.encode_length (h : PacketHeader) : h.encode.length = 12 := by
  simp [PacketHeader.encode]
@[simp] theorem MessageHeader.encode_length (h : MessageHeader) : h.encode.length = 24 := by
  simp [MessageHeader.encode]
@[simp] theorem FragmentHeader.encode_length (h : FragmentHeader) : h.encode.length = 12 := by
  simp [FragmentHeader.encode]

theorem PacketHeader.decode_encode (h : PacketHeader) (rest : Bytes)
    (hm : h.magic = MAGIC) (hv : h.version = VERSION) :
    PacketHeader.decode (h.encode ++ rest) = some h := by
  have hl : ¬ (h.encode ++ rest).length < PH := by simp [PH]
  unfold PacketHeader.decode
  rw [if_neg hl]
  cases h with
  | mk magic version flags sender seq =>
    simp only at hm hv
    simp [PacketHeader.encode, leAt_append_right, leAt_le_append, leAt_cons_zero, leAt_cons_succ,
      hm, hv]

theorem MessageHeader.decode_encode (h : MessageHeader) (rest : Bytes) :
    MessageHeader.decode (h.encode ++ rest) = some h := by
  have hl : ¬ (h.encode ++ rest).length < MH := by simp [MH]
  unfold MessageHeader.decode
  rw [if_neg hl]
  cases h
  simp [MessageHeader.encode, leAt_append_right, leAt_le_append, leAt_cons_zero, leAt_cons_succ]

theorem FragmentHeader.decode_encode (h : FragmentHeader) (rest : Bytes) :
    FragmentHeader.decode (h.encode ++ rest) = some h := by
  have hl : ¬ (h.encode ++ rest).length < FH := by simp [FH]
  unfold FragmentHeader.decode
  rw [if_neg hl]
  cases h
  simp [FragmentHeader.encode, leAt_append_right, leAt_le_append]


/-- One step of the decode loop over a well-formed message at the current offset. -/
theorem decodeLoop_message (pre : Bytes) (m : OutMessage) (rest : Bytes)
    (hlen : m.payload.length < 2 ^ 32) :
    decodeLoop (pre ++ (m.header.encode ++ (m.payload ++ rest))) pre.length =
      (decodeLoop (pre ++ (m.header.encode ++ (m.payload ++ rest)))
        (pre.length + MH + m.payload.length)).map
        (fun r => { topicHash := m.topicHash, payload := m.payload, timestampNs := m.timestampNs,
                    sequence := m.sequence, priority := m.priority, reliability := m.reliability,
                    encoding := m.encoding : InMessage } :: r) := by
  have hb : (pre ++ (m.header.encode ++ (m.payload ++ rest))).length
      = pre.length + 24 + m.payload.length + rest.length := by simp; omega
  rw [decodeLoop]
  rw [dif_pos (by rw [hb]; simp only [MH]; omega)]
  have hd : (pre ++ (m.header.encode ++ (m.payload ++ rest))).drop pre.length
      = m.header.encode ++ (m.payload ++ rest) := by simp
  rw [hd, MessageHeader.decode_encode]
  have hp : m.header.payloadLen.toNat = m.payload.length := by
    simp only [OutMessage.header, UInt32.toNat_ofNat']
    exact Nat.mod_eq_of_lt hlen
  simp only [hp]
  rw [if_neg (by rw [hb]; simp only [MH]; omega)]
  have hs : slice (pre ++ (m.header.encode ++ (m.payload ++ rest))) (pre.length + MH) m.payload.length
      = m.payload := by
    rw [slice_append_right _ _ _ _ (by simp [MH])]
    rw [slice_append_right _ _ _ _ (by simp [MH])]
    have : pre.length + MH - pre.length - m.header.encode.length = 0 := by simp [MH]
    rw [this, slice_append_left _ _ _ rfl]
  rw [hs]
  cases decodeLoop (pre ++ (m.header.encode ++ (m.payload ++ rest)))
      (pre.length + MH + m.payload.length) <;> rfl

theorem decodeLoop_nil (pre : Bytes) : decodeLoop pre pre.length = some [] := by
  rw [decodeLoop]; rw [dif_neg (by simp only [MH]; omega)]

theorem encodeBatchLoop_decode (bufLen : Nat) (ms : List OutMessage) :
    ∀ (off : Nat) (body pre : Bytes), encodeBatchLoop bufLen off ms = some body →
    (∀ m ∈ ms, m.payload.length < 2 ^ 32) →
    decodeLoop (pre ++ body) pre.length = some (ms.map fun m =>
      { topicHash := m.topicHash, payload := m.payload, timestampNs := m.timestampNs,
        sequence := m.sequence, priority := m.priority, reliability := m.reliability,
        encoding := m.encoding }) := by
  induction ms with
  | nil =>
    intro off body pre h _
    simp only [encodeBatchLoop, Option.some.injEq] at h
    subst h
    simp [decodeLoop_nil]
  | cons m ms ih =>
    intro off body pre h hlen
    simp only [encodeBatchLoop] at h
    split at h
    · simp at h
    · split at h
      · simp at h
      · split at h
        · simp at h
        · rename_i rest hrest
          simp only [Option.some.injEq] at h
          subst h
          rw [decodeLoop_message _ _ _ (hlen m (by simp))]
          have h2 := ih _ rest (pre ++ (m.header.encode ++ m.payload)) hrest
            (fun x hx => hlen x (by simp [hx]))
          have e : pre ++ (m.header.encode ++ (m.payload ++ rest))
              = (pre ++ (m.header.encode ++ m.payload)) ++ rest := by simp
          have e2 : pre.length + MH + m.payload.length = (pre ++ (m.header.encode ++ m.payload)).length := by
            simp [MH]; omega
          rw [e2, e, h2]
          simp

end Horus.Wire
