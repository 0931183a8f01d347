import Verif.Estop.Model
import Verif.Mac.Props
import Verif.Replicator.Props
import Mathlib.Data.List.Perm.Basic
/-
Properties C11 and C12.
-/
namespace Horus.Estop
open Horus.Wire Horus.Replicator

/-! ### Specification -/

/-- The HMAC-SHA256 of RFC 2104 / FIPS 180-4. -/
def HMAC (key msg : Bytes) : Bytes := Mac.Spec.HMAC (Mac.Spec.SHA256 Mac.kTable Mac.IV) key msg

/-- The documented packet body: host, reason length, reason, timestamp (little-endian). -/
def bodyOf (host : UInt16) (reason : Bytes) (ts : Nat) : Bytes :=
  le 2 host.toNat ++ (le 2 reason.length ++ (reason ++ le 8 ts))

/-- The timestamp is within five seconds of the local clock; or the local clock was never set (it
is before 2020) and the difference is at least a day. -/
def TimeOk (ts now : Nat) : Prop :=
  (ts ≤ now + 5000000000 ∧ now ≤ ts + 5000000000) ∨
  (now < 1577836800000000000 ∧ (ts + 86400000000000 ≤ now ∨ now + 86400000000000 ≤ ts))

theorem estopTag_eq (k b : Bytes) : estopTag k b = HMAC k (macDomain ++ b) := by
  simp [estopTag, Mac.hmac_standard, HMAC]

theorem HMAC_length (k b : Bytes) : (HMAC k b).length = 32 := Mac.SHA256_length _

theorem freshness_iff (ts now : Nat) : freshness ts now ≠ .stale ↔ TimeOk ts now := by
  unfold freshness TimeOk absDiff
  by_cases h : now ≤ ts
  · simp only [h, if_true]
    split
    · split <;> simp <;> omega
    · by_cases h2 : ts ≤ now
      · simp [h2]; omega
      · simp only [ge_iff_le, h2, if_false]
        split <;> rename_i h3 <;> simp at h3 ⊢ <;> omega
  · simp only [h, if_false]
    split
    · split <;> simp <;> omega
    · simp only [ge_iff_le, show ts ≤ now by omega, if_true]
      split <;> rename_i h3 <;> simp at h3 ⊢ <;> omega

theorem handleRemote_cases (lossy : Bytes → Bytes) (data : Bytes) (policy : Policy) (k : Bytes) (now : Nat)
    (t : Trigger) :
    handleRemote lossy data policy (some k) now = some t ↔
      policy = .warn ∧ 12 ≤ data.length ∧ 4 + leAt data 2 2 + 8 ≤ data.length ∧
      verifyTag k data (4 + leAt data 2 2 + 8) = true ∧
      freshness (leAt data (4 + leAt data 2 2) 8) now ≠ .stale ∧
      t = { host := UInt16.ofNat (leAt data 0 2), reason := lossy (slice data 4 (leAt data 2 2)) } := by
  unfold handleRemote decodeEstop bodyLen
  by_cases h1 : data.length < 12
  · simp [h1]
  · by_cases h2 : data.length < 4 + leAt data 2 2 + 8
    · simp [h1, h2]
    · simp only [h1, h2, if_false]
      by_cases h3 : verifyTag k data (4 + leAt data 2 2 + 8) = true
      · simp only [h3, not_true_eq_false, if_false, true_and]
        have a1 : 12 ≤ data.length := by omega
        have a2 : 4 + leAt data 2 2 + 8 ≤ data.length := by omega
        simp only [a1, a2, true_and]
        cases hf : freshness (leAt data (4 + leAt data 2 2) 8) now <;> cases policy <;> simp <;>
          exact eq_comm
      · simp [h3]

/-- C11 (and the acceptance half of C12): a packet triggers the emergency stop exactly when a key is
configured, the policy permits it, the packet is a well-formed body followed by the HMAC of exactly
that body under the configured key (anything may follow), and the body's timestamp is acceptable.
The host and reason reported are the ones in that body. -/
theorem remote_estop_iff (lossy : Bytes → Bytes) (data : Bytes) (policy : Policy) (key : Option Bytes)
    (now : Nat) (t : Trigger) :
    handleRemote lossy data policy key now = some t ↔
      ∃ k, key = some k ∧ policy = .warn ∧
      ∃ (host : UInt16) (reason : Bytes) (ts : Nat) (rest : Bytes),
        reason.length < 65536 ∧ ts < 2 ^ 64 ∧
        data = bodyOf host reason ts ++ (HMAC k (macDomain ++ bodyOf host reason ts) ++ rest) ∧
        TimeOk ts now ∧ t = { host := host, reason := lossy reason } := by
  cases key with
  | none => simp [handleRemote]
  | some k =>
    rw [handleRemote_cases]
    constructor
    · rintro ⟨hp, h1, h2, hv, hf, rfl⟩
      refine ⟨k, rfl, hp, UInt16.ofNat (leAt data 0 2), slice data 4 (leAt data 2 2),
        leAt data (4 + leAt data 2 2) 8, data.drop (4 + leAt data 2 2 + 8 + 32), ?_, ?_, ?_,
        (freshness_iff _ _).mp hf, rfl⟩
      · rw [slice_length _ _ _ (by omega)]
        exact leAt_lt data 2 2
      · exact leAt_lt data _ 8
      · have hlt : leAt data 0 2 < 65536 := leAt_lt data 0 2
        have hb : bodyOf (UInt16.ofNat (leAt data 0 2)) (slice data 4 (leAt data 2 2))
            (leAt data (4 + leAt data 2 2) 8) = data.take (4 + leAt data 2 2 + 8) := by
          unfold bodyOf
          have e1 : le 2 (UInt16.ofNat (leAt data 0 2)).toNat = slice data 0 2 := by
            rw [UInt16.toNat_ofNat', Nat.mod_eq_of_lt hlt]
            have := le_leNat (slice data 0 2)
            rwa [slice_length _ _ _ (by omega)] at this
          have e2 : le 2 (slice data 4 (leAt data 2 2)).length = slice data 2 2 := by
            rw [slice_length _ _ _ (by omega)]
            have := le_leNat (slice data 2 2)
            rwa [slice_length _ _ _ (by omega)] at this
          have e3 : le 8 (leAt data (4 + leAt data 2 2) 8) = slice data (4 + leAt data 2 2) 8 := by
            have := le_leNat (slice data (4 + leAt data 2 2) 8)
            rwa [slice_length _ _ _ (by omega)] at this
          rw [e1, e2, e3]
          have glue : ∀ (a b : Nat), slice data 0 a ++ slice data a b = slice data 0 (a + b) := by
            intro a b; simp [slice, List.take_add]
          rw [← List.append_assoc, ← List.append_assoc, glue, glue, glue]
          simp [slice]
        rw [hb]
        unfold verifyTag at hv
        split at hv
        · simp at hv
        · rename_i h3
          rw [Mac.ctEq_iff, estopTag_eq] at hv
          rw [← hv]
          have : slice data (4 + leAt data 2 2 + 8) 32 ++ data.drop (4 + leAt data 2 2 + 8 + 32) =
              data.drop (4 + leAt data 2 2 + 8) := by
            simp only [slice]
            rw [← List.drop_drop (i := 32), List.take_append_drop]
          rw [this, List.take_append_drop]
    · rintro ⟨k', hk, hp, host, reason, ts, rest, hr, hts, hd, htime, rfl⟩
      cases hk
      have hlenb : (bodyOf host reason ts).length = 4 + reason.length + 8 := by
        simp [bodyOf]; omega
      have hlen : data.length = 4 + reason.length + 8 + 32 + rest.length := by
        rw [hd]; simp only [List.length_append, hlenb, HMAC_length]; omega
      have f0 : leAt data 0 2 = host.toNat := by
        rw [hd]; simp only [bodyOf, List.append_assoc]
        rw [leAt_le_append]
        exact Nat.mod_eq_of_lt host.toNat_lt
      have f1 : leAt data 2 2 = reason.length := by
        rw [hd]; simp only [bodyOf, List.append_assoc]
        rw [leAt_append_right _ _ _ _ (by simp)]
        simp only [le_length, Nat.sub_self]
        rw [leAt_le_append]
        exact Nat.mod_eq_of_lt hr
      have f2 : slice data 4 reason.length = reason := by
        rw [hd]; simp only [bodyOf, List.append_assoc]
        rw [slice_append_right _ _ _ _ (by simp), slice_append_right _ _ _ _ (by simp)]
        simp only [le_length, show 4 - 2 - 2 = 0 by rfl]
        exact slice_append_left _ _ _ rfl
      have f3 : leAt data (4 + reason.length) 8 = ts := by
        rw [hd]; simp only [bodyOf, List.append_assoc]
        rw [leAt_append_right _ _ _ _ (by simp; omega), leAt_append_right _ _ _ _ (by simp; omega),
          leAt_append_right _ _ _ _ (by simp; omega)]
        simp only [le_length, show 4 + reason.length - 2 - 2 - reason.length = 0 by omega]
        rw [leAt_le_append]
        exact Nat.mod_eq_of_lt hts
      have hv : verifyTag k data (4 + reason.length + 8) = true := by
        unfold verifyTag
        rw [if_neg (by omega), Mac.ctEq_iff, estopTag_eq]
        rw [hd, List.take_left' hlenb, slice_append_right _ _ _ _ (by omega),
          hlenb, Nat.sub_self]
        exact slice_append_left _ _ _ (HMAC_length _ _)
      rw [f1, f2, f3, f0]
      refine ⟨hp, by omega, by omega, hv, (freshness_iff _ _).mpr htime, ?_⟩
      simp

/-- With no key configured, nothing received ever triggers the emergency stop. -/
theorem no_key_no_estop (lossy : Bytes → Bytes) (data : Bytes) (policy : Policy) (now : Nat) (token : Bool) :
    handleRemote lossy data policy none now = none ∧
    dispatch lossy data policy none now token = (none, false) := by
  constructor <;> rfl

/-- The receive path: a forged packet (no valid tag) neither triggers nor spends rate-limit budget,
and an authentic one, when the bucket has a token, does exactly what `handleRemote` does. -/
theorem dispatch_spec (lossy : Bytes → Bytes) (data : Bytes) (policy : Policy) (key : Option Bytes)
    (now : Nat) (token : Bool) :
    ((dispatch lossy data policy key now token).2 = true ↔ isAuthentic key data = true) ∧
    (dispatch lossy data policy key now true).1 = handleRemote lossy data policy key now ∧
    (dispatch lossy data policy key now false).1 = none := by
  have hna : isAuthentic key data = false → handleRemote lossy data policy key now = none := by
    intro h
    cases hr : handleRemote lossy data policy key now with
    | none => rfl
    | some t =>
      exfalso
      cases key with
      | none => simp [handleRemote] at hr
      | some k =>
        rw [handleRemote_cases] at hr
        obtain ⟨_, h1, h2, hv, _⟩ := hr
        unfold isAuthentic bodyLen at h
        simp only [show ¬ data.length < 12 by omega, show ¬ data.length < 4 + leAt data 2 2 + 8 by omega,
          if_false] at h
        rw [hv] at h
        simp at h
  unfold dispatch
  cases h : isAuthentic key data with
  | false =>
    have := hna h
    simp [this]
  | true =>
    refine ⟨?_, by simp, by simp⟩
    cases token <;> simp

/-- C12, acceptance: what a key holder encodes (with any reason) is accepted by every receiver with
the same key, a permitting policy and a clock within five seconds, whatever bytes follow; the reason
reported is the first 200 bytes of the sender's. -/
theorem genuine_estop_accepted (lossy : Bytes → Bytes) (host : UInt16) (reason k rest : Bytes)
    (ts : UInt64) (now : Nat) (h1 : ts.toNat ≤ now + 5000000000) (h2 : now ≤ ts.toNat + 5000000000) :
    handleRemote lossy (encodeEstop host reason (some k) ts ++ rest) .warn (some k) now =
      some { host := host, reason := lossy (reason.take 200) } := by
  rw [remote_estop_iff]
  refine ⟨k, rfl, rfl, host, reason.take 200, ts.toNat, rest, ?_, ts.toNat_lt, ?_, Or.inl ⟨h1, h2⟩, rfl⟩
  · rw [List.length_take]; omega
  · unfold encodeEstop bodyOf
    simp only [estopTag_eq]
    have e : reason.take (min reason.length 200) = reason.take 200 := by
      rw [← List.take_take, List.take_of_length_le (List.length_take_le' _ _)]
    rw [e, List.length_take, Nat.min_comm 200]
    simp [List.append_assoc]

/-- The unkeyed encoder produces a packet no keyed receiver accepts unless its trailing bytes happen
to be a valid tag: without a key the packet has no tag at all, so it is refused. -/
theorem unkeyed_estop_refused (lossy : Bytes → Bytes) (host : UInt16) (reason : Bytes)
    (ts : UInt64) (policy : Policy) (key : Option Bytes) (now : Nat) :
    handleRemote lossy (encodeEstop host reason none ts) policy key now = none := by
  cases hr : handleRemote lossy (encodeEstop host reason none ts) policy key now with
  | none => rfl
  | some t =>
    exfalso
    cases key with
    | none => simp [handleRemote] at hr
    | some k =>
      rw [handleRemote_cases] at hr
      obtain ⟨_, _, _, hv, _⟩ := hr
      have f1 : leAt (encodeEstop host reason none ts) 2 2 = min reason.length 200 := by
        unfold encodeEstop
        simp only
        rw [leAt_append_right _ _ _ _ (by simp)]
        simp only [le_length, Nat.sub_self]
        rw [leAt_le_append]
        exact Nat.mod_eq_of_lt (by omega)
      have hlen : (encodeEstop host reason none ts).length = 12 + min reason.length 200 := by
        simp [encodeEstop]; omega
      unfold verifyTag at hv
      rw [f1, if_pos (by omega)] at hv
      simp at hv

/-- End to end: the framed e-stop is handed, payload intact, to the e-stop handler of any receiver
that classifies the topic hash as a system topic, whatever it received before, and triggers there. -/
theorem framed_estop_triggers (utf8 : Bytes → Bool) (isSystem : UInt32 → Bool) (lossy : Bytes → Bytes)
    (rxNow : Nat) (rx : Receiver) (hash : UInt32) (hsys : isSystem hash = true) (peer host : UInt16)
    (pseq sseq : UInt32) (reason k : Bytes) (ts : UInt64) (now : Nat)
    (h1 : ts.toNat ≤ now + 5000000000) (h2 : now ≤ ts.toNat + 5000000000) :
    ∃ pkt, frameEstop hash peer pseq sseq (encodeEstop host reason (some k) ts) = some pkt ∧
      ∃ m, (receive utf8 isSystem rxNow rx pkt).2 = [m] ∧ m.topicHash = hash ∧
        (dispatch lossy m.payload .warn (some k) now true).1 =
          some { host := host, reason := lossy (reason.take 200) } := by
  have hlen : (encodeEstop host reason (some k) ts).length = 44 + min reason.length 200 := by
    simp [encodeEstop, estopTag_eq, HMAC_length]; omega
  have hacc := genuine_estop_accepted lossy host reason k [] ts now h1 h2
  rw [List.append_nil] at hacc
  generalize encodeEstop host reason (some k) ts = pl at hlen hacc ⊢
  unfold frameEstop
  rw [if_neg (by simp only [PH, MH]; omega)]
  refine ⟨_, rfl, ?_⟩
  set mh : MessageHeader := { topicHash := hash, payloadLen := UInt32.ofNat pl.length, timestampNs := 0, sequence := sseq, priority := .immediate, reliability := .latched, encoding := .bincode, sourceHost := UInt8.ofNat (peer.toNat % 256) } with hmh
  have hdec : decodePacket ((PacketHeader.new 0 peer pseq).encode ++ (mh.encode ++ pl)) =
      some (PacketHeader.new 0 peer pseq, [{ topicHash := hash, payload := pl, timestampNs := 0, sequence := sseq, priority := .immediate, reliability := .latched, encoding := .bincode }]) := by
    unfold decodePacket
    rw [PacketHeader.decode_encode _ _ rfl rfl]
    have a : (hasFlag (PacketHeader.new 0 peer pseq).flags F_HEARTBEAT ||
        hasFlag (PacketHeader.new 0 peer pseq).flags F_ACK) = false := by
      simp only [PacketHeader.new]; decide
    simp only [a, Bool.false_eq_true, if_false]
    have hl : ((PacketHeader.new 0 peer pseq).encode ++ (mh.encode ++ pl)).length = 36 + pl.length := by
      simp; omega
    have hp : mh.payloadLen.toNat = pl.length := by
      simp only [hmh, UInt32.toNat_ofNat']
      exact Nat.mod_eq_of_lt (by omega)
    rw [decodeLoop, dif_pos (by rw [hl]; simp only [PH, MH]; omega)]
    have hd : ((PacketHeader.new 0 peer pseq).encode ++ (mh.encode ++ pl)).drop PH = mh.encode ++ pl := by
      rw [List.drop_append]; simp [PH]
    rw [hd, MessageHeader.decode_encode]
    simp only [hp]
    rw [if_neg (by rw [hl]; simp only [PH, MH]; omega)]
    rw [decodeLoop, dif_neg (by rw [hl]; simp only [PH, MH]; omega)]
    have hs : slice ((PacketHeader.new 0 peer pseq).encode ++ (mh.encode ++ pl)) (PH + MH) pl.length = pl := by
      rw [slice_append_right _ _ _ _ (by simp [PH, MH]), slice_append_right _ _ _ _ (by simp [PH, MH])]
      have : PH + MH - (PacketHeader.new 0 peer pseq).encode.length - mh.encode.length = 0 := by simp [PH, MH]
      rw [this]
      exact slice_zero_all _ _ rfl
    simp only [hs]
    rfl
  have hcls : Discovery.classify utf8 ((PacketHeader.new 0 peer pseq).encode ++ (mh.encode ++ pl)) =
      .data [{ topicHash := hash, payload := pl, timestampNs := 0, sequence := sseq, priority := .immediate, reliability := .latched, encoding := .bincode }] := by
    unfold Discovery.classify
    rw [hdec, Discovery.decodeAnnouncement_none_of_bit7 _ _ _ (by simp only [PacketHeader.new]; decide),
      PacketHeader.decode_encode _ _ rfl rfl]
    have a : hasFlag (PacketHeader.new 0 peer pseq).flags F_HEARTBEAT = false := by
      simp only [PacketHeader.new]; decide
    have b : hasFlag (PacketHeader.new 0 peer pseq).flags F_ACK = false := by
      simp only [PacketHeader.new]; decide
    have c : hasFlag (PacketHeader.new 0 peer pseq).flags F_FRAGMENT = false := by
      simp only [PacketHeader.new]; decide
    simp [a, b, c]
  refine ⟨{ topicHash := hash, payload := pl, timestampNs := 0, sequence := sseq, priority := .immediate, reliability := .latched, encoding := .bincode }, ?_, rfl, ?_⟩
  · unfold receive
    rw [hcls]
    simp [Reliability.dedupMessages, hsys]
  · rw [(dispatch_spec lossy pl .warn (some k) now true).2.1, hacc]

/-- Non-vacuity of the acceptance hypotheses. -/
example : (1800000000000000000 : UInt64).toNat ≤ 1800000003000000000 + 5000000000 ∧
    1800000003000000000 ≤ (1800000000000000000 : UInt64).toNat + 5000000000 := by decide

/-! ### Broadcaster -/

theorem swapRemove_perm {α} (l : List α) (i : Nat) (x : α) (h : l[i]? = some x) :
    l.Perm (x :: swapRemove l i) := by
  obtain ⟨hi, hx⟩ := List.getElem?_eq_some_iff.mp h
  cases hl : l.getLast? with
  | none => rw [List.getLast?_eq_none_iff] at hl; subst hl; simp at hi
  | some z =>
    obtain ⟨l', rfl⟩ : ∃ l', l = l' ++ [z] := by
      have hne : l ≠ [] := by rintro rfl; simp at hi
      refine ⟨l.dropLast, ?_⟩
      have := List.dropLast_append_getLast? z hl
      exact this.symm
    unfold swapRemove
    rw [hl]
    simp only [List.length_append, List.length_singleton] at hi
    by_cases he : i = l'.length
    · subst he
      simp at hx
      subst hx
      simp only [List.set_append, List.dropLast_concat, Nat.lt_irrefl, if_false, Nat.sub_self, List.set_cons_zero]
      exact List.perm_append_comm.trans (by simp)
    · have hlt : i < l'.length := by omega
      rw [List.getElem_append_left hlt] at hx
      simp only
      rw [List.set_append_left _ _ hlt, List.dropLast_concat]
      have h1 : (l' ++ [z]).Perm (z :: l') := List.perm_append_comm
      have h2 : l'.Perm (x :: l'.eraseIdx i) := by
        have := (List.getElem_cons_eraseIdx_perm hlt).symm
        rwa [hx] at this
      have h3 : (l'.set i z).Perm (z :: l'.eraseIdx i) := by
        have hs : i < (l'.set i z).length := by simpa using hlt
        have := (List.getElem_cons_eraseIdx_perm hs).symm
        simpa [List.eraseIdx_set_eq] using this
      exact h1.trans ((List.Perm.cons z h2).trans ((List.Perm.swap x z _).trans (List.Perm.cons x h3.symm)))

/-- The retry loop sends every due entry (once) and keeps exactly the others. -/
theorem tickLoop_spec (now : Nat) (oks : List Bool) (l : List Retry) (i : Nat) :
    (l.filter fun r => ¬ r.due ≤ now).Perm ((tickLoop now oks l i).1.filter fun r => ¬ r.due ≤ now) ∧
    (∀ p, (tickLoop now oks l i).2.countP (fun t => t.payload = p) + (tickLoop now oks l i).1.countP (fun r => r.payload = p) =
      l.countP (fun r => r.payload = p)) ∧
    ((∀ j < i, ∀ r, l[j]? = some r → now < r.due) → ∀ r ∈ (tickLoop now oks l i).1, now < r.due) := by
  fun_induction tickLoop now oks l i with
  | case1 l i h =>
    refine ⟨List.Perm.refl _, by simp, ?_⟩
    intro hj r hr
    simp only at hr
    obtain ⟨j, hjl, rfl⟩ := List.getElem_of_mem hr
    have : l.length ≤ i := by simpa using h
    exact hj j (by omega) _ (by simp [hjl])
  | case2 l i r h hdue l' out heq ih =>
    rw [heq] at ih
    simp only at ih ⊢
    have hperm := swapRemove_perm l i r h
    refine ⟨?_, ?_, ?_⟩
    · refine (hperm.filter _).trans ?_
      rw [List.filter_cons_of_neg (by simpa using hdue)]
      exact ih.1
    · intro p
      have := ih.2.1 p
      rw [hperm.countP_eq, List.countP_cons, List.countP_cons]
      simp only [transmit]
      by_cases hp : r.payload = p <;> simp [hp] <;> omega
    · intro hj
      apply ih.2.2
      intro j hji r' hr'
      apply hj j hji r'
      unfold swapRemove at hr'
      have hi := (List.getElem?_eq_some_iff.mp h).1
      cases hl : l.getLast? with
      | none => rw [List.getLast?_eq_none_iff] at hl; subst hl; simp at hi
      | some z =>
        rw [hl] at hr'
        simp only [List.getElem?_dropLast, List.length_set] at hr'
        split at hr'
        · rwa [List.getElem?_set_ne (by omega)] at hr'
        · simp at hr'
  | case3 l i r h hdue ih =>
    refine ⟨ih.1, ih.2.1, ?_⟩
    intro hj
    apply ih.2.2
    intro j hji r' hr'
    by_cases he : j = i
    · subst he
      rw [h] at hr'; cases hr'
      omega
    · exact hj j (by omega) r' hr'

/-- Everything transmitted in a history. -/
def sentAll (out : List (Event × List Transmission × Bool)) : List Transmission := out.flatMap (·.2.1)

/-- Number of times the application asked for `p` to be broadcast. -/
def broadcasts (p : Bytes) (es : List Event) : Nat :=
  es.countP fun e => match e with
    | .broadcast _ q _ => q = p
    | .tick _ _ => false

theorem shouldWarn_pending (b : Broadcaster) (out : List Transmission) :
    (shouldWarn b out).1.pending = b.pending := by
  unfold shouldWarn; simp only; split <;> rfl

theorem range3 (p : Bytes) (now : Nat) : ((List.range 3).map fun i =>
    ({ payload := p, remaining := 3 - i, due := now + 10000000 * (i + 1) } : Retry)) =
    [⟨p, 3, now + 10000000⟩, ⟨p, 2, now + 20000000⟩, ⟨p, 1, now + 30000000⟩] := by
  rfl

/-- Conservation: at every point of every history, transmissions made plus retries still pending is
four per broadcast request. -/
theorem four_per_broadcast (es : List Event) (p : Bytes) :
    ((sentAll (run ⟨[], false⟩ es).2).countP fun t => t.payload = p) +
      ((run ⟨[], false⟩ es).1.pending.countP fun r => r.payload = p) = 4 * broadcasts p es := by
  have : ∀ (es : List Event) (b : Broadcaster),
      ((sentAll (run b es).2).countP fun t => t.payload = p) +
      ((run b es).1.pending.countP fun r => r.payload = p) =
      (b.pending.countP fun r => r.payload = p) + 4 * broadcasts p es := by
    intro es
    induction es with
    | nil => intro b; simp [run, sentAll, broadcasts]
    | cons e es ih =>
      intro b
      simp only [run, sentAll, List.flatMap_cons, List.countP_append]
      have h := ih (step b e).1
      simp only [sentAll] at h
      cases e with
      | broadcast now q oks =>
        have hp : (step b (.broadcast now q oks)).1.pending =
            b.pending ++ [⟨q, 3, now + 10000000⟩, ⟨q, 2, now + 20000000⟩, ⟨q, 1, now + 30000000⟩] := by
          simp only [step, shouldWarn_pending, broadcast, range3]
        have ho : (step b (.broadcast now q oks)).2.1 = [transmit q oks] := rfl
        rw [hp] at h
        rw [ho]
        simp only [broadcasts, List.countP_cons, List.countP_append, List.countP_nil, transmit] at h ⊢
        split <;> rename_i hq <;> simp [hq] at h ⊢ <;> omega
      | tick now oks =>
        have hp : (step b (.tick now oks)).1.pending = (tickLoop now oks b.pending 0).1 := by
          simp only [step, shouldWarn_pending, tick]
        have ho : (step b (.tick now oks)).2.1 = (tickLoop now oks b.pending 0).2 := rfl
        rw [hp] at h
        rw [ho]
        have := (tickLoop_spec now oks b.pending 0).2.1 p
        simp only [broadcasts, List.countP_cons] at h ⊢
        simp
        omega
  simpa using this es ⟨[], false⟩

/-- Time stamp of an event. -/
def Event.time : Event → Nat
  | .broadcast now _ _ => now
  | .tick now _ => now

theorem pending_due (T : Nat) (es : List Event) : ∀ b : Broadcaster,
    (∀ r ∈ b.pending, r.due ≤ T + 30000000) → (∀ e ∈ es, e.time ≤ T) →
    ∀ r ∈ (run b es).1.pending, r.due ≤ T + 30000000 := by
  induction es with
  | nil => intro b hb _; simpa [run] using hb
  | cons e es ih =>
    intro b hb he
    simp only [run]
    apply ih _ _ (fun x hx => he x (by simp [hx]))
    have het := he e (by simp)
    cases e with
    | broadcast now q oks =>
      simp only [Event.time] at het
      intro r hr
      simp only [step, shouldWarn_pending, broadcast, range3, List.mem_append] at hr
      rcases hr with hr | hr
      · exact hb r hr
      · simp only [List.mem_cons, List.not_mem_nil, or_false] at hr
        rcases hr with rfl | rfl | rfl <;> simp only <;> omega
    | tick now oks =>
      intro r hr
      simp only [step, shouldWarn_pending, tick] at hr
      by_contra hc
      -- a member of the result is a member of the input
      have h1 := (tickLoop_spec now oks b.pending 0).1
      have h2 := (tickLoop_spec now oks b.pending 0).2.2 (by simp) r hr
      have : r ∈ (tickLoop now oks b.pending 0).1.filter fun r => ¬ r.due ≤ now := by
        rw [List.mem_filter]; exact ⟨hr, by simpa using h2⟩
      have := (h1.mem_iff (a := r)).mpr this
      rw [List.mem_filter] at this
      exact hc (hb r this.1)

/-- C12, redundancy: if every broadcast request was made by time `T` and the timer ticks at some
time from `T` + 30 ms on, each request has by then been transmitted exactly four times: once
immediately and three retries. -/
theorem sent_four_times (es : List Event) (T now : Nat) (oks : List Bool) (p : Bytes)
    (hT : ∀ e ∈ es, e.time ≤ T) (hnow : T + 30000000 ≤ now) :
    ((sentAll (run ⟨[], false⟩ (es ++ [.tick now oks])).2).countP fun t => t.payload = p) =
      4 * broadcasts p es := by
  have h1 := four_per_broadcast (es ++ [.tick now oks]) p
  have hrun : (run ⟨[], false⟩ (es ++ [.tick now oks])).1.pending = [] := by
    have happ : ∀ (xs : List Event) (b : Broadcaster),
        (run b (xs ++ [.tick now oks])).1.pending = (tickLoop now oks (run b xs).1.pending 0).1 := by
      intro xs
      induction xs with
      | nil => intro b; simp [run, step, shouldWarn_pending, tick]
      | cons x xs ih => intro b; simp only [List.cons_append, run]; exact ih _
    rw [happ]
    have hd := pending_due T es ⟨[], false⟩ (by simp) hT
    have h2 := (tickLoop_spec now oks (run ⟨[], false⟩ es).1.pending 0)
    have h3 := h2.2.2 (by simp)
    rw [List.eq_nil_iff_forall_not_mem]
    intro r hr
    have h4 := h3 r hr
    have : r ∈ (tickLoop now oks (run ⟨[], false⟩ es).1.pending 0).1.filter fun r => ¬ r.due ≤ now := by
      rw [List.mem_filter]; exact ⟨hr, by simpa using h4⟩
    have := (h2.1.mem_iff (a := r)).mpr this
    rw [List.mem_filter] at this
    have := hd r this.1
    omega
  rw [hrun] at h1
  have hb : broadcasts p (es ++ [.tick now oks]) = broadcasts p es := by
    simp [broadcasts]
  rw [hb] at h1
  simpa using h1

/-- Never more than four transmissions per request, at any point. -/
theorem at_most_four (es : List Event) (p : Bytes) :
    ((sentAll (run ⟨[], false⟩ es).2).countP fun t => t.payload = p) ≤ 4 * broadcasts p es := by
  have := four_per_broadcast es p
  omega

example : (sentAll (run ⟨[], false⟩ [.broadcast 0 [1] [true], .tick 12000000 [true, false],
    .tick 40000000 [true]]).2).map (·.payload) = [[1], [1], [1], [1]] := by decide +kernel

/-- Between two broadcasts the total-failure warning is printed at most once: after a warning, none
of the following ticks warns again. -/
theorem warn_once (ticks : List (Nat × List Bool)) (b : Broadcaster) (hb : b.failureReported = true) :
    ∀ o ∈ (run b (ticks.map fun t => .tick t.1 t.2)).2, o.2.2 = false := by
  induction ticks generalizing b with
  | nil => simp [run]
  | cons t ticks ih =>
    have hs : shouldWarn { b with pending := (tickLoop t.1 t.2 b.pending 0).1 } (tickLoop t.1 t.2 b.pending 0).2 =
        ({ b with pending := (tickLoop t.1 t.2 b.pending 0).1 }, false) := by
      unfold shouldWarn; simp [hb]
    simp only [List.map_cons, run, List.mem_cons, forall_eq_or_imp]
    constructor
    · simp only [step, tick, hs]
    · apply ih
      simp only [step, tick, hs]
      exact hb

end Horus.Estop
