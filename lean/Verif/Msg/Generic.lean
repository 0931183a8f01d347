import Verif.Msg.Text
import Mathlib.Data.List.Basic
import Mathlib.Tactic.Common
/-
The generic message and some small messages of the health system. Source: /repo/horus_types/src/generic.rs:60-170 and
333-463, /repo/horus_types/src/diagnostics.rs:441-467 and 577-686, /repo/horus_types/src/time.rs:198-204.
A byte is a natural number below 256.
-/
namespace Horus.Generic

/-- generic.rs:62-78. The arrays always have 256, 3840 and 256 bytes. -/
structure Msg where
  inline : List Nat
  inlineLen : Nat
  overflow : List Nat
  overflowLen : Nat
  extra : List Nat
  extraLen : Nat
deriving DecidableEq

/-- `buf[..d.len()].copy_from_slice(d)`. -/
def fill (n : Nat) (d : List Nat) : List Nat := d ++ List.replicate (n - d.length) 0

/-- generic.rs:95-132 `new`; `none` is the error. -/
def new (d : List Nat) : Option Msg :=
  if d.length > 4096 then none
  else if d.length ≤ 256 then some { inline := fill 256 d, inlineLen := d.length, overflow := List.replicate 3840 0, overflowLen := 0, extra := List.replicate 256 0, extraLen := 0 }
  else some { inline := d.take 256, inlineLen := 256, overflow := fill 3840 (d.drop 256), overflowLen := d.length - 256, extra := List.replicate 256 0, extraLen := 0 }

/-- generic.rs:137-155 `with_metadata`; the metadata are the bytes of a text. -/
def withMeta (d m : List Nat) : Option Msg :=
  match new d with
  | none => none
  | some g => if m.length > 255 then none else some { g with extra := fill 256 m, extraLen := m.length }

/-- generic.rs:160-171 `data`; `none` is the panic of a slice beyond its array. -/
def data (g : Msg) : Option (List Nat) :=
  if g.inlineLen > g.inline.length ∨ g.overflowLen > g.overflow.length then none
  else some (g.inline.take g.inlineLen ++ g.overflow.take g.overflowLen)

/-- generic.rs:174-181 `metadata`: outer `none` is the panic, inner is `None`. Whether the bytes are text is Text.strict. -/
def metadata (g : Msg) : Option (Option (List Nat)) :=
  if g.extraLen = 0 then some none
  else if g.extraLen > g.extra.length then none
  else some (Text.strict (g.extra.take g.extraLen))

/-- An entry of the map of a self-describing format. -/
inductive Entry
  | inlineData (d : List Nat)
  | inlineLen (n : Nat)
  | overflowData (d : List Nat)
  | overflowLen (n : Nat)
  | metadata (d : List Nat)
  | other
deriving DecidableEq

/-- What a format gives the decoder: a map with names (JSON, MessagePack with names) or a sequence without (bincode,
compact MessagePack, what `rmp_serde::to_vec` writes). -/
inductive Wire
  | map (es : List Entry)
  | seq (es : List Entry)

/-- generic.rs:334-357 `serialize`: the five fields; a slice beyond its array panics (`none`). -/
def fields (g : Msg) : Option (List Entry) :=
  if g.inlineLen > g.inline.length ∨ g.overflowLen > g.overflow.length ∨ g.extraLen > g.extra.length then none
  else some [.inlineData (g.inline.take g.inlineLen), .inlineLen g.inlineLen, .overflowData (g.overflow.take g.overflowLen), .overflowLen g.overflowLen,
    .metadata (g.extra.take g.extraLen)]

/-- generic.rs:381-410: the last entry of each name. -/
def lastOf {α : Type} (f : Entry → Option α) (es : List Entry) : Option α := (es.filterMap f).getLast?

def asInline : Entry → Option (List Nat)
  | .inlineData d => some d
  | _ => none
def asInlineLen : Entry → Option Nat
  | .inlineLen n => some n
  | _ => none
def asOverflow : Entry → Option (List Nat)
  | .overflowData d => some d
  | _ => none
def asOverflowLen : Entry → Option Nat
  | .overflowLen n => some n
  | _ => none
def asMeta : Entry → Option (List Nat)
  | .metadata d => some d
  | _ => none

/-- generic.rs:421-452. -/
def build (i : List Nat) (il : Nat) (o : List Nat) (ol : Nat) (m : List Nat) : Msg :=
  { inline := fill 256 (i.take 256), inlineLen := min il (min i.length 256), overflow := fill 3840 (o.take 3840), overflowLen := min ol (min o.length 3840),
    extra := fill 256 (m.take 256), extraLen := min (m.length % 65536) (min m.length 256) }

/-- generic.rs:361-463 `deserialize`: the visitor has only `visit_map`, a sequence is an error. -/
def decode : Wire → Option Msg
  | .seq _ => none
  | .map es =>
    match lastOf asInline es, lastOf asInlineLen es, lastOf asOverflow es, lastOf asOverflowLen es, lastOf asMeta es with
    | some i, some il, some o, some ol, some m => some (build i il o ol m)
    | _, _, _, _, _ => none

theorem take_fill (n : Nat) (d : List Nat) : (fill n d).take d.length = d := by unfold fill; rw [List.take_left]

theorem fill_length (n : Nat) (d : List Nat) (h : d.length ≤ n) : (fill n d).length = n := by
  unfold fill
  rw [List.length_append, List.length_replicate]
  omega

/-- The lengths are within the arrays. -/
def Sound (g : Msg) : Prop :=
  g.inline.length = 256 ∧ g.overflow.length = 3840 ∧ g.extra.length = 256 ∧ g.inlineLen ≤ 256 ∧ g.overflowLen ≤ 3840 ∧ g.extraLen ≤ 256

theorem new_cases {d : List Nat} {g : Msg} (h : new d = some g) : Sound g ∧ data g = some d ∧ g.extraLen = 0 ∧ d.length ≤ 4096 := by
  unfold new at h
  by_cases h1 : d.length > 4096
  · rw [if_pos h1] at h; cases h
  · rw [if_neg h1] at h
    by_cases h2 : d.length ≤ 256
    · rw [if_pos h2] at h
      cases h
      refine ⟨⟨fill_length _ _ h2, List.length_replicate, List.length_replicate, h2, Nat.zero_le _, Nat.zero_le _⟩, ?_, rfl, by omega⟩
      unfold data
      dsimp only
      rw [if_neg (by rw [fill_length _ _ h2]; omega), take_fill, List.take_zero, List.append_nil]
    · rw [if_neg h2] at h
      cases h
      have hl : (d.drop 256).length = d.length - 256 := List.length_drop
      have ht : (d.take 256).length = 256 := by rw [List.length_take]; omega
      refine ⟨⟨ht, fill_length _ _ (by omega), List.length_replicate, Nat.le_refl _, by dsimp only; omega, Nat.zero_le _⟩, ?_, rfl, by omega⟩
      unfold data
      dsimp only
      rw [if_neg (by rw [fill_length _ _ (by omega), ht]; omega), ← hl, take_fill, List.take_of_length_le (by omega), List.take_append_drop]

/-- **Every payload of at most 4096 bytes comes back**, and a longer one is refused. -/
theorem payload_round_trip (d : List Nat) : (d.length ≤ 4096 → ∃ g, new d = some g ∧ data g = some d) ∧ (4096 < d.length → new d = none) := by
  refine ⟨fun h => ?_, fun h => ?_⟩
  · cases hn : new d with
    | none =>
      exfalso
      unfold new at hn
      rw [if_neg (by omega)] at hn
      split_ifs at hn
    | some g => exact ⟨g, rfl, (new_cases hn).2.1⟩
  · unfold new
    rw [if_pos h]

theorem withMeta_cases {d m : List Nat} {g : Msg} (h : withMeta d m = some g) : Sound g ∧ data g = some d ∧ g.extra.take g.extraLen = m ∧ g.extraLen = m.length := by
  unfold withMeta at h
  cases hn : new d with
  | none => rw [hn] at h; cases h
  | some g0 =>
    rw [hn] at h
    obtain ⟨⟨h1, h2, h3, h4, h5, h6⟩, hd, _⟩ := new_cases hn
    by_cases hm : m.length > 255
    · simp only [if_pos hm] at h
      cases h
    · simp only [if_neg hm] at h
      cases h
      exact ⟨⟨h1, h2, fill_length _ _ (by omega), h4, h5, by dsimp only; omega⟩, hd, take_fill _ _, rfl⟩

/-- **Metadata come back with the payload**: any text of one to 255 bytes; the empty text comes back as none, a longer one
is refused. -/
theorem metadata_round_trip (d : List Nat) (s : List Char) (hd : d.length ≤ 4096) :
    ((Text.bytes s).length ≤ 255 → ∃ g, withMeta d (Text.bytes s) = some g ∧ data g = some d ∧ metadata g = some (if s = [] then none else some (Text.cps s))) ∧
    (255 < (Text.bytes s).length → withMeta d (Text.bytes s) = none) := by
  obtain ⟨g0, hg0, _⟩ := (payload_round_trip d).1 hd
  refine ⟨fun h => ?_, fun h => ?_⟩
  · have hw : withMeta d (Text.bytes s) = some { g0 with extra := fill 256 (Text.bytes s), extraLen := (Text.bytes s).length } := by
      unfold withMeta
      rw [hg0]
      dsimp only
      rw [if_neg (by omega)]
    obtain ⟨hS, h1, h2, h3⟩ := withMeta_cases hw
    refine ⟨_, hw, h1, ?_⟩
    unfold metadata
    cases s with
    | nil => rw [if_pos (show (Text.bytes []).length = 0 from rfl), if_pos rfl]
    | cons c s =>
      have hp : 0 < (Text.bytes (c :: s)).length := Nat.lt_of_lt_of_le (by simp) (Text.length_le_bytes (c :: s))
      rw [if_neg (by rw [h3]; omega), if_neg (by have := hS.2.2.1; have := hS.2.2.2.2.2; omega), h2, if_neg (by simp), Text.strict]
      obtain ⟨m, _, hm⟩ := Text.strictF_bytes (c :: s) [] (Text.bytes (c :: s)).length (by simpa using Text.length_le_bytes (c :: s))
      rw [List.append_nil, Text.strictF_nil] at hm
      rw [hm]
      simp
  · unfold withMeta
    rw [hg0]
    dsimp only
    rw [if_pos h]

/-- **No map makes a message that panics.** Whatever the entries (lengths that do not match the data, data too long, doubled
or unknown names), the decoder gives an error or a message whose payload and metadata can be read. -/
theorem decoded_sound (w : Wire) (g : Msg) (h : decode w = some g) : Sound g ∧ (data g).isSome ∧ (metadata g).isSome := by
  have hS : Sound g := by
    cases w with
    | seq es => cases h
    | map es =>
      cases h1 : lastOf asInline es <;> cases h2 : lastOf asInlineLen es <;> cases h3 : lastOf asOverflow es <;> cases h4 : lastOf asOverflowLen es <;>
        cases h5 : lastOf asMeta es <;> simp only [decode, h1, h2, h3, h4, h5] at h <;> try cases h
      · unfold build
        refine ⟨fill_length _ _ ?_, fill_length _ _ ?_, fill_length _ _ ?_, ?_, ?_, ?_⟩
        · rw [List.length_take]; omega
        · rw [List.length_take]; omega
        · rw [List.length_take]; omega
        · dsimp only; omega
        · dsimp only; omega
        · dsimp only; omega
  refine ⟨hS, ?_, ?_⟩
  · unfold data
    rw [if_neg (by have := hS.1; have := hS.2.1; have := hS.2.2.2.1; have := hS.2.2.2.2.1; omega)]
    rfl
  · unfold metadata
    split_ifs with h1 h2
    · rfl
    · have := hS.2.2.1; have := hS.2.2.2.2.2; omega
    · rfl

theorem lastOf_none {α : Type} (f : Entry → Option α) (es : List Entry) (e : Entry) (h : f e = none) : lastOf f (es ++ [e]) = lastOf f es := by
  unfold lastOf
  rw [List.filterMap_append]
  simp [h]

/-- **A message survives a format with names**, with further unknown fields in any places. -/
theorem map_round_trip (g : Msg) (hS : Sound g) (es : List Entry) (hf : fields g = some (es.filter (· ≠ .other))) :
    ∃ g', decode (.map es) = some g' ∧ data g' = data g ∧ metadata g' = metadata g := by
  obtain ⟨h1, h2, h3, h4, h5, h6⟩ := hS
  have hfm : ∀ {α : Type} (f : Entry → Option α), f .other = none → lastOf f es = lastOf f (es.filter (· ≠ .other)) := by
    intro α f hfo
    unfold lastOf
    congr 1
    clear hf
    induction es with
    | nil => rfl
    | cons e es ih =>
      by_cases he : e = .other
      · subst he
        rw [List.filterMap_cons, hfo, ih]
        rfl
      · rw [List.filter_cons_of_pos (by simpa using he), List.filterMap_cons, List.filterMap_cons, ih]
  have hfs : es.filter (· ≠ .other) = [.inlineData (g.inline.take g.inlineLen), .inlineLen g.inlineLen, .overflowData (g.overflow.take g.overflowLen),
      .overflowLen g.overflowLen, .metadata (g.extra.take g.extraLen)] := by
    unfold fields at hf
    rw [if_neg (by omega)] at hf
    exact (Option.some.inj hf).symm
  have li : (g.inline.take g.inlineLen).length = g.inlineLen := by rw [List.length_take]; omega
  have lo : (g.overflow.take g.overflowLen).length = g.overflowLen := by rw [List.length_take]; omega
  have lm : (g.extra.take g.extraLen).length = g.extraLen := by rw [List.length_take]; omega
  refine ⟨build (g.inline.take g.inlineLen) g.inlineLen (g.overflow.take g.overflowLen) g.overflowLen (g.extra.take g.extraLen), ?_, ?_, ?_⟩
  · unfold decode
    dsimp only
    rw [hfm asInline rfl, hfm asInlineLen rfl, hfm asOverflow rfl, hfm asOverflowLen rfl, hfm asMeta rfl, hfs]
    rfl
  · unfold data build
    dsimp only
    rw [fill_length _ _ (by rw [List.length_take]; omega), fill_length _ _ (by rw [List.length_take]; omega), if_neg (by omega), if_neg (by omega)]
    congr 2
    · rw [List.take_of_length_le (i := 256) (by omega), li, show min g.inlineLen (min g.inlineLen 256) = (g.inline.take g.inlineLen).length by omega, take_fill]
    · rw [List.take_of_length_le (i := 3840) (by omega), lo, show min g.overflowLen (min g.overflowLen 3840) = (g.overflow.take g.overflowLen).length by omega, take_fill]
  · unfold metadata build
    dsimp only
    rw [fill_length _ _ (by rw [List.length_take]; omega), lm, show min (g.extraLen % 65536) (min g.extraLen 256) = g.extraLen by omega]
    by_cases h0 : g.extraLen = 0
    · rw [if_pos h0, if_pos h0]
    · rw [if_neg h0, if_neg h0, if_neg (by omega), if_neg (by omega), List.take_of_length_le (i := 256) (by omega)]
      congr 2
      conv_lhs => rw [show g.extraLen = (g.extra.take g.extraLen).length from lm.symm]
      rw [lm, show (fill 256 (g.extra.take g.extraLen)).take g.extraLen = g.extra.take g.extraLen by
        conv_lhs => rw [show List.take g.extraLen (fill 256 (List.take g.extraLen g.extra)) = List.take (g.extra.take g.extraLen).length (fill 256 (List.take g.extraLen g.extra)) by rw [lm]]
        exact take_fill _ _]

/-- **Formats without names never decode**: a message written with bincode or compact MessagePack cannot be read back. -/
theorem seq_never_decodes (g : Msg) (es : List Entry) (_h : fields g = some es) : decode (.seq es) = none := rfl

/-- **Raw bytes may panic.** The type is plain memory, so what a topic delivers are any bytes: a length field above the
array makes `data` panic. -/
theorem raw_bytes_panic (g : Msg) (h1 : g.inline.length = 256) (h : 256 < g.inlineLen) : data g = none := by
  unfold data
  rw [if_pos (.inl (by omega))]

example : ∃ g, withMeta (List.replicate 3000 5) (Text.bytes "imu".toList) = some g ∧ Sound g := by
  obtain ⟨g, hg, _⟩ := (metadata_round_trip (List.replicate 3000 5) "imu".toList (by rw [List.length_replicate]; omega)).1 (by decide)
  exact ⟨g, hg, (withMeta_cases hg).1⟩

end Horus.Generic

namespace Horus.Health

/-! ## Small messages of the health system -/

/-- diagnostics.rs:415-427: the values of a report; `vals` is the array of 16. -/
structure Report (α : Type) where
  vals : List α
  count : Nat

/-- diagnostics.rs:459-467 `add_value`. -/
def Report.add {α : Type} (r : Report α) (v : α) : Report α × Bool :=
  if r.count ≥ 16 then (r, false) else ({ vals := r.vals.set r.count v, count := r.count + 1 }, true)

def Report.shown {α : Type} (r : Report α) : List α := r.vals.take r.count

def addAll {α : Type} (r : Report α) (vs : List α) : Report α := vs.foldl (fun r v => (r.add v).1) r

theorem add_shown {α : Type} (r : Report α) (v : α) (hl : r.vals.length = 16) (hc : r.count < 16) :
    (r.add v).1.shown = r.shown ++ [v] ∧ (r.add v).1.vals.length = 16 ∧ (r.add v).1.count = r.count + 1 := by
  unfold Report.add
  rw [if_neg (by omega)]
  refine ⟨?_, by dsimp only; rw [List.length_set]; exact hl, rfl⟩
  unfold Report.shown
  dsimp only
  rw [List.take_add_one, List.take_set_of_le (by omega), List.getElem?_set_self (by omega)]
  rfl

/-- **A report shows the first sixteen values in order**; each further one is refused. -/
theorem report_first_sixteen {α : Type} (d : α) (vs : List α) :
    (addAll ⟨List.replicate 16 d, 0⟩ vs).shown = vs.take 16 ∧ ∀ v, (((addAll ⟨List.replicate 16 d, 0⟩ vs).add v).2 = true ↔ vs.length < 16) := by
  have key : ∀ (vs : List α) (r : Report α), r.vals.length = 16 → r.count ≤ 16 →
      (addAll r vs).shown = (r.shown ++ vs).take 16 ∧ (addAll r vs).count = min 16 (r.count + vs.length) ∧ (addAll r vs).vals.length = 16 := by
    intro vs
    induction vs with
    | nil =>
      intro r h1 h2
      refine ⟨?_, by simp only [addAll, List.foldl_nil, List.length_nil]; omega, h1⟩
      rw [List.append_nil, List.take_of_length_le]
      · rfl
      · unfold Report.shown; rw [List.length_take]; omega
    | cons v vs ih =>
      intro r h1 h2
      have hstep : addAll r (v :: vs) = addAll (r.add v).1 vs := rfl
      rw [hstep]
      by_cases hc : r.count < 16
      · obtain ⟨a1, a2, a3⟩ := add_shown r v h1 hc
        obtain ⟨b1, b2, b3⟩ := ih _ a2 (by omega)
        refine ⟨by rw [b1, a1, List.append_assoc]; rfl, by rw [b2, a3, List.length_cons]; omega, b3⟩
      · have hr : (r.add v).1 = r := by unfold Report.add; rw [if_pos (by omega)]
        rw [hr]
        obtain ⟨b1, b2, b3⟩ := ih r h1 h2
        have hl : r.shown.length = 16 := by unfold Report.shown; rw [List.length_take]; omega
        refine ⟨?_, by rw [b2, List.length_cons]; omega, b3⟩
        rw [b1, List.take_append_of_le_length (by omega), List.take_append_of_le_length (by omega)]
  obtain ⟨h1, h2, h3⟩ := key vs ⟨List.replicate 16 d, 0⟩ List.length_replicate (Nat.zero_le _)
  refine ⟨by rw [h1]; rfl, fun v => ?_⟩
  unfold Report.add
  rw [h2]
  dsimp only
  split_ifs with h
  · simp; omega
  · simp; omega

/-- diagnostics.rs:626-643. -/
structure Safety where
  enabled : Nat
  estop : Nat
  watchdog : Nat
  limits : Nat
  comms : Nat
  mode : Nat
  fault : Nat

/-- diagnostics.rs:665-672 `is_safe`. -/
def Safety.isSafe (s : Safety) : Bool :=
  s.enabled != 0 && s.estop == 0 && s.watchdog != 0 && s.limits != 0 && s.comms != 0 && s.fault == 0

/-- diagnostics.rs:675-680 `set_fault`. -/
def Safety.setFault (s : Safety) (c : Nat) : Safety := { s with fault := c, mode := if c ≠ 0 then 2 else s.mode }

/-- diagnostics.rs:683-686 `clear_faults`. -/
def Safety.clear (s : Safety) : Safety := { s with fault := 0, mode := 0 }

/-- **A fault makes the system unsafe and stops it**, until the faults are cleared. -/
theorem fault_is_unsafe (s : Safety) (c : Nat) (h : c ≠ 0) : (s.setFault c).isSafe = false ∧ (s.setFault c).mode = 2 := by
  refine ⟨?_, by simp [Safety.setFault, h]⟩
  have : (c == 0) = false := by simpa using h
  simp [Safety.isSafe, Safety.setFault, h]

/-- **Clearing faults does not make an unsafe system safe**: an engaged emergency stop, a failed watchdog, limit or link
stay unsafe. -/
theorem clear_keeps_causes (s : Safety) (h : s.enabled = 0 ∨ s.estop ≠ 0 ∨ s.watchdog = 0 ∨ s.limits = 0 ∨ s.comms = 0) : s.clear.isSafe = false := by
  unfold Safety.isSafe Safety.clear
  rcases h with h | h | h | h | h <;> simp [h]

/-- **But the mode says normal**: with the emergency stop engaged, clearing the faults sets the mode to normal operation;
and setting fault code 0 leaves the safe-stop mode on a system that counts as safe. -/
theorem mode_disagrees (s : Safety) : s.clear.mode = 0 ∧
    ∃ t : Safety, ((t.setFault 7).setFault 0).isSafe = true ∧ ((t.setFault 7).setFault 0).mode = 2 :=
  ⟨rfl, ⟨1, 0, 1, 1, 1, 0, 0⟩, by decide, by decide⟩

/-- diagnostics.rs:603-610 `is_fresh`. -/
def isFresh (stamp now age : Nat) : Bool := decide (now - stamp ≤ age)

/-- **A heartbeat is fresh exactly while it is not older than the limit** … -/
theorem fresh_iff (stamp now age : Nat) : isFresh stamp now age = true ↔ now ≤ stamp + age := by
  unfold isFresh
  rw [decide_eq_true_eq]
  omega

/-- … **so one from the future is fresh for as long as it is ahead and then the limit more**: a node that died after its
clock had run ahead by a day counts as alive for a day. -/
theorem future_stays_fresh (stamp age : Nat) (now : Nat) (h : now ≤ stamp) : isFresh stamp now age = true := by
  rw [fresh_iff]
  omega

def U64 : Int := 18446744073709551615
def I64Min : Int := -9223372036854775808

/-- time.rs:198-204 `correct_timestamp`: `none` is the overflow of the negation (a panic in debug builds). -/
def correct (offset : Int) (t : Int) : Option Int :=
  if offset ≥ 0 then some (max 0 (t - offset))
  else if offset = I64Min then none
  else some (min U64 (t + -offset))

/-- **A corrected time is the local time minus the offset**, kept within what a time can be; for every offset but one. -/
theorem correct_exact_partial (offset t : Int) (ho : I64Min < offset) (ht : 0 ≤ t ∧ t ≤ U64) : correct offset t = some (max 0 (min U64 (t - offset))) := by
  unfold correct
  by_cases h : offset ≥ 0
  · rw [if_pos h]
    congr 1
    omega
  · rw [if_neg h, if_neg (by omega)]
    congr 1
    have : 0 ≤ U64 := by decide
    omega

/-- **The least offset overflows.** -/
theorem correct_overflow (t : Int) : correct I64Min t = none := by
  unfold correct
  rw [if_neg (by decide), if_pos rfl]

/-- **Corrected times keep their order.** -/
theorem correct_monotone (offset t u a b : Int) (htu : t ≤ u) (ha : correct offset t = some a) (hb : correct offset u = some b) : a ≤ b := by
  unfold correct at ha hb
  split_ifs at ha hb <;> cases ha <;> cases hb <;> omega

example : correct (-5) 100 = some 105 ∧ correct 5 100 = some 95 ∧ correct 500 100 = some 0 := by decide

example : (⟨1, 1, 1, 1, 1, 2, 7⟩ : Safety).clear.isSafe = false := by decide

example : (addAll ⟨List.replicate 16 0, 0⟩ [4, 5, 6]).shown = [4, 5, 6] := by decide

end Horus.Health
