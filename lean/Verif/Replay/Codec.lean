import Verif.Common.Bytes
import Verif.Common.Map
/-
The on-disk form of a node recording: bincode 1.3 with its default options (fixed-width little-endian
integers, u64 lengths, one-byte option and bool tags, trailing bytes allowed), behind a ten-byte header.
Sources: /repo/horus_core/src/scheduling/record_replay.rs (`Recording`, `NodeTickSnapshot`,
`NodeRecording`); the layout rules are those of the bincode crate, which is not in /repo.
Simplifications: a `String` is its bytes (the UTF-8 check made when a string is read is left out);
a `HashMap` is an association list, written in list order; zstd compression is left out.
-/
namespace Horus.Replay

/-- A parser: what was read and the bytes left. -/
abbrev P (α : Type) := Bytes → Option (α × Bytes)

/-- Parse, then parse with the result. -/
def P.bind {α β : Type} (p : P α) (f : α → P β) : P β := fun b =>
  match p b with
  | none => none
  | some (a, r) => f a r

/-- Read nothing. -/
def P.ret {α : Type} (a : α) : P α := fun b => some (a, b)

/-- bincode: a `k`-byte little-endian integer. -/
def pNat (k : Nat) : P Nat := fun b =>
  if b.length < k then none else some (leNat (b.take k), b.drop k)

/-- Exactly `n` bytes. -/
def pTake (n : Nat) : P Bytes := fun b =>
  if b.length < n then none else some (b.take n, b.drop n)

/-- bincode: `String` / `Vec<u8>`: u64 length, then the bytes. -/
def pStr : P Bytes := (pNat 8).bind pTake

/-- bincode: `Option<T>`: tag 0 or 1, anything else is an error. -/
def pOpt {α : Type} (p : P α) : P (Option α) := (pNat 1).bind fun t =>
  if t = 0 then P.ret none
  else if t = 1 then p.bind fun a => P.ret (some a)
  else fun _ => none

/-- bincode: `bool`: 0 or 1, anything else is an error. -/
def pBool : P Bool := (pNat 1).bind fun t =>
  if t = 0 then P.ret false else if t = 1 then P.ret true else fun _ => none

/-- `n` items one after the other. -/
def pRep {α : Type} (p : P α) : Nat → P (List α)
  | 0 => P.ret []
  | n + 1 => p.bind fun a => (pRep p n).bind fun l => P.ret (a :: l)

/-- bincode: `Vec<T>`: u64 length, then the items. -/
def pVec {α : Type} (p : P α) : P (List α) := (pNat 8).bind (pRep p)

/-- A key and a value. -/
def pPair {α β : Type} (p : P α) (q : P β) : P (α × β) :=
  p.bind fun a => q.bind fun b => P.ret (a, b)

/-- Insert the pairs one after the other (a later key wins), as serde builds a `HashMap`. -/
def ofPairs (l : List (Bytes × Bytes)) : Map Bytes Bytes := l.foldl (fun m kv => Map.set m kv.1 kv.2) []

/-- bincode: `HashMap<String, Vec<u8>>`. -/
def pMap : P (Map Bytes Bytes) := (pVec (pPair pStr pStr)).bind fun l => P.ret (ofPairs l)

/-- bincode writer for `String` / `Vec<u8>`. -/
def wStr (s : Bytes) : Bytes := le 8 s.length ++ s

/-- bincode writer for `Option<T>`. -/
def wOpt {α : Type} (w : α → Bytes) : Option α → Bytes
  | none => [0]
  | some a => 1 :: w a

/-- bincode writer for `bool`. -/
def wBool (b : Bool) : Bytes := [if b then 1 else 0]

/-- bincode writer for `Vec<T>`. -/
def wVec {α : Type} (w : α → Bytes) (l : List α) : Bytes := le 8 l.length ++ (l.map w).flatten

/-- bincode writer for `HashMap<String, Vec<u8>>`. -/
def wMap (m : Map Bytes Bytes) : Bytes := wVec (fun kv => wStr kv.1 ++ wStr kv.2) m

/-- record_replay.rs:384-408 `NodeTickSnapshot`. -/
structure Snap where
  tick : Nat
  ts : Nat
  ins : Map Bytes Bytes
  outs : Map Bytes Bytes
  state : Option Bytes
  dur : Nat
  host : Option Bytes
  remote : Bool
deriving DecidableEq, Repr

/-- record_replay.rs:470-504 `NodeRecording`. -/
structure Rec where
  schema : Nat
  id : Bytes
  name : Bytes
  session : Bytes
  started : Nat
  ended : Option Nat
  first : Nat
  last : Nat
  snaps : List Snap
  config : Option Bytes
  types : Map Bytes Bytes
deriving DecidableEq, Repr

/-- The bytes bincode writes for a snapshot, fields in declaration order (record_replay.rs:384-408). -/
def wSnap (s : Snap) : Bytes :=
  le 8 s.tick ++ (le 8 s.ts ++ (wMap s.ins ++ (wMap s.outs ++ (wOpt wStr s.state ++
    (le 8 s.dur ++ (wOpt wStr s.host ++ wBool s.remote))))))

/-- Reading a snapshot back (record_replay.rs:384-408). `#[serde(default)]` has no effect here: bincode
does not name its fields, so every field must be present. -/
def pSnap : P Snap :=
  (pNat 8).bind fun tick => (pNat 8).bind fun ts => pMap.bind fun ins => pMap.bind fun outs =>
  (pOpt pStr).bind fun state => (pNat 8).bind fun dur => (pOpt pStr).bind fun host =>
  pBool.bind fun remote => P.ret ⟨tick, ts, ins, outs, state, dur, host, remote⟩

/-- The bytes bincode writes for a recording (record_replay.rs:470-504). -/
def wRec (r : Rec) : Bytes :=
  le 4 r.schema ++ (wStr r.id ++ (wStr r.name ++ (wStr r.session ++ (le 8 r.started ++
    (wOpt (le 8) r.ended ++ (le 8 r.first ++ (le 8 r.last ++ (wVec wSnap r.snaps ++
      (wOpt wStr r.config ++ wMap r.types)))))))))

/-- Reading a recording back (record_replay.rs:470-504). -/
def pRec : P Rec :=
  (pNat 4).bind fun schema => pStr.bind fun id => pStr.bind fun name => pStr.bind fun session =>
  (pNat 8).bind fun started => (pOpt (pNat 8)).bind fun ended => (pNat 8).bind fun first =>
  (pNat 8).bind fun last => (pVec pSnap).bind fun snaps => (pOpt pStr).bind fun config =>
  pMap.bind fun types => P.ret ⟨schema, id, name, session, started, ended, first, last, snaps, config, types⟩

/-- record_replay.rs:188 `RECORDING_MAGIC` = `b"HORUS\0"`. -/
def magic : Bytes := [72, 79, 82, 85, 83, 0]

/-- record_replay.rs:259-263: what an uncompressed save writes. -/
def fileBytes (r : Rec) : Bytes := magic ++ (le 4 1 ++ wRec r)

/-- record_replay.rs:278 `MAX_RECORDING_SIZE`. -/
def maxFile : Nat := 100 * 1024 * 1024

/-- record_replay.rs:302-306, 374-378: the value bincode reads from the start of the bytes; trailing
bytes are ignored. -/
def decode (b : Bytes) : Option Rec :=
  match pRec b with
  | none => none
  | some (r, _) => some r

/-- record_replay.rs:274-382 `Recording::load`, on the bytes of the file (`none` = an error). -/
def loadBytes (b : Bytes) : Option Rec :=
  if maxFile < b.length then none
  else if b.take 6 = magic then
    if (b.drop 6).length < 4 then none
    else if leNat ((b.drop 6).take 4) = 1 then decode ((b.drop 6).drop 4)
    else none
  else decode b

/- Reading back what was written. -/

/-- `p` reads exactly `b` and gives `a`, whatever follows. -/
def Reads {α : Type} (p : P α) (b : Bytes) (a : α) : Prop := ∀ rest, p (b ++ rest) = some (a, rest)

theorem Reads.ret {α : Type} (a : α) : Reads (P.ret a) [] a := fun _ => rfl

theorem Reads.bind {α β : Type} {p : P α} {f : α → P β} {b c : Bytes} {x : α} {y : β}
    (h : Reads p b x) (h2 : Reads (f x) c y) : Reads (p.bind f) (b ++ c) y := by
  intro rest
  unfold P.bind
  rw [List.append_assoc, h (c ++ rest)]
  exact h2 rest

/-- The last step of a record parser. -/
theorem Reads.fin {α β : Type} {p : P α} {f : α → P β} {b : Bytes} {x : α} {y : β}
    (h : Reads p b x) (h2 : Reads (f x) [] y) : Reads (p.bind f) b y := by
  have := Reads.bind h h2
  rwa [List.append_nil] at this

theorem reads_nat (k n : Nat) (h : n < 256 ^ k) : Reads (pNat k) (le k n) n := by
  intro rest
  have h1 : ¬ (le k n ++ rest).length < k := by simp
  have h2 : (le k n ++ rest).take k = le k n := by
    rw [List.take_append_of_le_length (by simp)]
    exact List.take_of_length_le (by simp)
  have h3 : (le k n ++ rest).drop k = rest := by
    rw [List.drop_append_of_le_length (by simp), List.drop_of_length_le (by simp)]
    rfl
  unfold pNat
  rw [if_neg h1, h2, h3, leNat_le, Nat.mod_eq_of_lt h]

theorem reads_take (s : Bytes) : Reads (pTake s.length) s s := by
  intro rest
  unfold pTake
  simp

theorem reads_str (s : Bytes) (h : s.length < 2 ^ 64) : Reads pStr (wStr s) s :=
  Reads.bind (reads_nat 8 _ (by simpa using h)) (reads_take s)

theorem reads_opt {α : Type} {p : P α} {w : α → Bytes} (o : Option α)
    (h : ∀ a, o = some a → Reads p (w a) a) : Reads (pOpt p) (wOpt w o) o := by
  cases o with
  | none =>
    have h0 : Reads (pNat 1) [0] 0 := reads_nat 1 0 (by decide)
    exact Reads.fin h0 (Reads.ret none)
  | some a =>
    have h1 : Reads (pNat 1) [1] 1 := reads_nat 1 1 (by decide)
    have h2 : Reads (p.bind fun a => P.ret (some a)) (w a) (some a) :=
      Reads.fin (h a rfl) (Reads.ret (some a))
    exact Reads.bind (p := pNat 1) h1 h2

theorem reads_bool (b : Bool) : Reads pBool (wBool b) b := by
  cases b with
  | false =>
    have h0 : Reads (pNat 1) [0] 0 := reads_nat 1 0 (by decide)
    exact Reads.fin h0 (Reads.ret false)
  | true =>
    have h0 : Reads (pNat 1) [1] 1 := reads_nat 1 1 (by decide)
    exact Reads.fin h0 (Reads.ret true)

theorem reads_rep {α : Type} {p : P α} {w : α → Bytes} (l : List α)
    (h : ∀ a ∈ l, Reads p (w a) a) : Reads (pRep p l.length) (l.map w).flatten l := by
  induction l with
  | nil => exact Reads.ret []
  | cons a l ih =>
    have h1 := h a (by simp)
    have h2 := ih (fun x hx => h x (by simp [hx]))
    exact Reads.bind h1 (Reads.fin h2 (Reads.ret (a :: l)))

theorem reads_vec {α : Type} {p : P α} {w : α → Bytes} (l : List α) (hn : l.length < 2 ^ 64)
    (h : ∀ a ∈ l, Reads p (w a) a) : Reads (pVec p) (wVec w l) l :=
  Reads.bind (reads_nat 8 _ (by simpa using hn)) (reads_rep l h)

theorem set_new (m : Map Bytes Bytes) (k v : Bytes) (h : k ∉ Map.keys m) :
    Map.set m k v = m ++ [(k, v)] := by
  induction m with
  | nil => rfl
  | cons x m ih =>
    obtain ⟨a, b⟩ := x
    have hak : a ≠ k := fun e => h (by simp [Map.keys, e])
    have hm : k ∉ Map.keys m := fun e => h (by simp only [Map.keys, List.map_cons, List.mem_cons]; exact Or.inr e)
    simp only [Map.set, if_neg hak, ih hm, List.cons_append]

theorem foldl_set (l m : Map Bytes Bytes) (h : (Map.keys (m ++ l)).Nodup) :
    l.foldl (fun m kv => Map.set m kv.1 kv.2) m = m ++ l := by
  induction l generalizing m with
  | nil => simp
  | cons x l ih =>
    obtain ⟨k, v⟩ := x
    have hk : k ∉ Map.keys m := by
      intro hm
      have : (Map.keys m ++ (k :: Map.keys l)).Nodup := by simpa [Map.keys] using h
      exact (List.nodup_append.1 this).2.2 k hm k (by simp) rfl
    simp only [List.foldl_cons, set_new m k v hk]
    rw [ih (m ++ [(k, v)]) (by simpa using h)]
    simp

/-- A map as a `HashMap` can be: no key twice, every length a u64. -/
def mapOk (m : Map Bytes Bytes) : Prop :=
  Map.Ok m ∧ m.length < 2 ^ 64 ∧ ∀ kv ∈ m, kv.1.length < 2 ^ 64 ∧ kv.2.length < 2 ^ 64

theorem reads_map (m : Map Bytes Bytes) (h : mapOk m) : Reads pMap (wMap m) m := by
  have hv : Reads (pVec (pPair pStr pStr)) (wMap m) m := by
    apply reads_vec m h.2.1
    intro a ha
    have := h.2.2 a ha
    exact Reads.bind (reads_str a.1 this.1) (Reads.fin (reads_str a.2 this.2) (Reads.ret a))
  have he : ofPairs m = m := by
    have hn : (Map.keys m).Nodup := h.1
    have := foldl_set m [] (by simpa using hn)
    simpa [ofPairs] using this
  have := Reads.ret (ofPairs m)
  rw [he] at this
  exact Reads.fin hv (by rw [he]; exact this)

/-- An optional string whose length is a u64. -/
def optOk (o : Option Bytes) : Prop := ∀ a, o = some a → a.length < 2 ^ 64

/-- Every number and length of the snapshot fits its Rust type. -/
def Snap.Ok (s : Snap) : Prop :=
  s.tick < 2 ^ 64 ∧ s.ts < 2 ^ 64 ∧ mapOk s.ins ∧ mapOk s.outs ∧ optOk s.state ∧ s.dur < 2 ^ 64 ∧
    optOk s.host

/-- Every number and length of the recording fits its Rust type. -/
def Rec.Ok (r : Rec) : Prop :=
  r.schema < 2 ^ 32 ∧ r.id.length < 2 ^ 64 ∧ r.name.length < 2 ^ 64 ∧ r.session.length < 2 ^ 64 ∧
    r.started < 2 ^ 64 ∧ (∀ e, r.ended = some e → e < 2 ^ 64) ∧ r.first < 2 ^ 64 ∧ r.last < 2 ^ 64 ∧
    r.snaps.length < 2 ^ 64 ∧ (∀ s ∈ r.snaps, s.Ok) ∧ optOk r.config ∧ mapOk r.types

theorem reads_snap (s : Snap) (h : s.Ok) : Reads pSnap (wSnap s) s := by
  obtain ⟨h1, h2, h3, h4, h5, h6, h7⟩ := h
  exact Reads.bind (reads_nat 8 _ (by simpa using h1)) (Reads.bind (reads_nat 8 _ (by simpa using h2))
    (Reads.bind (reads_map _ h3) (Reads.bind (reads_map _ h4)
      (Reads.bind (reads_opt s.state fun a e => reads_str a (h5 a e))
        (Reads.bind (reads_nat 8 _ (by simpa using h6))
          (Reads.bind (reads_opt s.host fun a e => reads_str a (h7 a e))
            (Reads.fin (reads_bool s.remote) (Reads.ret s))))))))

theorem reads_rec (r : Rec) (h : r.Ok) : Reads pRec (wRec r) r := by
  obtain ⟨h1, h2, h3, h4, h5, h6, h7, h8, h9, h10, h11, h12⟩ := h
  exact Reads.bind (reads_nat 4 _ (by simpa using h1)) (Reads.bind (reads_str _ h2)
    (Reads.bind (reads_str _ h3) (Reads.bind (reads_str _ h4)
      (Reads.bind (reads_nat 8 _ (by simpa using h5))
        (Reads.bind (reads_opt r.ended fun a e => reads_nat 8 a (by simpa using h6 a e))
          (Reads.bind (reads_nat 8 _ (by simpa using h7)) (Reads.bind (reads_nat 8 _ (by simpa using h8))
            (Reads.bind (reads_vec r.snaps h9 fun s hs => reads_snap s (h10 s hs))
              (Reads.bind (reads_opt r.config fun a e => reads_str a (h11 a e))
                (Reads.fin (reads_map _ h12) (Reads.ret r)))))))))))

/- More bytes never change what was read. -/

/-- `p` gives the same value when more bytes follow, and leaves them. -/
def Mono {α : Type} (p : P α) : Prop := ∀ b a r q, p b = some (a, r) → p (b ++ q) = some (a, r ++ q)

theorem Mono.ret {α : Type} (a : α) : Mono (P.ret a) := by
  intro b x r q h
  simp only [P.ret, Option.some.injEq, Prod.mk.injEq] at h ⊢
  exact ⟨h.1, by rw [h.2]⟩

theorem Mono.fail {α : Type} : Mono (fun _ => none : P α) := by
  intro b x r q h
  cases h

theorem Mono.bind {α β : Type} {p : P α} {f : α → P β} (hp : Mono p) (hf : ∀ a, Mono (f a)) :
    Mono (p.bind f) := by
  intro b x r q h
  unfold P.bind at h ⊢
  cases hb : p b with
  | none => rw [hb] at h; cases h
  | some v =>
    obtain ⟨a, r1⟩ := v
    rw [hb] at h
    rw [hp b a r1 q hb]
    exact hf a r1 x r q h

theorem mono_nat (k : Nat) : Mono (pNat k) := by
  intro b a r q h
  unfold pNat at h ⊢
  by_cases hl : b.length < k
  · rw [if_pos hl] at h; cases h
  · rw [if_neg hl] at h
    rw [if_neg (by simp only [List.length_append]; omega)]
    simp only [Option.some.injEq, Prod.mk.injEq] at h ⊢
    rw [List.take_append_of_le_length (by omega), List.drop_append_of_le_length (by omega)]
    exact ⟨h.1, by rw [h.2]⟩

theorem mono_take (k : Nat) : Mono (pTake k) := by
  intro b a r q h
  unfold pTake at h ⊢
  by_cases hl : b.length < k
  · rw [if_pos hl] at h; cases h
  · rw [if_neg hl] at h
    rw [if_neg (by simp only [List.length_append]; omega)]
    simp only [Option.some.injEq, Prod.mk.injEq] at h ⊢
    rw [List.take_append_of_le_length (by omega), List.drop_append_of_le_length (by omega)]
    exact ⟨h.1, by rw [h.2]⟩

theorem mono_str : Mono pStr := (mono_nat 8).bind mono_take

theorem mono_opt {α : Type} {p : P α} (h : Mono p) : Mono (pOpt p) := by
  refine (mono_nat 1).bind fun t => ?_
  by_cases h0 : t = 0
  · simp only [h0, if_true]; exact Mono.ret _
  · by_cases h1 : t = 1
    · subst h1
      exact h.bind fun a => Mono.ret _
    · simp only [h0, h1, if_false]
      exact Mono.fail

theorem mono_bool : Mono pBool := by
  refine (mono_nat 1).bind fun t => ?_
  by_cases h0 : t = 0
  · simp only [h0, if_true]; exact Mono.ret _
  · by_cases h1 : t = 1
    · subst h1
      exact Mono.ret _
    · simp only [h0, h1, if_false]
      exact Mono.fail

theorem mono_rep {α : Type} {p : P α} (h : Mono p) (n : Nat) : Mono (pRep p n) := by
  induction n with
  | zero => exact Mono.ret _
  | succ n ih => exact h.bind fun a => ih.bind fun l => Mono.ret _

theorem mono_vec {α : Type} {p : P α} (h : Mono p) : Mono (pVec p) := (mono_nat 8).bind (mono_rep h)

theorem mono_map : Mono pMap :=
  (mono_vec (mono_str.bind fun _ => mono_str.bind fun _ => Mono.ret _)).bind fun _ => Mono.ret _

theorem mono_snap : Mono pSnap :=
  (mono_nat 8).bind fun _ => (mono_nat 8).bind fun _ => mono_map.bind fun _ => mono_map.bind fun _ =>
  (mono_opt mono_str).bind fun _ => (mono_nat 8).bind fun _ => (mono_opt mono_str).bind fun _ =>
  mono_bool.bind fun _ => Mono.ret _

theorem mono_rec : Mono pRec :=
  (mono_nat 4).bind fun _ => mono_str.bind fun _ => mono_str.bind fun _ => mono_str.bind fun _ =>
  (mono_nat 8).bind fun _ => (mono_opt (mono_nat 8)).bind fun _ => (mono_nat 8).bind fun _ =>
  (mono_nat 8).bind fun _ => (mono_vec mono_snap).bind fun _ => (mono_opt mono_str).bind fun _ =>
  mono_map.bind fun _ => Mono.ret _

/-- A strict prefix of what was written is never read as a value. -/
theorem Reads.strict {α : Type} {p : P α} {b c : Bytes} {a : α} (hr : Reads p (b ++ c) a) (hm : Mono p)
    (hc : c ≠ []) : p b = none := by
  cases h : p b with
  | none => rfl
  | some v =>
    exfalso
    obtain ⟨x, r⟩ := v
    have h1 := hm b x r c h
    have h2 := hr []
    rw [List.append_nil] at h2
    rw [h2] at h1
    simp only [Option.some.injEq, Prod.mk.injEq] at h1
    exact hc (List.append_eq_nil_iff.1 h1.2.symm).2

end Horus.Replay
