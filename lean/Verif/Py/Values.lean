import Verif.Msg.Generic
import Mathlib.Data.List.Basic
import Mathlib.Tactic.Common
import Mathlib.Tactic.Ring
/-
Python values on a topic without a message class. Source: /repo/horus_py/src/topic.rs:583-616 (send) and 741-770
(receive), /repo/horus_py/horus/__init__.py:375-399 (`_message_to_dict`) and 797-854 (`Node.send`), with
/repo/horus_types/src/generic.rs:95-171 for the message that carries the bytes (Horus.Generic).
The three dependencies the code calls are modelled from their documentation: pythonize 0.29 (Python to
`serde_json::Value` and back), serde_json 1.0.151 (Cargo.lock lists it with indexmap: maps keep their order) and
rmp-serde 1.3.1 (MessagePack). A byte is a natural number below 256.
-/
namespace Horus.PyValues

mutual
/-- A Python object as the topic sees it: a string is its code points, lone surrogates included; a float is its
64 bits; `bytes` and `other` are what serde cannot take (bytes, arrays, any object); `obj` is an object with its public
attributes that are not callable. Sets are not modelled. -/
inductive Py
  | none
  | bool (b : Bool)
  | int (z : Int)
  | float (bits : UInt64)
  | str (s : List Nat)
  | list (l : PL)
  | tuple (l : PL)
  | dict (m : PM)
  | bytes (b : List Nat)
  | obj (attrs : PM)
  | other
/-- The elements of a list. -/
inductive PL
  | nil
  | cons (h : Py) (t : PL)
/-- The entries of a dict in their order; the key is `none` if it is not a string. -/
inductive PM
  | nil
  | cons (k : Option (List Nat)) (v : Py) (t : PM)
end

mutual
/-- `serde_json::Value`: `neg n` is the number -(n+1). -/
inductive J
  | null
  | bool (b : Bool)
  | pos (n : Nat)
  | neg (n : Nat)
  | float (bits : UInt64)
  | str (s : List Char)
  | arr (l : JL)
  | obj (m : JM)
inductive JL
  | nil
  | cons (h : J) (t : JL)
inductive JM
  | nil
  | cons (k : List Char) (v : J) (t : JM)
end

/-- Neither infinite nor NaN. -/
def finite (b : UInt64) : Bool := decide (b.toNat / 2 ^ 52 % 2048 ≠ 2047)

/-- A Python string as Rust text; lone surrogates have no UTF-8. -/
def text (s : List Nat) : Option (List Char) := if s.all (fun c => decide c.isValidChar) then some (s.map Char.ofNat) else none

mutual
/-- `pythonize::depythonize::<serde_json::Value>` (topic.rs:585-590); `none` is the error, raised as TypeError. A float
that is not finite becomes null (`Number::from_f64`), integers must fit 64 bits. -/
def toJ : Py → Option J
  | .none => some .null
  | .bool b => some (.bool b)
  | .int z => match z with
    | .ofNat n => if n < 2 ^ 64 then some (.pos n) else none
    | .negSucc n => if n < 2 ^ 63 then some (.neg n) else none
  | .float b => some (if finite b then .float b else .null)
  | .str s => (text s).map .str
  | .list l => (toJL l).map .arr
  | .tuple l => (toJL l).map .arr
  | .dict m => (toJM m).map .obj
  | .bytes _ => none
  | .obj _ => none
  | .other => none
def toJL : PL → Option JL
  | .nil => some .nil
  | .cons h t => match toJ h, toJL t with
    | some h', some t' => some (.cons h' t')
    | _, _ => none
def toJM : PM → Option JM
  | .nil => some .nil
  | .cons k v t => match k.bind text, toJ v, toJM t with
    | some k', some v', some t' => some (.cons k' v' t')
    | _, _, _ => none
end

mutual
/-- `pythonize::pythonize` of a value (topic.rs:759-763). -/
def ofJ : J → Py
  | .null => .none
  | .bool b => .bool b
  | .pos n => .int (Int.ofNat n)
  | .neg n => .int (Int.negSucc n)
  | .float b => .float b
  | .str s => .str (s.map Char.toNat)
  | .arr l => .list (ofJL l)
  | .obj m => .dict (ofJM m)
def ofJL : JL → PL
  | .nil => .nil
  | .cons h t => .cons (ofJ h) (ofJL t)
def ofJM : JM → PM
  | .nil => .nil
  | .cons k v t => .cons (some (k.map Char.toNat)) (ofJ v) (ofJM t)
end

/-- A number as `k` bytes, the highest first. -/
def be : Nat → Nat → List Nat
  | 0, _ => []
  | k + 1, n => n / 256 ^ k % 256 :: be k n

def unbe (l : List Nat) : Nat := l.foldl (fun a b => a * 256 + b) 0

def JL.len : JL → Nat
  | .nil => 0
  | .cons _ t => t.len + 1

def JM.len : JM → Nat
  | .nil => 0
  | .cons _ _ t => t.len + 1

/-- rmp: an unsigned integer in the shortest form. -/
def encPos (n : Nat) : List Nat :=
  if n < 128 then [n]
  else if n < 2 ^ 8 then 0xcc :: be 1 n
  else if n < 2 ^ 16 then 0xcd :: be 2 n
  else if n < 2 ^ 32 then 0xce :: be 4 n
  else 0xcf :: be 8 n

/-- rmp: the number -(n+1) in the shortest form, two's complement. -/
def encNeg (n : Nat) : List Nat :=
  if n < 32 then [255 - n]
  else if n < 2 ^ 7 then 0xd0 :: be 1 (2 ^ 8 - 1 - n)
  else if n < 2 ^ 15 then 0xd1 :: be 2 (2 ^ 16 - 1 - n)
  else if n < 2 ^ 31 then 0xd2 :: be 4 (2 ^ 32 - 1 - n)
  else 0xd3 :: be 8 (2 ^ 64 - 1 - n)

/-- rmp: the length of a string. -/
def strHead (n : Nat) : List Nat :=
  if n < 32 then [0xa0 + n] else if n < 2 ^ 8 then 0xd9 :: be 1 n else if n < 2 ^ 16 then 0xda :: be 2 n else 0xdb :: be 4 n

/-- rmp: the length of an array. -/
def arrHead (n : Nat) : List Nat :=
  if n < 16 then [0x90 + n] else if n < 2 ^ 16 then 0xdc :: be 2 n else 0xdd :: be 4 n

/-- rmp: the length of a map. -/
def mapHead (n : Nat) : List Nat :=
  if n < 16 then [0x80 + n] else if n < 2 ^ 16 then 0xde :: be 2 n else 0xdf :: be 4 n

/-- rmp: a string. -/
def encStr (s : List Char) : List Nat := strHead (Text.bytes s).length ++ Text.bytes s

mutual
/-- `rmp_serde::to_vec` (topic.rs:591-596). -/
def enc : J → List Nat
  | .null => [0xc0]
  | .bool b => [if b then 0xc3 else 0xc2]
  | .pos n => encPos n
  | .neg n => encNeg n
  | .float b => 0xcb :: be 8 b.toNat
  | .str s => encStr s
  | .arr l => arrHead l.len ++ encL l
  | .obj m => mapHead m.len ++ encM m
def encL : JL → List Nat
  | .nil => []
  | .cons h t => enc h ++ encL t
def encM : JM → List Nat
  | .nil => []
  | .cons k v t => encStr k ++ (enc v ++ encM t)
end

/-- What the first byte announces. -/
inductive Head
  | val (v : J)
  | str (n : Nat)
  | arr (n : Nat)
  | map (n : Nat)

/-- A number of `k` bytes from the front. -/
def num (k : Nat) (l : List Nat) : Option (Nat × List Nat) := if l.length < k then none else some (unbe (l.take k), l.drop k)

/-- A two's complement number of `k` bytes. -/
def signed (k n : Nat) : J := if n < 256 ^ k / 2 then .pos n else .neg (256 ^ k - 1 - n)

/-- rmp: reading a marker and what belongs to it. Byte strings and extensions are an error for `serde_json::Value`; a
32 bit float is not modelled (nothing in `enc` writes one). -/
def head : List Nat → Option (Head × List Nat)
  | [] => none
  | t :: r =>
    if t < 0x80 then some (.val (.pos t), r)
    else if t < 0x90 then some (.map (t - 0x80), r)
    else if t < 0xa0 then some (.arr (t - 0x90), r)
    else if t < 0xc0 then some (.str (t - 0xa0), r)
    else if t ≥ 0xe0 then some (.val (.neg (255 - t)), r)
    else if t = 0xc0 then some (.val .null, r)
    else if t = 0xc2 then some (.val (.bool false), r)
    else if t = 0xc3 then some (.val (.bool true), r)
    else if t = 0xcb then (num 8 r).map fun p => (.val (.float (UInt64.ofNat p.1)), p.2)
    else if t = 0xcc then (num 1 r).map fun p => (.val (.pos p.1), p.2)
    else if t = 0xcd then (num 2 r).map fun p => (.val (.pos p.1), p.2)
    else if t = 0xce then (num 4 r).map fun p => (.val (.pos p.1), p.2)
    else if t = 0xcf then (num 8 r).map fun p => (.val (.pos p.1), p.2)
    else if t = 0xd0 then (num 1 r).map fun p => (.val (signed 1 p.1), p.2)
    else if t = 0xd1 then (num 2 r).map fun p => (.val (signed 2 p.1), p.2)
    else if t = 0xd2 then (num 4 r).map fun p => (.val (signed 4 p.1), p.2)
    else if t = 0xd3 then (num 8 r).map fun p => (.val (signed 8 p.1), p.2)
    else if t = 0xd9 then (num 1 r).map fun p => (.str p.1, p.2)
    else if t = 0xda then (num 2 r).map fun p => (.str p.1, p.2)
    else if t = 0xdb then (num 4 r).map fun p => (.str p.1, p.2)
    else if t = 0xdc then (num 2 r).map fun p => (.arr p.1, p.2)
    else if t = 0xdd then (num 4 r).map fun p => (.arr p.1, p.2)
    else if t = 0xde then (num 2 r).map fun p => (.map p.1, p.2)
    else if t = 0xdf then (num 4 r).map fun p => (.map p.1, p.2)
    else none

/-- A string of `n` bytes; what is not UTF-8 becomes a byte string, an error here. -/
def strBody (n : Nat) (l : List Nat) : Option (List Char × List Nat) :=
  if l.length < n then none else (Text.strict (l.take n)).map fun s => (s.map Char.ofNat, l.drop n)

/-- A map key. -/
def key (l : List Nat) : Option (List Char × List Nat) :=
  match head l with
  | some (.str n, r) => strBody n r
  | _ => none

/-- `n` values in a row. -/
def seqOf (f : List Nat → Option (J × List Nat)) : Nat → List Nat → Option (JL × List Nat)
  | 0, l => some (.nil, l)
  | n + 1, l => match f l with
    | none => none
    | some (v, r) => (seqOf f n r).map fun p => (.cons v p.1, p.2)

/-- `n` entries in a row. A key that comes twice (no sender here writes one: a dict has each key once) would replace the
first value; the model keeps both. -/
def mapOf (f : List Nat → Option (J × List Nat)) : Nat → List Nat → Option (JM × List Nat)
  | 0, l => some (.nil, l)
  | n + 1, l => match key l with
    | none => none
    | some (k, r) => match f r with
      | none => none
      | some (v, r') => (mapOf f n r').map fun p => (.cons k v p.1, p.2)

/-- One value; `inner` reads the values inside, `none` once the depth rmp-serde allows is used up. -/
def body (inner : Option (List Nat → Option (J × List Nat))) (l : List Nat) : Option (J × List Nat) :=
  match head l with
  | none => none
  | some (.val v, r) => some (v, r)
  | some (.str n, r) => (strBody n r).map fun p => (.str p.1, p.2)
  | some (.arr n, r) => inner.bind fun f => (seqOf f n r).map fun p => (.arr p.1, p.2)
  | some (.map n, r) => inner.bind fun f => (mapOf f n r).map fun p => (.obj p.1, p.2)

/-- `rmp_serde::from_slice` (topic.rs:756-758) with `d` levels of nesting allowed (rmp-serde has a limit of its own of
about a thousand; bytes left over are ignored). -/
def dec : Nat → List Nat → Option (J × List Nat)
  | 0 => body none
  | d + 1 => body (some (dec d))

/-- What `send` does. -/
inductive Sent
  | typeError
  | valueError
  | sent (m : Generic.Msg)

/-- `Topic.send` on a topic without a class (topic.rs:583-616). -/
def send (p : Py) : Sent :=
  match toJ p with
  | none => .typeError
  | some j => match Generic.new (enc j) with
    | none => .valueError
    | some m => .sent m

/-- `Node.send` (__init__.py:838-848) on such a topic: what is refused with a TypeError is tried again as a dict of its
public attributes, if it has any (375-399). -/
def nodeSend (p : Py) : Sent :=
  match send p with
  | .typeError => match p with
    | .obj .nil => .typeError
    | .obj attrs => send (.dict attrs)
    | _ => .typeError
  | s => s

/-- What `recv` gives. -/
inductive Got
  | value (p : Py)
  | error

/-- `Topic.recv` on such a topic (topic.rs:741-770): what is in the ring, if anything. `None` for nothing. -/
def recv (lim : Nat) : Option Generic.Msg → Got
  | none => .value .none
  | some m => match Generic.data m with
    | none => .error
    | some d => match dec lim d with
      | none => .error
      | some (j, _) => .value (ofJ j)

/-! ## Specification -/

mutual
/-- What a topic takes: None, booleans, integers of 64 bits, floats, text without lone surrogates, lists and tuples of
such, dicts of such with text as keys. -/
def Sendable : Py → Prop
  | .none => True
  | .bool _ => True
  | .int z => -(2 ^ 63) ≤ z ∧ z < 2 ^ 64
  | .float _ => True
  | .str s => ∀ c ∈ s, c.isValidChar
  | .list l => SendableL l
  | .tuple l => SendableL l
  | .dict m => SendableM m
  | .bytes _ => False
  | .obj _ => False
  | .other => False
def SendableL : PL → Prop
  | .nil => True
  | .cons h t => Sendable h ∧ SendableL t
def SendableM : PM → Prop
  | .nil => True
  | .cons k v t => (∃ s, k = some s ∧ ∀ c ∈ s, c.isValidChar) ∧ Sendable v ∧ SendableM t
end

mutual
/-- The value the receiver sees: tuples are lists, and floats that are not finite are None. -/
def settle : Py → Py
  | .float b => if finite b then .float b else .none
  | .list l => .list (settleL l)
  | .tuple l => .list (settleL l)
  | .dict m => .dict (settleM m)
  | p => p
def settleL : PL → PL
  | .nil => .nil
  | .cons h t => .cons (settle h) (settleL t)
def settleM : PM → PM
  | .nil => .nil
  | .cons k v t => .cons k (settle v) (settleM t)
end

mutual
/-- Without tuples and with finite floats only. -/
def Plain : Py → Prop
  | .float b => finite b = true
  | .list l => PlainL l
  | .tuple _ => False
  | .dict m => PlainM m
  | _ => True
def PlainL : PL → Prop
  | .nil => True
  | .cons h t => Plain h ∧ PlainL t
def PlainM : PM → Prop
  | .nil => True
  | .cons _ v t => Plain v ∧ PlainM t
end

mutual
/-- How deep lists, tuples and dicts are nested. -/
def depth : Py → Nat
  | .list l => depthL l + 1
  | .tuple l => depthL l + 1
  | .dict m => depthM m + 1
  | _ => 0
def depthL : PL → Nat
  | .nil => 0
  | .cons h t => max (depth h) (depthL t)
def depthM : PM → Nat
  | .nil => 0
  | .cons _ v t => max (depth v) (depthM t)
end

def PL.len : PL → Nat
  | .nil => 0
  | .cons _ t => t.len + 1

def PM.len : PM → Nat
  | .nil => 0
  | .cons _ _ t => t.len + 1

/-- The UTF-8 bytes of a string. -/
def utf8 (s : List Nat) : Nat := (s.map fun c => if c < 0x80 then 1 else if c < 0x800 then 2 else if c < 0x10000 then 3 else 4).sum

/-- A string of `n` bytes on the wire. -/
def strSize (n : Nat) : Nat := n + if n < 32 then 1 else if n < 2 ^ 8 then 2 else if n < 2 ^ 16 then 3 else 5

/-- The length of a list or dict. -/
def lenSize (n : Nat) : Nat := if n < 16 then 1 else if n < 2 ^ 16 then 3 else 5

/-- The bytes of an integer. -/
def intSize (z : Int) : Nat :=
  if -32 ≤ z ∧ z < 128 then 1 else if -128 ≤ z ∧ z < 256 then 2 else if -32768 ≤ z ∧ z < 65536 then 3
  else if -2147483648 ≤ z ∧ z < 4294967296 then 5 else 9

mutual
/-- The size of a value as MessagePack. -/
def size : Py → Nat
  | .int z => intSize z
  | .float b => if finite b then 9 else 1
  | .str s => strSize (utf8 s)
  | .list l => lenSize l.len + sizeL l
  | .tuple l => lenSize l.len + sizeL l
  | .dict m => lenSize m.len + sizeM m
  | _ => 1
def sizeL : PL → Nat
  | .nil => 0
  | .cons h t => size h + sizeL t
def sizeM : PM → Nat
  | .nil => 0
  | .cons k v t => strSize (utf8 (k.getD [])) + size v + sizeM t
end

/-! ## Bytes -/

theorem be_length (k n : Nat) : (be k n).length = k := by
  induction k with
  | zero => rfl
  | succ k ih => simp [be, ih]

theorem unbe_acc (l : List Nat) (a : Nat) : l.foldl (fun a b => a * 256 + b) a = a * 256 ^ l.length + unbe l := by
  induction l generalizing a with
  | nil => simp [unbe]
  | cons x l ih =>
    simp only [unbe, List.foldl_cons, List.length_cons]
    rw [ih, ih (0 * 256 + x)]
    rw [Nat.pow_succ]
    ring

theorem unbe_be (k n : Nat) : unbe (be k n) = n % 256 ^ k := by
  induction k with
  | zero => simp [be, unbe, Nat.mod_one]
  | succ k ih =>
    have : unbe (be (k + 1) n) = (n / 256 ^ k % 256) * 256 ^ k + unbe (be k n) := by
      simp only [be, unbe, List.foldl_cons, Nat.zero_mul, Nat.zero_add]
      rw [unbe_acc, be_length]; rfl
    rw [this, ih, Nat.pow_succ, Nat.mod_mul]
    ring

theorem num_be (k n : Nat) (r : List Nat) (h : n < 256 ^ k) : num k (be k n ++ r) = some (n, r) := by
  unfold num
  have hl := be_length k n
  rw [if_neg (by rw [List.length_append, hl]; omega)]
  have h1 : (be k n ++ r).take k = be k n := by rw [List.take_append_of_le_length (by omega), List.take_of_length_le (by omega)]
  have h2 : (be k n ++ r).drop k = r := by rw [List.drop_append_of_le_length (by omega), List.drop_of_length_le (by omega), List.nil_append]
  rw [h1, h2, unbe_be, Nat.mod_eq_of_lt h]

theorem head_pos (n : Nat) (r : List Nat) (h : n < 2 ^ 64) : head (encPos n ++ r) = some (.val (.pos n), r) := by
  unfold encPos
  split
  · rename_i h1; simp [head, h1]
  split
  · simp [head, num_be 1 n r (by omega)]
  split
  · simp [head, num_be 2 n r (by omega)]
  split
  · simp [head, num_be 4 n r (by omega)]
  · simp [head, num_be 8 n r (by omega)]

theorem signed_neg (k n : Nat) (h : n < 256 ^ k / 2) : signed k (256 ^ k - 1 - n) = .neg n := by
  unfold signed
  rw [if_neg (by omega)]
  congr 1
  omega

theorem head_neg (n : Nat) (r : List Nat) (h : n < 2 ^ 63) : head (encNeg n ++ r) = some (.val (.neg n), r) := by
  unfold encNeg
  split
  · rename_i h1
    have e1 : ¬ 255 - n < 0x80 := by omega
    have e2 : ¬ 255 - n < 0x90 := by omega
    have e3 : ¬ 255 - n < 0xa0 := by omega
    have e4 : ¬ 255 - n < 0xc0 := by omega
    have e5 : 255 - n ≥ 0xe0 := by omega
    have e6 : 255 - (255 - n) = n := by omega
    simp only [List.cons_append, List.nil_append, head, if_neg e1, if_neg e2, if_neg e3, if_neg e4, if_pos e5, e6]
  split
  · have := signed_neg 1 n (by omega)
    simp only [head, List.cons_append, num_be 1 (2 ^ 8 - 1 - n) r (by omega)]
    simpa using this
  split
  · have := signed_neg 2 n (by omega)
    simp only [head, List.cons_append, num_be 2 (2 ^ 16 - 1 - n) r (by omega)]
    simpa using this
  split
  · have := signed_neg 4 n (by omega)
    simp only [head, List.cons_append, num_be 4 (2 ^ 32 - 1 - n) r (by omega)]
    simpa using this
  · have := signed_neg 8 n (by omega)
    simp only [head, List.cons_append, num_be 8 (2 ^ 64 - 1 - n) r (by omega)]
    simpa using this

theorem head_float (b : UInt64) (r : List Nat) : head (0xcb :: be 8 b.toNat ++ r) = some (.val (.float b), r) := by
  have := b.toNat_lt
  simp [head, num_be 8 b.toNat r (by omega)]

theorem head_str (n : Nat) (r : List Nat) (h : n < 2 ^ 32) : head (strHead n ++ r) = some (.str n, r) := by
  unfold strHead
  split
  · rename_i h1
    have e1 : ¬ 0xa0 + n < 0x80 := by omega
    have e2 : ¬ 0xa0 + n < 0x90 := by omega
    have e3 : ¬ 0xa0 + n < 0xa0 := by omega
    have e4 : 0xa0 + n < 0xc0 := by omega
    have e6 : 0xa0 + n - 0xa0 = n := by omega
    simp only [List.cons_append, List.nil_append, head, if_neg e1, if_neg e2, if_neg e3, if_pos e4, e6]
  split
  · simp [head, num_be 1 n r (by omega)]
  split
  · simp [head, num_be 2 n r (by omega)]
  · simp [head, num_be 4 n r (by omega)]

theorem head_arr (n : Nat) (r : List Nat) (h : n < 2 ^ 32) : head (arrHead n ++ r) = some (.arr n, r) := by
  unfold arrHead
  split
  · rename_i h1
    have e1 : ¬ 0x90 + n < 0x80 := by omega
    have e2 : ¬ 0x90 + n < 0x90 := by omega
    have e3 : 0x90 + n < 0xa0 := by omega
    have e6 : 0x90 + n - 0x90 = n := by omega
    simp only [List.cons_append, List.nil_append, head, if_neg e1, if_neg e2, if_pos e3, e6]
  split
  · simp [head, num_be 2 n r (by omega)]
  · simp [head, num_be 4 n r (by omega)]

theorem head_map (n : Nat) (r : List Nat) (h : n < 2 ^ 32) : head (mapHead n ++ r) = some (.map n, r) := by
  unfold mapHead
  split
  · rename_i h1
    have e1 : ¬ 0x80 + n < 0x80 := by omega
    have e2 : 0x80 + n < 0x90 := by omega
    have e6 : 0x80 + n - 0x80 = n := by omega
    simp only [List.cons_append, List.nil_append, head, if_neg e1, if_pos e2, e6]
  split
  · simp [head, num_be 2 n r (by omega)]
  · simp [head, num_be 4 n r (by omega)]

theorem strict_bytes (s : List Char) : Text.strict (Text.bytes s) = some (Text.cps s) := by
  obtain ⟨m, _, hm⟩ := Text.strictF_bytes s [] (Text.bytes s).length (by simpa using Text.length_le_bytes s)
  rw [List.append_nil, Text.strictF_nil] at hm
  unfold Text.strict
  simpa using hm

theorem ofNat_toNat (s : List Char) : (s.map Char.toNat).map Char.ofNat = s := by
  rw [List.map_map]
  conv_rhs => rw [← List.map_id s]
  apply List.map_congr_left
  intro c _
  simp

theorem strBody_bytes (s : List Char) (r : List Nat) : strBody (Text.bytes s).length (Text.bytes s ++ r) = some (s, r) := by
  unfold strBody
  rw [if_neg (by rw [List.length_append]; omega), List.take_left, List.drop_left, strict_bytes]
  simp only [Text.cps, ofNat_toNat, Option.map_some]

theorem key_str (s : List Char) (r : List Nat) (h : (Text.bytes s).length < 2 ^ 32) : key (encStr s ++ r) = some (s, r) := by
  unfold key encStr
  rw [List.append_assoc, head_str _ _ h]
  exact strBody_bytes s r

/-! ## Values -/

mutual
/-- Numbers are of 64 bits. -/
def Ok : J → Prop
  | .pos n => n < 2 ^ 64
  | .neg n => n < 2 ^ 63
  | .arr l => OkL l
  | .obj m => OkM m
  | _ => True
def OkL : JL → Prop
  | .nil => True
  | .cons h t => Ok h ∧ OkL t
def OkM : JM → Prop
  | .nil => True
  | .cons _ v t => Ok v ∧ OkM t
end

mutual
def jdepth : J → Nat
  | .arr l => jdepthL l + 1
  | .obj m => jdepthM m + 1
  | _ => 0
def jdepthL : JL → Nat
  | .nil => 0
  | .cons h t => max (jdepth h) (jdepthL t)
def jdepthM : JM → Nat
  | .nil => 0
  | .cons _ v t => max (jdepth v) (jdepthM t)
end

theorem strHead_pos (n : Nat) : 0 < (strHead n).length := by unfold strHead; split <;> (try split) <;> (try split) <;> simp
theorem arrHead_pos (n : Nat) : 0 < (arrHead n).length := by unfold arrHead; split <;> (try split) <;> simp
theorem mapHead_pos (n : Nat) : 0 < (mapHead n).length := by unfold mapHead; split <;> (try split) <;> simp

theorem enc_pos (j : J) : 0 < (enc j).length := by
  cases j with
  | null => simp [enc]
  | bool b => simp [enc]
  | pos n => unfold enc encPos; split <;> (try split) <;> (try split) <;> (try split) <;> simp
  | neg n => unfold enc encNeg; split <;> (try split) <;> (try split) <;> (try split) <;> simp
  | float b => simp [enc]
  | str s => have := strHead_pos (Text.bytes s).length; simp only [enc, encStr, List.length_append]; omega
  | arr l => have := arrHead_pos l.len; simp only [enc, List.length_append]; omega
  | obj m => have := mapHead_pos m.len; simp only [enc, List.length_append]; omega

theorem len_encL (l : JL) : l.len ≤ (encL l).length := by
  match l with
  | .nil => simp [JL.len]
  | .cons h t =>
    have := len_encL t
    have := enc_pos h
    simp only [JL.len, encL, List.length_append]
    omega

theorem len_encM (m : JM) : m.len ≤ (encM m).length := by
  match m with
  | .nil => simp [JM.len]
  | .cons k v t =>
    have := len_encM t
    have := enc_pos v
    simp only [JM.len, encM, List.length_append]
    omega

theorem dec_val {d : Nat} {l r : List Nat} {v : J} (h : head l = some (.val v, r)) : dec d l = some (v, r) := by
  cases d <;> (unfold dec body; rw [h])

mutual
theorem dec_enc : ∀ (j : J) (d : Nat) (r : List Nat), Ok j → jdepth j ≤ d → (enc j).length < 2 ^ 32 → dec d (enc j ++ r) = some (j, r)
  | .null, d, r, _, _, _ => dec_val (by simp [enc, head])
  | .bool b, d, r, _, _, _ => dec_val (by cases b <;> simp [enc, head])
  | .pos n, d, r, h, _, _ => dec_val (by simp only [Ok] at h; simp only [enc]; exact head_pos n r h)
  | .neg n, d, r, h, _, _ => dec_val (by simp only [Ok] at h; simp only [enc]; exact head_neg n r h)
  | .float b, d, r, _, _, _ => dec_val (by simp only [enc]; exact head_float b r)
  | .str s, d, r, _, _, hl => by
    simp only [enc, encStr, List.length_append] at hl
    have h1 : head (enc (.str s) ++ r) = some (.str (Text.bytes s).length, Text.bytes s ++ r) := by
      simp only [enc, encStr, List.append_assoc]
      exact head_str _ _ (by omega)
    cases d <;> (unfold dec body; rw [h1]; dsimp only; rw [strBody_bytes]; rfl)
  | .arr l, d, r, h, hd, hl => by
    simp only [Ok] at h
    simp only [jdepth] at hd
    simp only [enc, List.length_append] at hl
    have h0 := len_encL l
    have h1 : head (enc (.arr l) ++ r) = some (.arr l.len, encL l ++ r) := by
      simp only [enc, List.append_assoc]
      exact head_arr _ _ (by omega)
    match d with
    | d + 1 =>
      unfold dec body
      rw [h1]
      dsimp only
      rw [Option.bind_some, seq_enc l d r h (by omega) (by omega)]
      rfl
  | .obj m, d, r, h, hd, hl => by
    simp only [Ok] at h
    simp only [jdepth] at hd
    simp only [enc, List.length_append] at hl
    have h0 := len_encM m
    have h1 : head (enc (.obj m) ++ r) = some (.map m.len, encM m ++ r) := by
      simp only [enc, List.append_assoc]
      exact head_map _ _ (by omega)
    match d with
    | d + 1 =>
      unfold dec body
      rw [h1]
      dsimp only
      rw [Option.bind_some, map_enc m d r h (by omega) (by omega)]
      rfl
theorem seq_enc : ∀ (l : JL) (d : Nat) (r : List Nat), OkL l → jdepthL l ≤ d → (encL l).length < 2 ^ 32 → seqOf (dec d) l.len (encL l ++ r) = some (l, r)
  | .nil, d, r, _, _, _ => by simp [JL.len, seqOf, encL]
  | .cons h t, d, r, ho, hd, hl => by
    simp only [OkL] at ho
    simp only [jdepthL] at hd
    simp only [encL, List.length_append] at hl
    simp only [JL.len, seqOf, encL, List.append_assoc]
    rw [dec_enc h d _ ho.1 (by omega) (by omega)]
    dsimp only
    rw [seq_enc t d r ho.2 (by omega) (by omega)]
    rfl
theorem map_enc : ∀ (m : JM) (d : Nat) (r : List Nat), OkM m → jdepthM m ≤ d → (encM m).length < 2 ^ 32 → mapOf (dec d) m.len (encM m ++ r) = some (m, r)
  | .nil, d, r, _, _, _ => by simp [JM.len, mapOf, encM]
  | .cons k v t, d, r, ho, hd, hl => by
    simp only [OkM] at ho
    simp only [jdepthM] at hd
    simp only [encM, encStr, List.length_append] at hl
    simp only [JM.len, mapOf, encM, List.append_assoc]
    rw [key_str k _ (by omega)]
    dsimp only
    rw [dec_enc v d _ ho.1 (by omega) (by omega)]
    dsimp only
    rw [map_enc t d r ho.2 (by omega) (by omega)]
    rfl
end

mutual
theorem dec_deep : ∀ (j : J) (d : Nat) (r : List Nat), Ok j → d < jdepth j → (enc j).length < 2 ^ 32 → dec d (enc j ++ r) = none
  | .null, d, r, _, h, _ => by simp [jdepth] at h
  | .bool b, d, r, _, h, _ => by simp [jdepth] at h
  | .pos n, d, r, _, h, _ => by simp [jdepth] at h
  | .neg n, d, r, _, h, _ => by simp [jdepth] at h
  | .float b, d, r, _, h, _ => by simp [jdepth] at h
  | .str s, d, r, _, h, _ => by simp [jdepth] at h
  | .arr l, d, r, h, hd, hl => by
    simp only [Ok] at h
    simp only [jdepth] at hd
    simp only [enc, List.length_append] at hl
    have h0 := len_encL l
    have h1 : head (enc (.arr l) ++ r) = some (.arr l.len, encL l ++ r) := by
      simp only [enc, List.append_assoc]
      exact head_arr _ _ (by omega)
    match d with
    | 0 => unfold dec body; rw [h1]; rfl
    | d + 1 =>
      unfold dec body
      rw [h1]
      dsimp only
      rw [Option.bind_some, seq_deep l d r h (by omega) (by omega)]
      rfl
  | .obj m, d, r, h, hd, hl => by
    simp only [Ok] at h
    simp only [jdepth] at hd
    simp only [enc, List.length_append] at hl
    have h0 := len_encM m
    have h1 : head (enc (.obj m) ++ r) = some (.map m.len, encM m ++ r) := by
      simp only [enc, List.append_assoc]
      exact head_map _ _ (by omega)
    match d with
    | 0 => unfold dec body; rw [h1]; rfl
    | d + 1 =>
      unfold dec body
      rw [h1]
      dsimp only
      rw [Option.bind_some, map_deep m d r h (by omega) (by omega)]
      rfl
theorem seq_deep : ∀ (l : JL) (d : Nat) (r : List Nat), OkL l → d < jdepthL l → (encL l).length < 2 ^ 32 → seqOf (dec d) l.len (encL l ++ r) = none
  | .nil, d, r, _, h, _ => by simp [jdepthL] at h
  | .cons h t, d, r, ho, hd, hl => by
    simp only [OkL] at ho
    simp only [jdepthL] at hd
    simp only [encL, List.length_append] at hl
    simp only [JL.len, seqOf, encL, List.append_assoc]
    by_cases hh : d < jdepth h
    · rw [dec_deep h d _ ho.1 hh (by omega)]
    · rw [dec_enc h d _ ho.1 (by omega) (by omega)]
      dsimp only
      rw [seq_deep t d r ho.2 (by omega) (by omega)]
      rfl
theorem map_deep : ∀ (m : JM) (d : Nat) (r : List Nat), OkM m → d < jdepthM m → (encM m).length < 2 ^ 32 → mapOf (dec d) m.len (encM m ++ r) = none
  | .nil, d, r, _, h, _ => by simp [jdepthM] at h
  | .cons k v t, d, r, ho, hd, hl => by
    simp only [OkM] at ho
    simp only [jdepthM] at hd
    simp only [encM, encStr, List.length_append] at hl
    simp only [JM.len, mapOf, encM, List.append_assoc]
    rw [key_str k _ (by omega)]
    dsimp only
    by_cases hh : d < jdepth v
    · rw [dec_deep v d _ ho.1 hh (by omega)]
    · rw [dec_enc v d _ ho.1 (by omega) (by omega)]
      dsimp only
      rw [map_deep t d r ho.2 (by omega) (by omega)]
      rfl
end

/-! ## Python and back -/

theorem text_some {s : List Nat} {t : List Char} (h : text s = some t) : (∀ c ∈ s, c.isValidChar) ∧ t.map Char.toNat = s := by
  unfold text at h
  split at h
  · rename_i hs
    have hv : ∀ c ∈ s, c.isValidChar := by simpa using hs
    refine ⟨hv, ?_⟩
    cases h
    rw [List.map_map]
    conv_rhs => rw [← List.map_id s]
    apply List.map_congr_left
    intro c hc
    have := hv c hc
    simp [Char.ofNat, this, Char.ofNatAux, Char.toNat]
  · cases h

theorem text_isSome (s : List Nat) : (text s).isSome ↔ ∀ c ∈ s, c.isValidChar := by
  unfold text
  split
  · rename_i h; simpa using h
  · rename_i h; simpa using h

/-- What is kept of a value on the way to the wire. -/
structure Kept (p : Py) (j : J) : Prop where
  ok : Ok j
  back : ofJ j = settle p
  deep : jdepth j = depth p
  big : (enc j).length = size p

structure KeptL (p : PL) (j : JL) : Prop where
  ok : OkL j
  back : ofJL j = settleL p
  deep : jdepthL j = depthL p
  big : (encL j).length = sizeL p
  len : j.len = p.len

structure KeptM (p : PM) (j : JM) : Prop where
  ok : OkM j
  back : ofJM j = settleM p
  deep : jdepthM j = depthM p
  big : (encM j).length = sizeM p
  len : j.len = p.len

theorem bytes_size (t : List Char) : (Text.bytes t).length = utf8 (t.map Char.toNat) := by
  induction t with
  | nil => rfl
  | cons c t ih =>
    rw [Text.bytes_cons, List.length_append, ih]
    simp only [utf8, List.map_cons, List.sum_cons]
    congr 1
    unfold Text.enc
    split
    · simp
    split
    · simp
    split
    · simp
    · simp

theorem encStr_size (t : List Char) : (encStr t).length = strSize (utf8 (t.map Char.toNat)) := by
  unfold encStr strSize
  rw [List.length_append, bytes_size]
  unfold strHead
  split
  · simp; omega
  split
  · simp [be_length]; omega
  split
  · simp [be_length]; omega
  · simp [be_length]; omega

theorem arr_size (n : Nat) : (arrHead n).length = lenSize n := by
  unfold arrHead lenSize
  split
  · simp
  split <;> simp [be_length]

theorem map_size (n : Nat) : (mapHead n).length = lenSize n := by
  unfold mapHead lenSize
  split
  · simp
  split <;> simp [be_length]

theorem pos_size (n : Nat) : (encPos n).length = intSize (Int.ofNat n) := by
  unfold encPos intSize
  simp only [Int.ofNat_eq_natCast]
  split
  · rw [if_pos (by omega)]; rfl
  split
  · rw [if_neg (by omega), if_pos (by omega)]; simp [be_length]
  split
  · rw [if_neg (by omega), if_neg (by omega), if_pos (by omega)]; simp [be_length]
  split
  · rw [if_neg (by omega), if_neg (by omega), if_neg (by omega), if_pos (by omega)]; simp [be_length]
  · rw [if_neg (by omega), if_neg (by omega), if_neg (by omega), if_neg (by omega)]; simp [be_length]

theorem neg_size (n : Nat) : (encNeg n).length = intSize (Int.negSucc n) := by
  unfold encNeg intSize
  simp only [Int.negSucc_eq]
  split
  · rw [if_pos (by omega)]; rfl
  split
  · rw [if_neg (by omega), if_pos (by omega)]; simp [be_length]
  split
  · rw [if_neg (by omega), if_neg (by omega), if_pos (by omega)]; simp [be_length]
  split
  · rw [if_neg (by omega), if_neg (by omega), if_neg (by omega), if_pos (by omega)]; simp [be_length]
  · rw [if_neg (by omega), if_neg (by omega), if_neg (by omega), if_neg (by omega)]; simp [be_length]

mutual
theorem toJ_kept : ∀ (p : Py) (j : J), toJ p = some j → Sendable p ∧ Kept p j
  | .none, j, h => by
    simp only [toJ, Option.some.injEq] at h; subst h
    exact ⟨trivial, by constructor <;> simp [Ok, ofJ, settle, jdepth, depth, enc, size]⟩
  | .bool b, j, h => by
    simp only [toJ, Option.some.injEq] at h; subst h
    exact ⟨trivial, by constructor <;> simp [Ok, ofJ, settle, jdepth, depth, enc, size]⟩
  | .int (.ofNat n), j, h => by
    simp only [toJ] at h
    split at h
    · rename_i hn
      cases h
      refine ⟨by simp only [Sendable, Int.ofNat_eq_natCast]; omega, ?_⟩
      constructor
      · simpa [Ok] using hn
      · simp [ofJ, settle]
      · simp [jdepth, depth]
      · simp only [enc, size]; exact pos_size n
    · cases h
  | .int (.negSucc n), j, h => by
    simp only [toJ] at h
    split at h
    · rename_i hn
      cases h
      refine ⟨by simp only [Sendable, Int.negSucc_eq]; omega, ?_⟩
      constructor
      · simpa [Ok] using hn
      · simp [ofJ, settle]
      · simp [jdepth, depth]
      · simp only [enc, size]; exact neg_size n
    · cases h
  | .float b, j, h => by
    simp only [toJ, Option.some.injEq] at h; subst h
    refine ⟨trivial, ?_⟩
    by_cases hf : finite b = true
    · rw [if_pos hf]
      constructor <;> simp [Ok, ofJ, settle, jdepth, depth, enc, size, hf, be_length]
    · rw [if_neg hf]
      constructor <;> simp [Ok, ofJ, settle, jdepth, depth, enc, size, hf]
  | .str s, j, h => by
    simp only [toJ] at h
    cases ht : text s with
    | none => rw [ht] at h; cases h
    | some t =>
      rw [ht] at h
      cases h
      have h1 := text_some ht
      refine ⟨by simpa [Sendable] using h1.1, ?_⟩
      constructor
      · simp [Ok]
      · simp [ofJ, settle, h1.2]
      · simp [jdepth, depth]
      · simp only [enc, size]; rw [encStr_size, h1.2]
  | .list l, j, h => by
    simp only [toJ] at h
    cases ht : toJL l with
    | none => rw [ht] at h; cases h
    | some t =>
      rw [ht] at h
      cases h
      have h1 := toJL_kept l t ht
      refine ⟨by simpa [Sendable] using h1.1, ?_⟩
      constructor
      · simpa [Ok] using h1.2.ok
      · simp [ofJ, settle, h1.2.back]
      · simp [jdepth, depth, h1.2.deep]
      · simp only [enc, size, List.length_append]; rw [arr_size, h1.2.len, h1.2.big]
  | .tuple l, j, h => by
    simp only [toJ] at h
    cases ht : toJL l with
    | none => rw [ht] at h; cases h
    | some t =>
      rw [ht] at h
      cases h
      have h1 := toJL_kept l t ht
      refine ⟨by simpa [Sendable] using h1.1, ?_⟩
      constructor
      · simpa [Ok] using h1.2.ok
      · simp [ofJ, settle, h1.2.back]
      · simp [jdepth, depth, h1.2.deep]
      · simp only [enc, size, List.length_append]; rw [arr_size, h1.2.len, h1.2.big]
  | .dict m, j, h => by
    simp only [toJ] at h
    cases ht : toJM m with
    | none => rw [ht] at h; cases h
    | some t =>
      rw [ht] at h
      cases h
      have h1 := toJM_kept m t ht
      refine ⟨by simpa [Sendable] using h1.1, ?_⟩
      constructor
      · simpa [Ok] using h1.2.ok
      · simp [ofJ, settle, h1.2.back]
      · simp [jdepth, depth, h1.2.deep]
      · simp only [enc, size, List.length_append]; rw [map_size, h1.2.len, h1.2.big]
  | .bytes _, j, h => by simp [toJ] at h
  | .obj _, j, h => by simp [toJ] at h
  | .other, j, h => by simp [toJ] at h
theorem toJL_kept : ∀ (p : PL) (j : JL), toJL p = some j → SendableL p ∧ KeptL p j
  | .nil, j, h => by
    simp only [toJL, Option.some.injEq] at h; subst h
    exact ⟨trivial, by constructor <;> simp [OkL, ofJL, settleL, jdepthL, depthL, encL, sizeL, JL.len, PL.len]⟩
  | .cons a t, j, h => by
    simp only [toJL] at h
    cases h1 : toJ a with
    | none => rw [h1] at h; cases h
    | some a' =>
      cases h2 : toJL t with
      | none => rw [h1, h2] at h; cases h
      | some t' =>
        rw [h1, h2] at h
        cases h
        have k1 := toJ_kept a a' h1
        have k2 := toJL_kept t t' h2
        refine ⟨by simp only [SendableL]; exact ⟨k1.1, k2.1⟩, ?_⟩
        constructor
        · simp only [OkL]; exact ⟨k1.2.ok, k2.2.ok⟩
        · simp [ofJL, settleL, k1.2.back, k2.2.back]
        · simp [jdepthL, depthL, k1.2.deep, k2.2.deep]
        · simp [encL, sizeL, k1.2.big, k2.2.big]
        · simp [JL.len, PL.len, k2.2.len]
theorem toJM_kept : ∀ (p : PM) (j : JM), toJM p = some j → SendableM p ∧ KeptM p j
  | .nil, j, h => by
    simp only [toJM, Option.some.injEq] at h; subst h
    exact ⟨trivial, by constructor <;> simp [OkM, ofJM, settleM, jdepthM, depthM, encM, sizeM, JM.len, PM.len]⟩
  | .cons k v t, j, h => by
    simp only [toJM] at h
    cases h0 : k.bind text with
    | none => rw [h0] at h; cases h
    | some k' =>
      cases h1 : toJ v with
      | none => rw [h0, h1] at h; cases h
      | some v' =>
        cases h2 : toJM t with
        | none => rw [h0, h1, h2] at h; cases h
        | some t' =>
          rw [h0, h1, h2] at h
          cases h
          obtain ⟨s, hs, hst⟩ := Option.bind_eq_some_iff.mp h0
          have k0 := text_some hst
          have k1 := toJ_kept v v' h1
          have k2 := toJM_kept t t' h2
          refine ⟨by simp only [SendableM]; exact ⟨⟨s, hs, k0.1⟩, k1.1, k2.1⟩, ?_⟩
          constructor
          · simp only [OkM]; exact ⟨k1.2.ok, k2.2.ok⟩
          · simp [ofJM, settleM, k1.2.back, k2.2.back, k0.2, hs]
          · simp [jdepthM, depthM, k1.2.deep, k2.2.deep]
          · simp only [encM, sizeM, List.length_append, k1.2.big, k2.2.big, encStr_size, k0.2, hs, Option.getD_some]; omega
          · simp [JM.len, PM.len, k2.2.len]
end

mutual
theorem toJ_total : ∀ (p : Py), Sendable p → ∃ j, toJ p = some j
  | .none, _ => ⟨_, rfl⟩
  | .bool _, _ => ⟨_, rfl⟩
  | .int (.ofNat n), h => by
    simp only [Sendable, Int.ofNat_eq_natCast] at h
    exact ⟨.pos n, by simp only [toJ]; rw [if_pos (by omega)]⟩
  | .int (.negSucc n), h => by
    simp only [Sendable, Int.negSucc_eq] at h
    exact ⟨.neg n, by simp only [toJ]; rw [if_pos (by omega)]⟩
  | .float _, _ => ⟨_, rfl⟩
  | .str s, h => by
    simp only [Sendable] at h
    obtain ⟨t, ht⟩ := Option.isSome_iff_exists.mp ((text_isSome s).mpr h)
    exact ⟨.str t, by simp only [toJ]; rw [ht]; rfl⟩
  | .list l, h => by
    simp only [Sendable] at h
    obtain ⟨t, ht⟩ := toJL_total l h
    exact ⟨.arr t, by simp only [toJ]; rw [ht]; rfl⟩
  | .tuple l, h => by
    simp only [Sendable] at h
    obtain ⟨t, ht⟩ := toJL_total l h
    exact ⟨.arr t, by simp only [toJ]; rw [ht]; rfl⟩
  | .dict m, h => by
    simp only [Sendable] at h
    obtain ⟨t, ht⟩ := toJM_total m h
    exact ⟨.obj t, by simp only [toJ]; rw [ht]; rfl⟩
  | .bytes _, h => by simp [Sendable] at h
  | .obj _, h => by simp [Sendable] at h
  | .other, h => by simp [Sendable] at h
theorem toJL_total : ∀ (p : PL), SendableL p → ∃ j, toJL p = some j
  | .nil, _ => ⟨_, rfl⟩
  | .cons a t, h => by
    simp only [SendableL] at h
    obtain ⟨a', h1⟩ := toJ_total a h.1
    obtain ⟨t', h2⟩ := toJL_total t h.2
    exact ⟨.cons a' t', by simp only [toJL]; rw [h1, h2]⟩
theorem toJM_total : ∀ (p : PM), SendableM p → ∃ j, toJM p = some j
  | .nil, _ => ⟨_, rfl⟩
  | .cons k v t, h => by
    simp only [SendableM] at h
    obtain ⟨⟨s, hs, hv⟩, h1, h2⟩ := h
    obtain ⟨k', h0⟩ := Option.isSome_iff_exists.mp ((text_isSome s).mpr hv)
    obtain ⟨v', h1⟩ := toJ_total v h1
    obtain ⟨t', h2⟩ := toJM_total t h2
    exact ⟨.cons k' v' t', by simp only [toJM]; rw [hs, Option.bind_some, h0, h1, h2]⟩
end

mutual
theorem settle_plain : ∀ (p : Py), Plain p → settle p = p
  | .none, _ => by simp [settle]
  | .bool _, _ => by simp [settle]
  | .int _, _ => by simp [settle]
  | .float b, h => by simp only [Plain] at h; simp [settle, h]
  | .str _, _ => by simp [settle]
  | .list l, h => by simp only [Plain] at h; simp [settle, settleL_plain l h]
  | .tuple _, h => by simp [Plain] at h
  | .dict m, h => by simp only [Plain] at h; simp [settle, settleM_plain m h]
  | .bytes _, _ => by simp [settle]
  | .obj _, _ => by simp [settle]
  | .other, _ => by simp [settle]
theorem settleL_plain : ∀ (p : PL), PlainL p → settleL p = p
  | .nil, _ => by simp [settleL]
  | .cons a t, h => by simp only [PlainL] at h; simp [settleL, settle_plain a h.1, settleL_plain t h.2]
theorem settleM_plain : ∀ (p : PM), PlainM p → settleM p = p
  | .nil, _ => by simp [settleM]
  | .cons k v t, h => by simp only [PlainM] at h; simp [settleM, settle_plain v h.1, settleM_plain t h.2]
end

/-! ## Properties -/

/-- **Which values are refused, and how**: TypeError exactly for what is not sendable, ValueError exactly for what is but
takes more than 4096 bytes as MessagePack. -/
theorem send_exact (p : Py) :
    (send p = .typeError ↔ ¬ Sendable p) ∧ (send p = .valueError ↔ Sendable p ∧ 4096 < size p) ∧
    ((∃ m, send p = .sent m) ↔ Sendable p ∧ size p ≤ 4096) := by
  unfold send
  cases hj : toJ p with
  | none =>
    have : ¬ Sendable p := fun h => by obtain ⟨j, h'⟩ := toJ_total p h; rw [hj] at h'; cases h'
    simp [this]
  | some j =>
    obtain ⟨hs, hk⟩ := toJ_kept p j hj
    have hb := hk.big
    have hp := Generic.payload_round_trip (enc j)
    by_cases h : (enc j).length ≤ 4096
    · obtain ⟨g, hg, _⟩ := hp.1 h
      have h1 : ¬ 4096 < size p := by omega
      have h2 : size p ≤ 4096 := by omega
      simp [hg, hs, h1, h2]
    · have hg := hp.2 (by omega)
      have h1 : 4096 < size p := by omega
      have h2 : ¬ size p ≤ 4096 := by omega
      simp [hg, hs, h1, h2]

/-- **What is sent is what arrives**, tuples as lists and floats that are not finite as None: for every value the topic
takes and that is not nested deeper than the reader allows. -/
theorem received_settled (lim : Nat) (p : Py) (m : Generic.Msg) (h : send p = .sent m) (hd : depth p ≤ lim) :
    recv lim (some m) = .value (settle p) := by
  unfold send at h
  cases hj : toJ p with
  | none => rw [hj] at h; cases h
  | some j =>
    rw [hj] at h
    dsimp only at h
    cases hg : Generic.new (enc j) with
    | none => rw [hg] at h; cases h
    | some g =>
      rw [hg] at h
      cases h
      obtain ⟨_, hdata, _, hlen⟩ := Generic.new_cases hg
      obtain ⟨_, hk⟩ := toJ_kept p j hj
      have hdec := dec_enc j lim [] hk.ok (by rw [hk.deep]; exact hd) (by omega)
      rw [List.append_nil] at hdec
      unfold recv
      dsimp only
      rw [hdata]
      dsimp only
      rw [hdec]
      dsimp only
      rw [hk.back]

/-- **A value of lists, dicts, text, integers, finite floats, booleans and None arrives unchanged**, whatever its shape, if
it fits 4096 bytes and is not nested deeper than the reader allows. -/
theorem received_same_partial (lim : Nat) (p : Py) (hs : Sendable p) (hp : Plain p) (hz : size p ≤ 4096) (hd : depth p ≤ lim) :
    ∃ m, send p = .sent m ∧ recv lim (some m) = .value p := by
  obtain ⟨m, hm⟩ := (send_exact p).2.2.mpr ⟨hs, hz⟩
  exact ⟨m, hm, by rw [received_settled lim p m hm hd, settle_plain p hp]⟩

/-- **A value nested deeper is taken by the sender and lost at the receiver**, which raises. -/
theorem deep_lost (lim : Nat) (p : Py) (m : Generic.Msg) (h : send p = .sent m) (hd : lim < depth p) : recv lim (some m) = .error := by
  unfold send at h
  cases hj : toJ p with
  | none => rw [hj] at h; cases h
  | some j =>
    rw [hj] at h
    dsimp only at h
    cases hg : Generic.new (enc j) with
    | none => rw [hg] at h; cases h
    | some g =>
      rw [hg] at h
      cases h
      obtain ⟨_, hdata, _, hlen⟩ := Generic.new_cases hg
      obtain ⟨_, hk⟩ := toJ_kept p j hj
      have hdec := dec_deep j lim [] hk.ok (by rw [hk.deep]; exact hd) (by omega)
      rw [List.append_nil] at hdec
      unfold recv
      dsimp only
      rw [hdata]
      dsimp only
      rw [hdec]

/-- A list in a list in a list, `n` deep. -/
def nest : Nat → Py
  | 0 => .none
  | n + 1 => .list (.cons (nest n) .nil)

theorem nest_facts (n : Nat) : Sendable (nest n) ∧ depth (nest n) = n ∧ size (nest n) = n + 1 ∧ Plain (nest n) := by
  induction n with
  | zero => simp [nest, Sendable, depth, size, Plain]
  | succ n ih =>
    obtain ⟨h1, h2, h3, h4⟩ := ih
    refine ⟨?_, ?_, ?_, ?_⟩
    · simp [nest, Sendable, SendableL, h1]
    · simp [nest, depth, depthL, h2]
    · simp [nest, size, sizeL, PL.len, lenSize, h3]; omega
    · simp [nest, Plain, PlainL, h4]

/-- **The property fails for nesting**: whatever limit below 4095 the reader has, a plain value exists that is sent and then
makes the receiver raise. -/
theorem nesting_lost (lim : Nat) (h : lim < 4095) :
    ∃ p m, Plain p ∧ send p = .sent m ∧ recv lim (some m) = .error := by
  obtain ⟨h1, h2, h3, h4⟩ := nest_facts (lim + 1)
  obtain ⟨m, hm⟩ := (send_exact (nest (lim + 1))).2.2.mpr ⟨h1, by omega⟩
  exact ⟨_, m, h4, hm, deep_lost lim _ m hm (by omega)⟩

/-- **A message of None, of NaN or of an infinity looks like no message.** -/
theorem none_looks_empty (lim : Nat) (p : Py) (h : p = .none ∨ ∃ b, p = .float b ∧ finite b = false) :
    ∃ m, send p = .sent m ∧ recv lim (some m) = recv lim none := by
  have hs : Sendable p ∧ size p ≤ 4096 ∧ depth p ≤ lim ∧ settle p = .none := by
    rcases h with h | ⟨b, h, hb⟩ <;> subst h
    · simp [Sendable, size, depth, settle]
    · simp [Sendable, size, depth, settle, hb]
  obtain ⟨m, hm⟩ := (send_exact p).2.2.mpr ⟨hs.1, hs.2.1⟩
  refine ⟨m, hm, ?_⟩
  rw [received_settled lim p m hm hs.2.2.1, hs.2.2.2]
  rfl

/-- NaN. -/
example : finite 0x7ff8000000000000 = false := by decide
/-- 1.5 is finite. -/
example : finite 0x3ff8000000000000 = true := by decide

/-- **Any other message is told apart from none.** -/
theorem some_looks_some (lim : Nat) (p : Py) (m : Generic.Msg) (h : send p = .sent m) (hd : depth p ≤ lim)
    (hn : p ≠ .none) (hf : ∀ b, p = .float b → finite b = true) : recv lim (some m) ≠ recv lim none := by
  rw [received_settled lim p m h hd]
  unfold recv
  intro he
  injection he with he
  cases p with
  | none => exact hn rfl
  | float b => have := hf b rfl; simp [settle, this] at he
  | _ => simp [settle] at he

/-- **Two values that arrive as the same were the same** up to tuples and floats that are not finite. -/
theorem told_apart (lim : Nat) (p q : Py) (m : Generic.Msg) (hp : send p = .sent m) (hq : send q = .sent m)
    (h1 : depth p ≤ lim) (h2 : depth q ≤ lim) : settle p = settle q := by
  have a := received_settled lim p m hp h1
  have b := received_settled lim q m hq h2
  rw [a] at b
  injection b

/-- **A node sends an object that is not a plain value as the dict of its attributes**, and raises for whatever else the
topic refuses; what the topic takes is sent as it is. -/
theorem node_send (p : Py) :
    (Sendable p → nodeSend p = send p) ∧
    (∀ a, p = .obj a → a ≠ .nil → nodeSend p = send (.dict a)) ∧
    (¬ Sendable p → (∀ a, p ≠ .obj a) → nodeSend p = .typeError) ∧ nodeSend (.obj .nil) = .typeError := by
  refine ⟨fun h => ?_, fun a ha hn => ?_, fun h ho => ?_, rfl⟩
  · have hne : send p ≠ .typeError := fun he => (send_exact p).1.mp he h
    unfold nodeSend
    split
    · rename_i h1; exact absurd h1 hne
    · rfl
  · subst ha
    have : send (.obj a) = .typeError := rfl
    unfold nodeSend
    rw [this]
    cases a with
    | nil => exact absurd rfl hn
    | cons k v t => rfl
  · have := (send_exact p).1.mpr h
    unfold nodeSend
    rw [this]
    cases p with
    | obj a => exact absurd rfl (ho a)
    | _ => rfl

/-- **An object inside an object is refused**: only the outermost one is converted. -/
theorem node_send_inner (k : List Nat) (a t : PM) : nodeSend (.obj (.cons (some k) (.obj a) t)) = .typeError := by
  rw [(node_send _).2.1 _ rfl (by simp)]
  rw [(send_exact _).1]
  simp [Sendable, SendableM]

/-! A robot's status: a dict with a list, text and numbers. -/

def status : Py :=
  .dict (.cons (some [120]) (.list (.cons (.int 1) (.cons (.int (-300)) (.cons (.float 0x3ff8000000000000) .nil))))
    (.cons (some [107, 233]) (.str [8364, 128512]) (.cons (some []) (.bool true) .nil)))

example : Sendable status ∧ Plain status ∧ size status ≤ 4096 ∧ depth status ≤ 1023 := by
  simp [status, Sendable, SendableM, SendableL, Plain, PlainM, PlainL, size, sizeM, sizeL, depth, depthM, depthL, PM.len, PL.len,
    lenSize, strSize, utf8, intSize, finite, Nat.isValidChar]

/-- A tuple of NaN and a pair arrives as a list of None and a list. -/
example (lim : Nat) (h : 2 ≤ lim) : ∃ m, send (.tuple (.cons (.float 0x7ff8000000000000) (.cons (.tuple (.cons (.int 7) .nil)) .nil))) = .sent m ∧
    recv lim (some m) = .value (.list (.cons .none (.cons (.list (.cons (.int 7) .nil)) .nil))) := by
  obtain ⟨m, hm⟩ := (send_exact (.tuple (.cons (.float 0x7ff8000000000000) (.cons (.tuple (.cons (.int 7) .nil)) .nil)))).2.2.mpr
    (by simp [Sendable, SendableL, size, sizeL, PL.len, lenSize, intSize, finite])
  refine ⟨m, hm, ?_⟩
  rw [received_settled lim _ m hm (by simp [depth, depthL]; omega)]
  have hf : finite 0x7ff8000000000000 = false := by decide
  simp [settle, settleL, hf]

end Horus.PyValues
