import Verif.Common.Bytes
/-
Specification side for the optimizers: what a delta means, and what was last handed in on a topic.
Nothing here refers to the model of the code.
-/
namespace Horus.Optimize.Spec

/-- Overwrite `data.length` bytes of `cur` from offset `off`. -/
def patch (cur : Bytes) (off : Nat) (data : Bytes) : Bytes :=
  cur.take off ++ (data ++ cur.drop (off + data.length))

/-- The documented delta format (delta.rs:118-127): a sequence of regions
`[offset u16][length u16][bytes]`, each overwriting part of the previous payload. `none` if the
bytes are not such a sequence or a region is out of range. -/
def applyDelta (cur d : Bytes) : Option Bytes :=
  if d = [] then some cur
  else if d.length < 4 then none
  else
    let off := leAt d 0 2
    let len := leAt d 2 2
    if 4 + len ≤ d.length ∧ off + len ≤ cur.length then
      applyDelta (patch cur off (slice d 4 len)) (d.drop (4 + len))
    else none
termination_by d.length
decreasing_by
  simp only [List.length_drop]; omega

/-- The payload most recently handed in on topic `t`. -/
def lastHanded (hist : List (Nat × Bytes)) (t : Nat) : Option Bytes :=
  ((hist.filter fun m => decide (m.1 = t)).getLast?).map Prod.snd

/-- Number of messages of topic `t` in a history. -/
def countTopic (hist : List (Nat × Bytes)) (t : Nat) : Nat :=
  (hist.filter fun m => decide (m.1 = t)).length

end Horus.Optimize.Spec
