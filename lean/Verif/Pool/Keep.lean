import Verif.Ring.Common
import Mathlib.Data.List.GetD
/-
Messages whose data lives in a shared pool: Image, PointCloud, DepthImage and tensor handles, sent
through topics by descriptor. Sources: horus_core/src/memory/tensor_handle.rs, memory/mod.rs:48-240
(impl_tensor_backed: clone, drop, from_owned), communication/topic/topic_message.rs:104-150, 195-235,
communication/topic/mod.rs:2664-2728, 3187-3420 (send, try_send, recv and the producer's keep-alive).
Simplifications: one pool operation is one transition (Verif.Pool has the concurrent implementation); a
descriptor is the allocation it was issued for (slot and generation), so a stale one is an allocation
whose count is zero (`Horus.Pool.references_current`); the count has no upper limit; the ring between
the ends is arbitrary: a send may fail to put its descriptor in it, and a receive may find any descriptor
that was ever put in it, so the safety theorems hold for every backend; topic handles are not shared
between threads (mod.rs:727-735 forbids it); shapes are in Verif.Pool.Shape; processes do not crash.
-/
namespace Horus.Pool.Keep

/-- One allocation: the pool's id and a number never used again (slot and generation of a descriptor).
Source: types/tensor.rs, tensor_pool.rs:705-872. -/
structure Buf where
  pool : Nat
  id : Nat
deriving DecidableEq

/-- A value a user holds (Image, PointCloud, DepthImage, TensorHandle): its descriptor and the pool object
on which it retains and releases. Source: memory/image.rs:44-47, tensor_handle.rs:38-41. -/
structure Handle where
  buf : Buf
  via : Nat
deriving DecidableEq

/-- The kind of a topic handle: an Image, PointCloud or DepthImage topic, or a tensor topic with its own
pool. Source: mod.rs:2910-2914 and mod.rs:3357-3359. -/
inductive Kind
  | image
  | tensor (pool : Nat)
deriving DecidableEq

/-- Pool of the process for everything that is not a tensor topic (pool_registry.rs:73-81). -/
def globalPool : Nat := 0

/-- The pool a topic handle receives into (mod.rs:2910-2914, 3357-3359). -/
def Kind.pool : Kind → Nat
  | .image => globalPool
  | .tensor p => p

/-- `rc`: reference counts; `val`: contents (one number stands for the bytes); `next`: allocations so far;
`held`: values in the hands of users; `keeps`: the keep-alive of each topic handle (mod.rs:2656);
`log`: descriptors put in the ring. -/
structure St where
  rc : Buf → Nat
  val : Buf → Nat
  next : Nat
  held : List Handle
  keeps : List (Option Handle)
  log : List Buf

/-- Nothing allocated, `n` topic handles that have sent nothing. No source: model infrastructure. -/
def St.init (n : Nat) : St := { rc := fun _ => 0, val := fun _ => 0, next := 0, held := [], keeps := List.replicate n none, log := [] }

/-- tensor_pool.rs:969-1000 `retain`: nothing happens for a foreign pool or a freed allocation. -/
def retain (rc : Buf → Nat) (h : Handle) : Buf → Nat :=
  fun b => if b = h.buf ∧ h.via = b.pool ∧ rc b ≠ 0 then rc b + 1 else rc b

/-- tensor_pool.rs:1092-1125 `release`. -/
def release (rc : Buf → Nat) (h : Handle) : Buf → Nat :=
  fun b => if b = h.buf ∧ h.via = b.pool then rc b - 1 else rc b

/-- mod.rs:2667-2674 and 2709-2714: what happens to the keep-alive that is replaced. -/
def releaseOld (rc : Buf → Nat) : Option Handle → (Buf → Nat)
  | none => rc
  | some k => release rc k

/-- The keep-alive of a message: on the topic's pool for images (mod.rs:2680-2697), on the handle's own
for tensors (mod.rs:3389). -/
def keepOf (k : Kind) (h : Handle) : Handle :=
  match k with
  | .image => ⟨h.buf, globalPool⟩
  | .tensor _ => h

/-- What can happen. `ok` tells whether the ring took the descriptor. -/
inductive Act
  | alloc (p : Nat)
  | clone (h : Handle)
  | drop (h : Handle)
  | write (h : Handle) (v : Nat)
  | send (t : Nat) (h : Handle) (ok : Bool)
  | trySend (t : Nat) (h : Handle) (ok : Bool)
  | recv (t : Nat) (k : Nat)
  | close (t : Nat)
deriving DecidableEq

/-- Image::new_on (image.rs:73-92), TensorHandle::alloc (tensor_handle.rs:88-98): count 1, zeroed. -/
def alloc (s : St) (p : Nat) : St :=
  let b : Buf := ⟨p, s.next⟩
  { s with rc := fun x => if x = b then 1 else s.rc x, val := fun x => if x = b then 0 else s.val x, next := s.next + 1, held := ⟨b, p⟩ :: s.held }

/-- mod.rs:3194-3210 `send` (and 3249-3270, 3304-3325), mod.rs:3377-3392 `send_handle`: retain, replace
the keep-alive and release the old one, then offer the descriptor to the ring. -/
def send (kind : Nat → Kind) (s : St) (t : Nat) (h : Handle) (ok : Bool) : St :=
  let rc1 := retain s.rc h
  let rc2 := releaseOld rc1 (s.keeps.getD t none)
  { s with rc := rc2, keeps := s.keeps.set t (some (keepOf (kind t) h)), log := if ok then s.log ++ [h.buf] else s.log }

/-- mod.rs:3213-3222 `try_send`: retain, offer; if taken, replace the keep-alive; otherwise rebuild the value
from the descriptor on the topic's pool (topic_message.rs:118-121); the caller's value is dropped either way. -/
def trySend (kind : Nat → Kind) (s : St) (t : Nat) (h : Handle) (ok : Bool) : St :=
  let rc1 := retain s.rc h
  if ok then
    let rc2 := releaseOld rc1 (s.keeps.getD t none)
    { s with rc := release rc2 h, held := s.held.erase h, keeps := s.keeps.set t (some (keepOf (kind t) h)), log := s.log ++ [h.buf] }
  else { s with rc := release rc1 h, held := ⟨h.buf, (kind t).pool⟩ :: s.held.erase h }

/-- The descriptor of a receive becomes a value if `try_retain` succeeds (topic_message.rs:124-136,
tensor_pool.rs:1007-1084). -/
def accept (kind : Nat → Kind) (s : St) (t : Nat) (b : Buf) : Option Handle :=
  if b.pool = (kind t).pool ∧ s.rc b ≠ 0 then some ⟨b, (kind t).pool⟩ else none

/-- What `recv` returns when the ring yields the `k`-th descriptor (mod.rs:3225-3238, 3397-3420). -/
def recvValue (kind : Nat → Kind) (s : St) (t k : Nat) : Option Handle := s.log[k]?.bind (accept kind s t)

/-- mod.rs:3225-3238 `recv`, 3397-3420 `recv_handle`. -/
def recv (kind : Nat → Kind) (s : St) (t k : Nat) : St :=
  match recvValue kind s t k with
  | some h => { s with rc := retain s.rc h, held := h :: s.held }
  | none => s

/-- One action. Values are cloned, dropped, written and sent by those who hold them; `try_send` exists for
images only; a topic handle is closed by dropping it (mod.rs:2717-2727).
Clone: tensor_handle.rs:359-367; views are clones with another shape (326-339). Drop: 369-373. -/
def step (kind : Nat → Kind) (s : St) : Act → St
  | .alloc p => alloc s p
  | .clone h => if h ∈ s.held then { s with rc := retain s.rc h, held := h :: s.held } else s
  | .drop h => if h ∈ s.held then { s with rc := release s.rc h, held := s.held.erase h } else s
  -- data_slice_mut checks the pool's id (tensor_pool.rs:1312-1365)
  | .write h v => if h ∈ s.held ∧ h.via = h.buf.pool then { s with val := fun x => if x = h.buf then v else s.val x } else s
  | .send t h ok => if h ∈ s.held ∧ t < s.keeps.length then send kind s t h ok else s
  | .trySend t h ok => if h ∈ s.held ∧ t < s.keeps.length ∧ kind t = .image then trySend kind s t h ok else s
  | .recv t k => recv kind s t k
  | .close t => { s with rc := releaseOld s.rc (s.keeps.getD t none), keeps := s.keeps.set t none }

/-- A history. No source: model infrastructure. -/
def run (kind : Nat → Kind) (s : St) (as : List Act) : St := as.foldl (step kind) s

/-! ### Specification -/

/-- Values in users' hands that can reach the buffer. -/
def users (s : St) (b : Buf) : Nat := s.held.count ⟨b, b.pool⟩

/-- Topic handles that keep the buffer alive for receivers. -/
def keepers (s : St) (b : Buf) : Nat := s.keeps.count (some ⟨b, b.pool⟩)

/-- The action sends the buffer through an image topic. -/
def imageSend (kind : Nat → Kind) (b : Buf) : Act → Bool
  | .send t h _ => decide (kind t = .image) && decide (h.buf = b)
  | .trySend _ h _ => decide (h.buf = b)
  | _ => false

/-! ### Invariant -/

structure Inv (s : St) : Prop where
  via : ∀ h ∈ s.held, h.via = h.buf.pool ∨ h.via = globalPool
  fresh : ∀ b : Buf, s.next ≤ b.id → s.rc b = 0 ∧ (∀ h ∈ s.held, h.buf ≠ b) ∧ (∀ k, some k ∈ s.keeps → k.buf ≠ b) ∧ b ∉ s.log
  bal : ∀ b, users s b + keepers s b ≤ s.rc b

theorem inv_init (n : Nat) : Inv (St.init n) := by
  refine ⟨by simp [St.init], ?_, ?_⟩
  · intro b _
    simp [St.init, List.mem_replicate]
  · intro b
    simp [users, keepers, St.init, List.count_replicate]

theorem hit_iff (h : Handle) (b : Buf) : h = ⟨b, b.pool⟩ ↔ b = h.buf ∧ h.via = b.pool := by
  constructor
  · intro e; rw [e]; exact ⟨rfl, rfl⟩
  · rintro ⟨e1, e2⟩; cases h; subst e1; simp at e2; simp [e2]

theorem retain_at (rc : Buf → Nat) (h : Handle) (b : Buf) :
    retain rc h b = if h = ⟨b, b.pool⟩ ∧ rc b ≠ 0 then rc b + 1 else rc b := by
  unfold retain
  simp only [hit_iff, and_assoc]

theorem release_at (rc : Buf → Nat) (h : Handle) (b : Buf) :
    release rc h b = if h = ⟨b, b.pool⟩ then rc b - 1 else rc b := by
  unfold release
  simp only [hit_iff]

theorem releaseOld_at (rc : Buf → Nat) (k : Option Handle) (b : Buf) :
    releaseOld rc k b = if k = some ⟨b, b.pool⟩ then rc b - 1 else rc b := by
  cases k with
  | none => simp [releaseOld]
  | some k => simp [releaseOld, release_at]

theorem count_set_keep (l : List (Option Handle)) (t : Nat) (ht : t < l.length) (v w : Option Handle) :
    (l.set t v).count w + (if l.getD t none = w then 1 else 0) = l.count w + (if v = w then 1 else 0) := by
  rw [List.count_set ht, List.getD_eq_getElem _ _ ht]
  have hpos : l[t] = w → 0 < l.count w := fun e => List.count_pos_iff.mpr (e ▸ List.getElem_mem ht)
  by_cases h1 : l[t] = w <;> by_cases h2 : v = w
  · have := hpos h1; simp [h1, h2]; omega
  · have := hpos h1; simp [h1, h2]; omega
  · simp [h1, h2]
  · simp [h1, h2]

theorem held_pos {s : St} {h : Handle} {b : Buf} (hm : h ∈ s.held) (e : h = ⟨b, b.pool⟩) : 0 < users s b := by
  unfold users
  exact List.count_pos_iff.mpr (e ▸ hm)

theorem keep_pos {s : St} {t : Nat} {b : Buf} (ht : t < s.keeps.length) (e : s.keeps.getD t none = some ⟨b, b.pool⟩) :
    0 < keepers s b := by
  unfold keepers
  rw [List.getD_eq_getElem _ _ ht] at e
  exact List.count_pos_iff.mpr (e ▸ List.getElem_mem ht)

/-- The balance of one buffer before and after one action: references counted minus references accounted
for never shrinks, and only an image topic changes it, for a buffer of another pool. -/
theorem step_bal {kind : Nat → Kind} {s : St} (h : Inv s) (a : Act) (b : Buf) :
    users (step kind s a) b + keepers (step kind s a) b ≤ (step kind s a).rc b ∧
    (b.pool = globalPool ∨ imageSend kind b a = false → s.rc b = users s b + keepers s b →
      (step kind s a).rc b = users (step kind s a) b + keepers (step kind s a) b) ∧
    s.rc b - (users s b + keepers s b) ≤ (step kind s a).rc b - (users (step kind s a) b + keepers (step kind s a) b) := by
  have hb := h.bal b
  cases a with
  | alloc p =>
    by_cases e : b = ⟨p, s.next⟩
    · have hf := h.fresh b (by rw [e]; exact Nat.le_refl _)
      have h0 : users s b = 0 := by
        unfold users
        rw [List.count_eq_zero]
        intro hm
        exact hf.2.1 _ hm rfl
      have h1 : keepers s b = 0 := by
        unfold keepers
        rw [List.count_eq_zero]
        intro hm
        exact hf.2.2.1 _ hm rfl
      have e1 : (step kind s (.alloc p)).rc b = 1 := by simp [step, alloc, e]
      have e2 : users (step kind s (.alloc p)) b = 1 := by
        show (List.count (⟨b, b.pool⟩ : Handle) (⟨⟨p, s.next⟩, p⟩ :: s.held)) = 1
        rw [List.count_cons, if_pos (by rw [e]; simp)]
        unfold users at h0
        omega
      have e3 : keepers (step kind s (.alloc p)) b = 0 := h1
      rw [e1, e2, e3, hf.1]
      omega
    · have e1 : (step kind s (.alloc p)).rc b = s.rc b := by simp [step, alloc, e]
      have e2 : users (step kind s (.alloc p)) b = users s b := by
        show (List.count (⟨b, b.pool⟩ : Handle) (⟨⟨p, s.next⟩, p⟩ :: s.held)) = _
        rw [List.count_cons, if_neg]
        · rfl
        · intro hh
          exact e (by have := congrArg Handle.buf (eq_of_beq hh); exact this.symm)
      have e3 : keepers (step kind s (.alloc p)) b = keepers s b := rfl
      rw [e1, e2, e3]
      exact ⟨hb, fun _ hh => hh, Nat.le_refl _⟩
  | clone x =>
    simp only [step]
    split_ifs with hm
    · have e1 : users { s with rc := retain s.rc x, held := x :: s.held } b = users s b + if x = ⟨b, b.pool⟩ then 1 else 0 := by
        simp only [users, List.count_cons, beq_iff_eq]
      have e2 : keepers { s with rc := retain s.rc x, held := x :: s.held } b = keepers s b := rfl
      rw [e1, e2]
      show users s b + _ + keepers s b ≤ retain s.rc x b ∧ (_ → _ → retain s.rc x b = _) ∧ _ ≤ retain s.rc x b - _
      rw [retain_at]
      by_cases hx : x = ⟨b, b.pool⟩
      · have hp := held_pos hm hx
        have hne : s.rc b ≠ 0 := by omega
        simp only [eq_true hx, eq_true hne, and_self, if_true]
        omega
      · simp only [eq_false hx, false_and, if_false]
        omega
    · exact ⟨hb, fun _ hh => hh, Nat.le_refl _⟩
  | drop x =>
    simp only [step]
    split_ifs with hm
    · have e1 : users { s with rc := release s.rc x, held := s.held.erase x } b = users s b - if x = ⟨b, b.pool⟩ then 1 else 0 := by
        simp only [users, List.count_erase, beq_iff_eq]
      have e2 : keepers { s with rc := release s.rc x, held := s.held.erase x } b = keepers s b := rfl
      rw [e1, e2]
      show users s b - _ + keepers s b ≤ release s.rc x b ∧ (_ → _ → release s.rc x b = _) ∧ _ ≤ release s.rc x b - _
      rw [release_at]
      by_cases hx : x = ⟨b, b.pool⟩
      · have hp := held_pos hm hx
        simp only [eq_true hx, if_true]
        omega
      · simp only [eq_false hx, if_false]
        omega
    · exact ⟨hb, fun _ hh => hh, Nat.le_refl _⟩
  | write x v =>
    simp only [step]
    split_ifs with hm
    · exact ⟨hb, fun _ hh => hh, Nat.le_refl _⟩
    · exact ⟨hb, fun _ hh => hh, Nat.le_refl _⟩
  | send t x ok =>
    simp only [step]
    split_ifs with hm
    · obtain ⟨hm, ht⟩ := hm
      have e1 : users (send kind s t x ok) b = users s b := rfl
      have e2 := count_set_keep s.keeps t ht (some (keepOf (kind t) x)) (some ⟨b, b.pool⟩)
      have e3 : (send kind s t x ok).rc b = releaseOld (retain s.rc x) (s.keeps.getD t none) b := rfl
      have e4 : keepers (send kind s t x ok) b = (s.keeps.set t (some (keepOf (kind t) x))).count (some ⟨b, b.pool⟩) := rfl
      have e5 : keepers s b = s.keeps.count (some ⟨b, b.pool⟩) := rfl
      rw [e1, e3, e4, releaseOld_at, retain_at]
      have hv := h.via x hm
      have hkx : keepOf (kind t) x = ⟨b, b.pool⟩ → x = ⟨b, b.pool⟩ := by
        intro hk
        unfold keepOf at hk
        split at hk
        · have h1 : x.buf = b := congrArg Handle.buf hk
          have h2 : globalPool = b.pool := congrArg Handle.via hk
          rw [hit_iff]
          refine ⟨h1.symm, ?_⟩
          rw [h1] at hv
          rcases hv with hv | hv
          · exact hv
          · rw [hv, h2]
        · exact hk
      have hxk : b.pool = globalPool ∨ imageSend kind b (.send t x ok) = false → x = ⟨b, b.pool⟩ → keepOf (kind t) x = ⟨b, b.pool⟩ := by
        intro ho hx
        unfold keepOf
        split
        · rename_i hk
          rcases ho with ho | ho
          · rw [hx, ho]
          · simp [imageSend, hk, hx] at ho
        · exact hx
      by_cases hx : x = ⟨b, b.pool⟩
      · have hp := held_pos hm hx
        have hne : s.rc b ≠ 0 := by omega
        by_cases hk : keepOf (kind t) x = ⟨b, b.pool⟩
        · by_cases ho : s.keeps.getD t none = some ⟨b, b.pool⟩
          · have := keep_pos ht ho
            simp only [eq_true hx, eq_true hne, eq_true hk, eq_true ho, Option.some.injEq, and_self, if_true] at e2 ⊢
            omega
          · simp only [eq_true hx, eq_true hne, eq_true hk, eq_false ho, Option.some.injEq, and_self, if_true, if_false] at e2 ⊢
            omega
        · refine ⟨?_, fun hh _ => absurd (hxk hh hx) hk, ?_⟩
          · by_cases ho : s.keeps.getD t none = some ⟨b, b.pool⟩
            · have := keep_pos ht ho
              simp only [eq_true hx, eq_true hne, eq_false hk, eq_true ho, Option.some.injEq, and_self, if_true, if_false] at e2 ⊢
              omega
            · simp only [eq_true hx, eq_true hne, eq_false hk, eq_false ho, Option.some.injEq, and_self, if_true, if_false] at e2 ⊢
              omega
          · by_cases ho : s.keeps.getD t none = some ⟨b, b.pool⟩
            · have := keep_pos ht ho
              simp only [eq_true hx, eq_true hne, eq_false hk, eq_true ho, Option.some.injEq, and_self, if_true, if_false] at e2 ⊢
              omega
            · simp only [eq_true hx, eq_true hne, eq_false hk, eq_false ho, Option.some.injEq, and_self, if_true, if_false] at e2 ⊢
              omega
      · have hk : keepOf (kind t) x ≠ ⟨b, b.pool⟩ := fun hk => hx (hkx hk)
        by_cases ho : s.keeps.getD t none = some ⟨b, b.pool⟩
        · have := keep_pos ht ho
          simp only [eq_false hx, eq_false hk, eq_true ho, Option.some.injEq, false_and, if_true, if_false] at e2 ⊢
          omega
        · simp only [eq_false hx, eq_false hk, eq_false ho, Option.some.injEq, false_and, if_false] at e2 ⊢
          omega
    · exact ⟨hb, fun _ hh => hh, Nat.le_refl _⟩
  | trySend t x ok =>
    simp only [step]
    split_ifs with hm
    · obtain ⟨hm, ht, hki⟩ := hm
      have hv := h.via x hm
      cases ok with
      | true =>
        have e1 : users (trySend kind s t x true) b = users s b - if x = ⟨b, b.pool⟩ then 1 else 0 := by
          simp only [users, trySend, if_true, List.count_erase, beq_iff_eq]
        have e2 := count_set_keep s.keeps t ht (some (keepOf (kind t) x)) (some ⟨b, b.pool⟩)
        have e3 : (trySend kind s t x true).rc b = release (releaseOld (retain s.rc x) (s.keeps.getD t none)) x b := rfl
        have e4 : keepers (trySend kind s t x true) b = (s.keeps.set t (some (keepOf (kind t) x))).count (some ⟨b, b.pool⟩) := rfl
        have e5 : keepers s b = s.keeps.count (some ⟨b, b.pool⟩) := rfl
        rw [e1, e3, e4, release_at, releaseOld_at, retain_at]
        have hkx : keepOf (kind t) x = ⟨b, b.pool⟩ → x = ⟨b, b.pool⟩ := by
          intro hk
          rw [hki] at hk
          have h1 : x.buf = b := congrArg Handle.buf hk
          have h2 : globalPool = b.pool := congrArg Handle.via hk
          rw [hit_iff]
          refine ⟨h1.symm, ?_⟩
          rw [h1] at hv
          rcases hv with hv | hv
          · exact hv
          · rw [hv, h2]
        have hxk : b.pool = globalPool ∨ imageSend kind b (.trySend t x true) = false → x = ⟨b, b.pool⟩ → keepOf (kind t) x = ⟨b, b.pool⟩ := by
          intro ho hx
          rcases ho with ho | ho
          · rw [hki, keepOf, hx, ho]
          · simp [imageSend, hx] at ho
        by_cases hx : x = ⟨b, b.pool⟩
        · have hp := held_pos hm hx
          have hne : s.rc b ≠ 0 := by omega
          by_cases hk : keepOf (kind t) x = ⟨b, b.pool⟩
          · by_cases ho : s.keeps.getD t none = some ⟨b, b.pool⟩
            · have := keep_pos ht ho
              simp only [eq_true hx, eq_true hne, eq_true hk, eq_true ho, Option.some.injEq, and_self, if_true] at e2 ⊢
              omega
            · simp only [eq_true hx, eq_true hne, eq_true hk, eq_false ho, Option.some.injEq, and_self, if_true, if_false] at e2 ⊢
              omega
          · refine ⟨?_, fun hh _ => absurd (hxk hh hx) hk, ?_⟩
            · by_cases ho : s.keeps.getD t none = some ⟨b, b.pool⟩
              · have := keep_pos ht ho
                simp only [eq_true hx, eq_true hne, eq_false hk, eq_true ho, Option.some.injEq, and_self, if_true, if_false] at e2 ⊢
                omega
              · simp only [eq_true hx, eq_true hne, eq_false hk, eq_false ho, Option.some.injEq, and_self, if_true, if_false] at e2 ⊢
                omega
            · by_cases ho : s.keeps.getD t none = some ⟨b, b.pool⟩
              · have := keep_pos ht ho
                simp only [eq_true hx, eq_true hne, eq_false hk, eq_true ho, Option.some.injEq, and_self, if_true, if_false] at e2 ⊢
                omega
              · simp only [eq_true hx, eq_true hne, eq_false hk, eq_false ho, Option.some.injEq, and_self, if_true, if_false] at e2 ⊢
                omega
        · have hk : keepOf (kind t) x ≠ ⟨b, b.pool⟩ := fun hk => hx (hkx hk)
          by_cases ho : s.keeps.getD t none = some ⟨b, b.pool⟩
          · have := keep_pos ht ho
            simp only [eq_false hx, eq_false hk, eq_true ho, Option.some.injEq, false_and, if_true, if_false] at e2 ⊢
            omega
          · simp only [eq_false hx, eq_false hk, eq_false ho, Option.some.injEq, false_and, if_false] at e2 ⊢
            omega
      | false =>
        have e1 : users (trySend kind s t x false) b = (users s b - if x = ⟨b, b.pool⟩ then 1 else 0) +
            if (⟨x.buf, globalPool⟩ : Handle) = ⟨b, b.pool⟩ then 1 else 0 := by
          simp only [users, trySend, hki, Kind.pool, Bool.false_eq_true, if_false, List.count_cons, List.count_erase, beq_iff_eq]
        have e3 : (trySend kind s t x false).rc b = release (retain s.rc x) x b := rfl
        have e4 : keepers (trySend kind s t x false) b = keepers s b := rfl
        rw [e1, e3, e4, release_at, retain_at]
        by_cases hx : x = ⟨b, b.pool⟩
        · have hp := held_pos hm hx
          have hne : s.rc b ≠ 0 := by omega
          by_cases hg : (⟨x.buf, globalPool⟩ : Handle) = ⟨b, b.pool⟩
          · simp only [eq_true hx, eq_true hne, eq_true hg, and_self, if_true]
            omega
          · simp only [eq_true hx, eq_true hne, eq_false hg, and_self, if_true, if_false]
            refine ⟨by omega, ?_, by omega⟩
            intro hh
            rcases hh with hh | hh
            · exact absurd (by rw [hx, hh]) hg
            · simp [imageSend, hx] at hh
        · have hg : (⟨x.buf, globalPool⟩ : Handle) ≠ ⟨b, b.pool⟩ := by
            intro hg
            have h1 : x.buf = b := congrArg Handle.buf hg
            have h2 : globalPool = b.pool := congrArg Handle.via hg
            apply hx
            rw [hit_iff]
            refine ⟨h1.symm, ?_⟩
            rw [h1] at hv
            rcases hv with hv | hv
            · exact hv
            · rw [hv, h2]
          simp only [eq_false hx, eq_false hg, false_and, if_false]
          omega
    · exact ⟨hb, fun _ hh => hh, Nat.le_refl _⟩
  | recv t k =>
    simp only [step, recv]
    cases hr : recvValue kind s t k with
    | none => exact ⟨hb, fun _ hh => hh, Nat.le_refl _⟩
    | some x =>
      have hx : x.via = x.buf.pool ∧ s.rc x.buf ≠ 0 := by
        unfold recvValue at hr
        rw [Option.bind_eq_some_iff] at hr
        obtain ⟨d, _, hd⟩ := hr
        unfold accept at hd
        split_ifs at hd with hc
        cases hd
        exact ⟨hc.1.symm, hc.2⟩
      dsimp only
      have e1 : users { s with rc := retain s.rc x, held := x :: s.held } b = users s b + if x = ⟨b, b.pool⟩ then 1 else 0 := by
        simp only [users, List.count_cons, beq_iff_eq]
      have e2 : keepers { s with rc := retain s.rc x, held := x :: s.held } b = keepers s b := rfl
      rw [e1, e2, retain_at]
      by_cases hxb : x = ⟨b, b.pool⟩
      · have hne : s.rc b ≠ 0 := by rw [hxb] at hx; exact hx.2
        simp only [eq_true hxb, eq_true hne, and_self, if_true]
        omega
      · simp only [eq_false hxb, false_and, if_false]
        omega
  | close t =>
    simp only [step]
    by_cases ht : t < s.keeps.length
    · have e2 := count_set_keep s.keeps t ht none (some ⟨b, b.pool⟩)
      have e3 : users { s with rc := releaseOld s.rc (s.keeps.getD t none), keeps := s.keeps.set t none } b = users s b := rfl
      have e4 : keepers { s with rc := releaseOld s.rc (s.keeps.getD t none), keeps := s.keeps.set t none } b = (s.keeps.set t none).count (some ⟨b, b.pool⟩) := rfl
      have e5 : keepers s b = s.keeps.count (some ⟨b, b.pool⟩) := rfl
      rw [e3, e4, releaseOld_at]
      by_cases ho : s.keeps.getD t none = some ⟨b, b.pool⟩
      · have := keep_pos ht ho
        simp only [eq_true ho, reduceCtorEq, if_true, if_false] at e2 ⊢
        omega
      · simp only [eq_false ho, reduceCtorEq, if_false] at e2 ⊢
        omega
    · have e1 : s.keeps.set t none = s.keeps := List.set_eq_of_length_le (by omega)
      have e2 : s.keeps.getD t none = none := by rw [List.getD_eq_default _ _ (by omega)]
      rw [e1, e2]
      exact ⟨hb, fun _ hh => hh, Nat.le_refl _⟩

theorem mem_set_keep {l : List (Option Handle)} {t : Nat} {v : Option Handle} {k : Handle} (h : some k ∈ l.set t v) :
    some k ∈ l ∨ v = some k := by
  rcases List.mem_or_eq_of_mem_set h with h | h
  · exact .inl h
  · exact .inr h.symm

theorem old_mem {l : List (Option Handle)} {t : Nat} {k : Handle} (h : l.getD t none = some k) : some k ∈ l := by
  by_cases ht : t < l.length
  · rw [List.getD_eq_getElem _ _ ht] at h
    exact h ▸ List.getElem_mem ht
  · rw [List.getD_eq_default _ _ (by omega)] at h
    cases h

theorem inv_step {kind : Nat → Kind} {s : St} (h : Inv s) (a : Act) : Inv (step kind s a) := by
  refine ⟨?_, ?_, fun b => (step_bal h a b).1⟩
  · cases a with
    | alloc p =>
      intro x hx
      simp only [step, alloc, List.mem_cons] at hx
      rcases hx with hx | hx
      · left; rw [hx]
      · exact h.via x hx
    | clone x =>
      simp only [step]
      split_ifs with hm
      · intro y hy
        rcases List.mem_cons.mp hy with hy | hy
        · exact h.via y (hy ▸ hm)
        · exact h.via y hy
      · exact h.via
    | drop x =>
      simp only [step]
      split_ifs with hm
      · exact fun y hy => h.via y (List.mem_of_mem_erase hy)
      · exact h.via
    | write x v =>
      simp only [step]
      split_ifs with hm
      · exact h.via
      · exact h.via
    | send t x ok =>
      simp only [step]
      split_ifs with hm
      · exact h.via
      · exact h.via
    | trySend t x ok =>
      simp only [step]
      split_ifs with hm
      · cases ok with
        | true => exact fun y hy => h.via y (List.mem_of_mem_erase (by simpa [trySend] using hy))
        | false =>
          intro y hy
          have hy' : y ∈ (⟨x.buf, (kind t).pool⟩ : Handle) :: s.held.erase x := by simpa [trySend] using hy
          rcases List.mem_cons.mp hy' with hy | hy
          · right; rw [hy, hm.2.2]; rfl
          · exact h.via y (List.mem_of_mem_erase hy)
      · exact h.via
    | recv t k =>
      simp only [step, recv]
      cases hr : recvValue kind s t k with
      | none => exact h.via
      | some x =>
        intro y hy
        rcases List.mem_cons.mp hy with hy | hy
        · left
          unfold recvValue at hr
          rw [Option.bind_eq_some_iff] at hr
          obtain ⟨d, _, hd⟩ := hr
          unfold accept at hd
          split_ifs at hd with hc
          cases hd
          rw [hy]
          exact hc.1.symm
        · exact h.via y hy
    | close t => exact h.via
  · intro b hb
    cases a with
    | alloc p =>
      have hb' : s.next + 1 ≤ b.id := hb
      have hf := h.fresh b (by omega)
      have hne : b ≠ ⟨p, s.next⟩ := by intro e; rw [e] at hb'; dsimp only at hb'; omega
      refine ⟨?_, ?_, hf.2.2.1, hf.2.2.2⟩
      · simp [step, alloc, hne, hf.1]
      · intro x hx
        simp only [step, alloc, List.mem_cons] at hx
        rcases hx with hx | hx
        · rw [hx]; exact fun e => hne e.symm
        · exact hf.2.1 x hx
    | clone x =>
      revert hb
      simp only [step]
      split_ifs with hm
      · intro hb
        have hf := h.fresh b hb
        refine ⟨?_, ?_, hf.2.2.1, hf.2.2.2⟩
        · show retain s.rc x b = 0
          rw [retain_at, if_neg (fun hh => hh.2 hf.1), hf.1]
        · intro y hy
          rcases List.mem_cons.mp hy with hy | hy
          · rw [hy]; exact hf.2.1 x hm
          · exact hf.2.1 y hy
      · exact h.fresh b
    | drop x =>
      revert hb
      simp only [step]
      split_ifs with hm
      · intro hb
        have hf := h.fresh b hb
        refine ⟨?_, fun y hy => hf.2.1 y (List.mem_of_mem_erase hy), hf.2.2.1, hf.2.2.2⟩
        show release s.rc x b = 0
        rw [release_at, hf.1]
        simp
      · exact h.fresh b
    | write x v =>
      revert hb
      simp only [step]
      split_ifs with hm
      · exact h.fresh b
      · exact h.fresh b
    | send t x ok =>
      revert hb
      simp only [step]
      split_ifs with hm
      · intro hb
        have hf := h.fresh b hb
        refine ⟨?_, hf.2.1, ?_, ?_⟩
        · show releaseOld (retain s.rc x) (s.keeps.getD t none) b = 0
          simp [releaseOld_at, retain_at, hf.1]
        · intro k hk
          rcases mem_set_keep hk with hk | hk
          · exact hf.2.2.1 k hk
          · cases hk
            unfold keepOf
            split
            · exact hf.2.1 x hm.1
            · exact hf.2.1 x hm.1
        · show b ∉ (if ok then s.log ++ [x.buf] else s.log)
          split_ifs
          · rw [List.mem_append]
            rintro (hh | hh)
            · exact hf.2.2.2 hh
            · exact hf.2.1 x hm.1 (List.mem_singleton.mp hh).symm
          · exact hf.2.2.2
      · exact h.fresh b
    | trySend t x ok =>
      revert hb
      simp only [step]
      split_ifs with hm
      · cases ok with
        | true =>
          intro hb
          have hf := h.fresh b hb
          refine ⟨?_, fun y hy => hf.2.1 y (List.mem_of_mem_erase (by simpa [trySend] using hy)), ?_, ?_⟩
          · show release (releaseOld (retain s.rc x) (s.keeps.getD t none)) x b = 0
            simp [release_at, releaseOld_at, retain_at, hf.1]
          · intro k hk
            rcases mem_set_keep hk with hk | hk
            · exact hf.2.2.1 k hk
            · cases hk
              unfold keepOf
              split
              · exact hf.2.1 x hm.1
              · exact hf.2.1 x hm.1
          · show b ∉ s.log ++ [x.buf]
            rw [List.mem_append]
            rintro (hh | hh)
            · exact hf.2.2.2 hh
            · exact hf.2.1 x hm.1 (List.mem_singleton.mp hh).symm
        | false =>
          intro hb
          have hf := h.fresh b hb
          refine ⟨?_, ?_, hf.2.2.1, hf.2.2.2⟩
          · show release (retain s.rc x) x b = 0
            simp [release_at, retain_at, hf.1]
          · intro y hy
            have hy' : y ∈ (⟨x.buf, (kind t).pool⟩ : Handle) :: s.held.erase x := by simpa [trySend] using hy
            rcases List.mem_cons.mp hy' with hy | hy
            · rw [hy]; exact hf.2.1 x hm.1
            · exact hf.2.1 y (List.mem_of_mem_erase hy)
      · exact h.fresh b
    | recv t k =>
      revert hb
      simp only [step, recv]
      cases hr : recvValue kind s t k with
      | none => exact h.fresh b
      | some x =>
        intro hb
        have hf := h.fresh b hb
        refine ⟨?_, ?_, hf.2.2.1, hf.2.2.2⟩
        · show retain s.rc x b = 0
          rw [retain_at, if_neg (fun hh => hh.2 hf.1), hf.1]
        · intro y hy
          rcases List.mem_cons.mp hy with hy | hy
          · unfold recvValue at hr
            rw [Option.bind_eq_some_iff] at hr
            obtain ⟨d, hl, hd⟩ := hr
            unfold accept at hd
            split_ifs at hd with hc
            cases hd
            rw [hy]
            intro e
            exact hf.2.2.2 (e ▸ List.mem_of_getElem? hl)
          · exact hf.2.1 y hy
    | close t =>
      have hf := h.fresh b hb
      refine ⟨?_, hf.2.1, ?_, hf.2.2.2⟩
      · show releaseOld s.rc (s.keeps.getD t none) b = 0
        rw [releaseOld_at, hf.1]
        simp
      · intro k hk
        rcases mem_set_keep hk with hk | hk
        · exact hf.2.2.1 k hk
        · cases hk

theorem inv_run {kind : Nat → Kind} (as : List Act) : ∀ {s : St}, Inv s → Inv (run kind s as) := by
  induction as with
  | nil => exact fun h => h
  | cons a as ih => exact fun h => ih (inv_step h a)

theorem run_append (kind : Nat → Kind) (s : St) (as cs : List Act) : run kind s (as ++ cs) = run kind (run kind s as) cs := by
  unfold run
  rw [List.foldl_append]

theorem keeps_length_step (kind : Nat → Kind) (s : St) (a : Act) : (step kind s a).keeps.length = s.keeps.length := by
  cases a with
  | alloc p => rfl
  | clone x => simp only [step]; split_ifs <;> rfl
  | drop x => simp only [step]; split_ifs <;> rfl
  | write x v => simp only [step]; split_ifs <;> rfl
  | send t x ok => simp only [step]; split_ifs <;> simp [send]
  | trySend t x ok => simp only [step]; split_ifs <;> (try cases ok) <;> simp [trySend]
  | recv t k =>
    simp only [step, recv]
    cases recvValue kind s t k <;> rfl
  | close t => simp [step]

theorem keeps_length (kind : Nat → Kind) (as : List Act) : ∀ s : St, (run kind s as).keeps.length = s.keeps.length := by
  induction as with
  | nil => exact fun _ => rfl
  | cons a as ih => exact fun s => (ih (step kind s a)).trans (keeps_length_step kind s a)

/-! ### References -/

/-- **No use after free.** Whatever the ring does and however sends, receives, clones and drops are
interleaved, a value in a user's hands whose pool is its buffer's own has its buffer allocated: the count
is at least the number of users holding it plus the number of topic handles keeping it. -/
theorem held_alive (kind : Nat → Kind) (n : Nat) (as : List Act) (b : Buf) :
    let s := run kind (St.init n) as
    users s b + keepers s b ≤ s.rc b ∧ (∀ h ∈ s.held, h.buf = b → h.via = b.pool → s.rc b ≠ 0) := by
  have h := inv_run (kind := kind) as (inv_init n)
  refine ⟨h.bal b, ?_⟩
  intro x hx hb hv
  have h1 := held_pos hx ((hit_iff x b).mpr ⟨hb.symm, hv⟩)
  have h2 := h.bal b
  omega

theorem exact_run (kind : Nat → Kind) (b : Buf) (as : List Act) : ∀ s : St, Inv s →
    (b.pool = globalPool ∨ ∀ a ∈ as, imageSend kind b a = false) → s.rc b = users s b + keepers s b →
    (run kind s as).rc b = users (run kind s as) b + keepers (run kind s as) b := by
  induction as with
  | nil => exact fun _ _ _ h => h
  | cons a as ih =>
    intro s hs ho h
    refine ih _ (inv_step hs a) ?_ ((step_bal hs a b).2.1 ?_ h)
    · rcases ho with ho | ho
      · exact .inl ho
      · exact .inr fun c hc => ho c (List.mem_cons_of_mem _ hc)
    · rcases ho with ho | ho
      · exact .inl ho
      · exact .inr (ho a List.mem_cons_self)

/-- **Exact counts.** For a buffer of the process-wide pool, and for any buffer that is never sent through
an image topic, the reference count is at every moment exactly the number of users holding it plus the
number of topic handles whose latest message it is. -/
theorem count_exact_partial (kind : Nat → Kind) (n : Nat) (as : List Act) (b : Buf)
    (ho : b.pool = globalPool ∨ ∀ a ∈ as, imageSend kind b a = false) :
    (run kind (St.init n) as).rc b = users (run kind (St.init n) as) b + keepers (run kind (St.init n) as) b := by
  apply exact_run kind b as _ (inv_init n) ho
  have := (inv_init n).bal b
  show 0 = _
  have h0 : (St.init n).rc b = 0 := rfl
  omega

/-- **Nothing leaks.** When every value has been dropped and every topic handle closed or never used, every
such buffer has been returned to its pool. -/
theorem all_returned_partial (kind : Nat → Kind) (n : Nat) (as : List Act) (b : Buf)
    (ho : b.pool = globalPool ∨ ∀ a ∈ as, imageSend kind b a = false)
    (hh : (run kind (St.init n) as).held = []) (hk : ∀ k ∈ (run kind (St.init n) as).keeps, k = none) :
    (run kind (St.init n) as).rc b = 0 := by
  rw [count_exact_partial kind n as b ho]
  unfold users keepers
  rw [hh, List.count_nil, Nat.zero_add, List.count_eq_zero]
  intro hm
  cases hk _ hm

theorem nodup_count (l : List Handle) : ∀ (bs : List Buf), bs.Nodup →
    (bs.map fun b => l.count (⟨b, b.pool⟩ : Handle)).sum ≤ l.length := by
  induction l with
  | nil =>
    intro bs _
    have h0 : ∀ cs : List Buf, (cs.map fun _ => 0).sum = 0 := by
      intro cs
      induction cs with
      | nil => rfl
      | cons c cs ih => simpa using ih
    simpa using h0 bs
  | cons x l ih =>
    intro bs hn
    have h1 := ih bs hn
    have h2 : ∀ cs : List Buf, cs.Nodup → (cs.map fun b => (x :: l).count (⟨b, b.pool⟩ : Handle)).sum ≤
        (cs.map fun b => l.count (⟨b, b.pool⟩ : Handle)).sum + (if x.buf ∈ cs then 1 else 0) := by
      intro cs
      induction cs with
      | nil => intro _; simp
      | cons c cs ih2 =>
        intro hc
        have := ih2 (List.nodup_cons.mp hc).2
        have hnc := (List.nodup_cons.mp hc).1
        simp only [List.map_cons, List.sum_cons, List.count_cons, List.mem_cons]
        by_cases e : x = ⟨c, c.pool⟩
        · have e' : x.buf = c := by rw [e]
          have hm : x.buf ∉ cs := e' ▸ hnc
          simp only [List.count_cons] at this
          simp only [e', eq_false hnc, if_false, or_false, if_true] at this ⊢
          simp only [e, beq_self_eq_true, if_true] at this ⊢
          omega
        · have hbe : (x == ⟨c, c.pool⟩) = false := beq_eq_false_iff_ne.mpr e
          simp only [List.count_cons] at this
          rw [hbe]
          by_cases hm : x.buf ∈ cs
          · simp only [hm, or_true, if_true, Bool.false_eq_true, if_false] at this ⊢
            omega
          · simp only [hm, if_false, Bool.false_eq_true] at this ⊢
            omega
    have h3 := h2 bs hn
    simp only [List.length_cons]
    split_ifs at h3 <;> omega

theorem nodup_count_keep (l : List (Option Handle)) : ∀ (bs : List Buf), bs.Nodup →
    (bs.map fun b => l.count (some (⟨b, b.pool⟩ : Handle))).sum ≤ l.length := by
  have key : ∀ b : Buf, l.count (some (⟨b, b.pool⟩ : Handle)) = (l.filterMap id).count ⟨b, b.pool⟩ := by
    intro b
    induction l with
    | nil => rfl
    | cons x l ih =>
      cases x with
      | none => simpa [List.count_cons] using ih
      | some x => simp [List.count_cons, ih]
  intro bs hn
  simp only [key]
  exact Nat.le_trans (nodup_count _ bs hn) (List.length_filterMap_le _ _)

/-- **Bounded use.** However many messages are sent, the process-wide pool never has more buffers in use than
users hold values plus one per topic handle. -/
theorem pool_use_bounded (kind : Nat → Kind) (n : Nat) (as : List Act) (bs : List Buf) (hn : bs.Nodup)
    (hb : ∀ b ∈ bs, b.pool = globalPool ∧ (run kind (St.init n) as).rc b ≠ 0) :
    bs.length ≤ (run kind (St.init n) as).held.length + n := by
  have hk := keeps_length kind as (St.init n)
  have hk' : (St.init n).keeps.length = n := by simp [St.init]
  have h1 := nodup_count (run kind (St.init n) as).held bs hn
  have h2 := nodup_count_keep (run kind (St.init n) as).keeps bs hn
  have h3 : ∀ cs : List Buf, (∀ b ∈ cs, b ∈ bs) → cs.length ≤
      (cs.map fun b => (run kind (St.init n) as).held.count (⟨b, b.pool⟩ : Handle)).sum +
      (cs.map fun b => (run kind (St.init n) as).keeps.count (some (⟨b, b.pool⟩ : Handle))).sum := by
    intro cs
    induction cs with
    | nil => intro _; simp
    | cons c cs ih =>
      intro hc
      have h4 := ih fun b h => hc b (List.mem_cons_of_mem _ h)
      have h5 := hb c (hc c List.mem_cons_self)
      have h6 := count_exact_partial kind n as c (.inl h5.1)
      simp only [List.length_cons, List.map_cons, List.sum_cons]
      unfold users keepers at h6
      have := h5.2
      omega
  have := h3 bs fun _ h => h
  omega

/-! ### Delivery -/

/-- A receive that yields a value yields the buffer whose descriptor was in the ring, allocated, on its own
pool; and it yields one exactly when that pool is the subscriber's and the buffer has not been freed. -/
theorem recv_iff (kind : Nat → Kind) (s : St) (t k : Nat) (b : Buf) (hk : s.log[k]? = some b) :
    (∀ h, recvValue kind s t k = some h → h.buf = b ∧ h.via = b.pool ∧ s.rc b ≠ 0) ∧
    (recvValue kind s t k ≠ none ↔ b.pool = (kind t).pool ∧ s.rc b ≠ 0) := by
  unfold recvValue
  rw [hk, Option.bind_some]
  unfold accept
  by_cases h : b.pool = (kind t).pool ∧ s.rc b ≠ 0
  · rw [if_pos h]
    refine ⟨?_, fun _ => h, fun _ => by simp⟩
    intro x hx
    cases hx
    exact ⟨rfl, h.1.symm, h.2⟩
  · rw [if_neg h]
    refine ⟨?_, fun hh => absurd rfl hh, fun hh => absurd hh h⟩
    intro x hx
    cases hx

/-- The topic handle `t` is used to send again, or is closed. -/
def reuses (t : Nat) : Act → Bool
  | .send u _ _ => decide (u = t)
  | .trySend u _ ok => decide (u = t) && ok
  | .close u => decide (u = t)
  | _ => false

theorem keep_stays (kind : Nat → Kind) (s : St) (t : Nat) (a : Act) (ha : reuses t a = false) :
    (step kind s a).keeps.getD t none = s.keeps.getD t none := by
  have hs : ∀ (u : Nat) (v : Option Handle), u ≠ t → (s.keeps.set u v).getD t none = s.keeps.getD t none := by
    intro u v hu
    simp [List.getD_eq_getElem?_getD, List.getElem?_set_ne hu]
  cases a with
  | alloc p => rfl
  | clone x => simp only [step]; split_ifs <;> rfl
  | drop x => simp only [step]; split_ifs <;> rfl
  | write x v => simp only [step]; split_ifs <;> rfl
  | send u x ok =>
    simp only [step]
    split_ifs
    · exact hs u _ (by simpa [reuses] using ha)
    · rfl
  | trySend u x ok =>
    simp only [step]
    split_ifs
    · cases ok with
      | true => exact hs u _ (by simpa [reuses] using ha)
      | false => rfl
    · rfl
  | recv u k =>
    simp only [step, recv]
    cases recvValue kind s u k <;> rfl
  | close u => exact hs u _ (by simpa [reuses] using ha)

theorem log_grows (kind : Nat → Kind) (s : St) (a : Act) : ∃ l, (step kind s a).log = s.log ++ l := by
  cases a with
  | alloc p => exact ⟨[], by simp [step, alloc]⟩
  | clone x => simp only [step]; split_ifs <;> exact ⟨[], by simp⟩
  | drop x => simp only [step]; split_ifs <;> exact ⟨[], by simp⟩
  | write x v => simp only [step]; split_ifs <;> exact ⟨[], by simp⟩
  | send u x ok =>
    simp only [step]
    split_ifs
    · cases ok with
      | true => exact ⟨[x.buf], rfl⟩
      | false => exact ⟨[], by simp [send]⟩
    · exact ⟨[], by simp⟩
  | trySend u x ok =>
    simp only [step]
    split_ifs
    · cases ok with
      | true => exact ⟨[x.buf], rfl⟩
      | false => exact ⟨[], by simp [trySend]⟩
    · exact ⟨[], by simp⟩
  | recv u k =>
    simp only [step, recv]
    cases recvValue kind s u k <;> exact ⟨[], by simp⟩
  | close u => exact ⟨[], by simp [step]⟩

theorem log_keeps (kind : Nat → Kind) (as : List Act) (k : Nat) (b : Buf) : ∀ s : St, s.log[k]? = some b →
    (run kind s as).log[k]? = some b := by
  induction as with
  | nil => exact fun _ h => h
  | cons a as ih =>
    intro s h
    apply ih
    obtain ⟨l, hl⟩ := log_grows kind s a
    rw [hl, List.getElem?_append_left (by exact (List.getElem?_eq_some_iff.mp h).1)]
    exact h

/-- **The latest message can be received by everybody.** A message the ring took stays receivable, by any
number of subscribers of the topic's kind and whatever else happens, even after the sender dropped its own
copy, until its topic handle sends again or is closed. -/
theorem latest_received_partial (kind : Nat → Kind) (n : Nat) (as cs : List Act) (t : Nat) (h : Handle)
    (hh : h ∈ (run kind (St.init n) as).held) (ht : t < n) (hp : h.via = h.buf.pool) (hg : h.buf.pool = (kind t).pool)
    (hc : ∀ a ∈ cs, reuses t a = false) :
    let s := run kind (step kind (run kind (St.init n) as) (.send t h true)) cs
    recvValue kind s t (run kind (St.init n) as).log.length = some h := by
  have hi := inv_run (kind := kind) as (inv_init n)
  have hl : t < (run kind (St.init n) as).keeps.length := by rw [keeps_length]; simpa [St.init] using ht
  generalize run kind (St.init n) as = s0 at *
  have hi1 := inv_step (kind := kind) hi (.send t h true)
  have he : step kind s0 (.send t h true) = send kind s0 t h true := by simp only [step, if_pos (⟨hh, hl⟩ : _ ∧ _)]
  rw [he] at hi1 ⊢
  have hk : keepOf (kind t) h = ⟨h.buf, h.buf.pool⟩ := by
    unfold keepOf
    split
    · rename_i e
      rw [e] at hg
      rw [hg]
      rfl
    · exact (hit_iff h h.buf).mpr ⟨rfl, hp⟩
  have hk1 : (send kind s0 t h true).keeps.getD t none = some ⟨h.buf, h.buf.pool⟩ := by
    show (s0.keeps.set t (some (keepOf (kind t) h))).getD t none = _
    rw [hk, List.getD_eq_getElem _ _ (by rw [List.length_set]; exact hl), List.getElem_set_self]
  have hlog : (send kind s0 t h true).log[s0.log.length]? = some h.buf := by
    show (s0.log ++ [h.buf])[s0.log.length]? = _
    rw [List.getElem?_append_right (Nat.le_refl _), Nat.sub_self]
    rfl
  have hlen : (send kind s0 t h true).keeps.length = s0.keeps.length := by simp [send]
  have key : ∀ (cs : List Act) (s : St), Inv s → t < s.keeps.length → s.keeps.getD t none = some ⟨h.buf, h.buf.pool⟩ →
      (∀ a ∈ cs, reuses t a = false) → (run kind s cs).rc h.buf ≠ 0 := by
    intro cs
    induction cs with
    | nil =>
      intro s hs h1 h2 _
      have := keep_pos h1 h2
      have := hs.bal h.buf
      show s.rc h.buf ≠ 0
      omega
    | cons a cs ih =>
      intro s hs h1 h2 h3
      exact ih _ (inv_step hs a) (by rw [keeps_length_step]; exact h1)
        (by rw [keep_stays kind s t a (h3 a List.mem_cons_self)]; exact h2) fun x hx => h3 x (List.mem_cons_of_mem _ hx)
  have hrc := key cs _ hi1 (by rw [hlen]; exact hl) hk1 hc
  have hlg := log_keeps kind cs _ _ _ hlog
  show recvValue kind (run kind (send kind s0 t h true) cs) t s0.log.length = some h
  unfold recvValue
  rw [hlg, Option.bind_some]
  unfold accept
  rw [if_pos ⟨hg, hrc⟩, ← hg]
  exact congrArg some ((hit_iff h h.buf).mpr ⟨rfl, hp⟩).symm

/-- Once freed, a message is never received again. -/
theorem freed_stays (kind : Nat → Kind) (s : St) (b : Buf) (hb : s.rc b = 0) (hid : b.id < s.next) (a : Act) :
    (step kind s a).rc b = 0 ∧ b.id < (step kind s a).next := by
  have hr : ∀ x : Handle, retain s.rc x b = 0 := by
    intro x; rw [retain_at, if_neg (fun hh => hh.2 hb)]; exact hb
  have hrl : ∀ (rc : Buf → Nat) (x : Handle), rc b = 0 → release rc x b = 0 := by
    intro rc x h0; rw [release_at, h0]; simp
  have hro : ∀ (rc : Buf → Nat) (k : Option Handle), rc b = 0 → releaseOld rc k b = 0 := by
    intro rc k h0; rw [releaseOld_at, h0]; simp
  cases a with
  | alloc p =>
    have hne : b ≠ ⟨p, s.next⟩ := by intro e; rw [e] at hid; dsimp only at hid; omega
    exact ⟨by simp [step, alloc, hne, hb], Nat.lt_succ_of_lt hid⟩
  | clone x => simp only [step]; split_ifs; exacts [⟨hr x, hid⟩, ⟨hb, hid⟩]
  | drop x => simp only [step]; split_ifs; exacts [⟨hrl _ x hb, hid⟩, ⟨hb, hid⟩]
  | write x v => simp only [step]; split_ifs; exacts [⟨hb, hid⟩, ⟨hb, hid⟩]
  | send u x ok =>
    simp only [step]
    split_ifs
    · exact ⟨hro _ _ (hr x), hid⟩
    · exact ⟨hb, hid⟩
  | trySend u x ok =>
    simp only [step]
    split_ifs
    · cases ok with
      | true => exact ⟨hrl _ x (hro _ _ (hr x)), hid⟩
      | false => exact ⟨hrl _ x (hr x), hid⟩
    · exact ⟨hb, hid⟩
  | recv u k =>
    simp only [step, recv]
    cases recvValue kind s u k with
    | none => exact ⟨hb, hid⟩
    | some x => exact ⟨hr x, hid⟩
  | close u => exact ⟨hro _ _ hb, hid⟩

/-! ### Refused sends -/

/-- A refused `try_send` of an image on the process-wide pool gives the same image back and changes no count. -/
theorem refused_returned_partial (kind : Nat → Kind) (n : Nat) (as : List Act) (t : Nat) (h : Handle)
    (hh : h ∈ (run kind (St.init n) as).held) (ht : t < n) (hk : kind t = .image) (hp : h.via = h.buf.pool) (hg : h.buf.pool = globalPool) :
    let s := run kind (St.init n) as
    let s' := step kind s (.trySend t h false)
    (∀ b, s'.rc b = s.rc b) ∧ s'.held.Perm s.held ∧ s'.keeps = s.keeps ∧ s'.log = s.log := by
  have hi := inv_run (kind := kind) as (inv_init n)
  have hl : t < (run kind (St.init n) as).keeps.length := by rw [keeps_length]; simpa [St.init] using ht
  generalize run kind (St.init n) as = s at *
  have he : step kind s (.trySend t h false) = trySend kind s t h false := by
    simp only [step]
    rw [if_pos ⟨hh, hl, hk⟩]
  dsimp only
  rw [he]
  refine ⟨?_, ?_, rfl, rfl⟩
  · intro b
    show release (retain s.rc h) h b = s.rc b
    rw [release_at, retain_at]
    by_cases hx : h = ⟨b, b.pool⟩
    · have := held_pos hh hx
      have := hi.bal b
      have hne : s.rc b ≠ 0 := by omega
      simp only [eq_true hx, eq_true hne, and_self, if_true]
      omega
    · simp only [eq_false hx, false_and, if_false]
  · show ((⟨h.buf, (kind t).pool⟩ : Handle) :: s.held.erase h).Perm s.held
    have e : (⟨h.buf, (kind t).pool⟩ : Handle) = h := by
      rw [hk, Kind.pool, ← hg]
      exact ((hit_iff h h.buf).mpr ⟨rfl, hp⟩).symm
    rw [e]
    exact (List.perm_cons_erase hh).symm

/-! ### Contents -/

/-- The contents of a buffer change only when someone holding it writes. -/
theorem contents_stable (kind : Nat → Kind) (b : Buf) (as : List Act) : ∀ s : St, b.id < s.next →
    (∀ h v, Act.write h v ∈ as → h.buf ≠ b) → (run kind s as).val b = s.val b := by
  induction as with
  | nil => exact fun _ _ _ => rfl
  | cons a as ih =>
    intro s hid hw
    have h1 : (step kind s a).val b = s.val b ∧ b.id < (step kind s a).next := by
      cases a with
      | alloc p =>
        have hne : b ≠ ⟨p, s.next⟩ := by intro e; rw [e] at hid; dsimp only at hid; omega
        exact ⟨by simp [step, alloc, hne], Nat.lt_succ_of_lt hid⟩
      | clone x => simp only [step]; split_ifs; exacts [⟨rfl, hid⟩, ⟨rfl, hid⟩]
      | drop x => simp only [step]; split_ifs; exacts [⟨rfl, hid⟩, ⟨rfl, hid⟩]
      | write x v =>
        simp only [step]
        split_ifs
        · refine ⟨?_, hid⟩
          have := hw x v List.mem_cons_self
          exact if_neg fun e => this e.symm
        · exact ⟨rfl, hid⟩
      | send u x ok => simp only [step]; split_ifs; exacts [⟨rfl, hid⟩, ⟨rfl, hid⟩]
      | trySend u x ok =>
        simp only [step]
        split_ifs
        · cases ok <;> exact ⟨rfl, hid⟩
        · exact ⟨rfl, hid⟩
      | recv u k =>
        simp only [step, recv]
        cases recvValue kind s u k <;> exact ⟨rfl, hid⟩
      | close u => exact ⟨rfl, hid⟩
    exact (ih _ h1.2 fun h v hm => hw h v (List.mem_cons_of_mem _ hm)).trans h1.1

/-! ### What goes wrong -/

/-- All topic handles are image topics. -/
def img : Nat → Kind := fun _ => .image

/-- The `i`-th image of the process-wide pool. -/
def im (i : Nat) : Handle := ⟨⟨0, i⟩, 0⟩

/-- Capture, send, forget: what a camera node does each tick. -/
def tick (i : Nat) : List Act := [.alloc 0, .send 0 (im i) true, .drop (im i)]

/-- `n` ticks starting with image `i`. -/
def ticks : Nat → Nat → List Act
  | _, 0 => []
  | i, n + 1 => tick i ++ ticks (i + 1) n

/-- A sender that keeps no copies: image `i` is the latest, everything before it is freed. -/
structure Cam (s : St) (i : Nat) : Prop where
  next : s.next = i
  held : s.held = []
  one : s.keeps.length = 1
  old : ∀ k, s.keeps.getD 0 none = some k → ∃ j, j + 1 = i ∧ k = im j
  rc : ∀ j, s.rc ⟨0, j⟩ = if j + 1 = i then 1 else 0
  log : s.log = (List.range i).map fun j => (⟨0, j⟩ : Buf)

theorem cam_tick (s : St) (i : Nat) (h : Cam s i) (hk : i = 0 → s.keeps.getD 0 none = none) (hk' : ∀ j, j + 1 = i → s.keeps.getD 0 none = some (im j)) :
    Cam (run img s (tick i)) (i + 1) ∧ (run img s (tick i)).keeps.getD 0 none = some (im i) := by
  have hlen := h.one
  have e : run img s (tick i) = { rc := release (releaseOld (retain (alloc s 0).rc (im i)) (s.keeps.getD 0 none)) (im i), val := (alloc s 0).val, next := i + 1, held := [], keeps := s.keeps.set 0 (some (im i)), log := s.log ++ [⟨0, i⟩] } := by
    have hn := h.next
    have hh := h.held
    simp [run, tick, step, alloc, send, im, hn, hh, hlen, keepOf, img, globalPool]
  rw [e]
  have hkeep : (s.keeps.set 0 (some (im i))).getD 0 none = some (im i) := by
    rw [List.getD_eq_getElem _ _ (by rw [List.length_set, hlen]; decide), List.getElem_set_self]
  refine ⟨⟨rfl, rfl, by simpa using hlen, ?_, ?_, ?_⟩, hkeep⟩
  · intro k hk1
    dsimp only at hk1
    rw [hkeep] at hk1
    exact ⟨i, rfl, by cases hk1; rfl⟩
  · intro j
    dsimp only
    have ha : (alloc s 0).rc ⟨0, j⟩ = if j = i then 1 else s.rc ⟨0, j⟩ := by simp [alloc, h.next]
    have hi : im i = ⟨⟨0, j⟩, 0⟩ ↔ i = j := by simp [im]
    rw [release_at, releaseOld_at, retain_at, ha, h.rc j]
    dsimp only
    simp only [hi]
    by_cases e1 : i = j
    · subst e1
      have hno : s.keeps.getD 0 none ≠ some ⟨⟨0, i⟩, 0⟩ := by
        intro hc
        obtain ⟨m, hm, hm'⟩ := h.old _ hc
        simp [im] at hm'
        omega
      simp only [eq_false hno, if_true, if_false, ne_eq, Nat.one_ne_zero, not_false_eq_true, and_self]
    · have e1' : j ≠ i := fun hh => e1 hh.symm
      simp only [e1, e1', if_false, false_and]
      rw [if_neg (show ¬ (j + 1 = i + 1) by omega)]
      by_cases e2 : j + 1 = i
      · have : s.keeps.getD 0 none = some ⟨⟨0, j⟩, 0⟩ := hk' j e2
        rw [if_pos this, if_pos e2]
      · rw [if_neg e2]
        simp
  · show s.log ++ [_] = _
    rw [h.log, List.range_succ, List.map_append]
    rfl

theorem cam_ticks (n : Nat) : ∀ (i : Nat) (s : St), Cam s i → (i = 0 → s.keeps.getD 0 none = none) →
    (∀ j, j + 1 = i → s.keeps.getD 0 none = some (im j)) → Cam (run img s (ticks i n)) (i + n) := by
  induction n with
  | zero => exact fun i s h _ _ => h
  | succ n ih =>
    intro i s h h1 h2
    have := cam_tick s i h h1 h2
    rw [ticks, run_append, Nat.add_comm n 1, ← Nat.add_assoc]
    exact ih (i + 1) _ this.1 (by omega) fun j hj => by rw [this.2]; congr 2; omega

/-- **Only the newest image of a topic can be received.** A node that sends `n + 1` images and keeps no copy
leaves `n + 1` descriptors for a subscriber to read, whatever the topic's capacity: the first `n` receives
return nothing although messages are waiting, and the last returns the last image. -/
theorem older_images_lost (n : Nat) :
    let s := run img (St.init 1) (ticks 0 (n + 1))
    s.log.length = n + 1 ∧ (∀ k, k < n → recvValue img s 0 k = none) ∧ recvValue img s 0 n = some (im n) := by
  have h := cam_ticks (n + 1) 0 (St.init 1) ⟨rfl, rfl, rfl, by intro k hk; simp [St.init] at hk, by intro j; simp [St.init], rfl⟩ (fun _ => rfl) (by omega)
  rw [Nat.zero_add] at h
  dsimp only
  generalize run img (St.init 1) (ticks 0 (n + 1)) = s at *
  have hlog : ∀ k, k < n + 1 → s.log[k]? = some (⟨0, k⟩ : Buf) := by
    intro k hk
    rw [h.log, List.getElem?_map, List.getElem?_range hk]
    rfl
  refine ⟨by rw [h.log]; simp, ?_, ?_⟩
  · intro k hk
    unfold recvValue
    rw [hlog k (by omega), Option.bind_some]
    unfold accept
    rw [if_neg]
    rintro ⟨_, h2⟩
    rw [h.rc k, if_neg (by omega)] at h2
    exact h2 rfl
  · unfold recvValue
    rw [hlog n (by omega), Option.bind_some]
    unfold accept
    rw [if_pos ⟨rfl, by rw [h.rc n]; simp⟩]
    rfl

/-- A send that the ring refuses replaces the keep-alive all the same: the messages still waiting in the full
ring are freed, so a subscriber that then reads gets neither the new image nor the one before it. -/
theorem refused_send_loses_waiting :
    let s := run img (St.init 1) ([.alloc 0, .send 0 (im 0) true, .drop (im 0)] ++ [.alloc 0, .send 0 (im 1) false, .drop (im 1)])
    s.log = [⟨0, 0⟩] ∧ recvValue img s 0 0 = none := by decide

theorem leak_run (kind : Nat → Kind) (b : Buf) (as : List Act) : ∀ s : St, Inv s →
    s.rc b - (users s b + keepers s b) ≤ (run kind s as).rc b - (users (run kind s as) b + keepers (run kind s as) b) := by
  induction as with
  | nil => exact fun _ _ => Nat.le_refl _
  | cons a as ih => exact fun s hs => Nat.le_trans (step_bal hs a b).2.2 (ih _ (inv_step hs a))

/-- **An image of another pool is never received and never freed.** Sending an image that was allocated on a
pool other than the process-wide one through an image topic adds a reference nobody ever releases: whatever
happens afterwards, no receive returns it and its buffer stays allocated. -/
theorem foreign_image_lost (kind : Nat → Kind) (n : Nat) (as cs : List Act) (t : Nat) (h : Handle) (ok : Bool)
    (hh : h ∈ (run kind (St.init n) as).held) (ht : t < n) (hk : kind t = .image) (hp : h.via = h.buf.pool)
    (hg : h.buf.pool ≠ globalPool) :
    let s := run kind (step kind (run kind (St.init n) as) (.send t h ok)) cs
    s.rc h.buf ≠ 0 ∧ (∀ k, s.log[k]? = some h.buf → recvValue kind s t k = none) := by
  have hi := inv_run (kind := kind) as (inv_init n)
  have hl : t < (run kind (St.init n) as).keeps.length := by rw [keeps_length]; simpa [St.init] using ht
  generalize run kind (St.init n) as = s0 at *
  have hhit : h = ⟨h.buf, h.buf.pool⟩ := (hit_iff h h.buf).mpr ⟨rfl, hp⟩
  have he : step kind s0 (.send t h ok) = send kind s0 t h ok := by simp only [step, if_pos (⟨hh, hl⟩ : _ ∧ _)]
  have hi1 := inv_step (kind := kind) hi (.send t h ok)
  dsimp only
  constructor
  · have h1 : 1 ≤ (step kind s0 (.send t h ok)).rc h.buf - (users (step kind s0 (.send t h ok)) h.buf + keepers (step kind s0 (.send t h ok)) h.buf) := by
      rw [he]
      have e1 : users (send kind s0 t h ok) h.buf = users s0 h.buf := rfl
      have e2 := count_set_keep s0.keeps t hl (some (keepOf (kind t) h)) (some ⟨h.buf, h.buf.pool⟩)
      have e3 : (send kind s0 t h ok).rc h.buf = releaseOld (retain s0.rc h) (s0.keeps.getD t none) h.buf := rfl
      have e4 : keepers (send kind s0 t h ok) h.buf = (s0.keeps.set t (some (keepOf (kind t) h))).count (some ⟨h.buf, h.buf.pool⟩) := rfl
      have e5 : keepers s0 h.buf = s0.keeps.count (some ⟨h.buf, h.buf.pool⟩) := rfl
      have hko : keepOf (kind t) h ≠ ⟨h.buf, h.buf.pool⟩ := by
        rw [hk]
        intro e
        exact hg (congrArg Handle.via e).symm
      have hpos := held_pos hh hhit
      have hb := hi.bal h.buf
      have hne : s0.rc h.buf ≠ 0 := by omega
      rw [e1, e3, e4, releaseOld_at, retain_at]
      rw [if_neg (show ¬ (some (keepOf (kind t) h) = some (⟨h.buf, h.buf.pool⟩ : Handle)) from fun e => hko (Option.some.inj e))] at e2
      rw [if_pos (⟨hhit, hne⟩ : h = (⟨h.buf, h.buf.pool⟩ : Handle) ∧ s0.rc h.buf ≠ 0)]
      by_cases ho : s0.keeps.getD t none = some ⟨h.buf, h.buf.pool⟩
      · have := keep_pos hl ho
        rw [if_pos ho] at e2
        rw [if_pos ho]
        omega
      · rw [if_neg ho] at e2
        rw [if_neg ho]
        omega
    have h2 := leak_run kind h.buf cs _ hi1
    omega
  · intro k hk2
    unfold recvValue
    rw [hk2, Option.bind_some]
    unfold accept
    rw [if_neg]
    rintro ⟨h2, _⟩
    rw [hk] at h2
    exact hg h2

/-- A refused `try_send` of such an image gives back a value that can no longer read or write its data (its pool
is not its buffer's), and dropping it frees nothing. -/
theorem foreign_try_send_breaks :
    let s := run img (St.init 1) [.alloc 7, .trySend 0 ⟨⟨7, 0⟩, 7⟩ false]
    s.held = [⟨⟨7, 0⟩, 0⟩] ∧ (step img s (.write ⟨⟨7, 0⟩, 0⟩ 5)).val ⟨7, 0⟩ = 0 ∧
      (run img s [.drop ⟨⟨7, 0⟩, 0⟩, .close 0]).rc ⟨7, 0⟩ = 1 := by decide

/-- The buffer is shared, not copied: a sender that keeps its copy and writes the next frame into it changes
the image the subscriber already received. -/
theorem received_image_changes :
    let s := run img (St.init 1) [.alloc 0, .write (im 0) 1, .send 0 (im 0) true, .recv 0 0]
    s.val ⟨0, 0⟩ = 1 ∧ users s ⟨0, 0⟩ = 2 ∧ (step img s (.write (im 0) 2)).val ⟨0, 0⟩ = 2 := by decide

/-! ### Non-vacuity -/

/-- Two subscribers receive the same image after the sender dropped it, and dropping both returns it once the
topic handle sends the next one. -/
example :
    let s := run img (St.init 1) [.alloc 0, .write (im 0) 9, .send 0 (im 0) true, .drop (im 0), .recv 0 0, .recv 0 0]
    s.held = [im 0, im 0] ∧ s.rc ⟨0, 0⟩ = 3 ∧ s.val ⟨0, 0⟩ = 9 ∧
      (run img s [.drop (im 0), .alloc 0, .send 0 (im 1) true, .drop (im 0)]).rc ⟨0, 0⟩ = 0 := by decide

/-- Everything dropped and closed. -/
example : (run img (St.init 2) [.alloc 0, .send 1 (im 0) true, .recv 0 0, .drop (im 0), .drop (im 0), .close 1]).held = [] ∧
    (∀ k ∈ (run img (St.init 2) [.alloc 0, .send 1 (im 0) true, .recv 0 0, .drop (im 0), .drop (im 0), .close 1]).keeps, k = none) := by decide

/-- A tensor topic: handle and topic on pool 5. -/
example : recvValue (fun _ => .tensor 5) (run (fun _ => .tensor 5) (St.init 1) [.alloc 5, .send 0 ⟨⟨5, 0⟩, 5⟩ true, .drop ⟨⟨5, 0⟩, 5⟩]) 0 0 = some ⟨⟨5, 0⟩, 5⟩ := by decide

end Horus.Pool.Keep
