import Verif.Fanout.Model
import Mathlib.Data.List.Pairwise
/-
Invariant of the fan-out ring.
-/
namespace Horus.Fanout
open Horus.Ring

/-! ### Specification vocabulary -/

/-- What subscriber `x` received from publisher slot `p`, as (position, value). -/
def Sub.got (x : Sub) (p : Nat) : List (Nat × List Nat) := (x.received.filter (fun r => r.1 == p)).map (·.2)

/-- Messages of the calls of publisher `x` that were for subscriber slot `i`. -/
def startedTo (started : List (List Nat × List Nat)) (i : Nat) : List (List Nat) :=
  (started.filter (fun c => decide (i ∈ c.2))).map (·.1)

/-! ### Channel and publisher -/

/-- What the channel of `i` looks like while the publisher works on it. -/
def PcInv (c : Cfg) (ch : Chan) (pc : PPc) (i : Nat) : Prop :=
  match pc with
  | .write m j _ k => j = i → ch.ver (c.idx ch.head) = (ch.head, true) ∧ k ≤ c.width ∧
      ∀ n < k, ch.slot (c.idx ch.head) n = m.getD n 0
  | .stamp m j _ => j = i → ch.ver (c.idx ch.head) = (ch.head, true) ∧ ∀ n < c.width, ch.slot (c.idx ch.head) n = m.getD n 0
  | .bump m j _ => j = i → ch.ver (c.idx ch.head) = (ch.head, false) ∧ ∀ n < c.width, ch.slot (c.idx ch.head) n = m.getD n 0
  | _ => True

/-- Well-formed publisher state. -/
def PcWf (c : Cfg) (pc : PPc) : Prop :=
  match pc with
  | .idle => True
  | .fan m rest => m.length = c.width ∧ rest.Nodup
  | .mark m j rest => m.length = c.width ∧ (j :: rest).Nodup
  | .write m j rest _ => m.length = c.width ∧ (j :: rest).Nodup
  | .stamp m j rest => m.length = c.width ∧ (j :: rest).Nodup
  | .bump m j rest => m.length = c.width ∧ (j :: rest).Nodup

/-- The publisher is between mark and head advance in the channel of `i`. -/
def Writing (pc : PPc) (i : Nat) : Prop :=
  match pc with
  | .write _ j _ _ => j = i
  | .stamp _ j _ => j = i
  | .bump _ j _ => j = i
  | _ => False

/-- A channel agrees with the log of what was published in it. -/
structure ChInv (c : Cfg) (ch : Chan) : Prop where
  hHead : ch.head = ch.log.length
  hLen : ∀ m ∈ ch.log, m.length = c.width
  hVal : ∀ pos, pos < ch.head → ch.ver (c.idx pos) = (pos, false) →
    ∀ k, k < c.width → ch.slot (c.idx pos) k = (ch.log.getD pos []).getD k 0
  hFresh : ∀ pos, pos < ch.head → ch.head < pos + c.cap → ch.ver (c.idx pos) = (pos, false)
  hClean : ch.dirty = false → ∀ pos, pos + c.cap = ch.head → ch.ver (c.idx pos) = (pos, false)

/-- A channel agrees with the calls of its publisher. -/
structure PInv (c : Cfg) (ch : Chan) (x : Pub) (i : Nat) : Prop where
  hCh : ChInv c ch
  hPc : PcInv c ch x.pc i
  hDirty : x.crashes = 0 → ch.dirty = true → Writing x.pc i
  hFlow : (ch.log ++ x.pc.pend i).Sublist (startedTo x.started i)
  hFlowEq : x.crashes = 0 → ch.log ++ x.pc.pend i = startedTo x.started i

/-! ### Subscriber -/

/-- The subscriber has reset its channel from `p`. -/
def ReadyFor (x : Sub) (p : Nat) : Prop :=
  match x.pc with
  | .reset rest => p ∉ rest
  | _ => True

/-- What a subscriber in the middle of `recv` knows. -/
def CPcInv (c : Cfg) (ch : Chan) (x : Sub) (p : Nat) : Prop :=
  match x.pc with
  | .head q _ next _ => q = p → ch.tail ≤ next ∧ next ≤ ch.head ∧ ch.gap + (next - ch.tail) ≤ x.missed p
  | .load1 q _ next _ => q = p → ch.tail ≤ next ∧ next < ch.head ∧ ch.gap + (next - ch.tail) ≤ x.missed p
  | .read q _ next _ acc => q = p → ch.tail ≤ next ∧ next < ch.head ∧ ch.gap + (next - ch.tail) ≤ x.missed p ∧
      acc.length ≤ c.width ∧
      (ch.ver (c.idx next) = (next, false) → ∀ k, k < acc.length → acc.getD k 0 = (ch.log.getD next []).getD k 0)
  | .recheck q _ next _ acc => q = p → ch.tail ≤ next ∧ next < ch.head ∧ ch.gap + (next - ch.tail) ≤ x.missed p ∧
      acc.length = c.width ∧
      (ch.ver (c.idx next) = (next, false) → ∀ k, k < acc.length → acc.getD k 0 = (ch.log.getD next []).getD k 0)
  | _ => True

/-- What a subscriber received from one publisher, against the log of the channel. -/
structure SInv (c : Cfg) (ch : Chan) (x : Sub) (p : Nat) : Prop where
  hTail : ch.tail ≤ ch.head
  hCount : ch.tail = ch.start + (x.got p).length + ch.gap
  hGap : ch.gap ≤ x.missed p
  hSorted : (x.got p).Pairwise (fun a b => a.1 < b.1)
  hGot : ∀ r ∈ x.got p, ch.start ≤ r.1 ∧ r.1 < ch.tail ∧ r.2 = ch.log.getD r.1 []
  hPc : CPcInv c ch x p

/-- What was sent to the subscriber since it joined. -/
structure FInv (ch : Chan) (y : Pub) (x : Sub) (p i : Nat) : Prop where
  hStart : ch.start ≤ ch.head
  hSince : x.since p ≤ y.started.length
  hTo : ∀ cl ∈ y.started.drop (x.since p), i ∈ cl.2
  hCr : x.crashesAt p ≤ y.crashes
  hFlow : (ch.log.drop ch.start ++ y.pc.pend i).Sublist (x.inflight p ++ (y.started.drop (x.since p)).map (·.1))
  hFlowEq : y.crashes = x.crashesAt p →
    ch.log.drop ch.start ++ y.pc.pend i = x.inflight p ++ (y.started.drop (x.since p)).map (·.1)

/-- Well-formed subscriber state. -/
def SubWf (x : Sub) : Prop :=
  match x.pc with
  | .reset rest => rest.Nodup ∧ (∀ p ∈ rest, p < endpoints) ∧ x.received = [] ∧ ∀ p, x.missed p = 0
  | .idle => True
  | .scan rest => ∀ p ∈ rest, p < endpoints
  | .head p rest _ _ => p < endpoints ∧ ∀ p ∈ rest, p < endpoints
  | .load1 p rest _ _ => p < endpoints ∧ ∀ p ∈ rest, p < endpoints
  | .read p rest _ _ _ => p < endpoints ∧ ∀ p ∈ rest, p < endpoints
  | .recheck p rest _ _ _ => p < endpoints ∧ ∀ p ∈ rest, p < endpoints

/-- The invariant of the whole matrix. -/
structure Inv (c : Cfg) (s : St) : Prop where
  hP : ∀ p i, p < endpoints → i < endpoints → PInv c (s.chan p i) (s.pubs p) i
  hWf : ∀ p, p < endpoints → PcWf c (s.pubs p).pc
  hAct : ∀ i, (s.subs i).joined = true → s.subActive i = true
  hSWf : ∀ i, (s.subs i).joined = true → SubWf (s.subs i)
  hS : ∀ p i, p < endpoints → i < endpoints → (s.subs i).joined = true → ReadyFor (s.subs i) p →
    SInv c (s.chan p i) (s.subs i) p ∧ FInv (s.chan p i) (s.pubs p) (s.subs i) p i

/-! ### Basic facts -/

@[simp] theorem setChan_chan (s : St) (p i : Nat) (ch : Chan) (q j : Nat) :
    (setChan s p i ch).chan q j = if q = p ∧ j = i then ch else s.chan q j := by
  unfold setChan upd
  by_cases hq : q = p
  · subst hq; by_cases hj : j = i <;> simp [hj]
  · simp [hq]

@[simp] theorem setChan_pubs (s : St) (p i : Nat) (ch : Chan) : (setChan s p i ch).pubs = s.pubs := rfl
@[simp] theorem setChan_subs (s : St) (p i : Nat) (ch : Chan) : (setChan s p i ch).subs = s.subs := rfl
@[simp] theorem setChan_subActive (s : St) (p i : Nat) (ch : Chan) : (setChan s p i ch).subActive = s.subActive := rfl
@[simp] theorem setPub_chan (s : St) (p : Nat) (x : Pub) : (setPub s p x).chan = s.chan := rfl
@[simp] theorem setPub_subs (s : St) (p : Nat) (x : Pub) : (setPub s p x).subs = s.subs := rfl
@[simp] theorem setPub_subActive (s : St) (p : Nat) (x : Pub) : (setPub s p x).subActive = s.subActive := rfl
@[simp] theorem setSub_chan (s : St) (p : Nat) (x : Sub) : (setSub s p x).chan = s.chan := rfl
@[simp] theorem setSub_pubs (s : St) (p : Nat) (x : Sub) : (setSub s p x).pubs = s.pubs := rfl
@[simp] theorem setSub_subActive (s : St) (p : Nat) (x : Sub) : (setSub s p x).subActive = s.subActive := rfl
theorem setPub_pubs (s : St) (p : Nat) (x : Pub) (q : Nat) : (setPub s p x).pubs q = if q = p then x else s.pubs q := rfl
theorem setSub_subs (s : St) (i : Nat) (x : Sub) (j : Nat) : (setSub s i x).subs j = if j = i then x else s.subs j := rfl

theorem inv_init (c : Cfg) : Inv c St.init := by
  refine ⟨?_, ?_, ?_, ?_, ?_⟩
  · intro p i _ _
    refine ⟨⟨rfl, ?_, ?_, ?_, ?_⟩, trivial, ?_, ?_, ?_⟩
    · intro m hm; simp [St.init, Chan.init] at hm
    · intro pos hp; simp [St.init, Chan.init] at hp
    · intro pos hp; simp [St.init, Chan.init] at hp
    · intro _ pos hp; have := c.cap_pos; simp [St.init, Chan.init] at hp; omega
    · intro _ h; simp [St.init, Chan.init] at h
    · simp [St.init, Chan.init, PPc.pend]
    · intro _; simp [St.init, Chan.init, PPc.pend, startedTo]
  · intro p _; trivial
  · intro i h; simp [St.init, Sub.init] at h
  · intro i h; simp [St.init, Sub.init] at h
  · intro p i _ _ h; simp [St.init, Sub.init] at h

theorem getD_append_left {α : Type} (l : List α) (x d : α) (i : Nat) (h : i < l.length) :
    (l ++ [x]).getD i d = l.getD i d := by
  simp [List.getD_eq_getElem?_getD, List.getElem?_append_left h]

theorem getD_append_last {α : Type} (l : List α) (x d : α) : (l ++ [x]).getD l.length d = x := by
  simp [List.getD_eq_getElem?_getD]

/-! ### How the subscriber's view survives the publisher's steps -/

theorem SInv.mono {c : Cfg} {ch ch' : Chan} {x : Sub} {p : Nat} (h : SInv c ch x p) (hh : ch.head = ch.log.length)
    (h1 : ch.head ≤ ch'.head)
    (h2 : ch'.tail = ch.tail) (h3 : ch'.start = ch.start) (h4 : ch'.gap = ch.gap)
    (h5 : ∀ pos, pos < ch.head → ch'.log.getD pos [] = ch.log.getD pos [])
    (h6 : ∀ pos, pos < ch.head → ch'.ver (c.idx pos) = (pos, false) → ch.ver (c.idx pos) = (pos, false)) :
    SInv c ch' x p := by
  have ht := h.hTail
  refine ⟨by omega, by rw [h2, h3, h4]; exact h.hCount, by rw [h4]; exact h.hGap, h.hSorted, ?_, ?_⟩
  · intro r hr
    obtain ⟨a, b, e⟩ := h.hGot r hr
    rw [h2, h3, h5 r.1 (by omega)]
    exact ⟨a, b, e⟩
  · have hp := h.hPc
    unfold CPcInv at hp ⊢
    cases hx : x.pc with
    | reset r => trivial
    | idle => trivial
    | scan r => trivial
    | head q r n a =>
      rw [hx] at hp; simp only at hp ⊢
      intro hq; obtain ⟨a1, a2, a3⟩ := hp hq
      rw [h2, h4]; exact ⟨a1, by omega, a3⟩
    | load1 q r n a =>
      rw [hx] at hp; simp only at hp ⊢
      intro hq; obtain ⟨a1, a2, a3⟩ := hp hq
      rw [h2, h4]; exact ⟨a1, by omega, a3⟩
    | read q r n a acc =>
      rw [hx] at hp; simp only at hp ⊢
      intro hq; obtain ⟨a1, a2, a3, a4, a5⟩ := hp hq
      rw [h2, h4, h5 n a2]; exact ⟨a1, by omega, a3, a4, fun hv => a5 (h6 n a2 hv)⟩
    | recheck q r n a acc =>
      rw [hx] at hp; simp only at hp ⊢
      intro hq; obtain ⟨a1, a2, a3, a4, a5⟩ := hp hq
      rw [h2, h4, h5 n a2]; exact ⟨a1, by omega, a3, a4, fun hv => a5 (h6 n a2 hv)⟩

/-- A publisher step that leaves channels alone and only moves the program counter without changing
what is pending. -/
theorem FInv.pc {ch : Chan} {y y' : Pub} {x : Sub} {p i : Nat} (h : FInv ch y x p i) (hs : y'.started = y.started)
    (hc : y'.crashes = y.crashes) (hp : y'.pc.pend i = y.pc.pend i) : FInv ch y' x p i := by
  refine ⟨h.hStart, by rw [hs]; exact h.hSince, by rw [hs]; exact h.hTo, by rw [hc]; exact h.hCr, ?_, ?_⟩
  · rw [hs, hp]; exact h.hFlow
  · intro e; rw [hs, hp]; exact h.hFlowEq (by rw [← hc]; exact e)

theorem FInv.chan {ch ch' : Chan} {y : Pub} {x : Sub} {p i : Nat} (h : FInv ch y x p i) (h1 : ch'.start = ch.start)
    (h2 : ch'.head = ch.head) (h3 : ch'.log = ch.log) : FInv ch' y x p i := by
  refine ⟨by rw [h1, h2]; exact h.hStart, h.hSince, h.hTo, h.hCr, ?_, ?_⟩
  · rw [h1, h3]; exact h.hFlow
  · rw [h1, h3]; exact h.hFlowEq

/-! ### Publisher steps -/

/-- Rebuild the invariant after a step of publisher `p` that changed the channels of `p` and the
publisher state. -/
theorem inv_pub_of (c : Cfg) (s t : St) (h : Inv c s) (p : Nat) (hother : ∀ q i, q ≠ p → t.chan q i = s.chan q i)
    (hpubs : ∀ q, q ≠ p → t.pubs q = s.pubs q) (hsubs : t.subs = s.subs) (hact : t.subActive = s.subActive)
    (hwf : PcWf c (t.pubs p).pc)
    (hP : ∀ i, i < endpoints → PInv c (t.chan p i) (t.pubs p) i)
    (hS : ∀ i, i < endpoints → (s.subs i).joined = true → ReadyFor (s.subs i) p →
      SInv c (t.chan p i) (s.subs i) p ∧ FInv (t.chan p i) (t.pubs p) (s.subs i) p i) : Inv c t := by
  refine ⟨?_, ?_, ?_, ?_, ?_⟩
  · intro q i hq hi
    by_cases e : q = p
    · subst e; exact hP i hi
    · rw [hother q i e, hpubs q e]; exact h.hP q i hq hi
  · intro q hq
    by_cases e : q = p
    · subst e; exact hwf
    · rw [hpubs q e]; exact h.hWf q hq
  · intro i; rw [hsubs, hact]; exact h.hAct i
  · intro i; rw [hsubs]; exact h.hSWf i
  · intro q i hq hi; rw [hsubs]
    by_cases e : q = p
    · subst e; exact hS i hi
    · rw [hother q i e, hpubs q e]; exact h.hS q i hq hi

/-- Only the program counter of `p` moves, keeping what is pending. -/
theorem inv_pub_pc (c : Cfg) (s : St) (h : Inv c s) (p : Nat) (hp : p < endpoints) (pc' : PPc) (hwf : PcWf c pc')
    (hpend : ∀ i, pc'.pend i = (s.pubs p).pc.pend i)
    (hpc : ∀ i, i < endpoints → PcInv c (s.chan p i) pc' i)
    (hw : ∀ i, Writing (s.pubs p).pc i → Writing pc' i) :
    Inv c (setPub s p { s.pubs p with pc := pc' }) := by
  refine inv_pub_of c s (setPub s p _) h p (fun _ _ _ => rfl) ?_ rfl rfl ?_ ?_ ?_
  rotate_left 1
  · rw [setPub_pubs, if_pos rfl]; exact hwf
  · intro i hi
    have := h.hP p i hp hi
    rw [setPub_pubs, if_pos rfl]
    refine ⟨this.hCh, hpc i hi, fun a b => hw i (this.hDirty a b), ?_, ?_⟩
    · rw [show ({ s.pubs p with pc := pc' } : Pub).pc = pc' from rfl, hpend]; exact this.hFlow
    · rw [show ({ s.pubs p with pc := pc' } : Pub).pc = pc' from rfl, hpend]; exact this.hFlowEq
  · intro i hi hj hr
    obtain ⟨a, b⟩ := h.hS p i hp hi hj hr
    rw [setPub_pubs, if_pos rfl]
    exact ⟨a, b.pc rfl rfl (hpend i)⟩
  · intro q hq; rw [setPub_pubs, if_neg hq]

theorem startedTo_append (l : List (List Nat × List Nat)) (m : List Nat) (ts : List Nat) (i : Nat) :
    startedTo (l ++ [(m, ts)]) i = startedTo l i ++ (if i ∈ ts then [m] else []) := by
  unfold startedTo
  by_cases hi : i ∈ ts <;> simp [List.filter_append, hi]

theorem pend_idle (i : Nat) : PPc.idle.pend i = [] := rfl

theorem inv_pub_start (c : Cfg) (s : St) (h : Inv c s) (p : Nat) (hp : p < endpoints) (m : List Nat)
    (hm : m.length = c.width) (hpc : (s.pubs p).pc = .idle) :
    Inv c (setPub s p { s.pubs p with pc := .fan m ((List.range endpoints).filter s.subActive),
                                      started := (s.pubs p).started ++ [(m, (List.range endpoints).filter s.subActive)] }) := by
  refine inv_pub_of c s (setPub s p _) h p (fun _ _ _ => rfl) ?_ rfl rfl ?_ ?_ ?_
  rotate_left 1
  · rw [setPub_pubs, if_pos rfl]
    exact ⟨hm, List.Pairwise.filter _ List.nodup_range⟩
  · intro i hi
    have hi' := h.hP p i hp hi
    rw [setPub_pubs, if_pos rfl]
    have e := hi'.hFlow
    have e2 := hi'.hFlowEq
    rw [hpc, pend_idle, List.append_nil] at e e2
    refine ⟨hi'.hCh, trivial, ?_, ?_, ?_⟩
    · intro a b
      have := hi'.hDirty a b
      rw [hpc] at this; exact this
    · simp only [startedTo_append, PPc.pend]
      exact List.Sublist.append e (List.Sublist.refl _)
    · intro hc
      simp only [startedTo_append, PPc.pend, setPub_chan]
      rw [e2 hc]
  · intro i hi hj hr
    obtain ⟨a, b⟩ := h.hS p i hp hi hj hr
    rw [setPub_pubs, if_pos rfl]
    refine ⟨a, ?_⟩
    have hmem : i ∈ (List.range endpoints).filter s.subActive :=
      List.mem_filter.mpr ⟨List.mem_range.mpr hi, h.hAct i hj⟩
    have f1 := b.hFlow
    have f2 := b.hFlowEq
    rw [hpc, pend_idle, List.append_nil] at f1 f2
    have hd : ((s.pubs p).started ++ [(m, (List.range endpoints).filter s.subActive)]).drop ((s.subs i).since p) =
        (s.pubs p).started.drop ((s.subs i).since p) ++ [(m, (List.range endpoints).filter s.subActive)] := by
      rw [List.drop_append_of_le_length b.hSince]
    refine ⟨b.hStart, ?_, ?_, b.hCr, ?_, ?_⟩
    · have := b.hSince; simp only [List.length_append]; omega
    · intro cl hcl
      simp only at hcl
      rw [hd] at hcl
      rcases List.mem_append.mp hcl with hcl | hcl
      · exact b.hTo cl hcl
      · simp only [List.mem_singleton] at hcl; subst hcl; exact hmem
    · simp only [PPc.pend]
      rw [hd, if_pos hmem, List.map_append, ← List.append_assoc]
      exact List.Sublist.append f1 (List.Sublist.refl _)
    · intro hc
      simp only [PPc.pend, setPub_chan]
      rw [hd, if_pos hmem, List.map_append, ← List.append_assoc, f2 hc]
      rfl
  · intro q hq; rw [setPub_pubs, if_neg hq]

theorem pair_ne {a b : Nat} {x y : Bool} (h : a ≠ b) : (a, x) ≠ (b, y) := fun e => h (Prod.mk.inj e).1

theorem inv_pub (c : Cfg) (s : St) (p : Nat) (hp : p < endpoints) (m : List Nat) (h : Inv c s) : Inv c (pubStep c s p m) := by
  unfold pubStep
  simp only
  have hwf := h.hWf p hp
  cases hpc : (s.pubs p).pc with
  | idle =>
    simp only
    by_cases hm : m.length ≠ c.width
    · rw [if_pos hm]; exact h
    · rw [if_neg hm]; exact inv_pub_start c s h p hp m (by omega) hpc
  | fan m rest =>
    rw [hpc] at hwf
    cases rest with
    | nil =>
      simp only
      apply inv_pub_pc c s h p hp .idle trivial
      · intro i; rw [hpc]; simp [PPc.pend]
      · intro i _; trivial
      · intro i hw; rw [hpc] at hw; exact hw
    | cons j rest =>
      simp only
      apply inv_pub_pc c s h p hp (.mark m j rest) hwf
      · intro i; rw [hpc]; simp [PPc.pend]
      · intro i _; trivial
      · intro i hw; rw [hpc] at hw; exact hw
  | mark m j rest =>
    rw [hpc] at hwf
    simp only
    apply inv_pub_of c s _ h p
    · intro q i hq; simp [hq]
    · intro q hq; rw [setPub_pubs, if_neg hq]; rfl
    · rfl
    · rfl
    · rw [setPub_pubs, if_pos rfl]; exact hwf
    · intro i hi
      have hP := h.hP p i hp hi
      rw [setPub_pubs, if_pos rfl]
      simp only [setPub_chan, setChan_chan, true_and]
      have hf := hP.hFlow
      have hfe := hP.hFlowEq
      rw [hpc] at hf hfe
      by_cases e : i = j
      · subst e
        rw [if_pos rfl]
        have hC := hP.hCh
        refine ⟨⟨hC.hHead, hC.hLen, ?_, ?_, ?_⟩, ?_, ?_, hf, hfe⟩
        · intro pos hpos hv k hk
          simp only at hpos hv ⊢
          by_cases ei : c.idx pos = c.idx (s.chan p i).head
          · rw [ei, upd_same] at hv
            have := (Prod.mk.inj hv).2; cases this
          · rw [upd_ne _ _ ei] at hv; exact hC.hVal pos hpos hv k hk
        · intro pos hpos hlt
          simp only at hpos hlt ⊢
          rw [upd_ne _ _ (c.idx_ne hpos hlt)]
          exact hC.hFresh pos hpos hlt
        · intro hd; cases hd
        · intro _
          simp only [upd_same]
          exact ⟨trivial, Nat.zero_le _, fun n hn => absurd hn (Nat.not_lt_zero n)⟩
        · intro _ _; exact rfl
      · rw [if_neg e]
        refine ⟨hP.hCh, fun e' => absurd e'.symm e, ?_, hf, hfe⟩
        intro a b
        have := hP.hDirty a b
        rw [hpc] at this; exact this.elim
    · intro i hi hj hr
      obtain ⟨a, b⟩ := h.hS p i hp hi hj hr
      have hC := (h.hP p i hp hi).hCh
      rw [setPub_pubs, if_pos rfl]
      simp only [setPub_chan, setChan_chan, true_and]
      by_cases e : i = j
      · subst e
        rw [if_pos rfl]
        refine ⟨a.mono hC.hHead (Nat.le_refl _) rfl rfl rfl (fun _ _ => rfl) ?_, ?_⟩
        · intro pos hpos hv
          simp only at hv
          by_cases ei : c.idx pos = c.idx (s.chan p i).head
          · rw [ei, upd_same] at hv
            have := (Prod.mk.inj hv).2; cases this
          · rw [upd_ne _ _ ei] at hv; exact hv
        · exact FInv.pc (FInv.chan b rfl rfl rfl) rfl rfl (by rw [hpc]; rfl)
      · rw [if_neg e]
        exact ⟨a, b.pc rfl rfl (by rw [hpc]; rfl)⟩
  | write m j rest k =>
    rw [hpc] at hwf
    simp only
    by_cases hk : k < c.width
    · rw [if_pos hk]
      apply inv_pub_of c s _ h p
      · intro q i hq; simp [hq]
      · intro q hq; rw [setPub_pubs, if_neg hq]; rfl
      · rfl
      · rfl
      · rw [setPub_pubs, if_pos rfl]; exact hwf
      · intro i hi
        have hP := h.hP p i hp hi
        rw [setPub_pubs, if_pos rfl]
        simp only [setPub_chan, setChan_chan, true_and]
        have hf := hP.hFlow
        have hfe := hP.hFlowEq
        have hq := hP.hPc
        have hd := hP.hDirty
        rw [hpc] at hf hfe hq hd
        by_cases e : i = j
        · subst e
          rw [if_pos rfl]
          have hC := hP.hCh
          obtain ⟨q1, q2, q3⟩ := hq rfl
          refine ⟨⟨hC.hHead, hC.hLen, ?_, hC.hFresh, hC.hClean⟩, ?_, hd, hf, hfe⟩
          · intro pos hpos hv k' hk'
            simp only at hpos hv ⊢
            by_cases ei : c.idx pos = c.idx (s.chan p i).head
            · rw [ei, q1] at hv
              have := (Prod.mk.inj hv).2; cases this
            · rw [upd_ne _ _ ei]; exact hC.hVal pos hpos hv k' hk'
          · intro _
            simp only [upd_same]
            refine ⟨q1, by omega, ?_⟩
            intro n hn
            by_cases en : n = k
            · subst en; rw [upd_same]
            · rw [upd_ne _ _ en]; exact q3 n (by omega)
        · rw [if_neg e]
          exact ⟨hP.hCh, fun e' => absurd e'.symm e, hd, hf, hfe⟩
      · intro i hi hj hr
        obtain ⟨a, b⟩ := h.hS p i hp hi hj hr
        have hC := (h.hP p i hp hi).hCh
        rw [setPub_pubs, if_pos rfl]
        simp only [setPub_chan, setChan_chan, true_and]
        by_cases e : i = j
        · subst e
          rw [if_pos rfl]
          refine ⟨a.mono hC.hHead (Nat.le_refl _) rfl rfl rfl (fun _ _ => rfl) (fun _ _ hv => hv), ?_⟩
          exact FInv.pc (FInv.chan b rfl rfl rfl) rfl rfl (by rw [hpc]; rfl)
        · rw [if_neg e]
          exact ⟨a, b.pc rfl rfl (by rw [hpc]; rfl)⟩
    · rw [if_neg hk]
      apply inv_pub_pc c s h p hp (.stamp m j rest) hwf
      · intro i; rw [hpc]; rfl
      · intro i hi
        have hq := (h.hP p i hp hi).hPc
        rw [hpc] at hq
        intro e
        obtain ⟨q1, q2, q3⟩ := hq e
        exact ⟨q1, fun n hn => q3 n (by omega)⟩
      · intro i hw; rw [hpc] at hw; exact hw
  | stamp m j rest =>
    rw [hpc] at hwf
    simp only
    apply inv_pub_of c s _ h p
    · intro q i hq; simp [hq]
    · intro q hq; rw [setPub_pubs, if_neg hq]; rfl
    · rfl
    · rfl
    · rw [setPub_pubs, if_pos rfl]; exact hwf
    · intro i hi
      have hP := h.hP p i hp hi
      rw [setPub_pubs, if_pos rfl]
      simp only [setPub_chan, setChan_chan, true_and]
      have hf := hP.hFlow
      have hfe := hP.hFlowEq
      have hq := hP.hPc
      have hd := hP.hDirty
      rw [hpc] at hf hfe hq hd
      by_cases e : i = j
      · subst e
        rw [if_pos rfl]
        have hC := hP.hCh
        obtain ⟨q1, q3⟩ := hq rfl
        refine ⟨⟨hC.hHead, hC.hLen, ?_, ?_, ?_⟩, ?_, hd, hf, hfe⟩
        · intro pos hpos hv k' hk'
          simp only at hpos hv ⊢
          by_cases ei : c.idx pos = c.idx (s.chan p i).head
          · rw [ei, upd_same] at hv
            have := (Prod.mk.inj hv).1; omega
          · rw [upd_ne _ _ ei] at hv; exact hC.hVal pos hpos hv k' hk'
        · intro pos hpos hlt
          simp only at hpos hlt ⊢
          rw [upd_ne _ _ (c.idx_ne hpos hlt)]
          exact hC.hFresh pos hpos hlt
        · intro hdd pos hpos
          simp only at hdd hpos ⊢
          have := hC.hClean hdd pos hpos
          rw [← hpos, c.idx_add_cap] at q1
          rw [q1] at this
          have := (Prod.mk.inj this).2; cases this
        · intro _
          simp only [upd_same]
          exact ⟨trivial, q3⟩
      · rw [if_neg e]
        exact ⟨hP.hCh, fun e' => absurd e'.symm e, hd, hf, hfe⟩
    · intro i hi hj hr
      obtain ⟨a, b⟩ := h.hS p i hp hi hj hr
      have hC := (h.hP p i hp hi).hCh
      rw [setPub_pubs, if_pos rfl]
      simp only [setPub_chan, setChan_chan, true_and]
      by_cases e : i = j
      · subst e
        rw [if_pos rfl]
        refine ⟨a.mono hC.hHead (Nat.le_refl _) rfl rfl rfl (fun _ _ => rfl) ?_, ?_⟩
        · intro pos hpos hv
          simp only at hv
          by_cases ei : c.idx pos = c.idx (s.chan p i).head
          · rw [ei, upd_same] at hv
            have := (Prod.mk.inj hv).1; omega
          · rw [upd_ne _ _ ei] at hv; exact hv
        · exact FInv.pc (FInv.chan b rfl rfl rfl) rfl rfl (by rw [hpc]; rfl)
      · rw [if_neg e]
        exact ⟨a, b.pc rfl rfl (by rw [hpc]; rfl)⟩
  | bump m j rest =>
    rw [hpc] at hwf
    simp only
    have hjr : j ∉ rest := (List.nodup_cons.mp hwf.2).1
    have hpj : (PPc.bump m j rest).pend j = [m] := by simp [PPc.pend]
    have hpj' : (PPc.fan m rest).pend j = [] := by simp [PPc.pend, hjr]
    have hpo : ∀ i, i ≠ j → (PPc.fan m rest).pend i = (PPc.bump m j rest).pend i := by
      intro i hi; simp [PPc.pend, hi]
    apply inv_pub_of c s _ h p
    · intro q i hq; simp [hq]
    · intro q hq; rw [setPub_pubs, if_neg hq]; rfl
    · rfl
    · rfl
    · rw [setPub_pubs, if_pos rfl]; exact ⟨hwf.1, (List.nodup_cons.mp hwf.2).2⟩
    · intro i hi
      have hP := h.hP p i hp hi
      rw [setPub_pubs, if_pos rfl]
      simp only [setPub_chan, setChan_chan, true_and]
      have hf := hP.hFlow
      have hfe := hP.hFlowEq
      have hq := hP.hPc
      have hd := hP.hDirty
      rw [hpc] at hf hfe hq hd
      by_cases e : i = j
      · subst e
        rw [if_pos rfl]
        have hC := hP.hCh
        have hh := hC.hHead
        obtain ⟨q1, q3⟩ := hq rfl
        rw [hpj] at hf hfe
        refine ⟨⟨?_, ?_, ?_, ?_, ?_⟩, trivial, ?_, ?_, ?_⟩
        · simp [hh]
        · intro x hx
          rcases List.mem_append.mp hx with hx | hx
          · exact hC.hLen x hx
          · simp only [List.mem_singleton] at hx; subst hx; exact hwf.1
        · intro pos hpos hv k' hk'
          simp only at hpos hv ⊢
          by_cases ep : pos = (s.chan p i).head
          · subst ep
            rw [q3 k' hk', hh, getD_append_last]
          · rw [getD_append_left _ _ _ _ (by omega)]
            exact hC.hVal pos (by omega) hv k' hk'
        · intro pos hpos hlt
          simp only at hpos hlt ⊢
          by_cases ep : pos = (s.chan p i).head
          · subst ep; exact q1
          · exact hC.hFresh pos (by omega) (by omega)
        · intro _ pos hpos
          simp only at hpos ⊢
          by_cases ep : pos = (s.chan p i).head
          · subst ep; exact q1
          · have := c.cap_pos
            exact hC.hFresh pos (by omega) (by omega)
        · intro _ hx; cases hx
        · simp only [hpj', List.append_nil]; exact hf
        · intro hc; simp only [hpj', List.append_nil]; exact hfe hc
      · rw [if_neg e]
        refine ⟨hP.hCh, trivial, ?_, ?_, ?_⟩
        · intro a b; exact absurd (hd a b).symm e
        · simp only [hpo i e]; exact hf
        · intro hc; simp only [hpo i e]; exact hfe hc
    · intro i hi hj hr
      obtain ⟨a, b⟩ := h.hS p i hp hi hj hr
      have hC := (h.hP p i hp hi).hCh
      have hh := hC.hHead
      rw [setPub_pubs, if_pos rfl]
      simp only [setPub_chan, setChan_chan, true_and]
      by_cases e : i = j
      · subst e
        rw [if_pos rfl]
        refine ⟨a.mono hC.hHead (Nat.le_succ _) rfl rfl rfl ?_ (fun _ _ hv => hv), ?_⟩
        · intro pos hpos; exact getD_append_left _ _ _ _ (by omega)
        · have f1 := b.hFlow
          have f2 := b.hFlowEq
          rw [hpc, hpj] at f1 f2
          have hst := b.hStart
          have hd : ((s.chan p i).log ++ [m]).drop (s.chan p i).start = (s.chan p i).log.drop (s.chan p i).start ++ [m] :=
            List.drop_append_of_le_length (by omega)
          refine ⟨Nat.le_succ_of_le hst, b.hSince, b.hTo, b.hCr, ?_, ?_⟩
          · simp only [hpj', List.append_nil, hd]; exact f1
          · intro hc; simp only [hpj', List.append_nil, hd]; exact f2 hc
      · rw [if_neg e]
        exact ⟨a, b.pc rfl rfl (by rw [hpc]; exact hpo i e)⟩

/-! ### Subscriber steps -/

/-- Rebuild the invariant after a step of subscriber `i`. -/
theorem inv_sub_of (c : Cfg) (s t : St) (h : Inv c s) (i : Nat) (hother : ∀ q j, j ≠ i → t.chan q j = s.chan q j)
    (hsubs : ∀ j, j ≠ i → t.subs j = s.subs j) (hpubs : t.pubs = s.pubs)
    (hact : ∀ j, j ≠ i → t.subActive j = s.subActive j)
    (hP : ∀ p, p < endpoints → PInv c (t.chan p i) (s.pubs p) i)
    (hA : (t.subs i).joined = true → t.subActive i = true)
    (hwf : (t.subs i).joined = true → SubWf (t.subs i))
    (hS : ∀ p, p < endpoints → (t.subs i).joined = true → ReadyFor (t.subs i) p →
      SInv c (t.chan p i) (t.subs i) p ∧ FInv (t.chan p i) (s.pubs p) (t.subs i) p i) : Inv c t := by
  refine ⟨?_, ?_, ?_, ?_, ?_⟩
  · intro q j hq hj
    rw [hpubs]
    by_cases e : j = i
    · subst e; exact hP q hq
    · rw [hother q j e]; exact h.hP q j hq hj
  · intro q hq; rw [hpubs]; exact h.hWf q hq
  · intro j
    by_cases e : j = i
    · subst e; exact hA
    · rw [hsubs j e, hact j e]; exact h.hAct j
  · intro j
    by_cases e : j = i
    · subst e; exact hwf
    · rw [hsubs j e]; exact h.hSWf j
  · intro q j hq hj hjo hr
    by_cases e : j = i
    · subst e; rw [hpubs]; exact hS q hq hjo hr
    · rw [hsubs j e] at hjo hr ⊢
      rw [hother q j e, hpubs]; exact h.hS q j hq hj hjo hr

/-- Chan changes that the publisher does not see. -/
theorem PInv.chan {c : Cfg} {ch ch' : Chan} {x : Pub} {i : Nat} (h : PInv c ch x i) (h1 : ch'.head = ch.head)
    (h2 : ch'.ver = ch.ver) (h3 : ch'.slot = ch.slot) (h4 : ch'.log = ch.log) (h5 : ch'.dirty = ch.dirty) :
    PInv c ch' x i := by
  have hC := h.hCh
  refine ⟨⟨by rw [h1, h4]; exact hC.hHead, by rw [h4]; exact hC.hLen, by rw [h1, h2, h3, h4]; exact hC.hVal,
    by rw [h1, h2]; exact hC.hFresh, by rw [h1, h2, h5]; exact hC.hClean⟩, ?_, by rw [h5]; exact h.hDirty,
    by rw [h4]; exact h.hFlow, by rw [h4]; exact h.hFlowEq⟩
  have := h.hPc
  unfold PcInv at this ⊢
  cases hx : x.pc <;> rw [hx] at this <;> simp only [h1, h2, h3] at this ⊢ <;> exact this

/-- A local move of the subscriber, with channels untouched. -/
theorem inv_sub_local (c : Cfg) (s : St) (h : Inv c s) (i : Nat) (hi : i < endpoints) (hj : (s.subs i).joined = true)
    (pc' : CPc) (missed' : Nat → Nat)
    (hm : ∀ p, (s.subs i).missed p ≤ missed' p)
    (hready : ∀ p, p < endpoints → ReadyFor (s.subs i) p)
    (hnr : ∀ rest, pc' ≠ .reset rest)
    (hwf : SubWf { s.subs i with pc := pc', missed := missed' })
    (hpc : ∀ p, p < endpoints → CPcInv c (s.chan p i) { s.subs i with pc := pc', missed := missed' } p) :
    Inv c (setSub s i { s.subs i with pc := pc', missed := missed' }) := by
  refine inv_sub_of c s (setSub s i _) h i (fun _ _ _ => rfl) ?_ rfl (fun _ _ => rfl) ?_ ?_ ?_ ?_
  rotate_left 1
  · intro p hp; exact h.hP p i hp hi
  · intro _; exact h.hAct i hj
  · intro _; rw [setSub_subs, if_pos rfl]; exact hwf
  · intro p hp _ _
    obtain ⟨a, b⟩ := h.hS p i hp hi hj (hready p hp)
    rw [setSub_subs, if_pos rfl]
    refine ⟨⟨a.hTail, a.hCount, Nat.le_trans a.hGap (hm p), a.hSorted, a.hGot, hpc p hp⟩, ?_⟩
    exact ⟨b.hStart, b.hSince, b.hTo, b.hCr, b.hFlow, b.hFlowEq⟩
  · intro j hj; rw [setSub_subs, if_neg hj]

theorem scanOrder_lt (a : Nat → Bool) (cur : Nat) : ∀ p ∈ scanOrder a cur, p < endpoints := by
  intro p hp
  unfold scanOrder at hp
  obtain ⟨hp, _⟩ := List.mem_filter.mp hp
  obtain ⟨o, _, rfl⟩ := List.mem_map.mp hp
  exact Nat.mod_lt _ (by decide)

theorem retry_cases (p : Nat) (rest : List Nat) (n a : Nat) :
    retry p rest n a = .head p rest n (a + 1) ∨ retry p rest n a = .scan rest := by
  unfold retry; split <;> simp

theorem got_append (x : Sub) (q pos : Nat) (v : List Nat) (p : Nat) (y : Sub) (hy : y.received = x.received ++ [(q, pos, v)]) :
    y.got p = x.got p ++ (if q = p then [(pos, v)] else []) := by
  unfold Sub.got
  rw [hy, List.filter_append, List.map_append]
  by_cases e : q = p <;> simp [e]

theorem list_ext_getD {a b : List Nat} (h : a.length = b.length) (hk : ∀ k, k < a.length → a.getD k 0 = b.getD k 0) : a = b := by
  apply List.ext_getElem h
  intro k h1 h2
  have := hk k h1
  simpa [List.getD_eq_getElem?_getD, List.getElem?_eq_getElem h1, List.getElem?_eq_getElem h2] using this

theorem inv_sub (c : Cfg) (s : St) (i : Nat) (hi : i < endpoints) (h : Inv c s) : Inv c (subStep c s i) := by
  unfold subStep
  simp only
  by_cases hj : (s.subs i).joined = false
  · rw [if_pos hj]; exact h
  rw [if_neg hj]
  have hj : (s.subs i).joined = true := by simpa using hj
  have hwf := h.hSWf i hj
  cases hpc : (s.subs i).pc with
  | reset rest =>
    unfold SubWf at hwf
    rw [hpc] at hwf
    simp only at hwf
    obtain ⟨w1, w2, w3, w4⟩ := hwf
    cases rest with
    | nil =>
      simp only
      have e : ({ s.subs i with pc := CPc.idle } : Sub) = { s.subs i with pc := .idle, missed := (s.subs i).missed } := rfl
      rw [e]
      apply inv_sub_local c s h i hi hj .idle _ (fun _ => Nat.le_refl _)
      · intro p _; unfold ReadyFor; rw [hpc]; simp
      · intro rest; simp
      · trivial
      · intro p _; trivial
    | cons p rest =>
      simp only
      have hpn : p ∉ rest := (List.nodup_cons.mp w1).1
      have hp : p < endpoints := w2 p (List.mem_cons_self ..)
      apply inv_sub_of c s _ h i
      · intro q j hq; simp [hq]
      · intro j hj'; rw [setSub_subs, if_neg hj']; rfl
      · rfl
      · intro _ _; rfl
      · intro q hq
        have hP := h.hP q i hq hi
        simp only [setSub_chan, setChan_chan, and_true]
        by_cases e : q = p
        · subst e; rw [if_pos rfl]; exact hP.chan rfl rfl rfl rfl rfl
        · rw [if_neg e]; exact hP
      · intro _; exact h.hAct i hj
      · intro _
        rw [setSub_subs, if_pos rfl]
        exact ⟨(List.nodup_cons.mp w1).2, fun q hq => w2 q (List.mem_cons_of_mem _ hq), w3, w4⟩
      · intro q hq _ hr
        rw [setSub_subs, if_pos rfl] at hr ⊢
        simp only [setSub_chan, setChan_chan, and_true]
        have hr' : q ∉ rest := hr
        by_cases e : q = p
        · subst e
          rw [if_pos rfl]
          have hP := h.hP q i hq hi
          have hC := hP.hCh
          have hg : ∀ pc si inf cr, Sub.got { s.subs i with pc := pc, since := si, inflight := inf, crashesAt := cr } q = [] := by
            intro pc si inf cr; unfold Sub.got; simp only [w3]; rfl
          refine ⟨⟨Nat.le_refl _, ?_, Nat.zero_le _, ?_, ?_, trivial⟩, ⟨Nat.le_refl _, ?_, ?_, ?_, ?_, ?_⟩⟩
          · rw [hg]; simp
          · rw [hg]; exact List.Pairwise.nil
          · rw [hg]; intro r hr; cases hr
          · simp
          · intro cl hcl; simp at hcl
          · simp
          · simp [hC.hHead]
          · intro _; simp [hC.hHead]
        · rw [if_neg e]
          have hr0 : ReadyFor (s.subs i) q := by
            unfold ReadyFor; rw [hpc]; simp only [List.mem_cons, not_or]; exact ⟨e, hr'⟩
          obtain ⟨a, b⟩ := h.hS q i hq hi hj hr0
          refine ⟨⟨a.hTail, a.hCount, a.hGap, a.hSorted, a.hGot, trivial⟩, ?_⟩
          refine ⟨b.hStart, ?_, ?_, ?_, ?_, ?_⟩
          · simp only [upd_ne _ _ e]; exact b.hSince
          · simp only [upd_ne _ _ e]; exact b.hTo
          · simp only [upd_ne _ _ e]; exact b.hCr
          · simp only [upd_ne _ _ e]; exact b.hFlow
          · simp only [upd_ne _ _ e]; exact b.hFlowEq
  | idle =>
    simp only
    exact inv_sub_local c s h i hi hj (.scan (scanOrder s.pubActive (s.subs i).cursor)) _ (fun _ => Nat.le_refl _)
      (fun p _ => by unfold ReadyFor; rw [hpc]; trivial) (fun _ => by simp) (scanOrder_lt _ _) (fun _ _ => trivial)
  | scan rest =>
    unfold SubWf at hwf
    rw [hpc] at hwf
    simp only at hwf
    cases rest with
    | nil =>
      simp only
      exact inv_sub_local c s h i hi hj .idle _ (fun _ => Nat.le_refl _)
        (fun p _ => by unfold ReadyFor; rw [hpc]; trivial) (fun _ => by simp) trivial (fun _ _ => trivial)
    | cons p rest =>
      simp only
      have hr : ∀ q, q < endpoints → ReadyFor (s.subs i) q := fun q _ => by unfold ReadyFor; rw [hpc]; trivial
      apply inv_sub_local c s h i hi hj (.head p rest (s.chan p i).tail 0) _ (fun _ => Nat.le_refl _) hr (fun _ => by simp)
      · exact ⟨hwf p (List.mem_cons_self ..), fun q hq => hwf q (List.mem_cons_of_mem _ hq)⟩
      · intro q hq
        obtain ⟨a, _⟩ := h.hS q i hq hi hj (hr q hq)
        intro e; subst e
        have := a.hGap; have := a.hTail
        simp only; omega
  | head p rest next att =>
    unfold SubWf at hwf
    rw [hpc] at hwf
    simp only at hwf ⊢
    have hr : ∀ q, q < endpoints → ReadyFor (s.subs i) q := fun q _ => by unfold ReadyFor; rw [hpc]; trivial
    obtain ⟨a, _⟩ := h.hS p i hwf.1 hi hj (hr p hwf.1)
    have ap := a.hPc
    unfold CPcInv at ap
    rw [hpc] at ap
    obtain ⟨a1, a2, a3⟩ := ap rfl
    by_cases h0 : (s.chan p i).head - next = 0
    · rw [if_pos h0]
      exact inv_sub_local c s h i hi hj (.scan rest) _ (fun _ => Nat.le_refl _) hr (fun _ => by simp) hwf.2 (fun _ _ => trivial)
    · rw [if_neg h0]
      by_cases h1 : (s.chan p i).head - next > c.cap
      · rw [if_pos h1]
        apply inv_sub_local c s h i hi hj (.load1 p rest ((s.chan p i).head - c.cap) att) _ ?_ hr (fun _ => by simp) hwf
        · intro q hq e; subst e
          have := c.cap_pos
          simp only [upd_same]; omega
        · intro q
          by_cases e : q = p
          · subst e; rw [upd_same]; omega
          · exact Nat.le_of_eq (upd_ne _ _ e).symm
      · rw [if_neg h1]
        apply inv_sub_local c s h i hi hj (.load1 p rest next att) _ (fun _ => Nat.le_refl _) hr (fun _ => by simp) (by exact hwf)
        intro q hq e; subst e
        simp only; omega
  | load1 p rest next att =>
    unfold SubWf at hwf
    rw [hpc] at hwf
    simp only at hwf ⊢
    have hr : ∀ q, q < endpoints → ReadyFor (s.subs i) q := fun q _ => by unfold ReadyFor; rw [hpc]; trivial
    obtain ⟨a, _⟩ := h.hS p i hwf.1 hi hj (hr p hwf.1)
    have ap := a.hPc
    unfold CPcInv at ap
    rw [hpc] at ap
    obtain ⟨a1, a2, a3⟩ := ap rfl
    by_cases hv : (s.chan p i).ver (c.idx next) ≠ (next, false)
    · rw [if_pos hv]
      rcases retry_cases p rest next att with e | e <;> rw [e]
      · apply inv_sub_local c s h i hi hj _ _ (fun _ => Nat.le_refl _) hr (fun _ => by simp) (by exact hwf)
        intro q hq e; subst e
        simp only; omega
      · exact inv_sub_local c s h i hi hj (.scan rest) _ (fun _ => Nat.le_refl _) hr (fun _ => by simp) hwf.2 (fun _ _ => trivial)
    · rw [if_neg hv]
      apply inv_sub_local c s h i hi hj _ _ (fun _ => Nat.le_refl _) hr (fun _ => by simp) (by exact hwf)
      intro q hq e; subst e
      exact ⟨a1, a2, a3, Nat.zero_le _, fun _ k hk => absurd hk (Nat.not_lt_zero k)⟩
  | read p rest next att acc =>
    unfold SubWf at hwf
    rw [hpc] at hwf
    simp only at hwf ⊢
    have hr : ∀ q, q < endpoints → ReadyFor (s.subs i) q := fun q _ => by unfold ReadyFor; rw [hpc]; trivial
    obtain ⟨a, _⟩ := h.hS p i hwf.1 hi hj (hr p hwf.1)
    have ap := a.hPc
    unfold CPcInv at ap
    rw [hpc] at ap
    obtain ⟨a1, a2, a3, a4, a5⟩ := ap rfl
    have hC := (h.hP p i hwf.1 hi).hCh
    by_cases hl : acc.length < c.width
    · rw [if_pos hl]
      apply inv_sub_local c s h i hi hj _ _ (fun _ => Nat.le_refl _) hr (fun _ => by simp) (by exact hwf)
      intro q hq e; subst e
      refine ⟨a1, a2, a3, by simp; omega, ?_⟩
      intro hv k hk
      simp only [List.length_append, List.length_singleton] at hk
      by_cases ek : k = acc.length
      · subst ek
        rw [getD_append_last]
        exact hC.hVal next a2 hv _ hl
      · rw [getD_append_left _ _ _ _ (by omega)]
        exact a5 hv k (by omega)
    · rw [if_neg hl]
      apply inv_sub_local c s h i hi hj _ _ (fun _ => Nat.le_refl _) hr (fun _ => by simp) (by exact hwf)
      intro q hq e; subst e
      exact ⟨a1, a2, a3, by omega, a5⟩
  | recheck p rest next att acc =>
    unfold SubWf at hwf
    rw [hpc] at hwf
    simp only at hwf ⊢
    have hr : ∀ q, q < endpoints → ReadyFor (s.subs i) q := fun q _ => by unfold ReadyFor; rw [hpc]; trivial
    obtain ⟨a, b⟩ := h.hS p i hwf.1 hi hj (hr p hwf.1)
    have ap := a.hPc
    unfold CPcInv at ap
    rw [hpc] at ap
    obtain ⟨a1, a2, a3, a4, a5⟩ := ap rfl
    have hC := (h.hP p i hwf.1 hi).hCh
    by_cases hv : (s.chan p i).ver (c.idx next) ≠ (next, false)
    · rw [if_pos hv]
      rcases retry_cases p rest next att with e | e <;> rw [e]
      · apply inv_sub_local c s h i hi hj _ _ (fun _ => Nat.le_refl _) hr (fun _ => by simp) (by exact hwf)
        intro q hq e; subst e
        simp only; omega
      · exact inv_sub_local c s h i hi hj (.scan rest) _ (fun _ => Nat.le_refl _) hr (fun _ => by simp) hwf.2 (fun _ _ => trivial)
    · rw [if_neg hv]
      have hv : (s.chan p i).ver (c.idx next) = (next, false) := by simpa using hv
      have hval : acc = (s.chan p i).log.getD next [] := by
        apply list_ext_getD
        · rw [a4]
          have hlt : next < (s.chan p i).log.length := by rw [← hC.hHead]; exact a2
          rw [List.getD_eq_getElem?_getD, List.getElem?_eq_getElem hlt]
          exact (hC.hLen _ (List.getElem_mem hlt)).symm
        · exact a5 hv
      apply inv_sub_of c s _ h i
      · intro q j hq; simp [hq]
      · intro j hj'; rw [setSub_subs, if_neg hj']; rfl
      · rfl
      · intro _ _; rfl
      · intro q hq
        have hP := h.hP q i hq hi
        simp only [setSub_chan, setChan_chan, and_true]
        by_cases e : q = p
        · subst e; rw [if_pos rfl]; exact hP.chan rfl rfl rfl rfl rfl
        · rw [if_neg e]; exact hP
      · intro _; exact h.hAct i hj
      · intro _; rw [setSub_subs, if_pos rfl]; trivial
      · intro q hq _ _
        rw [setSub_subs, if_pos rfl]
        simp only [setSub_chan, setChan_chan, and_true]
        by_cases e : q = p
        · subst e
          rw [if_pos rfl]
          have hg := got_append (s.subs i) q next acc q
            { s.subs i with pc := .idle, cursor := q + 1, received := (s.subs i).received ++ [(q, next, acc)] } rfl
          rw [if_pos rfl] at hg
          have hcnt := a.hCount
          refine ⟨⟨?_, ?_, ?_, ?_, ?_, trivial⟩, ⟨b.hStart, b.hSince, b.hTo, b.hCr, b.hFlow, b.hFlowEq⟩⟩
          · simp only; omega
          · rw [hg]; simp only [List.length_append, List.length_singleton]; omega
          · simp only; omega
          · rw [hg]
            apply List.pairwise_append.mpr
            refine ⟨a.hSorted, List.pairwise_singleton _ _, ?_⟩
            intro x hx y hy
            simp only [List.mem_singleton] at hy
            subst hy
            have := (a.hGot x hx).2.1
            simp only; omega
          · intro r hr
            rw [hg] at hr
            rcases List.mem_append.mp hr with hr | hr
            · obtain ⟨b1, b2, b3⟩ := a.hGot r hr
              exact ⟨b1, by simp only; omega, b3⟩
            · simp only [List.mem_singleton] at hr
              subst hr
              have := b.hStart
              exact ⟨by simp only; omega, by simp only; omega, hval⟩
        · rw [if_neg e]
          obtain ⟨a', b'⟩ := h.hS q i hq hi hj (hr q hq)
          have hg := got_append (s.subs i) p next acc q
            { s.subs i with pc := .idle, cursor := p + 1, received := (s.subs i).received ++ [(p, next, acc)] } rfl
          rw [if_neg (fun e' => e e'.symm), List.append_nil] at hg
          refine ⟨⟨a'.hTail, by rw [hg]; exact a'.hCount, a'.hGap, by rw [hg]; exact a'.hSorted, by rw [hg]; exact a'.hGot,
            trivial⟩, ⟨b'.hStart, b'.hSince, b'.hTo, b'.hCr, b'.hFlow, b'.hFlowEq⟩⟩

/-! ### All steps -/

theorem inv_crash (c : Cfg) (s : St) (p : Nat) (h : Inv c s) :
    Inv c (setPub s p { s.pubs p with pc := .idle, crashes := (s.pubs p).crashes + 1 }) := by
  by_cases hp : p < endpoints
  · refine inv_pub_of c s (setPub s p _) h p (fun _ _ _ => rfl) ?_ rfl rfl ?_ ?_ ?_
    rotate_left 1
    · rw [setPub_pubs, if_pos rfl]; trivial
    · intro i hi
      have hP := h.hP p i hp hi
      rw [setPub_pubs, if_pos rfl]
      refine ⟨hP.hCh, trivial, ?_, ?_, ?_⟩
      · intro hc; simp at hc
      · simp only [pend_idle, List.append_nil]
        exact (List.sublist_append_left _ _).trans hP.hFlow
      · intro hc; simp at hc
    · intro i hi hj hr
      obtain ⟨a, b⟩ := h.hS p i hp hi hj hr
      rw [setPub_pubs, if_pos rfl]
      refine ⟨a, b.hStart, b.hSince, b.hTo, Nat.le_succ_of_le b.hCr, ?_, ?_⟩
      · simp only [pend_idle, List.append_nil]
        exact (List.sublist_append_left _ _).trans b.hFlow
      · intro hc
        have := b.hCr
        simp only at hc; omega
    · intro q hq; rw [setPub_pubs, if_neg hq]
  · have hne : ∀ q, q < endpoints → q ≠ p := by intro q hq e; subst e; exact hp hq
    refine ⟨?_, ?_, h.hAct, h.hSWf, ?_⟩
    · intro q i hq hi; rw [setPub_pubs, if_neg (hne q hq)]; exact h.hP q i hq hi
    · intro q hq; rw [setPub_pubs, if_neg (hne q hq)]; exact h.hWf q hq
    · intro q i hq hi; rw [setPub_pubs, if_neg (hne q hq)]; exact h.hS q i hq hi

theorem inv_step (c : Cfg) (s : St) (a : Act) (h : Inv c s) : Inv c (step c s a) := by
  cases a with
  | pub p m =>
    simp only [step]
    split
    · next hp => exact inv_pub c s p hp m h
    · exact h
  | sub i =>
    simp only [step]
    split
    · next hi => exact inv_sub c s i hi h
    · exact h
  | pubJoin p => simp only [step]; split <;> exact ⟨h.hP, h.hWf, h.hAct, h.hSWf, h.hS⟩
  | pubLeave p => simp only [step]; split <;> exact ⟨h.hP, h.hWf, h.hAct, h.hSWf, h.hS⟩
  | pubCrash p =>
    simp only [step]; split
    · exact h
    · exact inv_crash c s p h
  | subJoin i =>
    simp only [step]
    split
    · exact h
    · refine ⟨h.hP, h.hWf, ?_, ?_, ?_⟩
      · intro j hj
        show upd s.subActive i true j = true
        by_cases e : j = i
        · subst e; simp
        · rw [upd_ne _ _ e]
          rw [setSub_subs, if_neg e] at hj
          exact h.hAct j hj
      · intro j hj
        rw [setSub_subs] at hj ⊢
        by_cases e : j = i
        · rw [if_pos e]
          exact ⟨List.nodup_range, fun p hp => List.mem_range.mp hp, rfl, fun _ => rfl⟩
        · rw [if_neg e] at hj ⊢; exact h.hSWf j hj
      · intro q j hq hj hjo hr
        rw [setSub_subs] at hjo hr ⊢
        by_cases e : j = i
        · rw [if_pos e] at hr
          exact absurd (List.mem_range.mpr hq) hr
        · rw [if_neg e] at hjo hr ⊢; exact h.hS q j hq hj hjo hr
  | subLeave i =>
    simp only [step]
    split
    · refine ⟨h.hP, h.hWf, ?_, ?_, ?_⟩
      · intro j hj
        show upd s.subActive i false j = true
        by_cases e : j = i
        · subst e; rw [setSub_subs, if_pos rfl] at hj; cases hj
        · rw [upd_ne _ _ e]
          rw [setSub_subs, if_neg e] at hj
          exact h.hAct j hj
      · intro j hj
        rw [setSub_subs] at hj ⊢
        by_cases e : j = i
        · rw [if_pos e] at hj; cases hj
        · rw [if_neg e] at hj ⊢; exact h.hSWf j hj
      · intro q j hq hj hjo hr
        rw [setSub_subs] at hjo hr ⊢
        by_cases e : j = i
        · rw [if_pos e] at hjo; cases hjo
        · rw [if_neg e] at hjo hr ⊢; exact h.hS q j hq hj hjo hr
    · exact h
  | subCrash i =>
    simp only [step]
    refine ⟨h.hP, h.hWf, ?_, ?_, ?_⟩
    · intro j hj
      rw [setSub_subs] at hj
      by_cases e : j = i
      · rw [if_pos e] at hj; cases hj
      · rw [if_neg e] at hj; exact h.hAct j hj
    · intro j hj
      rw [setSub_subs] at hj ⊢
      by_cases e : j = i
      · rw [if_pos e] at hj; cases hj
      · rw [if_neg e] at hj ⊢; exact h.hSWf j hj
    · intro q j hq hj hjo hr
      rw [setSub_subs] at hjo hr ⊢
      by_cases e : j = i
      · rw [if_pos e] at hjo; cases hjo
      · rw [if_neg e] at hjo hr ⊢; exact h.hS q j hq hj hjo hr

theorem inv_run_from (c : Cfg) (as : List Act) (s : St) (h : Inv c s) : Inv c (run c s as) := by
  induction as generalizing s with
  | nil => exact h
  | cons a as ih => exact ih _ (inv_step c s a h)

theorem inv_run (c : Cfg) (as : List Act) : Inv c (run c St.init as) := inv_run_from c as _ (inv_init c)

end Horus.Fanout
