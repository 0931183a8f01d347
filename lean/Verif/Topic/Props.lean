import Verif.Topic.Model
import Mathlib.Data.List.Count
/-
C34 participants, C35 read positions, C36 layout binding, C37 sizing, and the choice of backend.
-/
namespace Horus.Topic

/-! ### Specification -/

/-- Participants holding the role, counted in the table itself. -/
def countPubs (l : List Entry) : Nat := (l.filter fun e => e.active && e.pub).length
/-- Participants subscribing, counted in the table itself. -/
def countSubs (l : List Entry) : Nat := (l.filter fun e => e.active && e.sub).length

/-- `w` is registered. -/
def Registered (h : Hdr) (w : Who) : Prop := ∃ e ∈ h.entries, e.active = true ∧ e.who = w

/-! ### C34 -/

theorem filter_set_len (l : List Entry) (i : Nat) (e e' : Entry) (p : Entry → Bool) (h : l[i]? = some e) :
    ((l.set i e').filter p).length + (if p e then 1 else 0) = (l.filter p).length + (if p e' then 1 else 0) := by
  induction l generalizing i with
  | nil => simp at h
  | cons x l ih =>
    cases i with
    | zero =>
      simp only [List.getElem?_cons_zero, Option.some.injEq] at h
      subst h
      simp only [List.set_cons_zero, List.filter_cons]
      split <;> split <;> simp
    | succ i =>
      simp only [List.getElem?_cons_succ] at h
      have := ih i h
      simp only [List.set_cons_succ, List.filter_cons]
      split
      · simp only [List.length_cons]; omega
      · exact this

/-- Invariant of the participant table. -/
structure Inv (h : Hdr) : Prop where
  hLen : h.entries.length = maxParticipants
  hPubs : h.pubs = countPubs h.entries
  hSubs : h.subs = countSubs h.entries
  hUniq : ∀ (i j : Nat) (a b : Entry), h.entries[i]? = some a → h.entries[j]? = some b → a.active = true → b.active = true →
    a.who = b.who → i = j

theorem count_le (l : List Entry) (p : Entry → Bool) : (l.filter p).length ≤ l.length := List.length_filter_le _ _

theorem inv_init : Inv Hdr.init := by
  refine ⟨by simp [Hdr.init], by decide, by decide, ?_⟩
  intro i j a b ha hb haa
  simp only [Hdr.init, List.getElem?_replicate] at ha
  split at ha
  · simp only [Option.some.injEq] at ha; subst ha; cases haa
  · cases ha

theorem inc32_eq {n : Nat} (h : n ≤ 16) : inc32 n = n + 1 := by
  unfold inc32; rw [Nat.mod_eq_of_lt]; omega

theorem dec32_eq {n : Nat} (h : n ≤ 17) (h0 : 0 < n) : dec32 n = n - 1 := by
  unfold dec32
  have : n + 2 ^ 32 - 1 = (n - 1) + 2 ^ 32 := by omega
  rw [this, Nat.add_mod_right, Nat.mod_eq_of_lt]; omega

theorem getElem?_set_cases (l : List Entry) (i j : Nat) (e a : Entry) (h : (l.set i e)[j]? = some a) :
    (j = i ∧ a = e) ∨ (j ≠ i ∧ l[j]? = some a) := by
  rw [List.getElem?_set] at h
  by_cases hij : i = j
  · rw [if_pos hij] at h
    split at h
    · exact Or.inl ⟨hij.symm, (Option.some.inj h).symm⟩
    · cases h
  · rw [if_neg hij] at h; exact Or.inr ⟨fun e => hij e.symm, h⟩

theorem inv_refresh (h : Hdr) (hi : Inv h) (i now : Nat) : Inv (refresh h i now) := by
  unfold refresh
  cases he : h.entries[i]? with
  | none => exact hi
  | some e =>
    have c1 := filter_set_len h.entries i e { e with lease := now + leaseMs } (fun e => e.active && e.pub) he
    have c2 := filter_set_len h.entries i e { e with lease := now + leaseMs } (fun e => e.active && e.sub) he
    refine ⟨by simp [hi.hLen], ?_, ?_, ?_⟩
    · simp only [countPubs]; rw [hi.hPubs, countPubs]; simp only at c1; omega
    · simp only [countSubs]; rw [hi.hSubs, countSubs]; simp only at c2; omega
    · intro j k a b ha hb haa hba hw
      rcases getElem?_set_cases _ _ _ _ _ ha with ⟨rfl, rfl⟩ | ⟨hj, ha'⟩ <;>
        rcases getElem?_set_cases _ _ _ _ _ hb with ⟨rfl, rfl⟩ | ⟨hk, hb'⟩
      · rfl
      · exact hi.hUniq _ _ e b he hb' haa hba hw
      · exact hi.hUniq _ _ a e ha' he haa hba hw
      · exact hi.hUniq _ _ a b ha' hb' haa hba hw

theorem inv_join (h : Hdr) (hi : Inv h) (i : Nat) (p : Bool) (now : Nat) (e : Entry) (he : h.entries[i]? = some e)
    (ha : e.active = true) : Inv (joinExisting h i p now) := by
  have l1 : h.pubs ≤ 16 := by rw [hi.hPubs, ← maxParticipants, ← hi.hLen]; exact count_le _ _
  have l2 : h.subs ≤ 16 := by rw [hi.hSubs, ← maxParticipants, ← hi.hLen]; exact count_le _ _
  have uniq : ∀ e' : Entry, e'.who = e.who → ∀ (j k : Nat) (a b : Entry), (h.entries.set i e')[j]? = some a →
      (h.entries.set i e')[k]? = some b → a.active = true → b.active = true → a.who = b.who → j = k := by
    intro e' hw' j k a b hja hkb haa hba hw
    rcases getElem?_set_cases _ _ _ _ _ hja with ⟨rfl, rfl⟩ | ⟨hj, hja'⟩ <;>
      rcases getElem?_set_cases _ _ _ _ _ hkb with ⟨rfl, rfl⟩ | ⟨hk, hkb'⟩
    · rfl
    · exact hi.hUniq _ _ e b he hkb' ha hba (by rw [← hw']; exact hw)
    · exact hi.hUniq _ _ a e hja' he haa ha (by rw [hw, hw'])
    · exact hi.hUniq _ _ a b hja' hkb' haa hba hw
  unfold joinExisting
  rw [he]
  obtain ⟨ew, ep, es, ea, el⟩ := e
  simp only at ha
  subst ha
  simp only
  cases p with
  | true =>
    have c1 := filter_set_len h.entries i _ ⟨ew, true, es, true, now + leaseMs⟩ (fun e => e.active && e.pub) he
    have c2 := filter_set_len h.entries i _ ⟨ew, true, es, true, now + leaseMs⟩ (fun e => e.active && e.sub) he
    simp only [Bool.true_and, if_true] at c1 c2
    have hp := hi.hPubs; have hs := hi.hSubs
    simp only [countPubs] at hp; simp only [countSubs] at hs
    refine ⟨by simp [hi.hLen], ?_, ?_, uniq _ rfl⟩
    · simp only [countPubs, if_true, true_and]
      cases ep with
      | true => simp at c1 ⊢; omega
      | false => simp at c1 ⊢; rw [inc32_eq l1]; omega
    · simp only [countSubs, if_true, Bool.true_eq_false, false_and, if_false]; omega
  | false =>
    have c1 := filter_set_len h.entries i _ ⟨ew, ep, true, true, now + leaseMs⟩ (fun e => e.active && e.pub) he
    have c2 := filter_set_len h.entries i _ ⟨ew, ep, true, true, now + leaseMs⟩ (fun e => e.active && e.sub) he
    simp only [Bool.true_and, if_true] at c1 c2
    have hp := hi.hPubs; have hs := hi.hSubs
    simp only [countPubs] at hp; simp only [countSubs] at hs
    refine ⟨by simp [hi.hLen], ?_, ?_, uniq _ rfl⟩
    · simp only [countPubs, Bool.false_eq_true, false_and, if_false]; omega
    · simp only [countSubs, Bool.false_eq_true, true_and, if_false]
      cases es with
      | true => simp at c2 ⊢; omega
      | false => simp at c2 ⊢; rw [inc32_eq l2]; omega

theorem inv_take (h : Hdr) (hi : Inv h) (i : Nat) (w : Who) (p : Bool) (now : Nat) (e : Entry)
    (he : h.entries[i]? = some e) (hw : ∀ e ∈ h.entries, e.active = true → e.who ≠ w) : Inv (takeSlot h i w p now) := by
  have c1 := filter_set_len h.entries i e ⟨w, p, !p, true, now + leaseMs⟩ (fun e => e.active && e.pub) he
  have c2 := filter_set_len h.entries i e ⟨w, p, !p, true, now + leaseMs⟩ (fun e => e.active && e.sub) he
  have b1 := count_le h.entries (fun e => e.active && e.pub)
  have b2 := count_le h.entries (fun e => e.active && e.sub)
  have hp := hi.hPubs; have hs := hi.hSubs; have hl := hi.hLen
  simp only [countPubs] at hp; simp only [countSubs] at hs; simp only [maxParticipants] at hl
  have d1 : h.pubs ≤ 17 := by omega
  have d2 : h.subs ≤ 17 := by omega
  unfold takeSlot
  rw [he]
  simp only
  refine ⟨by simp [hi.hLen], ?_, ?_, ?_⟩
  · simp only [countPubs]
    cases hep : (e.active && e.pub) with
    | true =>
      rw [hep] at c1
      have h0 : 0 < h.pubs := by
        rw [hp]
        exact List.length_pos_of_mem (List.mem_filter.mpr ⟨List.mem_of_getElem? he, hep⟩)
      simp only [Bool.and_eq_true] at hep
      simp only [hep, and_self, if_true, dec32_eq d1 h0]
      cases p
      · simp at c1 ⊢; omega
      · simp only [if_true]; rw [inc32_eq (by omega)]; simp at c1 ⊢; omega
    | false =>
      rw [hep] at c1
      have : ¬ (e.active = true ∧ e.pub = true) := by
        intro hx; simp [hx.1, hx.2] at hep
      simp only [if_neg this]
      cases p
      · simp at c1 ⊢; omega
      · simp only [if_true]; rw [inc32_eq (by omega)]; simp at c1 ⊢; omega
  · simp only [countSubs]
    cases hep : (e.active && e.sub) with
    | true =>
      rw [hep] at c2
      have h0 : 0 < h.subs := by
        rw [hs]
        exact List.length_pos_of_mem (List.mem_filter.mpr ⟨List.mem_of_getElem? he, hep⟩)
      simp only [Bool.and_eq_true] at hep
      simp only [hep, and_self, if_true, dec32_eq d2 h0]
      cases p
      · simp only [Bool.false_eq_true, if_false]; rw [inc32_eq (by omega)]; simp at c2 ⊢; omega
      · simp at c2 ⊢; omega
    | false =>
      rw [hep] at c2
      have : ¬ (e.active = true ∧ e.sub = true) := by
        intro hx; simp [hx.1, hx.2] at hep
      simp only [if_neg this]
      cases p
      · simp only [Bool.false_eq_true, if_false]; rw [inc32_eq (by omega)]; simp at c2 ⊢; omega
      · simp at c2 ⊢; omega
  · intro j k a b hja hkb haa hba hww
    rcases getElem?_set_cases _ _ _ _ _ hja with ⟨rfl, rfl⟩ | ⟨hj, hja'⟩ <;>
      rcases getElem?_set_cases _ _ _ _ _ hkb with ⟨rfl, rfl⟩ | ⟨hk, hkb'⟩
    · rfl
    · exact absurd hww.symm (hw b (List.mem_of_getElem? hkb') hba)
    · exact absurd hww (hw a (List.mem_of_getElem? hja') haa)
    · exact hi.hUniq _ _ a b hja' hkb' haa hba hww

theorem findIdx_some {l : List Entry} {p : Entry → Bool} {i : Nat} (h : l.findIdx? p = some i) :
    ∃ e, l[i]? = some e ∧ p e = true := by
  obtain ⟨hlt, hp, _⟩ := List.findIdx?_eq_some_iff_getElem.mp h
  exact ⟨l[i], List.getElem?_eq_getElem hlt, hp⟩

theorem findIdx_none {l : List Entry} {p : Entry → Bool} (h : l.findIdx? p = none) : ∀ e ∈ l, p e = false := by
  intro e he
  have := List.findIdx?_eq_none_iff.mp h e he
  simpa using this

theorem inv_register (h : Hdr) (hi : Inv h) (w : Who) (p : Bool) (now : Nat) : Inv (register h w p now).2 := by
  unfold register
  cases h1 : h.entries.findIdx? (fun e => e.active && (e.who == w)) with
  | some i =>
    obtain ⟨e, he, hpe⟩ := findIdx_some h1
    simp only [Bool.and_eq_true, beq_iff_eq] at hpe
    exact inv_join h hi i p now e he hpe.1
  | none =>
    have hn := findIdx_none h1
    simp only
    cases h2 : h.entries.findIdx? (fun e => !e.active || e.expired now) with
    | some i =>
      obtain ⟨e, he, _⟩ := findIdx_some h2
      apply inv_take h hi i w p now e he
      intro x hx hxa hxw
      have := hn x hx
      simp [hxa, hxw] at this
    | none => exact hi

theorem inv_run (es : List Ev) : Inv (run Hdr.init es) := by
  have : ∀ (es : List Ev) (h : Hdr), Inv h → Inv (run h es) := by
    intro es
    induction es with
    | nil => exact fun _ h => h
    | cons a es ih =>
      intro h hi
      apply ih
      cases a with
      | register w p now => exact inv_register h hi w p now
      | refresh i now => exact inv_refresh h hi i now
  exact this es _ inv_init

/-- C34. After any history of registrations and lease refreshes at any times, the counters in the
header are exactly the numbers of registered participants with the role, there are at most 16, and
nobody is registered twice. -/
theorem counts_exact (es : List Ev) :
    (run Hdr.init es).pubs = countPubs (run Hdr.init es).entries ∧
    (run Hdr.init es).subs = countSubs (run Hdr.init es).entries ∧
    (run Hdr.init es).entries.length = 16 ∧
    (∀ w, ((run Hdr.init es).entries.filter fun e => e.active && decide (e.who = w)).length ≤ 1) := by
  have h := inv_run es
  refine ⟨h.hPubs, h.hSubs, h.hLen, ?_⟩
  intro w
  have hu := h.hUniq
  generalize (run Hdr.init es).entries = l at hu
  clear h
  induction l with
  | nil => simp
  | cons x l ih =>
    have hu' : ∀ (i j : Nat) (a b : Entry), l[i]? = some a → l[j]? = some b → a.active = true → b.active = true →
        a.who = b.who → i = j := by
      intro i j a b ha hb haa hba hw
      have := hu (i + 1) (j + 1) a b (by simpa using ha) (by simpa using hb) haa hba hw
      omega
    rw [List.filter_cons]
    split
    · next hx =>
      simp only [Bool.and_eq_true, decide_eq_true_eq] at hx
      have : l.filter (fun e => e.active && decide (e.who = w)) = [] := by
        apply List.filter_eq_nil_iff.mpr
        intro y hy hc
        simp only [Bool.and_eq_true, decide_eq_true_eq] at hc
        obtain ⟨j, hj⟩ := List.getElem?_of_mem hy
        have := hu 0 (j + 1) x y (by simp) (by simpa using hj) hx.1 hc.1 (by rw [hx.2, hc.2])
        omega
      rw [this]; simp
    · exact ih hu'

/-- The entry of slot `i` after a registration by `w` that returned `i`. -/
theorem registered_after (h : Hdr) (w : Who) (p : Bool) (now i : Nat) (hr : (register h w p now).1 = some i) :
    ∃ e, (register h w p now).2.entries[i]? = some e ∧ e.active = true ∧ e.who = w ∧ e.lease = now + leaseMs ∧
      (p = true → e.pub = true) ∧ (p = false → e.sub = true) := by
  unfold register at hr ⊢
  cases h1 : h.entries.findIdx? (fun e => e.active && (e.who == w)) with
  | some j =>
    rw [h1] at hr
    simp only [Option.some.injEq] at hr
    subst hr
    obtain ⟨e, he, hpe⟩ := findIdx_some h1
    simp only [Bool.and_eq_true, beq_iff_eq] at hpe
    have hlt : j < h.entries.length := by
      by_contra hc; rw [List.getElem?_eq_none (by omega)] at he; cases he
    simp only [joinExisting, he]
    cases p
    · exact ⟨{ e with sub := true, lease := now + leaseMs }, by simp [hlt], hpe.1, hpe.2, rfl, by simp, by simp⟩
    · exact ⟨{ e with pub := true, lease := now + leaseMs }, by simp [hlt], hpe.1, hpe.2, rfl, by simp, by simp⟩
  | none =>
    rw [h1] at hr
    simp only at hr ⊢
    cases h2 : h.entries.findIdx? (fun e => !e.active || e.expired now) with
    | some j =>
      rw [h2] at hr
      simp only [Option.some.injEq] at hr
      subst hr
      obtain ⟨e, he, _⟩ := findIdx_some h2
      have hlt : j < h.entries.length := by
        by_contra hc; rw [List.getElem?_eq_none (by omega)] at he; cases he
      simp only [takeSlot, he]
      exact ⟨⟨w, p, !p, true, now + leaseMs⟩, by simp [hlt], rfl, rfl, rfl, by simp, by simp⟩
    | none => rw [h2] at hr; simp at hr

/-- C34. Registering again changes nothing but the lease: same slot, same counts. -/
theorem register_idempotent (es : List Ev) (w : Who) (p : Bool) (t t' i : Nat)
    (hr : (register (run Hdr.init es) w p t).1 = some i) :
    (register (register (run Hdr.init es) w p t).2 w p t').1 = some i ∧
    (register (register (run Hdr.init es) w p t).2 w p t').2.pubs = (register (run Hdr.init es) w p t).2.pubs ∧
    (register (register (run Hdr.init es) w p t).2 w p t').2.subs = (register (run Hdr.init es) w p t).2.subs := by
  have hi := inv_register _ (inv_run es) w p t
  obtain ⟨e, he, ha, hw, _, hp1, hp2⟩ := registered_after _ w p t i hr
  generalize (register (run Hdr.init es) w p t).2 = h at hi he
  have hf : h.entries.findIdx? (fun e => e.active && (e.who == w)) = some i := by
    cases h1 : h.entries.findIdx? (fun e => e.active && (e.who == w)) with
    | none =>
      have := findIdx_none h1 e (List.mem_of_getElem? he)
      simp [ha, hw] at this
    | some j =>
      obtain ⟨e', he', hpe⟩ := findIdx_some h1
      simp only [Bool.and_eq_true, beq_iff_eq] at hpe
      rw [hi.hUniq j i e' e he' he hpe.1 ha (by rw [hpe.2, hw])]
  simp only [register, hf, joinExisting, he]
  cases p
  · simp [hp2 rfl]
  · simp [hp1 rfl]

/-- C34. Registration is refused exactly when the caller is not registered and all 16 slots are held
by participants whose lease has not expired. -/
theorem refused_iff (h : Hdr) (w : Who) (p : Bool) (now : Nat) :
    (register h w p now).1 = none ↔
      (¬ Registered h w) ∧ ∀ e ∈ h.entries, e.active = true ∧ e.lease ≠ 0 ∧ now ≤ e.lease := by
  unfold register
  cases h1 : h.entries.findIdx? (fun e => e.active && (e.who == w)) with
  | some i =>
    obtain ⟨e, he, hpe⟩ := findIdx_some h1
    simp only [Bool.and_eq_true, beq_iff_eq] at hpe
    simp only [reduceCtorEq, false_iff, not_and, Registered]
    intro hc; exact absurd ⟨e, List.mem_of_getElem? he, hpe.1, hpe.2⟩ hc
  | none =>
    have hn := findIdx_none h1
    have hreg : ¬ Registered h w := by
      rintro ⟨e, he, ha, hw⟩
      have := hn e he
      simp [ha, hw] at this
    simp only
    cases h2 : h.entries.findIdx? (fun e => !e.active || e.expired now) with
    | some i =>
      obtain ⟨e, he, hpe⟩ := findIdx_some h2
      simp only [reduceCtorEq, false_iff, not_and]
      intro _ hc
      obtain ⟨c1, c2, c3⟩ := hc e (List.mem_of_getElem? he)
      simp [Entry.expired, c1, c2] at hpe
      omega
    | none =>
      have hn2 := findIdx_none h2
      simp only [true_iff]
      refine ⟨hreg, fun e he => ?_⟩
      have := hn2 e he
      simp only [Entry.expired, Bool.or_eq_false_iff, Bool.not_eq_false', beq_eq_false_iff_ne,
        decide_eq_false_iff_not] at this
      exact ⟨this.1, this.2.1, by omega⟩

/-- C34. A participant whose lease has not expired is never displaced by somebody else's
registration. -/
theorem live_entry_kept (h : Hdr) (w : Who) (p : Bool) (now i : Nat) (e : Entry) (he : h.entries[i]? = some e)
    (ha : e.active = true) (hl : e.lease ≠ 0) (hn : now ≤ e.lease) (hw : e.who ≠ w) :
    (register h w p now).2.entries[i]? = some e := by
  have other : ∀ (j : Nat) (x : Entry), j ≠ i → (h.entries.set j x)[i]? = some e := by
    intro j x hj; rw [List.getElem?_set_ne hj]; exact he
  unfold register
  cases h1 : h.entries.findIdx? (fun e => e.active && (e.who == w)) with
  | some j =>
    obtain ⟨x, hx, hpx⟩ := findIdx_some h1
    simp only [Bool.and_eq_true, beq_iff_eq] at hpx
    have hji : j ≠ i := by
      rintro rfl; rw [he] at hx; cases hx; exact hw hpx.2
    simp only [joinExisting, hx]
    exact other _ _ hji
  | none =>
    simp only
    cases h2 : h.entries.findIdx? (fun e => !e.active || e.expired now) with
    | some j =>
      obtain ⟨x, hx, hpx⟩ := findIdx_some h2
      have hji : j ≠ i := by
        rintro rfl; rw [he] at hx; cases hx
        simp [Entry.expired, ha, hl] at hpx; omega
      simp only [takeSlot, hx]
      exact other _ _ hji
    | none => exact he

/-- The counts are those of leases, not of users. A participant refreshes its lease only on every
1024th message: whatever it sends in its first 1023 messages leaves the table unchanged, so after the
lease time (5 s) it is displaced and no longer counted although it never stopped. Here a subscriber
is displaced by a second publisher: the topic has a live subscriber and counts none. -/
theorem slow_participant_uncounted :
    (∀ (h : Hdr) (i k now : Nat), k + 1 < 1024 → onMessage h i k now = h) ∧
    ∃ es : List Ev, (run Hdr.init es).subs = 0 ∧ es.length = 2 ∧
      ∃ w now, es.head? = some (.register w false now) := by
  refine ⟨?_, [.register (1, 1) false 1000, .register (2, 1) true 6001], by decide, rfl, (1, 1), 1000, rfl⟩
  intro h i k now hk
  unfold onMessage refreshInterval
  rw [if_neg]
  rw [Nat.mod_eq_of_lt (by omega)]; omega

/-- A handle whose slot was taken over refreshes the new owner's lease, not its own. -/
theorem stale_handle_refreshes_other :
    ∃ es : List Ev, (register Hdr.init (1, 1) false 1000).1 = some 0 ∧
      ((run Hdr.init es).entries[0]?).map (fun e => (e.who, e.lease)) = some ((2, 1), 15000) ∧
      es = [.register (1, 1) false 1000, .register (2, 1) true 6001, .refresh 0 10000] :=
  ⟨_, by decide, by decide, rfl⟩

/-- A table with publishers, subscribers and a displaced participant. -/
example : let h := run Hdr.init [.register (1, 1) true 1000, .register (2, 1) false 2000, .register (2, 1) true 2500,
      .register (3, 9) false 9000]
    h.pubs = 1 ∧ h.subs = 2 ∧ Registered h (3, 9) ∧ ¬ Registered h (1, 1) := by
  refine ⟨by decide, by decide, ?_, ?_⟩
  · exact ⟨⟨(3, 9), false, true, true, 14000⟩, by decide, rfl, rfl⟩
  · rintro ⟨e, he, ha, hw⟩
    have : ∀ e ∈ (run Hdr.init [.register (1, 1) true 1000, .register (2, 1) false 2000, .register (2, 1) true 2500,
      .register (3, 9) false 9000]).entries, e.active = true → e.who ≠ (1, 1) := by decide
    exact this e he ha hw

/-! ### Choice of backend -/

/-- C39. The choice of backend fits the participants it is made for: protocols with a single reader
are chosen only with at most one subscriber, several subscribers get a broadcast or fan-out, several
publishers never get a single-publisher protocol, and the competing-consumer mode is never chosen. -/
theorem backend_fits (pubs subs : Nat) (pod : Bool) :
    (detect pubs subs pod = .spscShm ↔ (pubs ≤ 1 ∧ subs ≤ 1 ∧ 0 < pubs + subs)) ∧
    (detect pubs subs pod = .mpscShm ↔ (2 ≤ pubs ∧ subs ≤ 1)) ∧
    (detect pubs subs pod = .podShm ↔ (2 ≤ subs ∧ pod = true)) ∧
    (detect pubs subs pod = .fanoutShm ↔ (2 ≤ subs ∧ pod = false)) ∧
    (detect pubs subs pod = .unknown ↔ (pubs = 0 ∧ subs = 0)) ∧
    detect pubs subs pod ≠ .spmcShm := by
  unfold detect
  by_cases h1 : pubs = 0 ∧ subs = 0
  · simp only [if_pos h1, reduceCtorEq, false_iff, true_iff, ne_eq, not_false_eq_true, and_true]
    refine ⟨by omega, by omega, ?_, ?_, h1⟩ <;> (intro hx; omega)
  · rw [if_neg h1]
    by_cases h2 : pubs ≤ 1 ∧ subs ≤ 1
    · simp only [if_pos h2, reduceCtorEq, false_iff, true_iff, ne_eq, not_false_eq_true, and_true]
      refine ⟨by omega, by omega, ?_, ?_, h1⟩ <;> (intro hx; omega)
    · rw [if_neg h2]
      by_cases h3 : pubs > 1 ∧ subs ≤ 1
      · simp only [if_pos h3, reduceCtorEq, false_iff, true_iff, ne_eq, not_false_eq_true, and_true]
        refine ⟨by omega, by omega, ?_, ?_, h1⟩ <;> (intro hx; omega)
      · rw [if_neg h3]
        have h4 : 2 ≤ subs := by omega
        cases pod <;> simp [h4] <;> omega

/-- Which receivers understand which senders on the shared ring. -/
def Compatible : SendProto → RecvProto → Prop
  | .mp, .mpsc => True
  | .sp, .spmc => True
  | .broadcast, .broadcast => True
  | .fanout, .fanout => True
  | _, _ => False

/-- C39. In every mode the send and receive functions of registered handles speak the same protocol;
an unregistered handle goes through registration first; and the mode byte survives its encoding. -/
theorem dispatch_paired (m : Backend) :
    Compatible (sendProto m true) (recvProto m true) ∧ sendProto m false = .uninit ∧ recvProto m false = .uninit ∧
    Backend.ofU8 m.toU8 = m := by
  cases m <;> exact ⟨trivial, rfl, rfl, rfl⟩

/-- C39. A second publisher joining a single-publisher topic does not change the protocol. -/
theorem second_publisher_same_protocol (pod : Bool) (subs : Nat) (h : subs ≤ 1) :
    sendProto (detect 1 subs pod) true = sendProto (detect 2 subs pod) true ∧
    recvProto (detect 1 subs pod) true = recvProto (detect 2 subs pod) true := by
  have e1 : detect 1 subs pod = .spscShm := ((backend_fits 1 subs pod).1).mpr ⟨by omega, h, by omega⟩
  have e2 : detect 2 subs pod = .mpscShm := ((backend_fits 2 subs pod).2.1).mpr ⟨by omega, h⟩
  rw [e1, e2]; exact ⟨rfl, rfl⟩

/-! ### C35 -/

/-- C35. A resync never moves a subscriber past the write position, and, once it has delivered
something, never back before what it delivered (unless the ring itself restarted with a smaller
head). -/
theorem resync_in_range (l s h : Nat) (d : Bool) :
    resyncedTail l s h d ≤ h ∧ (d = true → l ≤ h → l ≤ resyncedTail l s h d) := by
  unfold resyncedTail
  cases d <;> simp <;> omega

/-- C35. A late joiner starts at most one ring behind the write position, never beyond it, and never
before the position it was given. -/
theorem late_join_in_range (head tail cap : Nat) (hc : 0 < cap) (ht : tail ≤ head) (hh : head < 2 ^ 64) :
    head ≤ lateJoin head tail cap + cap ∧ lateJoin head tail cap ≤ head ∧ tail ≤ lateJoin head tail cap := by
  unfold lateJoin
  have e : (head + 2 ^ 64 - tail) % 2 ^ 64 = head - tail := by
    have : head + 2 ^ 64 - tail = (head - tail) + 2 ^ 64 := by omega
    rw [this, Nat.add_mod_right, Nat.mod_eq_of_lt (by omega)]
  rw [e]
  split
  · next h =>
    have e2 : (head + 2 ^ 64 - cap) % 2 ^ 64 = head - cap := by
      have : head + 2 ^ 64 - cap = (head - cap) + 2 ^ 64 := by omega
      rw [this, Nat.add_mod_right, Nat.mod_eq_of_lt (by omega)]
    rw [e2]; omega
  · next h => omega

/-- C35. Under any interleaving of publishing, reading and any number of subscribers going through
migrations, no subscriber's position ever goes back (nothing is re-read) or passes the head. -/
theorem position_monotone (s : Cursors) (as : List CAct) (h : ∀ i, s.pos i ≤ s.head) (ht : s.tail ≤ s.head) (i : Nat) :
    s.pos i ≤ (crun s as).pos i ∧ (crun s as).pos i ≤ (crun s as).head := by
  induction as generalizing s with
  | nil => exact ⟨Nat.le_refl _, h i⟩
  | cons a as ih =>
    have key : (∀ j, s.pos j ≤ (cstep s a).pos j) ∧ (∀ j, (cstep s a).pos j ≤ (cstep s a).head) ∧
        (cstep s a).tail ≤ (cstep s a).head := by
      cases a with
      | publish =>
        refine ⟨fun j => Nat.le_refl _, fun j => ?_, ?_⟩
        · have := h j; simp only [cstep]; omega
        · simp only [cstep]; omega
      | read k =>
        simp only [cstep]
        split
        · refine ⟨fun j => ?_, fun j => ?_, ht⟩
          · simp only; split
            · next e => subst e; omega
            · exact Nat.le_refl _
          · simp only; split
            · omega
            · exact h j
        · exact ⟨fun _ => Nat.le_refl _, h, ht⟩
      | flush k => exact ⟨fun _ => Nat.le_refl _, h, h k⟩
      | resync k =>
        have hk := h k
        refine ⟨fun j => ?_, fun j => ?_, ht⟩
        · simp only [cstep]; split
          · next e => subst e; simp only [resyncedTail, syncTail, Bool.true_eq_false, if_false, if_true]; omega
          · exact Nat.le_refl _
        · simp only [cstep]; split
          · exact (resync_in_range _ _ _ _).1
          · exact h j
    have := ih (cstep s a) key.2.1 key.2.2
    exact ⟨Nat.le_trans (key.1 i) this.1, this.2⟩

/-- C35. With a single subscriber a migration moves nothing: what it has read and what it has still
to read are unchanged, wherever publishing falls in between. -/
theorem single_subscriber_unmoved (s : Cursors) (n : Nat) (i : Nat) (h : s.pos i ≤ s.head) :
    (crun s (.flush i :: List.replicate n .publish ++ [.resync i])).pos i = s.pos i := by
  have hp : ∀ (n : Nat) (t : Cursors), crun t (List.replicate n .publish) = { t with head := t.head + n } := by
    intro n
    induction n with
    | zero => intro t; rfl
    | succ n ih =>
      intro t
      simp only [List.replicate_succ, crun, List.foldl_cons]
      have := ih (cstep t .publish)
      simp only [crun] at this
      rw [this]
      simp only [cstep]
      congr 1; omega
  have e : crun s (.flush i :: List.replicate n .publish ++ [.resync i]) =
      cstep (crun (cstep s (.flush i)) (List.replicate n .publish)) (.resync i) := by
    simp [crun, List.foldl_append]
  rw [e, hp]
  simp only [cstep, resyncedTail, syncTail, Bool.true_eq_false, if_false, if_true]
  omega

/-- A limit of C35: on a broadcast topic the shared tail is not the slowest subscriber's position
but the last one stored. If subscriber 1, further ahead, stores its position between subscriber 0's
store and re-read, subscriber 0 jumps over messages it never delivered, and does not count them as
missed. -/
theorem migration_skips_silently :
    ∃ (s : Cursors) (as : List CAct), (s.pos 0 = 2 ∧ s.pos 1 = 9 ∧ s.head = 10) ∧
      as = [.flush 0, .flush 1, .resync 0] ∧ (crun s as).pos 0 = 9 ∧ (crun s as).missed 0 = s.missed 0 :=
  ⟨⟨10, 0, fun i => if i = 0 then 2 else if i = 1 then 9 else 0, fun _ => 0⟩, _, by decide, rfl, by decide, by decide⟩

example : resyncedTail 7 3 10 true = 7 ∧ resyncedTail 7 3 10 false = 3 ∧ lateJoin 100 0 16 = 84 ∧ lateJoin 10 0 16 = 0 := by
  decide

/-! ### C36 -/

theorem bindAll_word (hs : List Nat) : ∀ w, w ≠ 0 → (bindAll w hs).2 = w := by
  induction hs with
  | nil => intro w _; rfl
  | cons h hs ih =>
    intro w hw
    simp only [bindAll]
    have : (bindLayout w h).2 = w := by
      unfold bindLayout
      rw [if_neg hw]
      split
      · rfl
      · split <;> rfl
    rw [this]; exact ih w hw

/-- C36. Whatever handles join in whatever order, every admitted handle that states a layout agrees
with the word recorded in the header, so all of them agree with each other; and a handle is refused
exactly when it states a layout different from the one recorded. (A layout hash of 0 states no
layout.) -/
theorem layout_agreed (hs : List Nat) (w : Nat) (i : Nat) (h : Nat) (hi : hs[i]? = some h) :
    (bindAll w hs).1[i]? = some true ↔ h = 0 ∨ h = (bindAll w hs).2 := by
  induction hs generalizing w i with
  | nil => simp at hi
  | cons x hs ih =>
    cases i with
    | succ i =>
      simp only [bindAll, List.getElem?_cons_succ] at hi ⊢
      exact ih _ i hi
    | zero =>
      simp only [List.getElem?_cons_zero, Option.some.injEq] at hi
      subst hi
      simp only [bindAll, List.getElem?_cons_zero, Option.some.injEq]
      by_cases hx : x = 0
      · simp [bindLayout, hx]
      · by_cases hw : w = 0
        · have : bindLayout w x = (true, x) := by simp [bindLayout, hx, hw]
          rw [this, bindAll_word hs x hx]; simp
        · have e2 : (bindLayout w x).2 = w := by
            unfold bindLayout
            rw [if_neg hx, if_neg hw]; split <;> rfl
          rw [e2, bindAll_word hs w hw]
          unfold bindLayout
          rw [if_neg hx, if_neg hw]
          by_cases he : w = x
          · simp [he]
          · rw [if_neg he]
            simp only [Bool.false_eq_true, false_iff, not_or]
            exact ⟨hx, fun e => he e.symm⟩

/-- C36. The recorded layout is the first one stated. -/
theorem layout_first_wins (hs : List Nat) : (bindAll 0 hs).2 = (hs.find? (fun h => decide (h ≠ 0))).getD 0 := by
  induction hs with
  | nil => rfl
  | cons x hs ih =>
    simp only [bindAll, List.find?_cons]
    by_cases hx : x = 0
    · subst hx
      simp only [bindLayout, if_true]
      simpa using ih
    · have : bindLayout 0 x = (true, x) := by simp [bindLayout, hx]
      rw [this]
      simp only [bindAll_word hs x hx]
      simp [hx]

example : bindAll 0 [0, 7, 7, 9, 0] = ([true, true, true, false, true], 7) := by decide

/-! ### C37 -/

theorem nextPow2_spec (n : Nat) (h : n ≤ 2 ^ 31) : (∃ k, k ≤ 31 ∧ nextPow2 n = 2 ^ k) ∧ n ≤ nextPow2 n := by
  have hk : Nat.clog 2 n ≤ 31 := by
    have := Nat.clog_mono_right 2 h
    rwa [Nat.clog_pow 2 31 (by omega)] at this
  have hlt : 2 ^ Nat.clog 2 n < 2 ^ 32 := by
    apply Nat.pow_lt_pow_right (by omega); omega
  unfold nextPow2
  rw [if_pos hlt]
  exact ⟨⟨_, hk, rfl⟩, Nat.le_pow_clog (by omega) n⟩

theorem nextPow2_le {n m : Nat} (h : n ≤ 2 ^ m) (hm : m ≤ 31) : nextPow2 n ≤ 2 ^ m := by
  unfold nextPow2
  split
  · apply Nat.pow_le_pow_right (by omega)
    have := Nat.clog_mono_right 2 h
    rwa [Nat.clog_pow 2 m (by omega)] at this
  · omega

/-- C37. The automatic capacity is a power of two between 16 and 1024 for every message size. -/
theorem auto_capacity_valid (size : Nat) :
    (∃ k, autoCapacity size = 2 ^ k) ∧ 16 ≤ autoCapacity size ∧ autoCapacity size ≤ 1024 := by
  unfold autoCapacity
  split
  · exact ⟨⟨4, rfl⟩, by omega, by omega⟩
  · have hb : min (max (4096 / size) 16) 1024 ≤ 1024 := Nat.min_le_right _ _
    obtain ⟨⟨k, _, hk⟩, hle⟩ := nextPow2_spec (min (max (4096 / size) 16) 1024) (by omega)
    refine ⟨⟨k, hk⟩, ?_, ?_⟩
    · have : 16 ≤ min (max (4096 / size) 16) 1024 := by omega
      omega
    · exact nextPow2_le (m := 10) hb (by omega)

/-- Byte ranges `[a, a+n)` and `[b, b+m)` do not meet. -/
def Disjoint (a n b m : Nat) : Prop := a + n ≤ b ∨ b + m ≤ a

theorem mul_succ_le {i cap s : Nat} (h : i < cap) : i * s + s ≤ cap * s := by
  have := Nat.mul_le_mul_right s (show i + 1 ≤ cap from h)
  rw [Nat.add_mul, Nat.one_mul] at this; exact this

/-- C37, as far as it is true. For a topic created with a requested capacity of at most 2^31 and any
other accepted arguments: the capacity is a power of two at least the requested one, the mask selects
every slot index, and every ready word and every data slot lies inside the mapped region, past the
header, with no two overlapping. Missing for the full claim: requested capacities above 2^31, which
are accepted and break it (`huge_capacity_broken`). -/
theorem region_valid_partial (req : Nat) (pod : Bool) (ts : Nat) (ss : Option Nat) (hok : argsOk req ss = true)
    (hr : req ≤ 2 ^ 31) :
    (∃ k, ringCapacity req = 2 ^ k) ∧ req ≤ ringCapacity req ∧
    (∀ seq, seq &&& ringMask req = seq % ringCapacity req) ∧
    (∀ i, i < ringCapacity req →
      headerSize ≤ seqSlotOffset i ∧ seqSlotOffset i + 8 ≤ dataRegionOffset (ringCapacity req) ∧
      dataRegionOffset (ringCapacity req) ≤ dataSlotOffset (ringCapacity req) i (stride pod ts ss) ∧
      dataSlotOffset (ringCapacity req) i (stride pod ts ss) + stride pod ts ss ≤ mappedLen req pod ts ss) ∧
    (∀ i j, i < j → Disjoint (seqSlotOffset i) 8 (seqSlotOffset j) 8 ∧
      Disjoint (dataSlotOffset (ringCapacity req) i (stride pod ts ss)) (stride pod ts ss)
        (dataSlotOffset (ringCapacity req) j (stride pod ts ss)) (stride pod ts ss)) := by
  have hstride : stride pod ts ss ≤ slotBytes pod ts ss := by
    unfold stride slotBytes
    cases pod
    · exact Nat.le_refl _
    · simp only [if_true]; split <;> omega
  have hpos : req ≠ 0 := by
    simp only [argsOk, Bool.and_eq_true, decide_eq_true_eq] at hok; exact hok.1
  obtain ⟨⟨k, hk31, hk⟩, hle⟩ := nextPow2_spec req hr
  refine ⟨⟨k, hk⟩, hle, ?_, ?_, ?_⟩
  · intro seq
    unfold ringMask ringCapacity
    rw [hk]
    have h1 : 0 < 2 ^ k := Nat.two_pow_pos k
    have h2 : 2 ^ k < 2 ^ 32 := Nat.pow_lt_pow_right (by omega) (by omega)
    have : (2 ^ k + 2 ^ 32 - 1) % 2 ^ 32 = 2 ^ k - 1 := by
      have : 2 ^ k + 2 ^ 32 - 1 = (2 ^ k - 1) + 2 ^ 32 := by omega
      rw [this, Nat.add_mod_right, Nat.mod_eq_of_lt (by omega)]
    rw [this, Nat.and_two_pow_sub_one_eq_mod]
  · intro i hi
    unfold ringCapacity at hi ⊢
    have a1 := mul_succ_le (s := 8) hi
    have a2 := mul_succ_le (s := stride pod ts ss) hi
    have a3 := Nat.mul_le_mul_left (nextPow2 req) hstride
    unfold seqSlotOffset dataRegionOffset dataSlotOffset mappedLen regionLen dataRegionOffset
    refine ⟨by omega, by omega, by omega, by omega⟩
  · intro i j hij
    have a1 := mul_succ_le (s := 8) hij
    have a2 := mul_succ_le (s := stride pod ts ss) hij
    unfold Disjoint seqSlotOffset dataSlotOffset
    exact ⟨Or.inl (by omega), Or.inl (by omega)⟩

/-- C37 fails for requested capacities above 2^31: they pass the argument check, and in a release
build give a ring of capacity 0 with mask 2^32 - 1 in a region that holds the header only, so slot
offsets fall outside it. -/
theorem huge_capacity_broken :
    argsOk (2 ^ 31 + 1) none = true ∧ ringCapacity (2 ^ 31 + 1) = 0 ∧ ringMask (2 ^ 31 + 1) = 2 ^ 32 - 1 ∧
    ∀ pod ts ss, mappedLen (2 ^ 31 + 1) pod ts ss = headerSize := by
  have h : nextPow2 (2 ^ 31 + 1) = 0 := by
    unfold nextPow2
    rw [if_neg]
    have : 31 < Nat.clog 2 (2 ^ 31 + 1) := (Nat.lt_clog_iff_pow_lt (by omega)).mpr (by omega)
    have := Nat.pow_le_pow_right (n := 2) (by omega) (show 32 ≤ Nat.clog 2 (2 ^ 31 + 1) by omega)
    omega
  refine ⟨by decide, h, ?_, ?_⟩
  · unfold ringMask; rw [h]
  · intro pod ts ss
    unfold mappedLen regionLen
    rw [h]; simp

example : nextPow2 10 = 16 ∧ argsOk 10 (some 4096) = true := by
  have e : Nat.clog 2 10 = 4 := by
    apply Nat.le_antisymm
    · exact (Nat.clog_le_iff_le_pow (by omega)).mpr (by omega)
    · exact (Nat.lt_clog_iff_pow_lt (by omega)).mpr (by omega)
  unfold nextPow2
  rw [e]; decide

end Horus.Topic
