import Verif.Msg.Layout
import Mathlib.Data.List.Forall2
import Mathlib.Data.List.Nodup

/-!
C118: `horus topic echo` prints the values that were published, or falls back to a hex dump.
-/

namespace Horus.Msg

/-! ### Specification: the memory image of a value, and its printouts -/

/-- A value: a number of a primitive type (as its raw bits), an array, a struct. -/
inductive Val
  | num (p : Prim) (n : Nat)
  | arr (t : Ty) (vs : List Val)
  | record (fs : List (Str × Val))

mutual
/-- `Enc D t v bs`: the bytes `bs` are the memory of value `v` of type `t`: little-endian numbers, the
elements of an array one after the other, the fields of a struct at their C offsets with anything
between them. -/
inductive Enc (D : Defs) : Ty → Val → Bytes → Prop
  | prim (p : Prim) {bs : Bytes} (h : bs.length = width p.rust) : Enc D (.prim p) (.num p (leNat bs)) bs
  | arr {t n vs bs} (h : EncElems D t n vs bs) : Enc D (.arr t n) (.arr t vs) bs
  | ref {r fs vs} {bs : Bytes} {a} (hd : D r = some fs) (hs : CTy D (.ref r) bs.length a) (hf : EncFields D fs 0 vs bs) :
      Enc D (.ref r) (.record vs) bs
inductive EncElems (D : Defs) : Ty → Nat → List Val → Bytes → Prop
  | nil (t : Ty) : EncElems D t 0 [] []
  | cons {t n v vs b rest} (h : Enc D t v b) (hr : EncElems D t n vs rest) : EncElems D t (n + 1) (v :: vs) (b ++ rest)
inductive EncFields (D : Defs) : List Field → Nat → List (Str × Val) → Bytes → Prop
  | nil (c : Nat) (bs : Bytes) : EncFields D [] c [] bs
  | cons {f fs c o s a v vs bs} (ht : CTy D f.ty s a) (ho : FirstAligned c a o) (hv : Enc D f.ty v (slice bs o s))
      (hr : EncFields D fs (o + s) vs bs) : EncFields D (f :: fs) c ((f.name, v) :: vs) bs
end

/-- `Shows v x`: `x` is a correct printout of `v`. Arrays show at most eight elements and say how many
are missing; a byte array may be shown as text if it is that text and zeros after it. -/
inductive Shows : Val → Shown → Prop
  | num (p : Prim) (n : Nat) : Shows (.num p n) (.num p n)
  | text {vs : List Val} (text : Bytes) (k : Nat)
      (h : vs = text.map (fun b => Val.num .u8 b.toNat) ++ List.replicate k (Val.num .u8 0))
      (hp : ∀ b ∈ text, 0x20 ≤ b.toNat ∧ b.toNat < 0x7f) : Shows (.arr (.prim .u8) vs) (.text text)
  | list {t : Ty} {vs : List Val} {xs : List Shown} (h : List.Forall₂ Shows (vs.take 8) xs) :
      Shows (.arr t vs) (.list xs (vs.length - 8))
  | record {vs : List (Str × Val)} {xs : List (Str × Shown)}
      (hn : vs.map (·.1) = xs.map (·.1)) (h : List.Forall₂ Shows (vs.map (·.2)) (xs.map (·.2))) :
      Shows (.record vs) (.record xs)

/-- No byte array inside the value begins with a zero unless it is all zeros. -/
inductive NoZeroLed : Val → Prop
  | num (p : Prim) (n : Nat) : NoZeroLed (.num p n)
  | arr {t : Ty} {vs : List Val} (h : ∀ v ∈ vs, NoZeroLed v)
      (hz : t = .prim .u8 → vs.head? = some (.num .u8 0) → ∀ v ∈ vs, v = .num .u8 0) : NoZeroLed (.arr t vs)
  | record {fs : List (Str × Val)} (h : ∀ f ∈ fs, NoZeroLed f.2) : NoZeroLed (.record fs)

/-- The registry lists the fields of every struct it knows, all of them and in order. -/
def Faithful (reg : Registry) (D : Defs) : Prop :=
  ∀ r decls, reg r = some decls →
    ∃ fs, D r = some fs ∧ List.Forall₂ (fun d f => d.1 = f.name ∧ typeOf d.2 = some f.ty) decls fs

/-! ### the two layout computations agree -/

theorem roundUpC_spec {v a o : Nat} (h : roundUpC v a = some o) : FirstAligned v a o := by
  unfold roundUpC at h
  split_ifs at h with h1 h2
  · cases h
    refine ⟨⟨Nat.le_refl _, Nat.dvd_of_mod_eq_zero h2⟩, fun x hx => hx.1⟩
  · unfold checked at h
    split_ifs at h
    cases h
    have ha : 0 < a := Nat.pos_of_ne_zero h1
    have hm := Nat.mod_lt v ha
    have hd := Nat.mod_add_div v a
    refine ⟨⟨by omega, ?_⟩, ?_⟩
    · exact ⟨v / a + 1, by rw [Nat.mul_add]; omega⟩
    · rintro x ⟨hx, ⟨k, rfl⟩⟩
      have : v / a < k := by
        by_contra hc
        have := Nat.mul_le_mul_left a (Nat.le_of_not_lt hc)
        omega
      have := Nat.mul_le_mul_left a this
      rw [Nat.mul_succ] at this
      omega

theorem cfields_align {D : Defs} {fs : List Field} {c e A : Nat} {os : List Nat} (h : CFields D fs c os e A) : 1 ≤ A := by
  induction fs generalizing c os A with
  | nil => cases h; exact Nat.le_refl _
  | cons f fs ih => cases h with | cons _ _ hr => exact Nat.le_trans (ih hr) (Nat.le_max_right _ _)

theorem getFrom_eq {data d : Bytes} {o : Nat} (h : getFrom data o = some d) : d = data.drop o := by
  unfold getFrom at h; split_ifs at h; cases h; rfl

theorem checked_eq {n m : Nat} (h : checked n = some m) : m = n := by
  unfold checked at h; split_ifs at h; cases h; rfl

theorem structLoop_spec {D : Defs} {lay : Ty → Option (Nat × Nat)}
    (hl : ∀ t s a, lay t = some (s, a) → CTy D t s a) {decls : List (Str × Str)} {fs : List Field}
    (hf : List.Forall₂ (fun d f => d.1 = f.name ∧ typeOf d.2 = some f.ty) decls fs) {c A e B : Nat} (hA : 1 ≤ A)
    (h : structLoop lay c A decls = some (e, B)) : ∃ os A', CFields D fs c os e A' ∧ B = max A A' := by
  induction hf generalizing c A with
  | nil => cases h; exact ⟨[], 1, .nil _, by omega⟩
  | @cons d f decls fs hd _ ih =>
    unfold structLoop at h
    rw [hd.2] at h
    simp only [Option.bind_eq_bind, Option.bind_some, Option.bind_eq_some_iff] at h
    obtain ⟨⟨s, a⟩, hsa, o, ho, x, hx, hr⟩ := h
    have := checked_eq hx
    subst this
    obtain ⟨os, A', h1, h2⟩ := ih (by omega) hr
    exact ⟨o :: os, max a A', .cons (hl _ _ _ hsa) (roundUpC_spec ho) h1, by rw [h2]; omega⟩

/-- C117 for the printer: whenever `layout_of` answers, it answers with the C layout. -/
theorem layoutOf_spec {reg : Registry} {D : Defs} (hf : Faithful reg D) (k : Nat) {t : Ty} {s a : Nat}
    (h : layoutOf reg k t = some (s, a)) : CTy D t s a := by
  induction k generalizing t s a with
  | zero => cases h
  | succ k ih =>
    cases t with
    | prim p => cases h; rw [size_width]; exact .prim p
    | arr t n =>
      unfold layoutOf at h
      simp only [Option.bind_eq_bind, Option.bind_eq_some_iff] at h
      obtain ⟨⟨s', a'⟩, h1, x, h2, h3⟩ := h
      have := checked_eq h2
      subst this
      cases h3
      exact .arr n (ih h1)
    | ref r =>
      unfold layoutOf structLayout at h
      simp only [Option.bind_eq_bind, Option.bind_eq_some_iff] at h
      obtain ⟨decls, h1, ⟨e, A⟩, h2, x, h3, h4⟩ := h
      cases h4
      obtain ⟨fs, hd, hfs⟩ := hf r decls h1
      obtain ⟨os, A', h5, h6⟩ := structLoop_spec (fun t s a => ih) hfs (Nat.le_refl 1) h2
      have hA : 1 ≤ A' := cfields_align h5
      rw [Nat.max_eq_right hA] at h6
      subst h6
      exact .ref hd h5 (roundUpC_spec h3)

/-- The printer and the generator give every message of a package the same size and alignment. -/
theorem printer_agrees_with_generator {pkg : List MsgDef} {ls : List Layout} (h : generate pkg = .ok ls)
    {reg : Registry} (hf : Faithful reg (defs pkg)) {k : Nat} {m : MsgDef} {l : Layout} (hm : (m, l) ∈ pkg.zip ls)
    {s a : Nat} (hl : layoutOf reg k (.ref m.name) = some (s, a)) : s = l.size ∧ a = l.align := by
  have hall := generated_layout_is_c h
  have hc : IsCLayout (defs pkg) m l := (List.forall₂_iff_zip.mp hall).2 hm
  have hnd : (pkg.map (·.name)).Nodup := by
    unfold generate at h; split_ifs at h with h1; exact h1
  have hmem : m ∈ pkg := (List.of_mem_zip hm).1
  have hd : defs pkg m.name = some m.fields := by
    unfold defs
    have : pkg.find? (fun m' => m'.name == m.name) = some m := by
      cases hx : pkg.find? (fun m' => m'.name == m.name) with
      | none => have := List.find?_eq_none.mp hx m hmem; simp at this
      | some m' =>
        have h1 := List.find?_some hx
        have h2 := List.mem_of_find?_eq_some hx
        rw [List.inj_on_of_nodup_map hnd h2 hmem (by simpa using h1)]
    rw [this]; rfl
  obtain ⟨e, h1, h2⟩ := hc.offsets
  exact cty_unique (layoutOf_spec hf k hl) _ _ (.ref hd h1 h2)

/-! ### printing -/

theorem encElems_length {D : Defs} {t : Ty} {s : Nat} (hl : ∀ v b, Enc D t v b → b.length = s) {n : Nat} {vs : List Val}
    {bs : Bytes} (h : EncElems D t n vs bs) : bs.length = s * n ∧ vs.length = n := by
  induction n generalizing vs bs with
  | zero => cases h; simp
  | succ n ih =>
    cases h with
    | cons hv hr =>
      obtain ⟨h1, h2⟩ := ih hr
      rw [List.length_append, hl _ _ hv, h1, List.length_cons, h2, Nat.mul_succ]
      exact ⟨Nat.add_comm _ _, rfl⟩

/-- The image of a value is as long as its type is large. -/
theorem enc_length {D : Defs} {t : Ty} {v : Val} {bs : Bytes} (h : Enc D t v bs) {s a : Nat} (hc : CTy D t s a) :
    bs.length = s := by
  induction t generalizing v bs s a with
  | prim p => cases h with | prim _ h => cases hc; exact h
  | arr t n ih =>
    cases hc with
    | arr n hc =>
      cases h with
      | arr h => exact (encElems_length (fun v b hb => ih hb hc) h).1
  | ref r =>
    cases h with
    | ref hd hs hf => exact (cty_unique hs _ _ hc).1

theorem renderElems_spec {D : Defs} {t : Ty} {s : Nat} (hl : ∀ v b, Enc D t v b → b.length = s) {rend : Bytes → Option Shown}
    (P : Val → Prop) (hr : ∀ v b ex x, P v → Enc D t v b → rend (b ++ ex) = some x → Shows v x)
    (m : Nat) {n i : Nat} {vs : List Val} {bs pre ex : Bytes} (hm : m ≤ n) (hp : pre.length = i * s)
    (he : EncElems D t n vs bs) (hP : ∀ v ∈ vs, P v) {xs : List Shown}
    (h : renderElems rend s (pre ++ bs ++ ex) i m = some xs) : List.Forall₂ Shows (vs.take m) xs := by
  induction m generalizing n i vs bs pre xs with
  | zero => cases h; simp
  | succ m ih =>
    cases he with
    | nil => exact absurd hm (by omega)
    | @cons _ n v vs b rest hv hrest =>
      unfold renderElems at h
      simp only [Option.bind_eq_bind, Option.bind_eq_some_iff] at h
      obtain ⟨off, ho, d, hd, x, hx, ys, hys, hxs⟩ := h
      cases hxs
      have := checked_eq ho
      subst this
      have := getFrom_eq hd
      subst this
      have e1 : (pre ++ (b ++ rest) ++ ex).drop (i * s) = b ++ (rest ++ ex) := by
        rw [← hp, List.append_assoc, List.drop_left, List.append_assoc]
      rw [e1] at hx
      have e2 : pre ++ (b ++ rest) ++ ex = (pre ++ b) ++ rest ++ ex := by simp [List.append_assoc]
      rw [e2] at hys
      rw [List.take_succ_cons]
      refine .cons (hr _ _ _ _ (hP v List.mem_cons_self) hv hx) (ih (by omega) ?_ hrest (fun w hw => hP w (List.mem_cons_of_mem _ hw)) hys)
      rw [List.length_append, hp, hl _ _ hv, Nat.succ_mul]

theorem slice_prefix (bs ex : Bytes) (o s : Nat) : ∃ ex', (bs ++ ex).drop o = slice bs o s ++ ex' := by
  unfold slice
  rw [List.drop_append]
  refine ⟨(bs.drop o).drop s ++ ex.drop (o - bs.length), ?_⟩
  rw [← List.append_assoc, List.take_append_drop]

theorem renderFields_spec {D : Defs} {lay : Ty → Option (Nat × Nat)} (hl : ∀ t s a, lay t = some (s, a) → CTy D t s a)
    {rend : Ty → Bytes → Option Shown}
    (hr : ∀ t v b ex x, NoZeroLed v → Enc D t v b → rend t (b ++ ex) = some x → Shows v x)
    {decls : List (Str × Str)} {fs : List Field}
    (hf : List.Forall₂ (fun d f => d.1 = f.name ∧ typeOf d.2 = some f.ty) decls fs) {c : Nat} {vs : List (Str × Val)}
    {bs ex : Bytes} (he : EncFields D fs c vs bs) (hP : ∀ f ∈ vs, NoZeroLed f.2) {xs : List (Str × Shown)}
    (h : renderFields lay rend (bs ++ ex) c decls = some xs) :
    vs.map (·.1) = xs.map (·.1) ∧ List.Forall₂ Shows (vs.map (·.2)) (xs.map (·.2)) := by
  induction hf generalizing c vs xs with
  | nil => cases he; cases h; simp
  | @cons d f decls fs hd _ ih =>
    cases he with
    | @cons _ _ _ o s a v vs _ ht ho hv hrest =>
      unfold renderFields at h
      rw [hd.2] at h
      simp only [Option.bind_eq_bind, Option.bind_some, Option.bind_eq_some_iff] at h
      obtain ⟨⟨s', a'⟩, hsa, o', ho', dd, hdd, x, hx, e, he', ys, hys, hxs⟩ := h
      cases hxs
      obtain ⟨rfl, rfl⟩ := cty_unique ht _ _ (hl _ _ _ hsa)
      have := firstAligned_unique ho (roundUpC_spec ho')
      subst this
      have := checked_eq he'
      subst this
      have := getFrom_eq hdd
      subst this
      obtain ⟨ex', e1⟩ := slice_prefix bs ex o s
      rw [e1] at hx
      obtain ⟨h1, h2⟩ := ih hrest (fun g hg => hP g (List.mem_cons_of_mem _ hg)) hys
      refine ⟨?_, ?_⟩
      · simp [hd.1, h1]
      · exact .cons (hr _ _ _ _ _ (hP _ List.mem_cons_self) hv hx) h2

theorem bytes_vals {D : Defs} {n : Nat} {vs : List Val} {bs : Bytes} (h : EncElems D (.prim .u8) n vs bs) :
    vs = bs.map (fun b => Val.num .u8 b.toNat) ∧ bs.length = n := by
  induction n generalizing vs bs with
  | zero => cases h; simp
  | succ n ih =>
    cases h with
    | @cons _ _ v vs b rest hv hr =>
      obtain ⟨h1, h2⟩ := ih hr
      cases hv with
      | prim _ hb =>
        match b, hb with
        | [x], _ => simp [leNat, h1, h2]

theorem fixedString_spec {bs text : Bytes} (h : fixedString bs = some text)
    (hz : bs.head? = some 0 → ∀ b ∈ bs, b = 0) :
    (∃ k, bs = text ++ List.replicate k 0) ∧ ∀ b ∈ text, 0x20 ≤ b.toNat ∧ b.toNat < 0x7f := by
  unfold fixedString at h
  simp only at h
  have hsplit := List.takeWhile_append_dropWhile (p := fun b : UInt8 => b != 0) (l := bs)
  split_ifs at h with h1 h2 h3
  · cases h
    refine ⟨⟨bs.length, ?_⟩, fun b hb => by cases hb⟩
    simp only [List.nil_append]
    cases bs with
    | nil => rfl
    | cons b bs =>
      have hb : b = 0 := by
        by_contra hne
        rw [List.takeWhile_cons_of_pos (by simpa using hne)] at h1
        cases h1
      exact List.eq_replicate_iff.mpr ⟨rfl, hz (by simp [hb])⟩
  · cases h
    refine ⟨⟨(bs.dropWhile fun b => b != 0).length, ?_⟩, ?_⟩
    · conv => lhs; rw [← hsplit]
      congr 1
      refine List.eq_replicate_iff.mpr ⟨rfl, fun b hb => ?_⟩
      have := List.all_eq_true.mp h3 b hb
      simpa using this
    · intro b hb
      have := List.all_eq_true.mp h2 b hb
      simpa using this

theorem render_spec {reg : Registry} {D : Defs} (hf : Faithful reg D) (k : Nat) :
    ∀ t v b ex x, NoZeroLed v → Enc D t v b → render reg k t (b ++ ex) = some x → Shows v x := by
  induction k with
  | zero => intro t v b ex x _ _ h; cases h
  | succ k ih =>
    intro t v b ex x hn he h
    cases t with
    | prim p =>
      cases he with
      | prim _ hb =>
        rw [← size_width] at hb; unfold render at h
        rw [List.take_append_of_le_length (by omega), List.take_of_length_le (by omega)] at h
        split_ifs at h
        cases h
        exact .num p _
    | arr t n =>
      cases he with
      | @arr _ _ vs _ he =>
        cases hn with
        | arr hall hz =>
        unfold render at h
        have list : ∀ s a xs, layoutOf reg k t = some (s, a) → renderElems (render reg k t) s (b ++ ex) 0 (min n 8) = some xs →
            x = .list xs (n - min n 8) → Shows (.arr t vs) x := by
          intro s a xs hsa hxs hx
          have hc := layoutOf_spec hf k hsa
          have hlen := encElems_length (fun v b hb => enc_length hb hc) he
          subst hx
          have := renderElems_spec (fun v b hb => enc_length hb hc) NoZeroLed (fun v b ex x => ih t v b ex x) (min n 8)
            (Nat.min_le_left _ _) (pre := []) (by simp) he hall (i := 0) (by simpa using hxs)
          have e1 : vs.take (min n 8) = vs.take 8 := by
            rw [← hlen.2]
            rcases Nat.le_total vs.length 8 with hle | hle
            · rw [Nat.min_eq_left hle, List.take_length, List.take_of_length_le hle]
            · rw [Nat.min_eq_right hle]
          have e2 : n - min n 8 = vs.length - 8 := by rw [hlen.2]; omega
          rw [e1] at this
          rw [e2]
          exact .list this
        by_cases ht : t = .prim .u8
        · subst ht
          simp only [if_true] at h
          obtain ⟨h1, h2⟩ := bytes_vals he
          have e1 : (b ++ ex).take n = b := by
            rw [List.take_append_of_le_length (by omega), List.take_of_length_le (by omega)]
          rw [e1] at h
          cases hx : fixedString b with
          | none =>
            rw [hx] at h
            simp only [Option.bind_eq_bind, Option.bind_eq_some_iff] at h
            obtain ⟨⟨s, a⟩, hsa, xs, hxs, hh⟩ := h
            cases hh
            exact list s a xs hsa hxs rfl
          | some text =>
            rw [hx] at h
            cases h
            obtain ⟨⟨j, hj⟩, hpr⟩ := fixedString_spec hx (by
              intro hh y hy
              have hv : (Val.num .u8 y.toNat) = .num .u8 0 := by
                refine hz rfl ?_ _ (h1 ▸ List.mem_map_of_mem hy)
                rw [h1, List.head?_map, hh]; rfl
              have : y.toNat = 0 := by injection hv
              exact UInt8.toNat_inj.mp this)
            refine .text text j ?_ hpr
            rw [h1, hj, List.map_append, List.map_replicate]; rfl
        · rw [if_neg ht] at h
          simp only [Option.bind_eq_bind, Option.bind_eq_some_iff] at h
          obtain ⟨⟨s, a⟩, hsa, xs, hxs, hh⟩ := h
          cases hh
          exact list s a xs hsa hxs rfl
    | ref r =>
      cases he with
      | ref hd hs hfs =>
        cases hn with
        | record hall =>
          unfold render at h
          simp only [Option.bind_eq_bind, Option.bind_eq_some_iff] at h
          obtain ⟨decls, h1, xs, h2, h3⟩ := h
          cases h3
          obtain ⟨fs', hd', hff⟩ := hf r decls h1
          rw [hd] at hd'
          cases hd'
          obtain ⟨i1, i2⟩ := renderFields_spec (fun t s a => layoutOf_spec hf k) ih hff hfs hall h2
          exact .record i1 i2

/-- C118. If `horus topic echo` prints anything but a hex dump, it printed the message that is in the
bytes: every number, name, array and nested struct. Missing for the full property: registries that leave
out fields (`padding_field_misread`) and byte arrays that begin with a zero (`zero_led_bytes_hidden`), for
which it is false. -/
theorem echo_correct_partial {reg : Registry} {D : Defs} (hf : Faithful reg D) {name : Str} {data : Bytes} {v : Val}
    (hv : Enc D (.ref name) v data) (hn : NoZeroLed v) {x : Shown} (h : decode reg name data = some x) : Shows v x := by
  cases hv with
  | ref hd hs hfs =>
    cases hn with
    | record hall =>
      unfold decode at h
      simp only [Option.bind_eq_bind, Option.bind_eq_some_iff] at h
      obtain ⟨⟨s, a⟩, h0, h⟩ := h
      split_ifs at h
      simp only [Option.bind_eq_some_iff] at h
      obtain ⟨decls, h1, xs, h2, h3⟩ := h
      cases h3
      obtain ⟨fs', hd', hff⟩ := hf name decls h1
      rw [hd] at hd'
      cases hd'
      have e : data = data ++ [] := by simp
      rw [e] at h2
      obtain ⟨i1, i2⟩ := renderFields_spec (fun t s a => layoutOf_spec hf 9) (render_spec hf 9) hff hfs hall h2
      exact .record i1 i2

/-- C118. A payload whose length is not the size of the type is never decoded. -/
theorem wrong_length_hex {reg : Registry} {D : Defs} (hf : Faithful reg D) {name : Str} {data : Bytes} {s a : Nat}
    (hc : CTy D (.ref name) s a) (hne : data.length ≠ s) : decode reg name data = none := by
  cases h : decode reg name data with
  | none => rfl
  | some x =>
    unfold decode at h
    simp only [Option.bind_eq_bind, Option.bind_eq_some_iff] at h
    obtain ⟨⟨s', a'⟩, h0, h⟩ := h
    have : layoutOf reg 10 (.ref name) = some (s', a') := h0
    have := (cty_unique hc _ _ (layoutOf_spec hf 10 this)).1
    split_ifs at h with h1
    omega

/-! ### when it does print -/

/-- `t` nests structs and arrays at most `k - 1` deep and has no empty array. -/
inductive Within (D : Defs) : Nat → Ty → Prop
  | prim (k : Nat) (p : Prim) : Within D (k + 1) (.prim p)
  | arr {k n : Nat} {t : Ty} (h : Within D k t) (hn : 0 < n) : Within D (k + 1) (.arr t n)
  | ref {k : Nat} {r : Str} {fs : List Field} (hd : D r = some fs) (h : ∀ f ∈ fs, Within D k f.ty) : Within D (k + 1) (.ref r)

theorem cty_align {D : Defs} {t : Ty} {s a : Nat} (h : CTy D t s a) : 1 ≤ a := by
  induction t generalizing s a with
  | prim p => cases h; cases p <;> decide
  | arr t n ih => cases h with | arr _ h => exact ih h
  | ref r => cases h with | ref _ hf _ => exact cfields_align hf

theorem roundUpC_complete {c a o : Nat} (h : FirstAligned c a o) (ha : 1 ≤ a) (ho : o < 2 ^ 64) : roundUpC c a = some o := by
  have hm := Nat.mod_lt c ha
  have hd := Nat.mod_add_div c a
  unfold roundUpC
  rw [if_neg (by omega)]
  split_ifs with h1
  · exact congrArg some (Nat.le_antisymm h.1.1 (h.2 ⟨Nat.le_refl _, Nat.dvd_of_mod_eq_zero h1⟩))
  · have he : c + (a - c % a) = o := by
      apply Nat.le_antisymm
      · obtain ⟨hx, k, rfl⟩ := h.1
        have : c / a < k := by
          by_contra hc
          have := Nat.mul_le_mul_left a (Nat.le_of_not_lt hc)
          omega
        have := Nat.mul_le_mul_left a this
        rw [Nat.mul_succ] at this
        omega
      · exact h.2 ⟨by omega, ⟨c / a + 1, by rw [Nat.mul_add]; omega⟩⟩
    rw [he]
    unfold checked
    rw [if_pos ho]

theorem cfields_mono {D : Defs} {fs : List Field} {c e A : Nat} {os : List Nat} (h : CFields D fs c os e A) : c ≤ e := by
  induction fs generalizing c os A with
  | nil => cases h; exact Nat.le_refl _
  | cons f fs ih => cases h with | cons _ ho hr => have := ih hr; have := ho.1.1; omega

theorem structLoop_complete {D : Defs} {lay : Ty → Option (Nat × Nat)} {decls : List (Str × Str)} {fs : List Field}
    (hf : List.Forall₂ (fun d f => d.1 = f.name ∧ typeOf d.2 = some f.ty) decls fs)
    (hl : ∀ f ∈ fs, ∀ s a, CTy D f.ty s a → s < 2 ^ 64 → lay f.ty = some (s, a)) {c A e B : Nat} {os : List Nat}
    (h : CFields D fs c os e A) (he : e < 2 ^ 64) : structLoop lay c B decls = some (e, if fs = [] then B else max B A) := by
  induction hf generalizing c A B os with
  | nil => cases h; rfl
  | @cons d f decls fs hd hrest ih =>
    cases h with
    | @cons _ _ _ o os s a _ A ht ho hr =>
      have hm := cfields_mono hr
      unfold structLoop
      rw [hd.2]
      simp only [Option.bind_eq_bind, Option.bind_some]
      rw [hl f List.mem_cons_self s a ht (by omega)]
      simp only [Option.bind_some]
      rw [roundUpC_complete ho (cty_align ht) (by omega)]
      simp only [Option.bind_some, checked]
      rw [if_pos (by omega)]
      simp only [Option.bind_some]
      rw [ih (fun g hg => hl g (List.mem_cons_of_mem _ hg)) hr]
      rw [if_neg (List.cons_ne_nil _ _)]
      split_ifs with hnil
      · subst hnil
        cases hr
        have := cty_align ht
        congr 2
        omega
      · congr 2; omega

theorem layoutOf_complete {reg : Registry} {D : Defs} (hf : Faithful reg D) (hk : ∀ r, D r ≠ none → reg r ≠ none) {k : Nat} {t : Ty}
    (hw : Within D k t) {s a : Nat} (hc : CTy D t s a) (hs : s < 2 ^ 64) : layoutOf reg k t = some (s, a) := by
  induction hw generalizing s a with
  | prim k p => cases hc; rw [← size_width]; rfl
  | @arr k n t h hn ih =>
    cases hc with
    | @arr _ s' _ _ hc =>
      unfold layoutOf
      rw [ih hc (Nat.lt_of_le_of_lt (Nat.le_mul_of_pos_right _ hn) hs)]
      simp only [Option.bind_eq_bind, Option.bind_some, checked]
      rw [if_pos hs]; rfl
  | @ref k r fs hd h ih =>
    cases hc with
    | @ref _ fs' os e _ _ hd' hcf hfa =>
      rw [hd] at hd'
      cases hd'
      cases hr : reg r with
      | none => exact absurd hr (hk r (by rw [hd]; exact Option.some_ne_none _))
      | some decls =>
        obtain ⟨fs', hd', hff⟩ := hf r decls hr
        rw [hd] at hd'
        cases hd'
        have hes : e ≤ s := hfa.1.1
        unfold layoutOf structLayout
        rw [hr]
        simp only [Option.bind_eq_bind, Option.bind_some]
        rw [structLoop_complete hff (fun f hfm s a => ih f hfm) hcf (by omega)]
        simp only [Option.bind_some]
        have e1 : (if fs = [] then 1 else max 1 a) = a := by
          split_ifs with hn
          · subst hn; cases hcf; rfl
          · exact Nat.max_eq_right (cfields_align hcf)
        rw [e1, roundUpC_complete hfa (cfields_align hcf) hs]; rfl

theorem renderElems_complete {rend : Bytes → Option Shown} {s : Nat} {data : Bytes}
    (hr : ∀ d : Bytes, s ≤ d.length → d.length < 2 ^ 64 → ∃ x, rend d = some x) (m i : Nat) (h : s * (i + m) ≤ data.length) (hd : data.length < 2 ^ 64) :
    ∃ xs, renderElems rend s data i m = some xs := by
  induction m generalizing i with
  | zero => exact ⟨[], rfl⟩
  | succ m ih =>
    have h1 : i * s + s ≤ s * (i + (m + 1)) := by
      rw [← Nat.succ_mul, Nat.mul_comm]; exact Nat.mul_le_mul_left s (by omega)
    obtain ⟨xs, hxs⟩ := ih (i + 1) (by rw [Nat.add_right_comm, Nat.add_assoc]; exact h)
    obtain ⟨x, hx⟩ := hr (data.drop (i * s)) (by rw [List.length_drop]; omega) (by rw [List.length_drop]; omega)
    refine ⟨x :: xs, ?_⟩
    unfold renderElems checked getFrom
    rw [if_pos (by omega)]
    simp only [Option.bind_eq_bind, Option.bind_some]
    rw [if_pos (by omega)]
    simp only [Option.bind_some]
    rw [hx, hxs]; rfl

theorem renderFields_complete {D : Defs} {lay : Ty → Option (Nat × Nat)} {rend : Ty → Bytes → Option Shown}
    {decls : List (Str × Str)} {fs : List Field}
    (hf : List.Forall₂ (fun d f => d.1 = f.name ∧ typeOf d.2 = some f.ty) decls fs)
    (hl : ∀ f ∈ fs, ∀ s a, CTy D f.ty s a → s < 2 ^ 64 → lay f.ty = some (s, a)) {data : Bytes} (hd : data.length < 2 ^ 64)
    (hr : ∀ f ∈ fs, ∀ s a, CTy D f.ty s a → ∀ d : Bytes, s ≤ d.length → d.length < 2 ^ 64 → ∃ x, rend f.ty d = some x)
    {c A e : Nat} {os : List Nat} (h : CFields D fs c os e A) (he : e ≤ data.length) :
    ∃ xs, renderFields lay rend data c decls = some xs := by
  induction hf generalizing c A os with
  | nil => exact ⟨[], rfl⟩
  | @cons d f decls fs hdf hrest ih =>
    cases h with
    | @cons _ _ _ o os s a _ A ht ho hcr =>
      have hm := cfields_mono hcr
      obtain ⟨xs, hxs⟩ := ih (fun g hg => hl g (List.mem_cons_of_mem _ hg)) (fun g hg => hr g (List.mem_cons_of_mem _ hg)) hcr
      obtain ⟨x, hx⟩ := hr f List.mem_cons_self s a ht (data.drop o) (by rw [List.length_drop]; omega) (by rw [List.length_drop]; omega)
      refine ⟨(d.1, x) :: xs, ?_⟩
      unfold renderFields
      rw [hdf.2]
      simp only [Option.bind_eq_bind, Option.bind_some]
      rw [hl f List.mem_cons_self s a ht (by omega)]
      simp only [Option.bind_some]
      rw [roundUpC_complete ho (cty_align ht) (by omega)]
      simp only [Option.bind_some, checked, getFrom]
      rw [if_pos (by omega)]
      simp only [Option.bind_some]
      rw [hx, if_pos (by omega)]
      simp only [Option.bind_some]
      rw [hxs]; rfl

theorem render_complete {reg : Registry} {D : Defs} (hf : Faithful reg D) (hk : ∀ r, D r ≠ none → reg r ≠ none) {k : Nat} {t : Ty}
    (hw : Within D k t) {s a : Nat} (hc : CTy D t s a) {data : Bytes} (h1 : s ≤ data.length) (h2 : data.length < 2 ^ 64) :
    ∃ x, render reg k t data = some x := by
  induction hw generalizing s a data with
  | prim k p =>
    cases hc
    rw [← size_width] at h1; unfold render
    rw [if_neg (by omega)]
    exact ⟨_, rfl⟩
  | @arr k n t h hn ih =>
    cases hc with
    | @arr _ s' _ _ hc =>
      have hs' : s' ≤ s' * n := Nat.le_mul_of_pos_right _ hn
      unfold render
      cases (if t = .prim .u8 then fixedString (data.take n) else none) with
      | some text => exact ⟨_, rfl⟩
      | none =>
        have hmul : s' * min n 8 ≤ s' * n := Nat.mul_le_mul_left _ (Nat.min_le_left _ _)
        rw [layoutOf_complete hf hk h hc (by omega)]
        obtain ⟨xs, hxs⟩ := renderElems_complete (rend := render reg k t) (s := s') (data := data)
          (fun d hd hd2 => ih hc hd hd2) (min n 8) 0 (by rw [Nat.zero_add]; omega) h2
        simp only [Option.bind_eq_bind, Option.bind_some, hxs]
        exact ⟨_, rfl⟩
  | @ref k r fs hd h ih =>
    cases hc with
    | @ref _ fs' os e _ _ hd' hcf hfa =>
      rw [hd] at hd'
      cases hd'
      cases hr : reg r with
      | none => exact absurd hr (hk r (by rw [hd]; exact Option.some_ne_none _))
      | some decls =>
        obtain ⟨fs', hd', hff⟩ := hf r decls hr
        rw [hd] at hd'
        cases hd'
        have hes : e ≤ s := hfa.1.1
        obtain ⟨xs, hxs⟩ := renderFields_complete (rend := render reg k) hff (fun f hfm s a hcc hss => layoutOf_complete hf hk (h f hfm) hcc hss) h2
          (fun f hfm s a hcc d hd1 hd2 => ih f hfm hcc hd1 hd2) hcf (by omega)
        unfold render
        simp only [hr, Option.bind_eq_bind, Option.bind_some, hxs]
        exact ⟨_, rfl⟩

/-- C118. A payload of the right length, of a type the sources define, is always decoded, if its types
nest at most eight deep and no array is empty. -/
theorem echo_decodes {reg : Registry} {D : Defs} (hf : Faithful reg D) (hk : ∀ r, D r ≠ none → reg r ≠ none) {name : Str}
    (hw : Within D 10 (.ref name)) {data : Bytes} {a : Nat} (hc : CTy D (.ref name) data.length a) (h2 : data.length < 2 ^ 64) :
    ∃ x, decode reg name data = some x := by
  have hl : structLayout reg (layoutOf reg 9) name = some (data.length, a) := layoutOf_complete hf hk hw hc h2
  obtain ⟨x, hx⟩ := render_complete hf hk hw hc (Nat.le_refl _) h2
  refine ⟨x, ?_⟩
  unfold decode
  rw [hl]
  simp only [Option.bind_eq_bind, Option.bind_some]
  rw [if_neg (by simp)]
  exact hx

/-! ### where it prints something else -/

/-- The registry of one struct `M` with the given fields. -/
def regM (fs : List (Str × Str)) : Registry := fun r => if r = ['M'] then some fs else none

/-- The definitions of one struct `M`. -/
def defM (fs : List Field) : Defs := fun r => if r = ['M'] then some fs else none

/-- C118 fails for byte arrays that begin with a zero: four bytes 0, 5, 6, 7 are printed as the empty
string. -/
theorem zero_led_bytes_hidden :
    let reg := regM [(['k'], "[u8; 4]".toList)]
    let D := defM [⟨['k'], .arr (.prim .u8) 4⟩]
    let v := Val.record [(['k'], .arr (.prim .u8) [.num .u8 0, .num .u8 5, .num .u8 6, .num .u8 7])]
    Faithful reg D ∧ Enc D (.ref ['M']) v [0, 5, 6, 7] ∧ decode reg ['M'] [0, 5, 6, 7] = some (.record [(['k'], .text [])]) ∧
      ¬ Shows v (.record [(['k'], .text [])]) := by
  have hp : typeOf "[u8; 4]".toList = some (.arr (.prim .u8) 4) := by decide +kernel
  have fa : ∀ a, a ∣ 0 → FirstAligned 0 a 0 := fun a h => ⟨⟨Nat.le_refl _, h⟩, fun x _ => Nat.zero_le x⟩
  have ct : CTy (defM [⟨['k'], .arr (.prim .u8) 4⟩]) (.arr (.prim .u8) 4) 4 1 := .arr 4 (.prim .u8)
  refine ⟨?_, ?_, ?_, ?_⟩
  · intro r decls h
    unfold regM at h
    split_ifs at h with hr
    cases h
    exact ⟨_, by unfold defM; rw [if_pos hr], .cons ⟨rfl, hp⟩ .nil⟩
  · refine .ref (a := 1) (fs := [⟨['k'], .arr (.prim .u8) 4⟩]) rfl ?_ ?_
    · exact .ref (a := max 1 1) rfl (.cons ct (fa 1 (Nat.dvd_zero _)) (.nil _)) ⟨⟨Nat.le_refl 4, Nat.one_dvd _⟩, fun x hx => hx.1⟩
    · exact .cons ct (fa 1 (Nat.dvd_zero _)) (.arr (.cons (.prim .u8 (bs := [0]) rfl) (.cons (.prim .u8 (bs := [5]) rfl)
        (.cons (.prim .u8 (bs := [6]) rfl) (.cons (.prim .u8 (bs := [7]) rfl) (.nil _)))))) (.nil _ _)
  · have : fixedString [0, 5, 6, 7] = some [] := by decide
    generalize "[u8; 4]".toList = d at hp
    simp [getFrom, decode, structLayout, structLoop, regM, hp, layoutOf, Prim.size, checked, roundUpC, renderFields, render, this]
  · intro h
    cases h with
    | record hn h =>
      cases h with
      | cons h _ =>
        cases h with
        | text text k h hp =>
          match k, h with
          | 0, h => simp at h
          | 1, h => simp at h
          | k + 2, h => simp [List.replicate_succ] at h

/-- C118 fails for structs with an explicit padding field, which the registry leaves out: of the struct
`a: u8, _p: u8, b: u8, c: u32` with `b = 7`, the printer shows `b` as the padding byte, 9. -/
theorem padding_field_misread :
    let decls := [(['a'], "u8".toList), (['_', 'p'], "u8".toList), (['b'], "u8".toList), (['c'], "u32".toList)]
    let reg := regM (scraped decls)
    let D := defM [⟨['a'], .prim .u8⟩, ⟨['_', 'p'], .prim .u8⟩, ⟨['b'], .prim .u8⟩, ⟨['c'], .prim .u32⟩]
    let v := Val.record [(['a'], .num .u8 1), (['_', 'p'], .num .u8 9), (['b'], .num .u8 7), (['c'], .num .u32 5)]
    Enc D (.ref ['M']) v [1, 9, 7, 0, 5, 0, 0, 0] ∧
      decode reg ['M'] [1, 9, 7, 0, 5, 0, 0, 0] =
        some (.record [(['a'], .num .u8 1), (['b'], .num .u8 9), (['c'], .num .u32 5)]) := by
  have h8 : typeOf "u8".toList = some (.prim .u8) := by decide +kernel
  have h32 : typeOf "u32".toList = some (.prim .u32) := by decide +kernel
  have fa : ∀ c, FirstAligned c 1 c := fun c => ⟨⟨Nat.le_refl _, Nat.one_dvd _⟩, fun x hx => hx.1⟩
  have f4 : FirstAligned 3 4 4 := ⟨⟨by decide, Nat.dvd_refl _⟩, fun x hx => by
    obtain ⟨k, rfl⟩ := hx.2
    have := hx.1
    omega⟩
  have f8 : FirstAligned 8 4 8 := ⟨⟨by decide, ⟨2, rfl⟩⟩, fun x hx => hx.1⟩
  refine ⟨?_, ?_⟩
  · refine .ref (a := 4) (fs := [⟨['a'], .prim .u8⟩, ⟨['_', 'p'], .prim .u8⟩, ⟨['b'], .prim .u8⟩, ⟨['c'], .prim .u32⟩]) rfl ?_ ?_
    · exact .ref (a := max 1 (max 1 (max 1 (max 4 1)))) rfl (.cons (.prim .u8) (fa 0) (.cons (.prim .u8) (fa 1) (.cons (.prim .u8) (fa 2) (.cons (.prim .u32) f4 (.nil _))))) f8
    · exact .cons (.prim .u8) (fa 0) (.prim .u8 (bs := [1]) rfl) (.cons (.prim .u8) (fa 1) (.prim .u8 (bs := [9]) rfl)
        (.cons (.prim .u8) (fa 2) (.prim .u8 (bs := [7]) rfl) (.cons (.prim .u32) f4 (.prim .u32 (bs := [5, 0, 0, 0]) rfl) (.nil _ _))))
  · have hs : scraped [(['a'], "u8".toList), (['_', 'p'], "u8".toList), (['b'], "u8".toList), (['c'], "u32".toList)] =
        [(['a'], "u8".toList), (['b'], "u8".toList), (['c'], "u32".toList)] := by decide
    simp only [hs]
    generalize "u8".toList = d at h8
    generalize "u32".toList = d' at h32
    have l8 : ∀ reg, layoutOf reg 9 (.prim .u8) = some (1, 1) := fun _ => rfl
    have l32 : ∀ reg, layoutOf reg 9 (.prim .u32) = some (4, 4) := fun _ => rfl
    have r8 : ∀ reg x xs, render reg 9 (.prim .u8) (x :: xs) = some (.num .u8 x.toNat) := by
      intro reg x xs; simp [render, Prim.size, leNat]
    have r32 : ∀ reg, render reg 9 (.prim .u32) [5, 0, 0, 0] = some (.num .u32 5) := fun _ => rfl
    have e : regM [(['a'], d), (['b'], d), (['c'], d')] ['M'] = some [(['a'], d), (['b'], d), (['c'], d')] := rfl
    generalize regM [(['a'], d), (['b'], d), (['c'], d')] = reg at e
    simp [getFrom, decode, structLayout, structLoop, e, h8, h32, l8, l32, r8, r32, checked, roundUpC, renderFields]

/-- The hypotheses of C118 are met: a struct with a name field holding `ab`. -/
example :
    let reg := regM [(['k'], "[u8; 4]".toList)]
    let D := defM [⟨['k'], .arr (.prim .u8) 4⟩]
    let v := Val.record [(['k'], .arr (.prim .u8) [.num .u8 97, .num .u8 98, .num .u8 0, .num .u8 0])]
    Faithful reg D ∧ (∀ r, D r ≠ none → reg r ≠ none) ∧ Within D 10 (.ref ['M']) ∧ Enc D (.ref ['M']) v [97, 98, 0, 0] ∧ NoZeroLed v ∧
      CTy D (.ref ['M']) 4 1 := by
  have hp : typeOf "[u8; 4]".toList = some (.arr (.prim .u8) 4) := by decide +kernel
  have fa : FirstAligned 0 1 0 := ⟨⟨Nat.le_refl _, Nat.dvd_zero _⟩, fun x _ => Nat.zero_le x⟩
  have ct : CTy (defM [⟨['k'], .arr (.prim .u8) 4⟩]) (.arr (.prim .u8) 4) 4 1 := .arr 4 (.prim .u8)
  have cm : CTy (defM [⟨['k'], .arr (.prim .u8) 4⟩]) (.ref ['M']) 4 1 :=
    .ref (a := max 1 1) rfl (.cons ct fa (.nil _)) ⟨⟨Nat.le_refl 4, Nat.one_dvd _⟩, fun x hx => hx.1⟩
  refine ⟨?_, ?_, ?_, ?_, ?_, cm⟩
  · intro r decls h
    unfold regM at h
    split_ifs at h with hr
    cases h
    exact ⟨_, by unfold defM; rw [if_pos hr], .cons ⟨rfl, hp⟩ .nil⟩
  · intro r h
    unfold defM at h
    split_ifs at h with hr
    · unfold regM; rw [if_pos hr]; exact Option.some_ne_none _
    · exact absurd rfl h
  · refine .ref (fs := [⟨['k'], .arr (.prim .u8) 4⟩]) rfl ?_
    intro f hf
    cases List.mem_singleton.mp hf
    exact .arr (.prim _ _) (by decide)
  · refine .ref (a := 1) (fs := [⟨['k'], .arr (.prim .u8) 4⟩]) rfl cm ?_
    exact .cons ct fa (.arr (.cons (.prim .u8 (bs := [97]) rfl) (.cons (.prim .u8 (bs := [98]) rfl)
        (.cons (.prim .u8 (bs := [0]) rfl) (.cons (.prim .u8 (bs := [0]) rfl) (.nil _)))))) (.nil _ _)
  · refine .record fun f hf => ?_
    cases List.mem_singleton.mp hf
    refine .arr (fun v hv => ?_) (fun _ h => ?_)
    · simp only [List.mem_cons, List.not_mem_nil, or_false] at hv
      rcases hv with rfl | rfl | rfl | rfl <;> exact .num _ _
    · simp at h

end Horus.Msg
