import Verif.Msg.Decode
import Verif.Msg.Parse

/-!
C120: the text a layout hash is taken over determines the message definition, and the types `horus msg gen`
writes are read back by `horus topic echo` as they were.
-/

namespace Horus.Msg

/-! ### Specification -/

/-- A type without references to other messages. -/
def Ty.flat : Ty → Prop
  | .prim _ => True
  | .arr t _ => t.flat
  | .ref _ => False

/-- All array lengths fit in a `usize`. -/
def Ty.fits : Ty → Prop
  | .prim _ => True
  | .arr t n => t.fits ∧ n < 2 ^ 64
  | .ref _ => True

/-- Letters, digits and underscores: what the tokenizer takes for a name (parse.rs:139-152). -/
def IsName (s : Str) : Prop := ∀ c ∈ s, c.isAlphanum = true ∨ c = '_'

/-! ### splitting text -/

theorem split_first {α : Type} {c : α} {a a' b b' : List α} (ha : c ∉ a) (ha' : c ∉ a') (h : a ++ c :: b = a' ++ c :: b') :
    a = a' ∧ b = b' := by
  induction a generalizing a' with
  | nil =>
    cases a' with
    | nil => exact ⟨rfl, by simpa using h⟩
    | cons x a' =>
      simp only [List.nil_append, List.cons_append, List.cons.injEq] at h
      exact absurd (h.1 ▸ List.mem_cons_self) ha'
  | cons x a ih =>
    cases a' with
    | nil =>
      simp only [List.nil_append, List.cons_append, List.cons.injEq] at h
      exact absurd (h.1 ▸ List.mem_cons_self) ha
    | cons y a' =>
      simp only [List.cons_append, List.cons.injEq] at h
      obtain ⟨h1, h2⟩ := ih (fun hm => ha (List.mem_cons_of_mem _ hm)) (fun hm => ha' (List.mem_cons_of_mem _ hm)) h.2
      exact ⟨by rw [h.1, h1], h2⟩

theorem split_last {α : Type} {c : α} {a a' b b' : List α} (hb : c ∉ b) (hb' : c ∉ b') (h : a ++ c :: b = a' ++ c :: b') :
    a = a' ∧ b = b' := by
  have h' := congrArg List.reverse h
  simp only [List.reverse_append, List.reverse_cons, List.append_assoc, List.singleton_append] at h'
  obtain ⟨h1, h2⟩ := split_first (by simpa using hb) (by simpa using hb') h'
  exact ⟨List.reverse_injective h2, List.reverse_injective h1⟩

/-- Two texts without `c`, each followed by nothing or by `c`. -/
theorem split_end {α : Type} {c : α} {a a' L L' : List α} (ha : c ∉ a) (ha' : c ∉ a') (hL : L = [] ∨ ∃ b, L = c :: b)
    (hL' : L' = [] ∨ ∃ b, L' = c :: b) (h : a ++ L = a' ++ L') : a = a' ∧ L = L' := by
  rcases hL with rfl | ⟨b, rfl⟩ <;> rcases hL' with rfl | ⟨b', rfl⟩
  · exact ⟨by simpa using h, rfl⟩
  · rw [List.append_nil] at h; subst h; exact absurd (by simp) ha
  · rw [List.append_nil] at h; subst h; exact absurd (by simp) ha'
  · obtain ⟨h1, h2⟩ := split_first ha ha' h; exact ⟨h1, by rw [h2]⟩

/-! ### rendering -/

theorem dec_digits {n : Nat} {c : Char} (h : c ∈ dec n) : c.isDigit = true := by
  unfold dec at h
  exact Nat.isDigit_of_mem_toDigits (b := 10) (by decide) (by decide) h

theorem dec_inj {n m : Nat} (h : dec n = dec m) : n = m := by
  have := congrArg (fun l => Nat.ofDigitChars 10 l 0) h
  simpa [dec, Nat.ofDigitChars_ten_toDigits] using this

theorem semicolon_not_in_dec (n : Nat) : ';' ∉ (' ' :: dec n ++ [']']) := by
  intro h
  simp only [List.cons_append, List.mem_cons, List.mem_append, List.not_mem_nil, or_false] at h
  rcases h with h | h | h
  · cases h
  · exact absurd (dec_digits h) (by decide)
  · cases h

theorem render_arr (t : Ty) (n : Nat) : renderRust (.arr t n) = '[' :: (renderRust t ++ ';' :: (' ' :: dec n ++ [']'])) := by
  simp [renderRust]

theorem renderRust_inj {t t' : Ty} (hf : t.flat) (hf' : t'.flat) (h : renderRust t = renderRust t') : t = t' := by
  have prim_arr : ∀ (p : Prim) (t : Ty) (n : Nat), renderRust (.prim p) ≠ renderRust (.arr t n) := by
    intro p t n h
    rw [render_arr] at h
    cases p <;> simp [renderRust, Prim.rust] at h
  induction t generalizing t' with
  | prim p =>
    cases t' with
    | prim q => cases p <;> cases q <;> first | rfl | (simp [renderRust, Prim.rust] at h)
    | arr t n => exact absurd h (prim_arr p t n)
    | ref r => exact absurd hf' (fun h => h)
  | arr t n ih =>
    cases t' with
    | prim q => exact absurd h.symm (prim_arr q t n)
    | arr t' n' =>
      rw [render_arr, render_arr] at h
      injection h with _ h
      obtain ⟨h1, h2⟩ := split_last (semicolon_not_in_dec n) (semicolon_not_in_dec n') h
      have h3 : dec n = dec n' := by simpa using h2
      rw [ih (t' := t') hf hf' h1, dec_inj h3]
    | ref r => exact absurd hf' (fun h => h)
  | ref r => exact absurd hf (fun h => h)

theorem bar_not_in_render {t : Ty} (hf : t.flat) : '|' ∉ renderRust t := by
  induction t with
  | prim p => cases p <;> decide
  | arr t n ih =>
    rw [render_arr]
    intro h
    simp only [List.cons_append, List.mem_cons, List.mem_append, List.not_mem_nil, or_false] at h
    rcases h with h | h | h | h | h | h
    · cases h
    · exact ih hf h
    · cases h
    · cases h
    · exact absurd (dec_digits h) (by decide)
    · cases h
  | ref r => exact absurd hf (fun h => h)

theorem name_no {s : Str} (h : IsName s) (c : Char) (hc : ¬ (c.isAlphanum = true ∨ c = '_')) : c ∉ s := fun hm => hc (h c hm)

theorem fields_text_inj {fs fs' : List Field} (hn : ∀ f ∈ fs, IsName f.name ∧ f.ty.flat) (hn' : ∀ f ∈ fs', IsName f.name ∧ f.ty.flat)
    (h : (fs.flatMap fun f => '|' :: f.name ++ ':' :: renderRust f.ty) = fs'.flatMap fun f => '|' :: f.name ++ ':' :: renderRust f.ty) :
    fs = fs' := by
  have tail : ∀ fs : List Field, (fs.flatMap fun f => '|' :: f.name ++ ':' :: renderRust f.ty) = [] ∨
      ∃ b, (fs.flatMap fun f => '|' :: f.name ++ ':' :: renderRust f.ty) = '|' :: b := by
    intro fs; cases fs with
    | nil => left; rfl
    | cons f fs => right; exact ⟨_, by rw [List.flatMap_cons]; rfl⟩
  induction fs generalizing fs' with
  | nil =>
    cases fs' with
    | nil => rfl
    | cons f fs' => simp at h
  | cons f fs ih =>
    cases fs' with
    | nil => simp at h
    | cons f' fs' =>
      simp only [List.flatMap_cons, List.cons_append, List.append_assoc, List.cons.injEq, true_and] at h
      obtain ⟨hf, hf2⟩ := hn f List.mem_cons_self
      obtain ⟨hf', hf2'⟩ := hn' f' List.mem_cons_self
      obtain ⟨h1, h2⟩ := split_first (name_no hf ':' (by decide)) (name_no hf' ':' (by decide)) h
      have h2' : renderRust f.ty ++ (fs.flatMap fun f => '|' :: f.name ++ ':' :: renderRust f.ty) =
          renderRust f'.ty ++ fs'.flatMap fun f => '|' :: f.name ++ ':' :: renderRust f.ty := by simpa using h2
      obtain ⟨h3, h4⟩ := split_end (bar_not_in_render hf2) (bar_not_in_render hf2') (tail fs) (tail fs') h2'
      have h5 := renderRust_inj hf2 hf2' h3
      have h6 := ih (fun g hg => hn g (List.mem_cons_of_mem _ hg)) (fun g hg => hn' g (List.mem_cons_of_mem _ hg)) h4
      cases f; cases f'
      simp only at h1 h5
      rw [h1, h5, h6]

/-- C120. The text the hash is taken over determines the name and the fields of a message, if its types
refer to no other message. Missing for the full property: references, for which it is false
(`referenced_type_not_hashed`). -/
theorem canonical_determines_partial {m m' : MsgDef} (hm : IsName m.name) (hm' : IsName m'.name)
    (hn : ∀ f ∈ m.fields, IsName f.name ∧ f.ty.flat) (hn' : ∀ f ∈ m'.fields, IsName f.name ∧ f.ty.flat)
    (h : canonical m = canonical m') : m.name = m'.name ∧ m.fields = m'.fields := by
  unfold canonical at h
  have tail : ∀ fs : List Field, (fs.flatMap fun f => '|' :: f.name ++ ':' :: renderRust f.ty) = [] ∨
      ∃ b, (fs.flatMap fun f => '|' :: f.name ++ ':' :: renderRust f.ty) = '|' :: b := by
    intro fs; cases fs with
    | nil => left; rfl
    | cons f fs => right; exact ⟨_, by rw [List.flatMap_cons]; rfl⟩
  obtain ⟨h1, h2⟩ := split_end (name_no hm '|' (by decide)) (name_no hm' '|' (by decide)) (tail _) (tail _) h
  exact ⟨h1, fields_text_inj hn hn' h2⟩

/-- C120 fails for a message with a field of another message's type: the field's type leaves no trace in
the text, so exchanging a 1-byte message for an 8-byte one, or an array of them, keeps the hash. -/
theorem referenced_type_not_hashed (name field : Str) (r r' : Str) :
    canonical ⟨name, [⟨field, .ref r⟩], none⟩ = canonical ⟨name, [⟨field, .ref r'⟩], none⟩ := rfl

/-- C120: the two definitions of `referenced_type_not_hashed` are laid out differently by the generator
itself: the same package with the field's type exchanged gives the message 1 or 8 bytes. -/
theorem same_hash_other_layout :
    let pkg := fun r => [(⟨['A'], [⟨['x'], .prim .u8⟩], none⟩ : MsgDef), ⟨['B'], [⟨['y'], .prim .u64⟩], none⟩, ⟨['M'], [⟨['f'], .ref r⟩], none⟩]
    (∃ ls, generate (pkg ['A']) = .ok ls ∧ ls.map (·.size) = [1, 8, 1]) ∧
    (∃ ls, generate (pkg ['B']) = .ok ls ∧ ls.map (·.size) = [1, 8, 8]) ∧
    (pkg ['A']).map canonical = (pkg ['B']).map canonical := by
  refine ⟨⟨_, rfl, by decide +kernel⟩, ⟨_, rfl, by decide +kernel⟩, rfl⟩

/-! ### reading types back -/

theorem dropWhile_head {α : Type} (p : α → Bool) {a : α} {l : List α} (h : p a = false) : (a :: l).dropWhile p = a :: l := by
  simp [h]

theorem trim_id {s : Str} {c d : Char} (h : s.head? = some c) (hc : c ≠ ' ') (h' : s.getLast? = some d) (hd : d ≠ ' ') : trim s = s := by
  unfold trim
  cases s with
  | nil => rfl
  | cons x s =>
    simp only [List.head?_cons, Option.some.injEq] at h
    rw [dropWhile_head _ (by simpa [h] using hc)]
    have hr : (x :: s).reverse.head? = some d := by rw [List.head?_reverse, h']
    cases hrev : (x :: s).reverse with
    | nil => rw [hrev] at hr; cases hr
    | cons y t =>
      rw [hrev] at hr
      simp only [List.head?_cons, Option.some.injEq] at hr
      rw [dropWhile_head _ (by simpa [hr] using hd), ← hrev, List.reverse_reverse]

theorem trim_blank (s : Str) : trim (' ' :: s) = trim s := by
  unfold trim
  simp

theorem render_ends {t : Ty} (hf : t.flat) :
    (∃ c, (renderRust t).head? = some c ∧ c ≠ ' ') ∧ ∃ d, (renderRust t).getLast? = some d ∧ d ≠ ' ' := by
  cases t with
  | prim p => cases p <;> exact ⟨⟨_, rfl, by decide⟩, ⟨_, rfl, by decide⟩⟩
  | arr t n =>
    refine ⟨⟨'[', by rw [render_arr]; rfl, by decide⟩, ⟨']', ?_, by decide⟩⟩
    rw [renderRust, List.getLast?_append_of_ne_nil _ (List.cons_ne_nil _ _)]; rfl
  | ref r => exact absurd hf (fun h => h)

theorem dec_trim (n : Nat) : trim (dec n) = dec n := by
  have hne : dec n ≠ [] := by unfold dec; simp
  have hd : ∀ c ∈ dec n, c ≠ ' ' := by
    intro c hc h
    subst h
    exact absurd (dec_digits hc) (by decide)
  cases h1 : (dec n).head? with
  | none => exact absurd (List.head?_eq_none_iff.mp h1) hne
  | some c =>
    cases h2 : (dec n).getLast? with
    | none => exact absurd (List.getLast?_eq_none_iff.mp h2) hne
    | some d => exact trim_id h1 (hd c (List.mem_of_head? h1)) h2 (hd d (List.mem_of_getLast? h2))

theorem parseNat_dec {n : Nat} (h : n < 2 ^ 64) : parseNat (dec n) = some n := by
  have hne : dec n ≠ [] := by unfold dec; simp
  have hd : (dec n).all Char.isDigit = true := List.all_eq_true.mpr fun c hc => dec_digits hc
  have hv : (dec n).foldl (fun n c => n * 10 + (c.toNat - 48)) 0 = n := by
    have := Nat.ofDigitChars_ten_toDigits (n := n)
    rw [Nat.ofDigitChars_eq_foldl] at this
    unfold dec
    conv => rhs; rw [← this]
    congr 1
    funext a c
    rw [Nat.mul_comm]; rfl
  unfold parseNat
  rw [if_pos ⟨hne, hd⟩]
  simp only [hv, if_pos h]

theorem rsplit_append {a b : Str} (hb : ';' ∉ b) : rsplit (a ++ ';' :: b) = some (a, b) := by
  have hall : ∀ c ∈ b.reverse, (c != ';') = true := by
    intro c hc
    have : c ≠ ';' := by rintro rfl; exact hb (List.mem_reverse.mp hc)
    simpa using this
  unfold rsplit
  have e : (a ++ ';' :: b).reverse = b.reverse ++ ';' :: a.reverse := by simp
  simp only [e]
  rw [List.dropWhile_append_of_pos hall, List.takeWhile_append_of_pos hall]
  simp

theorem prim_fromName (p : Prim) : Prim.fromName p.rust = some p := by cases p <;> decide

/-- C120. The types the generator writes are read back by the printer as they were. -/
theorem rendered_type_read_back {t : Ty} (hf : t.flat) (hs : t.fits) : typeOf (renderRust t) = some t := by
  have main : ∀ k, (renderRust t).length < k → parseType k (renderRust t) = some t := by
    induction t with
    | prim p =>
      intro k hk
      cases k with
      | zero => omega
      | succ k => cases p <;> simp [parseType, renderRust, Prim.rust, trim, Prim.fromName]
    | arr t n ih =>
      intro k hk
      obtain ⟨⟨c, hc1, hc2⟩, ⟨d, hd1, hd2⟩⟩ := render_ends (t := .arr t n) hf
      cases k with
      | zero => omega
      | succ k =>
        unfold parseType
        simp only
        rw [trim_id hc1 hc2 hd1 hd2]
        have hr := render_arr t n
        have e : renderRust t ++ ';' :: (' ' :: dec n ++ [']']) = (renderRust t ++ ';' :: ' ' :: dec n) ++ [']'] := by simp
        have ht : (renderRust (.arr t n)).tail = (renderRust t ++ ';' :: ' ' :: dec n) ++ [']'] := by rw [hr, List.tail_cons, e]
        rw [if_pos ⟨by rw [hr]; rfl, by rw [ht, List.getLast?_append_of_ne_nil _ (List.cons_ne_nil _ _)]; rfl⟩, ht, List.dropLast_concat]
        have hns : ';' ∉ (' ' :: dec n) := fun h => semicolon_not_in_dec n (List.mem_append_left _ h)
        rw [rsplit_append hns]
        simp only [Option.bind_eq_bind, Option.bind_some]
        rw [trim_blank, dec_trim, parseNat_dec hs.2]
        simp only [Option.bind_some]
        rw [ih hf hs.1 k (by rw [hr] at hk; simp at hk; omega)]
        rfl
    | ref r => exact absurd hf (fun h => h)
  exact main _ (Nat.lt_succ_self _)

/-- C118 for generated messages: the printer's registry, read from the Rust the generator wrote for a
package whose types are flat and whose field names do not begin with an underscore, is faithful. -/
theorem generated_registry_faithful (pkg : List MsgDef)
    (hf : ∀ m ∈ pkg, ∀ f ∈ m.fields, f.ty.flat ∧ f.ty.fits ∧ f.name.head? ≠ some '_') :
    Faithful (fun r => (defs pkg r).map fun fs => scraped (fs.map fun f => (f.name, renderRust f.ty))) (defs pkg) := by
  intro r decls h
  rw [Option.map_eq_some_iff] at h
  obtain ⟨fs, h1, rfl⟩ := h
  refine ⟨fs, h1, ?_⟩
  have hmem : ∃ m ∈ pkg, m.fields = fs := by
    unfold defs at h1
    rw [Option.map_eq_some_iff] at h1
    obtain ⟨m, h2, h3⟩ := h1
    exact ⟨m, List.mem_of_find?_eq_some h2, h3⟩
  obtain ⟨m, hm, rfl⟩ := hmem
  have hall := hf m hm
  clear h1 hf
  generalize m.fields = fs at hall
  induction fs with
  | nil => exact .nil
  | cons f fs ih =>
    obtain ⟨h2, h3, h4⟩ := hall f List.mem_cons_self
    have : scraped ((f :: fs).map fun f => (f.name, renderRust f.ty)) = (f.name, renderRust f.ty) :: scraped (fs.map fun f => (f.name, renderRust f.ty)) := by
      unfold scraped
      rw [List.map_cons, List.filter_cons_of_pos (by simpa using h4)]
    rw [this]
    exact .cons ⟨rfl, rendered_type_read_back h2 h3⟩ (ih fun g hg => hall g (List.mem_cons_of_mem _ hg))

/-- The hypotheses are met: two messages that differ in one array length have different texts. -/
example : canonical ⟨['A'], [⟨['x'], .arr (.prim .f32) 3⟩], none⟩ ≠ canonical ⟨['A'], [⟨['x'], .arr (.prim .f32) 33⟩], none⟩ := by
  intro h
  have := canonical_determines_partial (m := ⟨['A'], [⟨['x'], .arr (.prim .f32) 3⟩], none⟩) (m' := ⟨['A'], [⟨['x'], .arr (.prim .f32) 33⟩], none⟩)
    (by intro c hc; cases List.mem_singleton.mp hc; decide) (by intro c hc; cases List.mem_singleton.mp hc; decide)
    (by intro f hf; cases List.mem_singleton.mp hf; exact ⟨by intro c hc; cases List.mem_singleton.mp hc; decide, trivial⟩)
    (by intro f hf; cases List.mem_singleton.mp hf; exact ⟨by intro c hc; cases List.mem_singleton.mp hc; decide, trivial⟩) h
  simp at this

end Horus.Msg
