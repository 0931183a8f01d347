import Verif.Ffi.LayoutTable
import Mathlib.Data.List.Nodup

/-!
Message structs across the C++ boundary.

Specification: C++ and Rust exchange messages by copying the bytes of a struct.  So what one side stores in
a field the other must find in the field of the same name, whatever the values; and a receive must write no
byte outside the caller's object.
-/

namespace Horus.FfiLayout

theorem up_ge (n a : Nat) (ha : 0 < a) : n ≤ up n a := by
  have := Nat.div_add_mod (n + (a - 1)) a
  have h2 := Nat.mod_lt (n + (a - 1)) ha
  unfold up
  rw [Nat.mul_comm] at this
  omega

theorem up_dvd (n a : Nat) : a ∣ up n a := ⟨_, Nat.mul_comm _ _⟩

theorem up_lt (n a : Nat) (ha : 0 < a) : up n a < n + a := by
  have := Nat.div_add_mod (n + (a - 1)) a
  unfold up
  rw [Nat.mul_comm] at this
  omega

/-- Every slot has a positive alignment. -/
def AlignOk (ss : List Slot) : Prop := ∀ s ∈ ss, 0 < s.align

theorem end_ge (ss : List Slot) : ∀ cur, AlignOk ss → cur ≤ endOf cur ss := by
  induction ss with
  | nil => intro cur _; exact Nat.le_refl _
  | cons s r ih =>
    intro cur h
    have h1 := up_ge cur s.align (h s (List.mem_cons_self ..))
    have h2 := ih (up cur s.align + s.size) (fun x hx => h x (List.mem_cons_of_mem _ hx))
    simp only [endOf]
    omega

theorem placed_bounds (ss : List Slot) : ∀ cur, AlignOk ss → ∀ p ∈ place cur ss,
    cur ≤ p.off ∧ p.off + p.size ≤ endOf cur ss := by
  induction ss with
  | nil => intro cur _ p hp; cases hp
  | cons s r ih =>
    intro cur h p hp
    have hr : AlignOk r := fun x hx => h x (List.mem_cons_of_mem _ hx)
    have h1 := up_ge cur s.align (h s (List.mem_cons_self ..))
    have h2 := end_ge r (up cur s.align + s.size) hr
    rcases List.mem_cons.mp hp with hp | hp
    · subst hp; simp only [endOf]; omega
    · have := ih _ hr p hp
      simp only [endOf]; omega

/-- **Fields never overlap**: in declaration order, each ends before the next begins. -/
theorem fields_disjoint (ss : List Slot) : ∀ cur, AlignOk ss →
    (place cur ss).Pairwise (fun p q => p.off + p.size ≤ q.off) := by
  induction ss with
  | nil => intro cur _; exact List.Pairwise.nil
  | cons s r ih =>
    intro cur h
    have hr : AlignOk r := fun x hx => h x (List.mem_cons_of_mem _ hx)
    simp only [place]
    exact List.Pairwise.cons (fun q hq => (placed_bounds r _ hr q hq).1) (ih _ hr)

theorem foldl_max_ge (ss : List Slot) : ∀ a, a ≤ ss.foldl (fun a s => max a s.align) a := by
  induction ss with
  | nil => intro a; exact Nat.le_refl _
  | cons s r ih => intro a; exact Nat.le_trans (Nat.le_max_left _ _) (ih _)

theorem alignOf_pos (ss : List Slot) : 0 < alignOf ss := foldl_max_ge ss 1

/-- **Fields lie inside the struct.** -/
theorem field_inside (ss : List Slot) (h : AlignOk ss) (p : Placed) (hp : p ∈ place 0 ss) :
    p.off + p.size ≤ sizeOfSlots ss :=
  Nat.le_trans (placed_bounds ss 0 h p hp).2 (up_ge _ _ (alignOf_pos ss))

/-- **Fields are aligned.** -/
theorem field_aligned (ss : List Slot) : ∀ cur, ∀ i (hi : i < ss.length) (hi' : i < (place cur ss).length),
    ss[i].align ∣ (place cur ss)[i].off := by
  induction ss with
  | nil => intro cur i hi; exact absurd hi (Nat.not_lt_zero _)
  | cons s r ih =>
    intro cur i hi hi'
    cases i with
    | zero => exact up_dvd _ _
    | succ j => exact ih _ j (Nat.lt_of_succ_lt_succ hi) (Nat.lt_of_succ_lt_succ hi')

theorem load_store_same (m : Mem) (a : Nat) (bs : List Nat) : load (store m a bs) a bs.length = bs := by
  refine List.ext_getElem (by simp [load]) ?_
  intro i h1 h2
  simp only [load, List.getElem_map, List.getElem_range, store]
  rw [if_pos ⟨Nat.le_add_right _ _, by omega⟩, Nat.add_sub_cancel_left, List.getD_eq_getElem?_getD,
    List.getElem?_eq_getElem h2]
  rfl

theorem load_store_other (m : Mem) (a b n : Nat) (bs : List Nat) (h : b + n ≤ a ∨ a + bs.length ≤ b) :
    load (store m a bs) b n = load m b n := by
  simp only [load]
  refine List.map_congr_left ?_
  intro i hi
  rw [List.mem_range] at hi
  simp only [store]
  rw [if_neg (by omega)]

theorem assign_other (ps : List Placed) : ∀ (m : Mem) (base b n : Nat) (vs : List (List Nat)),
    List.Forall₂ (fun p v => v.length = p.size) ps vs →
    (∀ p ∈ ps, base + p.off + p.size ≤ b ∨ b + n ≤ base + p.off) →
    load (assign m base ps vs) b n = load m b n := by
  induction ps with
  | nil => intro m base b n vs hv _; cases hv; rfl
  | cons p r ih =>
    intro m base b n vs hv h
    cases hv with
    | cons hl hr =>
      simp only [assign]
      rw [ih _ _ _ _ _ hr (fun q hq => h q (List.mem_cons_of_mem _ hq)), load_store_other]
      have := h p (List.mem_cons_self ..)
      omega

/-- What was assigned is read back, whatever the values. -/
theorem assign_read (ps : List Placed) : ∀ (m : Mem) (base : Nat) (vs : List (List Nat)),
    ps.Pairwise (fun p q => p.off + p.size ≤ q.off) →
    List.Forall₂ (fun p v => v.length = p.size) ps vs →
    ps.map (fun p => load (assign m base ps vs) (base + p.off) p.size) = vs := by
  induction ps with
  | nil => intro m base vs _ hv; cases hv; rfl
  | cons p r ih =>
    intro m base vs hd hv
    cases hv with
    | @cons _ v _ vs' hl hr =>
      rw [List.pairwise_cons] at hd
      simp only [assign, List.map_cons]
      refine List.cons_eq_cons.mpr ⟨?_, ih _ _ _ hd.2 hr⟩
      rw [assign_other r _ _ _ _ _ hr (fun q hq => Or.inr (by have := hd.1 q hq; omega)), ← hl,
        load_store_same]

theorem load_copy (m : Mem) (src dst n off k : Nat) (h : off + k ≤ n) :
    load (copyBytes m src dst n) (dst + off) k = load m (src + off) k := by
  simp only [load, copyBytes]
  refine List.map_congr_left ?_
  intro i hi
  rw [List.mem_range] at hi
  simp only [store, load, List.length_map, List.length_range]
  rw [if_pos (by omega), List.getD_eq_getElem?_getD, List.getElem?_map, List.getElem?_range (by omega)]
  simp only [Option.map_some, Option.getD_some]
  congr 1
  omega

/-- **A copy writes the destination object only.** -/
theorem copy_outside (m : Mem) (src dst n x : Nat) (h : x < dst ∨ dst + n ≤ x) :
    copyBytes m src dst n x = m x := by
  simp only [copyBytes, store, load, List.length_map, List.length_range]
  rw [if_neg (by omega)]

/-- **Layout agreement is enough**: when both sides place the same named fields at the same offsets with the
same widths, everything one side assigns is read by the other in the field of the same name, for all values
and whatever the memory held. -/
theorem message_arrives (writer reader : List Slot) (hw : AlignOk writer)
    (hsame : place 0 writer = place 0 reader) (n : Nat) (hn : sizeOfSlots writer ≤ n)
    (m : Mem) (src dst : Nat) (vs : List (List Nat))
    (hv : List.Forall₂ (fun p v => v.length = p.size) (place 0 writer) vs) :
    (place 0 reader).map (fun p => load (copyBytes (assign m src (place 0 writer) vs) src dst n)
      (dst + p.off) p.size) = vs := by
  rw [← hsame]
  have h1 : ∀ p ∈ place 0 writer, load (copyBytes (assign m src (place 0 writer) vs) src dst n)
      (dst + p.off) p.size = load (assign m src (place 0 writer) vs) (src + p.off) p.size := by
    intro p hp
    exact load_copy _ _ _ _ _ _ (Nat.le_trans (field_inside writer hw p hp) hn)
  rw [List.map_congr_left h1]
  exact assign_read _ _ _ _ (fields_disjoint writer 0 hw) hv

/-! ### The message types of the project -/

/-- Checked by the kernel: the headers' structs, laid out by the C rule, meet the generated contract. -/
def headersMeet : Bool :=
  match measureAll [] cppDecls with
  | none => false
  | some env => contract.all (fun e =>
      match env.lookup e.name with
      | none => false
      | some ss => meets ss e)

/-- Checked by the kernel: the types whose Rust source is in the repository have, field by field, the same
slots in both languages, and all alignments are positive. -/
def bothSides : Bool :=
  match measureAll [] cppDecls, measureAll [] rustDecls with
  | some c, some r => sharedTypes.all (fun n =>
      match c.lookup n, r.lookup n with
      | some a, some b => a == b && a.all (fun s => decide (0 < s.align))
      | _, _ => false)
  | _, _ => false

theorem headersMeet_true : headersMeet = true := by decide +kernel

theorem bothSides_true : bothSides = true := by decide +kernel

theorem up_one (n : Nat) : up n 1 = n := by unfold up; omega

theorem end_dense (ss : List Slot) (h : ∀ s ∈ ss, s.align = 1) : ∀ cur, endOf cur ss = cur + (ss.map (·.size)).sum := by
  induction ss with
  | nil => intro cur; rfl
  | cons s r ih =>
    intro cur
    rw [endOf, h s (List.mem_cons_self ..), up_one, ih (fun x hx => h x (List.mem_cons_of_mem _ hx)), List.map_cons, List.sum_cons]
    omega

/-- **A packed struct has no gaps and suits every address**: its size is the sum of its fields' sizes, and its
alignment is 1. -/
theorem packed_dense (env : Env) (d : Decl) (hp : d.packed = true) (ss : List Slot) (h : d.fields.mapM (slot env d.packed) = some ss) :
    sizeOfSlots ss = (ss.map (·.size)).sum ∧ alignOf ss = 1 := by
  have h1 : ∀ s ∈ ss, s.align = 1 := by
    rw [hp] at h
    generalize d.fields = fs at h
    induction fs generalizing ss with
    | nil => rw [List.mapM_nil] at h; cases h; intro s hs; cases hs
    | cons f fs ih =>
      rw [List.mapM_cons] at h
      cases hf : slot env true f with
      | none => rw [hf] at h; cases h
      | some s0 =>
        cases hr : fs.mapM (slot env true) with
        | none => rw [hf, hr] at h; cases h
        | some rs =>
          rw [hf, hr] at h
          cases h
          intro s hs
          rcases List.mem_cons.1 hs with rfl | hs
          · unfold slot at hf
            cases hm : measure env f.elem with
            | none => rw [hm] at hf; cases hf
            | some m => rw [hm] at hf; cases hf; rfl
          · exact ih rs hr s hs
  have h2 : alignOf ss = 1 := by
    unfold alignOf
    clear h
    induction ss with
    | nil => rfl
    | cons s r ih =>
      rw [List.foldl_cons, h1 s (List.mem_cons_self ..)]
      exact ih (fun x hx => h1 x (List.mem_cons_of_mem _ hx))
  refine ⟨?_, h2⟩
  unfold sizeOfSlots
  rw [h2, up_one, end_dense ss h1, Nat.zero_add]

example : (cppDecls.find? (·.name == "Landmark3D")).map (·.packed) = some true := by decide +kernel

/-- **Every header struct has the size and the offsets the contract demands**: for every entry the C++ struct
exists, has the size Rust has, and has each named field at Rust's offset. -/
theorem headers_meet_contract (e : Entry) (he : e ∈ contract) :
    ∃ ss, slotsOf cppDecls e.name = some ss ∧ sizeOfSlots ss = e.size ∧
      ∀ o ∈ e.offsets, ∃ p ∈ place 0 ss, p.name = o.1 ∧ p.off = o.2 := by
  have h := headersMeet_true
  unfold headersMeet at h
  unfold slotsOf
  cases hm : measureAll [] cppDecls with
  | none => rw [hm] at h; cases h
  | some env =>
    rw [hm] at h
    have h1 := List.all_eq_true.mp h e he
    cases hl : env.lookup e.name with
    | none => rw [hl] at h1; cases h1
    | some ss =>
      rw [hl] at h1
      have h2 : meets ss e = true := h1
      unfold meets at h2
      rw [Bool.and_eq_true, beq_iff_eq, List.all_eq_true] at h2
      refine ⟨ss, by simpa using hl, h2.1, ?_⟩
      intro o ho
      have h3 := h2.2 o ho
      rw [List.any_eq_true] at h3
      obtain ⟨p, hp, hb⟩ := h3
      rw [Bool.and_eq_true, beq_iff_eq, beq_iff_eq] at hb
      exact ⟨p, hp, hb.1, hb.2⟩

/-- **A receive stays inside the caller's object**: for every type of the contract, copying a Rust message (of
the size the contract records) into a C++ object changes no byte outside that object. -/
theorem receive_in_bounds (e : Entry) (he : e ∈ contract) :
    ∃ ss, slotsOf cppDecls e.name = some ss ∧ ∀ (m : Mem) (src obj x : Nat),
      (x < obj ∨ obj + sizeOfSlots ss ≤ x) → copyBytes m src obj e.size x = m x := by
  obtain ⟨ss, h1, h2, _⟩ := headers_meet_contract e he
  exact ⟨ss, h1, fun m src obj x hx => copy_outside m src obj e.size x (h2 ▸ hx)⟩

theorem shared_slots (n : String) (hn : n ∈ sharedTypes) :
    ∃ ss, slotsOf cppDecls n = some ss ∧ slotsOf rustDecls n = some ss ∧ AlignOk ss := by
  have h := bothSides_true
  unfold bothSides at h
  unfold slotsOf
  cases hc : measureAll [] cppDecls with
  | none => rw [hc] at h; cases h
  | some c =>
    cases hr : measureAll [] rustDecls with
    | none => rw [hc, hr] at h; cases h
    | some r =>
      rw [hc, hr] at h
      have h1 := List.all_eq_true.mp h n hn
      cases ha : c.lookup n with
      | none => rw [ha] at h1; cases h1
      | some a =>
        cases hb : r.lookup n with
        | none => rw [ha, hb] at h1; cases h1
        | some b =>
          rw [ha, hb] at h1
          have h2 : (a == b && a.all (fun s => decide (0 < s.align))) = true := h1
          rw [Bool.and_eq_true, beq_iff_eq, List.all_eq_true] at h2
          refine ⟨a, by simpa using ha, by simpa [h2.1] using hb, ?_⟩
          intro s hs
          simpa using h2.2 s hs

/-- **Messages cross both ways unchanged**: for every message type whose Rust struct is in the repository,
what Rust assigns to the fields a C++ receiver reads in its own fields of the same names, and what C++
assigns Rust reads, for all field values. -/
theorem shared_messages_arrive (n : String) (hn : n ∈ sharedTypes) :
    ∃ rs cs, slotsOf rustDecls n = some rs ∧ slotsOf cppDecls n = some cs ∧
      (place 0 rs).map (·.name) = (place 0 cs).map (·.name) ∧
      (∀ (m : Mem) (src dst : Nat) (vs : List (List Nat)),
        List.Forall₂ (fun p v => v.length = p.size) (place 0 rs) vs →
        (place 0 cs).map (fun p => load (copyBytes (assign m src (place 0 rs) vs) src dst (sizeOfSlots rs))
          (dst + p.off) p.size) = vs) ∧
      (∀ (m : Mem) (src dst : Nat) (vs : List (List Nat)),
        List.Forall₂ (fun p v => v.length = p.size) (place 0 cs) vs →
        (place 0 rs).map (fun p => load (copyBytes (assign m src (place 0 cs) vs) src dst (sizeOfSlots rs))
          (dst + p.off) p.size) = vs) := by
  obtain ⟨ss, hc, hr, ha⟩ := shared_slots n hn
  exact ⟨ss, ss, hr, hc, rfl,
    fun m src dst vs hv => message_arrives ss ss ha rfl _ (Nat.le_refl _) m src dst vs hv,
    fun m src dst vs hv => message_arrives ss ss ha rfl _ (Nat.le_refl _) m src dst vs hv⟩

/-- Nested structs agree too: the declarations themselves, with element types and array dimensions, are the
same on both sides. -/
theorem shared_declarations : ∀ d ∈ rustDecls, d ∈ cppDecls := by decide +kernel

/-- The concrete values: a Twist is 56 bytes with its stamp at 48. -/
example : (slotsOf cppDecls "Twist").map (fun ss => (sizeOfSlots ss, place 0 ss)) =
    some (56, [⟨"linear", 0, 24⟩, ⟨"angular", 24, 24⟩, ⟨"timestamp_ns", 48, 8⟩]) := by decide +kernel

example : "PoseStamped" ∈ sharedTypes ∧ sharedTypes.length = 20 := by decide +kernel

/-- **Every message type the C API passes is under the contract, but one**: `DifferentialDriveCommand` is
sent and received without an entry. -/
theorem uncovered : apiTypes.filter (fun n => !(contract.map (·.name)).contains n) =
    ["DifferentialDriveCommand"] := by decide +kernel

/-! ### What the contract does not settle -/

/-- **The contract is sound for unchanged widths**: when the Rust struct has exactly the listed fields and
the C++ struct has the same fields in the same order with the same widths, meeting the rendered contract
means every message arrives. -/
theorem contract_sound (n : String) (rust cpp : List Slot) (e : Entry)
    (hr : AlignOk rust) (hnd : (rust.map (·.name)).Nodup)
    (hrender : render n rust (rust.map (·.name)) = some e) (hm : meets cpp e = true)
    (hshape : cpp.map (fun s => (s.name, s.size)) = rust.map (fun s => (s.name, s.size))) :
    place 0 rust = place 0 cpp := by
  have hname : ∀ (ss : List Slot) cur, (place cur ss).map (·.name) = ss.map (·.name) := by
    intro ss
    induction ss with
    | nil => intro cur; rfl
    | cons s r ih => intro cur; simp only [place, List.map_cons, ih]
  have hns : ∀ (ss : List Slot) cur, (place cur ss).map (fun p => (p.name, p.size)) =
      ss.map (fun s => (s.name, s.size)) := by
    intro ss
    induction ss with
    | nil => intro cur; rfl
    | cons s r ih => intro cur; simp only [place, List.map_cons, ih]
  have hcn : cpp.map (·.name) = rust.map (·.name) := by
    have := congrArg (List.map Prod.fst) hshape
    simpa [List.map_map, Function.comp_def] using this
  -- the entry lists each Rust field at its offset
  have hentry : ∀ p ∈ place 0 rust, (p.name, p.off) ∈ e.offsets := by
    intro p hp
    unfold render at hrender
    cases hmm : ((rust.map (·.name)).mapM (fun f => ((place 0 rust).find? (fun p => p.name == f)).map
      (fun p => (f, p.off)))) with
    | none => rw [hmm] at hrender; cases hrender
    | some os =>
      rw [hmm] at hrender
      simp only [Option.map_some, Option.some.injEq] at hrender
      subst hrender
      have hgen : ∀ (fs : List String) os, fs.mapM (fun f => ((place 0 rust).find? (fun p => p.name == f)).map
          (fun p => (f, p.off))) = some os → ∀ f ∈ fs, ∃ q, (place 0 rust).find? (fun p => p.name == f) = some q ∧
            (f, q.off) ∈ os := by
        intro fs
        induction fs with
        | nil => intro os _ f hf; cases hf
        | cons g r ih =>
          intro os h f hf
          rw [List.mapM_cons] at h
          cases hg : (place 0 rust).find? (fun p => p.name == g) with
          | none => rw [hg] at h; cases h
          | some q =>
            rw [hg] at h
            cases hrr : r.mapM (fun f => ((place 0 rust).find? (fun p => p.name == f)).map
                (fun p => (f, p.off))) with
            | none => rw [hrr] at h; cases h
            | some os' =>
              rw [hrr] at h
              have h' : some ((g, q.off) :: os') = some os := h
              cases h'
              rcases List.mem_cons.mp hf with hf | hf
              · subst hf; exact ⟨q, hg, List.mem_cons_self ..⟩
              · obtain ⟨q', h1, h2⟩ := ih os' hrr f hf
                exact ⟨q', h1, List.mem_cons_of_mem _ h2⟩
      have hmem : p.name ∈ rust.map (·.name) := by
        rw [← hname rust 0]; exact List.mem_map.mpr ⟨p, hp, rfl⟩
      obtain ⟨q, hq, hin⟩ := hgen _ _ hmm _ hmem
      have hqm := List.mem_of_find?_eq_some hq
      have hqn : q.name = p.name := by simpa using List.find?_some hq
      have hnd' : ((place 0 rust).map (·.name)).Nodup := by rw [hname]; exact hnd
      have : q = p := List.inj_on_of_nodup_map hnd' hqm hp hqn
      subst this
      exact hin
  unfold meets at hm
  rw [Bool.and_eq_true, List.all_eq_true] at hm
  have hndc : ((place 0 cpp).map (·.name)).Nodup := by rw [hname, hcn]; exact hnd
  have hlen : (place 0 rust).length = (place 0 cpp).length := by
    have h1 := congrArg List.length (hname rust 0)
    have h2 := congrArg List.length (hname cpp 0)
    have h3 := congrArg List.length hcn
    simp only [List.length_map] at h1 h2 h3
    omega
  refine List.ext_getElem hlen ?_
  intro i h1 h2
  have hnsi : ((place 0 rust)[i].name, (place 0 rust)[i].size) = ((place 0 cpp)[i].name, (place 0 cpp)[i].size) := by
    have := (hns rust 0).trans (hshape.symm.trans (hns cpp 0).symm)
    have h4 := congrArg (fun l => l[i]?) this
    simp only [List.getElem?_map, List.getElem?_eq_getElem h1, List.getElem?_eq_getElem h2, Option.map_some,
      Option.some.injEq] at h4
    exact h4
  have h5 := hm.2 _ (hentry _ (List.getElem_mem h1))
  rw [List.any_eq_true] at h5
  obtain ⟨p, hp, hb⟩ := h5
  rw [Bool.and_eq_true, beq_iff_eq, beq_iff_eq] at hb
  have hpc : p = (place 0 cpp)[i] :=
    List.inj_on_of_nodup_map hndc hp (List.getElem_mem h2) (hb.1.trans (Prod.mk.inj hnsi).1)
  rw [hpc] at hb
  cases hx : (place 0 rust)[i] with
  | mk a b c =>
    cases hy : (place 0 cpp)[i] with
    | mk a' b' c' =>
      rw [hx, hy] at hnsi hb
      simp only [Prod.mk.injEq] at hnsi hb
      rw [hnsi.1, hnsi.2, hb.2]

/-- The ServoCommand of the headers, as slots. -/
def servo : List Slot :=
  [⟨"servo_id", 1, 1⟩, ⟨"position", 4, 4⟩, ⟨"speed", 4, 4⟩, ⟨"enable", 1, 1⟩, ⟨"timestamp_ns", 8, 8⟩]

example : slotsOf cppDecls "ServoCommand" = some servo := by decide +kernel

example : (render "ServoCommand" servo (servo.map (·.name))).map (meets servo) = some true := by decide

/-- A later ServoCommand: a one-byte field added after `servo_id`. -/
def servoAdded : List Slot :=
  [⟨"servo_id", 1, 1⟩, ⟨"brake", 1, 1⟩, ⟨"position", 4, 4⟩, ⟨"speed", 4, 4⟩, ⟨"enable", 1, 1⟩,
    ⟨"timestamp_ns", 8, 8⟩]

/-- A later ServoCommand: `servo_id` widened to two bytes. -/
def servoWide : List Slot :=
  [⟨"servo_id", 2, 2⟩, ⟨"position", 4, 4⟩, ⟨"speed", 4, 4⟩, ⟨"enable", 1, 1⟩, ⟨"timestamp_ns", 8, 8⟩]

/-- **An added field can go unnoticed**: the module says a field added upstream changes the struct size, which
the size assertion catches.  A field that fits into padding does not: the regenerated contract is the same,
the unchanged C++ struct meets it, and the new field's byte is one C++ never sets: whatever was in memory at
that place is sent as the field's value. -/
theorem added_field_unseen :
    render "ServoCommand" servoAdded (servo.map (·.name)) = render "ServoCommand" servo (servo.map (·.name)) ∧
    (render "ServoCommand" servoAdded (servo.map (·.name))).map (meets servo) = some true ∧
    ∃ p ∈ place 0 servoAdded, p.name = "brake" ∧ ∀ (m : Mem) (src dst : Nat) (vs : List (List Nat)),
      List.Forall₂ (fun q v => v.length = q.size) (place 0 servo) vs →
      load (copyBytes (assign m src (place 0 servo) vs) src dst (sizeOfSlots servoAdded)) (dst + p.off) p.size =
        load m (src + p.off) p.size := by
  refine ⟨by decide, by decide, ⟨"brake", 1, 1⟩, by decide, rfl, ?_⟩
  intro m src dst vs hv
  rw [load_copy _ _ _ _ _ _ (by decide), assign_other _ _ _ _ _ _ hv]
  intro q hq
  have : place 0 servo = [⟨"servo_id", 0, 1⟩, ⟨"position", 4, 4⟩, ⟨"speed", 8, 4⟩, ⟨"enable", 12, 1⟩,
    ⟨"timestamp_ns", 16, 8⟩] := by decide
  rw [this] at hq
  simp only [List.mem_cons, List.not_mem_nil, or_false] at hq
  rcases hq with h | h | h | h | h <;> subst h <;> dsimp only <;> omega

/-- **A widened field can go unnoticed**: with `servo_id` widened in Rust the contract is again the same and
is met, yet a C++ receiver sees only the low byte: identifiers that differ by 256 look the same. -/
theorem widened_field_unseen :
    render "ServoCommand" servoWide (servo.map (·.name)) = render "ServoCommand" servo (servo.map (·.name)) ∧
    ∃ vs ws : List (List Nat), vs ≠ ws ∧
      List.Forall₂ (fun q v => v.length = q.size) (place 0 servoWide) vs ∧
      List.Forall₂ (fun q v => v.length = q.size) (place 0 servoWide) ws ∧
      (place 0 servo).map (fun p => load (copyBytes (assign (fun _ => 0) 0 (place 0 servoWide) vs) 0 100 24)
          (100 + p.off) p.size) =
        (place 0 servo).map (fun p => load (copyBytes (assign (fun _ => 0) 0 (place 0 servoWide) ws) 0 100 24)
          (100 + p.off) p.size) := by
  have hp : place 0 servoWide = [⟨"servo_id", 0, 2⟩, ⟨"position", 4, 4⟩, ⟨"speed", 8, 4⟩, ⟨"enable", 12, 1⟩,
    ⟨"timestamp_ns", 16, 8⟩] := by decide
  refine ⟨by decide, [[1, 0], [0, 0, 0, 0], [0, 0, 0, 0], [1], [0, 0, 0, 0, 0, 0, 0, 0]],
    [[1, 1], [0, 0, 0, 0], [0, 0, 0, 0], [1], [0, 0, 0, 0, 0, 0, 0, 0]], by decide, ?_, ?_, by decide +kernel⟩ <;>
  · rw [hp]
    exact .cons rfl (.cons rfl (.cons rfl (.cons rfl (.cons rfl .nil))))

/-- The audit's size finding in general: a receive of a Rust type larger than the C++ object changes bytes
beyond the object as soon as the message's tail differs from what is there. -/
theorem size_mismatch_overruns (m : Mem) (src obj small big i : Nat) (h1 : small ≤ i) (h2 : i < big)
    (hd : m (src + i) ≠ m (obj + i)) :
    copyBytes m src obj big (obj + i) ≠ m (obj + i) ∧ obj + small ≤ obj + i := by
  refine ⟨?_, by omega⟩
  have := load_copy m src obj big i 1 (by omega)
  simp only [load, List.range_one, List.map_cons, List.map_nil, Nat.add_zero, List.cons.injEq, and_true] at this
  rw [this]
  exact hd

example : (88 : Nat) ≤ 100 ∧ 100 < 928 := by decide

end Horus.FfiLayout
