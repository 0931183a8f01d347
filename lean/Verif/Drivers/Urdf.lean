import Verif.Build.Imports
/-
Sensors named in a robot description, and the check of driver keys against them:
horus_manager/src/urdf.rs.

Modelled: the text search of `extract_sensors_from_str`, `extract_attr`, and `validate_driver_keys`
(which keys are warned about and what is suggested).
Simplified: byte positions are suffixes of the text; the wording of warnings is left out.
-/
namespace Horus.Urdf
open Horus.Imports (Text find find_spec)

/-- `UrdfSensor` (urdf.rs 14-21). -/
structure Sensor where
  name : Text
  type : Text
  link : Text
  deriving DecidableEq, Repr

/-- `extract_attr` (urdf.rs 91-96). -/
def attr (tag name : Text) : Option Text :=
  (find (name ++ ['=', '"']) tag).bind fun p => (find ['"'] (p.2.drop (name.length + 2))).map (·.1)

def openSensor : Text := "<sensor".toList
def openGazebo : Text := "<gazebo".toList
def closeGazebo : Text := "</gazebo>".toList

/-- One sensor tag (urdf.rs 68-79). -/
def sensorOf (link tag : Text) : List Sensor :=
  let n := (attr tag "name".toList).getD []
  if n = [] then [] else [⟨n, (attr tag "type".toList).getD [], link⟩]

/-- The sensors of a block (urdf.rs 61-82); the fuel is the text's length. -/
def sensorsIn (link : Text) : Nat → Text → List Sensor
  | 0, _ => []
  | fuel + 1, block => match find openSensor block with
    | none => []
    | some (_, r) => match find ['>'] r with
      | none => []
      | some (tag, rest) => sensorOf link (tag ++ ['>']) ++ sensorsIn link fuel (rest.drop 1)

/-- The blocks of the document (urdf.rs 41-85). -/
def blocks : Nat → Text → List Sensor
  | 0, _ => []
  | fuel + 1, xml => match find openGazebo xml with
    | none => []
    | some (_, r) => match find ['>'] r with
      | none => []
      | some (tag, rest) => match find closeGazebo rest with
        | none => []
        | some (inner, after) =>
          let link := (attr (tag ++ ['>']) "reference".toList).getD []
          let block := tag ++ inner ++ closeGazebo
          sensorsIn link block.length block ++ blocks fuel (after.drop 9)

/-- `extract_sensors_from_str` (urdf.rs 37-88). -/
def sensors (xml : Text) : List Sensor := blocks (xml.length + 1) xml

/-- `validate_driver_keys` (urdf.rs 102-134): the keys warned about. -/
def unknownKeys (keys : List Text) (ss : List Sensor) : List Text :=
  if ss = [] then [] else keys.filter fun k => !(ss.map (·.name)).contains k

/-! ### Specification -/

/-- A text usable as an attribute value here: no quote, no `=`, no angle bracket. -/
def Value (v : Text) : Prop := '"' ∉ v ∧ '=' ∉ v ∧ '<' ∉ v ∧ '>' ∉ v

/-- A text between tags: any text without the beginning of a sensor or block tag or the end of a
block. -/
structure Filler (f : Text) : Prop where
  sensor : ¬ openSensor <:+: f
  gazebo : ¬ openGazebo <:+: f
  close : ¬ closeGazebo <:+: f

/-- A sensor element as written: name, type, the order of the two, and what follows up to the next. -/
structure SensorSrc where
  name : Text
  type : Text
  typeFirst : Bool
  body : Text

def SensorSrc.tag (s : SensorSrc) : Text :=
  if s.typeFirst then "<sensor type=\"".toList ++ (s.type ++ ("\" name=\"".toList ++ (s.name ++ "\"".toList)))
  else "<sensor name=\"".toList ++ (s.name ++ ("\" type=\"".toList ++ (s.type ++ "\"".toList)))

def SensorSrc.text (s : SensorSrc) : Text := s.tag ++ '>' :: s.body

structure SensorSrc.WF (s : SensorSrc) : Prop where
  name : Value s.name
  nonempty : s.name ≠ []
  type : Value s.type
  body : Filler s.body

/-- A block as written: its link, the text before the first sensor, the sensors, and what follows up to
the next block. -/
structure BlockSrc where
  link : Text
  lead : Text
  sensors : List SensorSrc
  after : Text

def BlockSrc.head (b : BlockSrc) : Text := "<gazebo reference=\"".toList ++ (b.link ++ "\"".toList)
def BlockSrc.inner (b : BlockSrc) : Text := b.lead ++ b.sensors.flatMap SensorSrc.text
def BlockSrc.text (b : BlockSrc) : Text := b.head ++ '>' :: (b.inner ++ (closeGazebo ++ b.after))

structure BlockSrc.WF (b : BlockSrc) : Prop where
  link : Value b.link
  lead : Filler b.lead
  sensors : ∀ s ∈ b.sensors, s.WF
  after : Filler b.after

/-- A whole document. -/
def doc (pre : Text) (bs : List BlockSrc) : Text := pre ++ bs.flatMap BlockSrc.text

/-- What it says. -/
def said (bs : List BlockSrc) : List Sensor := bs.flatMap fun b => b.sensors.map fun s => ⟨s.name, s.type, b.link⟩

/-! ### Proofs: searching -/

theorem find_no (pat s : Text) (h : ¬ pat <:+: s) : find pat s = none := by
  cases hf : find pat s with
  | none => rfl
  | some p =>
    obtain ⟨e, hp⟩ := find_spec pat s p.1 p.2 (by rw [hf])
    exact absurd (e ▸ (hp.isInfix.trans (List.suffix_append p.1 p.2).isInfix)) h

theorem find_none (pat s : Text) (hne : pat ≠ []) (h : find pat s = none) : ¬ pat <:+: s := by
  intro hx
  induction s with
  | nil => exact hne (List.infix_nil.1 hx)
  | cons c x ih =>
    rw [find] at h
    by_cases hp : pat.isPrefixOf (c :: x) = true
    · rw [if_pos hp] at h; cases h
    · rw [if_neg hp] at h
      rcases List.infix_cons_iff.1 hx with h1 | h1
      · exact hp (List.isPrefixOf_iff_prefix.2 h1)
      · exact ih (by simpa using h) h1

/-- A pattern with `<` only at its beginning is not found across the beginning of a tag. -/
theorem find_skip (p' a b : Text) (hp : '<' ∉ p') (ha : ¬ ('<' :: p') <:+: a) (hb : ∀ c, b.head? = some c → c = '<') :
    find ('<' :: p') (a ++ b) = (find ('<' :: p') b).map fun r => (a ++ r.1, r.2) := by
  induction a with
  | nil => rw [List.nil_append]; cases find ('<' :: p') b <;> rfl
  | cons c a ih =>
    have hno : ('<' :: p').isPrefixOf (c :: (a ++ b)) = false := by
      cases hq : ('<' :: p').isPrefixOf (c :: (a ++ b)) with
      | false => rfl
      | true =>
        exfalso
        have h1 := List.isPrefixOf_iff_prefix.1 hq
        rw [List.cons_prefix_cons] at h1
        obtain ⟨hc, h2⟩ := h1
        apply ha
        by_cases hl : p'.length ≤ a.length
        · have := List.prefix_of_prefix_length_le h2 (List.prefix_append a b) hl
          exact (hc ▸ List.cons_prefix_cons.2 ⟨rfl, this⟩ : ('<' :: p') <+: (c :: a)).isInfix
        · exfalso
          have h3 : a <+: p' := List.prefix_of_prefix_length_le (List.prefix_append a b) h2 (by omega)
          obtain ⟨d, hd⟩ := h3
          have hdb : d <+: b := by
            rw [← hd] at h2
            exact (List.prefix_append_right_inj a).1 h2
          cases d with
          | nil => rw [← hd] at hl; simp at hl
          | cons x d' =>
            obtain ⟨w, hw⟩ := hdb
            have hx : x = '<' := hb x (by rw [← hw]; rfl)
            exact hp (by rw [← hd, hx]; simp)
    rw [List.cons_append, find, hno, if_neg (by decide), ih (fun h => ha (h.trans (List.suffix_cons c a).isInfix))]
    cases find ('<' :: p') b <;> rfl

theorem find_here (pat b : Text) (x : Char) (p' : Text) (hp : pat = x :: p') (hb : pat <+: b) : find pat b = some ([], b) := by
  have := Horus.Imports.find_first pat [] b x p' hp (by simp) (List.isPrefixOf_iff_prefix.2 hb)
  simpa using this

theorem find_char (c : Char) (a b : Text) (h : c ∉ a) : find [c] (a ++ c :: b) = some (a, c :: b) :=
  Horus.Imports.find_first [c] a (c :: b) c [] rfl h (List.isPrefixOf_iff_prefix.2 ⟨b, rfl⟩)

/-- A pattern ending in `="` is not found across the end of a value. -/
theorem find_value (u v b : Text) (hu : '"' ∉ u) (hv : '=' ∉ v) : find (u ++ ['=', '"']) (v ++ '"' :: b) = (find (u ++ ['=', '"']) ('"' :: b)).map fun r => (v ++ r.1, r.2) := by
  have key : ∀ (u v : Text), '"' ∉ u → '=' ∉ v → v ≠ [] → (u ++ ['=', '"']).isPrefixOf (v ++ '"' :: b) = false := by
    intro u
    induction u with
    | nil =>
      intro v _ hv hne
      cases v with
      | nil => exact absurd rfl hne
      | cons x t =>
        have : ¬ '=' = x := fun e => hv (by rw [e]; exact List.mem_cons_self)
        simp [List.isPrefixOf, this]
    | cons c u ih =>
      intro v hu hv hne
      cases v with
      | nil => exact absurd rfl hne
      | cons x t =>
        rw [List.cons_append, List.cons_append, List.isPrefixOf]
        cases t with
        | nil =>
          cases u with
          | nil => simp [List.isPrefixOf]
          | cons d u' =>
            have : ¬ d = '"' := fun e => hu (by rw [e]; simp)
            simp [List.isPrefixOf, this]
        | cons y t' =>
          rw [ih (y :: t') (fun h => hu (List.mem_cons_of_mem _ h)) (fun h => hv (List.mem_cons_of_mem _ h)) (by simp)]
          simp
  induction v with
  | nil => rw [List.nil_append]; cases find (u ++ ['=', '"']) ('"' :: b) <;> rfl
  | cons x t ih =>
    have hno := key u (x :: t) hu hv (by simp)
    rw [List.cons_append] at hno ⊢
    rw [find, hno, if_neg (by decide), ih fun h => hv (List.mem_cons_of_mem _ h)]
    cases find (u ++ ['=', '"']) ('"' :: b) <;> rfl

/-! ### Proofs: tags -/

theorem tag_name (s : SensorSrc) (h : s.WF) : attr (s.tag ++ ['>']) "name".toList = some s.name ∧ attr (s.tag ++ ['>']) "type".toList = some s.type := by
  have hn := h.name
  have ht := h.type
  unfold SensorSrc.tag
  cases s.typeFirst with
  | false =>
    rw [if_neg (by decide)]
    constructor
    · unfold attr
      have : find ("name".toList ++ ['=', '"']) (("<sensor name=\"".toList ++ (s.name ++ ("\" type=\"".toList ++ (s.type ++ "\"".toList)))) ++ ['>']) =
        some ("<sensor ".toList, "name=\"".toList ++ (s.name ++ '"' :: (" type=\"".toList ++ (s.type ++ "\"".toList) ++ ['>']))) := by
        have e : ("<sensor name=\"".toList ++ (s.name ++ ("\" type=\"".toList ++ (s.type ++ "\"".toList)))) ++ ['>'] = "<sensor name=\"".toList ++ (s.name ++ '"' :: (" type=\"".toList ++ (s.type ++ "\"".toList) ++ ['>'])) := by simp
        rw [e]
        rfl
      rw [this, Option.bind_some]
      show ((find ['"'] (s.name ++ '"' :: _)).map (·.1)) = some s.name
      rw [find_char '"' _ _ hn.1]; rfl
    · unfold attr
      have e : ("<sensor name=\"".toList ++ (s.name ++ ("\" type=\"".toList ++ (s.type ++ "\"".toList)))) ++ ['>'] = "<sensor name=\"".toList ++ (s.name ++ '"' :: (" type=\"".toList ++ (s.type ++ "\"".toList) ++ ['>'])) := by simp
      have f1 : ∀ r : Text, find ("type".toList ++ ['=', '"']) ("<sensor name=\"".toList ++ r) = (find ("type".toList ++ ['=', '"']) r).map fun p => ("<sensor name=\"".toList ++ p.1, p.2) := by
        intro r
        show find ['t', 'y', 'p', 'e', '=', '"'] ('<' :: 's' :: 'e' :: 'n' :: 's' :: 'o' :: 'r' :: ' ' :: 'n' :: 'a' :: 'm' :: 'e' :: '=' :: '"' :: r) = _
        simp only [find, List.isPrefixOf]
        cases hq : find ("type".toList ++ ['=', '"']) r <;> simp_all
      rw [e, f1, find_value "type".toList s.name _ (by decide) hn.2.1]
      have f2 : find ("type".toList ++ ['=', '"']) ('"' :: (" type=\"".toList ++ (s.type ++ "\"".toList) ++ ['>'])) = some ("\" ".toList, "type=\"".toList ++ (s.type ++ '"' :: ['>'])) := by
        have e2 : '"' :: (" type=\"".toList ++ (s.type ++ "\"".toList) ++ ['>']) = "\" type=\"".toList ++ (s.type ++ '"' :: ['>']) := by simp
        rw [e2]; rfl
      rw [f2, Option.map_some, Option.map_some, Option.bind_some]
      show ((find ['"'] (s.type ++ '"' :: ['>'])).map (·.1)) = some s.type
      rw [find_char '"' _ _ ht.1]; rfl
  | true =>
    rw [if_pos rfl]
    have e : ("<sensor type=\"".toList ++ (s.type ++ ("\" name=\"".toList ++ (s.name ++ "\"".toList)))) ++ ['>'] = "<sensor type=\"".toList ++ (s.type ++ '"' :: (" name=\"".toList ++ (s.name ++ "\"".toList) ++ ['>'])) := by simp
    rw [e]
    constructor
    · unfold attr
      have f1 : ∀ r : Text, find ("name".toList ++ ['=', '"']) ("<sensor type=\"".toList ++ r) = (find ("name".toList ++ ['=', '"']) r).map fun p => ("<sensor type=\"".toList ++ p.1, p.2) := by
        intro r
        show find ['n', 'a', 'm', 'e', '=', '"'] ('<' :: 's' :: 'e' :: 'n' :: 's' :: 'o' :: 'r' :: ' ' :: 't' :: 'y' :: 'p' :: 'e' :: '=' :: '"' :: r) = _
        simp only [find, List.isPrefixOf]
        cases hq : find ("name".toList ++ ['=', '"']) r <;> simp_all
      rw [f1, find_value "name".toList s.type _ (by decide) ht.2.1]
      have f2 : find ("name".toList ++ ['=', '"']) ('"' :: (" name=\"".toList ++ (s.name ++ "\"".toList) ++ ['>'])) = some ("\" ".toList, "name=\"".toList ++ (s.name ++ '"' :: ['>'])) := by
        have e2 : '"' :: (" name=\"".toList ++ (s.name ++ "\"".toList) ++ ['>']) = "\" name=\"".toList ++ (s.name ++ '"' :: ['>']) := by simp
        rw [e2]; rfl
      rw [f2, Option.map_some, Option.map_some, Option.bind_some]
      show ((find ['"'] (s.name ++ '"' :: ['>'])).map (·.1)) = some s.name
      rw [find_char '"' _ _ hn.1]; rfl
    · unfold attr
      have : find ("type".toList ++ ['=', '"']) ("<sensor type=\"".toList ++ (s.type ++ '"' :: (" name=\"".toList ++ (s.name ++ "\"".toList) ++ ['>']))) =
        some ("<sensor ".toList, "type=\"".toList ++ (s.type ++ '"' :: (" name=\"".toList ++ (s.name ++ "\"".toList) ++ ['>']))) := rfl
      rw [this, Option.bind_some]
      show ((find ['"'] (s.type ++ '"' :: _)).map (·.1)) = some s.type
      rw [find_char '"' _ _ ht.1]; rfl

theorem tag_link (l : Text) (h : Value l) : attr ("<gazebo reference=\"".toList ++ (l ++ "\"".toList) ++ ['>']) "reference".toList = some l := by
  unfold attr
  have e : "<gazebo reference=\"".toList ++ (l ++ "\"".toList) ++ ['>'] = "<gazebo reference=\"".toList ++ (l ++ '"' :: ['>']) := by simp
  have : find ("reference".toList ++ ['=', '"']) ("<gazebo reference=\"".toList ++ (l ++ '"' :: ['>'])) = some ("<gazebo ".toList, "reference=\"".toList ++ (l ++ '"' :: ['>'])) := rfl
  rw [e, this, Option.bind_some]
  show ((find ['"'] (l ++ '"' :: ['>'])).map (·.1)) = some l
  rw [find_char '"' _ _ h.1]; rfl

theorem sensorOf_tag (link : Text) (s : SensorSrc) (h : s.WF) : sensorOf link (s.tag ++ ['>']) = [⟨s.name, s.type, link⟩] := by
  obtain ⟨h1, h2⟩ := tag_name s h
  unfold sensorOf
  dsimp only
  rw [h1, h2, Option.getD_some, Option.getD_some, if_neg h.nonempty]

theorem tag_chars (s : SensorSrc) (h : s.WF) : '>' ∉ s.tag := by
  have hn := h.name.2.2.2
  have ht := h.type.2.2.2
  unfold SensorSrc.tag
  split <;> simp [hn, ht]

theorem tag_opens (s : SensorSrc) : ∃ r, s.tag = openSensor ++ r := by
  unfold SensorSrc.tag
  split
  · exact ⟨_, show _ = "<sensor".toList ++ (" type=\"".toList ++ (s.type ++ ("\" name=\"".toList ++ (s.name ++ "\"".toList)))) from rfl⟩
  · exact ⟨_, show _ = "<sensor".toList ++ (" name=\"".toList ++ (s.name ++ ("\" type=\"".toList ++ (s.type ++ "\"".toList)))) from rfl⟩

/-- Text that holds `<` only at its beginning, and begins with another tag, does not hold a pattern. -/
theorem tag_free (p' t : Text) (ht : '<' ∉ t) (h : ¬ p' <+: t) : ¬ ('<' :: p') <:+: ('<' :: t) := by
  rintro ⟨x, y, e⟩
  cases x with
  | nil =>
    rw [List.nil_append, List.cons_append] at e
    injection e with _ e
    exact h ⟨y, e⟩
  | cons c x =>
    rw [List.cons_append, List.cons_append] at e
    injection e with _ e
    exact ht (by rw [← e]; simp)

/-! ### Proofs: the document -/

/-- The sensors of a block's inner text, followed by the end of the block. -/
theorem sensors_read (link : Text) (lead : Text) (ss : List SensorSrc) (hs : ∀ s ∈ ss, s.WF) (hl : ¬ openSensor <:+: lead) (fuel : Nat) (hf : ss.length < fuel) :
    sensorsIn link fuel (lead ++ (ss.flatMap SensorSrc.text ++ closeGazebo)) = ss.map fun s => ⟨s.name, s.type, link⟩ := by
  have ho : openSensor = '<' :: "sensor".toList := rfl
  induction ss generalizing lead fuel with
  | nil =>
    obtain ⟨k, rfl⟩ : ∃ k, fuel = k + 1 := ⟨fuel - 1, by simp at hf; omega⟩
    rw [sensorsIn, List.flatMap_nil, List.nil_append, ho, find_skip "sensor".toList lead closeGazebo (by decide) (ho ▸ hl) (by intro c hc; cases hc; rfl)]
    have : find ('<' :: "sensor".toList) closeGazebo = none := by decide
    rw [this]
    rfl
  | cons s t ih =>
    obtain ⟨k, rfl⟩ : ∃ k, fuel = k + 1 := ⟨fuel - 1, by simp at hf; omega⟩
    have hw := hs s (by simp)
    obtain ⟨r, hr⟩ := tag_opens s
    have e1 : (s :: t).flatMap SensorSrc.text ++ closeGazebo = s.tag ++ '>' :: (s.body ++ (t.flatMap SensorSrc.text ++ closeGazebo)) := by
      rw [List.flatMap_cons]; unfold SensorSrc.text; simp
    have hh : ∀ z, ∀ c, (s.tag ++ z : Text).head? = some c → c = '<' := by
      intro z c hc; rw [hr] at hc; cases hc; rfl
    have hfind : find openSensor (s.tag ++ '>' :: (s.body ++ (t.flatMap SensorSrc.text ++ closeGazebo))) = some ([], s.tag ++ '>' :: (s.body ++ (t.flatMap SensorSrc.text ++ closeGazebo))) :=
      find_here openSensor _ '<' "sensor".toList rfl ⟨r ++ '>' :: (s.body ++ (t.flatMap SensorSrc.text ++ closeGazebo)), by rw [hr]; simp⟩
    rw [sensorsIn, e1, ho, find_skip "sensor".toList lead _ (by decide) (ho ▸ hl) (hh _), ← ho, hfind, Option.map_some]
    dsimp only
    rw [find_char '>' s.tag _ (tag_chars s hw)]
    dsimp only
    rw [sensorOf_tag link s hw, List.drop_one, List.tail_cons, ih s.body (fun x hx => hs x (by simp [hx])) hw.body.sensor k (by simp at hf; omega)]
    rfl

theorem free_head (l : Text) (h : Value l) (p' : Text) (hp : ¬ p' <+: ("gazebo reference=\"".toList ++ (l ++ "\"".toList))) :
    ¬ ('<' :: p') <:+: ("<gazebo reference=\"".toList ++ (l ++ "\"".toList)) := by
  have := tag_free p' ("gazebo reference=\"".toList ++ (l ++ "\"".toList)) (by simp [h.2.2.1]) hp
  exact this

/-- The end of the block is the first one after its beginning. -/
theorem close_found (lead : Text) (ss : List SensorSrc) (hs : ∀ s ∈ ss, s.WF) (hl : ¬ closeGazebo <:+: lead) (z : Text) :
    find closeGazebo (lead ++ (ss.flatMap SensorSrc.text ++ (closeGazebo ++ z))) = some (lead ++ ss.flatMap SensorSrc.text, closeGazebo ++ z) := by
  have ho : closeGazebo = '<' :: "/gazebo>".toList := rfl
  induction ss generalizing lead with
  | nil =>
    rw [List.flatMap_nil, List.nil_append, ho, find_skip "/gazebo>".toList lead _ (by decide) (ho ▸ hl) (by intro c hc; cases hc; rfl), ← ho,
      find_here closeGazebo (closeGazebo ++ z) '<' "/gazebo>".toList rfl (List.prefix_append _ _), Option.map_some]
  | cons s t ih =>
    have hw := hs s (by simp)
    obtain ⟨r, hr⟩ := tag_opens s
    have e1 : (s :: t).flatMap SensorSrc.text ++ (closeGazebo ++ z) = s.tag ++ ('>' :: s.body ++ (t.flatMap SensorSrc.text ++ (closeGazebo ++ z))) := by
      rw [List.flatMap_cons]; unfold SensorSrc.text; simp
    have hh : ∀ w, ∀ c, (s.tag ++ w : Text).head? = some c → c = '<' := by
      intro w c hc; rw [hr] at hc; cases hc; rfl
    -- lead, then the tag with its body as the next lead
    have hfree : ¬ closeGazebo <:+: (s.tag ++ '>' :: s.body) := by
      intro hin
      have h2 : find closeGazebo (s.tag ++ '>' :: s.body) = none := by
        have htag : ∃ q, s.tag ++ '>' :: s.body = ['<'] ++ (q ++ s.body) ∧ '<' ∉ q ∧ ∃ q', q = 's' :: q' := by
          have hn := hw.name.2.2.1
          have ht := hw.type.2.2.1
          unfold SensorSrc.tag
          split
          · exact ⟨"sensor type=\"".toList ++ (s.type ++ ("\" name=\"".toList ++ (s.name ++ ("\"".toList ++ ['>'])))), by simp, by simp [hn, ht], _, rfl⟩
          · exact ⟨"sensor name=\"".toList ++ (s.name ++ ("\" type=\"".toList ++ (s.type ++ ("\"".toList ++ ['>'])))), by simp, by simp [hn, ht], _, rfl⟩
        obtain ⟨q, hq, hq1, q', hq2⟩ := htag
        rw [hq]
        have hstep : find closeGazebo (['<'] ++ (q ++ s.body)) = (find closeGazebo (q ++ s.body)).map fun p => ('<' :: p.1, p.2) := by
          rw [hq2]
          rfl
        rw [hstep]
        have hq3 : ∀ (q : Text), '<' ∉ q → find closeGazebo (q ++ s.body) = (find closeGazebo s.body).map fun p => (q ++ p.1, p.2) := by
          intro q hq
          induction q with
          | nil => rw [List.nil_append]; cases find closeGazebo s.body <;> rfl
          | cons c q ih =>
            have hc : ¬ '<' = c := fun e => hq (by rw [e]; exact List.mem_cons_self)
            have hno : closeGazebo.isPrefixOf (c :: (q ++ s.body)) = false := by
              rw [ho, List.isPrefixOf]; simp [hc]
            rw [List.cons_append, find, hno, if_neg (by decide), ih fun h => hq (List.mem_cons_of_mem _ h)]
            cases find closeGazebo s.body <;> rfl
        rw [hq3 q hq1, find_no closeGazebo s.body hw.body.close]
        rfl
      exact find_none closeGazebo _ (by decide) h2 hin
    rw [e1]
    have e2 : s.tag ++ ('>' :: s.body ++ (t.flatMap SensorSrc.text ++ (closeGazebo ++ z))) = (s.tag ++ '>' :: s.body) ++ (t.flatMap SensorSrc.text ++ (closeGazebo ++ z)) := by simp
    have := find_skip "/gazebo>".toList lead (s.tag ++ ('>' :: s.body ++ (t.flatMap SensorSrc.text ++ (closeGazebo ++ z)))) (by decide) (ho ▸ hl) (hh _)
    rw [← ho] at this
    rw [this, e2, ih (s.tag ++ '>' :: s.body) (fun x hx => hs x (by simp [hx])) hfree, Option.map_some, List.flatMap_cons]
    unfold SensorSrc.text
    simp

theorem blocks_read (pre : Text) (bs : List BlockSrc) (hb : ∀ b ∈ bs, b.WF) (hp : ¬ openGazebo <:+: pre) (fuel : Nat) (hf : bs.length < fuel) :
    blocks fuel (doc pre bs) = said bs := by
  have ho : openGazebo = '<' :: "gazebo".toList := rfl
  induction bs generalizing pre fuel with
  | nil =>
    obtain ⟨k, rfl⟩ : ∃ k, fuel = k + 1 := ⟨fuel - 1, by simp at hf; omega⟩
    rw [blocks]
    unfold doc
    rw [List.flatMap_nil, List.append_nil, find_no openGazebo pre hp]
    rfl
  | cons b t ih =>
    obtain ⟨k, rfl⟩ : ∃ k, fuel = k + 1 := ⟨fuel - 1, by simp at hf; omega⟩
    have hw := hb b (by simp)
    have e1 : doc pre (b :: t) = pre ++ (b.head ++ '>' :: (b.lead ++ (b.sensors.flatMap SensorSrc.text ++ (closeGazebo ++ doc b.after t)))) := by
      unfold doc
      rw [List.flatMap_cons]
      unfold BlockSrc.text BlockSrc.inner
      simp
    have hhead : ∃ r, b.head = openGazebo ++ r := ⟨" reference=\"".toList ++ (b.link ++ "\"".toList), rfl⟩
    obtain ⟨r, hr⟩ := hhead
    have hgt : '>' ∉ b.head := by unfold BlockSrc.head; simp [hw.link.2.2.2]
    have hskip := find_skip "gazebo".toList pre (b.head ++ '>' :: (b.lead ++ (b.sensors.flatMap SensorSrc.text ++ (closeGazebo ++ doc b.after t)))) (by decide) (ho ▸ hp)
      (by intro c hc; rw [hr] at hc; cases hc; rfl)
    rw [← ho] at hskip
    have hhere := find_here openGazebo (b.head ++ '>' :: (b.lead ++ (b.sensors.flatMap SensorSrc.text ++ (closeGazebo ++ doc b.after t)))) '<' "gazebo".toList rfl
      ⟨r ++ '>' :: (b.lead ++ (b.sensors.flatMap SensorSrc.text ++ (closeGazebo ++ doc b.after t))), by rw [hr]; simp⟩
    rw [blocks, e1, hskip, hhere, Option.map_some]
    dsimp only
    rw [find_char '>' b.head _ hgt]
    dsimp only
    have hclose := close_found ('>' :: b.lead) b.sensors hw.sensors (by
      intro hin
      rcases List.infix_cons_iff.1 hin with h | h
      · rw [show closeGazebo = '<' :: "/gazebo>".toList from rfl, List.cons_prefix_cons] at h
        exact absurd h.1 (by decide)
      · exact hw.lead.close h) (doc b.after t)
    rw [List.cons_append] at hclose
    rw [hclose]
    dsimp only
    have hlink : attr (b.head ++ ['>']) "reference".toList = some b.link := tag_link b.link hw.link
    have hdrop : (closeGazebo ++ doc b.after t).drop 9 = doc b.after t := List.drop_left' (by decide)
    rw [hlink, Option.getD_some, hdrop, ih b.after (fun x hx => hb x (by simp [hx])) hw.after.gazebo k (by simp at hf; omega)]
    have e2 : b.head ++ ('>' :: b.lead ++ b.sensors.flatMap SensorSrc.text) ++ closeGazebo = (b.head ++ '>' :: b.lead) ++ (b.sensors.flatMap SensorSrc.text ++ closeGazebo) := by simp
    have hlen : b.sensors.length < ((b.head ++ '>' :: b.lead) ++ (b.sensors.flatMap SensorSrc.text ++ closeGazebo)).length := by
      have : ∀ l : List SensorSrc, l.length ≤ (l.flatMap SensorSrc.text).length := by
        intro l
        induction l with
        | nil => simp
        | cons x l ih => have : x.text.length = x.tag.length + (x.body.length + 1) := by unfold SensorSrc.text; rw [List.length_append, List.length_cons]
                         rw [List.flatMap_cons, List.length_append, List.length_cons]; omega
      have := this b.sensors
      simp only [List.length_append, List.length_cons]
      have : closeGazebo.length = 9 := rfl
      omega
    have hfree : ¬ openSensor <:+: (b.head ++ '>' :: b.lead) := by
      have ho2 : openSensor = '<' :: "sensor".toList := rfl
      rintro ⟨x, y, e⟩
      -- split at the end of the head
      have hnolt : '<' ∉ ("gazebo reference=\"".toList ++ (b.link ++ "\">".toList)) := by simp [hw.link.2.2.1]
      have e3 : b.head ++ '>' :: b.lead = '<' :: (("gazebo reference=\"".toList ++ (b.link ++ "\">".toList)) ++ b.lead) := by unfold BlockSrc.head; simp
      rw [e3] at e
      cases x with
      | nil =>
        rw [ho2, List.nil_append, List.cons_append] at e
        injection e with _ e
        have := congrArg List.head? e
        cases this
      | cons c x =>
        rw [List.cons_append, List.cons_append] at e
        injection e with _ e
        have h1 : openSensor <:+: (("gazebo reference=\"".toList ++ (b.link ++ "\">".toList)) ++ b.lead) := ⟨x, y, e⟩
        have h2 : ∀ q : Text, '<' ∉ q → openSensor <:+: q ++ b.lead → openSensor <:+: b.lead := by
          intro q hq
          induction q with
          | nil => exact fun h => h
          | cons d q ih2 =>
            intro h
            rw [List.cons_append] at h
            rcases List.infix_cons_iff.1 h with h | h
            · rw [ho2, List.cons_prefix_cons] at h
              exact absurd (h.1 ▸ List.mem_cons_self) hq
            · exact ih2 (fun h => hq (List.mem_cons_of_mem _ h)) h
        exact hw.lead.sensor (h2 _ hnolt h1)
    rw [e2, sensors_read b.link (b.head ++ '>' :: b.lead) b.sensors hw.sensors hfree _ hlen]
    unfold said
    rw [List.flatMap_cons]

/-- **The sensors found in a robot description are the ones its blocks hold, each with its name, type
and link, in order** — for descriptions of any number of blocks and sensors, with any text between
them that does not itself look like a block or sensor tag. -/
theorem sensors_exact (pre : Text) (bs : List BlockSrc) (hb : ∀ b ∈ bs, b.WF) (hp : Filler pre) : sensors (doc pre bs) = said bs := by
  refine blocks_read pre bs hb hp.gazebo _ ?_
  have : ∀ l : List BlockSrc, l.length ≤ (l.flatMap BlockSrc.text).length := by
    intro l
    induction l with
    | nil => simp
    | cons x l ih => have : x.text.length = x.head.length + ((x.inner ++ (closeGazebo ++ x.after)).length + 1) := by unfold BlockSrc.text; rw [List.length_append, List.length_cons]
                     rw [List.flatMap_cons, List.length_append, List.length_cons]; omega
  have := this bs
  unfold doc
  rw [List.length_append]
  omega

/-- **A key is warned about exactly if no sensor has its name** — unless no sensor was found at all. -/
theorem warned_iff (keys : List Text) (ss : List Sensor) (k : Text) : k ∈ unknownKeys keys ss ↔ k ∈ keys ∧ ss ≠ [] ∧ ∀ s ∈ ss, s.name ≠ k := by
  unfold unknownKeys
  by_cases h : ss = []
  · rw [if_pos h]; simp [h]
  · rw [if_neg h, List.mem_filter]
    simp [h]

/-- **Disagreement: a block closed in itself takes the sensors of the next one**, which are reported on
the wrong link. -/
theorem self_closing_swallows : sensors "<gazebo reference=\"arm\"/><gazebo reference=\"base\"><sensor name=\"imu\" type=\"imu\"/></gazebo>".toList = [⟨"imu".toList, "imu".toList, "arm".toList⟩] := by decide +kernel

/-- **Disagreement: sensors in comments count.** -/
theorem comment_counts : sensors "<!-- <gazebo reference=\"arm\"><sensor name=\"old\" type=\"ray\"/></gazebo> -->".toList = [⟨"old".toList, "ray".toList, "arm".toList⟩] := by decide +kernel

/-- **Disagreement: another attribute ending in the same letters is taken for the name.** -/
theorem other_attribute : sensors "<gazebo reference=\"arm\"><sensor filename=\"a.sdf\" name=\"imu\" type=\"imu\"/></gazebo>".toList = [⟨"a.sdf".toList, "imu".toList, "arm".toList⟩] := by decide +kernel

/-- **Disagreement: single quotes and spaces around `=` are not understood**: the sensor is missed, and
if it is the only one no key is checked. -/
theorem single_quotes_missed : sensors "<gazebo reference='arm'><sensor name='imu' type='imu'/></gazebo>".toList = [] ∧ ∀ keys, unknownKeys keys [] = [] := by
  exact ⟨by decide +kernel, fun _ => rfl⟩

/-! ### The hypotheses are met -/

/-- A sensor with nested elements after its tag. -/
def lidar : SensorSrc := ⟨"lidar".toList, "ray".toList, true, "<update_rate>10</update_rate></sensor>".toList⟩

example : lidar.WF := by
  refine ⟨by unfold Value; decide, by decide, by unfold Value; decide, ?_⟩
  refine ⟨find_none _ _ (by decide) (by decide +kernel), find_none _ _ (by decide) (by decide +kernel), find_none _ _ (by decide) (by decide +kernel)⟩

example : sensors (doc "<robot>".toList [⟨"base".toList, [], [lidar], "</robot>".toList⟩]) = [⟨"lidar".toList, "ray".toList, "base".toList⟩] := by decide +kernel
example : unknownKeys ["lidar".toList, "lidra".toList] [⟨"lidar".toList, "ray".toList, "base".toList⟩] = ["lidra".toList] := by decide

end Horus.Urdf
