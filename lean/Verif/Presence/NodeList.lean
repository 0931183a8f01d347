import Verif.Presence.Model
/-!
# What `horus node list` shows

`horus_manager/src/discovery/nodes.rs:112-138` (live data from scheduler registries), `:152-265` (remote
nodes, read by text search from the files of other hosts), `:267-279` (launch sessions), `:286-314` (text
search for JSON fields).  The files are written by `horus_net/src/presence.rs:168-195`, modelled by
`Horus.Presence.render`.

Text is a list of characters; `ws` is Unicode white space (`trim_start`), of which only that quotes,
colons and brackets are not in it is used.  Times are nanoseconds.
-/

namespace Horus.NodeList

abbrev Text := List Char

/-- `s.find(p)`: the rest of `s` from the first place where `p` stands. -/
def findFrom (p : Text) : Text → Option Text
  | [] => if p = [] then some [] else none
  | c :: s => if p.isPrefixOf (c :: s) then some (c :: s) else findFrom p s

/-- `format!("\"{}\":\"", key)` and `format!("\"{}\":", key)`. -/
def strKey (k : Text) : Text := '"' :: k ++ ['"', ':', '"']
def key (k : Text) : Text := '"' :: k ++ ['"', ':']

/-- `extract_json_string` (nodes.rs:286-291). -/
def getString (json k : Text) : Option Text :=
  (findFrom (strKey k) json).bind fun s =>
    let r := s.drop (strKey k).length
    if '"' ∈ r then some (r.takeWhile (· ≠ '"')) else none

/-- `extract_json_bool` (nodes.rs:293-304). -/
def getBool (ws : Char → Bool) (json k : Text) : Option Bool :=
  (findFrom (key k) json).bind fun s =>
    let r := (s.drop (key k).length).dropWhile ws
    if ['t', 'r', 'u', 'e'].isPrefixOf r then some true else if ['f', 'a', 'l', 's', 'e'].isPrefixOf r then some false else none

/-- `extract_json_u64` (nodes.rs:306-314); `parseNat` is `str::parse::<u64>`. -/
def getNat (ws : Char → Bool) (parseNat : Text → Option Nat) (json k : Text) : Option Nat :=
  (findFrom (key k) json).bind fun s => parseNat (((s.drop (key k).length).dropWhile ws).takeWhile Char.isDigit)

def nameTok : Text := ['"', 'n', 'a', 'm', 'e', '"']
def nodesTok : Text := ['"', 'n', 'o', 'd', 'e', 's', '"']

/-- The loop of nodes.rs:199-262; `fuel` bounds the number of turns, each consumes at least six characters. -/
def names (ws : Char → Bool) : Nat → Text → List Text
  | 0, _ => []
  | f + 1, s =>
    match findFrom nameTok s with
    | none => []
    | some m =>
      let after := m.drop 6
      match after.dropWhile ws with
      | ':' :: r =>
        match r.dropWhile ws with
        | '"' :: v => if '"' ∈ v then v.takeWhile (· ≠ '"') :: names ws f ((v.dropWhile (· ≠ '"')).drop 1) else []
        | _ => names ws f after
      | _ => names ws f after

inductive Status
  | running
  | unreachable
  deriving DecidableEq, Repr

/-- nodes.rs:180-193; `none` is not listed. -/
def status (now seen : Nat) : Option Status :=
  let age := (now - seen) / 1000000000
  if age > 30 then none else if age > 3 then some .unreachable else some .running

structure Remote where
  name : Text
  status : Status
  host : Text
  bridged : Bool
  deriving DecidableEq, Repr

/-- One presence file of another host (nodes.rs:168-264). -/
def remotes (ws : Char → Bool) (parseNat : Text → Option Nat) (now : Nat) (content : Text) : List Remote :=
  match status now ((getNat ws parseNat content ['l','a','s','t','_','s','e','e','n','_','n','s']).getD 0) with
  | none => []
  | some st =>
    match findFrom nodesTok content with
    | none => []
    | some sec => (names ws sec.length sec).map fun n =>
      ⟨n, st, (getString content ['h','o','s','t','_','i','d']).getD [], (getBool ws content ['i','s','_','b','r','i','d','g','e','d']).getD false⟩

/-! ## Text search -/

theorem find_step (p a t : Text) (ha : '"' ∉ a) : findFrom ('"' :: p) (a ++ '"' :: t) = if p.isPrefixOf t then some ('"' :: t) else findFrom ('"' :: p) t := by
  induction a with
  | nil => simp [findFrom, List.isPrefixOf]
  | cons c a ih =>
    have hc : ('"' == c) = false := by simp only [List.mem_cons, not_or] at ha; simpa using ha.1
    simp only [List.cons_append, findFrom, List.isPrefixOf, hc, Bool.false_and]
    exact ih (fun h => ha (by simp [h]))

theorem find_end (p a : Text) (ha : '"' ∉ a) : findFrom ('"' :: p) a = none := by
  induction a with
  | nil => simp [findFrom]
  | cons c a ih =>
    have hc : ('"' == c) = false := by simp only [List.mem_cons, not_or] at ha; simpa using ha.1
    simp only [findFrom, List.isPrefixOf, hc, Bool.false_and]
    exact ih (fun h => ha (by simp [h]))

/-- Whether a quoted word stands at the start of a quoted word. -/
theorem tok_prefix (k x h u : Text) (hk : '"' ∉ k) (hh : '"' ∉ h) : (k ++ '"' :: x).isPrefixOf (h ++ '"' :: u) = (decide (h = k) && x.isPrefixOf u) := by
  induction k generalizing h with
  | nil =>
    cases h with
    | nil => simp [List.isPrefixOf]
    | cons c h =>
      have hc : ('"' == c) = false := by simp only [List.mem_cons, not_or] at hh; simpa using hh.1
      simp [List.isPrefixOf, hc]
  | cons d k ih =>
    have hd : (d == '"') = false := by simp only [List.mem_cons, not_or] at hk; simpa using fun e => hk.1 e.symm
    cases h with
    | nil => simp [List.isPrefixOf, hd]
    | cons c h =>
      simp only [List.cons_append, List.isPrefixOf]
      rw [ih h (fun e => hk (by simp [e])) (fun e => hh (by simp [e]))]
      by_cases hcd : d = c
      · subst hcd; simp
      · have : (d == c) = false := by simpa using hcd
        simp only [this, Bool.false_and, Bool.false_eq, Bool.and_eq_false_imp, decide_eq_true_eq, List.cons.injEq]
        exact fun e => absurd e.1.symm hcd

/-- Writing without quotes. -/
def Plain (s : Text) : Prop := '"' ∉ s

/-- The separators that are not white space. -/
structure Marks (ws : Char → Bool) : Prop where
  colon : ws ':' = false
  quote : ws '"' = false
  digit : ∀ c, c.isDigit = true → ws c = false

/-- `u64` in decimal: written with digits, read back by `parse`. -/
structure Decimal (showNat : Nat → Text) (parseNat : Text → Option Nat) : Prop where
  digits : ∀ n, showNat n ≠ [] ∧ ∀ c ∈ showNat n, c.isDigit = true
  back : ∀ n, n < 2 ^ 64 → parseNat (showNat n) = some n

theorem names_value (ws : Char → Bool) (hw : Marks ws) (f : Nat) (a v t : Text) (ha : Plain a) (hv : Plain v) :
    names ws (f + 1) (a ++ '"' :: ['n', 'a', 'm', 'e'] ++ '"' :: ':' :: '"' :: v ++ '"' :: t) = v :: names ws f t := by
  have h1 : findFrom nameTok (a ++ '"' :: ['n', 'a', 'm', 'e'] ++ '"' :: ':' :: '"' :: v ++ '"' :: t) = some ('"' :: 'n' :: 'a' :: 'm' :: 'e' :: '"' :: ':' :: '"' :: (v ++ '"' :: t)) := by
    have := find_step ['n', 'a', 'm', 'e', '"'] a ('n' :: 'a' :: 'm' :: 'e' :: '"' :: ':' :: '"' :: (v ++ '"' :: t)) ha
    simp only [List.isPrefixOf, beq_self_eq_true, Bool.true_and, if_true] at this
    simpa [nameTok] using this
  have h3 : (v ++ '"' :: t).takeWhile (· ≠ '"') = v := by
    rw [List.takeWhile_append_of_pos (by intro c hc; simp only [decide_eq_true_eq, ne_eq]; exact fun e => hv (e ▸ hc))]; simp
  have h4 : (v ++ '"' :: t).dropWhile (· ≠ '"') = '"' :: t := by
    rw [List.dropWhile_append_of_pos (by intro c hc; simp only [decide_eq_true_eq, ne_eq]; exact fun e => hv (e ▸ hc))]; simp
  rw [names, h1]
  simp only [List.drop_succ_cons, List.drop_zero, List.dropWhile_cons, hw.colon, hw.quote, Bool.false_eq_true, if_false]
  rw [if_pos (by simp), h3, h4]
  simp

theorem names_skip (ws : Char → Bool) (f : Nat) (a t : Text) (ha : Plain a) (ht : ['n', 'a', 'm', 'e', '"'].isPrefixOf t = false) : names ws (f + 1) (a ++ '"' :: t) = names ws (f + 1) t := by
  have h1 : findFrom nameTok (a ++ '"' :: t) = findFrom nameTok t := by
    have := find_step ['n', 'a', 'm', 'e', '"'] a t ha
    rw [ht] at this; simpa [nameTok] using this
  rw [names, names, h1]

theorem names_end (ws : Char → Bool) (f : Nat) (a : Text) (ha : Plain a) : names ws f a = [] := by
  cases f with
  | zero => rfl
  | succ f => rw [names, show findFrom nameTok a = none from find_end _ a ha]

/-! ## Remote nodes -/

/-- One node record as the writer puts it, in pieces. -/
def node (fmt : Nat → Text) (x : Text × Nat) : Text :=
  '{' :: '"' :: 'n' :: 'a' :: 'm' :: 'e' :: '"' :: ':' :: '"' :: x.1 ++ '"' :: ',' :: '"' :: 'r' :: 'a' :: 't' :: 'e' :: '_' :: 'h' :: 'z' :: '"' :: ':' :: fmt x.2 ++ ['}']

theorem nodeJson_eq (fmt : Nat → Text) (x : Text × Nat) : Presence.nodeJson fmt x = node fmt x := by
  simp [Presence.nodeJson, node, Presence.lit]

/-- The records of all nodes are read back, whatever plain text stands before and after them. -/
theorem names_nodes (ws : Char → Bool) (hw : Marks ws) (fmt : Nat → Text) (hf : ∀ n, Plain (fmt n)) (l : List (Text × Nat)) : ∀ (a z : Text) (f : Nat), (∀ x ∈ l, Plain x.1) → Plain a → Plain z → l.length < f →
    names ws f (a ++ Presence.commaJoin (l.map (Presence.nodeJson fmt)) ++ z) = l.map (·.1) := by
  induction l with
  | nil =>
    intro a z f _ ha hz _
    simp only [List.map_nil, Presence.commaJoin, List.append_nil]
    exact names_end ws f _ (by simp only [Plain, List.mem_append, not_or]; exact ⟨ha, hz⟩)
  | cons x l ih =>
    intro a z f hx ha hz hlt
    obtain ⟨f, rfl⟩ := Nat.exists_eq_add_of_lt (show 0 < f by simp at hlt; omega)
    simp only [List.length_cons] at hlt
    have hrest : ∃ a' : Text, Plain a' ∧ Presence.commaJoin ((x :: l).map (Presence.nodeJson fmt)) ++ z = node fmt x ++ (a' ++ Presence.commaJoin (l.map (Presence.nodeJson fmt)) ++ z) := by
      cases l with
      | nil => exact ⟨[], by simp [Plain], by simp [Presence.commaJoin, nodeJson_eq]⟩
      | cons y l => exact ⟨[','], by simp [Plain], by simp [Presence.commaJoin, nodeJson_eq]⟩
    obtain ⟨a', ha', hr⟩ := hrest
    rw [List.append_assoc, hr]
    have e1 : a ++ (node fmt x ++ (a' ++ Presence.commaJoin (l.map (Presence.nodeJson fmt)) ++ z)) =
        (a ++ ['{']) ++ '"' :: ['n', 'a', 'm', 'e'] ++ '"' :: ':' :: '"' :: x.1 ++ '"' :: (',' :: '"' :: 'r' :: 'a' :: 't' :: 'e' :: '_' :: 'h' :: 'z' :: '"' :: ':' :: fmt x.2 ++ ['}'] ++ (a' ++ Presence.commaJoin (l.map (Presence.nodeJson fmt)) ++ z)) := by
      simp [node]
    rw [e1, show 0 + f + 1 = f + 1 by omega, names_value ws hw f _ _ _ (by simp only [Plain, List.mem_append, not_or]; exact ⟨ha, by simp⟩) (hx x (by simp))]
    rw [List.map_cons]
    congr 1
    obtain ⟨f, rfl⟩ := Nat.exists_eq_add_of_lt (show 0 < f by omega)
    rw [show 0 + f + 1 = f + 1 by omega] at hlt ⊢
    have e2 : (',' :: '"' :: 'r' :: 'a' :: 't' :: 'e' :: '_' :: 'h' :: 'z' :: '"' :: ':' :: fmt x.2 ++ ['}'] ++ (a' ++ Presence.commaJoin (l.map (Presence.nodeJson fmt)) ++ z)) =
        [','] ++ '"' :: (['r', 'a', 't', 'e', '_', 'h', 'z'] ++ '"' :: ((':' :: fmt x.2 ++ ['}'] ++ a') ++ Presence.commaJoin (l.map (Presence.nodeJson fmt)) ++ z)) := by simp
    rw [e2, names_skip ws f _ _ (by simp [Plain]) (by simp [List.isPrefixOf]), names_skip ws f _ _ (by simp [Plain]) (by simp [List.isPrefixOf])]
    exact ih _ z (f + 1) (fun y hy => hx y (by simp [hy])) (by simp only [Plain, List.mem_append, List.mem_cons, not_or]; exact ⟨⟨⟨by decide, hf _⟩, by simp⟩, ha'⟩) hz (by omega)

/-- The file of another host in pieces between quotes. -/
def file (fmt showNat : Nat → Text) (r : Presence.Record) : Text :=
  ['{'] ++ '"' :: (['h','o','s','t','_','i','d'] ++ '"' :: ([':'] ++ '"' :: (r.host ++ '"' :: ([','] ++ '"' :: (['i','s','_','r','e','m','o','t','e'] ++ '"' :: ([':','t','r','u','e',','] ++
    '"' :: (['l','a','s','t','_','s','e','e','n','_','n','s'] ++ '"' :: ((':' :: showNat r.stamp ++ [',']) ++ '"' :: (['n','a','m','e','s','p','a','c','e'] ++ '"' :: ([':'] ++ '"' :: (r.ns ++ '"' :: ([','] ++
      '"' :: (['n','o','d','e','s'] ++ '"' :: (([':','['] ++ Presence.commaJoin (r.nodes.map (Presence.nodeJson fmt))) ++ [']','}']))))))))))))))

theorem render_file (fmt showNat : Nat → Text) (r : Presence.Record) : Presence.render fmt showNat r = file fmt showNat r := by
  simp [Presence.render, file, Presence.lit]

theorem find_tok (k x a h u : Text) (hk : Plain k) (ha : Plain a) (hh : Plain h) :
    findFrom ('"' :: (k ++ '"' :: x)) (a ++ '"' :: (h ++ '"' :: u)) = if h = k ∧ x.isPrefixOf u = true then some ('"' :: (h ++ '"' :: u)) else findFrom ('"' :: (k ++ '"' :: x)) (h ++ '"' :: u) := by
  rw [find_step _ a _ ha, tok_prefix k x h u hk hh]
  by_cases h1 : h = k <;> simp [h1]

/-- What the writer puts between quotes has none itself. -/
structure Tidy (fmt : Nat → Text) (r : Presence.Record) : Prop where
  host : Plain r.host
  ns : Plain r.ns
  names : ∀ x ∈ r.nodes, Plain x.1
  rates : ∀ n, Plain (fmt n)

theorem show_plain {showNat : Nat → Text} {parseNat : Text → Option Nat} (hd : Decimal showNat parseNat) (n : Nat) : Plain (':' :: showNat n ++ [',']) := by
  intro h
  simp only [List.cons_append, List.mem_cons, List.mem_append, List.not_mem_nil, or_false] at h
  rcases h with h | h | h
  · cases h
  · have := (hd.digits n).2 _ h; revert this; decide
  · cases h

theorem seen_read {ws : Char → Bool} {fmt showNat : Nat → Text} {parseNat : Text → Option Nat} (hw : Marks ws) (hd : Decimal showNat parseNat) (r : Presence.Record) (ht : Tidy fmt r) (hs : r.stamp < 2 ^ 64) :
    getNat ws parseNat (file fmt showNat r) ['l','a','s','t','_','s','e','e','n','_','n','s'] = some r.stamp := by
  have hsp := show_plain hd r.stamp
  unfold getNat
  rw [show key ['l','a','s','t','_','s','e','e','n','_','n','s'] = '"' :: (['l','a','s','t','_','s','e','e','n','_','n','s'] ++ '"' :: [':']) from rfl, file,
    find_tok _ _ _ _ _ (by simp [Plain]) (by simp [Plain]) (by simp [Plain]), if_neg (by simp),
    find_tok _ _ _ _ _ (by simp [Plain]) (by simp [Plain]) (by simp [Plain]), if_neg (by simp),
    find_tok _ _ _ _ _ (by simp [Plain]) (by simp [Plain]) ht.host, if_neg (by simp [List.isPrefixOf]),
    find_tok _ _ _ _ _ (by simp [Plain]) ht.host (by simp [Plain]), if_neg (by simp),
    find_tok _ _ _ _ _ (by simp [Plain]) (by simp [Plain]) (by simp [Plain]), if_neg (by simp),
    find_tok _ _ _ _ _ (by simp [Plain]) (by simp [Plain]) (by simp [Plain]), if_neg (by simp),
    find_tok _ _ _ _ _ (by simp [Plain]) (by simp [Plain]) (by simp [Plain]), if_pos (by simp [List.isPrefixOf])]
  simp only [Option.bind_some, List.cons_append, List.nil_append, List.length_cons, List.length_nil, List.drop_succ_cons, List.drop_zero, List.append_assoc]
  obtain ⟨hne, hdig⟩ := hd.digits r.stamp
  have h1 : ∀ t : Text, (showNat r.stamp ++ t).dropWhile ws = showNat r.stamp ++ t := by
    intro t
    obtain ⟨c, l, e⟩ := List.exists_cons_of_ne_nil hne
    rw [e, List.cons_append, List.dropWhile_cons, if_neg (by simp [hw.digit c (hdig c (by simp [e]))])]
  rw [h1, List.takeWhile_append_of_pos hdig, List.takeWhile_cons, if_neg (by decide), List.append_nil]
  exact hd.back _ hs

theorem host_read {fmt showNat : Nat → Text} (r : Presence.Record) (hh : Plain r.host) : getString (file fmt showNat r) ['h','o','s','t','_','i','d'] = some r.host := by
  unfold getString
  rw [show strKey ['h','o','s','t','_','i','d'] = '"' :: (['h','o','s','t','_','i','d'] ++ '"' :: [':', '"']) from rfl, file,
    find_tok _ _ _ _ _ (by simp [Plain]) (by simp [Plain]) (by simp [Plain]), if_pos (by simp [List.isPrefixOf])]
  simp only [Option.bind_some, List.cons_append, List.nil_append, List.length_cons, List.length_nil, List.drop_succ_cons, List.drop_zero]
  rw [if_pos (by simp), List.takeWhile_append_of_pos (by intro c hc; simp only [decide_eq_true_eq, ne_eq]; exact fun e => hh (e ▸ hc))]
  simp

/-- The section of the nodes begins at the word `nodes`, or earlier at a namespace or host of that name;
the names found are the same. -/
theorem names_file {ws : Char → Bool} (hw : Marks ws) {fmt showNat : Nat → Text} {parseNat : Text → Option Nat} (hd : Decimal showNat parseNat) (r : Presence.Record) (ht : Tidy fmt r) :
    ∃ sec, findFrom nodesTok (file fmt showNat r) = some sec ∧ names ws sec.length sec = r.nodes.map (·.1) := by
  have hsp := show_plain hd r.stamp
  have hlen : ∀ l : List (Text × Nat), l.length ≤ (Presence.commaJoin (l.map (Presence.nodeJson fmt))).length := by
    intro l
    induction l with
    | nil => simp
    | cons x l ih =>
      cases l with
      | nil => simp [Presence.commaJoin, nodeJson_eq, node]
      | cons y l => simp only [List.map_cons, Presence.commaJoin, List.length_append, List.length_cons] at ih ⊢; simp only [nodeJson_eq, node, List.cons_append, List.length_cons] at ih ⊢; omega
  have tail : ∀ f, r.nodes.length < f → names ws f (([':','['] ++ Presence.commaJoin (r.nodes.map (Presence.nodeJson fmt))) ++ [']','}']) = r.nodes.map (·.1) :=
    fun f h => names_nodes ws hw fmt ht.rates r.nodes _ _ f ht.names (by simp [Plain]) (by simp [Plain]) h
  have at_nodes : ∀ (a : Text) (f : Nat), Plain a → r.nodes.length < f → names ws f (a ++ '"' :: (['n','o','d','e','s'] ++ '"' :: (([':','['] ++ Presence.commaJoin (r.nodes.map (Presence.nodeJson fmt))) ++ [']','}']))) = r.nodes.map (·.1) := by
    intro a f ha hf
    obtain ⟨f, rfl⟩ := Nat.exists_eq_add_of_lt (show 0 < f by omega)
    rw [show 0 + f + 1 = f + 1 by omega] at hf ⊢
    rw [names_skip ws f _ _ ha (by simp [List.isPrefixOf]), names_skip ws f _ _ (by simp [Plain]) (by simp [List.isPrefixOf])]
    exact tail _ hf
  -- from the value of the namespace on
  have at_ns : ∀ (a : Text) (f : Nat), Plain a → r.nodes.length + 1 < f → names ws f (a ++ '"' :: (r.ns ++ '"' :: ([','] ++ '"' :: (['n','o','d','e','s'] ++ '"' :: (([':','['] ++ Presence.commaJoin (r.nodes.map (Presence.nodeJson fmt))) ++ [']','}']))))) = r.nodes.map (·.1) := by
    intro a f ha hf
    obtain ⟨f, rfl⟩ := Nat.exists_eq_add_of_lt (show 0 < f by omega)
    rw [show 0 + f + 1 = f + 1 by omega] at hf ⊢
    by_cases hn : r.ns = ['n', 'a', 'm', 'e']
    · have h1 : findFrom nameTok (a ++ '"' :: (r.ns ++ '"' :: ([','] ++ '"' :: (['n','o','d','e','s'] ++ '"' :: (([':','['] ++ Presence.commaJoin (r.nodes.map (Presence.nodeJson fmt))) ++ [']','}']))))) = some ('"' :: (r.ns ++ '"' :: ([','] ++ '"' :: (['n','o','d','e','s'] ++ '"' :: (([':','['] ++ Presence.commaJoin (r.nodes.map (Presence.nodeJson fmt))) ++ [']','}']))))) := by
        rw [show nameTok = '"' :: (['n', 'a', 'm', 'e'] ++ '"' :: []) from rfl, find_tok _ _ _ _ _ (by simp [Plain]) ha ht.ns, if_pos (by simp [hn])]
      rw [names, h1, hn]
      simp only [List.cons_append, List.nil_append, List.drop_succ_cons, List.drop_zero]
      by_cases hc : ws ',' = true
      · have := at_nodes [','] f (by simp [Plain]) (by omega)
        simp only [List.cons_append, List.nil_append] at this
        simp only [List.dropWhile_cons, hc, if_true, hw.quote, Bool.false_eq_true, if_false]
        exact this
      · have := at_nodes [','] f (by simp [Plain]) (by omega)
        simp only [List.cons_append, List.nil_append] at this
        simp only [List.dropWhile_cons, hc, if_false]
        exact this
    · have hp : ∀ u : Text, (['n', 'a', 'm', 'e', '"'] : Text).isPrefixOf (r.ns ++ '"' :: u) = false := by
        intro u
        have := tok_prefix ['n', 'a', 'm', 'e'] [] r.ns u (by simp) ht.ns
        simpa [hn] using this
      rw [names_skip ws f _ _ ha (hp _), names_skip ws f _ _ ht.ns (by simp [List.isPrefixOf])]
      exact at_nodes _ _ (by simp [Plain]) (by omega)
  -- the section
  rw [show nodesTok = '"' :: (['n','o','d','e','s'] ++ '"' :: []) from rfl, file,
    find_tok _ _ _ _ _ (by simp [Plain]) (by simp [Plain]) (by simp [Plain]), if_neg (by simp),
    find_tok _ _ _ _ _ (by simp [Plain]) (by simp [Plain]) (by simp [Plain]), if_neg (by simp),
    find_tok _ _ _ _ _ (by simp [Plain]) (by simp [Plain]) ht.host]
  by_cases hh : r.host = ['n','o','d','e','s']
  · rw [if_pos ⟨hh, by simp⟩]
    refine ⟨_, rfl, ?_⟩
    rw [hh]
    have hl := hlen r.nodes
    generalize hL : ('"' :: _ : Text).length = L
    have hL2 : r.nodes.length + 1 < L := by rw [← hL]; simp only [List.length_cons, List.length_append]; omega
    obtain ⟨f, rfl⟩ := Nat.exists_eq_add_of_lt (show 0 < L by omega)
    rw [show 0 + f + 1 = f + 1 by omega] at hL2 ⊢
    rw [show ∀ t : Text, '"' :: t = [] ++ '"' :: t from fun _ => rfl, names_skip ws f [] _ (by simp [Plain]) (by simp [List.isPrefixOf]),
      names_skip ws f _ _ (by simp [Plain]) (by simp [List.isPrefixOf]), names_skip ws f _ _ (by simp [Plain]) (by simp [List.isPrefixOf]),
      names_skip ws f _ _ (by simp [Plain]) (by simp [List.isPrefixOf]), names_skip ws f _ _ (by simp [Plain]) (by simp [List.isPrefixOf]),
      names_skip ws f _ _ (by simp [Plain]) (by simp [List.isPrefixOf]), names_skip ws f _ _ hsp (by simp [List.isPrefixOf]),
      names_skip ws f _ _ (by simp [Plain]) (by simp [List.isPrefixOf])]
    exact at_ns _ _ (by simp [Plain]) hL2
  · rw [if_neg (by simp [hh]),
      find_tok _ _ _ _ _ (by simp [Plain]) ht.host (by simp [Plain]), if_neg (by simp),
      find_tok _ _ _ _ _ (by simp [Plain]) (by simp [Plain]) (by simp [Plain]), if_neg (by simp),
      find_tok _ _ _ _ _ (by simp [Plain]) (by simp [Plain]) (by simp [Plain]), if_neg (by simp),
      find_tok _ _ _ _ _ (by simp [Plain]) (by simp [Plain]) (by simp [Plain]), if_neg (by simp),
      find_tok _ _ _ _ _ (by simp [Plain]) (by simp [Plain]) hsp, if_neg (by simp),
      find_tok _ _ _ _ _ (by simp [Plain]) hsp (by simp [Plain]), if_neg (by simp),
      find_tok _ _ _ _ _ (by simp [Plain]) (by simp [Plain]) (by simp [Plain]), if_neg (by simp),
      find_tok _ _ _ _ _ (by simp [Plain]) (by simp [Plain]) ht.ns]
    by_cases hn : r.ns = ['n','o','d','e','s']
    · rw [if_pos ⟨hn, by simp⟩]
      refine ⟨_, rfl, ?_⟩
      have hl := hlen r.nodes
      exact at_ns [] _ (by simp [Plain]) (by simp only [List.length_cons, List.length_append]; omega)
    · rw [if_neg (by simp [hn]),
        find_tok _ _ _ _ _ (by simp [Plain]) ht.ns (by simp [Plain]), if_neg (by simp),
        find_tok _ _ _ _ _ (by simp [Plain]) (by simp [Plain]) (by simp [Plain]), if_pos (by simp)]
      refine ⟨_, rfl, ?_⟩
      have hl := hlen r.nodes
      exact at_nodes [] _ (by simp [Plain]) (by simp only [List.length_cons, List.length_append]; omega)

theorem bridged_nodes {fmt : Nat → Text} (hf : ∀ n, Plain (fmt n)) (l : List (Text × Nat)) : ∀ (a z : Text), (∀ x ∈ l, Plain x.1) → Plain a → Plain z →
    findFrom (key ['i','s','_','b','r','i','d','g','e','d']) (a ++ Presence.commaJoin (l.map (Presence.nodeJson fmt)) ++ z) = none := by
  induction l with
  | nil =>
    intro a z _ ha hz
    simp only [List.map_nil, Presence.commaJoin, List.append_nil]
    exact find_end _ _ (by simp only [List.mem_append, not_or]; exact ⟨ha, hz⟩)
  | cons x l ih =>
    intro a z hx ha hz
    have hrest : ∃ a' : Text, Plain a' ∧ Presence.commaJoin ((x :: l).map (Presence.nodeJson fmt)) ++ z = node fmt x ++ (a' ++ Presence.commaJoin (l.map (Presence.nodeJson fmt)) ++ z) := by
      cases l with
      | nil => exact ⟨[], by simp [Plain], by simp [Presence.commaJoin, nodeJson_eq]⟩
      | cons y l => exact ⟨[','], by simp [Plain], by simp [Presence.commaJoin, nodeJson_eq]⟩
    obtain ⟨a', ha', hr⟩ := hrest
    rw [List.append_assoc, hr]
    have e1 : a ++ (node fmt x ++ (a' ++ Presence.commaJoin (l.map (Presence.nodeJson fmt)) ++ z)) =
        (a ++ ['{']) ++ '"' :: (['n', 'a', 'm', 'e'] ++ '"' :: ([':'] ++ '"' :: (x.1 ++ '"' :: ([','] ++ '"' :: (['r', 'a', 't', 'e', '_', 'h', 'z'] ++ '"' :: ((':' :: fmt x.2 ++ ['}'] ++ a') ++ Presence.commaJoin (l.map (Presence.nodeJson fmt)) ++ z)))))) := by
      simp [node]
    rw [e1, show key ['i','s','_','b','r','i','d','g','e','d'] = '"' :: (['i','s','_','b','r','i','d','g','e','d'] ++ '"' :: [':']) from rfl,
      find_tok _ _ _ _ _ (by simp [Plain]) (by simp only [Plain, List.mem_append, not_or]; exact ⟨ha, by simp⟩) (by simp [Plain]), if_neg (by simp),
      find_tok _ _ _ _ _ (by simp [Plain]) (by simp [Plain]) (by simp [Plain]), if_neg (by simp),
      find_tok _ _ _ _ _ (by simp [Plain]) (by simp [Plain]) (hx x (by simp)), if_neg (by simp [List.isPrefixOf]),
      find_tok _ _ _ _ _ (by simp [Plain]) (hx x (by simp)) (by simp [Plain]), if_neg (by simp),
      find_tok _ _ _ _ _ (by simp [Plain]) (by simp [Plain]) (by simp [Plain]), if_neg (by simp),
      find_step _ _ _ (by simp), if_neg (by simp [List.isPrefixOf])]
    exact ih _ z (fun y hy => hx y (by simp [hy])) (by simp only [Plain, List.mem_append, List.mem_cons, not_or]; exact ⟨⟨⟨by decide, hf _⟩, by simp⟩, ha'⟩) hz

theorem bridged_read {ws : Char → Bool} {fmt showNat : Nat → Text} {parseNat : Text → Option Nat} (hd : Decimal showNat parseNat) (r : Presence.Record) (ht : Tidy fmt r) : getBool ws (file fmt showNat r) ['i','s','_','b','r','i','d','g','e','d'] = none := by
  have hsp := show_plain hd r.stamp
  unfold getBool
  have h := bridged_nodes ht.rates r.nodes [':', '['] [']', '}'] ht.names (by simp [Plain]) (by simp [Plain])
  rw [show key ['i','s','_','b','r','i','d','g','e','d'] = '"' :: (['i','s','_','b','r','i','d','g','e','d'] ++ '"' :: [':']) from rfl] at h ⊢
  rw [file,
    find_tok _ _ _ _ _ (by simp [Plain]) (by simp [Plain]) (by simp [Plain]), if_neg (by simp),
    find_tok _ _ _ _ _ (by simp [Plain]) (by simp [Plain]) (by simp [Plain]), if_neg (by simp),
    find_tok _ _ _ _ _ (by simp [Plain]) (by simp [Plain]) ht.host, if_neg (by simp [List.isPrefixOf]),
    find_tok _ _ _ _ _ (by simp [Plain]) ht.host (by simp [Plain]), if_neg (by simp),
    find_tok _ _ _ _ _ (by simp [Plain]) (by simp [Plain]) (by simp [Plain]), if_neg (by simp),
    find_tok _ _ _ _ _ (by simp [Plain]) (by simp [Plain]) (by simp [Plain]), if_neg (by simp),
    find_tok _ _ _ _ _ (by simp [Plain]) (by simp [Plain]) (by simp [Plain]), if_neg (by simp),
    find_tok _ _ _ _ _ (by simp [Plain]) (by simp [Plain]) hsp, if_neg (by simp),
    find_tok _ _ _ _ _ (by simp [Plain]) hsp (by simp [Plain]), if_neg (by simp),
    find_tok _ _ _ _ _ (by simp [Plain]) (by simp [Plain]) (by simp [Plain]), if_neg (by simp),
    find_tok _ _ _ _ _ (by simp [Plain]) (by simp [Plain]) ht.ns, if_neg (by simp [List.isPrefixOf]),
    find_tok _ _ _ _ _ (by simp [Plain]) ht.ns (by simp [Plain]), if_neg (by simp),
    find_tok _ _ _ _ _ (by simp [Plain]) (by simp [Plain]) (by simp [Plain]), if_neg (by simp),
    find_step _ _ _ (by simp), if_neg (by simp [List.isPrefixOf]), h]
  rfl

/-- A host's file written by the receiver lists exactly the nodes the host announced, in order, with the
host's name, as long as its time stamp is at most thirty seconds old (whole seconds), and as running as long
as it is at most three seconds old. -/
theorem listed_exact_partial {ws : Char → Bool} (hw : Marks ws) {fmt showNat : Nat → Text} {parseNat : Text → Option Nat} (hd : Decimal showNat parseNat) (r : Presence.Record) (ht : Tidy fmt r) (hs : r.stamp < 2 ^ 64) (now : Nat) :
    remotes ws parseNat now (Presence.render fmt showNat r) =
      if now < r.stamp + 4000000000 then r.nodes.map fun x => ⟨x.1, .running, r.host, false⟩
      else if now < r.stamp + 31000000000 then r.nodes.map fun x => ⟨x.1, .unreachable, r.host, false⟩ else [] := by
  obtain ⟨sec, h1, h2⟩ := names_file hw hd r ht
  unfold remotes
  rw [render_file, seen_read hw hd r ht hs, Option.getD_some, h1, host_read r ht.host, bridged_read hd r ht, Option.getD_some, Option.getD_none]
  dsimp only
  rw [h2]
  unfold status
  dsimp only
  by_cases c1 : now < r.stamp + 4000000000
  · rw [if_neg (by omega), if_neg (by omega), if_pos c1]; simp [List.map_map, Function.comp_def]
  · by_cases c2 : now < r.stamp + 31000000000
    · rw [if_neg (by omega), if_pos (by omega), if_neg c1, if_pos c2]; simp [List.map_map, Function.comp_def]
    · rw [if_pos (by omega), if_neg c1, if_neg c2]

/-- The time stamp is the sender's clock: a host whose clock is 31 seconds or more behind is not listed at
all, however recently it announced itself. -/
theorem slow_clock_hidden {ws : Char → Bool} (hw : Marks ws) {fmt showNat : Nat → Text} {parseNat : Text → Option Nat} (hd : Decimal showNat parseNat) (r : Presence.Record) (ht : Tidy fmt r) (hs : r.stamp < 2 ^ 64) (sent now behind : Nat) (hc : r.stamp + behind = sent) (hb : 31000000000 ≤ behind) (hn : sent ≤ now) :
    remotes ws parseNat now (Presence.render fmt showNat r) = [] := by
  rw [listed_exact_partial hw hd r ht hs, if_neg (by omega), if_neg (by omega)]

/-- A host whose clock is ahead is shown as running for that much longer after it fell silent. -/
theorem fast_clock_running {ws : Char → Bool} (hw : Marks ws) {fmt showNat : Nat → Text} {parseNat : Text → Option Nat} (hd : Decimal showNat parseNat) (r : Presence.Record) (ht : Tidy fmt r) (hs : r.stamp < 2 ^ 64) (sent now ahead : Nat) (hc : r.stamp = sent + ahead) (hn : now ≤ sent + ahead) :
    remotes ws parseNat now (Presence.render fmt showNat r) = r.nodes.map fun x => ⟨x.1, .running, r.host, false⟩ := by
  rw [listed_exact_partial hw hd r ht hs, if_pos (by omega)]

/-- Names are not escaped: a host that announces one node with quotes in its name is shown with two. -/
theorem forged_node {ws : Char → Bool} (hw : Marks ws) {fmt : Nat → Text} (hf : ∀ n, Plain (fmt n)) (a b : Text) (ha : Plain a) (hb : Plain b) (rate : Nat) (f : Nat) (hl : 2 < f) (z : Text) (hz : Plain z) :
    names ws f (Presence.nodeJson fmt (a ++ ['"', ',', '"', 'n', 'a', 'm', 'e', '"', ':', '"'] ++ b, rate) ++ z) = [a, b] := by
  obtain ⟨f, rfl⟩ := Nat.exists_eq_add_of_lt hl
  rw [nodeJson_eq, show 2 + f + 1 = f + 1 + 1 + 1 by omega]
  have e1 : node fmt (a ++ ['"', ',', '"', 'n', 'a', 'm', 'e', '"', ':', '"'] ++ b, rate) ++ z =
      ['{'] ++ '"' :: ['n', 'a', 'm', 'e'] ++ '"' :: ':' :: '"' :: a ++ '"' :: ([','] ++ '"' :: ['n', 'a', 'm', 'e'] ++ '"' :: ':' :: '"' :: b ++ '"' :: ([','] ++ '"' :: (['r', 'a', 't', 'e', '_', 'h', 'z'] ++ '"' :: (':' :: fmt rate ++ ['}'] ++ z)))) := by simp [node]
  rw [e1, names_value ws hw _ _ _ _ (by simp [Plain]) ha, names_value ws hw _ _ _ _ (by simp [Plain]) hb,
    names_skip ws f _ _ (by simp [Plain]) (by simp [List.isPrefixOf]), names_skip ws f _ _ (by simp [Plain]) (by simp [List.isPrefixOf]), names_end]
  simp only [Plain, List.cons_append, List.mem_cons, List.mem_append, List.not_mem_nil, or_false, not_or]
  exact ⟨by decide, ⟨hf _, by decide⟩, hz⟩

/-! ## Live data -/

/-- A local node as listed: from its presence file, and the data merged from a registry. -/
structure Local where
  name : Nat
  pid : Nat
  live : Option Nat
  deriving DecidableEq, Repr

/-- nodes.rs:117: the first node of that name. -/
def put (slot : Nat × Nat) : List Local → List Local
  | [] => []
  | n :: l => if n.name = slot.1 then { n with live := some slot.2 } :: l else n :: put slot l

/-- nodes.rs:112-138: all slots of all registry files, in directory order. -/
def merge (slots : List (Nat × Nat)) (l : List Local) : List Local := slots.foldl (fun l s => put s l) l

theorem put_names (s : Nat × Nat) (l : List Local) : (put s l).map (fun n => (n.name, n.pid)) = l.map fun n => (n.name, n.pid) := by
  induction l with
  | nil => rfl
  | cons n l ih => simp only [put]; split <;> simp [ih]

/-- Merging changes nothing but the live data. -/
theorem merge_names (slots : List (Nat × Nat)) (l : List Local) : (merge slots l).map (fun n => (n.name, n.pid)) = l.map fun n => (n.name, n.pid) := by
  unfold merge
  induction slots generalizing l with
  | nil => rfl
  | cons s slots ih => rw [List.foldl_cons, ih, put_names]

/-- The last slot of that name. -/
def slotOf (slots : List (Nat × Nat)) (n : Nat) : Option Nat := ((slots.filter fun s => s.1 = n).getLast?).map (·.2)

theorem put_map (s : Nat × Nat) (l : List Local) (h : (l.map (·.name)).Nodup) : put s l = l.map fun n => if n.name = s.1 then { n with live := some s.2 } else n := by
  induction l with
  | nil => rfl
  | cons n l ih =>
    simp only [List.map_cons, List.nodup_cons] at h
    simp only [put, List.map_cons]
    split
    · rename_i e
      congr 1
      conv_lhs => rw [← List.map_id l]
      apply List.map_congr_left
      intro m hm
      rw [if_neg (fun e' => h.1 (by rw [e, ← e']; exact List.mem_map_of_mem hm))]; rfl
    · rw [ih h.2]

theorem put_nodup (s : Nat × Nat) (l : List Local) (h : (l.map (·.name)).Nodup) : ((put s l).map (·.name)).Nodup := by
  have := congrArg (List.map Prod.fst) (put_names s l)
  simp only [List.map_map, Function.comp_def] at this
  rw [this]; exact h

/-- When no two local nodes have the same name every node shows the last slot of its name, and keeps its own
data when there is none. -/
theorem merge_exact_partial (slots : List (Nat × Nat)) (l : List Local) (h : (l.map (·.name)).Nodup) : merge slots l = l.map fun n => { n with live := (slotOf slots n.name).or n.live } := by
  unfold merge
  induction slots generalizing l with
  | nil => simp [slotOf]
  | cons s slots ih =>
    rw [List.foldl_cons, ih _ (put_nodup s l h), put_map s l h, List.map_map]
    apply List.map_congr_left
    intro n _
    simp only [Function.comp_def]
    by_cases e : n.name = s.1
    · rw [if_pos e]
      have : (s :: slots).filter (fun x => decide (x.1 = n.name)) = s :: slots.filter fun x => decide (x.1 = n.name) := by simp [e]
      simp only [slotOf, this]
      cases hl : slots.filter (fun x => decide (x.1 = n.name)) with
      | nil => simp
      | cons a b => simp [List.getLast?_cons]
    · rw [if_neg e]
      have : (s :: slots).filter (fun x => decide (x.1 = n.name)) = slots.filter fun x => decide (x.1 = n.name) := List.filter_cons_of_neg (by simp only [decide_eq_true_eq]; exact fun e' => e e'.symm)
      simp only [slotOf, this]

/-- Two processes with a node of the same name: the first one listed shows the numbers of whichever
registry file comes last, the second shows none. -/
theorem same_name_mixed (p q a b n : Nat) : merge [(n, a), (n, b)] [⟨n, p, none⟩, ⟨n, q, none⟩] = [⟨n, p, some b⟩, ⟨n, q, none⟩] := by simp [merge, put]

/-! ## Launch sessions -/

structure Proc where
  pid : Nat
  nodes : List Nat
  label : Nat

/-- nodes.rs:267-279: the label a listed node gets; `procs` are all processes of all session files in order. -/
def label (procs : List Proc) (pid name : Nat) : Option Nat :=
  procs.foldl (fun acc e => if pid = e.pid ∨ name ∈ e.nodes then some e.label else acc) none

/-- A node carries a label exactly if some session has its process or its name. -/
theorem labelled_iff (procs : List Proc) (pid name : Nat) : (label procs pid name).isSome = true ↔ ∃ e ∈ procs, pid = e.pid ∨ name ∈ e.nodes := by
  unfold label
  suffices h : ∀ acc : Option Nat, (procs.foldl (fun acc e => if pid = e.pid ∨ name ∈ e.nodes then some e.label else acc) acc).isSome = true ↔ acc.isSome = true ∨ ∃ e ∈ procs, pid = e.pid ∨ name ∈ e.nodes by simpa using h none
  induction procs with
  | nil => simp
  | cons e procs ih =>
    intro acc
    rw [List.foldl_cons, ih]
    split
    · rename_i h; simp [h]
    · rename_i h; simp [h]

/-- A process of exactly one session with names no other session uses is labelled as that session's. -/
theorem own_label (a b : List Proc) (e : Proc) (name : Nat) (ha : ∀ x ∈ b, e.pid ≠ x.pid ∧ name ∉ x.nodes) : label (a ++ e :: b) e.pid name = some e.label := by
  unfold label
  rw [List.foldl_append, List.foldl_cons, if_pos (Or.inl rfl)]
  generalize some e.label = acc
  induction b with
  | nil => rfl
  | cons x b ih => rw [List.foldl_cons, if_neg (by have := ha x (by simp); exact fun h => h.elim this.1 this.2)]; exact ih fun y hy => ha y (by simp [hy])

/-- A node of another host (process number 0) is labelled with a session of this host that has a node of
the same name. -/
theorem remote_labelled (e : Proc) (name : Nat) (h : name ∈ e.nodes) : label [e] 0 name = some e.label := by simp [label, h]

/-! ## A concrete case -/

def demo : Presence.Record := ⟨['0', 'a', 'f', '3'], 7, ['n', 'o', 'd', 'e', 's'], [(['c', 'a', 'm'], 30), (['n', 'a', 'm', 'e'], 1)]⟩

example : Tidy (fun _ => ['1', '.', '0']) demo := ⟨by simp [Plain, demo], by simp [Plain, demo], by simp [Plain, demo], by simp [Plain]⟩
example : names (fun c => c = ' ') 99 ['"', 'n', 'a', 'm', 'e', '"', ' ', ':', ' ', '"', 'x', '"'] = [['x']] := by decide

end Horus.NodeList
