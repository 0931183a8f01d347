import Mathlib.Data.List.Basic
import Mathlib.Tactic.Common
/-
Text that HORUS gives to a shell. Sources: /repo/horus_manager/src/commands/scripts.rs:87-105 (`horus scripts NAME args`),
deploy.rs:412-431 (`shell_quote_preserving_tilde`), 837-847, 906-919 (`rsync -e`), 1025-1053 (the remote command).
The shell itself is modelled from the POSIX rules for quoting; rsync's `-e` from its manual.
-/
namespace Horus.Shell

/-! ### The shell's side -/

/-- A character of a word, and whether it was quoted: quoted characters are never expanded, split or taken for an operator. -/
abbrev Word := List (Char × Bool)

/-- A token: a word, or one operator character (`;`, `&`, `|`, `<`, `>`, `(`, `)`, newline). -/
inductive Tok
  | word (w : Word)
  | op (c : Char)
  deriving DecidableEq

inductive Mode
  | plain | single | double | esc | dblEsc | comment
  deriving DecidableEq

structure St where
  mode : Mode
  cur : Option Word
  out : List Tok
  deriving DecidableEq

def isOp (c : Char) : Bool := c == ';' || c == '&' || c == '|' || c == '<' || c == '>' || c == '(' || c == ')' || c == '\n'

def St.add (s : St) (c : Char) (q : Bool) : St := { s with cur := some (s.cur.getD [] ++ [(c, q)]) }

def St.flush (s : St) : St :=
  match s.cur with
  | none => s
  | some w => { s with cur := none, out := s.out ++ [.word w] }

/-- POSIX shell, 2.2 and 2.3, without here-documents and `$'...'`. -/
def lexStep (s : St) (c : Char) : St :=
  match s.mode with
  | .plain =>
    if c = '\'' then { s with mode := .single, cur := some (s.cur.getD []) }
    else if c = '"' then { s with mode := .double, cur := some (s.cur.getD []) }
    else if c = '\\' then { s with mode := .esc }
    else if c = ' ' ∨ c = '\t' then s.flush
    else if isOp c = true then { s.flush with out := s.flush.out ++ [.op c] }
    else if c = '#' ∧ s.cur = none then { s with mode := .comment }
    else s.add c false
  | .single => if c = '\'' then { s with mode := .plain } else s.add c true
  | .double =>
    if c = '"' then { s with mode := .plain }
    else if c = '\\' then { s with mode := .dblEsc }
    else s.add c (!(c == '$' || c == '`'))
  | .esc => if c = '\n' then { s with mode := .plain } else { s.add c true with mode := .plain }
  | .dblEsc =>
    if c = '$' ∨ c = '`' ∨ c = '"' ∨ c = '\\' then { s.add c true with mode := .double }
    else if c = '\n' then { s with mode := .double }
    else { (s.add '\\' true).add c true with mode := .double }
  | .comment => if c = '\n' then { s with mode := .plain, out := s.out ++ [.op c] } else s

def lexFrom (s : St) (t : List Char) : St := t.foldl lexStep s

/-- The tokens of a text, if its quotes are closed. -/
def lex (t : List Char) : Option (List Tok) :=
  let s := lexFrom ⟨.plain, none, []⟩ t
  if s.mode = .plain ∨ s.mode = .comment then some s.flush.out else none

/-! ### HORUS's side -/

/-- `s.replace('\'', "'\\''")` (scripts.rs:92, deploy.rs:420). -/
def escape : List Char → List Char
  | [] => []
  | c :: cs => if c = '\'' then '\'' :: '\\' :: '\'' :: '\'' :: escape cs else c :: escape cs

/-- `format!("'{}'", …)`. -/
def quote (a : List Char) : List Char := '\'' :: escape a ++ ['\'']

/-- scripts.rs:87-96: the text for `sh -c`. -/
def fullCmd (script : List Char) (args : List (List Char)) : List Char :=
  if args = [] then script else script ++ ' ' :: List.intercalate [' '] (args.map quote)

/-- deploy.rs:419-431. -/
def quoteTilde (path : List Char) : List Char :=
  if path = ['~'] then ['~']
  else
    match path with
    | '~' :: '/' :: rest => if rest = [] then ['~', '/'] else '~' :: '/' :: quote rest
    | _ => quote path

/-- deploy.rs:1025, 1049-1053: the command for the robot's shell. -/
def remoteCmd (dir binary : List Char) : List Char := "cd ".toList ++ quoteTilde dir ++ " && ".toList ++ quote binary

/-! ### Quoting -/

/-- A text that stands for itself. -/
def lit (a : List Char) : Word := a.map fun c => (c, true)

theorem lexFrom_append (s : St) (a b : List Char) : lexFrom s (a ++ b) = lexFrom (lexFrom s a) b := List.foldl_append

theorem lex_escape (a : List Char) (w : Word) (out : List Tok) : lexFrom ⟨.single, some w, out⟩ (escape a ++ ['\'']) = ⟨.plain, some (w ++ lit a), out⟩ := by
  induction a generalizing w with
  | nil => simp [escape, lexFrom, lexStep, lit]
  | cons c cs ih =>
    unfold escape
    by_cases hc : c = '\''
    · subst hc
      rw [if_pos rfl]
      show lexFrom ⟨.single, some (w ++ [('\'', true)]), out⟩ (escape cs ++ ['\'']) = _
      rw [ih]
      simp [lit]
    · rw [if_neg hc]
      have h1 : lexStep ⟨.single, some w, out⟩ c = ⟨.single, some (w ++ [(c, true)]), out⟩ := by simp [lexStep, hc, St.add]
      show lexFrom (lexStep ⟨.single, some w, out⟩ c) (escape cs ++ ['\'']) = _
      rw [h1, ih]
      simp [lit]

theorem lex_quote (a : List Char) (cur : Option Word) (out : List Tok) : lexFrom ⟨.plain, cur, out⟩ (quote a) = ⟨.plain, some (cur.getD [] ++ lit a), out⟩ := by
  show lexFrom (lexStep ⟨.plain, cur, out⟩ '\'') (escape a ++ ['\'']) = _
  have h1 : lexStep ⟨.plain, cur, out⟩ '\'' = ⟨.single, some (cur.getD []), out⟩ := by simp [lexStep]
  rw [h1, lex_escape]

/-- **A quoted text is one word, and stands for itself**, whatever is in it. -/
theorem quote_one_word (a : List Char) : lex (quote a) = some [.word (lit a)] := by
  unfold lex
  rw [lex_quote]
  simp [St.flush]

theorem lex_args (args : List (List Char)) (h : args ≠ []) (out : List Tok) :
    ∃ w, lexFrom ⟨.plain, none, out⟩ (List.intercalate [' '] (args.map quote)) = ⟨.plain, some w, out ++ (args.dropLast.map fun a => .word (lit a))⟩ ∧ args.getLast? = some (w.map (·.1)) ∧ w = lit (w.map (·.1)) := by
  induction args generalizing out with
  | nil => exact absurd rfl h
  | cons a as ih =>
    cases as with
    | nil =>
      refine ⟨lit a, ?_, by simp [lit, Function.comp_def], by simp [lit, Function.comp_def]⟩
      have : List.intercalate [' '] ([a].map quote) = quote a := by simp [List.intercalate]
      rw [this, lex_quote]
      simp
    | cons b bs =>
      have e : List.intercalate [' '] ((a :: b :: bs).map quote) = quote a ++ ' ' :: List.intercalate [' '] ((b :: bs).map quote) := by
        simp [List.intercalate]
      rw [e, lexFrom_append, lex_quote]
      have h1 : lexStep ⟨.plain, some (Option.getD none [] ++ lit a), out⟩ ' ' = ⟨.plain, none, out ++ [.word (lit a)]⟩ := by
        simp [lexStep, St.flush]
      obtain ⟨w, hw, hl, hw'⟩ := ih (by simp) (out ++ [.word (lit a)])
      refine ⟨w, ?_, by rw [List.getLast?_cons_cons]; exact hl, hw'⟩
      show lexFrom (lexStep _ ' ') _ = _
      rw [h1, hw]
      simp

/-- **Arguments of a script arrive as they were given**, one word each, after the words of the script, for every script whose quotes are closed
and which does not end in a comment or a backslash, and for every argument. -/
theorem args_verbatim (script : List Char) (args : List (List Char)) (h : (lexFrom ⟨.plain, none, []⟩ script).mode = .plain) :
    ∃ ts, lex script = some ts ∧ lex (fullCmd script args) = some (ts ++ args.map fun a => .word (lit a)) := by
  have h0 : lex script = some (lexFrom ⟨.plain, none, []⟩ script).flush.out := by unfold lex; dsimp only; rw [h]; simp
  refine ⟨_, h0, ?_⟩
  by_cases ha : args = []
  · subst ha
    unfold fullCmd
    rw [if_pos rfl, h0]
    simp
  · unfold fullCmd
    rw [if_neg ha]
    have hs : lexStep (lexFrom ⟨.plain, none, []⟩ script) ' ' = ⟨.plain, none, (lexFrom ⟨.plain, none, []⟩ script).flush.out⟩ := by
      generalize lexFrom ⟨.plain, none, []⟩ script = s at h
      obtain ⟨m, c, o⟩ := s
      simp only at h
      subst h
      cases c <;> simp [lexStep, St.flush]
    obtain ⟨w, hw, hl, hw'⟩ := lex_args args ha (lexFrom ⟨.plain, none, []⟩ script).flush.out
    have hf : lexFrom ⟨.plain, none, []⟩ (script ++ ' ' :: List.intercalate [' '] (args.map quote)) = ⟨.plain, some w, (lexFrom ⟨.plain, none, []⟩ script).flush.out ++ (args.dropLast.map fun a => .word (lit a))⟩ := by
      rw [lexFrom_append]
      show lexFrom (lexStep _ ' ') _ = _
      rw [hs, hw]
    unfold lex
    rw [hf]
    have hg : args = args.dropLast ++ [w.map (·.1)] := by
      have := List.dropLast_append_getLast? _ hl
      exact this.symm
    conv_rhs => rw [hg]
    simp only [true_or, if_true, St.flush]
    rw [List.map_append, List.append_assoc]
    simp only [List.map_cons, List.map_nil]
    rw [← hw']

/-- **Disagreement: after a script that ends in a comment the arguments are lost.** -/
theorem comment_swallows (script : List Char) (args : List (List Char)) (h : (lexFrom ⟨.plain, none, []⟩ script).mode = .comment) (hn : ∀ a ∈ args, '\n' ∉ a) :
    lex (fullCmd script args) = lex script := by
  unfold fullCmd
  split
  · rfl
  · have key : ∀ (t : List Char) (s : St), '\n' ∉ t → s.mode = .comment → lexFrom s t = s := by
      intro t
      induction t with
      | nil => intro s _ _; rfl
      | cons c t ih =>
        intro s ht hs
        have hc : c ≠ '\n' := fun e => ht (by simp [e])
        have h1 : lexStep s c = s := by unfold lexStep; rw [hs]; simp [hc]
        show lexFrom (lexStep s c) t = s
        rw [h1]
        exact ih s (fun e => ht (List.mem_cons_of_mem _ e)) hs
    have esc : ∀ a : List Char, '\n' ∉ a → '\n' ∉ quote a := by
      intro a ha
      have : ∀ b : List Char, '\n' ∉ b → '\n' ∉ escape b := by
        intro b
        induction b with
        | nil => intro _; simp [escape]
        | cons c b ih =>
          intro hb
          simp only [List.mem_cons, not_or] at hb
          unfold escape
          split
          · simp [ih hb.2]
          · simp [ih hb.2, hb.1]
      simp [quote, this a ha]
    have hni : '\n' ∉ ' ' :: List.intercalate [' '] (args.map quote) := by
      simp only [List.mem_cons, not_or]
      refine ⟨by decide, ?_⟩
      intro hm
      clear h
      induction args with
      | nil => simp [List.intercalate] at hm
      | cons a as ih =>
        cases as with
        | nil =>
          have : List.intercalate [' '] ([a].map quote) = quote a := by simp [List.intercalate]
          rw [this] at hm
          exact esc a (hn a (by simp)) hm
        | cons b bs =>
          have e : List.intercalate [' '] ((a :: b :: bs).map quote) = quote a ++ ' ' :: List.intercalate [' '] ((b :: bs).map quote) := by
            simp [List.intercalate]
          rw [e] at hm
          simp only [List.mem_append, List.mem_cons] at hm
          rcases hm with hm | hm | hm
          · exact esc a (hn a (by simp)) hm
          · exact absurd hm (by decide)
          · exact ih (fun x hx => hn x (List.mem_cons_of_mem _ hx)) (by simp) hm
    unfold lex
    rw [lexFrom_append, key _ _ hni h]

example : lex (fullCmd "horus run".toList ["--name".toList, "it's; rm -rf $HOME".toList]) = some [.word ("horus".toList.map (·, false)), .word ("run".toList.map (·, false)), .word (lit "--name".toList), .word (lit "it's; rm -rf $HOME".toList)] := by decide +kernel
example : (lexFrom ⟨.plain, none, []⟩ "make -j4 && ./run 'a b'".toList).mode = .plain := by decide +kernel
example : lex (fullCmd "horus run # fast".toList ["--release".toList]) = some [.word ("horus".toList.map (·, false)), .word ("run".toList.map (·, false))] := by decide +kernel

/-! ### The directory on the robot -/

/-- **The remote command is `cd DIR && PROGRAM`, whatever the directory and the program are called**: nothing in the names is taken for shell
syntax; only a `~` or `~/` in front stays unquoted. -/
theorem remote_safe (dir binary : List Char) : lex (remoteCmd dir binary) = some [.word ("cd".toList.map (·, false)),
    .word (if dir = ['~'] then [('~', false)] else if ['~', '/'].isPrefixOf dir then ('~', false) :: ('/', false) :: lit (dir.drop 2) else lit dir),
    .op '&', .op '&', .word (lit binary)] := by
  have hcd : lexFrom ⟨.plain, none, []⟩ "cd ".toList = ⟨.plain, none, [.word ("cd".toList.map (·, false))]⟩ := by decide +kernel
  have hand : ∀ (w : Word) (out : List Tok), lexFrom ⟨.plain, some w, out⟩ " && ".toList = ⟨.plain, none, out ++ [.word w, .op '&', .op '&']⟩ := by
    intro w out
    show lexFrom ⟨.plain, some w, out⟩ [' ', '&', '&', ' '] = _
    simp [lexFrom, lexStep, St.flush, isOp]
  have hq : ∀ out, lexFrom ⟨.plain, none, out⟩ (quoteTilde dir) = ⟨.plain, some (if dir = ['~'] then [('~', false)] else if ['~', '/'].isPrefixOf dir then ('~', false) :: ('/', false) :: lit (dir.drop 2) else lit dir), out⟩ := by
    intro out
    unfold quoteTilde
    split
    · simp [lexFrom, lexStep, isOp, St.add]
    · split
      · rename_i rest hne
        have hp : ['~', '/'].isPrefixOf ('~' :: '/' :: rest) = true := by simp [List.isPrefixOf]
        rw [if_pos hp]
        have h2 : ∀ t, lexFrom ⟨.plain, none, out⟩ ('~' :: '/' :: t) = lexFrom ⟨.plain, some [('~', false), ('/', false)], out⟩ t := by
          intro t
          show lexFrom (lexStep (lexStep ⟨.plain, none, out⟩ '~') '/') t = _
          simp [lexStep, isOp, St.add]
        split
        · rename_i hr; subst hr
          rw [h2]; rfl
        · rw [h2, lex_quote]; rfl
      · rename_i hne hn
        rw [lex_quote]
        have hp : ['~', '/'].isPrefixOf dir = false := by
          rw [Bool.eq_false_iff]
          intro hp
          rw [List.isPrefixOf_iff_prefix] at hp
          obtain ⟨r, hr⟩ := hp
          exact hn r hr.symm
        rw [hp]
        simp
  unfold lex remoteCmd
  rw [lexFrom_append, lexFrom_append, lexFrom_append, hcd, hq, hand, lex_quote]
  simp [St.flush]

/-- Tilde expansion of a word (POSIX 2.6.1): an unquoted `~` in front and the characters up to the first unquoted `/`, if all of them are unquoted,
give a user's home directory (`home []` is the caller's). -/
def expand (home : List Char → List Char) (w : Word) : List Char :=
  match w with
  | ('~', false) :: rest =>
    let pre := rest.takeWhile fun x => x != ('/', false)
    if pre.all fun x => !x.2 then home (pre.map (·.1)) ++ (rest.drop pre.length).map (·.1) else w.map (·.1)
  | _ => w.map (·.1)

/-- The directory into which rsync copies (deploy.rs:851): its text is a word of the robot's shell, unquoted. -/
def syncDir (home : List Char → List Char) (dir : List Char) : List Char := expand home (dir.map (·, false))

/-- The directory in which the program is started. -/
def runDir (home : List Char → List Char) (dir : List Char) : List Char :=
  expand home (if dir = ['~'] then [('~', false)] else if ['~', '/'].isPrefixOf dir then ('~', false) :: ('/', false) :: lit (dir.drop 2) else lit dir)

/-- **The program is started in the directory into which the files were copied**, if the directory does not name another user's home. -/
theorem run_where_synced (home : List Char → List Char) (dir : List Char) (h : dir.head? = some '~' → dir = ['~'] ∨ ['~', '/'] <+: dir) : runDir home dir = syncDir home dir := by
  unfold runDir syncDir
  by_cases h1 : dir = ['~']
  · subst h1; rfl
  · rw [if_neg h1]
    by_cases h2 : ['~', '/'] <+: dir
    · rw [if_pos (List.isPrefixOf_iff_prefix.2 h2)]
      obtain ⟨r, rfl⟩ := h2
      simp [expand, lit, Function.comp_def]
    · rw [if_neg (by rwa [List.isPrefixOf_iff_prefix])]
      cases dir with
      | nil => rfl
      | cons c cs =>
        have hc : c ≠ '~' := by
          rintro rfl
          rcases h rfl with h | h
          · exact h1 h
          · exact h2 h
        have e1 : ∀ (b : Bool) (x : Word), expand home ((c, b) :: x) = ((c, b) :: x).map (·.1) := by
          intro b x
          unfold expand
          split
          · rename_i heq; simp only [List.cons.injEq, Prod.mk.injEq] at heq; exact absurd heq.1.1 hc
          · rfl
        show expand home ((c, true) :: lit cs) = expand home ((c, false) :: cs.map (·, false))
        rw [e1, e1]
        simp [lit, Function.comp_def]

/-- **Disagreement: a directory of another user** (`~bob/app`) is copied to bob's home, but the program is looked for in a directory literally
called `~bob`. -/
theorem other_user_differs (home : List Char → List Char) : runDir home "~bob/app".toList = "~bob/app".toList ∧ syncDir home "~bob/app".toList = home "bob".toList ++ "/app".toList := by
  constructor
  · rfl
  · rfl

example : lex (remoteCmd "~/my robot; reboot".toList "./.horus/target/release/it's".toList) = some [.word [('c', false), ('d', false)],
    .word (('~', false) :: ('/', false) :: lit "my robot; reboot".toList), .op '&', .op '&', .word (lit "./.horus/target/release/it's".toList)] := by decide +kernel
example (home : List Char → List Char) : runDir home "~/app".toList = home [] ++ "/app".toList ∧ syncDir home "~/app".toList = home [] ++ "/app".toList := ⟨rfl, rfl⟩

/-! ### rsync's `-e` -/

/-- rsync's reading of the text after `-e` (its manual: spaces separate, quotes of either kind protect, a doubled quote inside quotes is one
quote, backslashes mean nothing). `cur` is the argument being read, `q` the quote it is in. `none`: a quote is not closed, rsync refuses. -/
def rsyncArgs : List Char → Option (List Char) → Option Char → Option (List (List Char))
  | [], cur, none => some (match cur with | none => [] | some w => [w])
  | [], _, some _ => none
  | c :: cs, cur, none =>
    if c = ' ' then (rsyncArgs cs none none).map fun r => match cur with | none => r | some w => w :: r
    else if c = '\'' ∨ c = '"' then rsyncArgs cs (some (cur.getD [])) (some c)
    else rsyncArgs cs (some (cur.getD [] ++ [c])) none
  | c :: cs, cur, some q =>
    if c = q then
      match cs with
      | d :: ds => if d = q then rsyncArgs ds (some (cur.getD [] ++ [q])) (some q) else rsyncArgs (d :: ds) cur none
      | [] => rsyncArgs [] cur none
    else rsyncArgs cs (some (cur.getD [] ++ [c])) (some q)
  termination_by t => t.length

/-- deploy.rs:837-847: the files' transfer. -/
def sshFiles (port : List Char) (identity : Option (List Char)) : List Char :=
  match identity with
  | some i => "ssh -p ".toList ++ port ++ " -o ConnectTimeout=30 -i ".toList ++ quote i
  | none => "ssh -p ".toList ++ port ++ " -o ConnectTimeout=30".toList

/-- deploy.rs:910-919: the binary's transfer; `none`: no `-e` at all. -/
def sshBinary (port : List Char) (identity : Option (List Char)) : Option (List Char) :=
  let s := "ssh".toList ++ (if port ≠ ['2', '2'] then " -p ".toList ++ port else []) ++ (match identity with | some i => " -i ".toList ++ i | none => [])
  if s ≠ "ssh".toList then some s else none

def Plain (t : List Char) : Prop := ∀ c ∈ t, c ≠ ' ' ∧ c ≠ '\'' ∧ c ≠ '"'

theorem rsync_plain (t rest : List Char) (cur : List Char) (h : Plain t) : rsyncArgs (t ++ rest) (some cur) none = rsyncArgs rest (some (cur ++ t)) none := by
  induction t generalizing cur with
  | nil => simp
  | cons c t ih =>
    have hc := h c (by simp)
    show rsyncArgs (c :: (t ++ rest)) (some cur) none = _
    rw [rsyncArgs, if_neg hc.1, if_neg (by simp [hc.2.1, hc.2.2])]
    rw [Option.getD_some, ih _ fun x hx => h x (List.mem_cons_of_mem _ hx)]
    simp

theorem rsync_word (t rest : List Char) (h : Plain t) (hne : t ≠ []) : rsyncArgs (t ++ ' ' :: rest) none none = (rsyncArgs rest none none).map (t :: ·) := by
  cases t with
  | nil => exact absurd rfl hne
  | cons c t =>
    have hc := h c (by simp)
    show rsyncArgs (c :: (t ++ ' ' :: rest)) none none = _
    rw [rsyncArgs, if_neg hc.1, if_neg (by simp [hc.2.1, hc.2.2]), Option.getD_none, List.nil_append, rsync_plain _ _ _ fun x hx => h x (List.mem_cons_of_mem _ hx)]
    rw [rsyncArgs, if_pos rfl]
    rfl

theorem rsync_end (t : List Char) (h : Plain t) (hne : t ≠ []) : rsyncArgs t none none = some [t] := by
  cases t with
  | nil => exact absurd rfl hne
  | cons c t =>
    have hc := h c (by simp)
    rw [rsyncArgs, if_neg hc.1, if_neg (by simp [hc.2.1, hc.2.2]), Option.getD_none, List.nil_append]
    have := rsync_plain t [] [c] fun x hx => h x (List.mem_cons_of_mem _ hx)
    rw [List.append_nil] at this
    rw [this, rsyncArgs]
    rfl

theorem rsync_single (t : List Char) (cur : List Char) (h : '\'' ∉ t) : rsyncArgs (t ++ ['\'']) (some cur) (some '\'') = some [cur ++ t] := by
  induction t generalizing cur with
  | nil => simp [rsyncArgs]
  | cons c t ih =>
    have hc : c ≠ '\'' := fun e => h (by simp [e])
    show rsyncArgs (c :: (t ++ ['\''])) (some cur) (some '\'') = _
    rw [rsyncArgs.eq_def]
    dsimp only
    rw [if_neg hc, Option.getD_some, ih _ fun e => h (List.mem_cons_of_mem _ e)]
    simp

theorem escape_id (t : List Char) (h : '\'' ∉ t) : escape t = t := by
  induction t with
  | nil => rfl
  | cons c t ih =>
    have hc : c ≠ '\'' := fun e => h (by simp [e])
    unfold escape
    rw [if_neg hc, ih fun e => h (List.mem_cons_of_mem _ e)]

/-- **rsync gets the identity file as it is**, spaces and all, for every name without a single quote. -/
theorem identity_exact (port i : List Char) (hp : Plain port) (hp0 : port ≠ []) (hi : '\'' ∉ i) :
    rsyncArgs (sshFiles port (some i)) none none = some ["ssh".toList, "-p".toList, port, "-o".toList, "ConnectTimeout=30".toList, "-i".toList, i] := by
  have e : sshFiles port (some i) = "ssh".toList ++ ' ' :: ("-p".toList ++ ' ' :: (port ++ ' ' :: ("-o".toList ++ ' ' :: ("ConnectTimeout=30".toList ++ ' ' :: ("-i".toList ++ ' ' :: quote i))))) := by
    have h1 : "ssh -p ".toList = "ssh".toList ++ ' ' :: ("-p".toList ++ [' ']) := by decide
    have h2 : " -o ConnectTimeout=30 -i ".toList = ' ' :: ("-o".toList ++ ' ' :: ("ConnectTimeout=30".toList ++ ' ' :: ("-i".toList ++ [' ']))) := by decide
    unfold sshFiles
    dsimp only
    rw [h1, h2]
    simp only [List.append_assoc, List.cons_append, List.nil_append]
  have hq : rsyncArgs (quote i) none none = some [i] := by
    unfold quote
    rw [escape_id i hi]
    show rsyncArgs ('\'' :: (i ++ ['\''])) none none = _
    rw [rsyncArgs, if_neg (by decide), if_pos (by decide), Option.getD_none, rsync_single i [] hi]
    rfl
  rw [e, rsync_word _ _ (by unfold Plain; decide) (by decide), rsync_word _ _ (by unfold Plain; decide) (by decide), rsync_word _ _ hp hp0, rsync_word _ _ (by unfold Plain; decide) (by decide),
    rsync_word _ _ (by unfold Plain; decide) (by decide), rsync_word _ _ (by unfold Plain; decide) (by decide), hq]
  rfl

/-- The binary's transfer: exact for names without spaces and quotes. -/
theorem identity_binary_partial (port i : List Char) (hp : Plain port) (hp0 : port ≠ []) (hi : Plain i) (hi0 : i ≠ []) :
    ∃ t, sshBinary port (some i) = some t ∧ rsyncArgs t none none = some (if port ≠ ['2', '2'] then ["ssh".toList, "-p".toList, port, "-i".toList, i] else ["ssh".toList, "-i".toList, i]) := by
  unfold sshBinary
  dsimp only
  by_cases h : port = ['2', '2']
  · subst h
    refine ⟨"ssh".toList ++ ' ' :: ("-i".toList ++ ' ' :: i), ?_, ?_⟩
    · simp
    · rw [rsync_word _ _ (by unfold Plain; decide) (by decide), rsync_word _ _ (by unfold Plain; decide) (by decide), rsync_end i hi hi0]
      rfl
  · refine ⟨"ssh".toList ++ ' ' :: ("-p".toList ++ ' ' :: (port ++ ' ' :: ("-i".toList ++ ' ' :: i))), ?_, ?_⟩
    · simp [h]
    · rw [rsync_word _ _ (by unfold Plain; decide) (by decide), rsync_word _ _ (by unfold Plain; decide) (by decide), rsync_word _ _ hp hp0, rsync_word _ _ (by unfold Plain; decide) (by decide), rsync_end i hi hi0, if_pos h]
      rfl

/-- **Disagreement: an identity file with a space in its name** reaches the first transfer whole and the second in pieces, so the files are copied
and the binary is not. -/
theorem identity_split (a b : List Char) (ha : Plain a) (ha0 : a ≠ []) (hb : Plain b) (hb0 : b ≠ []) :
    rsyncArgs (sshFiles ['2', '2'] (some (a ++ ' ' :: b))) none none = some ["ssh".toList, "-p".toList, ['2', '2'], "-o".toList, "ConnectTimeout=30".toList, "-i".toList, a ++ ' ' :: b] ∧
    (sshBinary ['2', '2'] (some (a ++ ' ' :: b))).bind (fun t => rsyncArgs t none none) = some ["ssh".toList, "-i".toList, a, b] := by
  refine ⟨identity_exact _ _ (by unfold Plain; decide) (by decide) ?_, ?_⟩
  · simp only [List.mem_append, List.mem_cons, not_or]
    exact ⟨fun h => (ha _ h).2.1 rfl, by decide, fun h => (hb _ h).2.1 rfl⟩
  · have e : sshBinary ['2', '2'] (some (a ++ ' ' :: b)) = some ("ssh".toList ++ ' ' :: ("-i".toList ++ ' ' :: (a ++ ' ' :: b))) := by
      simp [sshBinary]
    rw [e, Option.bind_some, rsync_word _ _ (by unfold Plain; decide) (by decide), rsync_word _ _ (by unfold Plain; decide) (by decide), rsync_word a b ha ha0, rsync_end b hb hb0]
    rfl

/-- **Disagreement: rsync does not know the shell's way of writing a quote**: an identity file called `it's` is refused. -/
theorem identity_quote_refused : rsyncArgs (sshFiles ['2', '2'] (some "it's".toList)) none none = none := by decide +kernel

example : Plain "/home/me/.ssh/id_ed25519".toList ∧ Plain "2222".toList := by unfold Plain; decide
example : rsyncArgs (sshFiles "2222".toList (some "/my keys/k".toList)) none none = some ["ssh".toList, "-p".toList, "2222".toList, "-o".toList, "ConnectTimeout=30".toList, "-i".toList, "/my keys/k".toList] :=
  identity_exact _ _ (by unfold Plain; decide) (by decide) (by decide)

end Horus.Shell
