import Verif.Build.ApiDiff
/-
The lines `horus env --init` puts into a shell's start file and `--uninstall` takes out again:
/repo/horus_manager/src/commands/env.rs 134-156, 169-251.

Modelled: one start file (`.bashrc` or `.zshrc`) with whatever it holds, the reading of it, the new contents,
and the writing in place, which may be interrupted.
Simplified: `env.sh`, `env.fish` and fish's own file are left out; white space is ASCII.
-/
namespace Horus.ShellRc
open Horus.Imports (Text splitC trim splitC_free)
open Horus.ApiDiff (holds holds_iff splitC_append)

/-- What a file holds: text, or bytes that are no UTF-8. -/
inductive Raw
  | text (t : Text)
  | bytes (b : List UInt8)
  deriving DecidableEq

def mark : Text := ".horus/env.sh".toList
def comment : Text := "# Horus shell integration".toList
/-- env.rs 195. -/
def source : Text := "[ -f \"$HOME/.horus/env.sh\" ] && source \"$HOME/.horus/env.sh\"".toList

/-- `read_to_string(..).unwrap_or_default()` (env.rs 200, 238). -/
def contents : Raw → Text
  | .text t => t
  | .bytes _ => []

/-- env.rs 202-208. -/
def added (c : Text) : Text :=
  (if c.getLast? = some '\n' then c else c ++ ['\n']) ++ ('\n' :: (comment ++ ('\n' :: (source ++ ['\n']))))

/-- `add_source_line_if_missing` (env.rs 193-213) for one file; no file, no change. -/
def install : Option Raw → Option Raw
  | none => none
  | some r => if holds mark (contents r) then some r else some (.text (added (contents r)))

def stripCr (l : Text) : Text := if l.getLast? = some '\r' then l.dropLast else l

/-- `str::lines`. -/
def lines (s : Text) : List Text :=
  (splitC '\n' s).dropLast.map stripCr ++ (match (splitC '\n' s).getLast? with
    | some l => if l = [] then [] else [l]
    | none => [])

/-- Lines joined, each with its line end (`join("\n") + "\n"`). -/
def unlines : List Text → Text
  | [] => ['\n']
  | [l] => l ++ ['\n']
  | l :: ls => l ++ '\n' :: unlines ls

/-- env.rs 242-245. -/
def keeps (l : Text) : Bool := !holds mark l && decide (trim l ≠ comment)

/-- `remove_source_lines` (env.rs 232-251) for one file. -/
def uninstall : Option Raw → Option Raw
  | none => none
  | some r => if holds mark (contents r) then some (.text (unlines ((lines (contents r)).filter keeps))) else some r

/-- `fs::write`: the file is emptied and then written; stopped on the way, it holds a beginning of the new text. -/
def interrupted (new : Text) (k : Nat) : Raw := .text (new.take k)

/-! ### Proofs -/

/-- **A file without the mark is left as it is by the removal**, whatever it holds and whether it is there at all. -/
theorem uninstall_untouched (f : Option Raw) (h : ∀ r, f = some r → holds mark (contents r) = false) : uninstall f = f := by
  cases f with
  | none => rfl
  | some r => simp [uninstall, h r rfl]

example : uninstall (some (.text "alias ll='ls -l'\n".toList)) = some (.text "alias ll='ls -l'\n".toList) := by decide +kernel

/-- **Installing only appends**: what the file held is still there, before the new lines. -/
theorem install_appends_partial (c : Text) : ∃ t, install (some (.text c)) = some (.text (c ++ t)) := by
  unfold install contents
  dsimp only
  by_cases h : holds mark c = true
  · rw [if_pos h]; exact ⟨[], by rw [List.append_nil]⟩
  · rw [if_neg h]
    unfold added
    by_cases h2 : c.getLast? = some '\n'
    · rw [if_pos h2]; exact ⟨_, rfl⟩
    · rw [if_neg h2, List.append_assoc]; exact ⟨_, rfl⟩

theorem source_mark : mark <:+: source := by
  rw [← holds_iff]; decide +kernel

theorem added_mark (c : Text) : holds mark (added c) = true := by
  rw [holds_iff]
  obtain ⟨a, b, h⟩ := source_mark
  unfold added
  exact ⟨(if c.getLast? = some '\n' then c else c ++ ['\n']) ++ ('\n' :: (comment ++ ('\n' :: a))), b ++ ['\n'], by rw [← h]; simp⟩

/-- **Installing again changes nothing.** -/
theorem install_again (r : Option Raw) : install (install r) = install r := by
  cases r with
  | none => rfl
  | some r =>
    show install (if holds mark (contents r) then some r else some (.text (added (contents r)))) = (if holds mark (contents r) then some r else some (.text (added (contents r))))
    by_cases h : holds mark (contents r) = true
    · simp only [if_pos h, install]
    · simp only [if_neg h]
      show (if holds mark (added (contents r)) then _ else _) = _
      rw [if_pos (added_mark _)]

/-- The file holds the line that loads the integration, as a line of its own. -/
theorem install_line (c : Text) (h : ¬ mark <:+: c) : ∃ a, install (some (.text c)) = some (.text (a ++ '\n' :: (source ++ ['\n']))) := by
  rw [← holds_iff] at h
  refine ⟨(if c.getLast? = some '\n' then c else c ++ ['\n']) ++ ('\n' :: comment), ?_⟩
  show (if holds mark c then _ else _) = _
  rw [if_neg h]
  show some (Raw.text (added c)) = _
  unfold added
  simp

/-! Lines -/

theorem splitC_ne (c : Char) (s : Text) : splitC c s ≠ [] := by
  cases s with
  | nil => simp [splitC]
  | cons x t =>
    rw [splitC]
    by_cases h : x = c
    · rw [if_pos h]; simp
    · rw [if_neg h]; split <;> simp

theorem lines_append (a b : Text) : lines (a ++ '\n' :: b) = (splitC '\n' a).map stripCr ++ lines b := by
  unfold lines
  rw [splitC_append, List.dropLast_append_of_ne_nil (splitC_ne _ _), List.map_append, List.append_assoc, List.getLast?_append_of_ne_nil _ (splitC_ne _ _)]

theorem splitC_no (c : Char) (s : Text) : ∀ p ∈ splitC c s, c ∉ p := by
  induction s with
  | nil => intro p hp; rw [splitC, List.mem_singleton] at hp; subst hp; simp
  | cons x t ih =>
    intro p hp
    rw [splitC] at hp
    by_cases h : x = c
    · rw [if_pos h] at hp
      rcases List.mem_cons.1 hp with rfl | hp
      · simp
      · exact ih p hp
    · rw [if_neg h] at hp
      cases hs : splitC c t with
      | nil => exact absurd hs (splitC_ne c t)
      | cons q qs =>
        rw [hs] at hp
        rcases List.mem_cons.1 hp with rfl | hp
        · intro hc
          rcases List.mem_cons.1 hc with hc | hc
          · exact h hc.symm
          · exact ih q (by rw [hs]; simp) hc
        · exact ih p (by rw [hs]; simp [hp])

theorem splitC_infix (c : Char) (s : Text) : ∀ p ∈ splitC c s, p <:+: s := by
  have key : ∀ s : Text, (∀ p ∈ splitC c s, p <:+: s) ∧ ∀ p, (splitC c s).head? = some p → p <+: s := by
    intro s
    induction s with
    | nil =>
      refine ⟨?_, ?_⟩
      · intro p hp; rw [splitC, List.mem_singleton] at hp; subst hp; exact List.infix_refl _
      · intro p hp; rw [splitC] at hp; injection hp with hp; subst hp; exact List.prefix_refl _
    | cons x t ih =>
      rw [splitC]
      by_cases h : x = c
      · rw [if_pos h]
        refine ⟨?_, ?_⟩
        · intro p hp
          rcases List.mem_cons.1 hp with rfl | hp
          · exact List.nil_infix
          · exact (ih.1 p hp).trans (List.suffix_cons x t).isInfix
        · intro p hp; injection hp with hp; subst hp; exact List.nil_prefix
      · rw [if_neg h]
        cases hs : splitC c t with
        | nil => exact absurd hs (splitC_ne c t)
        | cons q qs =>
          have hq : q <+: t := ih.2 q (by rw [hs]; rfl)
          have hq2 : x :: q <+: x :: t := List.cons_prefix_cons.2 ⟨rfl, hq⟩
          refine ⟨?_, ?_⟩
          · intro p hp
            rcases List.mem_cons.1 hp with rfl | hp
            · exact hq2.isInfix
            · exact (ih.1 p (by rw [hs]; simp [hp])).trans (List.suffix_cons x t).isInfix
          · intro p hp; injection hp with hp; subst hp; exact hq2
  exact (key s).1

theorem strip_id (l : Text) (h : '\r' ∉ l) : stripCr l = l := by
  unfold stripCr
  rw [if_neg]
  intro hl
  exact h (List.mem_of_getLast? hl)

/-- Lines without line ends are read back. -/
theorem lines_unlines (ls : List Text) (hne : ls ≠ []) (h : ∀ l ∈ ls, '\n' ∉ l ∧ '\r' ∉ l) : lines (unlines ls) = ls := by
  induction ls with
  | nil => exact absurd rfl hne
  | cons l ls ih =>
    have one : ∀ b : Text, lines (l ++ '\n' :: b) = l :: lines b := by
      intro b
      rw [lines_append, splitC_free '\n' l (h l (by simp)).1, List.map_singleton, strip_id l (h l (by simp)).2]
      rfl
    cases ls with
    | nil => show lines (l ++ '\n' :: []) = _; rw [one]; rfl
    | cons m ls =>
      show lines (l ++ '\n' :: unlines (m :: ls)) = _
      rw [one, ih (by simp) (fun x hx => h x (by simp [hx]))]

theorem mem_stripCr (x : Char) (l : Text) (h : x ∈ stripCr l) : x ∈ l := by
  unfold stripCr at h
  split at h
  · exact List.mem_of_mem_dropLast h
  · exact h

theorem lines_no (s : Text) : ∀ l ∈ lines s, '\n' ∉ l := by
  intro l hl
  unfold lines at hl
  rcases List.mem_append.1 hl with hl | hl
  · obtain ⟨p, hp, rfl⟩ := List.mem_map.1 hl
    exact fun hc => splitC_no '\n' s p (List.mem_of_mem_dropLast hp) (mem_stripCr _ _ hc)
  · cases hg : (splitC '\n' s).getLast? with
    | none => rw [hg] at hl; cases hl
    | some p =>
      rw [hg] at hl
      dsimp only at hl
      split at hl
      · cases hl
      · rw [List.mem_singleton] at hl; subst hl
        exact splitC_no '\n' s l (List.mem_of_getLast? hg)

/-- In a text without carriage returns, each line is a part of the text. -/
theorem lines_part (s : Text) (h : '\r' ∉ s) : ∀ l ∈ lines s, l <:+: s := by
  intro l hl
  unfold lines at hl
  rcases List.mem_append.1 hl with hl | hl
  · obtain ⟨p, hp, rfl⟩ := List.mem_map.1 hl
    have hi := splitC_infix '\n' s p (List.mem_of_mem_dropLast hp)
    rw [strip_id p (fun hc => h (hi.subset hc))]
    exact hi
  · cases hg : (splitC '\n' s).getLast? with
    | none => rw [hg] at hl; cases hl
    | some p =>
      rw [hg] at hl
      dsimp only at hl
      split at hl
      · cases hl
      · rw [List.mem_singleton] at hl; subst hl
        exact splitC_infix '\n' s l (List.mem_of_getLast? hg)

/-- **Uninstalling keeps every line but those that mention `.horus/env.sh` and the comments**, in their order. -/
theorem uninstall_exact_partial (c : Text) (hm : mark <:+: c) (hcr : '\r' ∉ c) (hne : (lines c).filter keeps ≠ []) :
    ∃ t, uninstall (some (.text c)) = some (.text t) ∧ lines t = (lines c).filter fun l => decide (¬ mark <:+: l ∧ trim l ≠ comment) := by
  refine ⟨unlines ((lines c).filter keeps), ?_, ?_⟩
  · show (if holds mark c then _ else _) = _
    rw [if_pos ((holds_iff _ _).2 hm)]
    rfl
  · rw [lines_unlines _ hne]
    · apply List.filter_congr
      intro l _
      unfold keeps
      rw [Bool.eq_iff_iff, Bool.and_eq_true, Bool.not_eq_true', decide_eq_true_eq, decide_eq_true_eq, ← holds_iff, Bool.not_eq_true]
    · intro l hl
      have hl' := List.mem_of_mem_filter hl
      exact ⟨lines_no c l hl', fun hc => hcr ((lines_part c hcr l hl').subset hc)⟩

theorem lines_ended (c : Text) (hcr : '\r' ∉ c) (hne : c ≠ []) (b : Text) :
    lines ((if c.getLast? = some '\n' then c else c ++ ['\n']) ++ b) = lines c ++ lines b := by
  have hstrip : ∀ s : Text, '\r' ∉ s → (splitC '\n' s).map stripCr = splitC '\n' s := by
    intro s hs
    have : ∀ p ∈ splitC '\n' s, stripCr p = p := fun p hp => strip_id p (fun hc => hs ((splitC_infix '\n' s p hp).subset hc))
    calc (splitC '\n' s).map stripCr = (splitC '\n' s).map id := List.map_congr_left this
      _ = _ := List.map_id _
  by_cases h : c.getLast? = some '\n'
  · rw [if_pos h]
    obtain ⟨a, rfl⟩ : ∃ a, c = a ++ ['\n'] := List.getLast?_eq_some_iff.1 h
    rw [List.append_assoc, List.singleton_append, lines_append, lines_append]
    have : lines [] = [] := by decide
    rw [this, List.append_nil]
  · rw [if_neg h, List.append_assoc, List.singleton_append, lines_append, hstrip c hcr]
    congr 1
    unfold lines
    obtain ⟨l, hl⟩ : ∃ l, (splitC '\n' c).getLast? = some l := by
      cases hg : (splitC '\n' c).getLast? with
      | none => exact absurd (List.getLast?_eq_none_iff.1 hg) (splitC_ne _ _)
      | some l => exact ⟨l, rfl⟩
    have hsplit : splitC '\n' c = (splitC '\n' c).dropLast ++ [l] := (List.dropLast_append_getLast? l hl).symm
    have hl0 : l ≠ [] := by
      intro h0
      -- the last piece is empty only when the text ends with a line end
      have hlast : ∀ s : Text, s ≠ [] → (splitC '\n' s).getLast? = some [] → s.getLast? = some '\n' := by
        intro s
        induction s with
        | nil => intro h1; exact absurd rfl h1
        | cons x t ih =>
          intro _ h2
          rw [splitC] at h2
          by_cases hx : x = '\n'
          · rw [if_pos hx] at h2
            cases t with
            | nil => rw [hx]; rfl
            | cons y t =>
              rw [List.getLast?_cons_of_ne_nil (splitC_ne _ _)] at h2
              rw [List.getLast?_cons_cons]
              exact ih (by simp) h2
          · rw [if_neg hx] at h2
            cases t with
            | nil => simp [splitC] at h2
            | cons y t =>
              cases hs : splitC '\n' (y :: t) with
              | nil => exact absurd hs (splitC_ne _ _)
              | cons q qs =>
                rw [hs] at h2
                dsimp only at h2
                cases qs with
                | nil => simp at h2
                | cons q2 qs =>
                  rw [List.getLast?_cons_cons] at h2
                  rw [List.getLast?_cons_cons]
                  apply ih (by simp)
                  rw [hs, List.getLast?_cons_cons]
                  exact h2
      exact h (hlast c hne (by rw [hl, h0]))
    rw [hl]
    dsimp only
    rw [if_neg hl0]
    have : (splitC '\n' c).dropLast.map stripCr = (splitC '\n' c).dropLast := by
      have hp : ∀ p ∈ (splitC '\n' c).dropLast, stripCr p = p := fun p hp => strip_id p (fun hc => hcr ((splitC_infix '\n' c p (List.mem_of_mem_dropLast hp)).subset hc))
      calc (splitC '\n' c).dropLast.map stripCr = (splitC '\n' c).dropLast.map id := List.map_congr_left hp
        _ = _ := List.map_id _
    rw [this]
    exact hsplit

theorem tail_lines : lines ('\n' :: (comment ++ ('\n' :: (source ++ ['\n'])))) = [[], comment, source] := by decide +kernel

/-- **Installing and uninstalling gives the old lines back, with an empty line more**: for a text with
nothing of HORUS's in it. -/
theorem cycle_adds_blank (c : Text) (hne : c ≠ []) (hcr : '\r' ∉ c) (hm : ¬ mark <:+: c) (hc : ∀ l ∈ lines c, trim l ≠ comment) :
    ∃ t, uninstall (install (some (.text c))) = some (.text t) ∧ lines t = lines c ++ [[]] := by
  have hm' : holds mark c = false := by
    cases h : holds mark c with
    | false => rfl
    | true => exact absurd ((holds_iff _ _).1 h) hm
  have hi : install (some (.text c)) = some (.text (added c)) := by
    show (if holds mark c then _ else _) = _
    rw [hm']; rfl
  have hl : lines (added c) = lines c ++ [[], comment, source] := by
    unfold added
    rw [lines_ended c hcr hne, tail_lines]
  have hf : (lines (added c)).filter keeps = lines c ++ [[]] := by
    rw [hl, List.filter_append]
    congr 1
    · apply List.filter_eq_self.2
      intro l hl
      unfold keeps
      rw [Bool.and_eq_true, Bool.not_eq_true', decide_eq_true_eq]
      refine ⟨?_, hc l hl⟩
      cases h : holds mark l with
      | false => rfl
      | true => exact absurd (((holds_iff _ _).1 h).trans (lines_part c hcr l hl)) hm
  refine ⟨unlines (lines c ++ [[]]), ?_, ?_⟩
  · rw [hi]
    show (if holds mark (added c) then _ else _) = _
    rw [if_pos (added_mark c)]
    show some (Raw.text (unlines ((lines (added c)).filter keeps))) = _
    rw [hf]
  · apply lines_unlines
    · simp
    · intro l hl
      rcases List.mem_append.1 hl with hl | hl
      · exact ⟨lines_no c l hl, fun h => hcr ((lines_part c hcr l hl).subset h)⟩
      · rw [List.mem_singleton] at hl; subst hl; simp

/-- **A start file that is not UTF-8 is replaced by HORUS's lines alone**, whatever it held. -/
theorem other_encoding_lost (b : List UInt8) : install (some (.bytes b)) = some (.text (added [])) := by
  show (if holds mark [] = true then some (Raw.bytes b) else some (Raw.text (added []))) = _
  rw [if_neg (by decide)]

/-- **Interrupted, the command leaves the start file empty**, though it was asked to add a line. -/
theorem interrupted_empty (c : Text) (h : ¬ mark <:+: c) : ∃ new, install (some (.text c)) = some (.text new) ∧ interrupted new 0 = .text [] := by
  obtain ⟨a, ha⟩ := install_line c h
  exact ⟨_, ha, rfl⟩

/-- Without a start file nothing is installed, and the command says that it was. -/
theorem none_installed : install none = none := rfl

/-- Uninstalling takes out the user's own lines that mention the file. -/
theorem own_line_lost : uninstall (some (.text "alias e='vi ~/.horus/env.sh'\nPATH=$PATH:~/bin\n".toList)) = some (.text "PATH=$PATH:~/bin\n".toList) := by decide +kernel

/-! ### Examples -/

example : install (some (.text "umask 022".toList)) = some (.text ("umask 022\n\n# Horus shell integration\n".toList ++ source ++ ['\n'])) := by decide +kernel
example : uninstall (install (some (.text "umask 022\n".toList))) = some (.text "umask 022\n\n".toList) := by decide +kernel
example : ¬ mark <:+: "umask 022\n".toList ∧ ∀ l ∈ lines "umask 022\n".toList, trim l ≠ comment := by rw [← holds_iff]; decide +kernel

end Horus.ShellRc
