import Verif.Model.Main
import Verif.Spec.CommandLine
/-!
# The command line: `parseArgs` and its specification
-/
namespace Verif.Proof.CommandLine
open Verif Verif.Spec

theorem cutEq_none {s : Str} (h : '=' ∉ s) : cutEq s = (s, none) := by
  induction s with
  | nil => rfl
  | cons c s ih =>
    have hc : ¬ c = '=' := fun e => h (by simp [e])
    have hs : '=' ∉ s := fun e => h (by simp [e])
    simp only [cutEq, if_neg hc, ih hs]

theorem cutEq_some {s v : Str} (h : '=' ∉ s) : cutEq (s ++ '=' :: v) = (s, some v) := by
  induction s with
  | nil => rfl
  | cons c s ih =>
    have hc : ¬ c = '=' := fun e => h (by simp [e])
    have hs : '=' ∉ s := fun e => h (by simp [e])
    simp only [List.cons_append, cutEq, if_neg hc, ih hs]

/-- What is cut is what was there. -/
theorem cutEq_cases (s : Str) : '=' ∉ (cutEq s).1 ∧ ((cutEq s).2 = none ∧ s = (cutEq s).1 ∨ ∃ v, (cutEq s).2 = some v ∧ s = (cutEq s).1 ++ '=' :: v) := by
  induction s with
  | nil => simp [cutEq]
  | cons c s ih =>
    by_cases hc : c = '='
    · subst hc; simp [cutEq]
    · simp only [cutEq, if_neg hc]
      refine ⟨?_, ?_⟩
      · simp only [List.mem_cons, not_or]; exact ⟨fun e => hc e.symm, ih.1⟩
      · rcases ih.2 with ⟨h1, h2⟩ | ⟨v, h1, h2⟩
        · exact .inl ⟨h1, congrArg (c :: ·) h2⟩
        · exact .inr ⟨v, h1, congrArg (c :: ·) h2⟩

/-- The part of `parseArgs` behind the dashes. -/
def named (acc : Str) (s name : Str) (args : List Str) : ArgOut :=
  if name = [] ∨ name.head? = some '-' ∨ name.head? = some '=' then .bad ("bad flag syntax: ".toList ++ s)
  else
    if (splitEq name).1 = "outdir".toList then
      match (splitEq name).2, args with
      | some v, args => parseArgs v args
      | none, v :: args => parseArgs v args
      | none, [] => .bad "flag needs an argument: -outdir".toList
    else if (splitEq name).1 = "help".toList ∨ (splitEq name).1 = "h".toList then .help
    else .bad ("flag provided but not defined: -".toList ++ (splitEq name).1)

theorem parse_nil (acc : Str) : parseArgs acc [] = .go acc [] := by unfold parseArgs; rfl

theorem parse_stop (acc : Str) {s : Str} (args : List Str) (h : ¬ IsOption s) : parseArgs acc (s :: args) = .go acc (s :: args) := by
  unfold parseArgs
  refine if_pos ?_
  match s with
  | [] => simp
  | [c] => simp
  | c :: d :: t =>
    right
    intro e
    simp only [List.head?_cons, Option.some.injEq] at e
    exact h ⟨d, t, by rw [e]⟩

theorem parse_dashes (acc : Str) (args : List Str) : parseArgs acc (['-', '-'] :: args) = .go acc args := by
  unfold parseArgs
  simp

theorem parse_one (acc : Str) {c : Char} {t : Str} (args : List Str) (h : c ≠ '-') :
    parseArgs acc (('-' :: c :: t) :: args) = named acc ('-' :: c :: t) (c :: t) args := by
  conv => lhs; unfold parseArgs
  have h1 : ¬ (('-' :: c :: t).length < 2 ∨ ('-' :: c :: t).head? ≠ some '-') := by simp
  have h2 : ¬ ('-' :: c :: t = ['-', '-']) := by simp [h]
  rw [if_neg h1, if_neg h2]
  have h3 : ¬ (('-' :: c :: t).tail.head? = some '-') := by simp [h]
  simp only [if_neg h3]
  rfl

theorem parse_two (acc : Str) {t : Str} (args : List Str) (h : t ≠ []) :
    parseArgs acc (('-' :: '-' :: t) :: args) = named acc ('-' :: '-' :: t) t args := by
  conv => lhs; unfold parseArgs
  have h1 : ¬ (('-' :: '-' :: t).length < 2 ∨ ('-' :: '-' :: t).head? ≠ some '-') := by simp
  have h2 : ¬ ('-' :: '-' :: t = ['-', '-']) := by simp [h]
  rw [if_neg h1, if_neg h2]
  have h3 : ('-' :: '-' :: t).tail.head? = some '-' := by simp
  simp only [if_pos h3]
  rfl

theorem splitEq_plain {name : Str} (hn : IsName name) : splitEq name = (name, none) := by
  obtain ⟨h1, _, h3⟩ := hn
  match name, h1 with
  | c :: t, _ =>
    have : '=' ∉ t := fun e => h3 (by simp [e])
    simp only [splitEq, cutEq_none this]

theorem splitEq_value {name : Str} (v : Str) (hn : IsName name) : splitEq (name ++ '=' :: v) = (name, some v) := by
  obtain ⟨h1, _, h3⟩ := hn
  match name, h1 with
  | c :: t, _ =>
    have : '=' ∉ t := fun e => h3 (by simp [e])
    simp only [List.cons_append, splitEq, cutEq_some this]

theorem good_head {name : Str} (hn : IsName name) : ¬ (name = [] ∨ name.head? = some '-' ∨ name.head? = some '=') := by
  obtain ⟨h1, h2, h3⟩ := hn
  rintro (h | h | h)
  · exact h1 h
  · exact h2 h
  · match name, h with
    | c :: t, h => simp only [List.head?_cons, Option.some.injEq] at h; subst h; simp at h3

theorem good_head_value {name : Str} (v : Str) (hn : IsName name) :
    ¬ (name ++ '=' :: v = [] ∨ (name ++ '=' :: v).head? = some '-' ∨ (name ++ '=' :: v).head? = some '=') := by
  have := good_head hn
  match name, hn.1, this with
  | c :: t, _, h => simpa using h

/-- A named option without a value of its own. -/
theorem named_plain (acc s : Str) {name : Str} (args : List Str) (hn : IsName name) :
    named acc s name args =
      if name = "outdir".toList then
        (match args with | v :: args => parseArgs v args | [] => .bad "flag needs an argument: -outdir".toList)
      else if name = "help".toList ∨ name = "h".toList then .help
      else .bad ("flag provided but not defined: -".toList ++ name) := by
  unfold named
  rw [if_neg (good_head hn), splitEq_plain hn]
  cases args <;> rfl

/-- A named option with a value of its own. -/
theorem named_value (acc s : Str) {name : Str} (v : Str) (args : List Str) (hn : IsName name) :
    named acc s (name ++ '=' :: v) args =
      if name = "outdir".toList then parseArgs v args
      else if name = "help".toList ∨ name = "h".toList then .help
      else .bad ("flag provided but not defined: -".toList ++ name) := by
  unfold named
  rw [if_neg (good_head_value v hn), splitEq_value v hn]

/-- One or two dashes make no difference before a name. -/
theorem parse_name (acc : Str) {d t : Str} (args : List Str) (hd : d = ['-'] ∨ d = ['-', '-']) (ht : t ≠ []) (hm : t.head? ≠ some '-') :
    parseArgs acc ((d ++ t) :: args) = named acc (d ++ t) t args := by
  match t, ht, hm with
  | c :: t, _, hm =>
    rcases hd with rfl | rfl
    · exact parse_one acc args (fun e => hm (by simp [e]))
    · exact parse_two acc args (by simp)

theorem isName_outdir : IsName "outdir".toList := by unfold IsName; decide
theorem isName_h : IsName "h".toList := by unfold IsName; decide
theorem isName_help : IsName "help".toList := by unfold IsName; decide

theorem name_head {name : Str} (hn : IsName name) (t : Str) : name ++ t ≠ [] ∧ (name ++ t).head? ≠ some '-' := by
  match name, hn with
  | c :: n, hn => exact ⟨by simp, by simpa using hn.2.1⟩
  | [], hn => exact absurd rfl hn.1

theorem parse_plain (acc : Str) {d name : Str} (args : List Str) (hd : d = ['-'] ∨ d = ['-', '-']) (hn : IsName name) :
    parseArgs acc ((d ++ name) :: args) =
      if name = "outdir".toList then
        (match args with | v :: args => parseArgs v args | [] => .bad "flag needs an argument: -outdir".toList)
      else if name = "help".toList ∨ name = "h".toList then .help
      else .bad ("flag provided but not defined: -".toList ++ name) := by
  rw [parse_name acc args hd hn.1 hn.2.1, named_plain acc _ args hn]

theorem parse_value (acc : Str) {d name : Str} (v : Str) (args : List Str) (hd : d = ['-'] ∨ d = ['-', '-']) (hn : IsName name) :
    parseArgs acc ((d ++ name ++ '=' :: v) :: args) =
      if name = "outdir".toList then parseArgs v args
      else if name = "help".toList ∨ name = "h".toList then .help
      else .bad ("flag provided but not defined: -".toList ++ name) := by
  rw [List.append_assoc, parse_name acc args hd (name_head hn _).1 (name_head hn _).2, named_value acc _ v args hn]

theorem parse_gives {o : List Str} {d : Str} (h : GivesDir o d) (acc : Str) (rest : List Str) : parseArgs acc (o ++ rest) = parseArgs d rest := by
  cases h with
  | next => exact (parse_plain acc (d := ['-']) (_ :: rest) (.inl rfl) isName_outdir).trans (if_pos rfl)
  | next2 => exact (parse_plain acc (d := ['-', '-']) (_ :: rest) (.inr rfl) isName_outdir).trans (if_pos rfl)
  | same => exact (parse_value acc (d := ['-']) _ rest (.inl rfl) isName_outdir).trans (if_pos rfl)
  | same2 => exact (parse_value acc (d := ['-', '-']) _ rest (.inr rfl) isName_outdir).trans (if_pos rfl)

theorem parse_options {opts : List Str} {d : Str} (h : Options opts d) : ∀ rest, parseArgs [] (opts ++ rest) = parseArgs d rest := by
  induction h with
  | none => intro rest; rfl
  | more _ ho ih => intro rest; rw [List.append_assoc, ih, parse_gives ho]

theorem parse_wrong {args : List Str} {text : Str} (h : Wrong args text) (acc : Str) : parseArgs acc args = .bad text := by
  cases h with
  | @«syntax» s t rest h =>
    rcases h with rfl | rfl | rfl
    · exact (parse_two acc (t := '-' :: t) rest (by simp)).trans (if_pos (by simp))
    · exact (parse_one acc (c := '=') (t := t) rest (by decide)).trans (if_pos (by simp))
    · exact (parse_two acc (t := '=' :: t) rest (by simp)).trans (if_pos (by simp))
  | missing h =>
    rcases h with rfl | rfl
    · exact (parse_plain acc (d := ['-']) [] (.inl rfl) isName_outdir).trans (if_pos rfl)
    · exact (parse_plain acc (d := ['-', '-']) [] (.inr rfl) isName_outdir).trans (if_pos rfl)
  | unknown hn h1 h2 h3 hs =>
    have hh := not_or.mpr ⟨h3, h2⟩
    cases hs with
    | plain hd => rw [parse_plain acc _ hd hn, if_neg h1, if_neg hh]
    | value hd => rw [parse_value acc _ _ hd hn, if_neg h1, if_neg hh]

theorem parse_help {args : List Str} (h : Help args) (acc : Str) : parseArgs acc args = .help := by
  cases h with
  | @help s name rest h hs =>
    have hn : IsName name := by rcases h with rfl | rfl; exact isName_h; exact isName_help
    have h1 : name ≠ "outdir".toList := by rcases h with rfl | rfl <;> decide
    have h2 : name = "help".toList ∨ name = "h".toList := h.symm
    cases hs with
    | plain hd => rw [parse_plain acc _ hd hn, if_neg h1, if_pos h2]
    | value hd => rw [parse_value acc _ _ hd hn, if_neg h1, if_pos h2]

/-- An argument that is neither a file, nor `--`, nor wrong by itself, is named. -/
theorem option_cases (s : Str) :
    ¬ IsOption s ∨ s = ['-', '-'] ∨ (∃ t, s = "---".toList ++ t ∨ s = "-=".toList ++ t ∨ s = "--=".toList ++ t) ∨
    ∃ d name, (d = ['-'] ∨ d = ['-', '-']) ∧ IsName name ∧ (s = d ++ name ∨ ∃ v, s = d ++ name ++ '=' :: v) := by
  have key : ∀ (d : Str) (c : Char) (t : Str), (d = ['-'] ∨ d = ['-', '-']) → c ≠ '-' → c ≠ '=' →
      ∃ d' name, (d' = ['-'] ∨ d' = ['-', '-']) ∧ IsName name ∧ (d ++ c :: t = d' ++ name ∨ ∃ v, d ++ c :: t = d' ++ name ++ '=' :: v) := by
    intro d c t hd h1 h2
    obtain ⟨hc1, hc2⟩ := cutEq_cases t
    refine ⟨d, c :: (cutEq t).1, hd, ⟨by simp, by simpa using h1, ?_⟩, ?_⟩
    · simp only [List.mem_cons, not_or]; exact ⟨fun e => h2 e.symm, hc1⟩
    · rcases hc2 with ⟨_, e⟩ | ⟨v, _, e⟩
      · left; rw [← e]
      · right; exact ⟨v, by rw [List.append_assoc, List.cons_append, ← e]⟩
  by_cases ho : IsOption s
  · obtain ⟨c, t, rfl⟩ := ho
    right
    by_cases hc : c = '-'
    · subst hc
      match t with
      | [] => left; rfl
      | c :: t =>
        right
        by_cases h1 : c = '-'
        · subst h1; left; exact ⟨t, .inl rfl⟩
        · by_cases h2 : c = '='
          · subst h2; left; exact ⟨t, .inr (.inr rfl)⟩
          · right; exact key ['-', '-'] c t (.inr rfl) h1 h2
    · right
      by_cases h2 : c = '='
      · subst h2; left; exact ⟨t, .inr (.inl rfl)⟩
      · right; exact key ['-'] c t (.inl rfl) hc h2
  · exact .inl ho

/-- Every command line makes sense, is wrong or asks for help. -/
theorem all_cases : ∀ (n : Nat) (args : List Str), args.length ≤ n → ∀ (pre : List Str) (d : Str), Options pre d →
    (∃ dir files, Means (pre ++ args) dir files) ∨ (∃ opts d rest text, pre ++ args = opts ++ rest ∧ Options opts d ∧ Wrong rest text) ∨
    (∃ opts d rest, pre ++ args = opts ++ rest ∧ Options opts d ∧ Help rest) := by
  intro n
  induction n with
  | zero =>
    intro args hl pre d hp
    match args, hl with
    | [], _ => exact .inl ⟨d, [], .files hp (by simp)⟩
  | succ n ih =>
    intro args hl pre d hp
    match args, hl with
    | [], _ => exact .inl ⟨d, [], .files hp (by simp)⟩
    | s :: args, hl =>
      have hl' : args.length ≤ n := by simpa using hl
      have step : ∀ (o rest : List Str) (v : Str), s :: args = o ++ rest → rest.length ≤ n → GivesDir o v →
          (∃ dir files, Means (pre ++ s :: args) dir files) ∨ (∃ opts d rest text, pre ++ s :: args = opts ++ rest ∧ Options opts d ∧ Wrong rest text) ∨
          (∃ opts d rest, pre ++ s :: args = opts ++ rest ∧ Options opts d ∧ Help rest) := by
        intro o rest v e hr hg
        have := ih rest hr (pre ++ o) v (.more hp hg)
        rwa [List.append_assoc, ← e] at this
      rcases option_cases s with h | rfl | ⟨t, h⟩ | ⟨dd, name, hd, hn, h⟩
      · exact .inl ⟨d, s :: args, .files hp (by intro s' e; simp only [List.head?_cons, Option.some.injEq] at e; exact e ▸ h)⟩
      · exact .inl ⟨d, args, .dashes hp⟩
      · exact .inr (.inl ⟨pre, d, s :: args, _, rfl, hp, .«syntax» h⟩)
      · have hnamed : Named name s := by rcases h with rfl | ⟨v, rfl⟩; exact .plain hd; exact .value hd
        by_cases h1 : name = "outdir".toList
        · subst h1
          rcases h with rfl | ⟨v, rfl⟩
          · match args, hl' with
            | [], _ => exact .inr (.inl ⟨pre, d, _, _, rfl, hp, .missing (by rcases hd with rfl | rfl; exact .inl rfl; exact .inr rfl)⟩)
            | v :: args, hl' =>
              have : args.length ≤ n := Nat.le_trans (Nat.le_succ _) hl'
              rcases hd with rfl | rfl
              · exact step _ args v rfl this (.next v)
              · exact step _ args v rfl this (.next2 v)
          · rcases hd with rfl | rfl
            · exact step _ args v rfl hl' (.same v)
            · exact step _ args v rfl hl' (.same2 v)
        · by_cases h2 : name = "h".toList ∨ name = "help".toList
          · exact .inr (.inr ⟨pre, d, s :: args, rfl, hp, .help h2 hnamed⟩)
          · have := not_or.mp h2
            exact .inr (.inl ⟨pre, d, s :: args, _, rfl, hp, .unknown hn h1 this.1 this.2 hnamed⟩)

theorem means_parse {args : List Str} {dir : Str} {files : List Str} (h : Means args dir files) : parseArgs [] args = .go dir files := by
  cases h with
  | files ho hf =>
    rw [parse_options ho]
    cases files with
    | nil => exact parse_nil _
    | cons s fs => exact parse_stop _ _ (hf s rfl)
  | dashes ho => rw [parse_options ho, parse_dashes]

theorem parse_means {args : List Str} {dir : Str} {files : List Str} (h : parseArgs [] args = .go dir files) : Means args dir files := by
  rcases all_cases _ args (Nat.le_refl _) [] [] .none with ⟨d, fs, hm⟩ | ⟨opts, d, rest, text, e, ho, hw⟩ | ⟨opts, d, rest, e, ho, hh⟩
  · have := (means_parse hm).symm.trans h
    injection this with e1 e2
    subst e1; subst e2; exact hm
  · rw [List.nil_append] at e; rw [e, parse_options ho, parse_wrong hw] at h; cases h
  · rw [List.nil_append] at e; rw [e, parse_options ho, parse_help hh] at h; cases h

theorem parse_bad {args : List Str} {text : Str} :
    parseArgs [] args = .bad text ↔ ∃ opts d rest, args = opts ++ rest ∧ Options opts d ∧ Wrong rest text := by
  constructor
  · intro h
    rcases all_cases _ args (Nat.le_refl _) [] [] .none with ⟨d, fs, hm⟩ | ⟨opts, d, rest, text', e, ho, hw⟩ | ⟨opts, d, rest, e, ho, hh⟩
    · have := (means_parse hm).symm.trans h
      cases this
    · rw [List.nil_append] at e
      have h' := h
      rw [e, parse_options ho, parse_wrong hw] at h'
      injection h' with e'
      subst e'
      exact ⟨opts, d, rest, e, ho, hw⟩
    · rw [List.nil_append] at e; rw [e, parse_options ho, parse_help hh] at h; cases h
  · rintro ⟨opts, d, rest, rfl, ho, hw⟩
    rw [parse_options ho, parse_wrong hw]

theorem parse_asks {args : List Str} :
    parseArgs [] args = .help ↔ ∃ opts d rest, args = opts ++ rest ∧ Options opts d ∧ Help rest := by
  constructor
  · intro h
    rcases all_cases _ args (Nat.le_refl _) [] [] .none with ⟨d, fs, hm⟩ | ⟨opts, d, rest, text', e, ho, hw⟩ | ⟨opts, d, rest, e, ho, hh⟩
    · have := (means_parse hm).symm.trans h
      cases this
    · rw [List.nil_append] at e; rw [e, parse_options ho, parse_wrong hw] at h; cases h
    · exact ⟨opts, d, rest, e, ho, hh⟩
  · rintro ⟨opts, d, rest, rfl, ho, hw⟩
    rw [parse_options ho, parse_help hw]

end Verif.Proof.CommandLine
