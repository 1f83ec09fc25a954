import Verif.Proof.GoSound
/-!
# The reference Go scanner reads single tokens back, whatever follows them
-/
namespace Verif.Proof
open Verif Verif.Spec

/-- The first character, if there is one, satisfies `p`. -/
def HeadIs (p : Char → Prop) (s : Str) : Prop := ∀ c r, s = c :: r → p c

theorem headIs_cons {p : Char → Prop} {c r} : HeadIs p (c :: r) ↔ p c :=
  ⟨fun h => h c r rfl, fun h _ _ e => by cases e; exact h⟩
theorem headIs_nil {p : Char → Prop} : HeadIs p [] := fun _ _ e => by simp at e
theorem HeadIs.mono {p q : Char → Prop} {s} (h : HeadIs p s) (hpq : ∀ c, p c → q c) : HeadIs q s := fun c r e => hpq c (h c r e)

/-! ## Spans -/

theorem takeWhile_until {p : Char → Bool} : ∀ {s r : Str}, HeadIs (fun c => p c = false) r → (s ++ r).takeWhile p = s.takeWhile p
  | [], [], _ => rfl
  | [], c :: r, h => by simp [List.takeWhile, headIs_cons.1 h]
  | c :: s, r, h => by
    simp only [List.cons_append, List.takeWhile]
    cases p c with
    | false => rfl
    | true => simp only; rw [takeWhile_until h]

theorem dropWhile_until {p : Char → Bool} : ∀ {s r : Str}, HeadIs (fun c => p c = false) r → (s ++ r).dropWhile p = s.dropWhile p ++ r
  | [], [], _ => rfl
  | [], c :: r, h => by simp [List.dropWhile, headIs_cons.1 h]
  | c :: s, r, h => by
    simp only [List.cons_append, List.dropWhile]
    cases p c with
    | false => rfl
    | true => simp only; rw [dropWhile_until h]

theorem spanOf_stop {p : Char → Bool} {s r : Str} (h : HeadIs (fun c => p c = false) r) :
    spanOf p (s ++ r) = ((spanOf p s).1, (spanOf p s).2 ++ r) := by
  simp [spanOf, takeWhile_until h, dropWhile_until h]

theorem spanOf_text (p : Char → Bool) (s : Str) : (spanOf p s).1 ++ (spanOf p s).2 = s := by
  simp [spanOf, List.takeWhile_append_dropWhile]

/-! ## Numbers -/

/-- Not a letter, digit or underscore (ASCII). -/
def plainStop (c : Char) : Prop := isAsciiLetter c = false ∧ isDec c = false

theorem digits_stop {hex c} (h : plainStop c) : digits hex c = false := by
  obtain ⟨h1, h2⟩ := h
  simp only [isAsciiLetter, Bool.or_eq_false_iff, Bool.and_eq_false_iff, decide_eq_false_iff_not, beq_eq_false_iff_ne] at h1
  have h3 : isDec c = false := h2
  unfold digits isHexDigit
  rw [h3]
  obtain ⟨⟨ha, hA⟩, hu⟩ := h1
  have e1 : ('a' ≤ c && c ≤ 'f') = false := by
    rcases ha with ha | ha
    · simp [ha]
    · have : ¬ c ≤ 'f' := fun hh => ha (Char.le_trans hh (by decide))
      simp [this]
  have e2 : ('A' ≤ c && c ≤ 'F') = false := by
    rcases hA with ha | ha
    · simp [ha]
    · have : ¬ c ≤ 'F' := fun hh => ha (Char.le_trans hh (by decide))
      simp [this]
  have e3 : (c == '_') = false := by simpa using hu
  rw [e1, e2, e3]
  cases hex <;> rfl

theorem ne_of_stop {c d} (h : plainStop c) (hd : isAsciiLetter d = true ∨ isDec d = true) : c ≠ d := by
  rintro rfl
  rcases hd with hd | hd
  · rw [h.1] at hd; simp at hd
  · rw [h.2] at hd; simp at hd

theorem numPrefix_stop {s r : Str} (hs : s ≠ []) (h : HeadIs plainStop r) : numPrefix (s ++ r) = numPrefix s := by
  match s, hs with
  | [c], _ =>
    match r, h with
    | [], _ => rfl
    | d :: r, h =>
      have hd := headIs_cons.1 h
      have hx := ne_of_stop hd (d := 'x') (by decide)
      have hX := ne_of_stop hd (d := 'X') (by decide)
      have ho := ne_of_stop hd (d := 'o') (by decide)
      have hO := ne_of_stop hd (d := 'O') (by decide)
      have hb := ne_of_stop hd (d := 'b') (by decide)
      have hB := ne_of_stop hd (d := 'B') (by decide)
      have e : numPrefix [c] = ([], false) := by
        unfold numPrefix; split <;> simp_all
      rw [e]
      unfold numPrefix
      split <;> simp_all
  | c :: d :: s, _ =>
    simp only [List.cons_append]
    unfold numPrefix
    split <;> split <;> simp_all

theorem numPrefix_length (s : Str) : (numPrefix s).1.length ≤ s.length := by
  unfold numPrefix; split <;> simp

theorem fracOf_stop {hex : Bool} {s r : Str} (h : HeadIs plainStop r) (h' : s = [] → HeadIs (· ≠ '.') r) :
    fracOf hex (s ++ r) = ((fracOf hex s).1, (fracOf hex s).2 ++ r) := by
  match s with
  | [] =>
    match r with
    | [] => rfl
    | d :: r =>
      have hd := headIs_cons.1 (h' rfl)
      simp only [List.nil_append]
      unfold fracOf
      split <;> simp_all
  | c :: s =>
    by_cases hc : c = '.'
    · subst hc
      simp only [List.cons_append, fracOf, spanOf_stop (h.mono fun c hc => digits_stop hc)]
    · have e1 : fracOf hex (c :: (s ++ r)) = ([], c :: (s ++ r)) := by unfold fracOf; split <;> simp_all
      have e2 : fracOf hex (c :: s) = ([], c :: s) := by unfold fracOf; split <;> simp_all
      simp only [List.cons_append, e1, e2]

theorem isExpChar_letter {c} (h : isExpChar c = true) : isAsciiLetter c = true := by
  simp only [isExpChar, Bool.or_eq_true, beq_iff_eq] at h
  rcases h with ((rfl | rfl) | rfl) | rfl <;> decide

theorem signOf_stop {s r : Str} (hs : s ≠ []) : signOf (s ++ r) = ((signOf s).1, (signOf s).2 ++ r) := by
  match s, hs with
  | c :: s, _ =>
    by_cases h1 : c = '+'
    · subst h1; rfl
    by_cases h2 : c = '-'
    · subst h2; rfl
    have e1 : signOf (c :: (s ++ r)) = ([], c :: (s ++ r)) := by unfold signOf; split <;> simp_all
    have e2 : signOf (c :: s) = ([], c :: s) := by unfold signOf; split <;> simp_all
    simp only [List.cons_append, e1, e2]

theorem expOf_stop {s r : Str} (h : HeadIs plainStop r) (h' : (expOf s).1 ≠ [] → (expOf s).1.any isDec = true) :
    expOf (s ++ r) = ((expOf s).1, (expOf s).2 ++ r) := by
  match s with
  | [] =>
    match r with
    | [] => rfl
    | d :: r =>
      have hd := headIs_cons.1 h
      have : isExpChar d = false := by
        cases he : isExpChar d with
        | false => rfl
        | true => exact absurd rfl (ne_of_stop hd (d := d) (.inl (isExpChar_letter he)))
      simp [expOf, this]
  | c :: s =>
    cases he : isExpChar c with
    | false => simp [expOf, he]
    | true =>
      have hs : s ≠ [] := by
        rintro rfl
        have hn : isDec c = false := by
          simp only [isExpChar, Bool.or_eq_true, beq_iff_eq] at he
          rcases he with ((rfl | rfl) | rfl) | rfl <;> decide
        simp [expOf, he, signOf, spanOf, hn] at h'
      simp only [List.cons_append, expOf, he, if_true, signOf_stop hs, spanOf_stop (h.mono fun c hc => digits_stop hc)]

theorem sufOf_stop {s r : Str} (h : HeadIs plainStop r) : sufOf (s ++ r) = ((sufOf s).1, (sufOf s).2 ++ r) := by
  match s with
  | [] =>
    match r with
    | [] => rfl
    | d :: r =>
      have hi := ne_of_stop (headIs_cons.1 h) (d := 'i') (by decide)
      simp only [List.nil_append]
      unfold sufOf; split <;> simp_all
  | c :: s =>
    by_cases hc : c = 'i'
    · subst hc; rfl
    · have e1 : sufOf (c :: (s ++ r)) = ([], c :: (s ++ r)) := by unfold sufOf; split <;> simp_all
      have e2 : sufOf (c :: s) = ([], c :: s) := by unfold sufOf; split <;> simp_all
      simp only [List.cons_append, e1, e2]

theorem kind_exp {n : NumParts} {k} (h : n.kind = some k) (he : n.exp ≠ []) : n.exp.any isDec = true := by
  unfold NumParts.kind at h
  simp only at h
  have he' : (n.exp != []) = true := by simpa using he
  rw [he'] at h
  simp only [Bool.true_and] at h
  cases hd : n.exp.any isDec with
  | true => rfl
  | false =>
    rw [hd] at h
    repeat (first | (split at h; exact absurd h (by simp)) | fail)
    all_goals simp at h

theorem kind_int {n : NumParts} {k} (h : n.kind = some k) (h1 : n.frac = []) (h2 : n.exp = []) (h3 : n.suf = []) : k = .int := by
  unfold NumParts.kind at h
  simp only [h1, h2, h3] at h
  simp at h
  exact h.2.2.2.2.symm

theorem numParts_stop {s r : Str} {k} (hs : s ≠ []) (hk : (numParts s).kind = some k) (h : HeadIs plainStop r)
    (h' : k = .int → HeadIs (· ≠ '.') r) : numParts (s ++ r) = { numParts s with rest := (numParts s).rest ++ r } := by
  have hp := numPrefix_stop hs h
  have hd : (s ++ r).drop (numPrefix s).1.length = s.drop (numPrefix s).1.length ++ r := by
    rw [List.drop_append_of_le_length (numPrefix_length s)]
  have hsp := @spanOf_stop (digits (numPrefix s).2) (s.drop (numPrefix s).1.length) r (h.mono fun c hc => digits_stop hc)
  generalize ha : spanOf (digits (numPrefix s).2) (s.drop (numPrefix s).1.length) = a at hsp
  generalize hb : fracOf (numPrefix s).2 a.2 = b
  generalize hc : expOf b.2 = c
  generalize hsu : sufOf c.2 = d
  have hn : numParts s = { pre := (numPrefix s).1, hex := (numPrefix s).2, int := a.1, frac := b.1, exp := c.1, suf := d.1, rest := d.2 } := by
    unfold numParts; simp only [ha, hb, hc, hsu]
  have hfr : fracOf (numPrefix s).2 (a.2 ++ r) = (b.1, b.2 ++ r) := by
    rw [fracOf_stop h, hb]
    intro hnil
    apply h'
    have e1 : b = ([], []) := by rw [← hb, hnil]; rfl
    have e2 : c = ([], []) := by rw [← hc, e1]; rfl
    have e3 : d = ([], []) := by rw [← hsu, e2]; rfl
    refine kind_int hk ?_ ?_ ?_ <;> rw [hn] <;> simp [e1, e2, e3]
  have hex : expOf (b.2 ++ r) = (c.1, c.2 ++ r) := by
    rw [expOf_stop h, hc]
    intro hne
    rw [hc] at hne ⊢
    have := kind_exp hk (by rw [hn]; exact hne)
    rw [hn] at this; exact this
  have hsf : sufOf (c.2 ++ r) = (d.1, d.2 ++ r) := by rw [sufOf_stop h, hsu]
  rw [hn]
  unfold numParts
  simp only [hp, hd, hsp, hfr, hex, hsf]

theorem numParts_text (s : Str) : (numParts s).text ++ (numParts s).rest = s := by
  have hpre : (numPrefix s).1 ++ s.drop (numPrefix s).1.length = s := by
    unfold numPrefix; split <;> simp
  have hfrac : ∀ hex t, (fracOf hex t).1 ++ (fracOf hex t).2 = t := by
    intro hex t
    unfold fracOf; split
    · simp [spanOf, List.takeWhile_append_dropWhile]
    · rfl
  have hexp : ∀ t, (expOf t).1 ++ (expOf t).2 = t := by
    intro t
    unfold expOf; split
    · split
      · rename_i c s _
        have : (signOf s).1 ++ (signOf s).2 = s := by unfold signOf; split <;> rfl
        simp only [List.cons_append, List.append_assoc, spanOf_text, this]
      · rfl
    · rfl
  have hsuf : ∀ t, (sufOf t).1 ++ (sufOf t).2 = t := by
    intro t; unfold sufOf; split <;> rfl
  unfold numParts NumParts.text
  simp only [List.append_assoc, hsuf, hexp, hfrac, spanOf_text, hpre]

theorem number_stop {s r : Str} {k v} (hs : s ≠ []) (hk : number s = some (.lit k v, [])) (h : HeadIs plainStop r)
    (h' : k = .int → HeadIs (· ≠ '.') r) : number (s ++ r) = some (.lit k v, r) := by
  unfold number at hk ⊢
  cases hkd : (numParts s).kind with
  | none => rw [hkd] at hk; simp at hk
  | some k' =>
    rw [hkd] at hk
    simp only [Option.map_some, Option.some.injEq, Prod.mk.injEq, GTok.lit.injEq] at hk
    obtain ⟨⟨rfl, hv⟩, hr⟩ := hk
    have := numParts_stop hs hkd h h'
    rw [this]
    have e : ({ numParts s with rest := (numParts s).rest ++ r } : NumParts).kind = (numParts s).kind := rfl
    rw [e, hkd]
    simp [NumParts.text] at hv ⊢
    exact ⟨hv, by simp [hr]⟩

/-! ## Quoted literals -/

theorem quoted_stop {q : Char} {r : Str} : ∀ {s : Str} {st n t}, quoted q st s = some (n, t, []) → quoted q st (s ++ r) = some (n, t, r)
  | [], st, n, t, h => by simp [quoted] at h
  | c :: s, st, n, t, h => by
    rw [List.cons_append]
    unfold quoted at h ⊢
    by_cases hc : (c = q && st.isBody) = true
    · rw [if_pos hc] at h ⊢
      simp only [Option.some.injEq, Prod.mk.injEq] at h ⊢
      obtain ⟨h1, h2, h3⟩ := h
      exact ⟨h1, h2, by simp [h3]⟩
    · rw [if_neg hc] at h ⊢
      cases hq : qStep q st c with
      | none => rw [hq] at h; simp at h
      | some st' =>
        rw [hq] at h
        simp only at h ⊢
        cases hrec : quoted q st' s with
        | none => rw [hrec] at h; simp at h
        | some z =>
          obtain ⟨m, t', r'⟩ := z
          rw [hrec] at h
          simp only [Option.map_some, Option.some.injEq, Prod.mk.injEq] at h
          obtain ⟨h1, h2, h3⟩ := h
          subst h3
          rw [quoted_stop hrec]
          simp only [Option.map_some, Option.some.injEq, Prod.mk.injEq]
          exact ⟨h1, h2, trivial⟩

theorem rawBody_stop {r : Str} : ∀ {s : Str} {t}, rawBody s = some (t, []) → rawBody (s ++ r) = some (t, r)
  | [], t, h => by simp [rawBody] at h
  | c :: s, t, h => by
    by_cases hc : c = '`'
    · subst hc
      simp only [rawBody, Option.some.injEq, Prod.mk.injEq] at h
      obtain ⟨rfl, rfl⟩ := h
      simp [rawBody]
    · have e : ∀ s, rawBody (c :: s) = (rawBody s).map fun (t, r) => (c :: t, r) := by
        intro s; rw [rawBody]; simpa using hc
      rw [e] at h
      rw [List.cons_append, e]
      cases hrec : rawBody s with
      | none => rw [hrec] at h; simp at h
      | some z =>
        obtain ⟨t', r'⟩ := z
        rw [hrec] at h
        simp only [Option.map_some, Option.some.injEq, Prod.mk.injEq] at h
        obtain ⟨h1, h2⟩ := h
        subst h2
        rw [rawBody_stop hrec]
        simp [h1]

/-! ## Tokens -/

/-- Text of a token. -/
def tokText : GTok → Str
  | .ident s => s
  | .lit _ s => s
  | .op o => o.str
  | .lparen => ['('] | .rparen => [')'] | .comma => [','] | .period => ['.'] | .ellipsis => ['.', '.', '.']
  | .semi => []
  | .other => []

/-- A token that can be written. -/
def TokOK (u : GoVersion) : GTok → Prop
  | .ident s => OneTok u s (.ident s)
  | .lit k s => OneTok u s (.lit k s)
  | .op (.other s) => s = ['~'] ∧ u.tilde = true
  | .op _ => True
  | .lparen | .rparen | .comma | .period => True
  | _ => False

/-- A character that may follow the token directly. -/
def Sep (u : GoVersion) : GTok → Char → Prop
  | .ident _, c => (isGoLetter u c || isGoDigit u c) = false
  | .lit .int _, c => plainStop c ∧ c ≠ '.'
  | .lit .float _, c => plainStop c
  | .lit .imag _, c => plainStop c
  | .period, c => isDec c = false ∧ c ≠ '.'
  | .op o, c => c ≠ '=' ∧
    match o with
    | .add => c ≠ '+'
    | .sub => c ≠ '-'
    | .and => c ≠ '&' ∧ c ≠ '^'
    | .quo => c ≠ '/' ∧ c ≠ '*'
    | .lss => c ≠ '<' ∧ c ≠ '-'
    | .gtr => c ≠ '>'
    | .or => c ≠ '|'
    | _ => True
  | _, _ => True

theorem operators_eq : operators = [
  (['<', '<', '='], .other), (['>', '>', '='], .other), (['&', '^', '='], .other), (['.', '.', '.'], .ellipsis),
  (['<', '<'], .op .shl), (['>', '>'], .op .shr), (['&', '^'], .op .andNot), (['+', '='], .other), (['-', '='], .other),
  (['*', '='], .other), (['/', '='], .other), (['%', '='], .other), (['&', '='], .other), (['|', '='], .other), (['^', '='], .other),
  (['&', '&'], .op .land), (['|', '|'], .op .lor), (['<', '-'], .op .arrow), (['+', '+'], .other), (['-', '-'], .other),
  (['=', '='], .op .eql), (['!', '='], .op .neq), (['<', '='], .op .leq), (['>', '='], .op .geq), ([':', '='], .other),
  (['+'], .op .add), (['-'], .op .sub), (['*'], .op .mul), (['/'], .op .quo), (['%'], .op .rem),
  (['&'], .op .and), (['|'], .op .or), (['^'], .op .xor), (['<'], .op .lss), (['>'], .op .gtr),
  (['='], .other), (['!'], .op .not), (['('], .lparen), ([')'], .rparen), ([','], .comma), (['.'], .period),
  (['['], .other), ([']'], .other), (['{'], .other), (['}'], .other), ([';'], .other), ([':'], .other)] := by decide +kernel

theorem operator_find {u : GoVersion} {s : Str} {w k} (h : HeadIs (· ≠ '~') s) (hf : operators.find? (fun o => o.1.isPrefixOf s) = some (w, k)) :
    operator u s = some (k, s.drop w.length) := by
  unfold operator
  split
  · exact absurd rfl (headIs_cons.1 h)
  · rw [hf]

theorem find_stop {u : GoVersion} {o : Tok} {r : Str} (ho : ∀ s, o ≠ .other s) (h : HeadIs (Sep u (.op o)) r) :
    operators.find? (fun w => w.1.isPrefixOf (o.str ++ r)) = some (o.str, .op o) := by
  rw [operators_eq]
  cases r with
  | nil =>
    cases o with
    | other s => exact absurd rfl (ho s)
    | _ => decide +kernel
  | cons c r =>
    have hc := headIs_cons.1 h
    have hne : ∀ d, c ≠ d → (d == c) = false := fun d hd => by simpa using fun e => hd e.symm
    cases o with
    | other s => exact absurd rfl (ho s)
    | _ =>
      simp only [Sep] at hc
      simp [Tok.str, List.find?, List.isPrefixOf, hne, hc]

theorem operator_stop {u : GoVersion} {o : Tok} {r : Str} (ho : TokOK u (.op o)) (h : HeadIs (Sep u (.op o)) r) :
    operator u (o.str ++ r) = some (.op o, r) := by
  by_cases hs : ∃ s, o = .other s
  · obtain ⟨s, rfl⟩ := hs
    obtain ⟨rfl, ht⟩ := ho
    simp [operator, Tok.str, ht]
  · have hs' : ∀ s, o ≠ .other s := fun s hh => hs ⟨s, hh⟩
    rw [operator_find ?_ (find_stop hs' h)]
    · simp
    · cases o with
      | other s => exact absurd rfl (hs' s)
      | _ => simp [Tok.str, headIs_cons]

/-- A name or a literal. -/
def isWord : GTok → Bool
  | .ident _ => true
  | .lit .. => true
  | _ => false

theorem operator_not_word {u : GoVersion} {s k r} (h : operator u s = some (k, r)) : isWord k = false := by
  unfold operator at h
  split at h
  · split at h
    · simp only [Option.some.injEq, Prod.mk.injEq] at h; rw [← h.1]; rfl
    · simp at h
  · split at h
    · rename_i w k' hf
      have hm := List.mem_of_find?_eq_some hf
      simp only [Option.some.injEq, Prod.mk.injEq] at h
      have : operators.all (fun o => !isWord o.2) = true := by decide +kernel
      have := List.all_eq_true.1 this _ hm
      rw [← h.1]; simpa using this
    · simp at h

/-- A point followed by a digit starts a number. -/
def numStart (c : Char) (r : Str) : Bool := isDec c || (c == '.' && (match r with | d :: _ => isDec d | [] => false))

theorem lexTok_eq (u : GoVersion) (c : Char) (r : Str) : lexTok u (c :: r) =
    if isGoLetter u c then
      some (if keywords.contains (spanOf (fun c => isGoLetter u c || isGoDigit u c) (c :: r)).1 then .other
        else .ident (spanOf (fun c => isGoLetter u c || isGoDigit u c) (c :: r)).1, (spanOf (fun c => isGoLetter u c || isGoDigit u c) (c :: r)).2)
    else if numStart c r then number (c :: r)
    else if c == '"' then (quoted '"' .body r).map fun (_, t, r) => (.lit .string ('"' :: t), r)
    else if c == '\'' then
      match quoted '\'' .body r with
      | some (1, t, r) => some (.lit .char ('\'' :: t), r)
      | _ => none
    else if c == '`' then (rawBody r).map fun (t, r) => (.lit .string ('`' :: t.filter (· != '\r')), r)
    else operator u (c :: r) := by
  cases r <;> rfl

theorem of_ite_none {α : Type} {c : Prop} [Decidable c] {x : Option α} {k : α} (h : (if c then none else x) = some k) : x = some k := by
  split at h
  · simp at h
  · exact h

theorem kind_num {n : NumParts} {k} (h : n.kind = some k) : k = .int ∨ k = .float ∨ k = .imag := by
  unfold NumParts.kind at h
  simp only at h
  have hK : ∃ K : LitKind, (if n.suf != [] then LitKind.imag else if n.frac != [] || n.exp != [] then .float else .int) = K ∧
      (K = .int ∨ K = .float ∨ K = .imag) := by
    refine ⟨_, rfl, ?_⟩
    split
    · simp
    · split <;> simp
  obtain ⟨K, hK, hcases⟩ := hK
  rw [hK] at h
  have : K = k := by
    repeat (replace h := of_ite_none h)
    simpa using h
  rw [← this]; exact hcases

theorem number_lit {s k r} (h : number s = some (k, r)) : ∃ kd, k = .lit kd (numParts s).text ∧ r = (numParts s).rest ∧ (numParts s).kind = some kd := by
  unfold number at h
  cases hk : (numParts s).kind with
  | none => rw [hk] at h; simp at h
  | some kd =>
    rw [hk] at h
    simp only [Option.map_some, Option.some.injEq, Prod.mk.injEq] at h
    exact ⟨kd, h.1.symm, h.2.symm, rfl⟩

/-- How a name or literal comes about. -/
inductive WordCase (u : GoVersion) (c : Char) (s : Str) (k : GTok) (r : Str) : Prop
  | ident (w : Str) (hc : isGoLetter u c = true) (hw : spanOf (fun c => isGoLetter u c || isGoDigit u c) (c :: s) = (w, r))
    (hk : keywords.contains w = false) (h : k = .ident w)
  | num (kd : LitKind) (hc : isGoLetter u c = false) (hn : numStart c s = true) (hs : number (c :: s) = some (.lit kd (numParts (c :: s)).text, r))
    (h : k = .lit kd (numParts (c :: s)).text)
  | str (n : Nat) (t : Str) (hc : c = '"') (hq : quoted '"' .body s = some (n, t, r)) (h : k = .lit .string ('"' :: t))
  | chr (t : Str) (hc : c = '\'') (hq : quoted '\'' .body s = some (1, t, r)) (h : k = .lit .char ('\'' :: t))
  | raw (t : Str) (hc : c = '`') (hq : rawBody s = some (t, r)) (h : k = .lit .string ('`' :: t.filter (· != '\r')))

theorem lexTok_word {u : GoVersion} {c s k r} (h : lexTok u (c :: s) = some (k, r)) (hw : isWord k = true) : WordCase u c s k r := by
  rw [lexTok_eq] at h
  split at h
  · rename_i hc
    simp only [Option.some.injEq, Prod.mk.injEq] at h
    obtain ⟨h1, h2⟩ := h
    split at h1
    · rw [← h1] at hw; simp [isWord] at hw
    · rename_i hk
      exact .ident _ hc (by rw [← h2]) (by simpa using hk) h1.symm
  rename_i hc
  split at h
  · rename_i hn
    obtain ⟨kd, h1, h2, h3⟩ := number_lit h
    exact .num kd (by simpa using hc) hn (by rw [← h1]; exact h) h1
  split at h
  · rename_i hq
    cases hb : quoted '"' .body s with
    | none => rw [hb] at h; simp at h
    | some z =>
      obtain ⟨n, t, r'⟩ := z
      rw [hb] at h
      simp only [Option.map_some, Option.some.injEq, Prod.mk.injEq] at h
      obtain ⟨h1, rfl⟩ := h
      exact .str n t (by simpa using hq) hb h1.symm
  split at h
  · rename_i hq
    split at h
    · rename_i t r' hb
      simp only [Option.some.injEq, Prod.mk.injEq] at h
      obtain ⟨h1, rfl⟩ := h
      exact .chr t (by simpa using hq) hb h1.symm
    · simp at h
  split at h
  · rename_i hq
    cases hb : rawBody s with
    | none => rw [hb] at h; simp at h
    | some z =>
      obtain ⟨t, r'⟩ := z
      rw [hb] at h
      simp only [Option.map_some, Option.some.injEq, Prod.mk.injEq] at h
      obtain ⟨h1, rfl⟩ := h
      exact .raw t (by simpa using hq) hb h1.symm
  · rw [operator_not_word h] at hw; simp at hw

theorem numStart_append {c : Char} {s r : Str} (h : numStart c s = true) : numStart c (s ++ r) = true := by
  unfold numStart at h ⊢
  cases s with
  | nil => simp at h; simp [h]
  | cons d s => exact h

theorem not_letter {u : GoVersion} {c : Char} (h : c.toNat < 0x80) (h' : isAsciiLetter c = false) : isGoLetter u c = false := by
  have : ¬ (0x80 ≤ c.toNat) := by omega
  simp [isGoLetter, h', this]
theorem not_digit {u : GoVersion} {c : Char} (h : c.toNat < 0x80) (h' : isDec c = false) : isGoDigit u c = false := by
  have : ¬ (0x80 ≤ c.toNat) := by omega
  simp [isGoDigit, h', this]

theorem lexTok_ident {u : GoVersion} {c s w r} (hc : isGoLetter u c = true) (hw : spanOf (fun c => isGoLetter u c || isGoDigit u c) (c :: s) = (w, r))
    (hk : keywords.contains w = false) : lexTok u (c :: s) = some (.ident w, r) := by
  rw [lexTok_eq, if_pos hc, hw]
  simp only [hk, Bool.false_eq_true, if_false]

theorem lexTok_num {u : GoVersion} {c s} (hc : isGoLetter u c = false) (hn : numStart c s = true) : lexTok u (c :: s) = number (c :: s) := by
  rw [lexTok_eq, if_neg (by simp [hc]), if_pos hn]

theorem lexTok_str {u : GoVersion} {s n t r} (hq : quoted '"' .body s = some (n, t, r)) :
    lexTok u ('"' :: s) = some (.lit .string ('"' :: t), r) := by
  rw [lexTok_eq, if_neg (by simp [not_letter (u := u) (c := '"') (by decide) (by decide)]), if_neg (by cases s <;> simp [numStart, isDec]), if_pos (by decide), hq]
  rfl
theorem lexTok_chr {u : GoVersion} {s t r} (hq : quoted '\'' .body s = some (1, t, r)) :
    lexTok u ('\'' :: s) = some (.lit .char ('\'' :: t), r) := by
  rw [lexTok_eq, if_neg (by simp [not_letter (u := u) (c := '\'') (by decide) (by decide)]), if_neg (by cases s <;> simp [numStart, isDec]),
    if_neg (by decide), if_pos (by decide), hq]
  rfl
theorem lexTok_raw {u : GoVersion} {s t r} (hq : rawBody s = some (t, r)) :
    lexTok u ('`' :: s) = some (.lit .string ('`' :: t.filter (· != '\r')), r) := by
  rw [lexTok_eq, if_neg (by simp [not_letter (u := u) (c := '`') (by decide) (by decide)]), if_neg (by cases s <;> simp [numStart, isDec]),
    if_neg (by decide), if_neg (by decide), if_pos (by decide), hq]
  rfl

theorem lexTok_op {u : GoVersion} {c s} (h : c.toNat < 0x80) (h1 : isAsciiLetter c = false) (h2 : numStart c s = false) (h3 : c ≠ '"') (h4 : c ≠ '\'')
    (h5 : c ≠ '`') : lexTok u (c :: s) = operator u (c :: s) := by
  rw [lexTok_eq, if_neg (by simp [not_letter (u := u) h h1]), if_neg (by simp [h2]), if_neg (by simpa using h3), if_neg (by simpa using h4),
    if_neg (by simpa using h5)]

theorem find_delim {w : Str} {k : GTok} {r : Str} (h : (w, k) ∈ [(['('], GTok.lparen), ([')'], .rparen), ([','], .comma)]) :
    operators.find? (fun o => o.1.isPrefixOf (w ++ r)) = some (w, k) := by
  rw [operators_eq]
  simp only [List.mem_cons, Prod.mk.injEq, List.not_mem_nil, or_false] at h
  rcases h with ⟨rfl, rfl⟩ | ⟨rfl, rfl⟩ | ⟨rfl, rfl⟩ <;> simp [List.find?, List.isPrefixOf]

set_option maxHeartbeats 1000000 in
/-- A token is read back if what follows does not continue it. -/
theorem lexTok_stop {u : GoVersion} {k : GTok} {r : Str} (hk : TokOK u k) (h : HeadIs (Sep u k) r) : lexTok u (tokText k ++ r) = some (k, r) := by
  cases k with
  | ident s =>
    obtain ⟨h1, -⟩ := hk
    cases s with
    | nil => simp [lexTok] at h1
    | cons c s =>
      cases lexTok_word h1 rfl with
      | ident w hc hw hkw e =>
        have e' : c :: s = w := by simpa using e
        rw [← e'] at hw hkw
        show lexTok u (c :: (s ++ r)) = _
        exact lexTok_ident hc (by rw [← List.cons_append, spanOf_stop h, hw]; rfl) hkw
      | num _ _ _ _ e => simp at e
      | str _ _ _ _ e => simp at e
      | chr _ _ _ e => simp at e
      | raw _ _ _ e => simp at e
  | lit kd s =>
    obtain ⟨h1, -⟩ := hk
    cases s with
    | nil => simp [lexTok] at h1
    | cons c s =>
      cases lexTok_word h1 rfl with
      | ident w hc hw hkw e => simp at e
      | num kd' hc hn hs e =>
        simp only [GTok.lit.injEq] at e
        obtain ⟨rfl, e⟩ := e
        rw [← e] at hs
        show lexTok u (c :: (s ++ r)) = _
        rw [lexTok_num hc (numStart_append hn)]
        have hlit : kd = .int ∨ kd = .float ∨ kd = .imag := by
          obtain ⟨kd', h1, h2, h3⟩ := number_lit hs
          simp only [GTok.lit.injEq] at h1
          rw [h1.1]; exact kind_num h3
        rw [← List.cons_append]
        refine number_stop (s := c :: s) (by simp) hs ?_ ?_
        · refine h.mono fun d hd => ?_
          rcases hlit with rfl | rfl | rfl
          · exact hd.1
          · exact hd
          · exact hd
        · rintro rfl
          exact h.mono fun d hd => hd.2
      | str n t hc hq e =>
        subst hc
        simp only [GTok.lit.injEq, List.cons.injEq, true_and] at e
        obtain ⟨rfl, rfl⟩ := e
        have := lexTok_str (u := u) (quoted_stop (r := r) hq)
        rw [← List.cons_append] at this
        exact this
      | chr t hc hq e =>
        subst hc
        simp only [GTok.lit.injEq, List.cons.injEq, true_and] at e
        obtain ⟨rfl, rfl⟩ := e
        have := lexTok_chr (u := u) (quoted_stop (r := r) hq)
        rw [← List.cons_append] at this
        exact this
      | raw t hc hq e =>
        subst hc
        simp only [GTok.lit.injEq, List.cons.injEq, true_and] at e
        obtain ⟨rfl, e⟩ := e
        have := lexTok_raw (u := u) (rawBody_stop (r := r) hq)
        rw [← e, ← List.cons_append] at this
        exact this
  | op o =>
    have ho := operator_stop hk h
    cases o with
    | other s =>
      obtain ⟨rfl, -⟩ := hk
      show lexTok u ('~' :: r) = _
      rw [lexTok_op (by decide) (by decide) (by cases r <;> simp [numStart, isDec]) (by decide) (by decide) (by decide)]
      exact ho
    | _ =>
      simp only [tokText, Tok.str, List.cons_append] at ho ⊢
      rw [lexTok_op (by decide) (by decide) (by simp [numStart, isDec]) (by decide) (by decide) (by decide)]
      exact ho
  | lparen =>
    show lexTok u ('(' :: r) = _
    rw [lexTok_op (by decide) (by decide) (by cases r <;> simp [numStart, isDec]) (by decide) (by decide) (by decide)]
    exact operator_find (by simp [headIs_cons]) (find_delim (w := ['(']) (by simp))
  | rparen =>
    show lexTok u (')' :: r) = _
    rw [lexTok_op (by decide) (by decide) (by cases r <;> simp [numStart, isDec]) (by decide) (by decide) (by decide)]
    exact operator_find (by simp [headIs_cons]) (find_delim (w := [')']) (by simp))
  | comma =>
    show lexTok u (',' :: r) = _
    rw [lexTok_op (by decide) (by decide) (by cases r <;> simp [numStart, isDec]) (by decide) (by decide) (by decide)]
    exact operator_find (by simp [headIs_cons]) (find_delim (w := [',']) (by simp))
  | period =>
    show lexTok u ('.' :: r) = _
    have hn : numStart '.' r = false := by
      cases r with
      | nil => simp [numStart, isDec]
      | cons d r => have := headIs_cons.1 h; simp only [Sep] at this; simp [numStart, isDec, this]; simpa [isDec] using this.1
    rw [lexTok_op (by decide) (by decide) hn (by decide) (by decide) (by decide)]
    refine operator_find (w := ['.']) (by simp [headIs_cons]) ?_
    rw [operators_eq]
    cases r with
    | nil => simp [List.find?, List.isPrefixOf]
    | cons d r =>
      have := (headIs_cons.1 h).2
      have hne : ('.' == d) = false := by simpa using fun e => this e.symm
      simp [List.find?, List.isPrefixOf, hne]
  | ellipsis => exact hk.elim
  | semi => exact hk.elim
  | other => exact hk.elim

end Verif.Proof
