import Verif.Spec.Solver
import Verif.Proof.Smt2Sem
/-!
# Proofs for C76: beginnings of scripts, solvers that go on after errors
-/
namespace Verif.Proof.Solver
open Verif Verif.Spec Verif.Spec.Smt Verif.Spec.Ssa

/-! ## Tokens of a beginning -/

theorem lex_atom_head : ∀ (b : Str) (acc : List Char) (ts : List Token), lex (.atom acc) b = some ts → ∃ y tb, ts = .sym (acc.reverse ++ y) :: tb
  | [], acc, ts, h => by
    simp only [lex, Option.some.injEq] at h
    exact ⟨[], [], by rw [← h, List.append_nil]⟩
  | c :: b, acc, ts, h => by
    rw [lex] at h
    have fin : ∀ (o : Option (List Token)) (f : List Token → List Token), o.map (fun ts => .sym acc.reverse :: f ts) = some ts →
        ∃ y tb, ts = .sym (acc.reverse ++ y) :: tb := by
      intro o f ho
      cases o with
      | none => simp at ho
      | some o =>
        simp only [Option.map_some, Option.some.injEq] at ho
        exact ⟨[], f o, by rw [← ho, List.append_nil]⟩
    split at h
    · exact fin _ (fun ts => .lp :: ts) h
    · split at h
      · exact fin _ (fun ts => .rp :: ts) h
      · split at h
        · exact fin _ id h
        · split at h
          · exact fin _ id h
          · split at h
            · obtain ⟨y, tb, e⟩ := lex_atom_head b (c :: acc) ts h
              refine ⟨c :: y, tb, ?_⟩
              rw [e, List.reverse_cons, List.append_assoc]
              rfl
            · simp at h

/-- The tokens of a beginning are a beginning of the tokens, except that the last one may be cut. -/
def Begins (ta ts : List Token) : Prop :=
  (∃ tb, ts = ta ++ tb) ∨ ∃ ini x y tb, ta = ini ++ [.sym x] ∧ ts = ini ++ .sym (x ++ y) :: tb

theorem Begins.front {ta ts : List Token} (h : Begins ta ts) (f : List Token) : Begins (f ++ ta) (f ++ ts) := by
  rcases h with ⟨tb, rfl⟩ | ⟨ini, x, y, tb, rfl, rfl⟩
  · exact .inl ⟨tb, by rw [List.append_assoc]⟩
  · exact .inr ⟨f ++ ini, x, y, tb, by rw [List.append_assoc], by rw [List.append_assoc]⟩

theorem lex_begins : ∀ (a : Str) (m : Mode) (b : Str) (ta ts : List Token), lex m a = some ta → lex m (a ++ b) = some ts → Begins ta ts
  | [], m, b, ta, ts, ha, hs => by
    cases m with
    | between =>
      simp only [lex, Option.some.injEq] at ha
      exact .inl ⟨ts, by rw [← ha]; rfl⟩
    | comment =>
      simp only [lex, Option.some.injEq] at ha
      exact .inl ⟨ts, by rw [← ha]; rfl⟩
    | atom acc =>
      simp only [lex, Option.some.injEq] at ha
      obtain ⟨y, tb, e⟩ := lex_atom_head b acc ts (by simpa using hs)
      exact .inr ⟨[], acc.reverse, y, tb, by rw [← ha]; rfl, by rw [e]; rfl⟩
  | c :: a, m, b, ta, ts, ha, hs => by
    have step : ∀ (m' : Mode) (f : List Token) (g : List Token → List Token), (∀ l, g l = f ++ l) → (lex m' a).map g = some ta →
        (lex m' (a ++ b)).map g = some ts → Begins ta ts := by
      intro m' f g hg h1 h2
      cases e1 : lex m' a with
      | none => rw [e1] at h1; simp at h1
      | some t1 =>
        cases e2 : lex m' (a ++ b) with
        | none => rw [e2] at h2; simp at h2
        | some t2 =>
          rw [e1] at h1
          rw [e2] at h2
          simp only [Option.map_some, Option.some.injEq] at h1 h2
          subst h1 h2
          rw [hg, hg]
          exact (lex_begins a m' b t1 t2 e1 e2).front f
    rw [List.cons_append] at hs
    cases m with
    | between =>
      rw [lex] at ha hs
      by_cases h1 : c = '('
      · rw [if_pos h1] at ha hs
        exact step _ [.lp] _ (fun _ => rfl) ha hs
      rw [if_neg h1] at ha hs
      by_cases h2 : c = ')'
      · rw [if_pos h2] at ha hs
        exact step _ [.rp] _ (fun _ => rfl) ha hs
      rw [if_neg h2] at ha hs
      by_cases h3 : c = ';'
      · rw [if_pos h3] at ha hs
        exact lex_begins a _ b ta ts ha hs
      rw [if_neg h3] at ha hs
      by_cases h4 : isSpace c = true
      · rw [if_pos h4] at ha hs
        exact lex_begins a _ b ta ts ha hs
      rw [if_neg h4] at ha hs
      by_cases h5 : isAtomChar c = true
      · rw [if_pos h5] at ha hs
        exact lex_begins a _ b ta ts ha hs
      rw [if_neg h5] at ha
      simp at ha
    | comment =>
      rw [lex] at ha hs
      by_cases h1 : c = '\n' ∨ c = '\r'
      · rw [if_pos h1] at ha hs
        exact lex_begins a _ b ta ts ha hs
      · rw [if_neg h1] at ha hs
        exact lex_begins a _ b ta ts ha hs
    | atom acc =>
      rw [lex] at ha hs
      by_cases h1 : c = '('
      · rw [if_pos h1] at ha hs
        exact step _ [.sym acc.reverse, .lp] _ (fun _ => rfl) ha hs
      rw [if_neg h1] at ha hs
      by_cases h2 : c = ')'
      · rw [if_pos h2] at ha hs
        exact step _ [.sym acc.reverse, .rp] _ (fun _ => rfl) ha hs
      rw [if_neg h2] at ha hs
      by_cases h3 : c = ';'
      · rw [if_pos h3] at ha hs
        exact step _ [.sym acc.reverse] _ (fun _ => rfl) ha hs
      rw [if_neg h3] at ha hs
      by_cases h4 : isSpace c = true
      · rw [if_pos h4] at ha hs
        exact step _ [.sym acc.reverse] _ (fun _ => rfl) ha hs
      rw [if_neg h4] at ha hs
      by_cases h5 : isAtomChar c = true
      · rw [if_pos h5] at ha hs
        exact lex_begins a _ b ta ts ha hs
      rw [if_neg h5] at ha
      simp at ha

/-! ## Expressions of a beginning -/

theorem readTokens_append : ∀ (ta : List Token) (stack : List (List SExp)) (e : List SExp) (tb : List Token), readTokens stack ta = some e →
    readTokens stack (ta ++ tb) = readTokens [e.reverse] tb
  | [], stack, e, tb, h => by
    match stack, h with
    | [], h => simp [readTokens] at h
    | [top], h =>
      simp only [readTokens, Option.some.injEq] at h
      rw [← h, List.reverse_reverse]
      rfl
    | _ :: _ :: _, h => simp [readTokens] at h
  | .lp :: ta, stack, e, tb, h => by
    rw [readTokens] at h
    rw [List.cons_append, readTokens]
    exact readTokens_append ta _ e tb h
  | .rp :: ta, stack, e, tb, h => by
    match stack, h with
    | [], h => simp [readTokens] at h
    | [top], h => simp [readTokens] at h
    | top :: up :: rest, h =>
      rw [readTokens] at h
      rw [List.cons_append, readTokens]
      exact readTokens_append ta _ e tb h
  | .sym x :: ta, stack, e, tb, h => by
    match stack, h with
    | [], h => simp [readTokens] at h
    | top :: rest, h =>
      rw [readTokens] at h
      rw [List.cons_append, readTokens]
      exact readTokens_append ta _ e tb h

/-- What has been read stays. -/
theorem readTokens_keeps : ∀ (ts : List Token) (st : List (List SExp)) (bottom es : List SExp), readTokens (st ++ [bottom]) ts = some es → bottom.reverse <+: es
  | [], st, bottom, es, h => by
    cases st with
    | nil =>
      simp only [List.nil_append, readTokens, Option.some.injEq] at h
      rw [h]
      exact List.prefix_rfl
    | cons s st => cases st <;> simp [readTokens] at h
  | .lp :: ts, st, bottom, es, h => by
    rw [readTokens] at h
    exact readTokens_keeps ts ([] :: st) bottom es h
  | .rp :: ts, st, bottom, es, h => by
    match st, h with
    | [], h => simp [readTokens] at h
    | [top], h =>
      simp only [List.cons_append, List.nil_append] at h
      rw [readTokens] at h
      have := readTokens_keeps ts [] _ es h
      rw [List.reverse_cons] at this
      exact (List.prefix_append _ _).trans this
    | top :: up :: rest, h =>
      simp only [List.cons_append] at h
      rw [readTokens] at h
      exact readTokens_keeps ts ((.list top.reverse :: up) :: rest) bottom es h
  | .sym x :: ts, st, bottom, es, h => by
    match st, h with
    | [], h =>
      simp only [List.nil_append] at h
      rw [readTokens] at h
      have := readTokens_keeps ts [] _ es h
      rw [List.reverse_cons] at this
      exact (List.prefix_append _ _).trans this
    | top :: rest, h =>
      simp only [List.cons_append] at h
      rw [readTokens] at h
      exact readTokens_keeps ts ((.atom x :: top) :: rest) bottom es h

theorem readTokens_last : ∀ (ini : List Token) (stack : List (List SExp)) (x : Str) (e : List SExp), readTokens stack (ini ++ [.sym x]) = some e →
    ∃ top, e = top.reverse ++ [.atom x] ∧ ∀ z tb, readTokens stack (ini ++ .sym z :: tb) = readTokens [.atom z :: top] tb
  | [], stack, x, e, h => by
    match stack, h with
    | [], h => simp [readTokens] at h
    | [top], h =>
      simp only [List.nil_append, readTokens, Option.some.injEq] at h
      exact ⟨top, by rw [← h, List.reverse_cons], fun z tb => by rw [List.nil_append, readTokens]⟩
    | _ :: _ :: _, h => simp [readTokens] at h
  | .lp :: ini, stack, x, e, h => by
    rw [List.cons_append, readTokens] at h
    obtain ⟨top, h1, h2⟩ := readTokens_last ini _ x e h
    exact ⟨top, h1, fun z tb => by rw [List.cons_append, readTokens, h2]⟩
  | .rp :: ini, stack, x, e, h => by
    match stack, h with
    | [], h => simp [readTokens] at h
    | [top], h => simp [readTokens] at h
    | top :: up :: rest, h =>
      rw [List.cons_append, readTokens] at h
      obtain ⟨top, h1, h2⟩ := readTokens_last ini _ x e h
      exact ⟨top, h1, fun z tb => by rw [List.cons_append, readTokens, h2]⟩
  | .sym y :: ini, stack, x, e, h => by
    match stack, h with
    | [], h => simp [readTokens] at h
    | top :: rest, h =>
      rw [List.cons_append, readTokens] at h
      obtain ⟨top, h1, h2⟩ := readTokens_last ini _ x e h
      exact ⟨top, h1, fun z tb => by rw [List.cons_append, readTokens, h2]⟩

/-- If all expressions of a text are lists, the expressions of a readable beginning of the text are a beginning of them. -/
theorem readAll_begins {a s : Str} {ea es : List SExp} (hp : a <+: s) (ha : readAll a = some ea) (hs : readAll s = some es) (hl : ∀ e ∈ es, ∃ l, e = .list l) :
    ea <+: es := by
  obtain ⟨b, rfl⟩ := hp
  unfold readAll at ha hs
  cases h1 : lex .between a with
  | none => rw [h1] at ha; simp at ha
  | some ta =>
    cases h2 : lex .between (a ++ b) with
    | none => rw [h2] at hs; simp at hs
    | some ts =>
      rw [h1, Option.bind_some] at ha
      rw [h2, Option.bind_some] at hs
      rcases lex_begins a _ b ta ts h1 h2 with ⟨tb, rfl⟩ | ⟨ini, x, y, tb, rfl, rfl⟩
      · rw [readTokens_append ta _ ea tb ha] at hs
        have := readTokens_keeps tb [] _ es hs
        rwa [List.reverse_reverse] at this
      · obtain ⟨top, _, e2⟩ := readTokens_last ini _ x ea ha
        rw [e2] at hs
        have := readTokens_keeps tb [] _ es hs
        rw [List.reverse_cons] at this
        obtain ⟨l, hl⟩ := hl (.atom (x ++ y)) (this.subset (by simp))
        simp at hl

theorem script_lists (t : GoType) (r : Rule) : ∀ e ∈ header ++ body t r, ∃ l, e = .list l := by
  intro e he
  simp only [header, body, List.mem_append, List.mem_cons, List.mem_map, List.not_mem_nil, or_false] at he
  rcases he with (rfl | rfl) | ⟨x, _, rfl⟩ | rfl | rfl | rfl
  · exact ⟨_, rfl⟩
  · exact ⟨_, rfl⟩
  · exact ⟨_, rfl⟩
  · exact ⟨_, rfl⟩
  · exact ⟨_, rfl⟩
  · exact ⟨_, rfl⟩

/-! ## Solvers -/

theorem solve_commands (keep : Session → SExp → Bool) : ∀ (es : List SExp) (σ σ' : Session), commands σ es = some σ' → solve keep σ es = σ'
  | [], σ, σ', h => by simpa [commands, solve] using h
  | e :: es, σ, σ', h => by
    rw [commands] at h
    rw [solve]
    cases hc : command σ e with
    | none => rw [hc] at h; simp at h
    | some σ1 =>
      rw [hc, Option.bind_some] at h
      exact solve_commands keep es σ1 σ' h

/-- A property that every successful command keeps holds afterwards. -/
theorem solve_keeps {keep : Session → SExp → Bool} {P : Session → Prop} : ∀ (es : List SExp), (∀ e ∈ es, ∀ σ σ', P σ → command σ e = some σ' → P σ') →
    ∀ σ, P σ → P (solve keep σ es)
  | [], _, σ, hσ => by rw [solve]; exact hσ
  | e :: es, h, σ, hσ => by
    rw [solve]
    cases hc : command σ e with
    | none =>
      dsimp only
      split
      · exact solve_keeps es (fun e' he' => h e' (by simp [he'])) σ hσ
      · exact hσ
    | some σ1 => exact solve_keeps es (fun e' he' => h e' (by simp [he'])) σ1 (h e (by simp) σ σ1 hσ hc)

/-- Queries are not taken back. -/
theorem command_queries {σ σ' : Session} {e : SExp} (h : command σ e = some σ') : σ.queries <+: σ'.queries := by
  unfold command at h
  split at h
  · repeat' (split at h)
    all_goals first
      | (simp at h; done)
      | (simp only [Option.some.injEq] at h; subst h; first | exact List.prefix_rfl | exact List.prefix_append _ _)
  · simp at h

theorem commands_queries : ∀ (es : List SExp) (σ σ' : Session), commands σ es = some σ' → σ.queries <+: σ'.queries
  | [], σ, σ', h => by
    simp only [commands, Option.some.injEq] at h
    rw [h]
    exact List.prefix_rfl
  | e :: es, σ, σ', h => by
    rw [commands] at h
    cases hc : command σ e with
    | none => rw [hc] at h; simp at h
    | some σ1 =>
      rw [hc, Option.bind_some] at h
      exact (command_queries hc).trans (commands_queries es σ1 σ' h)

/-- The state of a solver before a script with an illegal name has been asserted. -/
structure Blank (σ : Session) : Prop where
  decls : ∀ x ∈ σ.decls.map (·.1), legalName x = true
  nodup : (σ.decls.map (·.1)).Nodup
  asserts : σ.asserts = []
  queries : ∀ q ∈ σ.queries, q.asserts = [] ∧ (q.decls.map (·.1)).Nodup

theorem blank_init : Blank {} := ⟨by simp, by simp, rfl, by simp⟩

theorem blank_decl {t : GoType} {x : Str} {σ σ' : Session} (hσ : Blank σ) (h : command σ (declCmd t x) = some σ') : Blank σ' := by
  rw [command_decl] at h
  split at h
  · next hx =>
    obtain ⟨_, _, hl, hx⟩ := hx
    simp only [Option.some.injEq] at h
    subst h
    refine ⟨?_, ?_, hσ.asserts, hσ.queries⟩
    · intro y hy
      simp only [List.map_append, List.map_cons, List.map_nil, List.mem_append, List.mem_singleton] at hy
      rcases hy with hy | rfl
      · exact hσ.decls y hy
      · exact hl
    · simp only [List.map_append, List.map_cons, List.map_nil]
      rw [List.nodup_append]
      refine ⟨hσ.nodup, by simp, ?_⟩
      rintro a ha b hb rfl
      simp only [List.mem_singleton] at hb
      subst hb
      exact hx ha
  · simp at h

theorem blank_other {σ σ' : Session} {e : SExp} (he : e = setInfo ∨ e = setLogic ∨ e = checkSat ∨ e = exitCmd) (hσ : Blank σ) (h : command σ e = some σ') :
    Blank σ' := by
  rcases he with rfl | rfl | rfl | rfl
  · have : σ' = σ := by
      unfold setInfo command at h
      simp only at h
      split at h
      · simp at h
      · rw [if_pos trivial] at h
        simpa using h.symm
    rw [this]
    exact hσ
  · unfold setLogic command at h
    simp only at h
    split at h
    · simp at h
    · rw [if_neg (by decide), if_pos trivial] at h
      split at h
      · simp only [Option.some.injEq] at h
        subst h
        exact ⟨hσ.decls, hσ.nodup, hσ.asserts, hσ.queries⟩
      · simp at h
  · unfold checkSat command at h
    simp only at h
    split at h
    · simp at h
    · rw [if_neg (by decide), if_neg (by decide), if_neg (by decide), if_neg (by decide), if_pos trivial] at h
      split at h
      · simp only [Option.some.injEq] at h
        subst h
        refine ⟨hσ.decls, hσ.nodup, hσ.asserts, ?_⟩
        intro q hq
        simp only [List.mem_append, List.mem_singleton] at hq
        rcases hq with hq | rfl
        · exact hσ.queries q hq
        · exact ⟨hσ.asserts, hσ.nodup⟩
      · simp at h
  · unfold exitCmd command at h
    simp only at h
    split at h
    · simp at h
    · rw [if_neg (by decide), if_neg (by decide), if_neg (by decide), if_neg (by decide), if_neg (by decide), if_pos trivial] at h
      simp only [Option.some.injEq] at h
      subst h
      exact ⟨hσ.decls, hσ.nodup, hσ.asserts, hσ.queries⟩

mutual
/-- A term that has a sort mentions declared names only. -/
theorem sort_declared {d : List (Str × Srt)} : ∀ (v : Value) {s : Srt}, sortOf d (termOf v) = some s → ∀ x ∈ vars v, x ∈ d.map (·.1)
  | .var y, s, h, x, hx => by
    simp only [vars, List.mem_singleton] at hx
    subst hx
    rw [termOf, sortOf] at h
    cases hf : d.find? (fun e => e.1 == x) with
    | none => rw [hf] at h; simp at h
    | some e =>
      have h1 := List.find?_some hf
      have h2 := List.mem_of_find?_eq_some hf
      simp only [beq_iff_eq] at h1
      exact List.mem_map.2 ⟨e, h2, h1⟩
  | .sexpr hd args, s, h, x, hx => by
    rw [termOf] at h
    split at h
    · split at h
      · rw [sortOf_shape] at h
        cases hs : sortsOf d (termsOf args) with
        | none => rw [hs] at h; simp at h
        | some ss => exact sorts_declared args hs x (by simpa [vars] using hx)
      · simp [sortOf] at h
    · simp [sortOf] at h
  | .expr _, s, h, x, hx => by simp [vars] at hx
theorem sorts_declared {d : List (Str × Srt)} : ∀ (vs : List Value) {ss : List Srt}, sortsOf d (termsOf vs) = some ss → ∀ x ∈ varss vs, x ∈ d.map (·.1)
  | [], _, _, x, hx => by simp [varss] at hx
  | v :: vs, ss, h, x, hx => by
    rw [termsOf, sortsOf] at h
    cases h1 : sortOf d (termOf v) with
    | none => rw [h1] at h; simp at h
    | some s1 =>
      cases h2 : sortsOf d (termsOf vs) with
      | none => rw [h1, h2] at h; simp at h
      | some ss1 =>
        simp only [varss, List.mem_append] at hx
        exact hx.elim (sort_declared v h1 x) (sorts_declared vs h2 x)
end

theorem claim_declared {d : List (Str × Srt)} {r : Rule} {s : Srt} (h : sortOf d (claim r) = some s) : ∀ x ∈ ruleVars r, x ∈ d.map (·.1) := by
  unfold claim at h
  rw [sortOf_app, sortsOf, sortOf_app, sortsOf, sortsOf, sortsOf] at h
  cases h1 : sortOf d (termOf r.match) with
  | none => rw [h1] at h; simp at h
  | some s1 =>
    cases h2 : sortOf d (termOf r.result) with
    | none => rw [h1, h2] at h; simp at h
    | some s2 =>
      intro x hx
      simp only [ruleVars, List.mem_append] at hx
      exact hx.elim (sort_declared _ h1 x) (sort_declared _ h2 x)

theorem blank_assert {r : Rule} {σ σ' : Session} (hr : ¬ ∀ x ∈ ruleVars r, legalName x = true) (hσ : Blank σ) (h : command σ (assertCmd r) = some σ') : Blank σ' := by
  exfalso
  apply hr
  unfold assertCmd command at h
  simp only at h
  split at h
  · simp at h
  · rw [if_neg (by decide), if_neg (by decide), if_neg (by decide), if_pos trivial] at h
    split at h
    · next hs => exact fun x hx => hσ.decls x (claim_declared hs.2 x hx)
    · simp at h

theorem blank_script {t : GoType} {r : Rule} (hr : ¬ ∀ x ∈ ruleVars r, legalName x = true) (keep : Session → SExp → Bool) {es : List SExp}
    (hp : es <+: header ++ body t r) : Blank (solve keep {} es) := by
  refine solve_keeps es (fun e he σ σ' hσ hc => ?_) {} blank_init
  have he' := hp.subset he
  simp only [header, body, List.mem_append, List.mem_cons, List.mem_map, List.not_mem_nil, or_false] at he'
  rcases he' with (rfl | rfl) | ⟨x, _, rfl⟩ | rfl | rfl | rfl
  · exact blank_other (.inl rfl) hσ hc
  · exact blank_other (.inr (.inl rfl)) hσ hc
  · exact blank_decl hσ hc
  · exact blank_assert hr hσ hc
  · exact blank_other (.inr (.inr (.inl rfl))) hσ hc
  · exact blank_other (.inr (.inr (.inr rfl))) hσ hc

/-- A value of each sort. -/
def someVal : Srt → Val
  | .bool => .bool true
  | .bv w => .bits w 0#w

theorem someVal_sort (s : Srt) : (someVal s).sort = s := by cases s <;> rfl

/-- Nothing asserted: satisfiable. -/
theorem sat_blank {q : Query} (ha : q.asserts = []) (hn : (q.decls.map (·.1)).Nodup) : Sat q := by
  refine ⟨fun x => match q.decls.find? (fun d => d.1 == x) with | some d => someVal d.2 | none => .bool true, ?_, by rw [ha]; simp⟩
  have key : ∀ (ds : List (Str × Srt)), (ds.map (·.1)).Nodup → ∀ d ∈ ds, ds.find? (fun e => e.1 == d.1) = some d := by
    intro ds
    induction ds with
    | nil => simp
    | cons e ds ih =>
      intro hn d hd
      rw [List.map_cons, List.nodup_cons] at hn
      rcases List.mem_cons.1 hd with rfl | hd
      · simp
      · rw [List.find?_cons_of_neg, ih hn.2 d hd]
        intro he
        simp only [beq_iff_eq] at he
        exact hn.1 (List.mem_map.2 ⟨d, hd, he.symm⟩)
  intro d hd
  simp only [key _ hn d hd, someVal_sort]

end Verif.Proof.Solver
