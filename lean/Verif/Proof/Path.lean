import Verif.Proof.Cmd
/-! # Lemmas: file names and the places paths lead to -/
namespace Verif.Proof
open Verif Verif.Spec

/-! ## Decimal numbers -/

theorem toDigits_head (n : Nat) : 0 < n → (Nat.toDigits 10 n).head? ≠ some '0' := by
  induction n using Nat.strongRecOn with
  | ind n ih =>
    intro hn
    by_cases h : n < 10
    · rw [Nat.toDigits_of_lt_base h]
      have : ∀ k, k < 10 → 0 < k → [k.digitChar].head? ≠ some '0' := by decide
      exact this n h hn
    · rw [Nat.toDigits_of_base_le (by decide) (by omega)]
      have := ih (n / 10) (by omega) (by omega)
      cases hd : Nat.toDigits 10 (n / 10) with
      | nil => exact absurd hd Nat.toDigits_ne_nil
      | cons c d => rw [hd] at this; simpa using this

theorem isScriptName_scriptName (i : Nat) : IsScriptName i (scriptName i) := by
  refine ⟨List.replicate (4 - (Nat.toDigits 10 i).length) '0' ++ Nat.toDigits 10 i, rfl, ?_, ?_, ?_, ?_⟩
  · intro c hc
    simp only [List.mem_append] at hc
    rcases hc with hc | hc
    · have := List.eq_of_mem_replicate hc; subst this; decide
    · exact Nat.isDigit_of_mem_toDigits (by decide) (by decide) hc
  · exact digits_padded i _
  · simp only [List.length_append, List.length_replicate]; omega
  · intro h
    simp only [List.length_append, List.length_replicate] at h
    have h0 : 4 - (Nat.toDigits 10 i).length = 0 := by omega
    rw [h0, List.replicate_zero, List.nil_append]
    apply toDigits_head
    cases i with
    | zero => rw [Nat.toDigits_zero] at h; simp at h
    | succ i => omega

theorem digit_val {c : Char} (h : c.isDigit = true) : c.toNat - '0'.toNat < 10 ∧ 48 ≤ c.toNat := by
  simp only [Char.isDigit, Bool.and_eq_true, decide_eq_true_eq, ge_iff_le, UInt32.le_iff_toNat_le] at h
  have h1 : '0'.val.toNat = 48 := rfl
  have h2 : '9'.val.toNat = 57 := rfl
  have h3 : c.val.toNat = c.toNat := rfl
  have h4 : '0'.toNat = 48 := rfl
  omega

theorem decimal_snoc (d : Str) (c : Char) : decimal (d ++ [c]) = 10 * decimal d + (c.toNat - '0'.toNat) := by simp [decimal]

theorem snoc_cases {α : Type} (l : List α) : l = [] ∨ ∃ a x, l = a ++ [x] := by
  rcases List.eq_nil_or_concat l with h | ⟨a, x, h⟩
  · exact .inl h
  · exact .inr ⟨a, x, by simpa using h⟩

theorem decimal_lt (k : Nat) : ∀ d : Str, d.length = k → (∀ c ∈ d, c.isDigit = true) → decimal d < 10 ^ k := by
  induction k with
  | zero => intro d h _; have := List.length_eq_zero_iff.1 h; subst this; decide
  | succ k ih =>
    intro d h hd
    rcases snoc_cases d with rfl | ⟨a, x, rfl⟩
    · simp at h
    · have := ih a (by simpa using h) (fun c hc => hd c (by simp [hc]))
      have hx := (digit_val (hd x (by simp))).1
      rw [decimal_snoc, Nat.pow_succ]; omega

theorem decimal_ge (k : Nat) : ∀ d : Str, d.length = k + 1 → (∀ c ∈ d, c.isDigit = true) → d.head? ≠ some '0' → 10 ^ k ≤ decimal d := by
  induction k with
  | zero =>
    intro d h hd h0
    cases d with
    | nil => simp at h
    | cons c d =>
      have : d = [] := by simpa using h
      subst this
      have hc := digit_val (hd c (by simp))
      have : c.toNat ≠ 48 := by
        intro he
        apply h0
        have : c = '0' := Char.toNat_inj.1 (by simpa using he)
        simp [this]
      have e : '0'.toNat = 48 := rfl
      simp [decimal]; omega
  | succ k ih =>
    intro d h hd h0
    rcases snoc_cases d with rfl | ⟨a, x, rfl⟩
    · simp at h
    · have := ih a (by simpa using h) (fun c hc => hd c (by simp [hc])) (by
        cases a with
        | nil => simp at h
        | cons c a => simpa using h0)
      rw [decimal_snoc, Nat.pow_succ]; omega

theorem decimal_inj (k : Nat) : ∀ d d' : Str, d.length = k → d'.length = k → (∀ c ∈ d, c.isDigit = true) → (∀ c ∈ d', c.isDigit = true) →
    decimal d = decimal d' → d = d' := by
  induction k with
  | zero => intro d d' h h' _ _ _; rw [List.length_eq_zero_iff.1 h, List.length_eq_zero_iff.1 h']
  | succ k ih =>
    intro d d' h h' hd hd' he
    rcases snoc_cases d with rfl | ⟨a, x, rfl⟩
    · simp at h
    rcases snoc_cases d' with rfl | ⟨a', x', rfl⟩
    · simp at h'
    have hx := digit_val (hd x (by simp))
    have hx' := digit_val (hd' x' (by simp))
    rw [decimal_snoc, decimal_snoc] at he
    have e : '0'.toNat = 48 := rfl
    have hxx : x.toNat = x'.toNat := by omega
    rw [ih a a' (by simpa using h) (by simpa using h') (fun c hc => hd c (by simp [hc])) (fun c hc => hd' c (by simp [hc])) (by omega),
      Char.toNat_inj.1 hxx]

theorem isScriptName_iff {i : Nat} {n : Str} : IsScriptName i n ↔ n = scriptName i := by
  constructor
  · rintro ⟨d, rfl, h1, h2, h3, h4⟩
    obtain ⟨d', e, k1, k2, k3, k4⟩ := isScriptName_scriptName i
    rw [e]; congr 1
    have key : ∀ a b : Str, (∀ c ∈ a, c.isDigit = true) → (∀ c ∈ b, c.isDigit = true) → decimal a = decimal b → 4 ≤ a.length →
        (4 < b.length → b.head? ≠ some '0') → ¬ a.length < b.length := by
      intro a b ha hb hab ha4 hb4 hlt
      have h1 := decimal_lt a.length a rfl ha
      have h2 := decimal_ge (b.length - 1) b (by omega) hb (hb4 (by omega))
      have h3 : 10 ^ a.length ≤ 10 ^ (b.length - 1) := Nat.pow_le_pow_right (by decide) (by omega)
      omega
    have hlen : d.length = d'.length := by
      have a1 := key d d' h1 k1 (by rw [h2, k2]) h3 k4
      have a2 := key d' d k1 h1 (by rw [h2, k2]) k3 h4
      omega
    exact decimal_inj d.length d d' rfl hlen.symm h1 k1 (by rw [h2, k2])
  · rintro rfl; exact isScriptName_scriptName i

/-! ## Paths -/

theorem splitSlash_ne_nil (p : Str) : splitSlash p ≠ [] := by
  cases p with
  | nil => simp [splitSlash]
  | cons c p =>
    rw [splitSlash]
    split
    · simp
    · split <;> simp

theorem follow_eq (p : Str) : ∀ dir w, follow dir w p =
    match splitSlash p with | [] => dir | v :: vs => vs.foldl goto (goto dir (w ++ v)) := by
  induction p with
  | nil => intro dir w; simp [follow, splitSlash]
  | cons c p ih =>
    intro dir w
    rw [follow, splitSlash]
    by_cases hc : c = '/'
    · rw [if_pos hc, if_pos hc, ih]
      cases hs : splitSlash p with
      | nil => exact absurd hs (splitSlash_ne_nil p)
      | cons v vs => simp
    · rw [if_neg hc, if_neg hc, ih]
      cases hs : splitSlash p with
      | nil => exact absurd hs (splitSlash_ne_nil p)
      | cons v vs => simp

theorem follow_split (p : Str) (dir : List Str) : follow dir [] p = (splitSlash p).foldl goto dir := by
  rw [follow_eq]
  cases hs : splitSlash p with
  | nil => exact absurd hs (splitSlash_ne_nil p)
  | cons v vs => simp

theorem splitSlash_no_slash (p : Str) : ∀ w ∈ splitSlash p, '/' ∉ w := by
  induction p with
  | nil => simp [splitSlash]
  | cons c p ih =>
    rw [splitSlash]
    split
    · intro w hw
      simp only [List.mem_cons] at hw
      rcases hw with rfl | hw
      · simp
      · exact ih w hw
    · rename_i hc
      cases hs : splitSlash p with
      | nil => exact absurd hs (splitSlash_ne_nil p)
      | cons v vs =>
        rw [hs] at ih
        intro w hw
        simp only [List.mem_cons] at hw
        rcases hw with rfl | hw
        · have := ih v (by simp)
          simp only [List.mem_cons, not_or]
          exact ⟨fun h => hc h.symm, this⟩
        · exact ih w (by simp [hw])

/-- What `filepath.Clean` keeps on its stack. -/
def Kept (w : Str) : Prop := w ≠ [] ∧ w ≠ ['.'] ∧ '/' ∉ w

theorem cleanStep_kept {b stk w} (h : ∀ v ∈ stk, Kept v) (hw : '/' ∉ w) : ∀ v ∈ cleanStep b stk w, Kept v := by
  unfold cleanStep
  by_cases h1 : w = [] ∨ w = ['.']
  · rw [if_pos h1]; exact h
  · rw [if_neg h1]
    have hk : Kept w := ⟨fun e => h1 (.inl e), fun e => h1 (.inr e), hw⟩
    by_cases h2 : w = ['.', '.']
    · rw [if_pos h2]
      cases stk with
      | nil => cases b <;> simp [hk]
      | cons top rest =>
        simp only
        split
        · intro v hv
          rcases List.mem_cons.1 hv with rfl | hv
          · exact hk
          · exact h v hv
        · exact fun v hv => h v (by simp [hv])
    · rw [if_neg h2]
      intro v hv
      rcases List.mem_cons.1 hv with rfl | hv
      · exact hk
      · exact h v hv

theorem cleanStep_goto {b : Bool} {base : List Str} {stk w} (hb : b = true → base = []) (h : ∀ v ∈ stk, Kept v) :
    (cleanStep b stk w).reverse.foldl goto base = goto (stk.reverse.foldl goto base) w := by
  unfold cleanStep
  by_cases h1 : w = [] ∨ w = ['.']
  · rw [if_pos h1, goto, if_pos h1]
  · rw [if_neg h1]
    by_cases h2 : w = ['.', '.']
    · rw [if_pos h2]
      cases stk with
      | nil =>
        cases b with
        | true => simp [hb rfl, goto, h2]
        | false => simp
      | cons top rest =>
        simp only
        split
        · simp
        · rename_i ht
          have hk := h top (by simp)
          rw [List.reverse_cons, List.foldl_append]
          simp only [List.foldl_cons, List.foldl_nil]
          have e1 : goto (rest.reverse.foldl goto base) top = rest.reverse.foldl goto base ++ [top] := by
            rw [goto, if_neg (fun e => e.elim hk.1 hk.2.1), if_neg ht]
          rw [e1, goto, if_neg h1, if_pos h2]; simp
    · rw [if_neg h2]; simp

theorem clean_fold {b : Bool} {base : List Str} (hb : b = true → base = []) : ∀ (ws : List Str) (stk : List Str), (∀ v ∈ stk, Kept v) →
    (∀ w ∈ ws, '/' ∉ w) →
    (∀ v ∈ ws.foldl (cleanStep b) stk, Kept v) ∧
      (ws.foldl (cleanStep b) stk).reverse.foldl goto base = ws.foldl goto (stk.reverse.foldl goto base) := by
  intro ws
  induction ws with
  | nil => intro stk h _; exact ⟨h, rfl⟩
  | cons w ws ih =>
    intro stk h hw
    have := ih (cleanStep b stk w) (cleanStep_kept h (hw w (by simp))) (fun v hv => hw v (by simp [hv]))
    refine ⟨this.1, ?_⟩
    rw [List.foldl_cons, this.2, cleanStep_goto hb h, List.foldl_cons]

theorem splitSlash_word {w : Str} (h : '/' ∉ w) : splitSlash w = [w] := by
  have := splitSlash_append [] w h
  simp only [List.nil_append, splitSlash] at this
  simpa using this

theorem splitSlash_cons_word {w p : Str} (h : '/' ∉ w) : splitSlash (w ++ '/' :: p) = w :: splitSlash p := by
  induction w with
  | nil => simp [splitSlash]
  | cons c w ih =>
    simp only [List.mem_cons, not_or] at h
    rw [List.cons_append, splitSlash, if_neg (fun e => h.1 e.symm), ih h.2]

theorem splitSlash_joinSlash {ws : List Str} (h : ∀ w ∈ ws, '/' ∉ w) (hne : ws ≠ []) : splitSlash (joinSlash ws) = ws := by
  induction ws with
  | nil => exact absurd rfl hne
  | cons w ws ih =>
    cases ws with
    | nil => exact splitSlash_word (h w (by simp))
    | cons v ws =>
      rw [joinSlash, splitSlash_cons_word (h w (by simp)), ih (fun x hx => h x (by simp [hx])) (by simp)]
      simp

theorem joinSlash_head {ws : List Str} (h : ∀ w ∈ ws, Kept w) : (joinSlash ws).head? ≠ some '/' := by
  cases ws with
  | nil => simp [joinSlash]
  | cons w ws =>
    have hk := h w (by simp)
    cases w with
    | nil => exact absurd rfl hk.1
    | cons c w =>
      have : c ≠ '/' := fun e => hk.2.2 (by simp [e])
      cases ws <;> simpa [joinSlash] using this

/-- `filepath.Clean` keeps the place a path names. -/
theorem locate_cleanPath (cwd : List Str) (p : Str) : locate cwd (cleanPath p) = locate cwd p := by
  have hk0 : ∀ v ∈ ([] : List Str), Kept v := by simp
  unfold cleanPath
  by_cases hr : p.head? = some '/'
  · have hr' : (p.head? == some '/') = true := by simp [hr]
    obtain ⟨h1, h2⟩ := clean_fold (b := true) (base := []) (fun _ => rfl) (splitSlash p) [] hk0 (splitSlash_no_slash p)
    simp only [hr', if_true]
    generalize hws : (List.foldl (cleanStep true) [] (splitSlash p)).reverse = ws at h2
    have hkw : ∀ w ∈ ws, Kept w := by rw [← hws]; exact fun w hw => h1 w (by simpa using hw)
    rw [locate, if_pos (by simp), locate, if_pos hr, follow_split, follow_split]
    have : splitSlash ('/' :: joinSlash ws) = [] :: splitSlash (joinSlash ws) := by rw [splitSlash, if_pos rfl]
    rw [this, List.foldl_cons]
    have hg : goto [] [] = [] := rfl
    rw [hg]
    by_cases hne : ws = []
    · subst hne
      rw [← show [] = List.foldl goto [] (splitSlash p) from h2]
      rfl
    · rw [splitSlash_joinSlash (fun w hw => (hkw w hw).2.2) hne, h2]; rfl
  · have hr' : (p.head? == some '/') = false := by simp [hr]
    obtain ⟨h1, h2⟩ := clean_fold (b := false) (base := cwd) (by simp) (splitSlash p) [] hk0 (splitSlash_no_slash p)
    simp only [hr']
    generalize hws : (List.foldl (cleanStep false) [] (splitSlash p)).reverse = ws at h2
    have hkw : ∀ w ∈ ws, Kept w := by rw [← hws]; exact fun w hw => h1 w (by simpa using hw)
    have e : locate cwd p = (splitSlash p).foldl goto cwd := by rw [locate, if_neg hr, follow_split]
    rw [e]
    by_cases hne : ws = []
    · subst hne
      rw [← show cwd = List.foldl goto cwd (splitSlash p) from h2]
      rfl
    · rw [if_neg hne, if_neg (by simp), locate, if_neg (joinSlash_head hkw), follow_split,
        splitSlash_joinSlash (fun w hw => (hkw w hw).2.2) hne, h2]; rfl

theorem goto_normal {dir n} (h : NormalName n) : goto dir n = dir ++ [n] := by
  rw [goto, if_neg (fun e => e.elim h.1 h.2.1), if_neg h.2.2.1]

/-- `filepath.Join(dir, name)` names the entry `name` of the directory that `dir` names. -/
theorem locate_joinPath (cwd : List Str) (outdir n : Str) (hn : NormalName n) : locate cwd (joinPath outdir n) = locate cwd outdir ++ [n] := by
  rw [joinPath, locate_cleanPath]
  have hnr : n.head? ≠ some '/' := by
    cases n with
    | nil => simp
    | cons c n => simp; rintro rfl; exact hn.2.2.2 (by simp)
  by_cases ho : outdir = []
  · rw [if_pos ho, locate, if_neg hnr, follow_split, splitSlash_word hn.2.2.2]
    subst ho
    rw [List.foldl_cons, List.foldl_nil, goto_normal hn]; rfl
  · rw [if_neg ho]
    have hroot : (outdir ++ '/' :: n).head? = outdir.head? := by cases outdir with | nil => exact absurd rfl ho | cons c o => rfl
    unfold locate
    rw [hroot]
    split <;> rw [follow_split, follow_split, splitSlash_append _ _ hn.2.2.2, List.foldl_append, List.foldl_cons, List.foldl_nil, goto_normal hn]

theorem locate_script (cwd : List Str) (outdir : Str) (i : Nat) :
    locate cwd (joinPath outdir (scriptName i)) = locate cwd outdir ++ [scriptName i] := locate_joinPath _ _ _ (scriptName_normal i)

end Verif.Proof
