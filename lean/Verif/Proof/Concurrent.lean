import Verif.Proof.ExpandProg
/-! # Goroutines that expand files -/
namespace Verif

open Verif.Spec Prog

theorem Prog.Ok.imp {α : Type} {I J : View → Prop} {Q S : Res α → View → Prop} {x : Prog α} {V : View} {W : Addr → Prop}
    (hx : x.Ok I Q V W) (hI : ∀ V', I V' → J V') (hQ : ∀ r V', Q r V' → S r V') : x.Ok J S V W := by
  induction x generalizing V W with
  | ret r => exact ⟨hI _ hx.1, hQ r V hx.2⟩
  | read a k ih =>
    obtain ⟨h0, c, hc, h⟩ := hx
    exact ⟨hI _ h0, c, hc, ih c h⟩
  | alloc c k ih => exact ⟨hI _ hx.1, fun a ha => ih a (hx.2 a ha)⟩
  | write a c k ih =>
    obtain ⟨h0, h1, h2, h3⟩ := hx
    exact ⟨hI _ h0, h1, h2, ih h3⟩
  | stuck => exact hx.elim

/-! ## One goroutine -/

/-- All cells but files are kept. -/
def View.Keeps (V V' : View) : Prop := ∀ a c, V a = some c → (∀ x, c ≠ .file x) → V' a = some c

mutual
theorem VRepV_keeps {V V' : View} (hp : V.Keeps V') {a : HVal} {v : Value} (hr : VRepV V a v) : VRepV V' a v := by
  cases hr with
  | nil => exact .nil
  | expr e => exact .expr e
  | var x => exact .var x
  | sexpr h1 h2 h3 => exact .sexpr (hp _ _ h1 (by simp)) (hp _ _ h2 (by simp)) (VRepVs_keeps hp h3)
theorem VRepVs_keeps {V V' : View} (hp : V.Keeps V') {as : List HVal} {vs : List Value} (hr : VRepVs V as vs) : VRepVs V' as vs := by
  cases hr with
  | nil => exact .nil
  | cons h1 h2 => exact .cons (VRepV_keeps hp h1) (VRepVs_keeps hp h2)
end

theorem VRepRule_keeps {V V' : View} (hp : V.Keeps V') {p : Addr} {r : Rule} (hr : VRepRule V p r) : VRepRule V' p r := by
  obtain ⟨m, res, h1, h2, h3⟩ := hr
  exact ⟨m, res, hp _ _ h1 (by simp), VRepV_keeps hp h2, VRepV_keeps hp h3⟩

/-- `RepFile` in a view. -/
def VFile (V : View) (p : Addr) (ps : List Addr) (f : File) : Prop :=
  ∃ arr, V p = some (.file arr) ∧ V arr = some (.rules ps) ∧ RelList (VRepRule V) ps f.rules

/-- `ExpandedTo` in a view. -/
def VDone (V : View) (p : Addr) (ps : List Addr) (f g : File) : Prop :=
  ∃ groups : List (List Addr), VFile V p groups.flatten g ∧ RelList (RelList (VRepRule V)) groups (f.rules.map expansion) ∧ Groups ps groups

theorem VFile.mono {V V' : View} (h : V.Le V') {p : Addr} {ps : List Addr} {f : File} (hf : VFile V p ps f) : VFile V' p ps f := by
  obtain ⟨arr, h1, h2, h3⟩ := hf
  exact ⟨arr, h _ _ h1, h _ _ h2, h3.mono fun _ _ => VRepRule_mono h⟩

/-- Before or after. -/
def Either (p : Addr) (ps : List Addr) (f : File) (V : View) : Prop :=
  VFile V p ps f ∨ ∃ g, expandAlternates f = .ok g ∧ VDone V p ps f g

/-- What the goroutine leaves behind. -/
def Outcome (p : Addr) (ps : List Addr) (f : File) (r : Res Unit) (V : View) : Prop :=
  match expandAlternates f with
  | .ok g => r = .ok () ∧ VDone V p ps f g
  | .err e => r = .err e ∧ VFile V p ps f
  | .panic => r = .panic ∧ VFile V p ps f

theorem pexpandAlternates_ok {fuel : Nat} {p : Addr} {ps : List Addr} {f : File} {V : View} {W : Addr → Prop} (hf : VFile V p ps f) (hd : fileDepth f ≤ fuel) (hW : W p) :
    (pexpandAlternates fuel p).Ok (Either p ps f) (Outcome p ps f) V W := by
  have hkeep : ∀ {V' : View}, V.Le V' → Either p ps f V' := fun h => .inl (hf.mono h)
  have hfile : ∀ {V' : View}, V.Le V' → VFile V' p ps f := fun h => hf.mono h
  obtain ⟨arr, h1, h2, h3⟩ := hf
  have hrules := pexpandrules_refines fuel ps f.rules V (fileDepth_le hd) h3 (fun _ => False)
  have hrules := ((hrules.keep (V0 := V) (W' := W) (by simp) (by simp) (View.Le.refl V)).imp (J := Either p ps f) (fun V' => hkeep) fun _ _ h => h)
  show Prog.Ok _ _ (Prog.bind (Prog.get p) _) V W
  refine ⟨hkeep (View.Le.refl V), .file arr, h1, hkeep (View.Le.refl V), .rules ps, h2, ?_⟩
  show Prog.Ok _ _ (Prog.bind (Prog.bind (forP (pexpandrule fuel) ps) fun xss => Prog.ret (.ok xss.flatten)) fun out => Prog.alloc (.rules out) fun x => Prog.write p (.file x) (.ret (.ok ()))) V W
  refine Prog.Ok.bind (Q := fun ra V' => V.Le V' ∧ Post V (fun V' out xss => ∃ gs : List (List Addr), out = gs.flatten ∧ RelList (RelList (VRepRule V')) gs xss ∧ Groups ps gs) (forRes expandrule f.rules) ra V') ?_ ?_ ?_ ?_
  · refine Prog.Ok.bind hrules ?_ ?_ ?_
    · rintro V' W' gs - hE ⟨hle, hle', hq⟩
      refine ⟨hE, hle, hle', ?_⟩
      revert hq
      cases forRes expandrule f.rules with
      | err e => intro hq; cases hq
      | panic => intro hq; cases hq
      | ok xss =>
        rintro ⟨a, e, hR⟩
        cases e
        exact ⟨_, rfl, gs, rfl, hR.1, hR.2⟩
    · rintro V' e ⟨hle, hle', hq⟩
      refine ⟨hle, hle', ?_⟩
      revert hq
      cases forRes expandrule f.rules with
      | err e => intro hq; cases hq; rfl
      | panic => intro hq; cases hq
      | ok xss =>
        rintro ⟨a, e, hR⟩
        cases e
    · rintro V' ⟨hle, hle', hq⟩
      refine ⟨hle, hle', ?_⟩
      revert hq
      cases forRes expandrule f.rules with
      | err e => intro hq; cases hq
      | panic => intro hq; rfl
      | ok xss =>
        rintro ⟨a, e, hR⟩
        cases e
  · rintro V' W' out hWW hE ⟨hle, -, hq⟩
    cases hx : forRes expandrule f.rules with
    | err e => rw [hx] at hq; cases hq
    | panic => rw [hx] at hq; cases hq
    | ok xss =>
      rw [hx] at hq
      obtain ⟨a, e, gs, ho, hrel, hgr⟩ := hq
      cases e
      subst ho
      have hok : expandAlternates f = .ok ⟨xss.flatten⟩ := by simp [expandAlternates, expandrules, hx]
      refine ⟨hE, fun x hxn => ?_⟩
      have hle1 : V.Le (V'.upd x (.rules gs.flatten)) := hle.trans (View.le_upd _ hxn)
      have hpx : p ≠ x := by rintro rfl; rw [hle _ _ h1] at hxn; cases hxn
      have hV'p : V' p = some (.file arr) := hle _ _ h1
      have hpc : (V'.upd x (.rules gs.flatten)) p = some (.file arr) := hle1 _ _ h1
      have hdone : VDone ((V'.upd x (.rules gs.flatten)).upd p (.file x)) p ps f ⟨xss.flatten⟩ := by
        have hkp : V'.Keeps ((V'.upd x (.rules gs.flatten)).upd p (.file x)) := by
          intro b c hc hnf
          have hbp : b ≠ p := by rintro rfl; rw [hV'p] at hc; cases hc; exact hnf arr rfl
          rw [View.upd_ne _ _ hbp]
          exact View.le_upd _ hxn b c hc
        have hrel' : RelList (RelList (VRepRule ((V'.upd x (.rules gs.flatten)).upd p (.file x)))) gs xss := hrel.mono fun _ _ h => h.mono fun _ _ => VRepRule_keeps hkp
        refine ⟨gs, ⟨x, View.upd_self _ _ _, ?_, relList_flatten hrel'⟩, ?_, hgr⟩
        · rw [View.upd_ne _ _ (Ne.symm hpx), View.upd_self]
        · rw [← forRes_expandrule_ok hx]; exact hrel'
      refine ⟨hkeep hle1, .inr (hWW p hW), by rw [hpc]; simp, .inr ⟨_, hok, hdone⟩, ?_⟩
      unfold Outcome
      rw [hok]
      exact ⟨rfl, hdone⟩
  · rintro V' e ⟨hle, -, hq⟩
    cases hx : forRes expandrule f.rules with
    | err e' =>
      rw [hx] at hq
      cases hq
      have : expandAlternates f = .err e := by simp [expandAlternates, expandrules, hx]
      unfold Outcome
      rw [this]
      exact ⟨rfl, hfile hle⟩
    | panic => rw [hx] at hq; cases hq
    | ok xss => rw [hx] at hq; obtain ⟨a, e, -⟩ := hq; cases e
  · rintro V' ⟨hle, -, hq⟩
    cases hx : forRes expandrule f.rules with
    | err e' => rw [hx] at hq; cases hq
    | panic =>
      have : expandAlternates f = .panic := by simp [expandAlternates, expandrules, hx]
      unfold Outcome
      rw [this]
      exact ⟨rfl, hfile hle⟩
    | ok xss => rw [hx] at hq; obtain ⟨a, e, -⟩ := hq; cases e

theorem looks_ok {α : Type} {h : Heap} {files : Addr → Prop} {P : Prog α} {r : Res α} (hl : Looks h files P r) {V : View} (hV : ∀ a c, h[a]? = some c → ¬ files a → V a = some c)
    (W : Addr → Prop) : P.Ok (fun _ => True) (fun r' _ => r' = r) V W := by
  induction hl with
  | ret => exact ⟨trivial, rfl⟩
  | read h1 h2 _ ih => exact ⟨trivial, _, hV _ _ h1 h2, ih⟩

/-! ## All goroutines -/

/-- What goroutine `i` may see, where `own` tells to whom the cells belong (`none`: to all, and nobody writes them). -/
def view (h : Heap) (own : List (Option Nat)) (i : Nat) : View :=
  fun a => if own[a]? = some none ∨ own[a]? = some (some i) then h[a]? else none

/-- All goroutines are fine. -/
structure Fine {α : Type} (I : Nat → View → Prop) (Q : Nat → Res α → View → Prop) (h : Heap) (own : List (Option Nat)) (ts : List (Prog α)) : Prop where
  len : own.length = h.length
  ok : ∀ (i : Nat) (P : Prog α), ts[i]? = some P → P.Ok (I i) (Q i) (view h own i) (fun a => own[a]? = some (some i))

theorem view_some {h : Heap} {own : List (Option Nat)} {i : Nat} {a : Addr} {c : Cell} (hv : view h own i a = some c) :
    h[a]? = some c ∧ (own[a]? = some none ∨ own[a]? = some (some i)) := by
  unfold view at hv
  split at hv
  · exact ⟨hv, by assumption⟩
  · cases hv

theorem view_write_other {h : Heap} {own : List (Option Nat)} {i j : Nat} {a : Addr} (c : Cell) (ho : own[a]? = some (some i)) (hij : j ≠ i) :
    view (h.set a c) own j = view h own j := by
  funext b
  unfold view
  by_cases hb : b = a
  · subst hb
    rw [ho]
    simp [Ne.symm hij]
  · rw [List.getElem?_set_ne (Ne.symm hb)]

theorem view_write_own {h : Heap} {own : List (Option Nat)} {i : Nat} {a : Addr} (c : Cell) (ha : a < h.length) (ho : own[a]? = some (some i)) :
    view (h.set a c) own i = (view h own i).upd a c := by
  funext b
  unfold view View.upd
  by_cases hb : b = a
  · subst hb
    rw [ho, List.getElem?_set_self ha]
    simp
  · rw [List.getElem?_set_ne (Ne.symm hb), if_neg hb]

theorem view_alloc {h : Heap} {own : List (Option Nat)} {i j : Nat} (c : Cell) (hl : own.length = h.length) :
    view (h ++ [c]) (own ++ [some i]) j = if j = i then (view h own j).upd h.length c else view h own j := by
  funext b
  revert b
  intro (b : Nat)
  by_cases hb : b < h.length
  · have h1 : (own ++ [some i])[b]? = own[b]? := List.getElem?_append_left (by omega)
    have h2 : (h ++ [c])[b]? = h[b]? := List.getElem?_append_left hb
    have h3 : b ≠ h.length := by omega
    split <;> simp only [view, h1, h2, View.upd, if_neg h3]
  · by_cases hb' : b = h.length
    · subst hb'
      have h1 : (own ++ [some i])[h.length]? = some (some i) := by rw [← hl]; simp
      have h2 : (h ++ [c])[h.length]? = some c := by simp
      split
      · rename_i hj; subst hj; simp [view, h1, View.upd]
      · rename_i hj
        have h3 : h[h.length]? = none := by simp
        simp only [view, h1, h2, h3, ite_self]
        simp [Ne.symm hj]
    · have h2 : (h ++ [c])[b]? = none := by simp; omega
      have h3 : h[b]? = none := by simp; omega
      split <;> simp only [view, h2, h3, ite_self, View.upd, if_neg hb']

theorem fine_step {α : Type} {I : Nat → View → Prop} {Q : Nat → Res α → View → Prop} {h h' : Heap} {own : List (Option Nat)} {ts : List (Prog α)} {i : Nat} {P P' : Prog α} {e : Access}
    (hF : Fine I Q h own ts) (hP : ts[i]? = some P) (hS : Step h P e h' P') :
    ∃ own', Fine I Q h' own' (ts.set i P') ∧ own <+: own' ∧ (own'[e.addr]? = some none ∨ own'[e.addr]? = some (some i)) ∧ (e.changes → own'[e.addr]? = some (some i)) ∧
      ∀ a : Nat, own[a]? = some none → h'[a]? = h[a]? := by
  have hi : i < ts.length := (List.getElem?_eq_some_iff.1 hP).1
  have hok := hF.ok i P hP
  cases hS with
  | @read a k c hc =>
    obtain ⟨-, c', hc', hk⟩ := hok
    obtain ⟨hc1, hc2⟩ := view_some hc'
    rw [hc] at hc1
    cases hc1
    refine ⟨own, ⟨hF.len, ?_⟩, List.prefix_refl _, hc2, (·.elim), fun _ _ => rfl⟩
    intro j R hR
    by_cases hj : j = i
    · subst hj
      rw [List.getElem?_set_self hi] at hR
      cases hR
      exact hk
    · rw [List.getElem?_set_ne (Ne.symm hj)] at hR
      exact hF.ok j R hR
  | @write a c _ ha =>
    obtain ⟨-, hw, -, hk⟩ := hok
    refine ⟨own, ⟨by simp [hF.len], ?_⟩, List.prefix_refl _, .inr hw, fun _ => hw, ?_⟩
    · intro j R hR
      by_cases hj : j = i
      · subst hj
        rw [List.getElem?_set_self hi] at hR
        cases hR
        rw [view_write_own c ha hw]
        exact hk
      · rw [List.getElem?_set_ne (Ne.symm hj)] at hR
        rw [view_write_other c hw hj]
        exact hF.ok j R hR
    · intro b hb
      have : a ≠ b := by rintro rfl; rw [hw] at hb; simp at hb
      exact List.getElem?_set_ne this
  | @alloc c k =>
    obtain ⟨-, hk⟩ := hok
    have ho : (own ++ [some i])[h.length]? = some (some i) := by rw [← hF.len]; simp
    refine ⟨own ++ [some i], ⟨by simp [hF.len], ?_⟩, List.prefix_append _ _, .inr ho, fun _ => ho, ?_⟩
    · intro j R hR
      rw [view_alloc c hF.len]
      by_cases hj : j = i
      · subst hj
        rw [List.getElem?_set_self hi] at hR
        cases hR
        rw [if_pos rfl]
        have hn : view h own j h.length = none := by simp [view]
        have := hk h.length hn
        have hfun : (fun a : Nat => (own ++ [some j])[a]? = some (some j)) = fun b : Nat => b = h.length ∨ own[b]? = some (some j) := by
          funext b
          apply propext
          by_cases hb : b < own.length
          · rw [List.getElem?_append_left hb]
            have : b ≠ h.length := by rw [← hF.len]; omega
            simp [this]
          · have hnn : own[b]? = none := by simp; omega
            rw [List.getElem?_append_right (by omega), hnn, hF.len]
            constructor
            · intro hx
              have := (List.getElem?_eq_some_iff.1 hx).1
              simp at this
              left
              have := hF.len
              omega
            · rintro (rfl | hx)
              · simp
              · cases hx
        rw [hfun]
        exact this
      · rw [List.getElem?_set_ne (Ne.symm hj)] at hR
        rw [if_neg hj]
        have := hF.ok j R hR
        have hfun : (fun a : Nat => (own ++ [some i])[a]? = some (some j)) = fun b : Nat => own[b]? = some (some j) := by
          funext b
          apply propext
          by_cases hb : b < own.length
          · rw [List.getElem?_append_left hb]
          · have hnn : own[b]? = none := by simp; omega
            rw [List.getElem?_append_right (by omega), hnn]
            constructor
            · intro hx
              have h1 := (List.getElem?_eq_some_iff.1 hx).1
              simp at h1
              rw [h1] at hx
              simp at hx
              exact absurd hx.symm hj
            · intro hx; cases hx
        rw [hfun]
        exact this
    · intro b hb
      have := (List.getElem?_eq_some_iff.1 hb).1
      exact List.getElem?_append_left (by rw [← hF.len]; exact this)

theorem fine_run {α : Type} {I : Nat → View → Prop} {Q : Nat → Res α → View → Prop} {h h' : Heap} {own : List (Option Nat)} {ts ts' : List (Prog α)} {tr : List (Nat × Access)}
    (hF : Fine I Q h own ts) (hR : Run h ts tr h' ts') :
    ∃ own', Fine I Q h' own' ts' ∧ own <+: own' ∧ (∀ x ∈ tr, (own'[x.2.addr]? = some none ∨ own'[x.2.addr]? = some (some x.1)) ∧ (x.2.changes → own'[x.2.addr]? = some (some x.1))) ∧
      (∀ a : Nat, own[a]? = some none → h'[a]? = h[a]?) ∧ ts'.length = ts.length := by
  induction hR with
  | start => exact ⟨own, hF, List.prefix_refl _, by simp, fun _ _ => rfl, rfl⟩
  | @step tr h₁ ts₁ i P e h₂ P' _ hP hS ih =>
    obtain ⟨o1, hF1, hp1, ht1, hk1, hl1⟩ := ih
    obtain ⟨o2, hF2, hp2, hv, hc, hk2⟩ := fine_step hF1 hP hS
    have hmono : ∀ {a : Addr} {x : Option Nat}, o1[a]? = some x → o2[a]? = some x := by
      intro a x hx
      obtain ⟨t, rfl⟩ := hp2
      rw [List.getElem?_append_left (List.getElem?_eq_some_iff.1 hx).1, hx]
    refine ⟨o2, hF2, hp1.trans hp2, ?_, ?_, by simp [hl1]⟩
    · intro x hx
      rw [List.mem_append, List.mem_singleton] at hx
      rcases hx with hx | rfl
      · obtain ⟨ha, hb⟩ := ht1 x hx
        exact ⟨ha.imp hmono hmono, fun hch => hmono (hb hch)⟩
      · exact ⟨hv, hc⟩
    · intro a ha
      have : o1[a]? = some none := by
        obtain ⟨t, rfl⟩ := hp1
        rw [List.getElem?_append_left (List.getElem?_eq_some_iff.1 ha).1, ha]
      rw [hk2 a this, hk1 a ha]

theorem fine_no_race {α : Type} {I : Nat → View → Prop} {Q : Nat → Res α → View → Prop} {h h' : Heap} {own : List (Option Nat)} {ts ts' : List (Prog α)} {tr : List (Nat × Access)}
    (hF : Fine I Q h own ts) (hR : Run h ts tr h' ts') : ¬ Race tr := by
  obtain ⟨o, -, -, ht, -⟩ := fine_run hF hR
  rintro ⟨i, j, e, e', hi, hj, hij, ha, hc⟩
  have h1 := (ht _ hi).2 hc
  have h2 := (ht _ hj).1
  simp only at h1 h2
  rw [← ha, h1] at h2
  rcases h2 with h2 | h2
  · simp at h2
  · simp at h2; exact hij h2

/-- A goroutine that is fine has finished or can go on. -/
theorem fine_progress {α : Type} {I : Nat → View → Prop} {Q : Nat → Res α → View → Prop} {h : Heap} {own : List (Option Nat)} {ts : List (Prog α)} {i : Nat} {P : Prog α}
    (hF : Fine I Q h own ts) (hP : ts[i]? = some P) : (∃ r, P = .ret r) ∨ ∃ e h' P', Step h P e h' P' := by
  have hok := hF.ok i P hP
  cases P with
  | ret r => exact .inl ⟨r, rfl⟩
  | read a k =>
    obtain ⟨-, c, hc, -⟩ := hok
    exact .inr ⟨_, _, _, .read (view_some hc).1⟩
  | alloc c k => exact .inr ⟨_, _, _, .alloc⟩
  | write a c k =>
    obtain ⟨-, -, hn, -⟩ := hok
    cases hv : view h own i a with
    | none => exact absurd hv hn
    | some d => exact .inr ⟨_, _, _, .write (List.getElem?_eq_some_iff.1 (view_some hv).1).1⟩
  | stuck => exact hok.elim

/-! ## The start -/

/-- The file that a goroutine expands. -/
def Spec.Work.file {α : Type} : Work α → Option Addr
  | .expand p => some p
  | .look _ => none

/-- To whom the cells belong at the start. -/
def owners {α : Type} (h : Heap) (jobs : List (Work α)) : List (Option Nat) :=
  (List.range h.length).map fun a => jobs.findIdx? fun j => j.file == some a

theorem job_file {α : Type} {j : Work α} {a : Addr} (h : (j.file == some a) = true) : j = .expand a := by
  cases j with
  | expand p => simp [Work.file] at h; rw [h]
  | look P => simp [Work.file] at h

theorem owners_get {α : Type} {h : Heap} {jobs : List (Work α)} {a : Addr} (ha : a < h.length) : (owners h jobs)[a]? = some (jobs.findIdx? fun j => j.file == some a) := by
  simp [owners, ha]

theorem owners_own {α : Type} {h : Heap} {fuel : Nat} {jobs : List (Work α)} (hL : Legal h fuel jobs) {i : Nat} {p : Addr} (hi : jobs[i]? = some (.expand p)) (hp : p < h.length) :
    (owners h jobs)[p]? = some (some i) := by
  rw [owners_get hp]
  congr 1
  cases hx : jobs.findIdx? fun j => j.file == some p with
  | none =>
    rw [List.findIdx?_eq_none_iff] at hx
    have := hx _ (List.mem_of_getElem? hi)
    simp [Work.file] at this
  | some k =>
    rw [List.findIdx?_eq_some_iff_getElem] at hx
    obtain ⟨hk, hkp, -⟩ := hx
    have := job_file hkp
    rw [hL.distinct k i p (by rw [← this]; exact List.getElem?_eq_getElem hk) hi]

theorem owners_shared {α : Type} {h : Heap} {jobs : List (Work α)} {a : Addr} (ha : a < h.length) (hn : ¬ Expanded jobs a) : (owners h jobs)[a]? = some none := by
  rw [owners_get ha]
  congr 1
  rw [List.findIdx?_eq_none_iff]
  intro j hj
  cases hb : j.file == some a with
  | false => rfl
  | true => rw [job_file hb] at hj; exact absurd hj hn

/-- Cells that are no expanded files are seen by all. -/
theorem view_shared {α : Type} {h : Heap} {jobs : List (Work α)} {a : Addr} {c : Cell} (hc : h[a]? = some c) (hn : ¬ Expanded jobs a) (i : Nat) : view h (owners h jobs) i a = some c := by
  simp only [view, owners_shared (List.getElem?_eq_some_iff.1 hc).1 hn, true_or, if_true, hc]

/-- What is true all the time, for each goroutine. -/
def jobInv {α : Type} (h : Heap) (jobs : List (Work α)) (i : Nat) (V : View) : Prop :=
  ∀ p ps f, jobs[i]? = some (.expand p) → RepFile h p ps f → Either p ps f V

def jobPost {α : Type} (h : Heap) (jobs : List (Work α)) (i : Nat) (r : Res (Option α)) (V : View) : Prop :=
  (∀ p ps f, jobs[i]? = some (.expand p) → RepFile h p ps f → ∃ r', Outcome p ps f r' V ∧ r = (r' >>= fun _ => .ok none)) ∧
  ∀ P s, jobs[i]? = some (.look P) → Looks h (Expanded jobs) P s → r = (s >>= fun a => .ok (some a))

mutual
theorem repV_unique {h : Heap} {a : HVal} {v v' : Value} (h1 : RepV h a v) (h2 : RepV h a v') : v = v' := by
  cases h1 with
  | nil => cases h2; rfl
  | expr e => cases h2; rfl
  | var x => cases h2; rfl
  | sexpr a1 a2 a3 =>
    cases h2 with
    | sexpr b1 b2 b3 =>
      rw [a1] at b1
      cases b1
      rw [a2] at b2
      cases b2
      rw [repVs_unique a3 b3]
theorem repVs_unique {h : Heap} {as : List HVal} {vs vs' : List Value} (h1 : RepVs h as vs) (h2 : RepVs h as vs') : vs = vs' := by
  cases h1 with
  | nil => cases h2; rfl
  | cons a1 a2 =>
    cases h2 with
    | cons b1 b2 => rw [repV_unique a1 b1, repVs_unique a2 b2]
end

theorem repRule_unique {h : Heap} {p : Addr} {r r' : Rule} (h1 : RepRule h p r) (h2 : RepRule h p r') : r = r' := by
  obtain ⟨m, res, a1, a2, a3⟩ := h1
  obtain ⟨m', res', b1, b2, b3⟩ := h2
  rw [a1] at b1
  simp only [Option.some.injEq, Cell.rule.injEq] at b1
  obtain ⟨e1, e2, e3, e4⟩ := b1
  subst e1
  subst e4
  have e5 := repV_unique a2 b2
  have e6 := repV_unique a3 b3
  cases r
  cases r'
  simp only [Rule.mk.injEq]
  exact ⟨e5, e2, e3, e6⟩

theorem repRules_unique {h : Heap} {ps : List Addr} {rs rs' : List Rule} (h1 : RepRules h ps rs) (h2 : RepRules h ps rs') : rs = rs' := by
  induction h1 generalizing rs' with
  | nil => cases h2; rfl
  | cons a1 _ ih =>
    cases h2 with
    | cons b1 b2 => rw [repRule_unique a1 b1, ih b2]

theorem repFile_unique {h : Heap} {p : Addr} {ps ps' : List Addr} {f f' : File} (h1 : RepFile h p ps f) (h2 : RepFile h p ps' f') : ps = ps' ∧ f = f' := by
  obtain ⟨arr, a1, a2, a3⟩ := h1
  obtain ⟨arr', b1, b2, b3⟩ := h2
  rw [a1] at b1
  cases b1
  rw [a2] at b2
  cases b2
  refine ⟨rfl, ?_⟩
  cases f
  cases f'
  rw [File.mk.injEq]
  exact repRules_unique a3 b3

theorem looks_unique {α : Type} {h : Heap} {files : Addr → Prop} {P : Prog α} {r r' : Res α} (h1 : Looks h files P r) (h2 : Looks h files P r') : r = r' := by
  induction h1 with
  | ret => cases h2; rfl
  | read a1 a2 _ ih =>
    cases h2 with
    | read b1 b2 b3 =>
      rw [a1] at b1
      cases b1
      exact ih b3

theorem vFile_of {h : Heap} {V : View} {p : Addr} {ps : List Addr} {f : File} (hV : ∀ a c, h[a]? = some c → (∀ x, c ≠ .file x) → V a = some c) (hp : ∀ c, h[p]? = some c → V p = some c)
    (hf : RepFile h p ps f) : VFile V p ps f := by
  obtain ⟨arr, h1, h2, h3⟩ := hf
  refine ⟨arr, hp _ h1, hV _ _ h2 (by simp), (relList_repRules.2 h3).mono ?_⟩
  rintro q r ⟨m, res, a1, a2, a3⟩
  exact ⟨m, res, hV _ _ a1 (by simp), VRepV_of hV a2, VRepV_of hV a3⟩

theorem vRepRule_to {h : Heap} {V : View} (hV : ∀ a c, V a = some c → h[a]? = some c) {p : Addr} {r : Rule} (hr : VRepRule V p r) : RepRule h p r := by
  obtain ⟨m, res, a1, a2, a3⟩ := hr
  exact ⟨m, res, hV _ _ a1, VRepV_to hV a2, VRepV_to hV a3⟩

theorem vFile_to {h : Heap} {V : View} {p : Addr} {ps : List Addr} {f : File} (hV : ∀ a c, V a = some c → h[a]? = some c) (hf : VFile V p ps f) : RepFile h p ps f := by
  obtain ⟨arr, h1, h2, h3⟩ := hf
  exact ⟨arr, hV _ _ h1, hV _ _ h2, relList_repRules.1 (h3.mono fun _ _ => vRepRule_to hV)⟩

theorem vDone_to {h : Heap} {V : View} {p : Addr} {ps : List Addr} {f g : File} (hV : ∀ a c, V a = some c → h[a]? = some c) (hl : ps.length = f.rules.length) (hf : VDone V p ps f g) :
    ExpandedTo h p ps f g := by
  obtain ⟨groups, h1, h2, h3⟩ := hf
  refine ⟨groups, vFile_to hV h1, ?_, ?_⟩
  · rw [h2.length_eq, hl]; simp
  · intro j r hj
    obtain ⟨grp, hg, hrel⟩ := h2.get (j := j) (b := expansion r) (by simp [hj])
    have hjl : j < ps.length := by rw [hl]; exact (List.getElem?_eq_some_iff.1 hj).1
    refine ⟨grp, ps[j], hg, List.getElem?_eq_getElem hjl, ?_, ?_⟩
    · exact relList_repRules.1 (hrel.mono fun _ _ => vRepRule_to hV)
    · intro hs
      refine h3.get (List.getElem?_eq_getElem hjl) hg ?_
      rw [hrel.length_eq]
      simp [expansion, hs, count]

theorem view_le {h : Heap} {own : List (Option Nat)} {i : Nat} : ∀ a c, view h own i a = some c → h[a]? = some c := fun _ _ hv => (view_some hv).1

theorem start_fine {α : Type} {h : Heap} {fuel : Nat} {jobs : List (Work α)} (hL : Legal h fuel jobs) :
    Fine (jobInv h jobs) (jobPost h jobs) h (owners h jobs) (jobs.map (Work.prog fuel)) := by
  refine ⟨by simp [owners], ?_⟩
  intro i P hP
  rw [List.getElem?_map] at hP
  cases hj : jobs[i]? with
  | none => rw [hj] at hP; cases hP
  | some j =>
    rw [hj] at hP
    cases hP
    cases j with
    | expand p =>
      obtain ⟨ps, f, hf, hd⟩ := hL.files p (List.mem_of_getElem? hj)
      have hpl : p < h.length := by obtain ⟨arr, h1, -⟩ := hf; exact (List.getElem?_eq_some_iff.1 h1).1
      have hown := owners_own hL hj hpl
      have hV : VFile (view h (owners h jobs) i) p ps f := by
        refine vFile_of ?_ ?_ hf
        · intro a c hc hnf
          refine view_shared hc ?_ i
          intro hE
          obtain ⟨ps', f', ⟨arr', h1', -⟩, -⟩ := hL.files a hE
          rw [hc] at h1'
          cases h1'
          exact hnf arr' rfl
        · intro c hc
          simp only [view, hown, or_true, if_true, hc]
      have h0 := pexpandAlternates_ok (fuel := fuel) (W := fun a => (owners h jobs)[a]? = some (some i)) hV hd hown
      have hI : ∀ V', Either p ps f V' → jobInv h jobs i V' := by
        intro V' hE p' ps' f' hj' hf'
        rw [hj] at hj'
        cases hj'
        obtain ⟨e1, e2⟩ := repFile_unique hf hf'
        subst e1
        subst e2
        exact hE
      have h1 := h0.imp (J := jobInv h jobs i) (S := Outcome p ps f) hI (fun _ _ h => h)
      have hpost : ∀ (V' : View) (r' : Res Unit), Outcome p ps f r' V' → jobPost h jobs i (r' >>= fun _ => .ok none) V' := by
        intro V' r' hO
        refine ⟨?_, ?_⟩
        · intro p' ps' f' hj' hf'
          rw [hj] at hj'
          cases hj'
          obtain ⟨e1, e2⟩ := repFile_unique hf hf'
          subst e1
          subst e2
          exact ⟨r', hO, rfl⟩
        · intro P s hj'
          rw [hj] at hj'
          cases hj'
      refine Prog.Ok.bind h1 ?_ ?_ ?_
      · intro V' W' a _ hI hO
        exact ⟨hI, hpost V' (.ok a) hO⟩
      · intro V' e hO
        exact hpost V' (.err e) hO
      · intro V' hO
        exact hpost V' .panic hO
    | look P =>
      obtain ⟨s, hs⟩ := hL.looks P (List.mem_of_getElem? hj)
      have hI : ∀ V', jobInv h jobs i V' := by
        intro V' p' ps' f' hj'
        rw [hj] at hj'
        cases hj'
      have h0 := looks_ok hs (V := view h (owners h jobs) i) (fun a c hc hn => view_shared hc hn i) (fun a => (owners h jobs)[a]? = some (some i))
      have h1 := h0.imp (J := jobInv h jobs i) (S := fun r' _ => r' = s) (fun V' _ => hI V') (fun _ _ h => h)
      have hpost : ∀ (V' : View), jobPost h jobs i (s >>= fun a => .ok (some a)) V' := by
        intro V'
        refine ⟨?_, ?_⟩
        · intro p' ps' f' hj'
          rw [hj] at hj'
          cases hj'
        · intro P' s' hj' hs'
          rw [hj] at hj'
          cases hj'
          rw [looks_unique hs hs']
      refine Prog.Ok.bind h1 ?_ ?_ ?_
      · rintro V' W' a - hI rfl
        exact ⟨hI, hpost V'⟩
      · rintro V' e rfl
        exact hpost V'
      · rintro V' rfl
        exact hpost V'

/-! ## Reading a rule -/

theorem Looks.bind {α β : Type} {h : Heap} {files : Addr → Prop} {P : Prog α} {f : α → Prog β} {a : α} {r : Res β} (h1 : Looks h files P (.ok a)) (h2 : Looks h files (f a) r) :
    Looks h files (P.bind f) r := by
  generalize hs : Res.ok a = s at h1
  induction h1 with
  | ret => subst hs; exact h2
  | read a1 a2 _ ih => exact .read a1 a2 (ih hs)

mutual
theorem looks_value {h : Heap} {files : Addr → Prop} (hf : ∀ a, files a → ∃ x, h[a]? = some (.file x)) {hv : HVal} {v : Value} (hr : RepV h hv v) (n : Nat) (hn : depth v ≤ n) :
    Looks h files (readValue n hv) (.ok v) := by
  cases n with
  | zero => cases v <;> simp [depth] at hn
  | succ n =>
    cases hr with
    | nil => exact .ret
    | expr e => exact .ret
    | var x => exact .ret
    | sexpr h1 h2 h3 =>
      refine .read h1 (fun hx => ?_) ?_
      · obtain ⟨x, hx⟩ := hf _ hx; rw [h1] at hx; cases hx
      refine .read h2 (fun hx => ?_) ?_
      · obtain ⟨x, hx⟩ := hf _ hx; rw [h2] at hx; cases hx
      simp only [depth] at hn
      exact Looks.bind (looks_values hf h3 n (by omega)) .ret
theorem looks_values {h : Heap} {files : Addr → Prop} (hf : ∀ a, files a → ∃ x, h[a]? = some (.file x)) {hvs : List HVal} {vs : List Value} (hr : RepVs h hvs vs) (n : Nat)
    (hn : depth.depths vs ≤ n) : Looks h files (readEach (readValue n) hvs) (.ok vs) := by
  cases hr with
  | nil => simp only [readEach]; exact .ret
  | cons h1 h2 =>
    simp only [depth.depths] at hn
    simp only [readEach]
    exact Looks.bind (looks_value hf h1 n (by omega)) (Looks.bind (looks_values hf h2 n (by omega)) .ret)
end

theorem looks_rule {h : Heap} {files : Addr → Prop} (hf : ∀ a, files a → ∃ x, h[a]? = some (.file x)) {p : Addr} {r : Rule} (hr : RepRule h p r) (n : Nat)
    (h1 : depth r.match ≤ n) (h2 : depth r.result ≤ n) : Looks h files (readRule n p) (.ok r) := by
  obtain ⟨m, res, a1, a2, a3⟩ := hr
  refine .read a1 (fun hx => ?_) ?_
  · obtain ⟨x, hx⟩ := hf _ hx; rw [a1] at hx; cases hx
  exact Looks.bind (looks_value hf a2 n h1) (Looks.bind (looks_value hf a3 n h2) .ret)

/-! ## Finite runs -/

/-- `P'` is what is left of `P` after one step. -/
def Less {α : Type} (P' P : Prog α) : Prop := ∃ h e h', Step h P e h' P'

theorem less_wf {α : Type} : WellFounded (Less (α := α)) := by
  refine ⟨fun P => ?_⟩
  induction P with
  | ret r => exact ⟨_, by rintro P' ⟨h, e, h', hs⟩; cases hs⟩
  | read a k ih => exact ⟨_, by rintro P' ⟨h, e, h', hs⟩; cases hs; exact ih _⟩
  | alloc c k ih => exact ⟨_, by rintro P' ⟨h, e, h', hs⟩; cases hs; exact ih _⟩
  | write a c k ih => exact ⟨_, by rintro P' ⟨h, e, h', hs⟩; cases hs; exact ih⟩
  | stuck => exact ⟨_, by rintro P' ⟨h, e, h', hs⟩; cases hs⟩

/-- One step of one of the goroutines. -/
def Lesses {α : Type} (ts' ts : List (Prog α)) : Prop := ∃ (i : Nat) (P P' : Prog α), ts[i]? = some P ∧ Less P' P ∧ ts' = ts.set i P'

theorem lesses_acc_cons {α : Type} {ts : List (Prog α)} (hts : Acc Lesses ts) : ∀ P : Prog α, Acc Lesses (P :: ts) := by
  induction hts with
  | intro ts _ ih =>
    intro P
    induction P using less_wf.induction with
    | _ P ihP =>
      refine ⟨_, ?_⟩
      rintro ts' ⟨i, R, R', hi, hl, rfl⟩
      cases i with
      | zero =>
        simp at hi
        subst hi
        exact ihP R' hl
      | succ i =>
        simp only [List.getElem?_cons_succ] at hi
        exact ih _ ⟨i, R, R', hi, hl, rfl⟩ P

theorem lesses_wf {α : Type} : WellFounded (Lesses (α := α)) := by
  refine ⟨fun ts => ?_⟩
  induction ts with
  | nil => exact ⟨_, by rintro ts' ⟨i, R, R', hi, -⟩; simp at hi⟩
  | cons P ts ih => exact lesses_acc_cons ih P

end Verif
