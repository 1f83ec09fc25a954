import Verif.Spec.Concurrent
import Verif.Proof.ExpandHeap
/-! # Programs run with a partial view of the heap -/
namespace Verif

open Verif.Spec

open Prog

/-! ## A partial view of the heap -/

/-- The cells that a goroutine may read. -/
abbrev View := Addr → Option Cell

def View.upd (V : View) (a : Addr) (c : Cell) : View := fun b => if b = a then some c else V b

theorem View.upd_self (V : View) (a : Addr) (c : Cell) : (V.upd a c) a = some c := by simp [View.upd]
theorem View.upd_ne (V : View) {a b : Addr} (c : Cell) (h : b ≠ a) : (V.upd a c) b = V b := by simp [View.upd, h]
theorem View.upd_upd (V : View) (a : Addr) (c d : Cell) : (V.upd a c).upd a d = V.upd a d := by
  funext b; by_cases h : b = a <;> simp [View.upd, h]

/-- `V'` has all cells of `V`. -/
def View.Le (V V' : View) : Prop := ∀ a c, V a = some c → V' a = some c

theorem View.Le.refl (V : View) : V.Le V := fun _ _ h => h
theorem View.Le.trans {V V' V'' : View} (h : V.Le V') (h' : V'.Le V'') : V.Le V'' := fun a c hc => h' a c (h a c hc)
theorem View.le_upd {V : View} {a : Addr} (c : Cell) (h : V a = none) : V.Le (V.upd a c) := by
  intro b d hd
  have : b ≠ a := by rintro rfl; rw [h] at hd; cases hd
  rw [View.upd_ne V c this, hd]

/-- The program, which sees `V`, may write the cells `W` and gets new cells at any free addresses, never gets stuck, the view satisfies `I` all the time, and what it returns satisfies `Q`. -/
def Prog.Ok {α : Type} (I : View → Prop) (Q : Res α → View → Prop) : Prog α → View → (Addr → Prop) → Prop
  | .ret r, V, _ => I V ∧ Q r V
  | .read a k, V, W => I V ∧ ∃ c, V a = some c ∧ (k c).Ok I Q V W
  | .alloc c k, V, W => I V ∧ ∀ a, V a = none → (k a).Ok I Q (V.upd a c) (fun b => b = a ∨ W b)
  | .write a c k, V, W => I V ∧ W a ∧ V a ≠ none ∧ k.Ok I Q (V.upd a c) W
  | .stuck, _, _ => False

theorem Prog.Ok.inv {α : Type} {I : View → Prop} {Q : Res α → View → Prop} {P : Prog α} {V : View} {W : Addr → Prop} (h : P.Ok I Q V W) : I V := by
  cases P <;> first | exact h.1 | exact h.elim

theorem Prog.Ok.bind {α β : Type} {I : View → Prop} {Q : Res α → View → Prop} {S : Res β → View → Prop} {x : Prog α} {f : α → Prog β} {V : View} {W : Addr → Prop}
    (hx : x.Ok I Q V W) (hf : ∀ (V' : View) (W' : Addr → Prop) a, (∀ b, W b → W' b) → I V' → Q (.ok a) V' → (f a).Ok I S V' W')
    (he : ∀ V' e, Q (.err e) V' → S (.err e) V') (hp : ∀ V', Q .panic V' → S .panic V') : (x.bind f).Ok I S V W := by
  induction x generalizing V W with
  | ret r =>
    cases r with
    | ok a => exact hf V W a (fun _ h => h) hx.1 hx.2
    | err e => exact ⟨hx.1, he V e hx.2⟩
    | panic => exact ⟨hx.1, hp V hx.2⟩
  | read a k ih =>
    obtain ⟨h0, c, hc, h⟩ := hx
    exact ⟨h0, c, hc, ih c h hf⟩
  | alloc c k ih =>
    refine ⟨hx.1, fun a ha => ih a (hx.2 a ha) fun V' W' b hW => hf V' W' b fun d hd => hW d (.inr hd)⟩
  | write a c k ih =>
    obtain ⟨h0, h1, h2, h3⟩ := hx
    exact ⟨h0, h1, h2, ih h3 hf⟩
  | stuck => exact hx.elim

theorem Prog.Ok.weaken {α : Type} {I : View → Prop} {Q S : Res α → View → Prop} {x : Prog α} {V : View} {W : Addr → Prop}
    (hx : x.Ok I Q V W) (hQ : ∀ r V', I V' → Q r V' → S r V') : x.Ok I S V W := by
  induction x generalizing V W with
  | ret r => exact ⟨hx.1, hQ r V hx.1 hx.2⟩
  | read a k ih =>
    obtain ⟨h0, c, hc, h⟩ := hx
    exact ⟨h0, c, hc, ih c h⟩
  | alloc c k ih => exact ⟨hx.1, fun a ha => ih a (hx.2 a ha)⟩
  | write a c k ih =>
    obtain ⟨h0, h1, h2, h3⟩ := hx
    exact ⟨h0, h1, h2, ih h3⟩
  | stuck => exact hx.elim

/-- What may not be written stays. -/
theorem Prog.Ok.keep {α : Type} {Q : Res α → View → Prop} {x : Prog α} {V : View} {W W' : Addr → Prop} {V0 : View} (hWV : ∀ a, V0 a ≠ none → ¬ W a)
    (hWW : ∀ a, W a → W' a) (hle : V0.Le V) (hx : x.Ok (fun _ => True) Q V W) : x.Ok (fun V' => V0.Le V') (fun r V' => V0.Le V' ∧ Q r V') V W' := by
  induction x generalizing V W W' with
  | ret r => exact ⟨hle, hle, hx.2⟩
  | read a k ih =>
    obtain ⟨h0, c, hc, h⟩ := hx
    exact ⟨hle, c, hc, ih c hWV hWW hle h⟩
  | alloc c k ih =>
    refine ⟨hle, fun a ha => ?_⟩
    refine ih a ?_ ?_ (hle.trans (View.le_upd c ha)) (hx.2 a ha)
    · rintro b hb (rfl | hw)
      · cases hv : V0 b with
        | none => exact hb hv
        | some d => rw [hle b d hv] at ha; cases ha
      · exact hWV b hb hw
    · rintro b (rfl | hw)
      · exact .inl rfl
      · exact .inr (hWW b hw)
  | write a c k ih =>
    obtain ⟨h0, h1, h2, h3⟩ := hx
    refine ⟨hle, hWW a h1, h2, ih hWV hWW ?_ h3⟩
    intro b d hb
    have : b ≠ a := by rintro rfl; exact hWV b (by rw [hb]; simp) h1
    rw [View.upd_ne V c this, hle b d hb]
  | stuck => exact hx.elim

/-! ## Representation in a view -/

mutual
inductive VRepV (V : View) : HVal → Value → Prop
  | nil : VRepV V .nil .nil
  | expr (e) : VRepV V (.expr e) (.expr e)
  | var (x) : VRepV V (.var x) (.var x)
  | sexpr {p hd arr hvs vs} : V p = some (.sexpr hd arr) → V arr = some (.values hvs) → VRepVs V hvs vs → VRepV V (.sexpr p) (.sexpr hd vs)
inductive VRepVs (V : View) : List HVal → List Value → Prop
  | nil : VRepVs V [] []
  | cons {a v as vs} : VRepV V a v → VRepVs V as vs → VRepVs V (a :: as) (v :: vs)
end

def VRepRule (V : View) (p : Addr) (r : Rule) : Prop :=
  ∃ m res, V p = some (.rule m r.condition r.block res) ∧ VRepV V m r.match ∧ VRepV V res r.result

mutual
theorem VRepV_mono {V V' : View} (hp : V.Le V') {a : HVal} {v : Value} (hr : VRepV V a v) : VRepV V' a v := by
  cases hr with
  | nil => exact .nil
  | expr e => exact .expr e
  | var x => exact .var x
  | sexpr h1 h2 h3 => exact .sexpr (hp _ _ h1) (hp _ _ h2) (VRepVs_mono hp h3)
theorem VRepVs_mono {V V' : View} (hp : V.Le V') {as : List HVal} {vs : List Value} (hr : VRepVs V as vs) : VRepVs V' as vs := by
  cases hr with
  | nil => exact .nil
  | cons h1 h2 => exact .cons (VRepV_mono hp h1) (VRepVs_mono hp h2)
end

theorem VRepRule_mono {V V' : View} (hp : V.Le V') {p : Addr} {r : Rule} (hr : VRepRule V p r) : VRepRule V' p r := by
  obtain ⟨m, res, h1, h2, h3⟩ := hr
  exact ⟨m, res, hp _ _ h1, VRepV_mono hp h2, VRepV_mono hp h3⟩

mutual
/-- From a heap to a view that has all its cells but maybe some files. -/
theorem VRepV_of {h : Heap} {V : View} (hV : ∀ a c, h[a]? = some c → (∀ x, c ≠ .file x) → V a = some c) {a : HVal} {v : Value} (hr : RepV h a v) : VRepV V a v := by
  cases hr with
  | nil => exact .nil
  | expr e => exact .expr e
  | var x => exact .var x
  | sexpr h1 h2 h3 => exact .sexpr (hV _ _ h1 (by simp)) (hV _ _ h2 (by simp)) (VRepVs_of hV h3)
theorem VRepVs_of {h : Heap} {V : View} (hV : ∀ a c, h[a]? = some c → (∀ x, c ≠ .file x) → V a = some c) {as : List HVal} {vs : List Value} (hr : RepVs h as vs) : VRepVs V as vs := by
  cases hr with
  | nil => exact .nil
  | cons h1 h2 => exact .cons (VRepV_of hV h1) (VRepVs_of hV h2)
end

mutual
theorem VRepV_to {h : Heap} {V : View} (hV : ∀ a c, V a = some c → h[a]? = some c) {a : HVal} {v : Value} (hr : VRepV V a v) : RepV h a v := by
  cases hr with
  | nil => exact .nil
  | expr e => exact .expr e
  | var x => exact .var x
  | sexpr h1 h2 h3 => exact .sexpr (hV _ _ h1) (hV _ _ h2) (VRepVs_to hV h3)
theorem VRepVs_to {h : Heap} {V : View} (hV : ∀ a c, V a = some c → h[a]? = some c) {as : List HVal} {vs : List Value} (hr : VRepVs V as vs) : RepVs h as vs := by
  cases hr with
  | nil => exact .nil
  | cons h1 h2 => exact .cons (VRepV_to hV h1) (VRepVs_to hV h2)
end

theorem relList_vRepVs {V : View} {as : List HVal} {vs : List Value} : RelList (VRepV V) as vs ↔ VRepVs V as vs := by
  constructor
  · intro hr
    induction hr with
    | nil => exact .nil
    | cons h1 _ ih => exact .cons h1 ih
  · intro hr
    induction as generalizing vs with
    | nil => cases hr; exact .nil
    | cons a as ih => cases hr with | cons h1 h2 => exact .cons h1 (ih h2)

/-! ## Refinement -/

/-- The post-condition: cells are only added, and the result is that of the pure function. -/
def Post {α β : Type} (V : View) (R : View → α → β → Prop) (r : Res β) (ra : Res α) (V' : View) : Prop :=
  V.Le V' ∧ match r with
    | .ok b => ∃ a, ra = .ok a ∧ R V' a b
    | .err e => ra = .err e
    | .panic => ra = .panic

/-- `x`, run with the view `V`, only adds cells and does what the pure result `r` says, results being related by `R`. -/
def PRefines {α β : Type} (x : Prog α) (V : View) (R : View → α → β → Prop) (r : Res β) : Prop :=
  ∀ W, x.Ok (fun _ => True) (Post V R r) V W

theorem PRefines.bind {α β γ δ : Type} {x : Prog α} {V : View} {R : View → α → β → Prop} {r : Res β}
    {f : α → Prog γ} {g : β → Res δ} {S : View → γ → δ → Prop} (hx : PRefines x V R r)
    (hf : ∀ V' a b, V.Le V' → r = .ok b → R V' a b → PRefines (f a) V' S (g b)) : PRefines (x >>= f) V S (r >>= g) := by
  intro W
  refine Prog.Ok.bind (hx W) ?_ ?_ ?_
  · rintro V' W' a _ - ⟨hle, hq⟩
    cases r with
    | err e => cases hq
    | panic => cases hq
    | ok b =>
      obtain ⟨a', e, hR⟩ := hq
      cases e
      refine (hf V' a b hle rfl hR W').weaken ?_
      rintro ra V'' - ⟨hle', hq'⟩
      exact ⟨hle.trans hle', hq'⟩
  · rintro V' e ⟨hle, hq⟩
    cases r with
    | err e' => cases hq; exact ⟨hle, rfl⟩
    | panic => cases hq
    | ok b => obtain ⟨a', e, hR⟩ := hq; cases e
  · rintro V' ⟨hle, hq⟩
    cases r with
    | err e' => cases hq
    | panic => exact ⟨hle, rfl⟩
    | ok b => obtain ⟨a', e, hR⟩ := hq; cases e

theorem PRefines.pure {α β : Type} {V : View} {R : View → α → β → Prop} {a : α} {b : β} (hR : R V a b) :
    PRefines (Pure.pure a) V R (.ok b) := fun _ => ⟨trivial, View.Le.refl V, a, rfl, hR⟩

theorem PRefines.lift {α β : Type} {V : View} {R : View → α → β → Prop} {x : Res α} {y : Res β} (hR : RelRes (R V) x y) :
    PRefines (.ret x) V R y := by
  refine fun _ => ⟨trivial, View.Le.refl V, ?_⟩
  cases x <;> cases y <;> simp_all [RelRes]

theorem PRefines.get_bind {β δ : Type} {V : View} {a : Addr} {c : Cell} (hc : V a = some c) {f : Cell → Prog β} {S : View → β → δ → Prop} {r : Res δ}
    (hf : PRefines (f c) V S r) : PRefines (Prog.get a >>= f) V S r := fun W => ⟨trivial, c, hc, hf W⟩

theorem PRefines.forP {α β γ δ : Type} {f : α → Prog β} {g : γ → Res δ} {P : View → α → γ → Prop} {R : View → β → δ → Prop}
    (hP : ∀ V V' a c, View.Le V V' → P V a c → P V' a c)
    (hR : ∀ V V' b d, View.Le V V' → R V b d → R V' b d)
    (hf : ∀ V a c, P V a c → PRefines (f a) V R (g c)) (as : List α) (cs : List γ) (V : View) (hac : RelList (P V) as cs) :
    PRefines (Verif.forP f as) V (fun V' => RelList (R V')) (forRes g cs) := by
  induction as generalizing V cs with
  | nil => cases hac; exact PRefines.pure .nil
  | cons a as ih =>
    cases hac with
    | cons h1 h2 =>
      simp only [Verif.forP, forRes]
      refine PRefines.bind (hf V a _ h1) ?_
      intro V' b d hp _ hb
      refine PRefines.bind (ih _ V' (h2.mono (hP V V' · · hp))) ?_
      intro V'' bs ds hp' _ hbs
      exact PRefines.pure (.cons (hR _ _ _ _ hp' hb) hbs)

theorem pbuildSExpr_refines {V : View} {hd : Hdr} {arr : Addr} {ops : List Str} {hex : List (List HVal)} {ex : List (List Value)}
    (hr : RelList (VRepVs V) hex ex) (i : Nat) :
    PRefines (pbuildSExpr hd arr ops hex i) V VRepV (buildSExpr hd ops ex i) := by
  have hargs : RelRes (VRepVs V) (forRes (fun alts : List HVal => getIdx alts (idx i alts.length)) hex)
      (forRes (fun alts : List Value => getIdx alts (idx i alts.length)) ex) := by
    have := forRes_rel (R := VRepVs V) (S := VRepV V) (f := fun alts : List HVal => getIdx alts (idx i alts.length))
      (g := fun alts : List Value => getIdx alts (idx i alts.length)) (by
        intro a b hab
        rw [← relList_vRepVs] at hab
        rw [hab.length_eq]
        exact getIdx_rel hab _) hr
    revert this
    cases forRes (fun alts : List HVal => getIdx alts (idx i alts.length)) hex <;>
      cases forRes (fun alts : List Value => getIdx alts (idx i alts.length)) ex <;>
      simp [RelRes, relList_vRepVs]
  intro W
  simp only [pbuildSExpr, buildSExpr]
  refine ⟨trivial, fun a ha => ?_⟩
  have hle := View.le_upd (.sexpr hd arr) ha
  cases ho : getIdx ops (idx i ops.length) with
  | err e => exact ⟨trivial, hle, rfl⟩
  | panic => exact ⟨trivial, hle, rfl⟩
  | ok o =>
    rw [Res.bind_ok]
    refine ⟨trivial, .inl rfl, by rw [View.upd_self]; simp, ?_⟩
    rw [View.upd_upd]
    have hle := View.le_upd (.sexpr { hd with op := .opcode o } arr) ha
    cases hh : forRes (fun alts : List HVal => getIdx alts (idx i alts.length)) hex with
    | err e =>
      rw [hh] at hargs
      cases hv : forRes (fun alts : List Value => getIdx alts (idx i alts.length)) ex <;> rw [hv] at hargs <;> simp [RelRes] at hargs
      subst hargs
      exact ⟨trivial, hle, rfl⟩
    | panic =>
      rw [hh] at hargs
      cases hv : forRes (fun alts : List Value => getIdx alts (idx i alts.length)) ex <;> rw [hv] at hargs <;> simp [RelRes] at hargs
      exact ⟨trivial, hle, rfl⟩
    | ok args =>
      rw [hh] at hargs
      cases hv : forRes (fun alts : List Value => getIdx alts (idx i alts.length)) ex <;> rw [hv] at hargs <;> simp [RelRes] at hargs
      rename_i vs
      refine ⟨trivial, fun b hb => ?_⟩
      have hba : b ≠ a := by rintro rfl; rw [View.upd_self] at hb; cases hb
      refine ⟨trivial, .inr (.inl rfl), ?_, ?_⟩
      · rw [View.upd_ne _ _ (Ne.symm hba), View.upd_self]; simp
      refine ⟨trivial, ?_, .sexpr a, rfl, ?_⟩
      · intro x c hc
        have hxa : x ≠ a := by rintro rfl; rw [ha] at hc; cases hc
        rw [View.upd_ne _ _ hxa]
        exact View.le_upd _ hb x c (hle x c hc)
      · refine .sexpr (arr := b) (hvs := args) (View.upd_self _ _ _) ?_ ?_
        · rw [View.upd_ne _ _ hba, View.upd_self]
        · refine VRepVs_mono ?_ hargs
          intro x c hc
          have hxa : x ≠ a := by rintro rfl; rw [ha] at hc; cases hc
          rw [View.upd_ne _ _ hxa]
          exact View.le_upd _ hb x c (hle x c hc)

/-- Result relation for values: representation, and sharing when there is nothing to expand. -/
def VRV (hv : HVal) (V : View) (hvs : List HVal) (vs : List Value) : Prop :=
  VRepVs V hvs vs ∧ (hvs.length = 1 → hvs = [hv])

theorem pexpandargs_refines {ev : HVal → Prog (List HVal)} (as : List HVal) (vs : List Value)
    (hev : ∀ V' a v, v ∈ vs → VRepV V' a v → PRefines (ev a) V' (VRV a) (expandvalue v)) :
    ∀ n V, VRepVs V as vs → PRefines (pexpandargs ev n as) V
      (fun V' x y => x.1 = y.1 ∧ RelList (VRepVs V') x.2 y.2) (expandargs n vs) := by
  induction as generalizing vs with
  | nil =>
    intro n V hr
    cases hr
    exact PRefines.pure ⟨rfl, .nil⟩
  | cons a as ih =>
    intro n V hr
    cases hr with
    | cons h1 h2 =>
      simp only [pexpandargs, expandargs]
      refine PRefines.bind (hev V a _ (by simp) h1) ?_
      intro V' hvs vs' hp _ hrv
      have hlen : hvs.length = vs'.length := (relList_vRepVs.2 hrv.1).length_eq
      rw [hlen]
      refine PRefines.bind (PRefines.lift (R := fun _ a b => a = b) (RelRes.refl _)) ?_
      rintro V'' n' _ hp' _ rfl
      refine PRefines.bind (ih _ (fun V' a v hv => hev V' a v (by simp [hv])) n' V'' (VRepVs_mono (hp.trans hp') h2)) ?_
      rintro V3 ⟨m, rest⟩ ⟨m', rest'⟩ hp3 _ ⟨e, hrest⟩
      simp only at e hrest
      subst e
      exact PRefines.pure ⟨rfl, .cons (VRepVs_mono (hp'.trans hp3) hrv.1) hrest⟩

/-- Strengthen the relation by a fact about the pure result. -/
theorem PRefines.conseq {α β : Type} {x : Prog α} {V : View} {R S : View → α → β → Prop} {r : Res β} (hx : PRefines x V R r)
    (hRS : ∀ V' a b, r = .ok b → R V' a b → S V' a b) : PRefines x V S r := by
  intro W
  refine (hx W).weaken ?_
  rintro ra V' - ⟨hle, hq⟩
  refine ⟨hle, ?_⟩
  cases r with
  | err e => exact hq
  | panic => exact hq
  | ok b =>
    obtain ⟨a, e, hR⟩ := hq
    exact ⟨a, e, hRS V' a b rfl hR⟩

theorem forRes_range_length {β : Type} {g : Nat → Res β} {n : Nat} {out : List β} (h : forRes g (List.range n) = .ok out) : out.length = n := by
  rw [forRes_eq_ok] at h
  have := congrArg List.length h
  simpa using this.symm

theorem pexpandvalue_refines (fuel : Nat) : ∀ (v : Value) (V : View) (hv : HVal), depth v ≤ fuel → VRepV V hv v →
    PRefines (pexpandvalue fuel hv) V (VRV hv) (expandvalue v) := by
  induction fuel with
  | zero =>
    intro v V hv hd
    cases v <;> simp [depth] at hd
  | succ fuel ih =>
    intro v V hv hd hr
    cases hr with
    | nil => exact PRefines.lift rfl
    | expr e => exact PRefines.pure ⟨.cons (.expr e) .nil, fun _ => rfl⟩
    | var x => exact PRefines.pure ⟨.cons (.var x) .nil, fun _ => rfl⟩
    | @sexpr p hd' arr hvs vs h1 h2 h3 =>
      have hdep : ∀ v ∈ vs, depth v ≤ fuel := by
        intro v hv
        have := depth_le_depths hv
        simp only [depth] at hd
        omega
      simp only [pexpandvalue, expandvalue]
      refine PRefines.get_bind h1 ?_
      simp only
      refine PRefines.bind (PRefines.lift (R := fun _ a b => a = b) (RelRes.refl _)) ?_
      rintro V' ops _ hp hops rfl
      refine PRefines.get_bind (hp _ _ h2) ?_
      simp only
      refine PRefines.bind (pexpandargs_refines (ev := pexpandvalue fuel) hvs vs
        (fun V' a v hv hr => ih v V' a (hdep v hv) hr) ops.length V' (VRepVs_mono hp h3)) ?_
      rintro V'' ⟨n, hex⟩ ⟨n', ex⟩ hp' hargs ⟨e, hex'⟩
      simp only at e hex'
      subst e
      simp only
      by_cases hn : n = 1
      · rw [if_pos hn, if_pos hn]
        exact PRefines.pure ⟨.cons (VRepV_mono (hp.trans hp') (.sexpr h1 h2 h3)) .nil, fun _ => rfl⟩
      · rw [if_neg hn, if_neg hn]
        refine (PRefines.forP (f := pbuildSExpr hd' arr ops hex) (g := buildSExpr hd' ops ex)
          (P := fun V (a b : Nat) => a = b ∧ RelList (VRepVs V) hex ex) (R := VRepV)
          (by
            rintro V V' a b hp ⟨e, hr⟩
            exact ⟨e, hr.mono fun _ _ => VRepVs_mono hp⟩)
          (by intro V V' b d hp; exact VRepV_mono hp)
          (by rintro V a _ ⟨rfl, hr⟩; exact pbuildSExpr_refines hr a)
          (List.range n) (List.range n) V''
          ((relList_self_range (h := []) n).mono fun a b hab => ⟨hab, hex'⟩)).conseq ?_
        intro V3 a b hb hrel
        refine ⟨relList_vRepVs.1 hrel, ?_⟩
        intro hl
        exfalso
        rw [hrel.length_eq, forRes_range_length hb] at hl
        exact hn hl

/-- Result relation for rules. -/
def VRR (p : Addr) (V : View) (ps : List Addr) (rs : List Rule) : Prop :=
  RelList (VRepRule V) ps rs ∧ (ps.length = 1 → ps = [p])

theorem pbuildRule_refines {V : View} {r : Rule} {hms hrs : List HVal} {ms rs : List Value} (ha : RelList (VRepV V) hms ms) (hb : RelList (VRepV V) hrs rs) (i : Nat) :
    PRefines (pbuildRule r.condition r.block hms hrs i) V VRepRule (buildRule r ms rs i) := by
  simp only [pbuildRule, buildRule]
  refine PRefines.bind (PRefines.lift (R := fun V a b => VRepV V a b) (by rw [ha.length_eq]; exact getIdx_rel ha _)) ?_
  intro V' a b hp _ hab
  refine PRefines.bind (PRefines.lift (R := fun V a b => VRepV V a b) (by
    rw [hb.length_eq]; exact getIdx_rel (hb.mono fun _ _ => VRepV_mono hp) _)) ?_
  intro V'' a' b' hp' _ hab' W
  refine ⟨trivial, fun x hx => ⟨trivial, View.le_upd _ hx, x, rfl, a, a', View.upd_self _ _ _, ?_, ?_⟩⟩
  · exact VRepV_mono (View.le_upd _ hx) (VRepV_mono hp' hab)
  · exact VRepV_mono (View.le_upd _ hx) hab'

theorem pexpandrule_refines (fuel : Nat) (r : Rule) (V : View) (p : Addr) (h1 : depth r.match ≤ fuel) (h2 : depth r.result ≤ fuel)
    (hr : VRepRule V p r) : PRefines (pexpandrule fuel p) V (VRR p) (expandrule r) := by
  obtain ⟨m, res, hc, hm, hres⟩ := hr
  simp only [pexpandrule, expandrule]
  refine PRefines.get_bind hc ?_
  simp only
  refine PRefines.bind (pexpandvalue_refines fuel _ V m h1 hm) ?_
  intro V' hms ms hp _ hmr
  refine PRefines.bind (pexpandvalue_refines fuel _ V' res h2 (VRepV_mono hp hres)) ?_
  intro V'' hrs rs hp' _ hrr
  have hmr' := relList_vRepVs.2 (VRepVs_mono hp' hmr.1)
  have hrr' := relList_vRepVs.2 hrr.1
  rw [hmr'.length_eq, hrr'.length_eq]
  refine PRefines.bind (PRefines.lift (R := fun _ a b => a = b) (RelRes.refl _)) ?_
  rintro V3 n _ hp3 _ rfl
  by_cases hn : n = 1
  · rw [if_pos hn, if_pos hn]
    exact PRefines.pure ⟨.cons (VRepRule_mono ((hp.trans hp').trans hp3) ⟨m, res, hc, hm, hres⟩) .nil, fun _ => rfl⟩
  · rw [if_neg hn, if_neg hn]
    refine (PRefines.forP (f := pbuildRule r.condition r.block hms hrs) (g := buildRule r ms rs)
      (P := fun V (a b : Nat) => a = b ∧ RelList (VRepV V) hms ms ∧ RelList (VRepV V) hrs rs) (R := VRepRule)
      (by
        rintro V V' a b hp ⟨e, ha, hb⟩
        exact ⟨e, ha.mono fun _ _ => VRepV_mono hp, hb.mono fun _ _ => VRepV_mono hp⟩)
      (by intro V V' b d hp; exact VRepRule_mono hp)
      (by
        rintro V i _ ⟨rfl, ha, hb⟩
        exact pbuildRule_refines ha hb i)
      (List.range n) (List.range n) V3
      ((relList_self_range (h := []) n).mono fun a b hab =>
        ⟨hab, hmr'.mono fun _ _ => VRepV_mono hp3, hrr'.mono fun _ _ => VRepV_mono hp3⟩)).conseq ?_
    intro V4 a b hb hrel
    refine ⟨hrel, ?_⟩
    intro hl
    exfalso
    rw [hrel.length_eq, forRes_range_length hb] at hl
    exact hn hl

theorem pexpandrules_refines (fuel : Nat) (ps : List Addr) (rs : List Rule) (V : View)
    (hd : ∀ r ∈ rs, depth r.match ≤ fuel ∧ depth r.result ≤ fuel) (hr : RelList (VRepRule V) ps rs) :
    PRefines (forP (pexpandrule fuel) ps) V (fun V' gs xss => RelList (RelList (VRepRule V')) gs xss ∧ Groups ps gs)
      (forRes expandrule rs) := by
  induction ps generalizing rs V with
  | nil => cases hr; exact PRefines.pure ⟨.nil, .nil⟩
  | cons p ps ih =>
    cases hr with
    | cons h1 h2 =>
      simp only [List.forall_mem_cons] at hd
      simp only [forP, forRes]
      refine PRefines.bind (pexpandrule_refines fuel _ V p hd.1.1 hd.1.2 h1) ?_
      intro V' g xs hp _ hg
      refine PRefines.bind (ih _ V' hd.2 (h2.mono fun _ _ => VRepRule_mono hp)) ?_
      rintro V'' gs xss hp' _ ⟨hgs, hgr⟩
      exact PRefines.pure ⟨.cons (hg.1.mono fun _ _ => VRepRule_mono hp') hgs, .cons hg.2 hgr⟩

end Verif
