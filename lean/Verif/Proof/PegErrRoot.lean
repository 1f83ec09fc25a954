import Verif.Proof.PegErrMain
import Verif.Proof.PegAsked
/-! # The first error is a real one -/
namespace Verif.Proof
open Verif Verif.Spec

/-- What an action yields. -/
def ActTy : Act → Dyn → Prop
  | .onFile1, v => ∃ f, v = .file f
  | .onRule25, v => ∃ e, v = .expr e
  | .onRule50, v => ∃ s, v = .str s
  | .onRule1, v => ∃ r, v = .rule r
  | .onSExpr6, v => ∃ s, v = .variable s
  | .onSExpr26, v => ∃ s, v = .opcode s
  | .onSExpr33, v => ∃ s, v = .opcode s
  | .onSExpr40, v => ∃ s, v = .opcode s
  | .onSExpr29, v => ∃ cs, v = .opcodeAlt cs
  | .onSExpr22, v => ∃ o, v.asOp = some o
  | .onSExpr1, v => ∃ h args, v = .sexpr h args
  | .onOperand2, v => ∃ s, v = .type s
  | .onOperand8, v => ∃ e, v = .auxint e
  | .onOperand14, v => ∃ e, v = .aux e
  | .onExpr3, v => ∃ s, v = .variable s
  | .onExpr8, v => ∃ s, v = .variable s
  | .onCall1, v => ∃ e, v = .expr e

/-- What a rule yields. -/
def RuleTy : RuleName → Dyn → Prop
  | .File, v => ∃ f, v = .file f
  | .Rule, v => ∃ r, v = .rule r
  | .Value, v => ∃ x, v.asValue = some x
  | .SExpr, v => ∃ x, v.asValue = some x
  | .Operand, v => (∃ s, v = .type s) ∨ (∃ e, v = .auxint e) ∨ (∃ e, v = .aux e) ∨ ∃ x, v.asValue = some x
  | .Expr, v => ∃ x, v.asValue = some x
  | .Call, v => ∃ x, v.asValue = some x

mutual
/-- What an expression yields. -/
def Ty : PExpr → Dyn → Prop
  | .action a _, v => ActTy a v
  | .any, _ => True
  | .cls .., _ => True
  | .choice es, v => TyAny es v
  | .labeled _ e, v => Ty e v
  | .lit _, _ => True
  | .not _, _ => True
  | .oneOrMore e, v => ∃ vs, v = .list vs ∧ ∀ x ∈ vs, Ty e x
  | .ruleRef r, v => RuleTy r v
  | .seq es, v => ∃ vs, v = .list vs ∧ TyAll es vs
  | .zeroOrMore e, v => ∃ vs, v = .list vs ∧ ∀ x ∈ vs, Ty e x
  | .zeroOrOne e, v => v = .nil ∨ Ty e v
def TyAny : List PExpr → Dyn → Prop
  | [], _ => False
  | e :: es, v => Ty e v ∨ TyAny es v
def TyAll : List PExpr → List Dyn → Prop
  | [], vs => vs = []
  | e :: es, vs => ∃ v ws, vs = v :: ws ∧ Ty e v ∧ TyAll es ws
end

/-- The expression after a label: no label is used twice. -/
def labExpr : Label → PExpr
  | .rs => .zeroOrMore (.seq [g_, .ruleRef .Rule, g_])
  | .m => .ruleRef .Value
  | .cond => .zeroOrOne (.seq [g__, .lit ['&', '&'], g__, gCondition])
  | .block => .zeroOrOne gBlock
  | .r => .ruleRef .Value
  | .binding => .zeroOrOne (.seq [.action .onSExpr6 gIdent, .lit [':']])
  | .op => gOp
  | .operands => .zeroOrMore (.seq [g__, .ruleRef .Operand])
  | .ellipsis => .zeroOrOne (.seq [g__, .lit ['.', '.', '.']])
  | .trailing => .zeroOrOne (.seq [g__, .lit ['_', '_', '_']])
  | .parts => .oneOrMore (.choice [.action .onSExpr26 gOpPart, gOpAlt])
  | .first => .action .onSExpr33 gOpPart
  | .rest => .oneOrMore (.seq [.lit ['|'], .action .onSExpr40 gOpPart])

/-- The labels an action reads. -/
def needs : Act → List Label
  | .onFile1 => [.rs]
  | .onRule1 => [.m, .cond, .block, .r]
  | .onSExpr29 => [.first, .rest]
  | .onSExpr22 => [.parts]
  | .onSExpr1 => [.binding, .op, .operands, .ellipsis, .trailing]
  | _ => []

mutual
/-- The labels an expression sets in the frame it runs in. -/
def labs : PExpr → List Label
  | .action _ e => labs e
  | .labeled l _ => [l]
  | .seq es => labss es
  | _ => []
def labss : List PExpr → List Label
  | [] => []
  | e :: es => labs e ++ labss es
end

mutual
/-- Labels stand before their expressions, and actions after the labels they read. -/
def WL : PExpr → Prop
  | .action a e => needs a ⊆ labs e ∧ WL e
  | .any => True
  | .cls .. => True
  | .choice es => WLs es
  | .labeled l e => e = labExpr l ∧ WL e
  | .lit _ => True
  | .not e => WL e
  | .oneOrMore e => WL e
  | .ruleRef _ => True
  | .seq es => WLs es
  | .zeroOrMore e => WL e
  | .zeroOrOne e => WL e
def WLs : List PExpr → Prop
  | [] => True
  | e :: es => WL e ∧ WLs es
end

theorem wl_rules (r : RuleName) : WL (gRules r) := by
  cases r <;>
    simp [gRules, gFile, gRule, gValue, gSExpr, gOperand, gExpr, gCall, g_, g__, gSkip, gIdent, gLower, gWord, gOp, gOpAlt, gOpPart, gCondition, gBlock, gType,
      gAuxInt, gAux, WL, WLs, labs, labss, needs, labExpr]

theorem ruleTy_of {r v} (h : Ty (gRules r) v) : RuleTy r v := by
  cases r with
  | File => exact h
  | Rule => exact h
  | Value => simpa [gRules, gValue, Ty, TyAny, RuleTy] using h
  | SExpr =>
    obtain ⟨x, args, rfl⟩ : ∃ x args, v = .sexpr x args := h
    exact ⟨_, rfl⟩
  | Operand => simpa [gRules, gOperand, gType, gAuxInt, gAux, Ty, TyAny, RuleTy, ActTy] using h
  | Expr =>
    simp only [gRules, gExpr, Ty, TyAny, RuleTy, ActTy, or_false] at h
    rcases h with h | ⟨s, rfl⟩ | ⟨s, rfl⟩
    · exact h
    · exact ⟨_, rfl⟩
    · exact ⟨_, rfl⟩
  | Call =>
    obtain ⟨e, rfl⟩ : ∃ e, v = .expr e := h
    exact ⟨_, rfl⟩

/-! ## The actions -/

theorem mapM_some {α β : Type} (f : α → Option β) (l : List α) (h : ∀ x ∈ l, ∃ y, f x = some y) : ∃ ys, l.mapM f = some ys := by
  induction l with
  | nil => exact ⟨[], rfl⟩
  | cons x l ih =>
    obtain ⟨y, hy⟩ := h x List.mem_cons_self
    obtain ⟨ys, hys⟩ := ih fun z hz => h z (List.mem_cons_of_mem _ hz)
    exact ⟨y :: ys, by simp [hy, hys]⟩

/-- The outcome of an action whose labels are set properly. -/
def GoodAct (lib : GoLib) (a : Act) (text : Str) : ActOut → Prop
  | .ok v => ActTy a v
  | .err _ => ∃ t, gAsks a text = some t ∧ ¬ ∃ e, GoText lib t e
  | .panic => False

theorem good_viaGo {lib : GoLib} (hl : ∀ t, goexprParse lib t ≠ .panic) {a text t wrap} (ha : gAsks a text = some t) (hw : ∀ e, ActTy a (wrap e)) :
    GoodAct lib a text (viaGo lib t wrap) := by
  cases h : viaGo lib t wrap with
  | err e => exact ⟨t, ha, not_go_of_err h⟩
  | ok v =>
    unfold viaGo at h
    split at h
    · cases h; exact hw _
    · cases h
    · cases h
  | panic =>
    unfold viaGo at h
    split at h
    · cases h
    · cases h
    · rename_i k; exact absurd k (hl t)

theorem good_act {lib : GoLib} (hl : ∀ t, goexprParse lib t ≠ .panic) (a : Act) (fr : Frame) (text : Str)
    (h : ∀ l ∈ needs a, Ty (labExpr l) (fr l)) : GoodAct lib a text (gAct lib a fr text) := by
  cases a with
  | onRule25 => exact good_viaGo hl rfl fun e => ⟨e, rfl⟩
  | onRule50 => exact ⟨_, rfl⟩
  | onSExpr6 => exact ⟨_, rfl⟩
  | onSExpr26 => exact ⟨_, rfl⟩
  | onSExpr33 => exact ⟨_, rfl⟩
  | onSExpr40 => exact ⟨_, rfl⟩
  | onOperand2 => exact ⟨_, rfl⟩
  | onOperand8 => exact good_viaGo hl rfl fun e => ⟨e, rfl⟩
  | onOperand14 => exact good_viaGo hl rfl fun e => ⟨e, rfl⟩
  | onExpr3 => exact ⟨_, rfl⟩
  | onExpr8 => exact ⟨_, rfl⟩
  | onCall1 => exact good_viaGo hl rfl fun e => ⟨e, rfl⟩
  | onFile1 =>
    have h1 := h .rs (by simp [needs])
    simp only [labExpr, Ty, TyAll, RuleTy] at h1
    obtain ⟨vs, e, hv⟩ := h1
    obtain ⟨rules, hr⟩ := mapM_some (fun i : Dyn => i.index 1 >>= fun x => x.asRule) vs (by
      intro x hx
      obtain ⟨-, rfl, v1, w1, rfl, -, v2, w2, rfl, ⟨r, rfl⟩, -⟩ := hv x hx
      exact ⟨r, rfl⟩)
    show GoodAct lib _ text (onFile1 (fr .rs))
    rw [e]
    show GoodAct lib _ text (orPanic ((vs.mapM fun i : Dyn => i.index 1 >>= fun x => x.asRule) >>= fun rules => some (.file { rules })))
    rw [hr]
    exact ⟨_, rfl⟩
  | onRule1 =>
    have h1 := h .m (by simp [needs])
    have h2 := h .cond (by simp [needs])
    have h3 := h .block (by simp [needs])
    have h4 := h .r (by simp [needs])
    simp only [labExpr, Ty, TyAll, RuleTy, gCondition, gBlock, ActTy] at h1 h2 h3 h4
    obtain ⟨m, hm⟩ := h1
    obtain ⟨r, hr⟩ := h4
    simp only [gAct, onRule1, hm, hr]
    rcases h2 with h2 | ⟨vs, h2, v1, w1, rfl, -, v2, w2, rfl, -, v3, w3, rfl, -, v4, w4, rfl, ⟨e, rfl⟩, -⟩ <;> rw [h2] <;>
      rcases h3 with h3 | ⟨b, h3⟩ <;> rw [h3] <;> simp [orPanic, GoodAct, ActTy, Dyn.index, Dyn.asList, Dyn.asExpr, Dyn.asString]
  | onSExpr29 =>
    have h1 := h .first (by simp [needs])
    have h2 := h .rest (by simp [needs])
    simp only [labExpr, Ty, TyAll, ActTy] at h1 h2
    obtain ⟨f, hf⟩ := h1
    obtain ⟨vs, e, hv⟩ := h2
    obtain ⟨cs, hr⟩ := mapM_some (fun i : Dyn => i.index 1 >>= fun x => x.asOpcode) vs (by
      intro x hx
      obtain ⟨-, rfl, v1, w1, rfl, -, v2, w2, rfl, ⟨s, rfl⟩, -⟩ := hv x hx
      exact ⟨s, rfl⟩)
    show GoodAct lib _ text (onSExpr29 (fr .first) (fr .rest))
    rw [e, hf]
    show GoodAct lib _ text (orPanic ((vs.mapM fun i : Dyn => i.index 1 >>= fun x => x.asOpcode) >>= fun cs => some (.opcodeAlt (f :: cs))))
    rw [hr]
    exact ⟨_, rfl⟩
  | onSExpr22 =>
    have h1 := h .parts (by simp [needs])
    simp only [labExpr, Ty, TyAny, ActTy, gOpAlt, or_false] at h1
    obtain ⟨vs, e, hv⟩ := h1
    obtain ⟨cs, hr⟩ := mapM_some Dyn.asOpPart vs (by
      intro x hx
      rcases hv x hx with ⟨s, rfl⟩ | ⟨cs, rfl⟩
      · exact ⟨_, rfl⟩
      · exact ⟨_, rfl⟩)
    show GoodAct lib _ text (onSExpr22 (fr .parts))
    rw [e]
    show GoodAct lib _ text (orPanic (vs.mapM Dyn.asOpPart >>= fun op => match op with | [.opcode s] => some (.opcode s) | _ => some (.opcodeParts op)))
    rw [hr]
    simp only [Option.bind_eq_bind, Option.bind_some]
    split
    · exact ⟨_, rfl⟩
    · exact ⟨_, rfl⟩
  | onSExpr1 =>
    have h1 := h .binding (by simp [needs])
    have h2 := h .op (by simp [needs])
    have h3 := h .operands (by simp [needs])
    simp only [labExpr, Ty, TyAll, RuleTy, gOp, ActTy] at h1 h2 h3
    obtain ⟨o, ho⟩ := h2
    obtain ⟨vs, e, hv⟩ := h3
    have hops : ∀ hd args, ∃ hd' args', sexprOperands vs hd args = some (some (hd', args')) := by
      clear e
      induction vs with
      | nil => intro hd args; exact ⟨hd, args, rfl⟩
      | cons x vs ih =>
        intro hd args
        have ih := ih fun y hy => hv y (List.mem_cons_of_mem _ hy)
        obtain ⟨-, rfl, v1, w1, rfl, -, v2, w2, rfl, hx, -⟩ := hv x List.mem_cons_self
        have hi : (Dyn.list (v1 :: v2 :: w2)).index 1 = some v2 := rfl
        rw [sexprOperands, hi]
        rcases hx with ⟨s, rfl⟩ | ⟨e, rfl⟩ | ⟨e, rfl⟩ | ⟨y, hy⟩
        · exact ih _ _
        · exact ih _ _
        · exact ih _ _
        · have hb : ∀ (f : Dyn → Option (Option (Hdr × List Value))), (some v2 >>= f) = f v2 := fun f => rfl
          rw [hb]
          cases v2 <;> simp only [Dyn.asValue] at hy ⊢ <;> first | exact ih _ _ | cases hy
    simp only [gAct, onSExpr1, ho, e, Dyn.asList]
    obtain ⟨hd, args, hh⟩ := hops { op := o, binding := [] } []
    rcases h1 with h1 | ⟨ws, h1, v1, w1, rfl, ⟨s, rfl⟩, -⟩
    · rw [h1]
      simp only [Option.bind_eq_bind, Option.bind_some]
      rw [hh]
      exact ⟨_, _, rfl⟩
    · obtain ⟨hd, args, hh⟩ := hops { op := o, binding := s } []
      rw [h1]
      have hi : (Dyn.list (.variable s :: w1)).index 0 = some (.variable s) := rfl
      simp only [hi, Option.bind_eq_bind, Option.bind_some, Dyn.asVariable]
      rw [hh]
      exact ⟨_, _, rfl⟩

/-! ## The machine -/

/-- The error has a cause in the input: an invalid byte, or a text that is no Go expression. -/
def IsRoot (x : PError) : Prop := x.problem = .invalidEncoding ∨ ∃ t, x.problem = .goError t

/-- The first error, if any, has a cause in the input. -/
def Root (errs : List PError) : Prop := ∀ x ∈ errs.head?, IsRoot x

theorem Root.add {errs x} (h : Root errs) (hx : errs = [] → IsRoot x) : Root (errs ++ [x]) := by
  cases errs with
  | nil => intro y hy; cases hy; exact hx rfl
  | cons z l => exact h

def RootPost (s : DSt) (Q : Dyn → DSt → Prop) : Option DOut → Prop
  | some (.ok v s') => s.errs <+: s'.errs ∧ Root s'.errs ∧ (s'.errs = [] → Q v s')
  | some (.fail s') => s.errs <+: s'.errs ∧ Root s'.errs
  | some (.panic s') => s.errs <+: s'.errs ∧ Root s'.errs ∧ s'.errs ≠ []
  | none => True

/-- The value and the frame after an expression. -/
def Typed (e : PExpr) (s : DSt) (v : Dyn) (s' : DSt) : Prop :=
  Ty e v ∧ (∀ l ∈ labs e, Ty (labExpr l) (s'.frame l)) ∧ ∀ l, l ∉ labs e → s'.frame l = s.frame l

theorem RootPost.from {s s0 : DSt} {Q Q' : Dyn → DSt → Prop} {o} (h : RootPost s Q o) (hs : s0.errs <+: s.errs) (hq : ∀ v s', s.errs <+: s'.errs → s'.errs = [] → Q v s' → Q' v s') :
    RootPost s0 Q' o := by
  match o with
  | none => trivial
  | some (.ok v s') => exact ⟨hs.trans h.1, h.2.1, fun k => hq v s' h.1 k (h.2.2 k)⟩
  | some (.fail s') => exact ⟨hs.trans h.1, h.2⟩
  | some (.panic s') => exact ⟨hs.trans h.1, h.2⟩

theorem RootPost.pop {s : DSt} {e : PExpr} {o} {s0 : DSt} (hs : s0.errs = s.errs) (h : RootPost s (Typed e s) o) :
    RootPost s0 (fun v s' => Ty e v ∧ s'.frame = s0.frame) (o.map (dPop s0.frame)) := by
  unfold RootPost at *
  rw [hs]
  match o with
  | none => trivial
  | some (.ok v s') => exact ⟨h.1, h.2.1, fun k => ⟨(h.2.2 k).1, rfl⟩⟩
  | some (.fail s') => exact ⟨h.1, h.2⟩
  | some (.panic s') => exact ⟨h.1, h.2⟩

theorem nil_of_prefix {α : Type} {a b : List α} (h : a <+: b) (hb : b = []) : a = [] := by subst hb; exact List.prefix_nil.1 h

theorem read_root {s : DSt} (h : Root s.errs) : s.errs <+: s.read.errs ∧ Root s.read.errs := by
  simp only [DSt.read, DSt.noteBad]
  split
  · exact ⟨List.prefix_append _ _, h.add fun _ => .inl rfl⟩
  · exact ⟨List.prefix_refl _, h⟩

theorem read_frame (s : DSt) : s.read.frame = s.frame := by
  simp only [DSt.read, DSt.noteBad]
  split <;> rfl

theorem pop_frame {fr : Frame} {o : Option DOut} {s' : DSt} (h : o.map (dPop fr) = some (.fail s')) : s'.frame = fr := by
  match o with
  | none => cases h
  | some (.ok v s) => cases h
  | some (.fail s) => cases h; rfl
  | some (.panic s) => cases h

theorem root_lit {start : Pt} {want : Str} (val : List Char) : ∀ {s : DSt}, Root s.errs →
    RootPost s (fun _ s' => s'.frame = s.frame) (some (dLit start want val s)) := by
  induction val with
  | nil => intro s h; exact ⟨by simp, by simpa using h, fun _ => by simp [failAt_frame]⟩
  | cons c val ih =>
    intro s h
    have hf : RootPost s (fun _ s' => s'.frame = s.frame) (some (.fail ((s.failAt false start.pos want).restore start))) := ⟨by simp, by simpa using h⟩
    simp only [dLit]
    split
    · exact hf
    · split
      · have := read_root h
        exact (ih this.2).from this.1 fun v s' _ _ k => k.trans (read_frame s)
      · exact hf

theorem root_term {s : DSt} (h : Root s.errs) (p w v) : RootPost s (fun _ s' => s'.frame = s.frame) (some (.ok v (s.read.failAt true p w))) := by
  have := read_root h
  exact ⟨by simpa using this.1, by simpa using this.2, fun _ => by simp [failAt_frame, read_frame]⟩

theorem root_cls {a b c} {s : DSt} (h : Root s.errs) : RootPost s (fun _ s' => s'.frame = s.frame) (some (dCls a b c s)) := by
  have hf : RootPost s (fun _ s' => s'.frame = s.frame) (some (.fail (s.failAt false s.pt.pos (clsWant a b c)))) := ⟨by simp, by simpa using h⟩
  unfold dCls
  simp only
  split
  · exact hf
  · split <;> split
    · exact hf
    · exact root_term h _ _ _
    · exact root_term h _ _ _
    · exact hf

theorem root_any {s : DSt} (h : Root s.errs) : RootPost s (fun _ s' => s'.frame = s.frame) (some (dAny s)) := by
  unfold dAny
  simp only
  split
  · exact ⟨by simp, by simpa using h⟩
  · exact root_term h _ _ _

theorem root_all {lib : GoLib} (hl : ∀ t, goexprParse lib t ≠ .panic) (n : Nat) :
    (∀ e s, WL e → Root s.errs → RootPost s (Typed e s) (dRun (ruleGrammar lib) n e s)) ∧
    (∀ es s, WLs es → Root s.errs → RootPost s (fun v s' => TyAny es v ∧ s'.frame = s.frame) (dChoice (ruleGrammar lib) n es s)) ∧
    (∀ start es vs s, WLs es → Root s.errs →
      RootPost s (fun v s' => (∃ ws, v = .list (vs ++ ws) ∧ TyAll es ws) ∧ (∀ l ∈ labss es, Ty (labExpr l) (s'.frame l)) ∧ ∀ l, l ∉ labss es → s'.frame l = s.frame l)
        (dSeq (ruleGrammar lib) n start es vs s)) ∧
    (∀ e need vs s, WL e → Root s.errs → (s.errs = [] → ∀ x ∈ vs, Ty e x) →
      RootPost s (fun v s' => (∃ ws, v = .list ws ∧ ∀ x ∈ ws, Ty e x) ∧ s'.frame = s.frame) (dLoop (ruleGrammar lib) n e need vs s)) := by
  induction n with
  | zero => refine ⟨?_, ?_, ?_, ?_⟩ <;> intros <;> simp only [dRun, dChoice, dSeq, dLoop] <;> trivial
  | succ n ih =>
    obtain ⟨ih1, ih2, ih3, ih4⟩ := ih
    have map1 : ∀ e s, WL e → Root s.errs → RootPost s (fun v s' => Ty e v ∧ s'.frame = s.frame) ((dRun (ruleGrammar lib) n e s.push).map (dPop s.frame)) :=
      fun e s he h => RootPost.pop (s := s.push) rfl (ih1 e s.push he h)
    refine ⟨?_, ?_, ?_, ?_⟩
    · intro e s he h
      have term : ∀ {e o}, labs e = [] → (∀ v, Ty e v) → RootPost s (fun _ s' => s'.frame = s.frame) o → RootPost s (Typed e s) o := by
        intro e o h1 h2 k
        exact k.from (List.prefix_refl _) fun v s' _ _ q => ⟨h2 v, by simp [h1], fun l _ => by rw [q]⟩
      have popped : ∀ {e e' o}, labs e = [] → (∀ v, Ty e' v → Ty e v) → RootPost s (fun v s' => Ty e' v ∧ s'.frame = s.frame) o → RootPost s (Typed e s) o := by
        intro e e' o h1 h2 k
        exact k.from (List.prefix_refl _) fun v s' _ _ q => ⟨h2 v q.1, by simp [h1], fun l _ => by rw [q.2]⟩
      cases e with
      | action a e =>
        simp only [dRun]
        have := ih1 e s he.2 h
        generalize dRun (ruleGrammar lib) n e s = x at *
        match x with
        | none => trivial
        | some (.fail s') => exact this
        | some (.panic s') => exact this
        | some (.ok v s') =>
          obtain ⟨k1, k2, k3⟩ := this
          have ha : s'.errs = [] → GoodAct lib a (s'.sliceFrom s.pt) (gAct lib a s'.frame (s'.sliceFrom s.pt)) :=
            fun k => good_act hl a _ _ fun l hl' => (k3 k).2.1 l (he.1 hl')
          show RootPost s _ (some (dAction (ruleGrammar lib) a s.pt s'))
          unfold dAction
          simp only
          show RootPost s _ (some (match gAct lib a s'.frame (s'.sliceFrom s.pt) with
            | .ok v => .ok v s' | .err _ => .ok .nil (s'.addErrAt (actionProblem (ruleGrammar lib) a (s'.sliceFrom s.pt)) s.pt.pos) | .panic => .panic s'))
          cases hx : gAct lib a s'.frame (s'.sliceFrom s.pt) with
          | ok w =>
            refine ⟨k1, k2, fun k => ?_⟩
            have := ha k
            rw [hx] at this
            exact ⟨this, (k3 k).2.1, (k3 k).2.2⟩
          | panic =>
            refine ⟨k1, k2, fun k => ?_⟩
            have := ha k
            rw [hx] at this
            exact this
          | err x =>
            refine ⟨k1.trans (by simp), Root.add k2 fun k => ?_, fun k => by simp at k⟩
            have := ha k
            rw [hx] at this
            obtain ⟨t, ht, -⟩ := this
            refine .inr ⟨t, ?_⟩
            show actionProblem (ruleGrammar lib) a _ = _
            unfold actionProblem
            show (match gAsks a (s'.sliceFrom s.pt) with | some t => Problem.goError t | none => .unknownOperand) = _
            rw [ht]
      | any => simp only [dRun]; exact term rfl (fun _ => trivial) (root_any h)
      | cls => simp only [dRun]; exact term rfl (fun _ => trivial) (root_cls h)
      | lit v => simp only [dRun]; exact term rfl (fun _ => trivial) (root_lit v h)
      | choice es =>
        simp only [dRun]
        exact (ih2 es s he h).from (List.prefix_refl _) fun v s' _ _ q => ⟨q.1, by simp [labs], fun l _ => by rw [q.2]⟩
      | labeled l e =>
        simp only [dRun]
        obtain ⟨rfl, hw⟩ : e = labExpr l ∧ WL e := he
        have := map1 _ s hw h
        generalize (dRun (ruleGrammar lib) n (labExpr l) s.push).map (dPop s.frame) = x at *
        match x with
        | none => trivial
        | some (.fail s') => exact this
        | some (.panic s') => exact this
        | some (.ok v s') =>
          refine ⟨this.1, this.2.1, fun k => ?_⟩
          obtain ⟨q1, q2⟩ := this.2.2 k
          refine ⟨q1, ?_, ?_⟩
          · intro l' hl'
            rw [labs, List.mem_singleton] at hl'
            subst hl'
            simpa [Frame.set] using q1
          · intro l' hl'
            rw [labs, List.mem_singleton] at hl'
            simp [Frame.set, hl', q2]
      | not e =>
        simp only [dRun]
        have := RootPost.pop (s0 := s) (s := s.push.flip) rfl (ih1 e s.push.flip he h)
        have hfr : ∀ s', (dRun (ruleGrammar lib) n e s.push.flip).map (dPop s.frame) = some (.fail s') → s'.frame = s.frame := fun s' k => pop_frame k
        generalize (dRun (ruleGrammar lib) n e s.push.flip).map (dPop s.frame) = x at *
        match x with
        | none => trivial
        | some (.ok v s') => exact ⟨by simpa [DSt.flip] using this.1, by simpa [DSt.flip] using this.2.1⟩
        | some (.fail s') =>
          refine ⟨by simpa [DSt.flip] using this.1, by simpa [DSt.flip] using this.2, fun _ => ⟨trivial, by simp [labs], fun l _ => ?_⟩⟩
          simp [DSt.flip, hfr s' rfl]
        | some (.panic s') => exact this
      | oneOrMore e =>
        simp only [dRun]
        exact (ih4 e true [] s he h (by simp)).from (List.prefix_refl _) fun v s' _ _ q => ⟨q.1, by simp [labs], fun l _ => by rw [q.2]⟩
      | zeroOrMore e =>
        simp only [dRun]
        exact (ih4 e false [] s he h (by simp)).from (List.prefix_refl _) fun v s' _ _ q => ⟨q.1, by simp [labs], fun l _ => by rw [q.2]⟩
      | ruleRef q =>
        simp only [dRun]
        have := ih1 (gRules q) { s.push with rstack := q :: s.rstack } (wl_rules q) h
        show RootPost s _ ((dRun (ruleGrammar lib) n (gRules q) { s.push with rstack := q :: s.rstack }).map (dLeave s.frame s.rstack))
        generalize dRun (ruleGrammar lib) n (gRules q) { s.push with rstack := q :: s.rstack } = x at *
        match x with
        | none => trivial
        | some (.ok v s') => exact ⟨this.1, this.2.1, fun k => ⟨ruleTy_of (this.2.2 k).1, by simp [labs], fun l _ => rfl⟩⟩
        | some (.fail s') => exact this
        | some (.panic s') => exact this
      | seq es =>
        simp only [dRun]
        exact (ih3 s.pt es [] s he h).from (List.prefix_refl _) fun v s' _ _ q => ⟨q.1, q.2⟩
      | zeroOrOne e =>
        simp only [dRun]
        have := map1 e s he h
        have hfr : ∀ s', (dRun (ruleGrammar lib) n e s.push).map (dPop s.frame) = some (.fail s') → s'.frame = s.frame := fun s' k => pop_frame k
        generalize (dRun (ruleGrammar lib) n e s.push).map (dPop s.frame) = x at *
        match x with
        | none => trivial
        | some (.ok v s') => exact popped (e' := e) rfl (fun _ k => .inr k) this
        | some (.fail s') => exact ⟨this.1, this.2, fun _ => ⟨.inl rfl, by simp [labs], fun l _ => by rw [hfr s' rfl]⟩⟩
        | some (.panic s') => exact this
    · intro es s he h
      cases es with
      | nil => simp only [dChoice]; exact ⟨List.prefix_refl _, h⟩
      | cons e es =>
        rw [dChoice]
        have := map1 e s he.1 h
        have hfr : ∀ s', (dRun (ruleGrammar lib) n e s.push).map (dPop s.frame) = some (.fail s') → s'.frame = s.frame := fun s' k => pop_frame k
        generalize (dRun (ruleGrammar lib) n e s.push).map (dPop s.frame) = x at *
        match x with
        | none => trivial
        | some (.ok v s') => exact RootPost.from this (List.prefix_refl _) fun v s' _ _ q => ⟨.inl q.1, q.2⟩
        | some (.fail s') => exact (ih2 es s' he.2 this.2).from this.1 fun v s'' _ _ q => ⟨.inr q.1, q.2.trans (hfr s' rfl)⟩
        | some (.panic s') => exact this
    · intro start es vs s he h
      cases es with
      | nil => simp only [dSeq]; exact ⟨List.prefix_refl _, h, fun _ => ⟨⟨[], by simp, rfl⟩, by simp [labss], fun _ _ => rfl⟩⟩
      | cons e es =>
        rw [dSeq]
        have := ih1 e s he.1 h
        generalize dRun (ruleGrammar lib) n e s = x at *
        match x with
        | none => trivial
        | some (.ok v s') =>
          refine (ih3 start es (vs ++ [v]) s' he.2 this.2.1).from this.1 fun w s'' k1 k2 q => ?_
          obtain ⟨⟨ws, rfl, hws⟩, q2, q3⟩ := q
          obtain ⟨t1, t2, t3⟩ := this.2.2 (nil_of_prefix k1 k2)
          refine ⟨⟨v :: ws, by simp, v, ws, rfl, t1, hws⟩, ?_, ?_⟩
          · intro l hl'
            rw [labss, List.mem_append] at hl'
            by_cases k : l ∈ labss es
            · exact q2 l k
            · rw [q3 l k]
              exact t2 l (hl'.resolve_right k)
          · intro l hl'
            rw [labss, List.mem_append] at hl'
            rw [q3 l fun k => hl' (.inr k), t3 l fun k => hl' (.inl k)]
        | some (.fail s') => exact ⟨by simpa using this.1, by simpa using this.2⟩
        | some (.panic s') => exact this
    · intro e need vs s he h hv
      rw [dLoop]
      have := map1 e s he h
      have hfr : ∀ s', (dRun (ruleGrammar lib) n e s.push).map (dPop s.frame) = some (.fail s') → s'.frame = s.frame := fun s' k => pop_frame k
      generalize (dRun (ruleGrammar lib) n e s.push).map (dPop s.frame) = x at *
      match x with
      | none => trivial
      | some (.ok v s') =>
        refine (ih4 e need (vs ++ [v]) s' he this.2.1 ?_).from this.1 fun w s'' k1 k2 q => ⟨q.1, q.2.trans (this.2.2 (nil_of_prefix k1 k2)).2⟩
        intro k x hx
        rcases List.mem_append.1 hx with hx | hx
        · exact hv (nil_of_prefix this.1 k) x hx
        · rw [List.mem_singleton] at hx
          subst hx
          exact (this.2.2 k).1
      | some (.fail s') =>
        show RootPost s _ (if (need && vs.isEmpty) = true then some (.fail s') else some (.ok (.list vs) s'))
        split
        · exact this
        · exact ⟨this.1, this.2, fun k => ⟨⟨vs, rfl, hv (nil_of_prefix this.1 k)⟩, hfr s' rfl⟩⟩
      | some (.panic s') => exact this

theorem root_init (data : List Sym) : Root (dInit data).errs := by
  simp only [dInit, DSt.noteBad]
  split
  · intro y hy; cases hy; exact .inl rfl
  · intro y hy; cases hy

/-- The first error has a cause in the input, or it is the only one and says "no match found". -/
theorem root_first {lib : GoLib} (hl : ∀ t, goexprParse lib t ≠ .panic) {order n data o} (h : dRun (ruleGrammar lib) n (.ruleRef .File) (dInit data) = some o) :
    ((∃ f s, o = .ok (.file f) s) ∧ outErrs order o = []) ∨
    ∃ x xs, outErrs order o = x :: xs ∧ (IsRoot x ∨ xs = [] ∧ ∃ s, o = .fail s ∧ ∃ exp, x.problem = .noMatch exp) := by
  have := (root_all hl n).1 (.ruleRef .File) (dInit data) trivial (root_init data)
  rw [h] at this
  have cons : ∀ {l : List PError} {P : Prop}, Root l → l ≠ [] → ∃ x xs, l = x :: xs ∧ (IsRoot x ∨ P) := by
    intro l P h1 h2
    cases l with
    | nil => exact absurd rfl h2
    | cons x xs => exact ⟨x, xs, rfl, .inl (h1 x rfl)⟩
  cases o with
  | ok v s =>
    by_cases he : s.errs = []
    · obtain ⟨⟨f, rfl⟩, -⟩ := this.2.2 he
      exact .inl ⟨⟨f, s, rfl⟩, he⟩
    · obtain ⟨x, xs, e, k⟩ := cons (P := False) this.2.1 he
      exact .inr ⟨x, xs, e, .inl (k.resolve_right id)⟩
  | panic s =>
    obtain ⟨x, xs, e, k⟩ := cons (P := False) this.2.1 this.2.2
    exact .inr ⟨x, xs ++ [_], by simp only [outErrs, e]; rfl, .inl (k.resolve_right id)⟩
  | fail s =>
    simp only [outErrs]
    by_cases he : s.errs = []
    · exact .inr ⟨_, [], by simp only [he]; rfl, .inr ⟨rfl, s, rfl, _, rfl⟩⟩
    · obtain ⟨x, xs, e, k⟩ := cons (P := False) this.2 he
      exact .inr ⟨x, xs, by simp [e], .inl (k.resolve_right id)⟩

/-! ## What is needed for acceptance -/

theorem run_of_dRun {lib n data o} (h : dRun (ruleGrammar lib) n (.ruleRef .File) (dInit data) = some o) :
    RelOut data (some o) (run (ruleGrammar lib) n (.ruleRef .File) (initSt data)) := by
  have := (rel_all (ruleGrammar lib) n).1 (.ruleRef .File) _ _ (dInit_rel data)
  rwa [h] at this

/-- With a Go parser that accepts everything, valid UTF-8 is accepted unless there is no match. -/
theorem accept_or_fail {lib : GoLib} {bs} (hall : ∀ t, ∃ e, GoText lib t e) (hval : ValidUtf8 bs) :
    (∃ f, parseBytes lib bs = .ok f) ∨ ∃ s, run (ruleGrammar lib) (depthBound bs.length) (.ruleRef .File) (initSt (decode bs)) = some (.fail s) := by
  have hl : ∀ t, goexprParse lib t ≠ .panic := by
    intro t
    obtain ⟨e, k⟩ := hall t
    rw [goexprParse_ok_iff.2 k]
    simp
  obtain ⟨o, ho⟩ := dfile_terminates lib bs _ (Nat.le_refl _)
  have htrue := outErrs_true (order := id) (fun l => List.Perm.refl _) ho
  have hrel := run_of_dRun ho
  have noroot : ∀ x ∈ outErrs id o, ¬ IsRoot x := by
    intro x hx hroot
    have hval : ∀ y ∈ decode bs, ∃ c, y = .ok c := (validUtf8_iff _).1 hval
    have ht := htrue x hx
    cases ht with
    | encoding hk =>
      obtain ⟨c, hc⟩ := hval _ (List.mem_of_getElem? hk)
      cases hc
    | go hb => cases hb with
      | auxInt _ h => exact h (hall _)
      | aux _ h => exact h (hall _)
      | call _ h => exact h (hall _)
      | condition _ _ h => exact h (hall _)
    | operand => rcases hroot with k | ⟨_, k⟩ <;> cases k
    | panicked => rcases hroot with k | ⟨_, k⟩ <;> cases k
    | noMatch => rcases hroot with k | ⟨_, k⟩ <;> cases k
  rcases root_first hl (order := id) ho with ⟨⟨g, s', rfl⟩, he'⟩ | ⟨x, xs, e, k | ⟨-, s', rfl, -⟩⟩
  · left
    generalize hy : run (ruleGrammar lib) (depthBound bs.length) (.ruleRef .File) (initSt (decode bs)) = y at *
    cases hrel with
    | @ok _ _ t k =>
      refine ⟨g, parse_ok_iff.2 ⟨t, hy, ?_⟩⟩
      have := k.4
      have he' : s'.errs = [] := he'
      rw [he'] at this
      exact List.length_eq_zero_iff.1 this
  · exact absurd k (noroot x (by rw [e]; simp))
  · right
    generalize hy : run (ruleGrammar lib) (depthBound bs.length) (.ruleRef .File) (initSt (decode bs)) = y at *
    cases hrel with
    | fail k => exact ⟨_, rfl⟩

/-- A Go parser that accepts everything accepts the input if some Go parser does. -/
theorem accept_all {lib lib' : GoLib} {bs f} (hall : ∀ t, ∃ e, GoText lib t e) (h : parseBytes lib' bs = .ok f) : ∃ f, parseBytes lib bs = .ok f := by
  obtain ⟨s, hr, he⟩ := parse_ok_iff.1 h
  rcases accept_or_fail hall (run_valid hr he) with k | ⟨s', hy⟩
  · exact k
  · exfalso
    have h1 := like_rule lib' hr
    have h2 := like_rule lib hy
    generalize run matchOnly (depthBound bs.length) (.ruleRef .File) (initSt (decode bs)) = z at *
    obtain ⟨_, _, rfl, _⟩ := h1
    obtain ⟨_, h2, _⟩ := h2
    cases h2

end Verif.Proof
