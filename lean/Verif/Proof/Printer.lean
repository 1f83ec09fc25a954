import Verif.Spec.Print
/-! # Lemmas about the printer: it emits a fixed list of texts and error marks -/
namespace Verif

open Verif.Spec

variable {σ : Type}

/-- One step of the printer: a `printf` of a text, or the report of an unsupported node. -/
inductive Item where
  | txt (s : Str)
  | bad (type : Str)

def runItem (W : Writer σ) (p : PState σ) : Item → PState σ
  | .txt s => printf W s p
  | .bad t => p.seterror (some (.unexpectedType t))

def runItems (W : Writer σ) (l : List Item) (p : PState σ) : PState σ := l.foldl (runItem W) p

theorem prec_level (op : Tok) : op.prec = op.level := by cases op <;> rfl

theorem runItems_append (W : Writer σ) (a b : List Item) (p : PState σ) :
    runItems W (a ++ b) p = runItems W b (runItems W a p) := by simp [runItems]
theorem runItems_nil (W : Writer σ) (p : PState σ) : runItems W [] p = p := rfl
theorem runItems_cons (W : Writer σ) (i : Item) (l : List Item) (p : PState σ) :
    runItems W (i :: l) p = runItems W l (runItem W p i) := rfl

mutual
def goItems : GoExpr → List Item
  | .ident _ name => [.txt name]
  | .basicLit _ _ v => [.txt v]
  | .paren _ x _ => .txt ['('] :: goItems x ++ [.txt [')']]
  | .unary _ op x => .txt op.str :: goItems x
  | .binary x _ op y => goItems x ++ .txt (showBinOp op) :: goItems y
  | .call fn _ args _ _ => goItems fn ++ .txt ['('] :: goArgItems true args ++ [.txt [')']]
  | .star _ x => .txt ['*'] :: goItems x
  | .selector x _ sel => goItems x ++ [.txt ('.' :: sel)]
  | .other k => [.bad (goType k)]
  | .nil => [.bad nilType]
def goArgItems : Bool → List GoExpr → List Item
  | _, [] => []
  | first, a :: as => (if first then [] else [.txt [',', ' ']]) ++ goItems a ++ goArgItems false as
end

mutual
theorem pgoexpr_items (W : Writer σ) (e : GoExpr) (p : PState σ) : pgoexpr W e p = runItems W (goItems e) p := by
  cases e with
  | nil => rfl
  | ident a b => rfl
  | basicLit a b c => rfl
  | paren a x b => simp [pgoexpr, goItems, runItems_append, runItems_cons, runItem, runItems_nil, pgoexpr_items W x]
  | unary a b x => simp [pgoexpr, goItems, runItems_append, runItems_cons, runItem, runItems_nil, pgoexpr_items W x]
  | binary x a op y =>
    simp only [pgoexpr, goItems, runItems_append, runItems_cons, runItem, runItems_nil, pgoexpr_items W x, pgoexpr_items W y,
      showBinOp, prec_level, show Tok.add.level = 4 from rfl]
    split <;> rfl
  | call fn a args b c =>
    simp [pgoexpr, goItems, runItems_append, runItems_cons, runItem, runItems_nil, pgoexpr_items W fn, pargs_items W true args]
  | star a x => simp [pgoexpr, goItems, runItems_append, runItems_cons, runItem, runItems_nil, pgoexpr_items W x]
  | selector x a s => simp [pgoexpr, goItems, runItems_append, runItems_cons, runItem, runItems_nil, pgoexpr_items W x]
  | other k => rfl
theorem pargs_items (W : Writer σ) (first : Bool) (es : List GoExpr) (p : PState σ) :
    pargs W first es p = runItems W (goArgItems first es) p := by
  cases es with
  | nil => rfl
  | cons e es =>
    cases first <;>
    simp [pargs, goArgItems, runItems_append, runItems_cons, runItem, runItems_nil, pgoexpr_items W e, pargs_items W false es]
end

def altItems : Char → List Str → List Item
  | _, [] => []
  | sep, c :: cs => .txt (sep :: c) :: altItems '|' cs

def partItems : OpPart → List Item
  | .opcode s => [.txt s]
  | .alt cs => altItems '(' cs ++ [.txt [')']]
  | .nil => [.bad nilType]

def opItems : Op → List Item
  | .opcode s => [.txt s]
  | .parts ps => ps.flatMap partItems
  | .nil => [.bad nilType]

theorem palts_items (W : Writer σ) (sep : Char) (cs : List Str) (p : PState σ) :
    palts W sep cs p = runItems W (altItems sep cs) p := by
  induction cs generalizing sep p with
  | nil => rfl
  | cons c cs ih => simp [palts, altItems, runItems_cons, runItem, ih]

theorem poppart_items (W : Writer σ) (o : OpPart) (p : PState σ) : poppart W o p = runItems W (partItems o) p := by
  cases o with
  | alt cs => simp [poppart, partItems, runItems_append, runItems_cons, runItem, runItems_nil, palts_items]
  | _ => rfl

theorem pop_items (W : Writer σ) (o : Op) (p : PState σ) : pop W o p = runItems W (opItems o) p := by
  cases o with
  | parts ps =>
    simp only [pop, opItems]
    induction ps generalizing p with
    | nil => rfl
    | cons q ps ih => rw [List.foldl_cons, List.flatMap_cons, runItems_append, ih, poppart_items]
  | _ => rfl

def auxIntItems : Option GoExpr → List Item
  | none => []
  | some e => .txt [' ', '['] :: goItems e ++ [.txt [']']]
def auxItems : Option GoExpr → List Item
  | none => []
  | some e => .txt [' ', '{'] :: goItems e ++ [.txt ['}']]

mutual
def valueItems : Value → List Item
  | .sexpr h args =>
    (if h.binding ≠ [] then [.txt (h.binding ++ [':'])] else []) ++ .txt ['('] :: opItems h.op ++
    (if h.type ≠ [] then [.txt ([' ', '<'] ++ h.type ++ ['>'])] else []) ++ auxIntItems h.auxInt ++ auxItems h.aux ++
    argItems args ++ (if h.ellipsis then [.txt [' ', '.', '.', '.']] else []) ++
    (if h.trailing then [.txt [' ', '_', '_', '_']] else []) ++ [.txt [')']]
  | .expr e => goItems e
  | .var v => [.txt v]
  | .nil => [.bad nilType]
def argItems : List Value → List Item
  | [] => []
  | v :: vs => .txt [' '] :: valueItems v ++ argItems vs
end

mutual
theorem pvalue_items (W : Writer σ) (v : Value) (p : PState σ) : pvalue W v p = runItems W (valueItems v) p := by
  cases v with
  | nil => rfl
  | expr e => exact pgoexpr_items W e p
  | var x => rfl
  | sexpr h args =>
    simp only [pvalue, valueItems, runItems_append, runItems_cons, pop_items, pvalues_items W args]
    have e1 : ∀ q, runItems W (if h.binding ≠ [] then [Item.txt (h.binding ++ [':'])] else []) q =
        if h.binding ≠ [] then printf W (h.binding ++ [':']) q else q := by intro q; split <;> rfl
    have e2 : ∀ q, runItems W (if h.type ≠ [] then [Item.txt ([' ', '<'] ++ h.type ++ ['>'])] else []) q =
        if h.type ≠ [] then printf W ([' ', '<'] ++ h.type ++ ['>']) q else q := by intro q; split <;> rfl
    have e3 : ∀ q, runItems W (auxIntItems h.auxInt) q =
        match h.auxInt with
        | some e => printf W [']'] (pgoexpr W e (printf W [' ', '['] q))
        | none => q := by
      intro q
      cases h.auxInt with
      | none => rfl
      | some e => simp [auxIntItems, runItems_append, runItems_cons, runItem, runItems_nil, pgoexpr_items]
    have e4 : ∀ q, runItems W (auxItems h.aux) q =
        match h.aux with
        | some e => printf W ['}'] (pgoexpr W e (printf W [' ', '{'] q))
        | none => q := by
      intro q
      cases h.aux with
      | none => rfl
      | some e => simp [auxItems, runItems_append, runItems_cons, runItem, runItems_nil, pgoexpr_items]
    have e5 : ∀ q, runItems W (if h.ellipsis then [Item.txt [' ', '.', '.', '.']] else []) q =
        if h.ellipsis then printf W [' ', '.', '.', '.'] q else q := by intro q; split <;> rfl
    have e6 : ∀ q, runItems W (if h.trailing then [Item.txt [' ', '_', '_', '_']] else []) q =
        if h.trailing then printf W [' ', '_', '_', '_'] q else q := by intro q; split <;> rfl
    rw [e1, e2, e3, e4, e5, e6]
    rfl
theorem pvalues_items (W : Writer σ) (vs : List Value) (p : PState σ) : pvalues W vs p = runItems W (argItems vs) p := by
  cases vs with
  | nil => rfl
  | cons v vs =>
    simp [pvalues, argItems, runItems_append, runItems_cons, runItem, pvalue_items W v, pvalues_items W vs]
end

def condItems : Option GoExpr → List Item
  | none => []
  | some e => .txt [' ', '&', '&', ' '] :: goItems e

def ruleItems (r : Rule) : List Item :=
  valueItems r.match ++ condItems r.condition ++ .txt [' ', '=', '>', ' '] ::
    (if r.block ≠ [] then [.txt (['@'] ++ r.block ++ [' '])] else []) ++ valueItems r.result

theorem prule_items (W : Writer σ) (r : Rule) (p : PState σ) : prule W r p = runItems W (ruleItems r) p := by
  simp only [prule, ruleItems, runItems_append, runItems_cons, pvalue_items]
  have e1 : ∀ q, runItems W (condItems r.condition) q =
      match r.condition with
      | some e => pgoexpr W e (printf W [' ', '&', '&', ' '] q)
      | none => q := by
    intro q
    cases r.condition with
    | none => rfl
    | some e => simp [condItems, runItems_cons, runItem, pgoexpr_items]
  have e2 : ∀ q, runItems W (if r.block ≠ [] then [Item.txt (['@'] ++ r.block ++ [' '])] else []) q =
      if r.block ≠ [] then printf W (['@'] ++ r.block ++ [' ']) q else q := by intro q; split <;> rfl
  rw [e1, e2]
  rfl

def nodeItems : Node → List Item
  | .file f => f.rules.flatMap fun r => ruleItems r ++ [.txt ['\n']]
  | .rule r => ruleItems r
  | .sexpr h args => valueItems (.sexpr h args)
  | .expr e => goItems e
  | .var v => [.txt v]
  | .opcode s => [.txt s]
  | .parts ps => opItems (.parts ps)
  | .alt _ => [.bad "ast.OpcodeAlt".toList]
  | .nil => [.bad nilType]

theorem pnode_items (W : Writer σ) (n : Node) (p : PState σ) : pnode W n p = runItems W (nodeItems n) p := by
  cases n with
  | file f =>
    simp only [pnode, nodeItems]
    generalize f.rules = l
    induction l generalizing p with
    | nil => rfl
    | cons r l ih =>
      simp [prules, runItems_append, runItems_cons, runItems_nil, runItem, prule_items, ih]
  | rule r => exact prule_items W r p
  | sexpr h args => exact pvalue_items W _ p
  | expr e => exact pvalue_items W _ p
  | parts ps => exact pop_items W (.parts ps) p
  | _ => rfl

/-! ### Which items, and their text -/

def Item.ok : Item → Bool
  | .txt _ => true
  | .bad _ => false

def Item.text : Item → Str
  | .txt s => s
  | .bad _ => []

/-- All items are texts. -/
def okItems (l : List Item) : Bool := l.all Item.ok
/-- The texts concatenated. -/
def textOf (l : List Item) : Str := l.flatMap Item.text

@[simp] theorem okItems_nil : okItems [] = true := rfl
@[simp] theorem okItems_cons (i : Item) (l : List Item) : okItems (i :: l) = (i.ok && okItems l) := rfl
@[simp] theorem okItems_append (a b : List Item) : okItems (a ++ b) = (okItems a && okItems b) := by simp [okItems]
@[simp] theorem textOf_nil : textOf [] = [] := rfl
@[simp] theorem textOf_cons (i : Item) (l : List Item) : textOf (i :: l) = i.text ++ textOf l := rfl
@[simp] theorem textOf_append (a b : List Item) : textOf (a ++ b) = textOf a ++ textOf b := by simp [textOf]
@[simp] theorem ok_txt (s : Str) : (Item.txt s).ok = true := rfl
@[simp] theorem ok_bad (t : Str) : (Item.bad t).ok = false := rfl
@[simp] theorem text_txt (s : Str) : (Item.txt s).text = s := rfl
@[simp] theorem text_bad (t : Str) : (Item.bad t).text = [] := rfl

mutual
theorem goItems_spec (e : GoExpr) : okItems (goItems e) = goSupported e ∧ textOf (goItems e) = showGo e := by
  cases e with
  | nil => exact ⟨rfl, rfl⟩
  | ident a b => simp [goItems, goSupported, showGo]
  | basicLit a b c => simp [goItems, goSupported, showGo]
  | paren a x b => have := goItems_spec x; simp [goItems, goSupported, showGo, this]
  | unary a op x => have := goItems_spec x; simp [goItems, goSupported, showGo, this]
  | binary x a op y => have h1 := goItems_spec x; have h2 := goItems_spec y; simp [goItems, goSupported, showGo, h1, h2]
  | call fn a args b c =>
    have h1 := goItems_spec fn; have h2 := goArgItems_spec args
    simp [goItems, goSupported, showGo, h1, h2]
  | star a x => have := goItems_spec x; simp [goItems, goSupported, showGo, this]
  | selector x a s => have := goItems_spec x; simp [goItems, goSupported, showGo, this]
  | other k => exact ⟨rfl, rfl⟩
theorem goArgItems_spec (es : List GoExpr) :
    (okItems (goArgItems true es) = goSupporteds es ∧ textOf (goArgItems true es) = showGoArgs es) ∧
    (okItems (goArgItems false es) = goSupporteds es ∧ textOf (goArgItems false es) = showGoArgsTail es) := by
  cases es with
  | nil => exact ⟨⟨rfl, rfl⟩, rfl, rfl⟩
  | cons e es =>
    have h1 := goItems_spec e; have h2 := goArgItems_spec es
    simp [goArgItems, goSupporteds, showGoArgs, showGoArgsTail, h1, h2]
end

theorem altItems_spec (sep : Char) (cs : List Str) : okItems (altItems sep cs) = true ∧
    textOf (altItems sep cs) = (match cs with | [] => [] | c :: cs => sep :: c ++ cs.flatMap (fun c => '|' :: c)) := by
  induction cs generalizing sep with
  | nil => exact ⟨rfl, rfl⟩
  | cons c cs ih =>
    have h := ih '|'
    refine ⟨by simp [altItems, h.1], ?_⟩
    simp only [altItems, textOf_cons, text_txt, h.2]
    cases cs <;> simp

theorem partItems_spec (o : OpPart) : okItems (partItems o) = (o != .nil) ∧ textOf (partItems o) = showPart o := by
  cases o with
  | nil => exact ⟨rfl, rfl⟩
  | opcode s => simp [partItems, showPart]
  | alt cs =>
    have h := altItems_spec '(' cs
    refine ⟨by simp [partItems, h.1], ?_⟩
    simp only [partItems, textOf_append, h.2, showPart]
    cases cs <;> simp [showAlt]

theorem opItems_spec (o : Op) : okItems (opItems o) = opPrintable o ∧ textOf (opItems o) = showOp o := by
  cases o with
  | nil => exact ⟨rfl, rfl⟩
  | opcode s => simp [opItems, showOp, opPrintable]
  | parts ps =>
    simp only [opItems, showOp, opPrintable]
    induction ps with
    | nil => exact ⟨rfl, rfl⟩
    | cons q ps ih =>
      have := partItems_spec q
      simp [this, ih]

theorem auxIntItems_spec (o : Option GoExpr) : okItems (auxIntItems o) = goSupportedOpt o ∧ textOf (auxIntItems o) = showAuxInt o := by
  cases o with
  | none => exact ⟨rfl, rfl⟩
  | some e => have := goItems_spec e; simp [auxIntItems, goSupportedOpt, showAuxInt, this]
theorem auxItems_spec (o : Option GoExpr) : okItems (auxItems o) = goSupportedOpt o ∧ textOf (auxItems o) = showAux o := by
  cases o with
  | none => exact ⟨rfl, rfl⟩
  | some e => have := goItems_spec e; simp [auxItems, goSupportedOpt, showAux, this]
theorem condItems_spec (o : Option GoExpr) : okItems (condItems o) = goSupportedOpt o ∧ textOf (condItems o) = showCond o := by
  cases o with
  | none => exact ⟨rfl, rfl⟩
  | some e => have := goItems_spec e; simp [condItems, goSupportedOpt, showCond, this]

theorem okItems_ite (c : Prop) [Decidable c] (s : Str) : okItems (if c then [Item.txt s] else []) = true := by
  split <;> rfl
theorem textOf_ite (c : Prop) [Decidable c] (s : Str) : textOf (if c then [Item.txt s] else []) = if c then s else [] := by
  split <;> simp

mutual
theorem valueItems_spec (v : Value) : okItems (valueItems v) = valuePrintable v ∧ textOf (valueItems v) = showValue v := by
  cases v with
  | nil => exact ⟨rfl, rfl⟩
  | expr e => exact goItems_spec e
  | var x => simp [valueItems, valuePrintable, showValue]
  | sexpr h args =>
    have h1 := opItems_spec h.op
    have h2 := auxIntItems_spec h.auxInt
    have h3 := auxItems_spec h.aux
    have h4 := argItems_spec args
    constructor
    · simp only [valueItems, valuePrintable, okItems_append, okItems_cons, okItems_ite, h1, h2, h3, h4, okItems_nil, ok_txt]
      simp
    · simp only [valueItems, showValue, textOf_append, textOf_cons, textOf_ite, h1, h2, h3, h4, textOf_nil, text_txt, showBinding, showType]
      have e1 : (if h.binding ≠ [] then h.binding ++ [':'] else []) = if h.binding = [] then [] else h.binding ++ [':'] := by
        by_cases hb : h.binding = [] <;> simp [hb]
      have e2 : (if h.type ≠ [] then [' ', '<'] ++ h.type ++ ['>'] else []) = if h.type = [] then [] else ' ' :: '<' :: h.type ++ ['>'] := by
        by_cases hb : h.type = [] <;> simp [hb]
      rw [e1, e2]
      simp
theorem argItems_spec (vs : List Value) : okItems (argItems vs) = valuesPrintable vs ∧ textOf (argItems vs) = showArgs vs := by
  cases vs with
  | nil => exact ⟨rfl, rfl⟩
  | cons v vs =>
    have h1 := valueItems_spec v
    have h2 := argItems_spec vs
    simp [argItems, valuesPrintable, showArgs, h1, h2]
end

theorem ruleItems_spec (r : Rule) : okItems (ruleItems r) = rulePrintable r ∧ textOf (ruleItems r) = showRule r := by
  have h1 := valueItems_spec r.match
  have h2 := valueItems_spec r.result
  have h3 := condItems_spec r.condition
  constructor
  · simp only [ruleItems, rulePrintable, okItems_append, okItems_cons, okItems_ite, h1, h2, h3, ok_txt]
    simp
  · simp only [ruleItems, showRule, textOf_append, textOf_cons, textOf_ite, h1, h2, h3, text_txt, showBlock]
    by_cases hb : r.block = [] <;> simp [hb]

theorem nodeItems_spec (n : Node) : okItems (nodeItems n) = printable n ∧ (printable n = true → textOf (nodeItems n) = showNode n) := by
  cases n with
  | file f =>
    simp only [nodeItems, printable, showNode]
    generalize f.rules = l
    induction l with
    | nil => simp
    | cons r l ih =>
      have h := ruleItems_spec r
      constructor
      · simp [h, ih.1]
      · intro hp
        simp only [List.all_cons, Bool.and_eq_true] at hp
        simp [h, ih.2 hp.2]
  | rule r => exact ⟨(ruleItems_spec r).1, fun _ => (ruleItems_spec r).2⟩
  | sexpr h args => exact ⟨(valueItems_spec _).1, fun _ => (valueItems_spec _).2⟩
  | expr e => exact ⟨(goItems_spec e).1, fun _ => (goItems_spec e).2⟩
  | var v => simp [nodeItems, printable, showNode]
  | opcode v => simp [nodeItems, printable, showNode]
  | parts ps => exact ⟨(opItems_spec (.parts ps)).1, fun _ => (opItems_spec (.parts ps)).2⟩
  | alt cs => simp [nodeItems, printable]
  | nil => simp [nodeItems, printable]

/-! ### The bad items -/

/-- The types of the bad items. -/
def badOf : List Item → List Str
  | [] => []
  | .txt _ :: l => badOf l
  | .bad t :: l => t :: badOf l

@[simp] theorem badOf_nil : badOf [] = [] := rfl
@[simp] theorem badOf_txt (s : Str) (l : List Item) : badOf (.txt s :: l) = badOf l := rfl
@[simp] theorem badOf_bad (t : Str) (l : List Item) : badOf (.bad t :: l) = t :: badOf l := rfl
@[simp] theorem badOf_append (a b : List Item) : badOf (a ++ b) = badOf a ++ badOf b := by
  induction a with
  | nil => rfl
  | cons i a ih => cases i <;> simp [ih]
theorem badOf_ite (c : Prop) [Decidable c] (s : Str) : badOf (if c then [Item.txt s] else []) = [] := by split <;> rfl

theorem okItems_iff (l : List Item) : okItems l = (badOf l).isEmpty := by
  induction l with
  | nil => rfl
  | cons i l ih => cases i <;> simp [ih]

mutual
theorem goItems_bad (e : GoExpr) : badOf (goItems e) = badGo e := by
  cases e with
  | nil => rfl
  | ident a b => rfl
  | basicLit a b c => rfl
  | paren a x b => simp [goItems, badGo, goItems_bad x]
  | unary a op x => simp [goItems, badGo, goItems_bad x]
  | binary x a op y => simp [goItems, badGo, goItems_bad x, goItems_bad y]
  | call fn a args b c => simp [goItems, badGo, goItems_bad fn, goArgItems_bad args]
  | star a x => simp [goItems, badGo, goItems_bad x]
  | selector x a s => simp [goItems, badGo, goItems_bad x]
  | other k => rfl
theorem goArgItems_bad (es : List GoExpr) : badOf (goArgItems true es) = badGos es ∧ badOf (goArgItems false es) = badGos es := by
  cases es with
  | nil => exact ⟨rfl, rfl⟩
  | cons e es =>
    have h1 := goItems_bad e; have h2 := goArgItems_bad es
    simp [goArgItems, badGos, h1, h2]
end

theorem altItems_bad (sep : Char) (cs : List Str) : badOf (altItems sep cs) = [] := by
  induction cs generalizing sep with
  | nil => rfl
  | cons c cs ih => simp [altItems, ih]

theorem opItems_bad (o : Op) : badOf (opItems o) = badOp o := by
  cases o with
  | nil => rfl
  | opcode s => rfl
  | parts ps =>
    simp only [opItems, badOp]
    induction ps with
    | nil => rfl
    | cons q ps ih =>
      rw [List.flatMap_cons, List.flatMap_cons, badOf_append, ih]
      cases q with
      | nil => rfl
      | opcode s => rfl
      | alt cs => simp [partItems, altItems_bad]

theorem auxIntItems_bad (o : Option GoExpr) : badOf (auxIntItems o) = badGoOpt o := by
  cases o with
  | none => rfl
  | some e => simp [auxIntItems, badGoOpt, goItems_bad]
theorem auxItems_bad (o : Option GoExpr) : badOf (auxItems o) = badGoOpt o := by
  cases o with
  | none => rfl
  | some e => simp [auxItems, badGoOpt, goItems_bad]
theorem condItems_bad (o : Option GoExpr) : badOf (condItems o) = badGoOpt o := by
  cases o with
  | none => rfl
  | some e => simp [condItems, badGoOpt, goItems_bad]

mutual
theorem valueItems_bad (v : Value) : badOf (valueItems v) = badValue v := by
  cases v with
  | nil => rfl
  | expr e => exact goItems_bad e
  | var x => rfl
  | sexpr h args =>
    simp only [valueItems, badValue, badOf_append, badOf_txt, badOf_ite, opItems_bad, auxIntItems_bad, auxItems_bad, argItems_bad args, badOf_nil]
    simp
theorem argItems_bad (vs : List Value) : badOf (argItems vs) = badValues vs := by
  cases vs with
  | nil => rfl
  | cons v vs => simp [argItems, badValues, valueItems_bad v, argItems_bad vs]
end

theorem ruleItems_bad (r : Rule) : badOf (ruleItems r) = badRule r := by
  simp only [ruleItems, badRule, badOf_append, badOf_txt, badOf_ite, valueItems_bad, condItems_bad]
  simp

theorem nodeItems_bad (n : Node) : badOf (nodeItems n) = badNode n := by
  cases n with
  | file f =>
    simp only [nodeItems, badNode]
    generalize f.rules = l
    induction l with
    | nil => rfl
    | cons r l ih => simp [ih, ruleItems_bad]
  | rule r => exact ruleItems_bad r
  | sexpr h args => exact valueItems_bad _
  | expr e => exact goItems_bad e
  | var v => rfl
  | opcode v => rfl
  | parts ps => exact opItems_bad (.parts ps)
  | alt cs => rfl
  | nil => rfl

theorem goSupported_iff (e : GoExpr) : goSupported e = true ↔ badGo e = [] := by
  rw [← (goItems_spec e).1, okItems_iff, goItems_bad]; simp

/-- The first type that cannot be printed. -/
def firstBad (n : Node) : Str := (badNode n).headD []

theorem printable_iff (n : Node) : printable n = true ↔ badNode n = [] := by
  rw [← (nodeItems_spec n).1, okItems_iff, nodeItems_bad]; simp

/-! ### Running items -/

theorem runItems_error (W : Writer σ) (l : List Item) (w : σ) (e : Err) : runItems W l ⟨w, some e⟩ = ⟨w, some e⟩ := by
  induction l with
  | nil => rfl
  | cons i l ih => cases i <;> simpa [runItems_cons, runItem, printf, PState.seterror] using ih

theorem runItems_buffer (l : List Item) (w : Str) :
    (okItems l = true → runItems bufferWriter l ⟨w, none⟩ = ⟨w ++ textOf l, none⟩) ∧
    (okItems l = false → (runItems bufferWriter l ⟨w, none⟩).err = some (.unexpectedType ((badOf l).headD []))) := by
  induction l generalizing w with
  | nil => simp [runItems_nil]
  | cons i l ih =>
    cases i with
    | txt s =>
      have := ih (w ++ s)
      simpa [runItems_cons, runItem, printf, PState.seterror, bufferWriter] using this
    | bad t =>
      simp [runItems_cons, runItem, PState.seterror, runItems_error]

theorem printBytes_eq (n : Node) : printBytes n = if printable n then .ok (showNode n) else .err (.unexpectedType (firstBad n)) := by
  have hs := nodeItems_spec n
  have hr := runItems_buffer (nodeItems n) []
  simp only [printBytes, fprint, pnode_items]
  rw [hs.1] at hr
  cases hp : printable n with
  | true =>
    rw [hr.1 hp, ← hs.2 hp]
    simp
  | false =>
    have h := hr.2 hp
    generalize hq : runItems bufferWriter (nodeItems n) ⟨[], none⟩ = q at h
    obtain ⟨w, e⟩ := q
    rw [nodeItems_bad] at h
    simp only at h
    subst h
    simp [firstBad]

/-- Texts up to the first bad item. -/
def goodTexts : List Item → List Str
  | .txt s :: l => s :: goodTexts l
  | _ => []

theorem goodTexts_flatten (l : List Item) (h : okItems l = true) : (goodTexts l).flatten = textOf l := by
  induction l with
  | nil => rfl
  | cons i l ih =>
    cases i with
    | txt s => simp [goodTexts, ih (by simpa using h)]
    | bad t => simp at h

/-- Behaviour on an arbitrary writer: the texts are offered one by one until one is refused. -/
theorem runItems_recorder (ans : List Str → Option Err) (l : List Item) (log : List Str) :
    (∃ k s rest e, goodTexts l = k ++ s :: rest ∧ (∀ k' s' r', k = k' ++ s' :: r' → ans (log ++ k' ++ [s']) = none) ∧
        ans (log ++ k ++ [s]) = some e ∧ runItems (recorder ans) l ⟨log, none⟩ = ⟨log ++ k ++ [s], some e⟩) ∨
    ((∀ k' s' r', goodTexts l = k' ++ s' :: r' → ans (log ++ k' ++ [s']) = none) ∧
      runItems (recorder ans) l ⟨log, none⟩ = ⟨log ++ goodTexts l, if okItems l then none else some (.unexpectedType ((badOf l).headD []))⟩) := by
  induction l generalizing log with
  | nil => right; simp [goodTexts, runItems_nil]
  | cons i l ih =>
    cases i with
    | bad t =>
      right
      simp [goodTexts, runItems_cons, runItem, PState.seterror, runItems_error]
    | txt s =>
      cases ha : ans (log ++ [s]) with
      | some e =>
        left
        refine ⟨[], s, goodTexts l, e, rfl, by simp, by simpa using ha, ?_⟩
        simp [runItems_cons, runItem, printf, recorder, PState.seterror, ha, runItems_error]
      | none =>
        have hstep : runItems (recorder ans) (.txt s :: l) ⟨log, none⟩ = runItems (recorder ans) l ⟨log ++ [s], none⟩ := by
          simp [runItems_cons, runItem, printf, recorder, PState.seterror, ha]
        rw [hstep]
        rcases ih (log ++ [s]) with ⟨k, s', rest, e, h1, h2, h3, h4⟩ | ⟨h1, h2⟩
        · left
          refine ⟨s :: k, s', rest, e, by simp [goodTexts, h1], ?_, by simpa using h3, by simpa using h4⟩
          intro k' t r' hk
          cases k' with
          | nil => simp at hk; simp [← hk.1, ha]
          | cons b k' =>
            simp only [List.cons_append, List.cons.injEq] at hk
            obtain ⟨rfl, hk⟩ := hk
            simpa using h2 k' t r' hk
        · right
          refine ⟨?_, by simpa [goodTexts] using h2⟩
          intro k' t r' hk
          cases k' with
          | nil => simp [goodTexts] at hk; simp [← hk.1, ha]
          | cons b k' =>
            simp only [goodTexts, List.cons_append, List.cons.injEq] at hk
            obtain ⟨rfl, hk⟩ := hk
            simpa using h1 k' t r' hk

end Verif
