import Verif.Spec.Heap
import Verif.Proof.Expand
/-! # The heap version of expansion refines the pure one and only allocates -/
namespace Verif

open Verif.Spec

theorem getElem?_of_prefix {h h' : Heap} (hp : h <+: h') {a : Addr} {c : Cell} (hc : h[a]? = some c) : h'[a]? = some c := by
  obtain ⟨t, rfl⟩ := hp
  have := (List.getElem?_eq_some_iff.1 hc).1
  rw [List.getElem?_append_left this, hc]

mutual
theorem RepV_mono {h h' : Heap} (hp : h <+: h') {a : HVal} {v : Value} (hr : RepV h a v) : RepV h' a v := by
  cases hr with
  | nil => exact .nil
  | expr e => exact .expr e
  | var x => exact .var x
  | sexpr h1 h2 h3 => exact .sexpr (getElem?_of_prefix hp h1) (getElem?_of_prefix hp h2) (RepVs_mono hp h3)
theorem RepVs_mono {h h' : Heap} (hp : h <+: h') {as : List HVal} {vs : List Value} (hr : RepVs h as vs) : RepVs h' as vs := by
  cases hr with
  | nil => exact .nil
  | cons h1 h2 => exact .cons (RepV_mono hp h1) (RepVs_mono hp h2)
end

/-- `x`, run on `h`, only extends the heap and does what the pure result `r` says, results being related by `R`. -/
def Refines {α β : Type} (x : HM α) (h : Heap) (R : Heap → α → β → Prop) (r : Res β) : Prop :=
  ∃ ra h', x h = some (ra, h') ∧ h <+: h' ∧
    match r with
    | .ok b => ∃ a, ra = .ok a ∧ R h' a b
    | .err e => ra = .err e
    | .panic => ra = .panic

theorem Refines.bind {α β γ δ : Type} {x : HM α} {h : Heap} {R : Heap → α → β → Prop} {r : Res β}
    {f : α → HM γ} {g : β → Res δ} {S : Heap → γ → δ → Prop} (hx : Refines x h R r)
    (hf : ∀ h' a b, h <+: h' → r = .ok b → R h' a b → Refines (f a) h' S (g b)) : Refines (x >>= f) h S (r >>= g) := by
  obtain ⟨ra, h', e, hp, hr⟩ := hx
  cases r with
  | ok b =>
    obtain ⟨a, rfl, hR⟩ := hr
    obtain ⟨ra', h'', e', hp', hr'⟩ := hf h' a b hp rfl hR
    refine ⟨ra', h'', ?_, hp.trans hp', hr'⟩
    show HM.bind x f h = _
    simp only [HM.bind, e]
    exact e'
  | err er =>
    subst hr
    refine ⟨.err er, h', ?_, hp, rfl⟩
    show HM.bind x f h = _
    simp only [HM.bind, e]
  | panic =>
    subst hr
    refine ⟨.panic, h', ?_, hp, rfl⟩
    show HM.bind x f h = _
    simp only [HM.bind, e]

theorem Refines.pure {α β : Type} {h : Heap} {R : Heap → α → β → Prop} {a : α} {b : β} (hR : R h a b) :
    Refines (HM.pure a) h R (.ok b) := ⟨.ok a, h, rfl, List.prefix_refl _, a, rfl, hR⟩

/-- Relation of two pure results. -/
def RelRes {α β : Type} (R : α → β → Prop) (x : Res α) (y : Res β) : Prop :=
  match x, y with
  | .ok a, .ok b => R a b
  | .err e, .err e' => e = e'
  | .panic, .panic => True
  | _, _ => False

theorem Refines.lift {α β : Type} {h : Heap} {R : Heap → α → β → Prop} {x : Res α} {y : Res β} (hR : RelRes (R h) x y) :
    Refines (HM.lift x) h R y := by
  refine ⟨x, h, rfl, List.prefix_refl _, ?_⟩
  cases x <;> cases y <;> simp_all [RelRes]

theorem RelRes.refl {α : Type} (x : Res α) : RelRes (fun a b => a = b) x x := by
  cases x <;> simp [RelRes]

/-- Reading a cell that is known. -/
theorem read_bind {β δ : Type} {h : Heap} {a : Addr} {c : Cell} (hc : h[a]? = some c) {f : Cell → HM β} {S : Heap → β → δ → Prop} {r : Res δ}
    (hf : Refines (f c) h S r) : Refines (HM.read a >>= f) h S r := by
  obtain ⟨ra, h', e, hp, hr⟩ := hf
  refine ⟨ra, h', ?_, hp, hr⟩
  show HM.bind _ f h = _
  simp only [HM.bind, HM.read, hc]
  exact e

/-- Loops. -/
inductive RelList {α β : Type} (R : α → β → Prop) : List α → List β → Prop
  | nil : RelList R [] []
  | cons {a b as bs} : R a b → RelList R as bs → RelList R (a :: as) (b :: bs)

theorem RelList.length_eq {α β : Type} {R : α → β → Prop} {as : List α} {bs : List β} (h : RelList R as bs) : as.length = bs.length := by
  induction h with
  | nil => rfl
  | cons _ _ ih => simp [ih]

theorem RelList.mono {α β : Type} {R S : α → β → Prop} (hRS : ∀ a b, R a b → S a b) {as : List α} {bs : List β} (h : RelList R as bs) :
    RelList S as bs := by
  induction h with
  | nil => exact .nil
  | cons h1 _ ih => exact .cons (hRS _ _ h1) ih

theorem relList_repVs {h : Heap} {as : List HVal} {vs : List Value} : RelList (RepV h) as vs ↔ RepVs h as vs := by
  constructor
  · intro hr
    induction hr with
    | nil => exact .nil
    | cons h1 _ ih => exact .cons h1 ih
  · intro hr
    induction as generalizing vs with
    | nil => cases hr; exact .nil
    | cons a as ih => cases hr with | cons h1 h2 => exact .cons h1 (ih h2)

theorem Refines.forH {α β γ δ : Type} {f : α → HM β} {g : γ → Res δ} {P : Heap → α → γ → Prop} {R : Heap → β → δ → Prop}
    (hP : ∀ h h' a c, h <+: h' → P h a c → P h' a c)
    (hR : ∀ h h' b d, h <+: h' → R h b d → R h' b d)
    (hf : ∀ h a c, P h a c → Refines (f a) h R (g c)) (as : List α) (cs : List γ) (h : Heap) (hac : RelList (P h) as cs) :
    Refines (Verif.forH f as) h (fun h' => RelList (R h')) (forRes g cs) := by
  induction as generalizing h cs with
  | nil => cases hac; exact Refines.pure .nil
  | cons a as ih =>
    cases hac with
    | cons h1 h2 =>
      simp only [Verif.forH, forRes]
      refine Refines.bind (hf h a _ h1) ?_
      intro h' b d hp _ hb
      refine Refines.bind (ih _ h' (h2.mono (hP h h' · · hp))) ?_
      intro h'' bs ds hp' _ hbs
      exact Refines.pure (.cons (hR _ _ _ _ hp' hb) hbs)

theorem getIdx_rel {α β : Type} {R : α → β → Prop} {as : List α} {bs : List β} (h : RelList R as bs) (i : Nat) :
    RelRes R (getIdx as i) (getIdx bs i) := by
  induction h generalizing i with
  | nil => simp [getIdx, RelRes]
  | cons h1 _ ih =>
    cases i with
    | zero => simpa [getIdx, RelRes] using h1
    | succ i => simpa [getIdx] using ih i

theorem forRes_rel {α β γ δ : Type} {R : α → β → Prop} {S : γ → δ → Prop} {f : α → Res γ} {g : β → Res δ}
    (hfg : ∀ a b, R a b → RelRes S (f a) (g b)) {as : List α} {bs : List β} (h : RelList R as bs) :
    RelRes (RelList S) (forRes f as) (forRes g bs) := by
  induction h with
  | nil => exact RelList.nil
  | @cons a b as bs h1 _ ih =>
    simp only [forRes]
    have h2 := hfg a b h1
    cases ha : f a <;> cases hb : g b <;> simp_all [RelRes]
    cases hc : forRes f as <;> cases hd : forRes g bs <;> simp_all
    exact .cons h2 ih

theorem hbuildSExpr_refines {h : Heap} {hd : Hdr} {arr : Addr} {ops : List Str} {hex : List (List HVal)} {ex : List (List Value)}
    (hr : RelList (RepVs h) hex ex) (i : Nat) :
    Refines (hbuildSExpr hd arr ops hex i) h RepV (buildSExpr hd ops ex i) := by
  have hargs : RelRes (RepVs h) (forRes (fun alts : List HVal => getIdx alts (idx i alts.length)) hex)
      (forRes (fun alts : List Value => getIdx alts (idx i alts.length)) ex) := by
    have := forRes_rel (R := RepVs h) (S := RepV h) (f := fun alts : List HVal => getIdx alts (idx i alts.length))
      (g := fun alts : List Value => getIdx alts (idx i alts.length)) (by
        intro a b hab
        rw [← relList_repVs] at hab
        rw [hab.length_eq]
        exact getIdx_rel hab _) hr
    revert this
    cases forRes (fun alts : List HVal => getIdx alts (idx i alts.length)) hex <;>
      cases forRes (fun alts : List Value => getIdx alts (idx i alts.length)) ex <;>
      simp [RelRes, relList_repVs]
  simp only [hbuildSExpr, buildSExpr]
  cases ho : getIdx ops (idx i ops.length) with
  | err e =>
    refine ⟨.err e, h ++ [.sexpr hd arr], ?_, List.prefix_append _ _, rfl⟩
    simp [bind, HM.bind, HM.alloc, HM.lift]
  | panic =>
    refine ⟨.panic, h ++ [.sexpr hd arr], ?_, List.prefix_append _ _, rfl⟩
    simp [bind, HM.bind, HM.alloc, HM.lift]
  | ok o =>
    rw [Res.bind_ok]
    cases hh : forRes (fun alts : List HVal => getIdx alts (idx i alts.length)) hex with
    | err e =>
      rw [hh] at hargs
      cases hv : forRes (fun alts : List Value => getIdx alts (idx i alts.length)) ex <;> rw [hv] at hargs <;> simp [RelRes] at hargs
      subst hargs
      refine ⟨.err e, h ++ [.sexpr { hd with op := .opcode o } arr], ?_, List.prefix_append _ _, rfl⟩
      simp [bind, HM.bind, HM.alloc, HM.lift, HM.write]
    | panic =>
      rw [hh] at hargs
      cases hv : forRes (fun alts : List Value => getIdx alts (idx i alts.length)) ex <;> rw [hv] at hargs <;> simp [RelRes] at hargs
      refine ⟨.panic, h ++ [.sexpr { hd with op := .opcode o } arr], ?_, List.prefix_append _ _, rfl⟩
      simp [bind, HM.bind, HM.alloc, HM.lift, HM.write]
    | ok args =>
      rw [hh] at hargs
      cases hv : forRes (fun alts : List Value => getIdx alts (idx i alts.length)) ex <;> rw [hv] at hargs <;> simp [RelRes] at hargs
      rename_i vs
      refine ⟨.ok (.sexpr h.length), h ++ [.sexpr { hd with op := .opcode o } (h.length + 1), .values args], ?_,
        List.prefix_append _ _, .sexpr h.length, rfl, ?_⟩
      · simp [bind, HM.bind, HM.alloc, HM.lift, HM.write, HM.pure]
      · refine .sexpr (arr := h.length + 1) (hvs := args) (by simp) (by simp) (RepVs_mono (List.prefix_append _ _) hargs)

theorem expandvalue_length_one {v : Value} {vs : List Value} (h : expandvalue v = .ok vs) (h1 : vs.length = 1) : vs = [v] := by
  have hm := expandvalue_ok_meaningful v vs h
  rcases expandvalue_meaningful v hm with ⟨_, e⟩ | ⟨_, _, _, _, _, e⟩
  · rw [e] at h
    simp only [Res.ok.injEq] at h
    subst h
    simp only [List.length_map, List.length_range] at h1
    have := (count_eq_one (sizes_ge hm)).1 h1
    simp [h1, pick_of_no_sizes hm this]
  · rw [e] at h; simp at h

/-- Result relation for values: representation, and sharing when there is nothing to expand. -/
def RV (hv : HVal) (h : Heap) (hvs : List HVal) (vs : List Value) : Prop :=
  RepVs h hvs vs ∧ (hvs.length = 1 → hvs = [hv])

theorem relList_self_range {h : Heap} (n : Nat) : RelList (fun (a b : Nat) => a = b) (List.range n) (List.range n) := by
  generalize List.range n = l
  induction l with
  | nil => exact .nil
  | cons a l ih => exact .cons rfl ih

theorem hexpandargs_refines {ev : HVal → HM (List HVal)} (as : List HVal) (vs : List Value)
    (hev : ∀ h' a v, v ∈ vs → RepV h' a v → Refines (ev a) h' (RV a) (expandvalue v)) :
    ∀ n h, RepVs h as vs → Refines (hexpandargs ev n as) h
      (fun h' x y => x.1 = y.1 ∧ RelList (RepVs h') x.2 y.2) (expandargs n vs) := by
  induction as generalizing vs with
  | nil =>
    intro n h hr
    cases hr
    exact Refines.pure ⟨rfl, .nil⟩
  | cons a as ih =>
    intro n h hr
    cases hr with
    | cons h1 h2 =>
      simp only [hexpandargs, expandargs]
      refine Refines.bind (hev h a _ (by simp) h1) ?_
      intro h' hvs vs' hp _ hrv
      have hlen : hvs.length = vs'.length := (relList_repVs.2 hrv.1).length_eq
      rw [hlen]
      refine Refines.bind (Refines.lift (R := fun _ a b => a = b) (RelRes.refl _)) ?_
      rintro h'' n' _ hp' _ rfl
      refine Refines.bind (ih _ (fun h' a v hv => hev h' a v (by simp [hv])) n' h'' (RepVs_mono (hp.trans hp') h2)) ?_
      rintro h3 ⟨m, rest⟩ ⟨m', rest'⟩ hp3 _ ⟨e, hrest⟩
      simp only at e hrest
      subst e
      exact Refines.pure ⟨rfl, .cons (RepVs_mono (hp'.trans hp3) hrv.1) hrest⟩

theorem depth_le_depths {v : Value} {vs : List Value} (h : v ∈ vs) : depth v ≤ depth.depths vs := by
  induction vs with
  | nil => simp at h
  | cons w vs ih =>
    simp only [List.mem_cons] at h
    simp only [depth.depths]
    rcases h with rfl | h
    · omega
    · have := ih h; omega

theorem hexpandvalue_refines (fuel : Nat) : ∀ (v : Value) (h : Heap) (hv : HVal), depth v ≤ fuel → RepV h hv v →
    Refines (hexpandvalue fuel hv) h (RV hv) (expandvalue v) := by
  induction fuel with
  | zero =>
    intro v h hv hd
    cases v <;> simp [depth] at hd
  | succ fuel ih =>
    intro v h hv hd hr
    cases hr with
    | nil => exact Refines.lift rfl
    | expr e => exact Refines.pure ⟨.cons (.expr e) .nil, fun _ => rfl⟩
    | var x => exact Refines.pure ⟨.cons (.var x) .nil, fun _ => rfl⟩
    | @sexpr p hd' arr hvs vs h1 h2 h3 =>
      have hdep : ∀ v ∈ vs, depth v ≤ fuel := by
        intro v hv
        have := depth_le_depths hv
        simp only [depth] at hd
        omega
      have key : ∀ r, expandvalue (.sexpr hd' vs) = r → Refines (hexpandvalue (fuel + 1) (.sexpr p)) h (RV (.sexpr p)) r := by
        intro r hr
        subst hr
        simp only [hexpandvalue, expandvalue]
        refine read_bind h1 ?_
        simp only
        refine Refines.bind (Refines.lift (R := fun _ a b => a = b) (RelRes.refl _)) ?_
        rintro h' ops _ hp hops rfl
        refine read_bind (getElem?_of_prefix hp h2) ?_
        simp only
        refine Refines.bind (hexpandargs_refines (ev := hexpandvalue fuel) hvs vs
          (fun h' a v hv hr => ih v h' a (hdep v hv) hr) ops.length h' (RepVs_mono hp h3)) ?_
        rintro h'' ⟨n, hex⟩ ⟨n', ex⟩ hp' hargs ⟨e, hex'⟩
        simp only at e hex'
        subst e
        simp only
        by_cases hn : n = 1
        · rw [if_pos hn, if_pos hn]
          exact Refines.pure ⟨.cons (RepV_mono (hp.trans hp') (.sexpr h1 h2 h3)) .nil, fun _ => rfl⟩
        · rw [if_neg hn, if_neg hn]
          have hfor := Refines.forH (f := hbuildSExpr hd' arr ops hex) (g := buildSExpr hd' ops ex)
            (P := fun h (a b : Nat) => a = b ∧ RelList (RepVs h) hex ex) (R := RepV)
            (by
              rintro h h' a b hp ⟨e, hr⟩
              exact ⟨e, hr.mono fun _ _ => RepVs_mono hp⟩)
            (by intro h h' b d hp; exact RepV_mono hp)
            (by rintro h a _ ⟨rfl, hr⟩; exact hbuildSExpr_refines hr a)
            (List.range n) (List.range n) h''
            ((relList_self_range (h := h'') n).mono fun a b hab => ⟨hab, hex'⟩)
          obtain ⟨ra, h3', e1, e2, e3⟩ := hfor
          refine ⟨ra, h3', e1, e2, ?_⟩
          cases hfr : forRes (buildSExpr hd' ops ex) (List.range n) with
          | err e => rw [hfr] at e3; exact e3
          | panic => rw [hfr] at e3; exact e3
          | ok out =>
            rw [hfr] at e3
            obtain ⟨a, ha, hrel⟩ := e3
            refine ⟨a, ha, relList_repVs.1 hrel, ?_⟩
            intro hl
            exfalso
            rw [hrel.length_eq] at hl
            rw [forRes_eq_ok] at hfr
            have := congrArg List.length hfr
            simp only [List.length_map, List.length_range] at this
            omega
      exact key _ rfl

theorem RepRule_mono {h h' : Heap} (hp : h <+: h') {p : Addr} {r : Rule} (hr : RepRule h p r) : RepRule h' p r := by
  obtain ⟨m, res, h1, h2, h3⟩ := hr
  exact ⟨m, res, getElem?_of_prefix hp h1, RepV_mono hp h2, RepV_mono hp h3⟩

theorem relList_repRules {h : Heap} {as : List Addr} {vs : List Rule} : RelList (RepRule h) as vs ↔ RepRules h as vs := by
  constructor <;>
  · intro hr
    induction hr with
    | nil => exact .nil
    | cons h1 _ ih => exact .cons h1 ih

/-- Result relation for rules. -/
def RR (p : Addr) (h : Heap) (ps : List Addr) (rs : List Rule) : Prop :=
  RelList (RepRule h) ps rs ∧ (ps.length = 1 → ps = [p])

theorem hexpandrule_refines (fuel : Nat) (r : Rule) (h : Heap) (p : Addr) (h1 : depth r.match ≤ fuel) (h2 : depth r.result ≤ fuel)
    (hr : RepRule h p r) : Refines (hexpandrule fuel p) h (RR p) (expandrule r) := by
  obtain ⟨m, res, hc, hm, hres⟩ := hr
  simp only [hexpandrule, expandrule]
  refine read_bind hc ?_
  simp only
  refine Refines.bind (hexpandvalue_refines fuel _ h m h1 hm) ?_
  intro h' hms ms hp _ hmr
  refine Refines.bind (hexpandvalue_refines fuel _ h' res h2 (RepV_mono hp hres)) ?_
  intro h'' hrs rs hp' _ hrr
  have hmr' := relList_repVs.2 (RepVs_mono hp' hmr.1)
  have hrr' := relList_repVs.2 hrr.1
  rw [hmr'.length_eq, hrr'.length_eq]
  refine Refines.bind (Refines.lift (R := fun _ a b => a = b) (RelRes.refl _)) ?_
  rintro h3 n _ hp3 _ rfl
  by_cases hn : n = 1
  · rw [if_pos hn, if_pos hn]
    exact Refines.pure ⟨.cons (RepRule_mono ((hp.trans hp').trans hp3) ⟨m, res, hc, hm, hres⟩) .nil, fun _ => rfl⟩
  · rw [if_neg hn, if_neg hn]
    have hfor := Refines.forH (f := hbuildRule r.condition r.block hms hrs) (g := buildRule r ms rs)
      (P := fun h (a b : Nat) => a = b ∧ RelList (RepV h) hms ms ∧ RelList (RepV h) hrs rs) (R := RepRule)
      (by
        rintro h h' a b hp ⟨e, ha, hb⟩
        exact ⟨e, ha.mono fun _ _ => RepV_mono hp, hb.mono fun _ _ => RepV_mono hp⟩)
      (by intro h h' b d hp; exact RepRule_mono hp)
      (by
        rintro h i _ ⟨rfl, ha, hb⟩
        simp only [hbuildRule, buildRule]
        refine Refines.bind (Refines.lift (R := fun h a b => RepV h a b) (by
          rw [ha.length_eq]; exact getIdx_rel ha _)) ?_
        intro h' a b hp _ hab
        refine Refines.bind (Refines.lift (R := fun h a b => RepV h a b) (by
          rw [hb.length_eq]; exact getIdx_rel (hb.mono fun _ _ => RepV_mono hp) _)) ?_
        intro h'' a' b' hp' _ hab'
        refine ⟨_, _, rfl, List.prefix_append _ _, h''.length, rfl, ?_⟩
        exact ⟨a, a', by simp, RepV_mono (List.prefix_append _ _) (RepV_mono hp' hab), RepV_mono (List.prefix_append _ _) hab'⟩)
      (List.range n) (List.range n) h3
      ((relList_self_range (h := h'') n).mono fun a b hab =>
        ⟨hab, hmr'.mono fun _ _ => RepV_mono hp3, hrr'.mono fun _ _ => RepV_mono hp3⟩)
    obtain ⟨ra, h3', e1, e2, e3⟩ := hfor
    refine ⟨ra, h3', e1, e2, ?_⟩
    cases hfr : forRes (buildRule r ms rs) (List.range n) with
    | err e => rw [hfr] at e3; exact e3
    | panic => rw [hfr] at e3; exact e3
    | ok out =>
      rw [hfr] at e3
      obtain ⟨a, ha, hrel⟩ := e3
      refine ⟨a, ha, hrel, ?_⟩
      intro hl
      exfalso
      rw [hrel.length_eq] at hl
      rw [forRes_eq_ok] at hfr
      have := congrArg List.length hfr
      simp only [List.length_map, List.length_range] at this
      omega

theorem RelList.append {α β : Type} {R : α → β → Prop} {as cs : List α} {bs ds : List β} (h : RelList R as bs) (h' : RelList R cs ds) :
    RelList R (as ++ cs) (bs ++ ds) := by
  induction h with
  | nil => exact h'
  | cons h1 _ ih => exact .cons h1 ih

/-- The groups of pointers produced for each rule pointer: a group of one is the original pointer. -/
inductive Groups : List Addr → List (List Addr) → Prop
  | nil : Groups [] []
  | cons {p ps g gs} : (g.length = 1 → g = [p]) → Groups ps gs → Groups (p :: ps) (g :: gs)

theorem hexpandrules_refines (fuel : Nat) (ps : List Addr) (rs : List Rule) (h : Heap)
    (hd : ∀ r ∈ rs, depth r.match ≤ fuel ∧ depth r.result ≤ fuel) (hr : RelList (RepRule h) ps rs) :
    Refines (forH (hexpandrule fuel) ps) h (fun h' gs xss => RelList (RelList (RepRule h')) gs xss ∧ Groups ps gs)
      (forRes expandrule rs) := by
  induction ps generalizing rs h with
  | nil => cases hr; exact Refines.pure ⟨.nil, .nil⟩
  | cons p ps ih =>
    cases hr with
    | cons h1 h2 =>
      simp only [List.forall_mem_cons] at hd
      simp only [forH, forRes]
      refine Refines.bind (hexpandrule_refines fuel _ h p hd.1.1 hd.1.2 h1) ?_
      intro h' g xs hp _ hg
      refine Refines.bind (ih _ h' hd.2 (h2.mono fun _ _ => RepRule_mono hp)) ?_
      rintro h'' gs xss hp' _ ⟨hgs, hgr⟩
      exact Refines.pure ⟨.cons (hg.1.mono fun _ _ => RepRule_mono hp') hgs, .cons hg.2 hgr⟩

theorem relList_flatten {α β : Type} {R : α → β → Prop} {as : List (List α)} {bs : List (List β)} (h : RelList (RelList R) as bs) :
    RelList R as.flatten bs.flatten := by
  induction h with
  | nil => exact .nil
  | cons h1 _ ih => simpa using h1.append ih

theorem fileDepth_le {f : File} {fuel : Nat} (h : fileDepth f ≤ fuel) : ∀ r ∈ f.rules, depth r.match ≤ fuel ∧ depth r.result ≤ fuel := by
  unfold fileDepth at h
  generalize f.rules = l at h
  induction l with
  | nil => simp
  | cons r l ih =>
    simp only [List.map_cons, List.foldr_cons] at h
    simp only [List.forall_mem_cons]
    exact ⟨by omega, ih (by omega)⟩

/-! ### Overwriting the file cell -/

theorem getElem?_set_file {h : Heap} {p q : Addr} {arr : Addr} {c d : Cell} (hp : h[p]? = some (.file arr)) (hq : h[q]? = some d)
    (hd : ∀ x, d ≠ .file x) : (h.set p c)[q]? = some d := by
  have : p ≠ q := by
    rintro rfl
    rw [hp] at hq
    exact hd arr (by simpa using hq.symm)
  rw [List.getElem?_set_ne this, hq]

mutual
theorem RepV_set {h : Heap} {p arr : Addr} {c : Cell} (hp : h[p]? = some (.file arr)) {a : HVal} {v : Value} (hr : RepV h a v) :
    RepV (h.set p c) a v := by
  cases hr with
  | nil => exact .nil
  | expr e => exact .expr e
  | var x => exact .var x
  | sexpr h1 h2 h3 => exact .sexpr (getElem?_set_file hp h1 (by simp)) (getElem?_set_file hp h2 (by simp)) (RepVs_set hp h3)
theorem RepVs_set {h : Heap} {p arr : Addr} {c : Cell} (hp : h[p]? = some (.file arr)) {as : List HVal} {vs : List Value}
    (hr : RepVs h as vs) : RepVs (h.set p c) as vs := by
  cases hr with
  | nil => exact .nil
  | cons h1 h2 => exact .cons (RepV_set hp h1) (RepVs_set hp h2)
end

theorem RepRule_set {h : Heap} {p arr : Addr} {c : Cell} (hp : h[p]? = some (.file arr)) {a : Addr} {r : Rule} (hr : RepRule h a r) :
    RepRule (h.set p c) a r := by
  obtain ⟨m, res, h1, h2, h3⟩ := hr
  exact ⟨m, res, getElem?_set_file hp h1 (by simp), RepV_set hp h2, RepV_set hp h3⟩

theorem forRes_expandrule_ok {rs : List Rule} {xss : List (List Rule)} (h : forRes expandrule rs = .ok xss) :
    xss = rs.map expansion := by
  rw [forRes_eq_ok] at h
  induction rs generalizing xss with
  | nil => cases xss <;> simp_all
  | cons r rs ih =>
    cases xss with
    | nil => simp at h
    | cons x xss =>
      simp only [List.map_cons, List.cons.injEq] at h ⊢
      exact ⟨(expandrule_ok_iff.1 h.1).2.2, ih h.2⟩

theorem Groups.get {ps : List Addr} {gs : List (List Addr)} (h : Groups ps gs) {j : Nat} {p : Addr} {g : List Addr}
    (hp : ps[j]? = some p) (hg : gs[j]? = some g) (hl : g.length = 1) : g = [p] := by
  induction h generalizing j with
  | nil => simp at hp
  | cons h1 _ ih =>
    cases j with
    | zero => simp at hp hg; subst hp; subst hg; exact h1 hl
    | succ j => exact ih (by simpa using hp) (by simpa using hg)

theorem RelList.get {α β : Type} {R : α → β → Prop} {as : List α} {bs : List β} (h : RelList R as bs) {j : Nat} {b : β}
    (hb : bs[j]? = some b) : ∃ a, as[j]? = some a ∧ R a b := by
  induction h generalizing j with
  | nil => simp at hb
  | cons h1 _ ih =>
    cases j with
    | zero => simp at hb; subst hb; exact ⟨_, rfl, h1⟩
    | succ j => simpa using ih (by simpa using hb)

end Verif
