import Verif.Model.ExpandProg
/-! # Programs run alone -/
namespace Verif

namespace Prog

theorem exec_bind {α β : Type} (x : Prog α) (f : α → Prog β) : (x.bind f).exec = HM.bind x.exec fun a => (f a).exec := by
  induction x with
  | ret r => cases r <;> (funext h; rfl)
  | read a k ih =>
    funext h
    simp only [Prog.bind, Prog.exec, HM.bind]
    cases h[a]? with
    | none => rfl
    | some c => simp only [ih]; rfl
  | alloc c k ih => funext h; simp only [Prog.bind, Prog.exec, ih]; rfl
  | write a c k ih =>
    funext h
    simp only [Prog.bind, Prog.exec, HM.bind]
    by_cases ha : a < h.length
    · simp only [if_pos ha, ih]; rfl
    · simp only [if_neg ha]
  | stuck => funext h; rfl

theorem exec_bind' {α β : Type} (x : Prog α) (f : α → Prog β) : (x >>= f).exec = (x.exec >>= fun a => (f a).exec : HM β) := exec_bind x f
theorem exec_pure {α : Type} (a : α) : (pure a : Prog α).exec = HM.pure a := by funext h; rfl
theorem exec_ret {α : Type} (r : Res α) : (Prog.ret r).exec = HM.lift r := by funext h; rfl
theorem exec_get (a : Addr) : (get a).exec = HM.read a := by funext h; simp only [get, exec, HM.read]; cases h[a]? <;> rfl
theorem exec_new (c : Cell) : (new c).exec = HM.alloc c := by funext h; rfl
theorem exec_put (a : Addr) (c : Cell) : (put a c).exec = HM.write a c := by funext h; rfl
theorem exec_stuck {α : Type} : (Prog.stuck : Prog α).exec = HM.stuck := by funext h; rfl

end Prog
open Prog

theorem exec_forP {α β : Type} (f : α → Prog β) (xs : List α) : (forP f xs).exec = forH (fun a => (f a).exec) xs := by
  induction xs with
  | nil => funext h; rfl
  | cons x xs ih => simp only [forP, forH, exec_bind', ih, exec_pure]

theorem exec_buildSExpr (hd : Hdr) (arr : Addr) (ops : List Str) (ex : List (List HVal)) (i : Nat) :
    (pbuildSExpr hd arr ops ex i).exec = hbuildSExpr hd arr ops ex i := by
  simp only [pbuildSExpr, hbuildSExpr, exec_bind', exec_pure, exec_ret, exec_new, exec_put]

theorem exec_expandargs {ev : HVal → Prog (List HVal)} (as : List HVal) (n : Nat) :
    (pexpandargs ev n as).exec = hexpandargs (fun a => (ev a).exec) n as := by
  induction as generalizing n with
  | nil => funext h; rfl
  | cons a as ih => simp only [pexpandargs, hexpandargs, exec_bind', exec_pure, exec_ret, ih]

theorem exec_expandvalue (fuel : Nat) (v : HVal) : (pexpandvalue fuel v).exec = hexpandvalue fuel v := by
  induction fuel generalizing v with
  | zero => funext h; rfl
  | succ fuel ih =>
    cases v with
    | nil => funext h; rfl
    | expr e => funext h; rfl
    | var x => funext h; rfl
    | sexpr p =>
      simp only [pexpandvalue, hexpandvalue, exec_bind', exec_get]
      congr 1
      funext c
      cases c with
      | sexpr hd arr =>
        simp only [exec_bind', exec_ret, exec_get]
        congr 1
        funext ops
        congr 1
        funext c
        cases c with
        | values args =>
          simp only [exec_bind', exec_expandargs, ih]
          congr 1
          funext r
          split
          · rfl
          · rw [exec_forP]; congr 1; funext i; exact exec_buildSExpr _ _ _ _ i
        | _ => rfl
      | _ => rfl

theorem exec_expandrule (fuel : Nat) (p : Addr) : (pexpandrule fuel p).exec = hexpandrule fuel p := by
  simp only [pexpandrule, hexpandrule, exec_bind', exec_get]
  congr 1
  funext c
  cases c with
  | rule m cond block res =>
    simp only [exec_bind', exec_expandvalue, exec_ret]
    congr 1
    funext ms
    congr 1
    funext rs
    congr 1
    funext n
    split
    · rfl
    · rw [exec_forP]; congr 1; funext i; simp only [pbuildRule, hbuildRule, exec_bind', exec_ret, exec_new]
  | _ => rfl

/-- Run alone, the program is the function of `Model/ExpandHeap.lean`. -/
theorem exec_expandAlternates (fuel : Nat) (p : Addr) : (pexpandAlternates fuel p).exec = hexpandAlternates fuel p := by
  simp only [pexpandAlternates, hexpandAlternates, exec_bind', exec_get]
  congr 1
  funext c
  cases c with
  | file arr =>
    simp only [exec_bind', exec_get]
    congr 1
    funext c
    cases c with
    | rules rs =>
      simp only [exec_bind', pexpandrules, hexpandrules, exec_forP, exec_new, exec_put, exec_pure]
      have : (fun a => (pexpandrule fuel a).exec) = hexpandrule fuel := by funext a; exact exec_expandrule fuel a
      rw [this]
    | _ => rfl
  | _ => rfl

end Verif
