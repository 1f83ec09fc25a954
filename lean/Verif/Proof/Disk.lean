import Verif.Spec.Disk
import Verif.Proof.Path
/-! # Lemmas: the disk -/
namespace Verif.Proof
open Verif Verif.Spec

def place (cwd : List Str) (outdir : Str) (i : Nat) : List Str := locate cwd outdir ++ [scriptName i]

theorem isScriptPlace_iff {cwd outdir i p} : IsScriptPlace cwd outdir i p ↔ p = place cwd outdir i := by
  constructor
  · rintro ⟨n, hn, rfl⟩; rw [isScriptName_iff.1 hn]; rfl
  · rintro rfl; exact ⟨_, isScriptName_scriptName i, rfl⟩

theorem place_inj {cwd outdir i j} (h : place cwd outdir i = place cwd outdir j) : i = j := by
  have := List.append_cancel_left h
  simp only [List.cons.injEq, and_true] at this
  exact scriptName_inj this

def setAt (d : Disk) (p : List Str) (c : List UInt8) : Disk := fun q => if q = p then some c else d q

theorem run_append (d : Disk) (a b : List DiskStep) : d.run (a ++ b) = (d.run a).run b := by simp [Disk.run]

theorem run_puts (p : List Str) (bs : List UInt8) : ∀ (d : Disk) c, Disk.run (setAt d p c) (bs.map fun b => .append p b) = setAt d p (c ++ bs) := by
  induction bs with
  | nil => intro d c; simp [Disk.run]
  | cons b bs ih =>
    intro d c
    have : Disk.run (setAt d p c) ((b :: bs).map fun b => .append p b) =
        Disk.run (Disk.step (setAt d p c) (.append p b)) (bs.map fun b => .append p b) := rfl
    rw [this]
    have e : Disk.step (setAt d p c) (.append p b) = setAt d p (c ++ [b]) := by
      funext q
      simp only [Disk.step, setAt]
      split <;> simp
    rw [e, ih]; simp

theorem run_write_take (cwd : List Str) (n : Str) (bs : List UInt8) (d : Disk) (k : Nat) :
    d.run ((writeSteps cwd n bs).take k) = d ∨ ∃ part, part <+: bs ∧ d.run ((writeSteps cwd n bs).take k) = setAt d (locate cwd n) part := by
  cases k with
  | zero => left; rfl
  | succ k =>
    right
    refine ⟨bs.take k, List.take_prefix _ _, ?_⟩
    rw [writeSteps, List.take_succ_cons, ← List.map_take]
    exact run_puts _ _ d []

theorem run_write (cwd : List Str) (n : Str) (bs : List UInt8) (d : Disk) : d.run (writeSteps cwd n bs) = setAt d (locate cwd n) bs :=
  run_puts _ _ d []

theorem diskSteps_append (cwd : List Str) (a b : List Event) : diskSteps cwd (a ++ b) = diskSteps cwd a ++ diskSteps cwd b := by
  induction a with
  | nil => rfl
  | cons x a ih => cases x <;> simp [diskSteps, ih]

theorem diskSteps_nil {cwd : List Str} {tr : List Event} (h : writesOf tr = []) : diskSteps cwd tr = [] := by
  induction tr with
  | nil => rfl
  | cons x a ih =>
    cases x <;> first
      | exact ih h
      | simp [writesOf] at h

theorem diskSteps_rule (cwd : List Str) (outdir : Str) (i : Nat) (r : Rule) :
    (∃ s, generate r = .ok s ∧ diskSteps cwd (ruleEvents outdir i r) = writeSteps cwd (joinPath outdir (scriptName i)) (utf8 s)) ∨
    ((∀ s, generate r ≠ .ok s) ∧ diskSteps cwd (ruleEvents outdir i r) = []) := by
  rw [ruleEvents]
  cases generate r with
  | ok s => left; exact ⟨s, rfl, by simp [diskSteps]⟩
  | err e => right; exact ⟨by simp, rfl⟩
  | panic => right; exact ⟨by simp, rfl⟩

/-- The rules from number `i` on, stopped after `k` steps. -/
theorem rules_stopped (cwd : List Str) (outdir : Str) (rs : List Rule) : ∀ (i k : Nat) (d : Disk),
    ∃ m, (∀ t r s, t < m → rs[t]? = some r → generate r = .ok s →
        (d.run ((diskSteps cwd (rulesEvents outdir i rs)).take k)) (place cwd outdir (i + t)) = some (utf8 s)) ∧
      ((d.run ((diskSteps cwd (rulesEvents outdir i rs)).take k)) (place cwd outdir (i + m)) = d (place cwd outdir (i + m)) ∨
        ∃ r s part, rs[m]? = some r ∧ generate r = .ok s ∧ part <+: utf8 s ∧
          (d.run ((diskSteps cwd (rulesEvents outdir i rs)).take k)) (place cwd outdir (i + m)) = some part) ∧
      ∀ p, (∀ t r s, t ≤ m → rs[t]? = some r → generate r = .ok s → p ≠ place cwd outdir (i + t)) →
        (d.run ((diskSteps cwd (rulesEvents outdir i rs)).take k)) p = d p := by
  induction rs with
  | nil => intro i k d; exact ⟨0, by simp, by left; simp [rulesEvents, diskSteps, Disk.run], by simp [rulesEvents, diskSteps, Disk.run]⟩
  | cons r rs ih =>
    intro i k d
    rw [rulesEvents, diskSteps_append]
    generalize hS : diskSteps cwd (ruleEvents outdir i r) = S
    have hd := diskSteps_rule cwd outdir i r
    rw [hS] at hd
    have hloc : locate cwd (joinPath outdir (scriptName i)) = place cwd outdir i := locate_script cwd outdir i
    by_cases hk : k ≤ S.length
    · rw [List.take_append_of_le_length hk]
      rcases hd with ⟨s, hg, rfl⟩ | ⟨hg, rfl⟩
      · rcases run_write_take cwd (joinPath outdir (scriptName i)) (utf8 s) d k with e | ⟨part, hp, e⟩
        · rw [e]; exact ⟨0, by simp, .inl rfl, fun _ _ => rfl⟩
        · rw [e, hloc]
          refine ⟨0, by simp, .inr ⟨r, s, part, rfl, hg, hp, by simp [setAt]⟩, ?_⟩
          intro p h
          have := h 0 r s (Nat.le_refl 0) rfl hg
          rw [Nat.add_zero] at this
          simp [setAt, this]
      · refine ⟨0, by simp, .inl ?_, fun _ _ => ?_⟩ <;> simp [Disk.run]
    · have ht : (S ++ diskSteps cwd (rulesEvents outdir (i + 1) rs)).take k = S ++ (diskSteps cwd (rulesEvents outdir (i + 1) rs)).take (k - S.length) := by
        rw [List.take_append, List.take_of_length_le (by omega)]
      rw [ht, run_append]
      obtain ⟨m, h1, h2, h3⟩ := ih (i + 1) (k - S.length) (d.run S)
      have hdS : (d.run S) = d ∨ ∃ s, generate r = .ok s ∧ d.run S = setAt d (place cwd outdir i) (utf8 s) := by
        rcases hd with ⟨s, hg, rfl⟩ | ⟨hg, rfl⟩
        · right; exact ⟨s, hg, by rw [run_write, hloc]⟩
        · left; rfl
      have hne : ∀ t, place cwd outdir (i + 1 + t) ≠ place cwd outdir i := fun t h => by have := place_inj h; omega
      have hsame : ∀ t, d.run S (place cwd outdir (i + 1 + t)) = d (place cwd outdir (i + 1 + t)) := by
        intro t
        rcases hdS with e | ⟨s, _, e⟩
        · rw [e]
        · rw [e, setAt, if_neg (hne t)]
      have hidx : ∀ t, i + (t + 1) = i + 1 + t := fun t => by omega
      refine ⟨m + 1, ?_, ?_, ?_⟩
      · intro t r' s ht hr hg
        cases t with
        | zero =>
          simp only [List.getElem?_cons_zero, Option.some.injEq] at hr
          subst hr
          rw [show i + 0 = i from rfl, h3 _ (fun t _ _ _ _ _ h => hne t h.symm)]
          rcases hd with ⟨s', hg', rfl⟩ | ⟨hg', _⟩
          · rw [hg] at hg'; cases hg'
            rw [run_write, hloc]; simp [setAt]
          · exact absurd hg (hg' s)
        | succ t =>
          rw [hidx t]
          exact h1 t r' s (by omega) (by simpa using hr) hg
      · rw [hidx m]
        rcases h2 with h2 | ⟨r', s, part, hr, hg, hp, e⟩
        · left; rw [h2, hsame]
        · right; exact ⟨r', s, part, by simpa using hr, hg, hp, e⟩
      · intro p h
        rw [h3 p (fun t r' s ht hr hg => by rw [← hidx t]; exact h (t + 1) r' s (by omega) (by simpa using hr) hg)]
        rcases hdS with e | ⟨s, hg, e⟩
        · rw [e]
        · rw [e, setAt, if_neg]
          have := h 0 r s (by omega) rfl hg
          simpa using this

/-- The rules from number `i` on, not stopped. -/
theorem rules_finished (cwd : List Str) (outdir : Str) (rs : List Rule) : ∀ (i : Nat) (d : Disk),
    (∀ t r s, rs[t]? = some r → generate r = .ok s → (d.run (diskSteps cwd (rulesEvents outdir i rs))) (place cwd outdir (i + t)) = some (utf8 s)) ∧
    ∀ p, (∀ t r s, rs[t]? = some r → generate r = .ok s → p ≠ place cwd outdir (i + t)) →
        (d.run (diskSteps cwd (rulesEvents outdir i rs))) p = d p := by
  induction rs with
  | nil => intro i d; exact ⟨by simp, by simp [rulesEvents, diskSteps, Disk.run]⟩
  | cons r rs ih =>
    intro i d
    rw [rulesEvents, diskSteps_append, run_append]
    obtain ⟨h1, h3⟩ := ih (i + 1) (d.run (diskSteps cwd (ruleEvents outdir i r)))
    have hd := diskSteps_rule cwd outdir i r
    have hloc : locate cwd (joinPath outdir (scriptName i)) = place cwd outdir i := locate_script cwd outdir i
    have hne : ∀ t, place cwd outdir (i + 1 + t) ≠ place cwd outdir i := fun t h => by have := place_inj h; omega
    have hidx : ∀ t, i + (t + 1) = i + 1 + t := fun t => by omega
    refine ⟨?_, ?_⟩
    · intro t r' s hr hg
      cases t with
      | zero =>
        simp only [List.getElem?_cons_zero, Option.some.injEq] at hr
        subst hr
        rw [show i + 0 = i from rfl, h3 _ (fun t _ _ _ _ h => hne t h.symm)]
        rcases hd with ⟨s', hg', e⟩ | ⟨hg', _⟩
        · rw [hg] at hg'; cases hg'
          rw [e, run_write, hloc]; simp [setAt]
        · exact absurd hg (hg' s)
      | succ t => rw [hidx t]; exact h1 t r' s (by simpa using hr) hg
    · intro p h
      rw [h3 p (fun t r' s hr hg => by rw [← hidx t]; exact h (t + 1) r' s (by simpa using hr) hg)]
      rcases hd with ⟨s, hg, e⟩ | ⟨_, e⟩
      · rw [e, run_write, hloc, setAt, if_neg]
        have := h 0 r s rfl hg
        simpa using this
      · rw [e]; rfl

end Verif.Proof
