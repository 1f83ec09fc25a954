import Verif.Spec.Crash
import Verif.Proof.Log
import Verif.Proof.Disk
/-! # Lemmas: the disk and the log of a stopped run -/
namespace Verif.Proof
open Verif Verif.Spec

theorem effects_append (cwd : List Str) (a b : List Event) : effects cwd (a ++ b) = effects cwd a ++ effects cwd b := by
  induction a with
  | nil => rfl
  | cons x a ih => simp [effects, ih]

theorem log_map_disk (l : List DiskStep) : (l.map Effect.disk).filterMap Effect.log? = [] := by
  induction l with
  | nil => rfl
  | cons x l ih => simp [Effect.log?, ih]

theorem log_map_log (l : Str) : (l.map Effect.log).filterMap Effect.log? = l := by
  induction l with
  | nil => rfl
  | cons x l ih => simp [Effect.log?, ih]

theorem disk_map_log (l : Str) : (l.map Effect.log).filterMap Effect.disk? = [] := by
  induction l with
  | nil => rfl
  | cons x l ih => simp [Effect.disk?, ih]

theorem disk_map_disk (l : List DiskStep) : (l.map Effect.disk).filterMap Effect.disk? = l := by
  induction l with
  | nil => rfl
  | cons x l ih => simp [Effect.disk?, ih]

theorem effects_log (cwd : List Str) (tr : List Event) : logAfter (effects cwd tr) = tr.flatMap eventText := by
  induction tr with
  | nil => rfl
  | cons x tr ih =>
    rw [effects, logAfter, List.filterMap_append, List.filterMap_append, log_map_disk, log_map_log, List.flatMap_cons]
    rw [logAfter] at ih
    rw [ih]; rfl

theorem effects_disk (cwd : List Str) (tr : List Event) : (effects cwd tr).filterMap Effect.disk? = diskSteps cwd tr := by
  induction tr with
  | nil => rfl
  | cons x tr ih =>
    rw [effects, List.filterMap_append, List.filterMap_append, disk_map_disk, disk_map_log, ih, List.append_nil]
    exact (diskSteps_append cwd [x] tr).symm

theorem texts_messages (tr : List Event) : tr.flatMap eventText = (tr.filterMap Event.message).flatMap logLine := by
  induction tr with
  | nil => rfl
  | cons x tr ih =>
    rw [List.flatMap_cons, ih, eventText]
    cases hm : x.message with
    | none => rw [List.filterMap_cons, hm]; rfl
    | some m => rw [List.filterMap_cons, hm, List.flatMap_cons]; rfl

/-- The text of an event of one line: nothing, and then the event is a write; or a line without a newline before its end. -/
theorem eventText_line {ev : Event} (h : ∀ m, ev.message = some m → '\n' ∉ m) : eventText ev = [] ∨ ∃ l, '\n' ∉ l ∧ eventText ev = l ++ ['\n'] := by
  rw [eventText]
  cases hm : ev.message with
  | none => exact .inl rfl
  | some m =>
    have hn := h m hm
    refine .inr ⟨"ssarules: ".toList ++ m, nl_append (by decide +kernel) hn, ?_⟩
    show entryText m = _
    have hl : m.getLast? ≠ some '\n' := fun hl => hn (List.mem_of_getLast? hl)
    unfold entryText
    rw [if_neg hl]

/-- Whole lines at the beginning of a line and more are nothing, or the line and whole lines at the beginning of the rest. -/
theorem whole_cons {l text rest : Str} (hl : '\n' ∉ l) (hw : WholeLines text) (hp : text <+: l ++ ['\n'] ++ rest) :
    text = [] ∨ ∃ t, text = l ++ ['\n'] ++ t ∧ WholeLines t ∧ t <+: rest := by
  rcases hw with rfl | hw
  · exact .inl rfl
  right
  rcases List.prefix_or_prefix_of_prefix hp (List.prefix_append (l ++ ['\n']) rest) with h | h
  · obtain ⟨u, hu⟩ := h
    rcases List.eq_nil_or_concat u with rfl | ⟨u', c, hc⟩
    · refine ⟨[], ?_, .inl rfl, List.nil_prefix⟩
      simpa using hu
    · exfalso
      rw [hc, List.concat_eq_append, ← List.append_assoc] at hu
      have := (List.append_inj' hu rfl).1
      apply hl
      rw [← this]
      exact List.mem_append_left _ (List.mem_of_getLast? hw)
  · obtain ⟨t, rfl⟩ := h
    refine ⟨t, rfl, ?_, (List.prefix_append_right_inj _).1 hp⟩
    rcases List.eq_nil_or_concat t with rfl | ⟨t', c, hc⟩
    · exact .inl rfl
    · right
      rw [hc, List.concat_eq_append, ← List.append_assoc, List.getLast?_concat] at hw
      rw [hc, List.concat_eq_append, List.getLast?_concat]; exact hw

/-- Whole lines in the log of a stopped run are the texts of a beginning of the events, and all the steps of these have been done. -/
theorem stopped_lines (cwd : List Str) (tr : List Event) : ∀ (k : Nat) (text : Str), OneLiners tr → WholeLines text →
    text <+: logAfter ((effects cwd tr).take k) →
    ∃ done rest k', tr = done ++ rest ∧ text = done.flatMap eventText ∧ (effects cwd tr).take k = effects cwd done ++ (effects cwd rest).take k' := by
  induction tr with
  | nil =>
    intro k text _ _ hp
    refine ⟨[], [], k, rfl, ?_, rfl⟩
    simpa [effects, logAfter] using hp
  | cons ev tr ih =>
    intro k text h1 hw hp
    by_cases ht : text = []
    · subst ht; exact ⟨[], ev :: tr, k, rfl, rfl, rfl⟩
    have h1' : OneLiners tr := fun e he => h1 e (by simp [he])
    have hev := eventText_line (h1 ev (by simp))
    generalize hE : (diskSteps cwd [ev]).map Effect.disk ++ (eventText ev).map Effect.log = E at *
    have heff : effects cwd (ev :: tr) = E ++ effects cwd tr := by rw [effects, hE]
    rw [heff] at hp ⊢
    have hlogE : E.filterMap Effect.log? = eventText ev := by rw [← hE, List.filterMap_append, log_map_disk, log_map_log]; rfl
    by_cases hk : E.length ≤ k
    · have htake : (E ++ effects cwd tr).take k = E ++ (effects cwd tr).take (k - E.length) := by
        rw [List.take_append, List.take_of_length_le hk]
      rw [htake] at hp ⊢
      rw [logAfter, List.filterMap_append, hlogE] at hp
      have key : ∃ t, text = eventText ev ++ t ∧ WholeLines t ∧ t <+: logAfter ((effects cwd tr).take (k - E.length)) := by
        rcases hev with e | ⟨l, hl, e⟩
        · rw [e] at hp ⊢; exact ⟨text, rfl, hw, hp⟩
        · rw [e] at hp ⊢
          rcases whole_cons hl hw hp with h | h
          · exact absurd h ht
          · exact h
      obtain ⟨t, rfl, hwt, hpt⟩ := key
      obtain ⟨done, rest, k', rfl, rfl, e3⟩ := ih _ t h1' hwt hpt
      refine ⟨ev :: done, rest, k', rfl, rfl, ?_⟩
      rw [e3, effects, hE, List.append_assoc]
    · exfalso
      rw [List.take_append_of_le_length (by omega)] at hp
      have hnl : '\n' ∉ logAfter (E.take k) := by
        rcases hev with e | ⟨l, hl, e⟩
        · have : logAfter (E.take k) <+: eventText ev := by
            rw [← hlogE]; exact (List.take_prefix k E).filterMap _
          rw [e] at this
          rw [List.prefix_nil.1 this]; simp
        · have hE' : E = ((diskSteps cwd [ev]).map Effect.disk ++ l.map Effect.log) ++ [Effect.log '\n'] := by
            rw [← hE, e]; simp
          have hlt : k ≤ ((diskSteps cwd [ev]).map Effect.disk ++ l.map Effect.log).length := by
            rw [hE'] at hk; simp only [List.length_append, List.length_cons, List.length_nil] at hk ⊢; omega
          have : logAfter (E.take k) <+: l := by
            rw [hE', List.take_append_of_le_length hlt]
            have h2 := (List.take_prefix k ((diskSteps cwd [ev]).map Effect.disk ++ l.map Effect.log)).filterMap Effect.log?
            rw [List.filterMap_append, log_map_disk, log_map_log] at h2
            exact h2
          exact fun hm => hl (this.subset hm)
      rcases hw with h | h
      · exact ht h
      · exact hnl (hp.subset (List.mem_of_getLast? h))

/-- The place a step changes. -/
def stepPlace : DiskStep → List Str
  | .create p => p
  | .append p _ => p

theorem run_away {p : List Str} (steps : List DiskStep) : ∀ d : Disk, (∀ s ∈ steps, stepPlace s ≠ p) → d.run steps p = d p := by
  induction steps with
  | nil => intro d _; rfl
  | cons s steps ih =>
    intro d h
    have : d.run (s :: steps) = (d.step s).run steps := rfl
    rw [this, ih _ (fun s hs => h s (by simp [hs]))]
    have hs := h s (by simp)
    cases s with
    | create q => exact if_neg (fun e => hs e.symm)
    | append q b => exact if_neg (fun e => hs e.symm)

theorem diskSteps_places {cwd : List Str} {tr : List Event} : ∀ s ∈ diskSteps cwd tr, ∃ n c, (n, c) ∈ writesOf tr ∧ stepPlace s = locate cwd n := by
  induction tr with
  | nil => intro s hs; simp [diskSteps] at hs
  | cons ev tr ih =>
    intro s hs
    rw [show ev :: tr = [ev] ++ tr from rfl, diskSteps_append] at hs
    rw [show ev :: tr = [ev] ++ tr from rfl, writesOf_append]
    rcases List.mem_append.1 hs with h | h
    · cases ev with
      | write n c =>
        refine ⟨n, c, by simp [writesOf], ?_⟩
        simp only [diskSteps, List.append_nil, writeSteps, List.mem_cons, List.mem_map] at h
        rcases h with rfl | ⟨b, _, rfl⟩ <;> rfl
      | _ => simp [diskSteps] at h
    · obtain ⟨n, c, h1, h2⟩ := ih s h
      exact ⟨n, c, by simp [h1], h2⟩

/-- Before every message that a file has been written there is the write. -/
def WrittenAfter (tr : List Event) : Prop := ∀ p n rest, tr = p ++ .written n :: rest → ∃ s, Event.write n s ∈ p

theorem writtenAfter_append {a b} (ha : WrittenAfter a) (hb : WrittenAfter b) : WrittenAfter (a ++ b) := by
  intro p n rest h
  rcases append_cons_split h with ⟨q, h1, -⟩ | ⟨q, rfl, h2⟩
  · exact ha _ _ _ h1
  · obtain ⟨s, hs⟩ := hb _ _ _ h2
    exact ⟨s, by simp [hs]⟩

theorem writtenAfter_prefix {a b} (h : WrittenAfter (a ++ b)) : WrittenAfter a := by
  intro p n rest e
  exact h p n (rest ++ b) (by rw [e]; simp)

theorem writtenAfter_none {tr : List Event} (h : ∀ n, Event.written n ∉ tr) : WrittenAfter tr := by
  intro p n rest e
  exact absurd (by rw [e]; simp) (h n)

theorem writtenAfter_rules {outdir : Str} (rs : List Rule) : ∀ i, WrittenAfter (rulesEvents outdir i rs) := by
  induction rs with
  | nil => intro i; exact writtenAfter_none (by simp [rulesEvents])
  | cons r rs ih =>
    intro i
    rw [rulesEvents]
    refine writtenAfter_append ?_ (ih _)
    rw [ruleEvents]
    cases generate r with
    | panic => exact writtenAfter_none (by simp)
    | err e => exact writtenAfter_none (by simp)
    | ok s =>
      intro p n rest h
      match p, h with
      | [], h => simp at h
      | [x], h => simp at h
      | [x, y], h =>
        simp only [List.cons_append, List.nil_append, List.cons.injEq, Event.written.injEq] at h
        obtain ⟨rfl, rfl, rfl, -⟩ := h
        exact ⟨s, by simp⟩
      | x :: y :: z :: p, h => simp at h

theorem parsed_written (inputs : List Input) : ∀ files n, Event.written n ∉ parsedEvents inputs files := by
  induction inputs with
  | nil => intro files n; simp [parsedEvents]
  | cons inp inputs ih =>
    intro files n
    cases files with
    | nil => simp [parsedEvents]
    | cons f files => simp [parsedEvents, ih]

theorem entryOf_written {tr : List Event} {n : Str} (h : Entry.written n ∈ tr.filterMap entryOf) : Event.written n ∈ tr := by
  obtain ⟨ev, he, h⟩ := List.mem_filterMap.1 h
  cases ev <;> simp [entryOf] at h
  subst h; exact he

/-- The rule messages among the events. -/
def rulesIn (tr : List Event) : Nat := tr.countP fun | .rule _ => true | _ => false

theorem announced_entries (tr : List Event) : announced (tr.filterMap entryOf) = rulesIn tr := by
  induction tr with
  | nil => rfl
  | cons ev tr ih =>
    cases ev <;> simp only [List.filterMap_cons, entryOf, announced, rulesIn, List.countP_cons] at ih ⊢ <;> simp [ih]

theorem rulesIn_append (a b : List Event) : rulesIn (a ++ b) = rulesIn a + rulesIn b := List.countP_append

theorem rulesIn_parsed (inputs : List Input) : ∀ files, rulesIn (parsedEvents inputs files) = 0 := by
  induction inputs with
  | nil => intro files; simp [parsedEvents, rulesIn]
  | cons inp inputs ih =>
    intro files
    cases files with
    | nil => simp [parsedEvents, rulesIn]
    | cons f files => rw [parsedEvents]; simpa [rulesIn] using ih files

theorem rulesIn_prefix {a b : List Event} (h : a <+: b) : rulesIn a ≤ rulesIn b := h.sublist.countP_le

theorem rulesIn_rule (outdir : Str) (i : Nat) (r : Rule) : rulesIn (ruleEvents outdir i r) = 1 := by
  rw [ruleEvents]; cases generate r <;> rfl

/-- The messages about the rules before the last one announced are there. -/
theorem rules_before {outdir : Str} (rs : List Rule) : ∀ i done, done <+: rulesEvents outdir i rs → ∀ (j : Nat) r s, rs[j]? = some r → generate r = .ok s →
    j + 1 < rulesIn done → Event.written (joinPath outdir (scriptName (i + j))) ∈ done := by
  induction rs with
  | nil => intro i done _ j r s h; simp at h
  | cons r rs ih =>
    intro i done hp j r' s hj hg hc
    rw [rulesEvents] at hp
    rcases List.prefix_or_prefix_of_prefix hp (List.prefix_append _ _) with h | ⟨t, rfl⟩
    · have := rulesIn_prefix h
      rw [rulesIn_rule] at this
      omega
    · rw [rulesIn_append, rulesIn_rule] at hc
      cases j with
      | zero =>
        simp only [List.getElem?_cons_zero, Option.some.injEq] at hj
        subst hj
        refine List.mem_append_left _ ?_
        rw [ruleEvents, hg]; simp
      | succ j =>
        have := ih (i + 1) t ((List.prefix_append_right_inj _).1 hp) j r' s (by simpa using hj) hg (by omega)
        rw [show i + (j + 1) = i + 1 + j by omega]
        exact List.mem_append_right _ this

end Verif.Proof
