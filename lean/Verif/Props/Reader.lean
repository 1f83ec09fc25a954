import Verif.Proof.Reader
import Verif.Proof.Cmd
/-!
# C63: what a reader delivers is all that matters

`grow` is how `append` chooses a larger capacity; that it is larger is all that is used.
-/
namespace Verif.Props

open Verif Verif.Spec Verif.Proof

/-- C63: reading from a reader that holds `bs`, in whatever pieces, is parsing `bs`: `parse.Reader` returns, and what it returns is that. -/
theorem C63_reader {σ : Type} (lib : GoLib) (grow : Nat → Nat) (hg : ∀ c, c < grow c) (name : Str) (rd : Reader σ) (s : σ) (bs : List UInt8) (h : Holds rd s bs .eof) :
    Returns (fun k => parseReader lib grow name rd k s) (parseData lib name bs) :=
  Proof.Returns.map (readAllBytes_holds hg h) _

/-- C63: if the reader fails, after whatever bytes, `parse.Reader` returns its error, and no file. -/
theorem C63_reader_error {σ : Type} (lib : GoLib) (grow : Nat → Nat) (hg : ∀ c, c < grow c) (name : Str) (rd : Reader σ) (s : σ) (bs : List UInt8) (e : Err) (h : Holds rd s bs (.err e)) :
    Returns (fun k => parseReader lib grow name rd k s) (.err e) :=
  Proof.Returns.map (readAllBytes_holds hg h) _

/-- C63: `parse.String` is `parse.Reader` with the bytes of the string under the name `string`; the file it returns is the one for these bytes. -/
theorem C63_string (lib : GoLib) (grow : Nat → Nat) (hg : ∀ c, c < grow c) (bs : List UInt8) :
    Returns (fun k => parseString lib grow k bs) (parseData lib "string".toList bs) :=
  C63_reader lib grow hg _ _ _ _ (stringReader_holds bs 0 (Nat.zero_le _))

/-- C63: two readers that hold the same bytes give the same file, whatever their names; and if there is none, both give an error. -/
theorem C63_same {σ τ : Type} (lib : GoLib) (grow : Nat → Nat) (hg : ∀ c, c < grow c) (name name' : Str) (rd : Reader σ) (s : σ) (rd' : Reader τ) (s' : τ) (bs : List UInt8)
    (h : Holds rd s bs .eof) (h' : Holds rd' s' bs .eof) :
    (∃ f, Returns (fun k => parseReader lib grow name rd k s) (.ok f) ∧ Returns (fun k => parseReader lib grow name' rd' k s') (.ok f)) ∨
    (∃ e e', Returns (fun k => parseReader lib grow name rd k s) (.err e) ∧ Returns (fun k => parseReader lib grow name' rd' k s') (.err e')) := by
  have h1 := C63_reader lib grow hg name rd s bs h
  have h2 := C63_reader lib grow hg name' rd' s' bs h'
  cases hp : parseData lib name bs with
  | ok f =>
    rw [hp] at h1
    rw [parseData_ok_iff.2 (parseData_ok_iff.1 hp)] at h2
    exact .inl ⟨f, h1, h2⟩
  | panic => exact absurd hp (parseData_ne_panic _ _ _)
  | err e =>
    rw [hp] at h1
    cases hq : parseData lib name' bs with
    | ok f => rw [parseData_ok_iff.2 (parseData_ok_iff.1 hq)] at hp; cases hp
    | panic => exact absurd hq (parseData_ne_panic _ _ _)
    | err e' =>
      rw [hq] at h2
      exact .inr ⟨e, e', h1, h2⟩

/-- C63: a reader that follows the rules of `io.Reader`, but delivers what it likes (depending on the room, at random, …): if `parse.Reader` returns, it had a conversation with the reader, and
returns what the bytes delivered in it are parsed to, or the error that ended it. -/
theorem C63_conversation {σ : Type} (lib : GoLib) (grow : Nat → Nat) (hg : ∀ c, c < grow c) (name : Str) (rd : Reader σ) (s : σ)
    (hw : ∀ s p, p ≠ [] → ∃ c, rd s p = some c) (hf : ∀ s p c, p ≠ [] → rd s p = some c → Fair p c) (k : Nat) (r : Res File) (h : parseReader lib grow name rd k s = some r) :
    ∃ bs e, Conversation rd s bs e ∧ match (generalizing := false) e with | .eof => r = parseData lib name bs | .err e => r = .err e := by
  unfold parseReader at h
  cases hr : readAllBytes grow rd k s with
  | none => rw [hr] at h; cases h
  | some x =>
    obtain ⟨bs, e, hc, rfl⟩ := readLoop_conversation hg hf hw k s _ 0 x (Nat.zero_le _) hr
    refine ⟨bs, e, hc, ?_⟩
    rw [hr] at h
    cases e <;> cases h <;> rfl

/-- C63: the reader is never called without room, and never again after it reported an error: a reader that would panic then is used in the same way. -/
theorem C63_strict {σ : Type} (lib : GoLib) (grow : Nat → Nat) (hg : ∀ c, c < grow c) (name : Str) (rd : Reader σ) (s : σ) (k : Nat) :
    parseReader lib grow name (strict rd) k (s, false) = parseReader lib grow name rd k s := by
  unfold parseReader readAllBytes
  rw [readLoop_strict hg k s _ 0 (Nat.zero_le _)]

/-- C63: `parse.File`.  If the file cannot be opened, this is the error.  If closing fails, this is the error, and the file that was read is not returned, nor is an error in it.
Otherwise the outcome is that of `parse.Reader`. -/
theorem C63_file {σ : Type} (lib : GoLib) (grow : Nat → Nat) (hg : ∀ c, c < grow c) (name : Str) (rd : Reader σ) (s : σ) (bs : List UInt8) (e : ReadEnd) (closeErr : Option Err)
    (h : Holds rd s bs e) :
    Returns (fun k => parseOpened lib grow name k (.file rd s closeErr)) (match (generalizing := false) closeErr, e with
      | some x, _ => .err x
      | none, .err x => .err x
      | none, .eof => parseData lib name bs) := by
  have key : ∀ r : Res File, r ≠ .panic → Returns (fun k => parseReader lib grow name rd k s) r →
      Returns (fun k => parseOpened lib grow name k (.file rd s closeErr)) (match closeErr with | some x => .err x | none => r) := by
    intro r hr h
    have h2 := Proof.Returns.map h (fun r => match r, closeErr with | .panic, _ => Res.panic | _, some e => .err e | r, none => r)
    cases r with
    | panic => exact absurd rfl hr
    | ok f => cases closeErr <;> exact h2
    | err e => cases closeErr <;> exact h2
  cases e with
  | eof =>
    have := key _ (parseData_ne_panic lib name bs) (C63_reader lib grow hg name rd s bs h)
    cases closeErr <;> exact this
  | err x =>
    have := key (.err x) (by simp) (C63_reader_error lib grow hg name rd s bs x h)
    cases closeErr <;> exact this

/-- C63: this is what the command relies on: `parseFile` of Model/Cmd, for a file that holds these data. -/
theorem C63_command {σ : Type} (lib : GoLib) (grow : Nat → Nat) (hg : ∀ c, c < grow c) (name : Str) (bs : List UInt8) (closeErr : Option Err) :
    (∀ (rd : Reader σ) s, Holds rd s bs .eof → Returns (fun k => parseOpened lib grow name k (.file rd s closeErr)) (parseFile lib { name := name, data := bs, closeErr := closeErr })) ∧
    (∀ (rd : Reader σ) s e, Holds rd s bs (.err e) →
      Returns (fun k => parseOpened lib grow name k (.file rd s closeErr)) (parseFile lib { name := name, data := bs, readErr := some e, closeErr := closeErr })) ∧
    (∀ e, Returns (fun k => parseOpened lib grow name k (.fails e : Opened σ)) (parseFile lib { name := name, data := bs, openErr := some e, closeErr := closeErr })) := by
  refine ⟨fun rd s h => ?_, fun rd s e h => ?_, fun e => ⟨⟨0, rfl⟩, fun k r hk => (Option.some.inj hk).symm⟩⟩
  · have := C63_file lib grow hg name rd s bs _ closeErr h
    have h2 : parseFile lib { name := name, data := bs, closeErr := closeErr } = (match (generalizing := false) closeErr with | some x => .err x | none => parseData lib name bs) := by
      unfold parseFile
      have hp := parseData_ne_panic lib name bs
      dsimp only
      generalize parseData lib name bs = x at hp ⊢
      cases x with
      | panic => exact absurd rfl hp
      | ok f => cases closeErr <;> rfl
      | err e => cases closeErr <;> rfl
    rw [h2]
    cases closeErr <;> exact this
  · have := C63_file lib grow hg name rd s bs _ closeErr h
    cases closeErr <;> exact this

/-- A reader that delivers one byte at a time, and says so with every other call only; the last byte comes with `e`. -/
def slowReader (e : ReadEnd) : Reader (List UInt8 × Bool) := fun s _ =>
  match s with
  | (bs, true) => some ⟨[], 0, none, (bs, false)⟩
  | ([], false) => some ⟨[], 0, some e, ([], false)⟩
  | ([b], false) => some ⟨[b], 1, some e, ([], false)⟩
  | (b :: bs, false) => some ⟨[b], 1, none, (bs, true)⟩

/-- it holds its bytes -/
theorem slowReader_holds (e : ReadEnd) : ∀ (bs : List UInt8) (w : Bool), Holds (slowReader e) (bs, w) bs e := by
  intro bs
  induction bs with
  | nil =>
    have h0 : Holds (slowReader e) ([], false) [] e := by
      refine .intro (fun p _ => ⟨_, rfl⟩) ?_ ?_ ?_ ?_
      · intro p c _ hc; cases hc; exact ⟨by simp, by simp, by simp⟩
      · intro p c _ hc; cases hc; exact List.prefix_rfl
      · intro p c _ hc he; cases hc; cases he
      · intro p c e' _ hc he; cases hc; cases he; exact ⟨rfl, rfl⟩
    intro w
    cases w with
    | false => exact h0
    | true =>
      refine .intro (fun p _ => ⟨_, rfl⟩) ?_ ?_ ?_ ?_
      · intro p c _ hc; cases hc; exact ⟨by simp, by simp, by simp⟩
      · intro p c _ hc; cases hc; exact List.prefix_rfl
      · intro p c _ hc he; cases hc; exact h0
      · intro p c e' _ hc he; cases hc; cases he
  | cons b bs ih =>
    have h0 : Holds (slowReader e) (b :: bs, false) (b :: bs) e := by
      cases bs with
      | nil =>
        refine .intro (fun p _ => ⟨_, rfl⟩) ?_ ?_ ?_ ?_
        · intro p c hp hc; cases hc
          have := List.length_pos_iff.2 hp
          exact ⟨by simp, by simp only; omega, by simp⟩
        · intro p c _ hc; cases hc; exact List.prefix_rfl
        · intro p c _ hc he; cases hc; cases he
        · intro p c e' _ hc he; cases hc; cases he; exact ⟨rfl, rfl⟩
      | cons b' bs =>
        refine .intro (fun p _ => ⟨_, rfl⟩) ?_ ?_ ?_ ?_
        · intro p c hp hc; cases hc
          have := List.length_pos_iff.2 hp
          exact ⟨by simp, by simp only; omega, by simp⟩
        · intro p c _ hc; cases hc; exact ⟨_, rfl⟩
        · intro p c _ hc he; cases hc; exact ih true
        · intro p c e' _ hc he; cases hc; cases he
    intro w
    cases w with
    | false => exact h0
    | true =>
      refine .intro (fun p _ => ⟨_, rfl⟩) ?_ ?_ ?_ ?_
      · intro p c _ hc; cases hc; exact ⟨by simp, by simp, by simp⟩
      · intro p c _ hc; cases hc; exact List.nil_prefix
      · intro p c _ hc he; cases hc; exact h0
      · intro p c e' _ hc he; cases hc; cases he

/-- so parsing from it is `parse.String`, up to the name -/
example (lib : GoLib) (bs : List UInt8) : Returns (fun k => parseReader lib (2 * · + 1) "x".toList (slowReader .eof) k (bs, true)) (parseData lib "x".toList bs) :=
  C63_reader lib _ (by intro c; omega) _ _ _ _ (slowReader_holds .eof bs true)

/-- a concrete run -/
example : readAllBytes (2 * · + 1) (slowReader .eof) 6 ([1, 2, 3], true) = some (.ok [1, 2, 3]) := by decide +kernel

/-- one that needs more than the first 512 bytes of room, in two calls -/
example : (readAllBytes (2 * · + 1) stringReader 5 (List.replicate 600 7, 0)) = some (.ok (List.replicate 600 7)) := by decide +kernel

/-- C63: the rules of `io.Reader` are needed: a reader that reports more than there is room makes `parse.Reader` panic (the panic is outside the part of the parser that recovers), … -/
theorem C63_panic (lib : GoLib) (grow : Nat → Nat) (name : Str) :
    Returns (fun k => parseReader lib grow name (fun (_ : Unit) p => some ⟨[], p.length + 1, none, ()⟩) k ()) .panic := by
  have h : ∀ k, readLoop grow (fun (_ : Unit) p => some ⟨[], p.length + 1, none, ()⟩) (k + 1) (List.replicate 512 0) 0 () = some .panic := by
    intro k
    rw [readLoop]
    dsimp only
    rw [if_pos]
    simp only [List.length_append, List.length_take, stored_length, List.length_drop]
    omega
  refine ⟨⟨1, ?_⟩, fun k r hk => ?_⟩
  · show Option.map _ _ = _
    unfold readAllBytes
    rw [h]; rfl
  · cases k with
    | zero => cases hk
    | succ k =>
      have hk : Option.map _ (readAllBytes grow _ _ _) = _ := hk
      unfold readAllBytes at hk
      rw [h] at hk
      exact (Option.some.inj hk).symm

/-- … one that delivers nothing for ever makes it hang, … -/
theorem C63_hangs (lib : GoLib) (grow : Nat → Nat) (name : Str) : NeverReturns (fun k => parseReader lib grow name (fun (_ : Unit) _ => some ⟨[], 0, none, ()⟩) k ()) := by
  have h : ∀ k arr, readLoop grow (fun (_ : Unit) _ => some ⟨[], 0, none, ()⟩) k arr 0 () = none := by
    intro k
    induction k with
    | zero => intro arr; rfl
    | succ k ih =>
      intro arr
      rw [readLoop]
      dsimp only
      rw [if_neg (by simp), show ((0 : Nat) + (0 : Int)).toNat = 0 from rfl]
      exact ih _
  intro k
  show Option.map _ _ = _
  unfold readAllBytes
  rw [h]; rfl

/-- … and a negative number takes bytes back that were delivered before. -/
theorem C63_takes_back : readAllBytes (2 * · + 1) (fun (s : Bool) _ => if s then some ⟨[65, 66], 2, none, false⟩ else some ⟨[], -1, some .eof, false⟩) 2 true = some (.ok [65]) := by
  decide +kernel

end Verif.Props
