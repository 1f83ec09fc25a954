import Verif.Model.Cmd
/-!
# Model of reading the input (parse/parse.go:14-35, zparser.go:1737-1760)

A reader (`io.Reader`) is arbitrary: a state and a function.  `ioutil.ReadAll` and `strings.Reader` are not part of the repo; they are written from their sources in Go 1.16.
-/
namespace Verif

/-- The error of a `Read` that returns one: `io.EOF` or another. (of the reader at zparser.go:1753-1754) -/
inductive ReadEnd where
  | eof
  | err (e : Err)
  deriving DecidableEq, Repr

/-- What one call `r.Read(p)` does: the bytes it stores at the beginning of `p` (it may store more than it reports; what does not fit in `p` is ignored), the two results, and the new state. (of the reader at zparser.go:1753-1754) -/
structure ReadCall (σ : Type) where
  stored : List UInt8
  n : Int
  err : Option ReadEnd
  next : σ

/-- `io.Reader`: what a call of `Read` does, in each state, for each contents of the buffer; `none`: the call panics.  It does not keep the buffer. (zparser.go:1753) -/
abbrev Reader (σ : Type) := σ → List UInt8 → Option (ReadCall σ)

/-- The contents of the buffer `p` after a call that stored `w`. (in `ioutil.ReadAll`, called at zparser.go:1754) -/
def stored (p w : List UInt8) : List UInt8 := w.take p.length ++ p.drop w.length

/-- `b = append(b, 0)[:len(b)]` in `ioutil.ReadAll`, if `len(b) == cap(b)`.  `arr` is the array behind `b`, as long as the capacity; `grow` is the choice of a new capacity by `append`. (called at zparser.go:1754) -/
def moreRoom (grow : Nat → Nat) (arr : List UInt8) (len : Nat) : List UInt8 :=
  if len = arr.length then arr ++ List.replicate (grow arr.length - arr.length) 0 else arr

/-- The loop of `ioutil.ReadAll`, for at most the given number of rounds (`none`: not finished then).  `b` is the first `len` bytes of the array `arr`. (called at zparser.go:1754) -/
def readLoop {σ : Type} (grow : Nat → Nat) (rd : Reader σ) : Nat → List UInt8 → Nat → σ → Option (Res (List UInt8))
  | 0, _, _, _ => none
  | k + 1, arr, len, s =>
    let arr := moreRoom grow arr len
    match rd s (arr.drop len) with
    | none => some .panic
    | some c =>
      let arr := arr.take len ++ stored (arr.drop len) c.stored
      let m : Int := len + c.n
      if m < 0 ∨ (arr.length : Int) < m then some .panic -- b = b[:len(b)+n]
      else
        match c.err with
        | none => readLoop grow rd k arr m.toNat c.next
        | some .eof => some (.ok (arr.take m.toNat))
        | some (.err e) => some (.err e)

/-- `ioutil.ReadAll(r)`. (called at zparser.go:1754) -/
def readAllBytes {σ : Type} (grow : Nat → Nat) (rd : Reader σ) (k : Nat) (s : σ) : Option (Res (List UInt8)) :=
  readLoop grow rd k (List.replicate 512 0) 0 s

/-- `ParseReader` (zparser.go:1753-1760) with `cast` (parse/parse.go:30-35): `parse.Reader` (parse/parse.go:21-23). -/
def parseReader {σ : Type} (lib : GoLib) (grow : Nat → Nat) (filename : Str) (rd : Reader σ) (k : Nat) (s : σ) : Option (Res File) :=
  (readAllBytes grow rd k s).map fun
    | .panic => .panic
    | .err e => .err e
    | .ok b => parseData lib filename b

/-- `(*strings.Reader).Read`; the state is `r.s` and `r.i`. (made at parse/parse.go:27) -/
def stringReader : Reader (List UInt8 × Nat) := fun s p =>
  if s.1.length ≤ s.2 then some ⟨[], 0, some .eof, s⟩
  else
    let w := (s.1.drop s.2).take p.length
    some ⟨w, w.length, none, (s.1, s.2 + w.length)⟩

/-- `parse.String` (parse/parse.go:26-28). -/
def parseString (lib : GoLib) (grow : Nat → Nat) (k : Nat) (bs : List UInt8) : Option (Res File) :=
  parseReader lib grow "string".toList stringReader k (bs, 0)

/-- What `os.Open` returns: an error, or an open file, which is a reader and can be closed (with or without an error). (called at zparser.go:1739) -/
inductive Opened (σ : Type) where
  | fails (e : Err)
  | file (rd : Reader σ) (s : σ) (closeErr : Option Err)

/-- `ParseFile` (zparser.go:1738-1749) with `cast` (parse/parse.go:30-35): `parse.File` (parse/parse.go:15-17).  The deferred function closes the file. -/
def parseOpened {σ : Type} (lib : GoLib) (grow : Nat → Nat) (filename : Str) (k : Nat) : Opened σ → Option (Res File)
  | .fails e => some (.err e)
  | .file rd s closeErr =>
    (parseReader lib grow filename rd k s).map fun r =>
      match r, closeErr with
      | .panic, _ => .panic
      | _, some e => .err e
      | r, none => r

end Verif
