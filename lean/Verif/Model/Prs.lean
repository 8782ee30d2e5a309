import Verif.Core.Proc

/-!
# Model of `src/prs.rs`

A string is the list of its characters; positions in a `&str` count the bytes of its UTF-8 encoding.
`chk` tells whether the program is compiled with overflow checks.
-/

namespace Cniic.Prs

/-- `s.len()`: the number of bytes. -/
def byteLen : List Char → Nat
  | [] => 0
  | c :: cs => c.utf8Size + byteLen cs

/-- What follows the first `n` bytes; `none` if this is not a character boundary. -/
def dropBytes : Nat → List Char → Option (List Char)
  | 0, cs => some cs
  | _ + 1, [] => none
  | n + 1, c :: cs => if c.utf8Size ≤ n + 1 then dropBytes (n + 1 - c.utf8Size) cs else none

/-- The first `n` bytes; `none` if this is not a character boundary. -/
def takeBytes : Nat → List Char → Option (List Char)
  | 0, _ => some []
  | _ + 1, [] => none
  | n + 1, c :: cs =>
    if c.utf8Size ≤ n + 1 then (takeBytes (n + 1 - c.utf8Size) cs).map (c :: ·) else none

/-- `&s[from..to]`; `none` = panic. -/
def slice (s : List Char) (fr to : Nat) : Option (List Char) :=
  if fr ≤ to then (dropBytes fr s).bind (takeBytes (to - fr)) else none

/-! ## Regular expressions

The part of the syntax of the `regex` crate that the program uses, with its matching rule: alternatives are
tried in order, repetitions are greedy, the leftmost match wins. -/

/-- A regular expression. -/
inductive Re where
  | empty
  | chr (p : Char → Bool)
  | seq (a b : Re)
  /-- `(?:a)?` -/
  | opt (a : Re)
  /-- `(p+)`, the capture group -/
  | captured (p : Char → Bool)

/-- `(p*)` after the characters `acc`; then `k` gets the captured text and the rest. -/
def starRun {β : Type} (p : Char → Bool) (k : List Char → List Char → Option β) :
    List Char → List Char → Option β
  | acc, [] => k acc []
  | acc, x :: s => if p x then (starRun p k (acc ++ [x]) s <|> k acc (x :: s)) else k acc (x :: s)

/-- Matching at the beginning of `s`; `cap` is the captured text so far. -/
def Re.run {β : Type} : Re → List Char → List Char → (List Char → List Char → Option β) → Option β
  | .empty, cap, s, k => k cap s
  | .chr p, cap, s, k =>
    match s with
    | x :: s => if p x then k cap s else none
    | [] => none
  | .seq a b, cap, s, k => a.run cap s fun cap s => b.run cap s k
  | .opt a, cap, s, k => a.run cap s k <|> k cap s
  | .captured p, _, s, k =>
    match s with
    | x :: s => if p x then starRun p k [x] s else none
    | [] => none

/-- A literal text. -/
def Re.str : List Char → Re
  | [] => .empty
  | c :: cs => .seq (.chr (· == c)) (.str cs)

/-- `regexp.captures(s)`: the text of the capture group in the leftmost match. -/
def Re.captures (r : Re) : List Char → Option (List Char)
  | [] => r.run [] [] fun cap _ => some cap
  | x :: s =>
    match r.run [] (x :: s) fun cap _ => some cap with
    | some cap => some cap
    | none => r.captures s

/-- `matches_fully(s, r)` is `Some` (prs.rs:8-21): the expression is anchored at both ends and has no capture
group, so the number of groups is 1. -/
def matchesFully (s : List Char) (r : Re) : Bool :=
  (r.run [] s fun _ rest => if rest.isEmpty then some () else none).isSome

/-! ## fun_call -/

/-- The local variables of `fun_call` (prs.rs:25-28). -/
structure FunCall where
  funName    : Option (List Char)
  params     : List (List Char)
  parenStack : UInt16
  lastPos    : Nat

/-- `Some(x)` or a panic. -/
def orPanic {ε α : Type} : Option α → Ret ε α
  | some a => .ok a
  | none => .panic

/-- One iteration of the loop of `fun_call` (prs.rs:35-145) at the character `c` number `newPos`; `err` =
`return None`.  Characters that the iterator filters out (prs.rs:32-33) change nothing. -/
def funCallStep (chk : Bool) (input : List Char) (newPos : Nat) (c : Char) (s : FunCall) : Ret Unit FunCall :=
  if c = '(' then
    -- lines 36-69
    if s.parenStack = 0 then
      if s.funName.isSome || s.lastPos ≠ 0 then .err ()
      else if s.params.length ≠ 0 then .panic
      else if newPos = 0 then .err ()
      else
        match slice input 0 newPos with
        | some name => .ok { s with funName := some name, parenStack := 1, lastPos := newPos + 1 }
        | none => .panic
    else if chk && s.parenStack = 65535 then .panic
    else .ok { s with parenStack := s.parenStack + 1 }
  else if c = ')' then
    -- lines 70-110
    if s.parenStack = 0 then .err ()
    else if s.parenStack = 1 then
      if newPos ≠ byteLen input - 1 then .err ()
      else if s.funName.isNone then .panic
      else if newPos = s.lastPos then
        if s.params.length > 0 then .err ()
        else .ok { s with lastPos := newPos + 1, parenStack := s.parenStack - 1 }
      else
        match slice input s.lastPos newPos with
        | some a => .ok { s with params := s.params ++ [a], lastPos := newPos + 1,
                                 parenStack := s.parenStack - 1 }
        | none => .panic
    else .ok { s with parenStack := s.parenStack - 1 }
  else if c = ',' then
    -- lines 111-143
    if s.parenStack = 0 then .err ()
    else if s.parenStack = 1 then
      if s.funName.isNone then .panic
      else if s.lastPos = newPos then .err ()
      else
        match slice input s.lastPos newPos with
        | some a => .ok { s with params := s.params ++ [a], lastPos := newPos + 1 }
        | none => .panic
    else .ok s
  else .ok s

/-- The loop of `fun_call` (prs.rs:30-146) over the characters from number `pos` on. -/
def funCallLoop (chk : Bool) (input : List Char) : Nat → List Char → FunCall → Ret Unit FunCall
  | _, [], s => .ok s
  | pos, c :: cs, s =>
    match funCallStep chk input pos c s with
    | .ok s => funCallLoop chk input (pos + 1) cs s
    | .err e => .err e
    | .panic => .panic

/-- `fun_call` (prs.rs:24-157). -/
def funCall (chk : Bool) (input : List Char) : Ret Unit (List Char × List (List Char)) :=
  match funCallLoop chk input 0 input { funName := none, params := [], parenStack := 0, lastPos := 0 } with
  | .ok s =>
    if s.parenStack ≠ 0 then .err ()
    else
      match s.funName with
      | some n => .ok (n, s.params)
      | none => .err ()
  | .err e => .err e
  | .panic => .panic

/-! ## Errors and alternatives -/

/-- The texts in `ParseError::Other`.  They are formatted for display; only their ingredients are kept. -/
inductive Msg where
  /-- hilbertc.rs:342,367 -/
  | notAFunction (s : List Char)
  /-- hilbertc.rs:344, zipc.rs:69 -/
  | incorrectName (s : List Char)
  /-- hilbertc.rs:377: the error of `f64::from_str` -/
  | badFloat
  /-- clusterc.rs:137,293: the error of `usize::from_str` -/
  | badInteger
  /-- clusterc.rs:127,283 -/
  | noMatch
  /-- hufc.rs:60 -/
  | notHufman
  /-- zipc.rs:67 -/
  | incorrectSyntax
  /-- zipc.rs:72 -/
  | wrongNumberOfArguments (found : Nat)
  /-- zipc.rs:78 -/
  | unrecognizedArgument (s : List Char)
  deriving DecidableEq

/-- `enum ParseError` (prs.rs:163-169). -/
inductive ParseError where
  | wrongName (expected found : List Char)
  | wrongNumberOfArguments (expected found : Nat)
  | allFailed (failures : List (String × ParseError))
  | other (m : Msg)

/-- `expect_name` (prs.rs:3-6) for a literal text. -/
def expectName (s name : List Char) : Ret ParseError (List Char) :=
  if matchesFully s (.str name) then .ok s else .err (.wrongName name s)

/-- `struct ParseAlternatives` (prs.rs:177-180) without `input`, which is the argument of the parsers; the
outer `Ret` accounts for the panics of a parser.  `ok` and `err` hold `res`. -/
abbrev Alternatives (T : Type) := Ret (List (String × ParseError)) T

/-- `ParseAlternatives::new` (prs.rs:183-188). -/
def Alternatives.new {T : Type} : Alternatives T := .err []

/-- `ParseAlternatives::then_try` (prs.rs:190-200) with `into_success` and `stack_error` (prs.rs:202-220);
their assertions hold by construction. -/
def Alternatives.thenTry {T : Type} (a : Alternatives T) (name : String) (r : Ret ParseError T) : Alternatives T :=
  match a with
  | .ok x => .ok x
  | .panic => .panic
  | .err es =>
    match r with
    | .ok x => .ok x
    | .err e => .err (es ++ [(name, e)])
    | .panic => .panic

/-- `ParseAlternatives::end` (prs.rs:222-225). -/
def Alternatives.end {T : Type} (a : Alternatives T) : Ret ParseError T :=
  match a with
  | .ok x => .ok x
  | .err es => .err (.allFailed es)
  | .panic => .panic

end Cniic.Prs
