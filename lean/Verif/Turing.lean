/-
The Turing example: programs that are executed by parsing them.

Source: /repo/examples/turing.cpp l.20-290

The rules of the example are written out as functions on the remaining input; each is cited.  The rules themselves are those
of the library: literals and keywords skip whitespace afterwards (token.hpp l.87-160), a choice takes the first branch whose
condition matches (choice.hpp l.19-130), loops (loop.hpp l.35-95), counters (context_counter.hpp l.46-144).

The program is that of `main`, with the variables `a` to `z`.  The values of the counters are those of an `int` of 32 bits;
leaving its range is undefined behavior (`none`), as is running out of steps.  The first error decides the outcome: `main`
returns without a result if there was an error (l.283-285).  What happens after it (the recovery of `curly_bracketed.opt_list`) is
not modelled.
-/

namespace Verif.Tm

/-- The values of the counters `var<Name>`, turing.cpp l.86-89. -/
abbrev Store := Nat → Int

/-- Assignment to one of them. -/
def Store.set (σ : Store) (x : Nat) (v : Int) : Store := fun y => if y = x then v else σ y

/-- How parsing goes on: with the counters and the remaining input, or with an error. -/
inductive Res
  | ok (σ : Store) (s : List Nat)
  | err

/-- `dsl::ascii::space`, ascii.hpp l.44-112. -/
def isSpace (c : Nat) : Bool := c == 32 || (9 ≤ c && c ≤ 13)

/-- `dsl::ascii::newline`, ascii.hpp l.62-77. -/
def isNewline (c : Nat) : Bool := c == 10 || c == 13

/-- `dsl::ascii::alpha`, the characters of an identifier, turing.cpp l.69. -/
def isAlpha (c : Nat) : Bool := (65 ≤ c && c ≤ 90) || (97 ≤ c && c ≤ 122)

/-- The variables of `main`, turing.cpp l.279-281. -/
def isVar (c : Nat) : Bool := 97 ≤ c && c ≤ 122

/-- `dsl::until(dsl::ascii::newline)`, until.hpp l.73-113. -/
def untilNewline : List Nat → Option (List Nat)
  | [] => none
  | c :: s => if isNewline c then some s else untilNewline s

/-- Skipping of whitespace, `loop(ascii::space | comment | break_)`: turing.cpp l.67 and l.242, whitespace.hpp l.27 and
    l.110-160.  The flag says whether a comment is being skipped.  An error is `none`. -/
def wsGo : Bool → List Nat → Option (List Nat)
  | false, [] => some []
  | false, c :: s =>
    if isSpace c then wsGo false s
    else if c = 47 ∧ s.head? = some 47 then wsGo true s
    else some (c :: s)
  | true, [] => none
  | true, c :: s => if isNewline c then wsGo false s else wsGo true s

def ws (s : List Nat) : Option (List Nat) := wsGo false s

/-- A literal, literal.hpp l.166-225, without the whitespace after it. -/
def lit : List Nat → List Nat → Option (List Nat)
  | [], s => some s
  | _ :: _, [] => none
  | a :: w, c :: s => if a = c then lit w s else none

/-- `LEXY_KEYWORD`, identifier.hpp l.325-365: no character of an identifier may follow. -/
def kw (w s : List Nat) : Option (List Nat) :=
  match lit w s with
  | some (c :: s) => if isAlpha c then none else some (c :: s)
  | r => r

/-- The next step after whitespace, token.hpp l.148-160. -/
def afterWs (s : List Nat) (k : List Nat → Option Res) : Option Res :=
  match ws s with
  | none => some .err
  | some s => k s

/-- The next step after a rule. -/
def andThen (r : Option Res) (k : Store → List Nat → Option Res) : Option Res :=
  match r with
  | none => none
  | some .err => some .err
  | some (.ok σ s) => k σ s

/-- `number`, turing.cpp l.75-79: the tally marks. -/
def marks : List Nat → List Nat
  | 124 :: s => marks s
  | s => s

/-- Whether a value fits into an `int`. -/
def fits (v : Int) : Bool := -2147483648 ≤ v && v ≤ 2147483647

/-- `_ctx_cpush`, context_counter.hpp l.61-117, of `dsl::p<number>`: adds or subtracts the length of what the production has
    consumed.  As `number` is a token production, the whitespace behind it is skipped before its continuation is called
    (action/base.hpp l.176-194). -/
def push (sign : Int) (x : Nat) (σ : Store) (s : List Nat) (k : Store → List Nat → Option Res) : Option Res :=
  afterWs (marks s) fun r =>
    let v := σ x + (s.length - r.length : Nat) * sign
    if fits v then k (σ.set x v) r else none

/-- `reset`, turing.cpp l.108-109: decrements the variable until it is zero. -/
def reset : Nat → Int → Option Int
  | 0, _ => none
  | n + 1, v => if v = 0 then some 0 else if fits (v - 1) then reset n (v - 1) else none

/-- The rest of a statement, `+ dsl::semicolon`, turing.cpp l.117. -/
def semi (σ : Store) (s : List Nat) : Option Res :=
  match lit [59] s with
  | none => some .err
  | some s => afterWs s fun s => some (.ok σ s)

/-- `(assign | add | dec) + dsl::semicolon` of `var_stmt`, turing.cpp l.111-117, after the name of the variable. -/
def varStmt (n x : Nat) (σ : Store) (s : List Nat) : Option Res :=
  match lit [58, 61] s with
  | some s => afterWs s fun s => (reset n (σ x)).bind fun v => push 1 x (σ.set x v) s semi
  | none =>
    match lit [43, 61] s with
    | some s => afterWs s fun s => push 1 x σ s semi
    | none =>
      match lit [45, 61] s with
      | some s => afterWs s fun s => push (-1) x σ s semi
      | none => some .err

/-- `skip_body`, turing.cpp l.136-153: skips until the brackets are balanced; `d` is the counter of them. -/
def skipGo (σ : Store) : Nat → Int → List Nat → Option Res
  | 0, _, _ => none
  | n + 1, d, s =>
    let check (d : Int) (s : List Nat) : Option Res :=
      afterWs s fun s => if d = 0 then some (.ok σ s) else skipGo σ n d s
    match s with
    | [] => some .err
    | c :: s =>
      if c = 123 then check (d + 1) s
      else if c = 125 then check (d - 1) s
      else if c = 47 ∧ s.head? = some 47 then
        afterWs s.tail fun s =>
          match untilNewline s with
          | none => some .err
          | some s => check d s
      else if c < 128 then check d s
      else some .err

/-- The rules that are recursive. -/
inductive Cmd
  /-- `statement`, turing.cpp l.218-234 -/
  | stmt
  /-- the loop of `program`, l.249-250, or, if `body`, of `execute_body`, l.128-129, after the opening bracket -/
  | seq (body : Bool)
  /-- the loop of `while_stmt::impl`, l.197-206, for a variable -/
  | loop (x : Nat)

/-- Parses and executes, turing.cpp l.122-254.  The first number bounds the steps, the second one is the current depth of the
    recursion (production.hpp l.138-160); it is at most 1024 (grammar.hpp l.180-187). -/
def run : Nat → Nat → Cmd → Store → List Nat → Option Res
  | 0, _, _, _, _ => none
  | n + 1, d, c, σ, s =>
    -- `execute_body`, l.122-131
    let exec (σ : Store) (s : List Nat) : Option Res :=
      match lit [123] s with
      | none => some .err
      | some s => afterWs s fun s => run n d (.seq true) σ s
    match c with
    | .stmt =>
      match kw [105, 102] s with
      -- `if_stmt`, l.158-184
      | some s => afterWs s fun s =>
        match s with
        | [] => some .err
        | x :: s =>
          if isVar x then afterWs s fun s =>
            if σ x = 0 then
              -- `zero`, l.172
              andThen (skipGo σ n 0 s) fun σ s =>
                match kw [101, 108, 115, 101] s with
                | some s => afterWs s (exec σ)
                | none => some (.ok σ s)
            else
              -- `non_zero`, l.170-171
              andThen (exec σ s) fun σ s =>
                match kw [101, 108, 115, 101] s with
                | some s => afterWs s (skipGo σ n 0)
                | none => some (.ok σ s)
          else some .err
      | none =>
        match kw [119, 104, 105, 108, 101] s with
        -- `while_stmt`, l.188-215
        | some s => afterWs s fun s =>
          match s with
          | [] => some .err
          | x :: s => if isVar x then afterWs s fun s => run n d (.loop x) σ s else some .err
        | none =>
          -- `var_stmts`, l.229
          match s with
          | [] => some .err
          | x :: _ =>
            if isVar x then
              match kw [x] s with
              | some s => afterWs s fun s => varStmt n x σ s
              | none => some .err
            else some .err
    | .seq body =>
      match body, s with
      -- `dsl::eof >> dsl::break_`, l.250
      | false, [] => some (.ok σ [])
      | false, c :: s => andThen (run n d .stmt σ (c :: s)) fun σ s => run n d (.seq false) σ s
      | true, s =>
        -- the closing bracket, option.hpp l.86-120 and list.hpp l.262-340
        match lit [125] s with
        | some s => afterWs s fun s => some (.ok σ s)
        | none =>
          -- `dsl::recurse`, production.hpp l.138-160
          if 1024 ≤ d then some .err
          else andThen (run n (d + 1) .stmt σ s) fun σ s => run n d (.seq true) σ s
    | .loop x =>
      if σ x = 0 then skipGo σ n 0 s
      -- `rewind`, l.26-57
      else andThen (exec σ s) fun σ _ => run n d (.loop x) σ s

/-- What `main` prints: the value of `o`, or nothing in case of an error. -/
inductive Out
  | result (v : Int)
  | error
  deriving DecidableEq

/-- `lexy::parse<program>`, turing.cpp l.237-254 and l.275-287: initial whitespace, variables that are zero, the statements,
    and the value of `o`. -/
def program (n : Nat) (s : List Nat) : Option Out :=
  match ws s with
  | none => some .error
  | some s =>
    match run n 0 (.seq false) (fun _ => 0) s with
    | none => none
    | some .err => some .error
    | some (.ok σ _) => some (.result (σ 111))

end Verif.Tm
