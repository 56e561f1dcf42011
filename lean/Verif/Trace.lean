import Verif.Identifier

/-
Parse events and the results of (partial) parses.

Source: /repo/include/lexy/dsl/base.hpp (parse events)

Positions are offsets into the input.
-/

namespace Verif

/-- The predefined token kinds that the modelled rules use, grammar.hpp l.82-98; `user` are the kinds of the token
    rules themselves. -/
inductive Kind
  | error | whitespace | position | eof | identifier | user (n : Nat)
  deriving DecidableEq, Repr

/-- The parse events, dsl/base.hpp l.13-86.  Tags of errors and identities of productions and operations are numbers.
    An error carries the range it was reported for (`error.hpp`; errors with a single position have an empty range). -/
inductive Ev
  | grammarStart (pos : Nat)
  | grammarFinish (pos : Nat)
  | grammarCancel (pos : Nat)
  | prodStart (p pos : Nat)
  | prodFinish (p pos : Nat)
  | prodCancel (p pos : Nat)
  | opStart (pos : Nat)
  | opOp (op pos : Nat)
  | opFinish (pos : Nat)
  | token (k : Kind) (b e : Nat)
  | backtracked (b e : Nat)
  | error (tag b e : Nat)
  | recStart (pos : Nat)
  | recFinish (pos : Nat)
  | recCancel (pos : Nat)
  deriving DecidableEq, Repr

/-- Is it an error event? -/
def Ev.isError : Ev → Bool
  | .error .. => true
  | _ => false

/-- How a parse function ends: `ok` is "the continuation is called", `fail` is `return false`, `brk` is
    `return true` without calling the continuation (`dsl::break_`, loop.hpp l.15-33). -/
inductive Out
  | ok | fail | brk
  deriving DecidableEq, Repr

/-- Traces of branch parsers that are cancelled: `cancel()` of branches that started at `p`, in an input of `len`
    code units. -/
inductive CancelTr (len p : Nat) : List Ev → Prop
  | nil : CancelTr len p []
  | backtracked {e} : p ≤ e → e ≤ len → CancelTr len p [.backtracked p e]
  | prod {n evs} : CancelTr len p evs → CancelTr len p (.prodStart n p :: (evs ++ [.prodCancel n p]))
  | append {a b} : CancelTr len p a → CancelTr len p b → CancelTr len p (a ++ b)

/-- Branches that are tried at ever later positions between `p` and `q` and cancelled, while error recovery skips
    code units. -/
inductive SearchTr (len p : Nat) : Nat → List Ev → Prop
  | start : SearchTr len p p []
  | cancelled {q c evs} : SearchTr len p q c → CancelTr len q evs → SearchTr len p q (c ++ evs)
  | bump {q c} : SearchTr len p q c → SearchTr len p (q + 1) c

/-- `TrC len c p o evs q`: a parse function, started at `p` on an input of `len` code units, may end at `q` with the
    outcome `o` and the events `evs`.  The flag `c` says whether this happens directly inside of a chain of operations.

    This is an over-approximation of what the rules do; it describes which shapes of event sequences exist at all.
    That the rules stay inside of it is a theorem (GrammarTrace.lean), what follows for event sequences is proved by
    induction over it (TraceProps.lean). -/
inductive TrC (len : Nat) : Bool → Nat → Out → List Ev → Nat → Prop
  /-- nothing happens -/
  | nil {c p} : TrC len c p .ok [] p
  /-- `dsl::break_` -/
  | brk {c p} : TrC len c p .brk [] p
  /-- a token is consumed -/
  | token {c p q} (k : Kind) : p ≤ q → q ≤ len → TrC len c p .ok [.token k p q] q
  /-- a token that does not match: error token up to where it got, and an error -/
  | tokenFail {c p q} (tag : Nat) : p ≤ q → q ≤ len → TrC len c p .fail [.token .error p q, .error tag p q] q
  /-- an error with a range inside of the input; failing -/
  | errorFail {c p b e} (tag : Nat) : b ≤ e → e ≤ len → TrC len c p .fail [.error tag b e] p
  /-- an error from which the rule recovers trivially -/
  | error {c p b e} (tag : Nat) : b ≤ e → e ≤ len → TrC len c p .ok [.error tag b e] p
  /-- whitespace that fails: the errors of the nested parse and an error token -/
  | wsFail {c p q es} : es ≠ [] → (∀ ev ∈ es, ∃ tag b e, ev = .error tag b e ∧ b ≤ e ∧ e ≤ len) → p ≤ q → q ≤ len →
      TrC len c p .fail (es ++ [.token .error p q]) q
  /-- lookahead -/
  | backtracked {c p e} : p ≤ e → e ≤ len → TrC len c p .ok [.backtracked p e] p
  /-- branches that were tried from `p0` and not taken -/
  | cancelled {c p p0 evs} : p0 ≤ p → CancelTr len p0 evs → TrC len c p .ok evs p
  /-- one after the other -/
  | seq {c p q r o a b} : TrC len c p .ok a q → TrC len c q o b r → TrC len c p o (a ++ b) r
  /-- a failure is caught, and something else is parsed from there -/
  | recover {c p q r o a b} : TrC len c p .fail a q → TrC len c q o b r → TrC len c p o (a ++ b) r
  /-- a failure, and something else before it is passed on -/
  | failAfter {c p q r a b} : TrC len c p .fail a q → TrC len c q .ok b r → TrC len c p .fail (a ++ b) r
  /-- `dsl::break_` leaves a loop -/
  | caught {c p q a} : TrC len c p .brk a q → TrC len c p .ok a q
  /-- a production -/
  | prod {c p q a} (n : Nat) : TrC len false p .ok a q → TrC len c p .ok (.prodStart n p :: (a ++ [.prodFinish n q])) q
  /-- a production that fails -/
  | prodFail {c p q a} (n : Nat) : TrC len false p .fail a q →
      TrC len c p .fail (.prodStart n p :: (a ++ [.prodCancel n q])) q
  /-- a chain of operations -/
  | chain {c p q a o} : TrC len true p o a q → o ≠ .brk → TrC len c p o (.opStart p :: (a ++ [.opFinish q])) q
  /-- an operation -/
  | op {p} (n : Nat) : TrC len true p .ok [.opOp n p] p
  /-- error recovery with a rule -/
  | recovery {c p q a} : TrC len false p .ok a q → TrC len c p .ok (.recStart p :: (a ++ [.recFinish q])) q
  | recoveryFail {c p q a} : TrC len false p .fail a q → TrC len c p .fail (.recStart p :: (a ++ [.recCancel q])) q
  /-- error recovery that searches for something and finds it -/
  | search {c p q ce} : SearchTr len p q ce → q ≤ len →
      TrC len c p .ok (.recStart p :: (ce ++ [.token .error p q, .recFinish q])) q
  /-- error recovery after a failure that does not find what it searches -/
  | searchFail {c p q r a ce} : TrC len c p .fail a q → SearchTr len q r ce → r ≤ len →
      TrC len c p .fail (a ++ .recStart q :: (ce ++ [.token .error q r, .recCancel r])) r

/-- Not directly inside of a chain of operations. -/
abbrev Tr (len : Nat) : Nat → Out → List Ev → Nat → Prop := TrC len false

/-- Start or end of a production. -/
def Ev.isProd : Ev → Bool
  | .prodStart .. | .prodFinish .. | .prodCancel .. => true
  | _ => false

/-- Events inside of a production that starts at `lo` or before. -/
inductive ErrOk : Nat → List Ev → Prop
  | nil {lo} : ErrOk lo []
  | one {lo ev} : ev.isError = false → ev.isProd = false → ErrOk lo [ev]
  | err {lo tag b e} : lo ≤ b → ErrOk lo [.error tag b e]
  | app {lo a b} : ErrOk lo a → ErrOk lo b → ErrOk lo (a ++ b)
  | prod {lo n p q a} : lo ≤ p → ErrOk p a → ErrOk lo (.prodStart n p :: (a ++ [.prodFinish n q]))
  | prodFail {lo n p q a} : lo ≤ p → ErrOk p a → ErrOk lo (.prodStart n p :: (a ++ [.prodCancel n q]))

end Verif
