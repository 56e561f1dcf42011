import Verif.Tokens

/-
Terminators and brackets: objects that build rules.

Source: /repo/include/lexy/dsl/terminator.hpp, /repo/include/lexy/dsl/brackets.hpp, `_maybe_branch` of
/repo/include/lexy/dsl/branch.hpp

Simplifications: the literals of `.limit()` are matched without case folding; a literal set matches if one of its literals
does (C15).  `LEXY_REQUIRE_BRANCH_RULE` is not checked: a terminator or opening bracket that is not a branch rule does not
compile, here the rules have no result where they need the branch.
-/

namespace Verif.Bk

/-- `_maybe_branch`, branch.hpp l.103-110. -/
def maybeBranch (E : Env) (c r : Rule) : Rule := if c.isBranch E then .br c r else .seq c r

/-- `_term<Terminator, RecoveryLimit>`, terminator.hpp l.22-23; the literals of the limit, none for `void`. -/
structure Term where
  term : Rule
  lim : List (List Nat) := []

/-- Whether the literal set matches, recover.hpp l.160-161. -/
def limitHere (eof : Option Nat) (ls : List (List Nat)) (s : List Nat) : Bool :=
  ls.any fun w => ((matchLiteral eof id w s).getD (false, 0)).1

/-- `_term::limit`, terminator.hpp l.25-33. -/
def Term.limit (t : Term) (ls : List (List Nat)) : Term := { t with lim := t.lim ++ ls }

/-- `_term::recovery_rule`, terminator.hpp l.91-98. -/
def Term.recovery (E : Env) (t : Term) : Recov := .reco (limitHere E.eof t.lim) [t.term]

/-- `_term::operator()`, terminator.hpp l.36-41. -/
def Term.call (E : Env) (t : Term) (r : Rule) : Rule := maybeBranch E r t.term

/-- `_term::try_`, terminator.hpp l.43-48. -/
def Term.tryIt (E : Env) (t : Term) (r : Rule) : Rule := .tryt (some t.term) r (t.recovery E)

/-- `_term::opt`, terminator.hpp l.50-56. -/
def Term.opt (E : Env) (t : Term) (r : Rule) : Rule := .optt t.term (.tryt (some t.term) r (t.recovery E))

/-- `_term::list`, terminator.hpp l.58-70. -/
def Term.list (E : Env) (t : Term) (r : Rule) (sep : Option Sep) : Rule := .lstt t.term r sep (limitHere E.eof t.lim)

/-- `_term::opt_list`, terminator.hpp l.72-84. -/
def Term.optList (E : Env) (t : Term) (r : Rule) (sep : Option Sep) : Rule :=
  .optt t.term (.lstt t.term r sep (limitHere E.eof t.lim))

/-- `_brackets<Open, Close, RecoveryLimit>`, brackets.hpp l.13-14. -/
structure Brackets where
  open_ : Rule
  close : Rule
  lim : List (List Nat) := []

/-- `_brackets::as_terminator`, brackets.hpp l.86-90. -/
def Brackets.term (b : Brackets) : Term := ⟨b.close, b.lim⟩

/-- `_brackets::limit`, brackets.hpp l.16-24. -/
def Brackets.limit (b : Brackets) (ls : List (List Nat)) : Brackets := { b with lim := b.lim ++ ls }

/-- `_brackets::operator()`, brackets.hpp l.27-32. -/
def Brackets.call (E : Env) (b : Brackets) (r : Rule) : Rule := .br b.open_ (b.term.call E r)

/-- `_brackets::try_`, brackets.hpp l.34-39. -/
def Brackets.tryIt (E : Env) (b : Brackets) (r : Rule) : Rule := .br b.open_ (b.term.tryIt E r)

/-- `_brackets::opt`, brackets.hpp l.41-47. -/
def Brackets.opt (E : Env) (b : Brackets) (r : Rule) : Rule := .br b.open_ (b.term.opt E r)

/-- `_brackets::list`, brackets.hpp l.49-60. -/
def Brackets.list (E : Env) (b : Brackets) (r : Rule) (sep : Option Sep) : Rule := .br b.open_ (b.term.list E r sep)

/-- `_brackets::opt_list`, brackets.hpp l.62-73. -/
def Brackets.optList (E : Env) (b : Brackets) (r : Rule) (sep : Option Sep) : Rule := .br b.open_ (b.term.optList E r sep)

/-- `round_bracketed`, `square_bracketed`, `curly_bracketed`, `angle_bracketed`, brackets.hpp l.107-110. -/
def round (eof : Option Nat) : Brackets := ⟨.tok (litTok eof 1 1 [0x28]), .tok (litTok eof 2 2 [0x29]), []⟩
def square (eof : Option Nat) : Brackets := ⟨.tok (litTok eof 1 1 [0x5B]), .tok (litTok eof 2 2 [0x5D]), []⟩
def curly (eof : Option Nat) : Brackets := ⟨.tok (litTok eof 1 1 [0x7B]), .tok (litTok eof 2 2 [0x7D]), []⟩
def angle (eof : Option Nat) : Brackets := ⟨.tok (litTok eof 1 1 [0x3C]), .tok (litTok eof 2 2 [0x3E]), []⟩

end Verif.Bk
