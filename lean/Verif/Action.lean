import Verif.Grammar

/-
Model of the actions `match`, `validate` and `parse`.

Source: /repo/include/lexy/action/match.hpp, validate.hpp, parse.hpp, base.hpp

An action runs the grammar and lets its handler see the events one after the other (`_pc::on`, base.hpp l.166-170);
what the handler returns is only handed back to the handler (the marker of an operation chain), so the events do not
depend on the action.
The user supplied error callback is modelled as the sink that collects the errors.
-/

namespace Verif

/-- `_mh`, match.hpp l.11-45: the state is `_failed`. -/
def matchOn (failed : Bool) : Ev → Bool
  | .error .. => true
  | _ => failed

/-- `_mh::get_result`, match.hpp l.38-41. -/
def matchResult (r : Res) : Bool := r.out == .ok && !(r.evs.foldl matchOn false)

/-- `lexy::match`, match.hpp l.47-86. -/
def matchAction (E : Env) (fuel n d : Nat) : Option Bool := (runGrammar E fuel n d).map matchResult

/-- `validate_result::_status`, validate.hpp l.108-113. -/
inductive Status
  | success | recovered | fatal
  deriving DecidableEq, Repr

/-- `validate_result`: the errors that were collected and the status. -/
structure Validated where
  errors : List (Nat × Nat × Nat)
  status : Status
  deriving DecidableEq, Repr

/-- The constructor of `validate_result`, validate.hpp l.96-105. -/
def Validated.mk' (didRecover : Bool) (errors : List (Nat × Nat × Nat)) : Validated :=
  ⟨errors, if errors.length = 0 then .success else if didRecover then .recovered else .fatal⟩

/-- `_vh::event_handler::on`, validate.hpp l.183-232: errors go to the sink (tag and range of the error). -/
def validateOn (sink : List (Nat × Nat × Nat)) : Ev → List (Nat × Nat × Nat)
  | .error tag b e => sink ++ [(tag, b, e)]
  | _ => sink

/-- `_vh::get_result`, validate.hpp l.256-261. -/
def validateResult (r : Res) : Validated := .mk' (r.out == .ok) (r.evs.foldl validateOn [])

/-- `lexy::validate`, validate.hpp l.268-316. -/
def validateAction (E : Env) (fuel n d : Nat) : Option Validated := (runGrammar E fuel n d).map validateResult

/-- `parse_result`, parse.hpp l.15-93; the value itself is not modelled. -/
structure Parsed where
  impl : Validated
  hasValue : Bool
  deriving DecidableEq, Repr

/-- `_ph::get_result` with the constructors of `parse_result` (parse.hpp l.79-85, l.121-133).  `context.value` is set by
    `final_parser` (action/base.hpp l.165-173), that is where the rule succeeds.
    `none`: the precondition of the constructor (parse.hpp l.83) is violated. -/
def parseResult (r : Res) : Option Parsed :=
  let impl := validateResult r
  if r.out = .ok then
    if impl.status = .success ∨ impl.status = .recovered then some ⟨impl, true⟩ else none
  else some ⟨impl, false⟩

/-- `lexy::parse`, parse.hpp l.139-187. -/
def parseAction (E : Env) (fuel n d : Nat) : Option Parsed := (runGrammar E fuel n d).bind parseResult

end Verif
