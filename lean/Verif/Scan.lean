import Verif.Action

/-
Model of scanners: `lexy::scan` and `dsl::scan`.

Source: /repo/include/lexy/dsl/scan.hpp, /repo/include/lexy/action/scan.hpp, /repo/include/lexy/dsl/parse_as.hpp

A client calls the member functions of a scanner one after the other; which one it calls next may depend on everything
seen before.  A run of a client is the sequence of its calls, so statements about all sequences are statements about
all clients.

Simplifications
 * values are not modelled (`scan_result` is its `has_value()`);
 * `parse_as` (parse_as.hpp l.57-150) creates a second control block and copies `vars`, `cur_depth` and
   `enable_whitespace_skipping` to it and back (action/base.hpp l.82-103), whether the rule succeeds or not; so it is
   the rule with its variables unlinked;
 * the arguments of `error()` and `fatal_error()` are a tag and a range chosen by the client.
-/

namespace Verif

/-- `scanner::_state`, dsl/scan.hpp l.412-417. -/
inductive ScanMode
  | normal | failed | recovery
  deriving DecidableEq, Repr

/-- A scanner: its reader with the control block, `_state`, and the events it has caused so far. -/
structure Scanner where
  st : St
  mode : ScanMode := .normal
  evs : List Ev := []

/-- The member functions of a scanner, dsl/scan.hpp l.199-397.  `peek(rule)` is `branch(dsl::peek(rule))` (l.362-367),
    `integer` and `capture` are `parse` (l.369-397).  The guard is the object returned by `error_recovery()`. -/
inductive ScanOp
  | parse (r : Rule)
  | branch (r : Rule)
  | discard (r : Rule)
  | error (tag b e : Nat)
  | fatal (tag b e : Nat)
  | recover
  | guardFinish
  | guardCancel

/-- The rule is done: `_state` and the reader afterwards, dsl/scan.hpp l.207-210 and l.249-253. -/
def Scanner.after (s : Scanner) (r : Res) : Option Scanner :=
  match r.out with
  | .ok => some { s with st := { r.st with ex := s.st.ex }, evs := s.evs ++ r.evs }
  | .fail => some ⟨{ r.st with ex := s.st.ex }, .failed, s.evs ++ r.evs⟩
  | .brk => none

/-- A call of a member function: the scanner afterwards, and what the function returns (`true` if nothing).
    `none`: out of steps, undefined behavior in a rule, or the precondition of `error_recovery()` is violated. -/
def Scanner.step (E : Env) (fuel : Nat) (cx : Cx) (s : Scanner) : ScanOp → Option (Scanner × Bool)
  -- l.200-211
  | .parse r =>
    if s.mode = .failed then some (s, true)
    else ((framed s.st.vars.length (exec E fuel cx (.run r) { s.st with ex := {} })).bind s.after).map (·, true)
  -- l.234-255
  | .branch r =>
    if s.mode = .failed then some (s, false)
    else match exec E fuel cx (.btry r) { s.st with ex := {} } with
      | none => none
      | some t =>
        if t.out = .ok then
          ((framed s.st.vars.length (exec E fuel cx (.bfinish r) { s.st with ex := {} })).bind s.after).map (·, true)
        else ((exec E fuel cx (.bcancel r) { s.st with ex := {} }).bind s.after).map (·, false)
  -- l.308-323; `try_match_token` leaves the reader where it is if the token does not match (dsl/base.hpp l.244-271)
  | .discard r =>
    if s.mode = .failed then some (s, false)
    else match exec E fuel cx (.tokTry r) s.st with
      | none => none
      | some t =>
        let e := if t.out = .ok then t.st.pos else s.st.pos
        some ({ s with st := { s.st with pos := e }, evs := s.evs ++ [.token .error s.st.pos e] }, t.out == .ok)
  -- l.325-337
  | .error tag b e => some ({ s with evs := s.evs ++ [.error tag b e] }, true)
  -- l.339-351
  | .fatal tag b e => some ({ s with mode := .failed, evs := s.evs ++ [.error tag b e] }, true)
  -- l.290-306 (the guard's constructor and `error_recovery`)
  | .recover =>
    if s.mode = .failed then some ({ s with mode := .recovery, evs := s.evs ++ [.recStart s.st.pos] }, true) else none
  -- l.283-288
  | .guardFinish => some ({ s with mode := .normal, evs := s.evs ++ [.recFinish s.st.pos] }, true)
  -- l.276-281
  | .guardCancel => some ({ s with mode := .failed, evs := s.evs ++ [.recCancel s.st.pos] }, true)

/-- A sequence of calls. -/
def Scanner.run (E : Env) (fuel : Nat) (cx : Cx) (s : Scanner) : List ScanOp → Option (Scanner × List Bool)
  | [] => some (s, [])
  | o :: os => (s.step E fuel cx o).bind fun x => (x.1.run E fuel cx os).map fun y => (y.1, x.2 :: y.2)

/-- The constructor of `lexy::scanner`, action/scan.hpp l.40-45; `n` is the control production.  There is no
    `grammar_start`, and no whitespace is skipped. -/
def Scanner.init (n : Nat) : Scanner := ⟨{ pos := 0 }, .normal, [.prodStart n 0]⟩

/-- `lexy::scanner::finish`, action/scan.hpp l.52-63: the events, and the result. -/
def Scanner.finish (n : Nat) (s : Scanner) : List Ev × Validated :=
  let ok := s.mode == .normal
  let evs := s.evs ++ [if ok then .prodFinish n s.st.pos else .prodCancel n s.st.pos]
  (evs, .mk' ok (evs.foldl validateOn []))

/-- `lexy::scan` (action/scan.hpp l.79-94) with the control production `n`, the given calls, and `finish`. -/
def scanAction (E : Env) (fuel n maxDepth : Nat) (ops : List ScanOp) : Option (Scanner × List Ev × Validated) :=
  ((Scanner.init n).run E fuel ⟨(E.prods n).ws, maxDepth⟩ ops).map fun x => (x.1, x.1.finish n)

/-- `_scan::p::_parse`, dsl/scan.hpp l.471-492: the calls of `Production::scan()`, and whether it returns a value. -/
def scanRule (E : Env) (fuel : Nat) (cx : Cx) (ops : List ScanOp) (hasValue : Bool) (st : St) : Option Res :=
  ((⟨st, .normal, []⟩ : Scanner).run E fuel cx ops).map fun x => ⟨if hasValue then .ok else .fail, x.1.st, x.1.evs⟩

end Verif
