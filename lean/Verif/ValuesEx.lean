import Verif.ValuesEnds

/-
Examples for the theorems about values, and what `return_` does where it should not do it.
-/

namespace Verif.Val

open Spec

namespace Ex

def letterTok : PTok := Verif.Ex.oneOf 7 17 [97, 98, 99]
def digitTok : PTok := Verif.Ex.oneOf 4 14 [48, 49, 50, 51, 52, 53, 54, 55, 56, 57]
def commaTok : PTok := Verif.Ex.lit 3 13 [44]

def env (s : List Nat) (prods : Nat → VProd) : VEnv :=
  { inp := s, prods := prods, exprs := (Verif.Ex.env s Verif.Ex.lists).exprs }

/-- A list of letters with an optional digit each, and the position behind it; whitespace is skipped. -/
def names : Nat → VProd
  | 0 => { rule := .seq (.lst (.prod 1) (some (.leaf (.tok commaTok), .sep 22))) (.posr (.leaf .els)),
           ws := some Verif.Ex.space }
  | _ => { rule := .br (.cap letterTok) (.opt (.cap digitTok)) }

/-- `a1 , b` -/
def namesEnv : VEnv := env [97, 49, 32, 44, 32, 98] names

end Ex

example : ((parseV Ex.namesEnv 30 0 0).map fun x => x.2) = some (some (.call 0
    [.sink 0 [[.call 1 [.lexeme 0 1, .lexeme 1 2]], [.call 1 [.lexeme 5 6, .nullopt]]], .pos 6])) := rfl

/-- The hypotheses of `C79_callbacks_partial` and `C79_parsing_partial`. -/
theorem names_quiet : ∀ m, ∀ r ∈ (Ex.namesEnv.prods m).rule.parts, QuietRule Ex.namesEnv r := by
  intro m
  match m with
  | 0 =>
    intro r hr
    simp only [Ex.namesEnv, Ex.env, Ex.names, VR.parts, List.nil_append, List.mem_append, List.mem_singleton] at hr
    rcases hr with rfl | rfl
    · exact quiet_tok _ _
    · exact quiet_els _
  | m + 1 =>
    intro r hr
    simp [Ex.namesEnv, Ex.env, Ex.names, VR.parts] at hr

theorem names_std : ∀ m, (Ex.namesEnv.prods m).rule.std = true := by
  intro m
  match m with
  | 0 => rfl
  | m + 1 => rfl

/-- The hypotheses of `C79_ends_partial`. -/
theorem names_total : ∀ m, (Ex.namesEnv.prods m).rule.total Ex.namesEnv = true := by
  intro m
  match m with
  | 0 => rfl
  | m + 1 => rfl

example : ∃ k r res, (∀ j, k ≤ j → parseV Ex.namesEnv j 0 0 = some (r, res)) ∧ res.isSome = true := by
  have hr : ((runGrammar Ex.namesEnv.env 30 0 0).map (·.out)) = some .ok := rfl
  obtain ⟨x, hx, ho⟩ := Option.map_eq_some_iff.1 hr
  obtain ⟨k, r, res, h1, rfl⟩ := C79_ends_partial hx names_std names_total
  refine ⟨k, r, res, h1, ?_⟩
  cases res with
  | none => cases ho
  | some v => rfl

/-- The callbacks of `C79_callbacks_partial`, in the order they are called. -/
example : ((parseV Ex.namesEnv 30 0 0).map fun x => x.1.calls) =
    some [(1, [.lexeme 0 1, .lexeme 1 2]), (1, [.lexeme 5 6, .nullopt]),
      (0, [.sink 0 [[.call 1 [.lexeme 0 1, .lexeme 1 2]], [.call 1 [.lexeme 5 6, .nullopt]]], .pos 6])] := rfl

example : ((parseV Ex.namesEnv 30 0 0).map fun x => finished x.1.evs) = some [1, 1, 0] := rfl

example : (runGrammar Ex.namesEnv.env 30 0 0).map (·.out) = some .ok := by
  have h : (parseV Ex.namesEnv 30 0 0).isSome = true := rfl
  cases hx : parseV Ex.namesEnv 30 0 0 with
  | none => rw [hx] at h; cases h
  | some x =>
    rw [C79_parsing_partial (r := x.1) (res := x.2) hx names_std]
    have h2 : ((parseV Ex.namesEnv 30 0 0).map fun x => x.2.isSome) = some true := rfl
    rw [hx] at h2
    simp only [Option.map_some, Option.some.injEq] at h2
    simp [h2]

/-- A parse that recovers still has a value, without the item that is missing: `a1 , ,` -/
example : ((parseV (Ex.env [97, 49, 32, 44, 32, 44] Ex.names) 30 0 0).map fun x => x.2) =
    some (some (.call 0 [.sink 0 [[.call 1 [.lexeme 0 1, .lexeme 1 2]]], .pos 5])) := rfl

/-- One that fails has none, and calls nothing: `,` -/
example : ((parseV (Ex.env [44] Ex.names) 30 0 0).map fun x => (x.2, x.1.calls)) = some (none, []) := rfl

/-- A captured production, with a value of its own: the lexeme does not contain the whitespace behind it. `a ` -/
example : ((parseV (Ex.env [97, 32] fun
    | 0 => { rule := .capp 1, ws := some Verif.Ex.space }
    | _ => { rule := .cap Ex.letterTok, isTok := true }) 30 0 0).map fun x => (x.2, x.1.st.pos)) =
    some (some (.call 0 [.lexeme 0 1, .call 1 [.lexeme 0 1]]), 2) := rfl

/-- A production that is left early: `a` is returned, `b` is not parsed. -/
example : ((parseV (Ex.env [97, 98] fun _ => { rule := .seq (.cap Ex.letterTok) (.seq .ret (.cap Ex.letterTok)) })
    30 0 0).map fun x => (x.2, x.1.st.pos)) = some (some (.call 0 [.lexeme 0 1]), 1) := rfl

/-- Documented (return.adoc): `return_` "always succeeds"; "parsing of the current production is then finished",
    and only loops may not contain it.  Within `try_` it does not: the assertion "we've failed without reaching the continuation"
    (recover.hpp l.277) is violated, for every input that reaches `return_`. -/
theorem C79_return_in_try_refuted :
    (∀ fuel, parseV (Ex.env [97] fun _ =>
      { rule := .tryt none (.seq (.cap Ex.letterTok) .ret) (.wrap (.leaf .els)) }) fuel 0 0 = none) ∧
    ((parseV (Ex.env [97] fun _ => { rule := .seq (.cap Ex.letterTok) .ret }) 30 0 0).map fun x => x.2) =
      some (some (.call 0 [.lexeme 0 1])) := by
  refine ⟨fun fuel => ?_, rfl⟩
  match fuel with
  | 0 => rfl
  | 1 => rfl
  | 2 => rfl
  | 3 => rfl
  | n + 4 => rfl

/-- Documented: `return_` produces no values.  As the recovery rule of `try_`, it hands a `bool&` to the callback (the
    local variable `recovery_finished`, recover.hpp l.41-45), and the recovery is reported as cancelled although the
    production is finished. -/
theorem C79_return_recovery_refuted :
    ((parseV (Ex.env [98] fun _ => { rule := .tryt none (.cap Ex.digitTok) (.wrap .ret) }) 30 0 0).map fun x =>
      (x.2, x.1.evs)) = some (some (.call 0 [.flag]),
        [.grammarStart 0, .prodStart 0 0, .token .error 0 0, .error 14 0 0, .recStart 0, .recCancel 0, .prodFinish 0 0,
          .grammarFinish 0]) := rfl

/-- Documented (parse_as.adoc): `parse_as` it "parses `rule` unchanged".  With a `return_` in the rule, the empty
    `lazy_init` for the value is dereferenced (parse_as.hpp l.128-143), for every input that reaches it. -/
theorem C79_return_in_parse_as_refuted (fuel : Nat) :
    parseV (Ex.env [97] fun _ => { rule := .pas 0 (.seq (.cap Ex.letterTok) .ret) }) fuel 0 0 = none := by
  match fuel with
  | 0 => rfl
  | 1 => rfl
  | 2 => rfl
  | 3 => rfl
  | n + 4 => rfl

/-- Documented (whitespace.adoc): `no_whitespace` "parses `rule` without automatic whitespace skipping".  If the rule is
    left with `return_`, it stays disabled: `ab c`, where the production `a` is not behind `no_whitespace`, is parsed
    with `no_whitespace(a)` but not with `no_whitespace(a + return_)`. -/
theorem C79_return_no_whitespace_refuted :
    let g (r : VR) := Ex.env [97, 98, 32, 99] fun
      | 0 => { rule := .seq (.prod 1) (.seq (.cap Ex.letterTok) (.cap Ex.letterTok)), ws := some Verif.Ex.space }
      | _ => { rule := .wsn r }
    ((parseV (g (.cap Ex.letterTok)) 30 0 0).map fun x => x.2.isSome) = some true ∧
    ((parseV (g (.seq (.cap Ex.letterTok) .ret)) 30 0 0).map fun x => x.2.isSome) = some false := ⟨rfl, rfl⟩

end Verif.Val
