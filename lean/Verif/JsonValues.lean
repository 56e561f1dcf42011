import Verif.Json
import Verif.ValuesPrims
import Verif.ValuesEx2
import Verif.Callback

/-
The values of examples/json.cpp: its grammar with what its rules produce, and what its callbacks make of that.

Source: /repo/examples/json.cpp l.24-49 (the data structures) and l.143-341 (the grammar)

Overload resolution is done by the constructors of `Obj`.  `std::map` is a list of pairs with different keys, in the order of
insertion.  Moves and lifetimes are not modelled.
-/

namespace Verif.Val

/-- `dsl::p<Production>` in an escape sequence, where the production is `token >> integer` and its callback is `construct<T>`. -/
def EscV.ofProd (n : Nat) (t : PTok) (kind dkind : Kind) (tag otag : Nat) (tok : List Nat → TokRes) (b : Base)
    (conv : List Int → Option (Nat × Bool)) : EscV where
  br := .ofProd n t (intRule kind dkind tag otag tok b conv)
  vals := fun inp p =>
    let q := p + (t.run (inp.drop p)).2
    [.made n (intVal conv inp q (intParse kind dkind tag otag tok b conv inp q).2.1)]
  ok := fun s p r _ h hr => by
    have h' : prodBranch n t (intRule kind dkind tag otag tok b conv) s p = some r := h
    unfold prodBranch at h'
    simp only at h'
    split at h'
    · cases h'
      exact Nat.le_trans (Nat.le_add_right _ _) (intParse_errs s _).1
    · cases h'

end Verif.Val

namespace Verif.Json

open Val

/-! ## The grammar with its values -/

/-- json.cpp l.181 and 197: `dsl::integer<std::int64_t>(…)`, `dsl::integer<std::int16_t>`. -/
def integerV : VPrim := intPrim (.user 3) (.user 3) 3 4 (nlzTok .decimal) .decimal (boundedParse true (.plain int64) .decimal)
def exponentV : VPrim := intPrim (.user 3) (.user 3) 3 4 (matchDigits .decimal) .decimal (boundedParse true (.plain int16) .decimal)

/-- json.cpp l.236-256: the content of a string, with the values of its escapes. -/
def contentV : DelimV where
  del := content
  esc := [(litTok eof 0 0 [0x5C],
    [EscV.ofSym escapedSymbols eof 9,
     EscV.ofProd 13 (litTok eof 0 0 [0x75]) (.user 3) (.user 3) 3 4 (nDigits .hex 4) .hex (nDigitsParse true (.plain char16) 4 .hex)])]

/-- `LEXY_LIT` has no value. -/
def litV (w : List Nat) : VR := .leaf (lit w)

/-- `brackets.opt_list(item, sep)`. -/
def optListV (o c : Nat) (item : VR) : VR :=
  .br (litV [o]) (.optt (litV [c]) (.lstt (litV [c]) item (some (litV [0x2C], .sep 10)) fun _ => false))

def valueV : VR := .recu 1 11 false

/-- The productions, json.cpp l.150-340.  1 and 2 are the values of `plus_sign` and `minus_sign`. -/
def prodsV : Nat → VProd
  | 0 => { rule := .seq (.prod 1) (.leaf (.prim (eofRule eof 12))), ws := some (.tok space), branch := false }
  | 1 => { rule := .chc [.prod 2, .prod 3, .prod 6, .prod 10, .prod 12, .prod 11, .leaf (.err 13 none)], transparent := true,
           branch := true }
  | 2 => { rule := litV [0x6E, 0x75, 0x6C, 0x6C], isTok := true }
  | 3 => { rule := .chc [.prod 4, .prod 5], isTok := true }
  | 4 => { rule := litV [0x74, 0x72, 0x75, 0x65], transparent := true }
  | 5 => { rule := litV [0x66, 0x61, 0x6C, 0x73, 0x65], transparent := true }
  | 6 => { rule := .br (.leaf (.peek 14 (.tok numberStart))) (.seq (.prod 7) (.seq (.opt (.prod 8)) (.opt (.prod 9)))), isTok := true }
  | 7 => { rule := .seq (minusSignV eof 2) (.prim integerV), transparent := true, branch := false }
  | 8 => { rule := .br (litV [0x2E]) (.cap (digitsTok 3 3 .decimal)), transparent := true }
  | 9 => { rule := .br (.leaf (.chc [lit [0x65], lit [0x45]])) (.seq (signV eof 1 2) (.prim exponentV)), transparent := true }
  | 10 => { rule := .wsn (.br (litV [0x22]) (.prim contentV.prim)), isTok := true }
  | 11 => { rule := optListV 0x5B 0x5D valueV }
  | 12 => { rule := optListV 0x7B 0x7D (.seq (.prod 10) (.seq (.leaf (.tryr (lit [0x3A]) (.wrap .els))) valueV)) }
  | _ => { rule := .br (litV [0x75]) (.leaf (.prim codeUnit)) }

def venv (s : List Nat) : VEnv := { inp := s, eof := eof, prods := prodsV, exprs := (env s).exprs }

/-- Without the values, it is the grammar of Json.lean. -/
theorem erase_prods (n : Nat) : (prodsV n).erase = prods n := by
  match n with
  | 0 | 1 | 2 | 3 | 4 | 5 | 6 | 7 | 8 | 9 | 10 | 11 | 12 => rfl
  | _ + 13 => rfl

theorem erase_env (s : List Nat) : (venv s).env = env s := by
  unfold VEnv.env venv env
  rw [show (fun n => (prodsV n).erase) = prods from funext erase_prods]

theorem std (s : List Nat) (n : Nat) : ((venv s).prods n).rule.std = true := by
  match n with
  | 0 | 1 | 2 | 3 | 4 | 5 | 6 | 7 | 8 | 9 | 10 | 11 | 12 => rfl
  | _ + 13 => rfl

/-! ## The data structures -/

/-- `ast::json_number`, json.cpp l.31-36. -/
structure AstNumber where
  integer : Int
  fraction : Option (List Nat)
  exponent : Option Int
  deriving DecidableEq, Repr

/-- `ast::json_value`, json.cpp l.28-49. -/
inductive Ast
  | null
  | bool (b : Bool)
  | number (n : AstNumber)
  | string (s : List Nat)
  | array (vs : List Ast)
  | object (ms : List (List Nat × Ast))

/-- An object of C++ that is the argument or the result of a callback. -/
inductive Obj
  | null
  | bool (b : Bool)
  | int (i : Int)
  | number (n : AstNumber)
  | string (s : List Nat)
  | array (vs : List Ast)
  | object (ms : List (List Nat × Ast))
  | value (a : Ast)
  | lexeme (s : List Nat)
  | codePoint (v : Nat)
  | nullopt | plus | minus

/-! ## The callbacks -/

/-- `std::int64_t` and `std::int16_t`. -/
def i64 : Cb.IntTy := ⟨64, true⟩
def i16 : Cb.IntTy := ⟨16, true⟩

/-- `lexy::as_integer<T>`, the value is a `T` (json.cpp l.182 and 199). -/
def asInt (t : Cb.IntTy) : List Obj → Option Obj
  | [.int i] => (Cb.asInteger t t .none i).map .int
  | [.plus, .int i] => (Cb.asInteger t t .plus i).map .int
  | [.minus, .int i] => (Cb.asInteger t t .minus i).map .int
  | _ => none

/-- `lexy::construct<ast::json_number>`, json.cpp l.205; `nullopt` is converted to an empty `std::optional`,
    dsl/option.hpp l.24-31. -/
def mkNumber : List Obj → Option Obj
  | [.int i, f, e] =>
    (match f with | .string s => some (some s) | .nullopt => some none | _ => none).bind fun f =>
    (match e with | .int e => some (some e) | .nullopt => some none | _ => none).bind fun e =>
    some (.number ⟨i, f, e⟩)
  | _ => none

/-- `lexy::construct<ast::json_value>`, json.cpp l.323 and 47-49. -/
def mkValue : List Obj → Option Obj
  | [.null] => some (.value .null)
  | [.bool b] => some (.value (.bool b))
  | [.number n] => some (.value (.number n))
  | [.string s] => some (.value (.string s))
  | [.array vs] => some (.value (.array vs))
  | [.object ms] => some (.value (.object ms))
  | _ => none

/-- The callbacks of the productions. -/
def callback : Nat → List Obj → Option Obj
  -- `forward<json_value>`, l.339
  | 0, [.value a] => some (.value a)
  | 1, args => mkValue args
  -- `construct<json_null>`, l.153
  | 2, [] => some .null
  -- `forward<json_bool>`, `constant(true)`, `constant(false)`, l.162-171
  | 3, [.bool b] => some (.bool b)
  | 4, [] => some (.bool true)
  | 5, [] => some (.bool false)
  | 6, args => mkNumber args
  | 7, args => asInt i64 args
  -- `as_string<std::string>`, l.189
  | 8, [.lexeme s] => (Cb.asString .utf8 some (some (.lexeme s))).map .string
  | 9, args => asInt i16 args
  -- `as_string<json_string, utf8_encoding>`, l.259
  | 10, [.string s] => (Cb.asString .utf8 some (some (.str s))).map .string
  -- `as_list<json_array>`, l.279
  | 11, [.nullopt] => some (.array (Cb.asList .nullopt).items)
  | 11, [.array vs] => some (.array (Cb.asList (.container (.ofList vs))).items)
  -- `as_collection<json_object>`, l.300
  | 12, [.nullopt] => some (.object (Cb.asCollection .nullopt))
  | 12, [.object ms] => some (.object (Cb.asCollection (.container ms)))
  | _, _ => none

/-- The arguments of the sink of a string; the value of a symbol is a `char`, represented by its index (ValuesPrims.lean). -/
def strArg : List Obj → Option Cb.StrArg
  | [.lexeme s] => some (.lexeme s)
  | [.int i] => (escapedSymbols.vals[i.toNat]?).map .char
  | [.codePoint v] => some (.codePoint v)
  | _ => none

def arrayArg : List Obj → Option Ast
  | [.value a] => some a
  | _ => none

def objectArg : List Obj → Option (List Nat × Ast)
  | [.string k, .value a] => some (k, a)
  | _ => none

/-- The sinks of the callbacks. -/
def sinkOf : Nat → List (List Obj) → Option Obj
  | 10, calls => (calls.mapM strArg).bind fun xs => ((Cb.asStringSink .utf8 some).run xs).map .string
  | 11, calls => (calls.mapM arrayArg).map fun xs => .array (Cb.asListSink.run xs).items
  | 12, calls => (calls.mapM objectArg).map fun xs => .object (Cb.asCollectionSink.run xs)
  | _, _ => none

/-- `construct<code_point>`, json.cpp l.242. -/
def construct : Nat → List Obj → Option Obj
  | 13, [.int i] => some (.codePoint i.toNat)
  | _, _ => none

mutual
/-- What a value is. -/
def eval (inp : List Nat) : Val → Option Obj
  | .lexeme b e => some (.lexeme ((inp.take e).drop b))
  | .nullopt => some .nullopt
  | .eff n => if n = 1 then some .plus else if n = 2 then some .minus else none
  | .num i => some (.int i)
  | .made t args => (evalL inp args).bind (construct t)
  | .call n args => (evalL inp args).bind (callback n)
  | .sink n calls => (evalLL inp calls).bind (sinkOf n)
  | .pos _ | .mem _ | .covered _ _ | .flag | .mark _ => none
def evalL (inp : List Nat) : List Val → Option (List Obj)
  | [] => some []
  | v :: vs => (eval inp v).bind fun o => (evalL inp vs).bind fun os => some (o :: os)
def evalLL (inp : List Nat) : List (List Val) → Option (List (List Obj))
  | [] => some []
  | v :: vs => (evalL inp v).bind fun o => (evalLL inp vs).bind fun os => some (o :: os)
end

/-- `lexy::parse<grammar::json>(input)`: the value and whether there was no error.  `none`: not finished within `fuel` steps,
    or undefined behavior. -/
def parse (fuel : Nat) (s : List Nat) : Option (Option Ast × Bool) :=
  (parseV (venv s) fuel 0 maxDepth).bind fun r =>
    let ok := r.1.evs.all fun ev => !ev.isError
    match r.2 with
    | none => some (none, ok)
    | some v => match eval s v with
      | some (.value a) => some (some a, ok)
      | _ => none

end Verif.Json
