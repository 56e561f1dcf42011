import Verif.CaseFold

/-
Model of the callbacks and sinks of the library.

Source: /repo/include/lexy/callback/container.hpp, fold.hpp, string.hpp, aggregate.hpp, integer.hpp, adapter.hpp,
        composition.hpp, bind.hpp

Values are abstract (types `α`, `ι`, …).  Overload resolution is done by the constructors of the argument types.
Not modelled: allocators (they do not influence the value), moved-from states, `construct`, `new_`, `bit_cast`,
`noop`, `constant`, `mem_fn` (which only forward to C++).
-/

namespace Verif.Cb

/-- A sink: what `.sink()` creates, `operator()` and `finish()` (callback/base.hpp). -/
structure Sink (σ ι ρ : Type) where
  init : σ
  step : σ → ι → σ
  finish : σ → ρ

/-- A sink that is called with the values `xs` in this order. -/
def Sink.run {σ ι ρ : Type} (s : Sink σ ι ρ) (xs : List ι) : ρ := s.finish (xs.foldl s.step s.init)

/-- `lexy::callback(sink)`: `_cb_from_sink::operator()`, adapter.hpp l.86-96. -/
def cbFromSink {σ ι ρ : Type} (s : Sink σ ι ρ) (args : List ι) : ρ :=
  let cb := args.foldl s.step s.init
  s.finish cb

/-! ### Containers -/

/-- `std::vector`: the elements, the capacity, and how often memory was allocated (not part of lexy).
    `push_back` doubles the capacity if there is no space. -/
structure Vec (α : Type) where
  items : List α
  cap : Nat
  allocs : Nat
  deriving DecidableEq, Repr

namespace Vec
variable {α : Type}

def empty : Vec α := ⟨[], 0, 0⟩
def size (v : Vec α) : Nat := v.items.length
/-- A new vector with these elements. -/
def ofList (xs : List α) : Vec α := ⟨xs, xs.length, 0⟩
def reserve (v : Vec α) (n : Nat) : Vec α := if n ≤ v.cap then v else ⟨v.items, n, v.allocs + 1⟩
def pushBack (v : Vec α) (x : α) : Vec α :=
  if v.items.length < v.cap then ⟨v.items ++ [x], v.cap, v.allocs⟩
  else ⟨v.items ++ [x], max 1 (2 * v.cap), v.allocs + 1⟩

end Vec

/-- The arguments of a container callback: `nullopt`, an existing container, or elements. -/
inductive ContainerArgs (α κ : Type)
  | nullopt
  | container (c : κ)
  | elems (xs : List α)

/-- `_list::operator()`, container.hpp l.97-128. -/
def asList {α : Type} : ContainerArgs α (Vec α) → Vec α
  | .nullopt => .empty
  | .container c => c
  | .elems xs => xs.foldl Vec.pushBack (Vec.empty.reserve xs.length)

/-- `_list_sink`, container.hpp l.28-50. -/
def asListSink {α : Type} : Sink (Vec α) α (Vec α) := ⟨.empty, Vec.pushBack, id⟩

/-- `std::map::insert` / `emplace`: an element whose key exists already is not inserted.  (A `std::set` has
    keys without values.)  Here the elements are kept in the order of insertion. -/
def insertNew {κ ν : Type} [DecidableEq κ] (m : List (κ × ν)) (kv : κ × ν) : List (κ × ν) :=
  if m.any (fun p => p.1 == kv.1) then m else m ++ [kv]

/-- `_collection::operator()`, container.hpp l.237-268. -/
def asCollection {κ ν : Type} [DecidableEq κ] : ContainerArgs (κ × ν) (List (κ × ν)) → List (κ × ν)
  | .nullopt => []
  | .container c => c
  | .elems xs => xs.foldl insertNew []

/-- `_collection_sink`, container.hpp l.167-191. -/
def asCollectionSink {κ ν : Type} [DecidableEq κ] : Sink (List (κ × ν)) (κ × ν) (List (κ × ν)) := ⟨[], insertNew, id⟩

/-- `_concat::_call`, container.hpp l.318-346, for a container with `reserve` and without `append`. -/
def concatCall {α : Type} (head : Vec α) (tail : List (Vec α)) : Vec α :=
  match tail with
  | [] => head
  | tail =>
    let total := (tail.map Vec.size).foldl (· + ·) head.size
    tail.foldl (fun h c => c.items.foldl Vec.pushBack h) (head.reserve total)

/-- `_concat::_sink::operator()`, container.hpp l.360-392. -/
def concatStep {α : Type} (r c : Vec α) : Vec α :=
  if r.items = [] then { c with allocs := 0 }
  else
    let total := r.size + c.size
    let r' :=
      if r.cap < total then
        if 2 * r.cap < total then r.reserve total else r.reserve (2 * r.cap)
      else r
    c.items.foldl Vec.pushBack r'

/-- `_concat::_sink`, container.hpp l.354-403. -/
def concatSink {α : Type} : Sink (Vec α) (Vec α) (Vec α) := ⟨.empty, concatStep, id⟩

/-- `_collect_sink<Container, Callback>`, container.hpp l.414-439. -/
def collectSink {α β : Type} (cb : α → β) : Sink (Vec β) α (Vec β) := ⟨.empty, fun r x => r.pushBack (cb x), id⟩

/-- `_collect_sink<void, Callback>`, container.hpp l.441-466; the calls of the callback are recorded. -/
def collectVoidSink {α : Type} : Sink (Nat × List α) α (Nat × List α) := ⟨(0, []), fun r x => (r.1 + 1, r.2 ++ [x]), id⟩

/-- `_fold` with `fold` (not in place), fold.hpp l.28-64. -/
def foldSink {τ α : Type} (init : τ) (op : τ → α → τ) : Sink τ α τ := ⟨init, op, id⟩

/-- `lexy::count`, fold.hpp l.86-88. -/
def countSink {α : Type} : Sink Nat α Nat := foldSink 0 fun n _ => n + 1

/-! ### Strings -/

/-- What the sink of `as_string` accepts. -/
inductive StrArg
  | char (c : Nat)
  | str (s : List Nat)
  | range (s : List Nat)
  | lexeme (s : List Nat)
  | codePoint (cp : Nat)
  deriving DecidableEq, Repr

/-- `_as_string::_sink::operator()`, string.hpp l.145-188. -/
def strStep (e : Enc) (r : List Nat) : StrArg → List Nat
  | .char c => r ++ [c]
  | .str s => r ++ s
  | .range s => r ++ s
  | .lexeme s => r ++ s
  | .codePoint cp => r ++ encodeCp e cp

/-- `_as_string::_sink`; `cf` is `_case_folding` (the identity without case folding). -/
def asStringSink (e : Enc) (cf : List Nat → Option (List Nat)) : Sink (List Nat) StrArg (Option (List Nat)) :=
  ⟨[], strStep e, cf⟩

/-- `_as_string::operator()`, string.hpp l.84-142: one argument (`none` = `nullopt`).
    There is no overload for a single character. -/
def asString (e : Enc) (cf : List Nat → Option (List Nat)) : Option StrArg → Option (List Nat)
  | none => some []
  | some (.char _) => none
  | some (.str s) => cf s
  | some (.range s) => cf s
  | some (.lexeme s) => cf s
  | some (.codePoint cp) => cf (encodeCp e cp)

/-! ### Aggregates -/

/-- An aggregate: the values of its members.  `member<Fn>` with a member pointer assigns, member.hpp l.14-21. -/
def assign {μ ν : Type} [DecidableEq μ] (t : μ → ν) (m : μ) (v : ν) : μ → ν := fun k => if k = m then v else t k

/-- `_as_aggregate::operator()` with an existing object, aggregate.hpp l.22-40. -/
def asAggregateWith {μ ν : Type} [DecidableEq μ] (t : μ → ν) : List (μ × ν) → (μ → ν)
  | [] => t
  | (m, v) :: tail => asAggregateWith (assign t m v) tail

/-- `_as_aggregate::operator()` without one (`dflt` = `T{}`); `nullopt` is the empty list. -/
def asAggregate {μ ν : Type} [DecidableEq μ] (dflt : μ → ν) : List (μ × ν) → (μ → ν)
  | [] => dflt
  | (m, v) :: tail => asAggregateWith (assign dflt m v) tail

/-- `_as_aggregate::_sink`, aggregate.hpp l.43-59. -/
def asAggregateSink {μ ν : Type} [DecidableEq μ] (dflt : μ → ν) : Sink (μ → ν) (μ × ν) (μ → ν) :=
  ⟨dflt, fun t mv => assign t mv.1 mv.2, id⟩

/-! ### Integers -/

/-- An integer type of C++. -/
structure IntTy where
  bits : Nat
  signed : Bool
  deriving DecidableEq, Repr

def IntTy.min (t : IntTy) : Int := if t.signed then -(2 ^ (t.bits - 1)) else 0
def IntTy.max (t : IntTy) : Int := if t.signed then 2 ^ (t.bits - 1) - 1 else 2 ^ t.bits - 1
def IntTy.Fits (t : IntTy) (v : Int) : Prop := t.min ≤ v ∧ v ≤ t.max
instance (t : IntTy) (v : Int) : Decidable (t.Fits v) := by unfold IntTy.Fits; infer_instance

/-- Integral promotion: types with fewer bits than `int` (32) become `int`. -/
def IntTy.promote (t : IntTy) : IntTy := if t.bits < 32 then ⟨32, true⟩ else t

/-- Conversion to a type (modular). -/
def IntTy.conv (t : IntTy) (v : Int) : Int :=
  let m := v % 2 ^ t.bits
  if t.signed ∧ 2 ^ (t.bits - 1) ≤ m then m - 2 ^ t.bits else m

/-- Unary minus: promotion; unsigned types wrap around, overflow of signed types is undefined. -/
def negate (t : IntTy) (v : Int) : Option Int :=
  let p := t.promote
  if p.signed then (if p.Fits (-v) then some (-v) else none) else some (p.conv (-v))

inductive Sign
  | none | plus | minus
  deriving DecidableEq, Repr

/-- `as_integer<T>`: `_int<T>::operator()` for a value of type `i`, callback/integer.hpp l.12-36. -/
def asInteger (t i : IntTy) (s : Sign) (v : Int) : Option Int :=
  match s with
  | .none | .plus => some (t.conv v)
  | .minus => (negate i v).map t.conv

/-! ### Composition and binding -/

/-- `_compose_cb::operator()`, composition.hpp l.62-67. -/
def composeCb {α β γ : Type} (first : α → β) (second : β → γ) (x : α) : γ := second (first x)

/-- A bound argument: a value, `lexy::values`, `nth_value<N>` with an optional function and an optional
    fallback, or `parse_state` with a function. -/
inductive Bound (σ α : Type)
  | const (v : α)
  | values
  | nth (n : Nat) (fallback : Option α) (fn : Option (α → α))
  | state (fn : σ → α)

/-- `expand_bound_arg` and the call operators of the placeholders, bind.hpp l.19-28, l.96-190.
    An actual argument `none` is a `nullopt`.  `none` as result = ill-formed.  (If there is no fallback, `nullopt`
    is passed on like any other value; `nullV` stands for it.) -/
def expand {σ α : Type} (nullV : α) (st : Option σ) (args : List (Option α)) : Bound σ α → Option (List α)
  | .const v => some [v]
  | .values => some (args.map (·.getD nullV))
  | .nth n (some fb) fn =>
    if n > args.length then some [fb]
    else match args[n - 1]? with
      | none => none
      | some none => some [fb]
      | some (some v) => some [match fn with | none => v | some f => f v]
  | .nth n none fn =>
    if n > args.length then none
    else match args[n - 1]? with
      | none => none
      | some a => some [match fn with | none => a.getD nullV | some f => f (a.getD nullV)]
  | .state fn => st.map fun s => [fn s]

/-- `_invoke_bound<Idx>`: the recursion used if one of the bound arguments is `lexy::values`, bind.hpp l.36-69. -/
def invokeRec {σ α : Type} (nullV : α) (st : Option σ) (args : List (Option α)) (produced : List α) :
    List (Bound σ α) → Option (List α)
  | [] => some produced
  | b :: bs =>
    match expand nullV st args b with
    | none => none
    | some vs => invokeRec nullV st args (produced ++ vs) bs

/-- The other case: every bound argument is expanded to one value, bind.hpp l.87-91. -/
def invokeMap {σ α : Type} (nullV : α) (st : Option σ) (args : List (Option α)) : List (Bound σ α) → Option (List α)
  | [] => some []
  | b :: bs =>
    match expand nullV st args b with
    | some [v] => (invokeMap nullV st args bs).map (v :: ·)
    | _ => none

def Bound.isValues {σ α : Type} : Bound σ α → Bool
  | .values => true
  | _ => false

/-- `invoke_bound`, bind.hpp l.71-93: the arguments the callback is called with. -/
def invokeBound {σ α : Type} (nullV : α) (st : Option σ) (args : List (Option α)) (bound : List (Bound σ α)) :
    Option (List α) :=
  if bound.any Bound.isValues then invokeRec nullV st args [] bound else invokeMap nullV st args bound

end Verif.Cb
