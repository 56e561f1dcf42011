import Verif.JsonValueSound
import Verif.ValuesEnds
import Verif.JsonProps
import Verif.JsonUnique

/-
C99: what examples/json.cpp makes of a JSON text.
-/

namespace Verif.Json

open Spec.Json Val

/-- **C99.** The value of a parse without errors represents the value of the JSON text in front of the end of the input: numbers
    with their digits, strings encoded in UTF-8 with their escapes replaced, arrays with their values in order, objects as a map
    with the first of the members with each key. -/
theorem C99_value {s : List Nat} (hs : Units 256 s) {fuel : Nat} {a : Ast} (h : parse fuel s = some (some a, true)) :
    ∃ t rest j, s = t ++ rest ∧ (rest = [] ∨ rest.head? = some 0xFF) ∧ TextMeans exampleLimits t j ∧ Rep j a := by
  unfold parse at h
  obtain ⟨⟨r, v⟩, h1, h2⟩ := Option.bind_eq_some_iff.1 h
  cases v with
  | none => cases h2
  | some v =>
    simp only at h2
    cases he : eval s v with
    | none => rw [he] at h2; cases h2
    | some o =>
      rw [he] at h2
      cases o with
      | value a' =>
        simp only [Option.some.injEq, Prod.mk.injEq] at h2
        obtain ⟨rfl, h3⟩ := h2
        obtain ⟨t, rest, j, b, g1, g2, g3, g4, g5⟩ := parse_value hs h1 fun ev hev => by
          have := List.all_eq_true.1 h3 ev hev
          simpa using this
        rw [he] at g4
        cases g4
        exact ⟨t, rest, j, g1, g2, g3, g5⟩
      | _ => cases h2

/-- All the callbacks are called with arguments they accept: a parse without errors that has a value has one of `json_value`. -/
theorem C99_defined {s : List Nat} (hs : Units 256 s) {fuel : Nat} {r : VRes} {v : Val}
    (h : parseV (venv s) fuel 0 maxDepth = some (r, some v)) (hq : ∀ ev ∈ r.evs, ev.isError = false) :
    ∃ a, parse fuel s = some (some a, true) := by
  obtain ⟨t, rest, j, a, -, -, -, h1, -⟩ := parse_value hs h hq
  refine ⟨a, ?_⟩
  unfold parse
  rw [h]
  simp only [Option.bind_some, h1, Option.some.injEq, Prod.mk.injEq, true_and, List.all_eq_true]
  exact fun ev hev => by simp [hq ev hev]

theorem total (s : List Nat) (n : Nat) : ((venv s).prods n).rule.total (venv s) = true := by
  match n with
  | 0 | 1 | 2 | 3 | 4 | 5 | 6 | 7 | 8 | 9 | 10 | 11 | 12 => rfl
  | _ + 13 => rfl

/-- **C99.** Every JSON text within the limits has a value, and its parse ends without errors: what is in front of the end of the
    input, which is also where a byte 0xFF is. -/
theorem C99_complete {s t rest : List Nat} (hs : Units 256 s) (e : s = t ++ rest) (ht : Text exampleLimits 19 t)
    (hr : rest = [] ∨ rest.head? = some 0xFF) : ∃ fuel a, ∀ k, fuel ≤ k → parse k s = some (some a, true) := by
  obtain ⟨fuel, h⟩ := complete hs e ht hr
  unfold accepts at h
  obtain ⟨x, hx, hb⟩ := Option.map_eq_some_iff.1 h
  rw [← erase_env] at hx
  obtain ⟨k, r, res, h1, rfl⟩ := C79_ends_partial hx (std s) (total s)
  simp only [Bool.and_eq_true, Bool.not_eq_true', beq_iff_eq] at hb
  cases res with
  | none => cases hb.1
  | some v =>
    have hq : ∀ ev ∈ r.evs, ev.isError = false := by simpa using hb.2
    have hp : ∀ j, k ≤ j → ∃ a, eval s v = some (.value a) ∧ parse j s = some (some a, true) := by
      intro j hj
      obtain ⟨t', rest', jv, a, -, -, -, h2, -⟩ := parse_value hs (h1 j hj) hq
      refine ⟨a, h2, ?_⟩
      unfold parse
      rw [h1 j hj]
      simp only [Option.bind_some, h2, Option.some.injEq, Prod.mk.injEq, true_and, List.all_eq_true]
      exact fun ev hev => by simp [hq ev hev]
    obtain ⟨a, h2, -⟩ := hp k (Nat.le_refl _)
    refine ⟨k, a, fun j hj => ?_⟩
    obtain ⟨b, h3, h4⟩ := hp j hj
    rw [h2] at h3
    cases h3
    exact h4

/-- **C99.** Parsing with values ends, for every input. -/
theorem C99_ends (s : List Nat) : ∃ fuel r res, ∀ k, fuel ≤ k → parseV (venv s) k 0 maxDepth = some (r, res) := by
  obtain ⟨fuel, b, h⟩ := C81_ends s
  have := h fuel (Nat.le_refl _)
  unfold accepts at this
  obtain ⟨x, hx, -⟩ := Option.map_eq_some_iff.1 this
  rw [← erase_env] at hx
  obtain ⟨k, r, res, h1, -⟩ := C79_ends_partial hx (std s) (total s)
  exact ⟨k, r, res, h1⟩

/-- **C99.** A text of JSON has one value, and where it ends in an input is determined. -/
theorem C99_unambiguous {L : Limits} {t t' x x' : List Nat} {j j' : JV} (h : TextMeans L t j) (h' : TextMeans L t' j')
    (hx : x = [] ∨ x.head? = some 0xFF) (hx' : x' = [] ∨ x'.head? = some 0xFF) (e : t ++ x = t' ++ x') : t = t' ∧ j = j' :=
  text_unique h h' hx hx' e

/-- **C99.** Parsing a JSON text within the limits, whatever value it has: ends without errors, with an object that represents that
    value. -/
theorem C99_parse {s t rest : List Nat} {j : JV} (hs : Units 256 s) (e : s = t ++ rest) (ht : Text exampleLimits 19 t)
    (hj : TextMeans exampleLimits t j) (hr : rest = [] ∨ rest.head? = some 0xFF) :
    ∃ fuel a, Rep j a ∧ ∀ k, fuel ≤ k → parse k s = some (some a, true) := by
  obtain ⟨fuel, a, h⟩ := C99_complete hs e ht hr
  obtain ⟨t', rest', j', e', hr', hj', ha⟩ := C99_value hs (h fuel (Nat.le_refl _))
  obtain ⟨-, rfl⟩ := C99_unambiguous hj hj' hr hr' (e.symm.trans e')
  exact ⟨fuel, a, ha, h⟩

theorem number_of {L : Limits} {t : List Nat} {n : Num} (h : NumberV L t n) : Number L t := by
  obtain ⟨int, frac, exp, rfl, hi, hl, -, hf, he⟩ := h
  refine ⟨_, int, frac, exp, rfl, ?_, hi, hl, ?_, ?_⟩
  · cases n.minus
    · exact .inl rfl
    · exact .inr rfl
  · generalize n.frac = f at hf
    cases hf with
    | none => exact .inl rfl
    | some h => exact .inr ⟨_, rfl, h⟩
  · generalize n.exp = x at he
    cases he with
    | none => exact .inl rfl
    | some h1 h2 h3 => exact .inr ⟨_, [], _, rfl, h1, .inl rfl, h2, h3⟩
    | plus h1 h2 h3 => exact .inr ⟨_, [0x2B], _, rfl, h1, .inr (.inl rfl), h2, h3⟩
    | minus h1 h2 h3 => exact .inr ⟨_, [0x2D], _, rfl, h1, .inr (.inr rfl), h2, h3⟩

theorem str_of {L : Limits} {t cs : List Nat} (h : StrV L t cs) : Str L t := by
  have chars : ∀ {t cs}, CharsV L t cs → Chars L t := by
    intro t cs h
    induction h with
    | nil => exact .nil
    | unescaped h hl hs ih => exact .unescaped h hl ih
    | escape h hs ih =>
      refine .escape ?_ ih
      revert h
      unfold escaped
      simp only [List.mem_cons, Prod.mk.injEq, List.not_mem_nil, or_false]
      omega
    | code ha hb hc hd hs ih => exact .code ha hb hc hd ih
  obtain ⟨u, rfl, h⟩ := h
  exact ⟨u, rfl, chars h⟩

/-- The texts with a meaning are those of JSON. -/
theorem C99_means {L : Limits} {t : List Nat} {j : JV} (h : TextMeans L t j) : ∃ n, Text L n t := by
  obtain ⟨w, v, w', rfl, hw, hv, hw'⟩ := h
  have key : ∀ {t m}, Means L t m → ∃ n, Derives L (match m with | .value _ => .value | .values _ => .values | .members _ => .members) n t := by
    intro t m h
    induction h with
    | null => exact ⟨0, .null⟩
    | true => exact ⟨0, .true⟩
    | false => exact ⟨0, .false⟩
    | number h => exact ⟨0, .number (number_of h)⟩
    | string h => exact ⟨0, .string (str_of h)⟩
    | emptyArray h => exact ⟨0, .emptyArray h⟩
    | array h ih => obtain ⟨n, ih⟩ := ih; exact ⟨n + 1, .array ih⟩
    | emptyObject h => exact ⟨0, .emptyObject h⟩
    | object h ih => obtain ⟨n, ih⟩ := ih; exact ⟨n + 1, .object ih⟩
    | last h1 h2 h3 ih => obtain ⟨n, ih⟩ := ih; exact ⟨n, .last h1 ih h3⟩
    | more h1 h2 h3 h4 ih1 ih2 =>
      obtain ⟨n, ih1⟩ := ih1
      obtain ⟨m, ih2⟩ := ih2
      exact ⟨max n m, .more h1 (ih1.mono (by omega)) h3 (ih2.mono (by omega))⟩
    | lastMember h1 h2 h3 h4 h5 h6 ih => obtain ⟨n, ih⟩ := ih; exact ⟨n, .lastMember h1 (str_of h2) h3 h4 ih h6⟩
    | moreMembers h1 h2 h3 h4 h5 h6 h7 ih1 ih2 =>
      obtain ⟨n, ih1⟩ := ih1
      obtain ⟨m, ih2⟩ := ih2
      exact ⟨max n m, .moreMembers h1 (str_of h2) h3 h4 (ih1.mono (by omega)) h6 (ih2.mono (by omega))⟩
  obtain ⟨n, hd⟩ := key hv
  exact ⟨n, w, v, w', rfl, hw, hd, hw'⟩

/-- A number that is not a negative one with the integer part 0 is represented by its value: numbers with the same
    representation are equal. -/
theorem C99_number_partial {n n' : Num} {a : Ast} (h : Rep (.number n) a) (h' : Rep (.number n') a)
    (hn : ¬ (n.minus = true ∧ n.int = 0)) (hn' : ¬ (n'.minus = true ∧ n'.int = 0)) :
    n.mantissa = n'.mantissa ∧ n.scale = n'.scale := by
  cases h
  generalize ha : Ast.number _ = a at h'
  cases h'
  simp only [Ast.number.injEq, AstNumber.mk.injEq] at ha
  obtain ⟨h1, h2, h3⟩ := ha
  obtain ⟨mi, i, f, x⟩ := n
  obtain ⟨mi', i', f', x'⟩ := n'
  simp only at h1 h2 h3 hn hn'
  subst h2 h3
  have : mi = mi' ∧ i = i' := by
    cases mi <;> cases mi' <;> simp at h1 hn hn' ⊢ <;> omega
  obtain ⟨rfl, rfl⟩ := this
  exact ⟨rfl, rfl⟩

/-- The number that was parsed. -/
def numOf : Option (Option Ast × Bool) → Option AstNumber
  | some (some (.number n), true) => some n
  | _ => none

theorem numOf_some {x : Option (Option Ast × Bool)} {n : AstNumber} (h : numOf x = some n) : x = some (some (.number n), true) := by
  unfold numOf at h
  split at h
  · cases h; rfl
  · cases h

theorem neg_digits {L : Limits} (hl : L.int [0x30]) (mi : Bool) :
    TextMeans L ((if mi then [0x2D] else []) ++ [0x30, 0x2E, 0x35]) (.number ⟨mi, 0, some [0x35], none⟩) :=
  ⟨[], (if mi then [0x2D] else []) ++ [0x30, 0x2E, 0x35], [], by simp, nofun, .number ⟨[0x30], [0x2E, 0x35], [], by simp, .inl rfl, hl, rfl,
    .some ⟨by simp, fun c hc => by simp only [List.mem_singleton] at hc; subst hc; exact ⟨by decide, by decide⟩⟩, .none⟩, nofun⟩

/-- The values of a parse without errors are those of the number that was written. -/
def NumbersKept : Prop :=
  ∀ s s' fuel a n n', parse fuel s = some (some a, true) → parse fuel s' = some (some a, true) →
    TextMeans exampleLimits s (.number n) → TextMeans exampleLimits s' (.number n') → n.scale = n'.scale → n.mantissa = n'.mantissa

/-- **The sign of `-0.5` is lost**: `as_integer` makes an integer of the part in front of the point, `-0` is `0`
    (json.cpp l.174-183): `0.5` and `-0.5` have the same value of `json_number`. -/
theorem C99_sign_refuted : ¬ NumbersKept := by
  intro h
  have h1 : parse 60 [0x30, 0x2E, 0x35] = some (some (.number ⟨0, some [0x35], none⟩), true) := numOf_some (by decide +kernel)
  have h2 : parse 60 [0x2D, 0x30, 0x2E, 0x35] = some (some (.number ⟨0, some [0x35], none⟩), true) := numOf_some (by decide +kernel)
  have hl : exampleLimits.int [0x30] := by show decimal [0x30] < 2 ^ 63; decide
  have := h _ _ _ _ _ _ h1 h2 (neg_digits hl false) (neg_digits hl true) rfl
  exact absurd this (by decide)

/-! ## Example -/

mutual
/-- What an example should be parsed to. -/
def Ast.same : Ast → Ast → Bool
  | .null, .null => true
  | .bool a, .bool b => a == b
  | .number a, .number b => a == b
  | .string a, .string b => a == b
  | .array as, .array bs => sameL as bs
  | .object as, .object bs => sameM as bs
  | _, _ => false
def sameL : List Ast → List Ast → Bool
  | [], [] => true
  | a :: as, b :: bs => a.same b && sameL as bs
  | _, _ => false
def sameM : List (List Nat × Ast) → List (List Nat × Ast) → Bool
  | [], [] => true
  | a :: as, b :: bs => sameP a b && sameM as bs
  | _, _ => false
def sameP : List Nat × Ast → List Nat × Ast → Bool
  | (k, a), (l, b) => k == l && a.same b
end

/-- `{"a": [1, -2.5e3], "b":"\né", "a":null}`: the second `a` is ignored. -/
example : (match parse 400 ([0x7B, 0x22, 0x61, 0x22, 0x3A, 0x20, 0x5B, 0x31, 0x2C, 0x20, 0x2D, 0x32, 0x2E, 0x35, 0x65, 0x33, 0x5D, 0x2C,
      0x20, 0x22, 0x62, 0x22, 0x3A, 0x22, 0x5C, 0x6E, 0x5C, 0x75, 0x30, 0x30, 0x65, 0x39, 0x22, 0x2C, 0x20, 0x22, 0x61, 0x22, 0x3A,
      0x6E, 0x75, 0x6C, 0x6C, 0x7D]) with
    | some (some a, ok) => ok && a.same (.object [
        ([0x61], .array [.number ⟨1, none, none⟩, .number ⟨-2, some [0x35], some 3⟩]), ([0x62], .string [10, 0xC3, 0xA9])])
    | _ => false) = true := by decide +kernel

end Verif.Json
