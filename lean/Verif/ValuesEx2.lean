import Verif.ValuesPrims
import Verif.ValuesEx
import Verif.Integer

/-
Examples for the values of lists with terminator, `repeat`, context variables, integers, identifiers, symbols and delimited
content; the values of `dsl::sign`; where the values are not as documented.
-/

namespace Verif.Val

open Spec

mutual
/-- Are two values the same? -/
def Val.same : Val → Val → Bool
  | .lexeme b e, .lexeme b' e' => b == b' && e == e'
  | .pos p, .pos p' => p == p'
  | .nullopt, .nullopt => true
  | .mem t, .mem t' => t == t'
  | .eff i, .eff i' => i == i'
  | .call n as, .call n' as' => n == n' && Val.sameL as as'
  | .sink n cs, .sink n' cs' => n == n' && Val.sameLL cs cs'
  | .made n as, .made n' as' => n == n' && Val.sameL as as'
  | .num i, .num i' => i == i'
  | .covered b e, .covered b' e' => b == b' && e == e'
  | .flag, .flag => true
  | .mark p, .mark p' => p == p'
  | _, _ => false
def Val.sameL : List Val → List Val → Bool
  | [], [] => true
  | v :: vs, w :: ws => v.same w && Val.sameL vs ws
  | _, _ => false
def Val.sameLL : List (List Val) → List (List Val) → Bool
  | [], [] => true
  | v :: vs, w :: ws => Val.sameL v w && Val.sameLL vs ws
  | _, _ => false
end

mutual
theorem Val.same_eq : ∀ v w : Val, v.same w = true → v = w
  | .lexeme b e, w, h => by cases w <;> simp_all [Val.same]
  | .pos p, w, h => by cases w <;> simp_all [Val.same]
  | .nullopt, w, h => by cases w <;> simp_all [Val.same]
  | .mem t, w, h => by cases w <;> simp_all [Val.same]
  | .eff i, w, h => by cases w <;> simp_all [Val.same]
  | .call n as, w, h => by
    cases w <;> simp_all [Val.same]
    exact Val.sameL_eq _ _ h.2
  | .sink n cs, w, h => by
    cases w <;> simp_all [Val.same]
    exact Val.sameLL_eq _ _ h.2
  | .made n as, w, h => by
    cases w <;> simp_all [Val.same]
    exact Val.sameL_eq _ _ h.2
  | .num i, w, h => by cases w <;> simp_all [Val.same]
  | .covered b e, w, h => by cases w <;> simp_all [Val.same]
  | .flag, w, h => by cases w <;> simp_all [Val.same]
  | .mark p, w, h => by cases w <;> simp_all [Val.same]
theorem Val.sameL_eq : ∀ v w : List Val, Val.sameL v w = true → v = w
  | [], w, h => by cases w <;> simp_all [Val.sameL]
  | v :: vs, w, h => by
    cases w with
    | nil => simp [Val.sameL] at h
    | cons w ws =>
      simp only [Val.sameL, Bool.and_eq_true] at h
      rw [Val.same_eq v w h.1, Val.sameL_eq vs ws h.2]
theorem Val.sameLL_eq : ∀ v w : List (List Val), Val.sameLL v w = true → v = w
  | [], w, h => by cases w <;> simp_all [Val.sameLL]
  | v :: vs, w, h => by
    cases w with
    | nil => simp [Val.sameLL] at h
    | cons w ws =>
      simp only [Val.sameLL, Bool.and_eq_true] at h
      rw [Val.sameL_eq v w h.1, Val.sameLL_eq vs ws h.2]
end

/-- `parse` ends at position `p` with the value `v`. -/
def gives (V : VEnv) (fuel p : Nat) (v : Val) : Bool :=
  match parseV V fuel 0 0 with
  | some (r, some w) => v.same w && r.st.pos == p
  | _ => false

theorem gives_eq {V : VEnv} {fuel p : Nat} {v : Val} (h : gives V fuel p v = true) :
    ∃ r, parseV V fuel 0 0 = some (r, some v) ∧ r.st.pos = p := by
  unfold gives at h
  split at h
  · rename_i r w hx
    simp only [Bool.and_eq_true, beq_iff_eq] at h
    rw [Val.same_eq _ _ h.1]
    exact ⟨r, hx, h.2⟩
  · cases h

namespace Ex

def semiTok : PTok := Verif.Ex.lit 8 18 [59]
def quoteTok : PTok := Verif.Ex.lit 9 19 [34]
def slashTok : PTok := Verif.Ex.lit 10 20 [92]

/-- `dsl::integer<std::uint8_t>(dsl::digits<>)` -/
def byte : VPrim := intPrim (.user 4) (.user 4) 14 15 (matchDigits .decimal) .decimal
  (boundedParse true (.plain ⟨255, true⟩) .decimal)

/-- A list of bytes with terminator. -/
def bytes : Nat → VProd
  | _ => { rule := .lstt (.leaf (.tok semiTok)) (.prim byte) (some (.leaf (.tok commaTok), .sep 22)) fun _ => false,
           ws := some Verif.Ex.space }

/-- `1, 22;` -/
def bytesEnv : VEnv := env [49, 44, 32, 50, 50, 59] bytes

/-- The number of letters `repeat` is given: one digit. -/
def count : VR := .leaf (.tok digitTok)
def countOf (us : List Nat) : Nat := us.head?.getD 48 - 48

end Ex

example : gives Ex.bytesEnv 40 6 (.call 0 [.sink 0 [[.num 1], [.num 22]]]) = true := by decide +kernel

theorem bytes_quiet : ∀ m, ∀ r ∈ (Ex.bytesEnv.prods m).rule.parts, QuietRule Ex.bytesEnv r := by
  intro m r hr
  simp only [Ex.bytesEnv, Ex.env, Ex.bytes, VR.parts, List.mem_append, List.mem_singleton] at hr
  rcases hr with rfl | rfl | rfl
  · exact quiet_tok _ _
  · exact quiet_int _
  · exact quiet_tok _ _

theorem bytes_std : ∀ m, (Ex.bytesEnv.prods m).rule.std = true := fun _ => rfl

/-- Recovery in such a list: `1 a,3;` has a value too. -/
example : gives (Ex.env [49, 32, 97, 44, 51, 59] Ex.bytes) 60 6 (.call 0 [.sink 0 [[.num 1], [.num 3]]]) = true := by
  decide +kernel

/-- `repeat(digit).list(letter)`: `2ab`. -/
example : gives (Ex.env [50, 97, 98] fun _ => { rule := .rep .list Ex.count Ex.countOf (.cap Ex.letterTok) none }) 30 3
    (.call 0 [.sink 0 [[.lexeme 1 2], [.lexeme 2 3]]]) = true := by decide +kernel

/-- A counter: `aab` is counted, the value is 2 (`push(while_(a)) + counter.value()`). -/
example : gives (Ex.env [97, 97, 98] fun _ =>
    { rule := .seq (.leaf (.varCreate 1 (.counter 0))) (.seq (.cntPush 1 (.leaf (.whl (.tok (Verif.Ex.lit 7 17 [97])))) 1)
      (.cntVal 1)) }) 30 2 (.call 0 [.num 2]) = true := by decide +kernel

/-- An identifier that is remembered: `ab` is the value, and a captured one. -/
example : gives (Ex.env [97, 98] fun _ =>
    { rule := .seq (.leaf (.varCreate 1 (.ident []))) (.idCap 1 (idVId (AClass.cc .alpha) (AClass.cc .alpha) 17)) }) 30 2
    (.call 0 [.lexeme 0 2]) = true := by decide +kernel

/-- `"a\nb"` (delimited content with an escape): the calls of the sink. -/
def Ex.quotedV : DelimV where
  del := { close := Ex.quoteTok, limit := none, eof := none, kind := .user 11, char := fun _ => (true, 1), charTag := 21,
           missTag := 22, escTag := 23, escapes := [] }
  esc := [(Ex.slashTok, [.ofSym { syms := [[110], [116]], vals := [10, 9] } none 24])]

example : gives (Ex.env [34, 97, 92, 110, 98, 34] fun _ =>
    { rule := .seq (.leaf (.tok Ex.quoteTok)) (.prim Ex.quotedV.prim) }) 30 6
    (.call 0 [.sink 0 [[.lexeme 1 2], [.num 0], [.lexeme 4 5]]]) = true := by decide +kernel

/-! ## Signs -/

/-- `_plus` and `_minus`, sign.hpp l.32-35: `op<plus_sign>(LEXY_LIT("+"))`; the value of an operator is its tag
    (operator.hpp l.104-194).  `pid`, `mid`: the tags. -/
def plusV (eof : Option Nat) (pid : Nat) : VR := .pre (.eff pid) (.leaf (.tok (litTok eof 0 0 [0x2B])))
def minusV (eof : Option Nat) (mid : Nat) : VR := .pre (.eff mid) (.leaf (.tok (litTok eof 0 0 [0x2D])))

/-- `plus_sign`, `minus_sign` and `sign`, sign.hpp l.37-43. -/
def plusSignV (eof : Option Nat) (pid : Nat) : VR := .ifR (plusV eof pid)
def minusSignV (eof : Option Nat) (mid : Nat) : VR := .ifR (minusV eof mid)
def signV (eof : Option Nat) (pid mid : Nat) : VR := .ifR (.chc [plusV eof pid, minusV eof mid])

theorem lit1_run {eof : Option Nat} {kind tag c : Nat} (h : eof ≠ some c) (s : List Nat) :
    (litTok eof kind tag [c]).run s = if s.head? = some c then (true, 1) else (false, 0) := by
  cases s with
  | nil =>
    have : (eof == some c) = false := by simpa using h
    simp [litTok, PTok.of, clamp, matchLiteral, peekIs, this]
  | cons u s =>
    by_cases hu : u = c
    · subst hu; simp [litTok, PTok.of, clamp, matchLiteral, peekIs]
    · simp [litTok, PTok.of, clamp, matchLiteral, peekIs, hu]

theorem head_drop (s : List Nat) (p : Nat) : (s.drop p).head? = s[p]? := by simp

section
variable {E : Env} {n : Nat} {cx : Cx} {st : St} (a b : PTok)

/-- Branches of one or two tokens. -/
theorem try_tok : exec E (n + 1) cx (.btry (.tok a)) st = ret (if (a.run (E.inp.drop st.pos)).1 then .ok else .fail) st := rfl

theorem try_two : exec E (n + 4) cx (.btry (.chc [.tok a, .tok b])) st =
    ret (if (a.run (E.inp.drop st.pos)).1 || (b.run (E.inp.drop st.pos)).1 then .ok else .fail) st := by
  show ifTry (exec E (n + 2)) cx (.btry (.tok a)) st (ret .ok st)
    (ifTry (exec E (n + 1)) cx (.btry (.tok b)) st (ret .ok st) (exec E (n + 1) cx (.chcTry []) st)) = _
  unfold ifTry
  rw [try_tok, try_tok]
  cases (a.run (E.inp.drop st.pos)).1 <;> cases (b.run (E.inp.drop st.pos)).1 <;> rfl

theorem cancel_two : exec E (n + 4) cx (.bcancel (.chc [.tok a, .tok b])) st = ret .ok st := rfl
end

/-- A sign that was taken. -/
theorem fin_sign {V : VEnv} {n : Nat} {cx : VCx} {st : St} {t : PTok} {id : Nat} :
    dv V (n + 2) cx (.fin (.pre (.eff id) (.leaf (.tok t)))) st =
      valD [.eff id] (viaD (tokenDone (exec V.env n) cx.cx t.kind (st.pos + (t.run (V.inp.drop st.pos)).2) st)
        fun st' => okD st' []) := rfl

theorem fin_two {V : VEnv} {n : Nat} {cx : VCx} {st : St} {t u : PTok} {i j : Nat}
    (h : ((t.run (V.inp.drop st.pos)).1 || (u.run (V.inp.drop st.pos)).1) = true) :
    dv V (n + 4) cx (.fin (.chc [.pre (.eff i) (.leaf (.tok t)), .pre (.eff j) (.leaf (.tok u))])) st =
      if (t.run (V.inp.drop st.pos)).1 then dv V (n + 2) cx (.fin (.pre (.eff i) (.leaf (.tok t)))) st
      else dv V (n + 1) cx (.fin (.pre (.eff j) (.leaf (.tok u)))) st := by
  show choose (exec V.env (n + 2) cx.cx (.btry (.tok t)) st) (dv V (n + 2) cx (.fin (.pre (.eff i) (.leaf (.tok t)))) st)
    (viaD' (ret .ok st) fun st' => choose (exec V.env (n + 1) cx.cx (.btry (.tok u)) st')
      (dv V (n + 1) cx (.fin (.pre (.eff j) (.leaf (.tok u)))) st')
      (viaD' (ret .ok st') fun st' => dv V (n + 1) cx (.chcFin []) st')) = _
  rw [try_tok]
  have e : V.env.inp = V.inp := rfl
  rw [e]
  cases h1 : (t.run (V.inp.drop st.pos)).1 with
  | true => rfl
  | false =>
    rw [h1] at h
    simp only [Bool.false_or] at h
    have : ∀ x : Option DRes, emitD [] x = x := by
      intro x
      cases x <;> simp [emitD, DRes.pre]
    show emitD [] (choose (exec V.env (n + 1) cx.cx (.btry (.tok u)) st) _ _) = _
    rw [this, try_tok, e, h]
    rfl

/-- The result of a sign that was taken. -/
theorem sign_done {V : VEnv} {n : Nat} {cx : VCx} {st : St} {t : PTok} {id : Nat} {d : DRes} (hl : st.pos ≤ V.inp.length)
    (h : dv V n cx (.fin (.pre (.eff id) (.leaf (.tok t)))) st = some d) (hok : d.out = .ok) :
    d.vals = [.eff id] ∧ d.evs.head? = some (.token t.kind st.pos (st.pos + (t.run (V.inp.drop st.pos)).2)) ∧
      st.pos + (t.run (V.inp.drop st.pos)).2 ≤ d.st.pos := by
  match n with
  | 0 => cases h
  | 1 => cases h
  | n + 2 =>
    rw [fin_sign] at h
    unfold tokenDone emit at h
    cases hw : exec V.env n cx.cx .ws { st with pos := st.pos + (t.run (V.inp.drop st.pos)).2 } with
    | none => rw [hw] at h; cases h
    | some w =>
      have hm := ws_moves (V := V) (n := n) (cx := cx.cx)
        (st := { st with pos := st.pos + (t.run (V.inp.drop st.pos)).2 }) (by
          have := t.le (V.inp.drop st.pos)
          rw [List.length_drop] at this
          simp only
          omega) w hw
      rw [hw] at h
      obtain ⟨o, st', evs⟩ := w
      cases o with
      | ok => cases h; exact ⟨rfl, rfl, hm.1⟩
      | fail => cases h; cases hok
      | brk => cases h; cases hok

/-- **`sign`**: its value is the tag of the sign that is there, which is consumed; without one it has no value and nothing
    happens. -/
theorem C94_sign {V : VEnv} {n : Nat} {cx : VCx} {st : St} {d : DRes} {eof : Option Nat} {pid mid : Nat}
    (h1 : eof ≠ some 0x2B) (h2 : eof ≠ some 0x2D) (hl : st.pos ≤ V.inp.length)
    (h : dv V n cx (.run (signV eof pid mid)) st = some d) (hok : d.out = .ok) :
    (V.inp[st.pos]? = some 0x2B ∧ d.vals = [.eff pid] ∧ d.evs.head? = some (.token (.user 0) st.pos (st.pos + 1))) ∨
    (V.inp[st.pos]? = some 0x2D ∧ d.vals = [.eff mid] ∧ d.evs.head? = some (.token (.user 0) st.pos (st.pos + 1))) ∨
    (V.inp[st.pos]? ≠ some 0x2B ∧ V.inp[st.pos]? ≠ some 0x2D ∧ d.vals = [] ∧ d.evs = [] ∧ d.st = st) := by
  have t1 := lit1_run (kind := 0) (tag := 0) h1 (V.inp.drop st.pos)
  have t2 := lit1_run (kind := 0) (tag := 0) h2 (V.inp.drop st.pos)
  rw [head_drop] at t1 t2
  match n with
  | 0 => cases h
  | 1 => cases h
  | 2 => cases h
  | 3 => cases h
  | 4 =>
    change choose (ifTry (exec V.env 1) cx.cx (.btry (.tok (litTok eof 0 0 [0x2B]))) st (ret .ok st)
        (ifTry (exec V.env 0) cx.cx (.btry (.tok (litTok eof 0 0 [0x2D]))) st (ret .ok st) none))
      (choose (exec V.env 1 cx.cx (.btry (.tok (litTok eof 0 0 [0x2B]))) st) none
        (viaD' (ret .ok st) fun st' => dv V 1 cx (.chcFin [minusV eof mid]) st')) _ = some d at h
    unfold ifTry at h
    rw [try_tok] at h
    cases hc : ((litTok eof 0 0 [0x2B]).run (V.env.inp.drop st.pos)).1 <;> (rw [hc] at h; cases h)
  | n + 5 =>
    change choose (exec V.env (n + 4) cx.cx (.btry (.chc [.tok (litTok eof 0 0 [0x2B]), .tok (litTok eof 0 0 [0x2D])])) st)
      (dv V (n + 4) cx (.fin (.chc [.pre (.eff pid) (.leaf (.tok (litTok eof 0 0 [0x2B]))), .pre (.eff mid) (.leaf (.tok (litTok eof 0 0 [0x2D])))])) st)
      (viaD' (ret .ok st) fun st' => okD st' []) = some d at h
    rw [try_two] at h
    have e : V.env.inp = V.inp := rfl
    rw [e] at h
    cases hc : ((litTok eof 0 0 [0x2B]).run (V.inp.drop st.pos)).1 || ((litTok eof 0 0 [0x2D]).run (V.inp.drop st.pos)).1 with
    | false =>
      rw [hc] at h
      cases h
      right; right
      rw [t1, t2] at hc
      refine ⟨?_, ?_, rfl, rfl, rfl⟩
      · intro h; rw [if_pos h] at hc; cases hc
      · intro h; rw [if_pos h, Bool.or_true] at hc; cases hc
    | true =>
      rw [hc] at h
      change dv V (n + 4) cx _ st = some d at h
      rw [fin_two hc] at h
      split at h
      · rename_i c
        left
        rw [t1] at c
        have c1 : V.inp[st.pos]? = some 0x2B := by
          split at c
          · assumption
          · cases c
        have := sign_done hl h hok
        rw [t1, if_pos c1] at this
        exact ⟨c1, this.1, this.2.1⟩
      · rename_i c
        right; left
        have c1 : V.inp[st.pos]? = some 0x2D := by
          cases h3 : ((litTok eof 0 0 [0x2D]).run (V.inp.drop st.pos)).1 with
          | false =>
            rw [h3, Bool.or_false] at hc
            exact absurd hc c
          | true =>
            rw [t2] at h3
            split at h3
            · assumption
            · cases h3
        have := sign_done hl h hok
        rw [t2, if_pos c1] at this
        exact ⟨c1, this.1, this.2.1⟩

/-- A signed number: the tag of the sign, if there is one, and the number. -/
example : gives (Ex.env [45, 53] fun _ => { rule := .seq (signV none 1 2) (.prim Ex.byte) }) 30 2
      (.call 0 [.eff 2, .num 5]) = true ∧
    gives (Ex.env [43, 53] fun _ => { rule := .seq (signV none 1 2) (.prim Ex.byte) }) 30 2
      (.call 0 [.eff 1, .num 5]) = true ∧
    gives (Ex.env [53] fun _ => { rule := .seq (signV none 1 2) (.prim Ex.byte) }) 30 1 (.call 0 [.num 5]) = true := by
  decide +kernel

/-! ## Where the values are not as documented -/

/-- `repeat(count).capture(letter)` with whitespace. -/
def Ex.repCap : Nat → VProd
  | _ => { rule := .rep .capture Ex.count Ex.countOf (.leaf (.tok Ex.letterTok)) none, ws := some Verif.Ex.space }

def Ex.justCap : Nat → VProd
  | _ => { rule := .cap Ex.letterTok, ws := some Verif.Ex.space }

/-- `repeat(count).capture(rule)` produces a lexeme "spanning everything consumed by parsing `rule` and `sep` `n` times",
    "like the behavior of capture" (repeat.adoc l.59-60).  It is not like `capture`: that leaves out the whitespace behind
    the token (`a b`: the lexeme `a`), `repeat` (repeat.hpp l.110-128) includes it (`1a b`: the lexeme `a` with the space
    behind it). -/
theorem C79_repeat_capture_refuted :
    (∃ r, parseV (Ex.env [97, 32, 98] Ex.justCap) 30 0 0 = some (r, some (.call 0 [.lexeme 0 1]))) ∧
    (∃ r, parseV (Ex.env [49, 97, 32, 98] Ex.repCap) 30 0 0 = some (r, some (.call 0 [.covered 1 3]))) := by
  constructor
  · obtain ⟨r, h, -⟩ := gives_eq (show gives (Ex.env [97, 32, 98] Ex.justCap) 30 2 (.call 0 [.lexeme 0 1]) = true by
      decide +kernel)
    exact ⟨r, h⟩
  · obtain ⟨r, h, -⟩ := gives_eq (show gives (Ex.env [49, 97, 32, 98] Ex.repCap) 30 3 (.call 0 [.covered 1 3]) = true by
      decide +kernel)
    exact ⟨r, h⟩

/-- `context_counter<Id>.create() + context_counter<Id>.push(capture(letter) + return_)`. -/
def Ex.retPush : Nat → VProd
  | _ => { rule := .seq (.leaf (.varCreate 1 (.counter 0))) (.cntPush 1 (.seq (.cap Ex.letterTok) .ret) 1) }

/-- The arguments of the callback are the values of the rules: a `return_` in the rule of `push` hands the callback the
    position `push` keeps for itself as well (context_counter.hpp l.61-77: the continuation that takes it away is skipped). -/
theorem C79_return_in_push_refuted :
    ∃ r, parseV (Ex.env [97] Ex.retPush) 30 0 0 = some (r, some (.call 0 [.mark 0, .lexeme 0 1])) := by
  obtain ⟨r, h, -⟩ := gives_eq (show gives (Ex.env [97] Ex.retPush) 30 1 (.call 0 [.mark 0, .lexeme 0 1]) = true by
    decide +kernel)
  exact ⟨r, h⟩

end Verif.Val
