import Verif.CalcParseProps
import Verif.CalcEvalProps

/-
C109: the calculator from the text to the values: C108 and C101 together.
-/

namespace Verif.Spec.CalcP

open Verif.CalcP (Ast)
open Verif.Calc (CmpOp)
open Verif.Spec.Calc (E Stmt)

mutual
/-- The expression that is written; functions are only defined by whole statements. -/
def toE : Ast → Option E
  | .literal v => some (.lit v)
  | .name x => some (.var x)
  | .unary op r => (toE r).map (.un op)
  | .binary l op r => match toE l, toE r with
    | some a, some b => some (.bin a op b)
    | _, _ => none
  | .first _ => none
  | .push c op x => match chainE c, toE x with
    | some (a, xs), some b => some (.cmp a (xs ++ [(op, b)]))
    | _, _ => none
  | .cond c t f => match toE c, toE t, toE f with
    | some a, some b, some d => some (.ite a b d)
    | _, _, _ => none
  | .call f x => (toE x).map (.call f)
  | .assign (.name x) r => (toE r).map (.set x)
  | .assign (.call _ (.name _)) _ => none
  | .assign _ _ => some .error
/-- The first operand of a comparison, and the others. -/
def chainE : Ast → Option (E × List (CmpOp × E))
  | .first a => (toE a).map fun e => (e, [])
  | .push c op x => match chainE c, toE x with
    | some (a, xs), some b => some (a, xs ++ [(op, b)])
    | _, _ => none
  | _ => none
end

/-- Two lists whose elements are related one by one. -/
inductive Each {α β : Type} (R : α → β → Prop) : List α → List β → Prop
  | nil : Each R [] []
  | cons {a : α} {b : β} {as : List α} {bs : List β} : R a b → Each R as bs → Each R (a :: as) (b :: bs)

/-- The statement that is written. -/
def meaning : Ast → Option Stmt
  | .assign (.call f (.name p)) r => (toE r).map (.define f p)
  | e => (toE e).map .expr

end Verif.Spec.CalcP

namespace Verif.CalcP

open Verif.Calc (Obj CmpOp strip stripRest stmtOf LitsRest session)
open Verif.Spec.Calc (E Stmt Fits Session)
open Verif.Spec.CalcP (Each toE chainE meaning Statement Numeral Expr Exprs)

/-- The object is created for the expression; the addresses are arbitrary.  A comparison is created with its first operand, and operators
    and operands are added to it one after the other (`fold_inplace`, calculator.cpp l.404-408; `expr_comparison`, l.138-174). -/
inductive Is : Obj → Ast → Prop
  | literal {a v : Nat} : Is (.literal a v) (.literal v)
  | name {a : Nat} {x : Calc.Name} : Is (.name a x) (.name x)
  | unary {a : Nat} {op : Calc.UnOp} {r : Obj} {e : Ast} : Is r e → Is (.unary a op r) (.unary op e)
  | binary {a : Nat} {op : Calc.BinOp} {l r : Obj} {d e : Ast} : Is l d → Is r e → Is (.binary a l op r) (.binary d op e)
  | first {a : Nat} {x : Obj} {e : Ast} : Is x e → Is (.comparison a x []) (.first e)
  | push {a : Nat} {op : CmpOp} {x y : Obj} {xs : List (CmpOp × Obj)} {c e : Ast} :
      Is (.comparison a x xs) c → Is y e → Is (.comparison a x (xs ++ [(op, y)])) (.push c op e)
  | cond {a : Nat} {c t f : Obj} {c' t' f' : Ast} : Is c c' → Is t t' → Is f f' → Is (.cond a c t f) (.cond c' t' f')
  | call {a : Nat} {f : Calc.Name} {x : Obj} {e : Ast} : Is x e → Is (.call a f x) (.call f e)
  | assign {a : Nat} {l r : Obj} {d e : Ast} : Is l d → Is r e → Is (.assign a l r) (.assign d e)

theorem stripRest_append {op : CmpOp} {y : Obj} {b : E} (hy : strip y = some b) : ∀ {xs : List (CmpOp × Obj)} {zs : List (CmpOp × E)},
    stripRest xs = some zs → stripRest (xs ++ [(op, y)]) = some (zs ++ [(op, b)])
  | [], zs, h => by simp [stripRest] at h; subst h; simp [stripRest, hy]
  | (o, x) :: xs, zs, h => by
    rw [stripRest] at h
    split at h
    · rename_i a b' h1 h2
      cases h
      rw [List.cons_append, stripRest, h1, stripRest_append hy h2]
      rfl
    · cases h

theorem Is.strip {o : Obj} {e : Ast} (h : Is o e) : (∀ t, toE e = some t → strip o = some t) ∧
    ∀ a x xs, o = .comparison a x xs → ∀ p, chainE e = some p → strip x = some p.1 ∧ stripRest xs = some p.2 := by
  induction h with
  | literal => exact ⟨fun t ht => by simpa [toE, Calc.strip] using ht, fun _ _ _ h => nomatch h⟩
  | name => exact ⟨fun t ht => by simpa [toE, Calc.strip] using ht, fun _ _ _ h => nomatch h⟩
  | unary _ ih =>
    refine ⟨fun t ht => ?_, fun _ _ _ h => nomatch h⟩
    rw [toE, Option.map_eq_some_iff] at ht
    obtain ⟨b, h1, rfl⟩ := ht
    rw [Calc.strip, ih.1 _ h1]; rfl
  | binary _ _ ih1 ih2 =>
    refine ⟨fun t ht => ?_, fun _ _ _ h => nomatch h⟩
    rw [toE] at ht
    split at ht
    · rename_i a b h1 h2
      cases ht
      rw [Calc.strip, ih1.1 _ h1, ih2.1 _ h2]
    · cases ht
  | first _ ih =>
    refine ⟨fun t ht => (by rw [toE] at ht; cases ht), fun a x xs hx p hp => ?_⟩
    cases hx
    rw [chainE, Option.map_eq_some_iff] at hp
    obtain ⟨b, h1, rfl⟩ := hp
    exact ⟨ih.1 _ h1, by rw [stripRest]⟩
  | push _ _ ih1 ih2 =>
    refine ⟨fun t ht => ?_, fun a x xs hx p hp => ?_⟩
    · rw [toE] at ht
      split at ht
      · rename_i a xs b h1 h2
        cases ht
        obtain ⟨h3, h4⟩ := ih1.2 _ _ _ rfl _ h1
        rw [Calc.strip, h3, stripRest_append (ih2.1 _ h2) h4]
      · cases ht
    · cases hx
      rw [chainE] at hp
      split at hp
      · rename_i a xs b h1 h2
        cases hp
        obtain ⟨h3, h4⟩ := ih1.2 _ _ _ rfl _ h1
        exact ⟨h3, stripRest_append (ih2.1 _ h2) h4⟩
      · cases hp
  | cond _ _ _ ih1 ih2 ih3 =>
    refine ⟨fun t ht => ?_, fun _ _ _ h => nomatch h⟩
    rw [toE] at ht
    split at ht
    · rename_i a b d h1 h2 h3
      cases ht
      rw [Calc.strip, ih1.1 _ h1, ih2.1 _ h2, ih3.1 _ h3]
    · cases ht
  | call _ ih =>
    refine ⟨fun t ht => ?_, fun _ _ _ h => nomatch h⟩
    rw [toE, Option.map_eq_some_iff] at ht
    obtain ⟨b, h1, rfl⟩ := ht
    rw [Calc.strip, ih.1 _ h1]; rfl
  | assign hl _ _ ih2 =>
    refine ⟨fun t ht => ?_, fun _ _ _ h => nomatch h⟩
    cases hl with
    | name =>
      rw [toE, Option.map_eq_some_iff] at ht
      obtain ⟨b, h1, rfl⟩ := ht
      rw [Calc.strip, ih2.1 _ h1]; rfl
    | call hx =>
      cases hx with
      | name => rw [toE] at ht; cases ht
      | literal => simpa [toE, Calc.strip] using ht
      | unary => simpa [toE, Calc.strip] using ht
      | binary => simpa [toE, Calc.strip] using ht
      | first => simpa [toE, Calc.strip] using ht
      | push => simpa [toE, Calc.strip] using ht
      | cond => simpa [toE, Calc.strip] using ht
      | call => simpa [toE, Calc.strip] using ht
      | assign => simpa [toE, Calc.strip] using ht
    | literal => simpa [toE, Calc.strip] using ht
    | unary => simpa [toE, Calc.strip] using ht
    | binary => simpa [toE, Calc.strip] using ht
    | first => simpa [toE, Calc.strip] using ht
    | push => simpa [toE, Calc.strip] using ht
    | cond => simpa [toE, Calc.strip] using ht
    | assign => simpa [toE, Calc.strip] using ht

theorem Is.stmtOf {o : Obj} {e : Ast} (h : Is o e) {st : Stmt} (hst : meaning e = some st) : stmtOf o = some st := by
  have key : ∀ {o : Obj} {e : Ast}, Is o e → (toE e).map Stmt.expr = some st → (Calc.strip o).map Stmt.expr = some st := by
    intro o e h hst
    rw [Option.map_eq_some_iff] at hst
    obtain ⟨t, h1, rfl⟩ := hst
    rw [h.strip.1 t h1]; rfl
  have h0 := h
  cases h with
  | assign hl hr =>
    cases hl with
    | call hx =>
      cases hx with
      | name =>
        rw [meaning, Option.map_eq_some_iff] at hst
        obtain ⟨t, h1, rfl⟩ := hst
        rw [Calc.stmtOf, hr.strip.1 t h1]; rfl
      | literal => exact key h0 hst
      | unary => exact key h0 hst
      | binary => exact key h0 hst
      | first => exact key h0 hst
      | push => exact key h0 hst
      | cond => exact key h0 hst
      | call => exact key h0 hst
      | assign => exact key h0 hst
    | literal => exact key h0 hst
    | name => exact key h0 hst
    | unary => exact key h0 hst
    | binary => exact key h0 hst
    | first => exact key h0 hst
    | push => exact key h0 hst
    | cond => exact key h0 hst
    | assign => exact key h0 hst
  | literal => exact key h0 hst
  | name => exact key h0 hst
  | unary => exact key h0 hst
  | binary => exact key h0 hst
  | first => exact key h0 hst
  | push => exact key h0 hst
  | cond => exact key h0 hst
  | call => exact key h0 hst

/-- The literals are values of an `int`. -/
def LitsA : Ast → Prop
  | .literal v => v ≤ 2147483647
  | .name _ => True
  | .unary _ r => LitsA r
  | .binary l _ r => LitsA l ∧ LitsA r
  | .first x => LitsA x
  | .push c _ x => LitsA c ∧ LitsA x
  | .cond c t f => LitsA c ∧ LitsA t ∧ LitsA f
  | .call _ x => LitsA x
  | .assign l r => LitsA l ∧ LitsA r

theorem litsRest_append {op : CmpOp} {y : Obj} (hy : y.Lits) : ∀ {xs : List (CmpOp × Obj)}, LitsRest xs → LitsRest (xs ++ [(op, y)])
  | [], _ => by simp [LitsRest, hy]
  | (o, x) :: xs, h => by
    rw [LitsRest] at h
    rw [List.cons_append, LitsRest]
    exact ⟨h.1, litsRest_append hy h.2⟩

theorem Is.lits {o : Obj} {e : Ast} (h : Is o e) (hl : LitsA e) : o.Lits := by
  induction h with
  | literal => simp only [Obj.Lits, LitsA, Fits] at hl ⊢; omega
  | name => simp only [Obj.Lits]
  | unary _ ih => rw [Obj.Lits]; exact ih hl
  | binary _ _ ih1 ih2 => rw [Obj.Lits]; exact ⟨ih1 hl.1, ih2 hl.2⟩
  | first _ ih => rw [Obj.Lits]; exact ⟨ih hl, by rw [LitsRest]; trivial⟩
  | push _ _ ih1 ih2 =>
    have := ih1 hl.1
    rw [Obj.Lits] at this ⊢
    exact ⟨this.1, litsRest_append (ih2 hl.2) this.2⟩
  | cond _ _ _ ih1 ih2 ih3 => rw [Obj.Lits]; exact ⟨ih1 hl.1, ih2 hl.2.1, ih3 hl.2.2⟩
  | call _ ih => rw [Obj.Lits]; exact ih hl
  | assign _ _ ih1 ih2 => rw [Obj.Lits]; exact ⟨ih1 hl.1, ih2 hl.2⟩

theorem T.lits {κ : Spec.CalcP.K} {nl : Bool} {g : Spec.CalcP.Grp} {d k : Nat} {e : Ast} {t : List Nat} (h : Spec.CalcP.T κ nl g d k e t) :
    LitsA e := by
  induction h with
  | paren _ _ ih => exact ih
  | name => trivial
  | call _ _ _ _ ih => exact ih
  | literal hx => cases hx <;> assumption
  | up _ ih => exact ih
  | unary _ _ ih => exact ih
  | pow _ _ _ ih1 ih2 => exact ⟨ih1, ih2⟩
  | product _ _ _ _ ih1 ih2 => exact ⟨ih1, ih2⟩
  | sum _ _ _ _ ih1 ih2 => exact ⟨ih1, ih2⟩
  | first _ _ _ ih1 ih2 => exact ⟨ih1, ih2⟩
  | next _ _ _ ih1 ih2 => exact ⟨ih1, ih2⟩
  | comparison _ ih => exact ih
  | cond _ _ _ _ ih1 ih2 ih3 => exact ⟨ih1, ih2, ih3⟩
  | assign _ _ _ ih1 ih2 => exact ⟨ih1, ih2⟩
  | nested _ _ _ _ ih => exact ih

theorem Statement.lits {es : List Ast} {s : List Nat} (h : Statement es s) : ∀ e ∈ es, LitsA e := by
  have key : ∀ {es t}, Exprs es t → ∀ e ∈ es, LitsA e := by
    intro es t h
    induction h with
    | one h => obtain ⟨g, k, -, ht⟩ := h; intro e he; simp at he; subst he; exact T.lits ht
    | cons h _ _ ih =>
      obtain ⟨g, k, -, ht⟩ := h
      intro e he
      rcases List.mem_cons.1 he with rfl | he
      · exact T.lits ht
      · exact ih e he
  cases h with
  | empty => nofun
  | exprs _ h => exact key h

/-- What `main` does with the inputs: parse them one after the other, and create the objects `ls`. -/
def Parsed (ss : List (List Nat)) (ls : List (List Obj)) : Prop :=
  Each (fun s l => ∃ n es, stmt n s = some es ∧ Each Is l es) ss ls

/-- The statements that are written. -/
def Written (ss : List (List Nat)) (sts : List (List Stmt)) : Prop :=
  Each (fun s st => ∃ es, Statement es s ∧ es.map meaning = st.map some) ss sts

theorem forall2_map {l : List Obj} {es : List Ast} {st : List Stmt} (h : Each Is l es) (hm : es.map meaning = st.map some) :
    l.map stmtOf = st.map some := by
  induction h generalizing st with
  | nil => cases st with
    | nil => rfl
    | cons => cases hm
  | cons h1 _ ih =>
    cases st with
    | nil => cases hm
    | cons x st =>
      simp only [List.map_cons, List.cons.injEq] at hm ⊢
      exact ⟨h1.stmtOf hm.1, ih hm.2⟩

theorem forall2_lits {l : List Obj} {es : List Ast} (h : Each Is l es) (hl : ∀ e ∈ es, LitsA e) : ∀ o ∈ l, o.Lits := by
  induction h with
  | nil => nofun
  | cons h1 _ ih =>
    intro o ho
    rcases List.mem_cons.1 ho with rfl | ho
    · exact h1.lits (hl _ (by simp))
    · exact ih (fun e he => hl e (by simp [he])) o ho

/-- C109: the calculator prints the values of the statements that are written in the lines entered, if functions are only defined by whole
    statements, and prints them without undefined behavior if and only if all results are values of an `int`.  (Missing: definitions
    within expressions, refuted by `C101_redefine_refuted` and `C101_restore_refuted`, and the byte 0xFF.) -/
theorem C109_calculator_partial {late : Bool} {ss : List (List Nat)} {ls : List (List Obj)} {sts : List (List Stmt)} {vs : List Int}
    (hu : ∀ s ∈ ss, Units 256 s ∧ 0xFF ∉ s) (hp : Parsed ss ls) (hw : Written ss sts) :
    (∃ n e', session late n ls {} = some (vs, e')) ↔ Session Fits sts (fun _ => none) (fun _ => 0) vs := by
  have key : ls.map (·.map stmtOf) = sts.map (·.map some) ∧ ∀ l ∈ ls, ∀ o ∈ l, o.Lits := by
    clear vs
    unfold Parsed at hp
    induction hp generalizing sts with
    | nil => cases hw; exact ⟨rfl, nofun⟩
    | @cons s l ss ls h1 h2 ih =>
      cases hw with
      | @cons _ st _ sts h3 h4 =>
        obtain ⟨i1, i2⟩ := ih (fun s hs => hu s (by simp [hs])) h4
        obtain ⟨n, es, p1, p2⟩ := h1
        obtain ⟨es', w1, w2⟩ := h3
        obtain ⟨hs1, hs2⟩ := hu s (by simp)
        have hes := (C108_calculator_parses_partial hs1 hs2 es).2.2 ⟨n, p1⟩
        have := C108_unambiguous hs1 hs2 hes w1
        subst this
        refine ⟨by rw [List.map_cons, List.map_cons, i1, forall2_map p2 w2], ?_⟩
        intro l' hl
        rcases List.mem_cons.1 hl with rfl | hl
        · exact forall2_lits p2 (Statement.lits hes)
        · exact i2 l' hl
  exact Calc.C101_session_partial key.1 key.2

theorem T.obj {κ : Spec.CalcP.K} {nl : Bool} {g : Spec.CalcP.Grp} {d k : Nat} {e : Ast} {t : List Nat} (h : Spec.CalcP.T κ nl g d k e t) :
    ∃ o, Is o e ∧ (κ = .cmps → ∃ a x xs, o = .comparison a x xs) := by
  induction h with
  | paren _ _ ih => obtain ⟨o, h, -⟩ := ih; exact ⟨o, h, nofun⟩
  | name => exact ⟨.name 0 _, .name, nofun⟩
  | call _ _ _ _ ih => obtain ⟨o, h, -⟩ := ih; exact ⟨.call 0 _ o, .call h, nofun⟩
  | @literal _ _ _ v => exact ⟨.literal 0 v, .literal, nofun⟩
  | up _ ih => obtain ⟨o, h, -⟩ := ih; exact ⟨o, h, nofun⟩
  | unary _ _ ih => obtain ⟨o, h, -⟩ := ih; exact ⟨.unary 0 _ o, .unary h, nofun⟩
  | pow _ _ _ ih1 ih2 => obtain ⟨o, h, -⟩ := ih1; obtain ⟨o', h', -⟩ := ih2; exact ⟨.binary 0 o _ o', .binary h h', nofun⟩
  | product _ _ _ _ ih1 ih2 => obtain ⟨o, h, -⟩ := ih1; obtain ⟨o', h', -⟩ := ih2; exact ⟨.binary 0 o _ o', .binary h h', nofun⟩
  | sum _ _ _ _ ih1 ih2 => obtain ⟨o, h, -⟩ := ih1; obtain ⟨o', h', -⟩ := ih2; exact ⟨.binary 0 o _ o', .binary h h', nofun⟩
  | first _ _ _ ih1 ih2 =>
    obtain ⟨o, h, -⟩ := ih1
    obtain ⟨o', h', -⟩ := ih2
    exact ⟨.comparison 0 o ([] ++ [(_, o')]), .push (.first h) h', fun _ => ⟨_, _, _, rfl⟩⟩
  | next _ _ _ ih1 ih2 =>
    obtain ⟨o, h, hc⟩ := ih1
    obtain ⟨o', h', -⟩ := ih2
    obtain ⟨a, x, xs, rfl⟩ := hc rfl
    exact ⟨.comparison a x (xs ++ [(_, o')]), .push h h', fun _ => ⟨_, _, _, rfl⟩⟩
  | comparison _ ih => obtain ⟨o, h, -⟩ := ih; exact ⟨o, h, nofun⟩
  | cond _ _ _ _ ih1 ih2 ih3 =>
    obtain ⟨o, h, -⟩ := ih1
    obtain ⟨o', h', -⟩ := ih2
    obtain ⟨o'', h'', -⟩ := ih3
    exact ⟨.cond 0 o o' o'', .cond h h' h'', nofun⟩
  | assign _ _ _ ih1 ih2 => obtain ⟨o, h, -⟩ := ih1; obtain ⟨o', h', -⟩ := ih2; exact ⟨.assign 0 o o', .assign h h', nofun⟩
  | nested _ _ _ _ ih => obtain ⟨o, h, -⟩ := ih; exact ⟨o, h, nofun⟩

theorem Statement.objs {es : List Ast} {s : List Nat} (h : Statement es s) : ∃ l, Each Is l es := by
  have key : ∀ {es t}, Exprs es t → ∃ l, Each Is l es := by
    intro es t h
    induction h with
    | one h =>
      obtain ⟨g, k, -, ht⟩ := h
      obtain ⟨o, ho, -⟩ := T.obj ht
      exact ⟨[o], .cons ho .nil⟩
    | cons h _ _ ih =>
      obtain ⟨g, k, -, ht⟩ := h
      obtain ⟨o, ho, -⟩ := T.obj ht
      obtain ⟨l, hl⟩ := ih
      exact ⟨o :: l, .cons ho hl⟩
  cases h with
  | empty => exact ⟨[], .nil⟩
  | exprs _ h => exact key h

/-- C109: every line in which statements are written is parsed, without an error. -/
theorem C109_parsed {ss : List (List Nat)} {sts : List (List Stmt)} (hu : ∀ s ∈ ss, Units 256 s ∧ 0xFF ∉ s) (hw : Written ss sts) :
    ∃ ls, Parsed ss ls := by
  unfold Written at hw
  induction hw with
  | nil => exact ⟨[], .nil⟩
  | @cons s st ss sts h1 _ ih =>
    obtain ⟨ls, hls⟩ := ih (fun s hs => hu s (by simp [hs]))
    obtain ⟨es, w1, -⟩ := h1
    obtain ⟨hs1, hs2⟩ := hu s (by simp)
    obtain ⟨n, hn⟩ := (C108_calculator_parses_partial hs1 hs2 es).2.1 w1
    obtain ⟨l, hl⟩ := Statement.objs w1
    exact ⟨l :: ls, .cons ⟨n, es, hn, hl⟩ hls⟩

/-- The lines `f(x) = x*2 + 1` and `f(3) < 8 == 0`: the second has the value 0, because 8 is not 0. -/
example : ∃ sts, Written [[102, 40, 120, 41, 32, 61, 32, 120, 42, 50, 32, 43, 32, 49, 10], [102, 40, 51, 41, 32, 60, 32, 56, 32, 61, 61, 32, 48, 10]] sts ∧
    Session Fits sts (fun _ => none) (fun _ => 0) [0, 0] := by
  have e1 := (C108_calculator_parses_partial (s := [102, 40, 120, 41, 32, 61, 32, 120, 42, 50, 32, 43, 32, 49, 10])
    (Cfg.units_of (by decide +kernel)).1 (Cfg.units_of (by decide +kernel)).2
    [.assign (.call [102] (.name [120])) (.binary (.binary (.name [120]) .times (.literal 2)) .plus (.literal 1))]).2.2 ⟨40, by decide +kernel⟩
  have e2 := (C108_calculator_parses_partial (s := [102, 40, 51, 41, 32, 60, 32, 56, 32, 61, 61, 32, 48, 10])
    (Cfg.units_of (by decide +kernel)).1 (Cfg.units_of (by decide +kernel)).2
    [.push (.push (.first (.call [102] (.literal 3))) .less (.literal 8)) .equal (.literal 0)]).2.2 ⟨40, by decide +kernel⟩
  refine ⟨[[.define [102] [120] (.bin (.bin (.var [120]) .times (.lit 2)) .plus (.lit 1))],
    [.expr (.cmp (.call [102] (.lit 3)) [(.less, .lit 8), (.equal, .lit 0)])]], ?_, ?_⟩
  · exact Each.cons ⟨_, e1, rfl⟩ (.cons ⟨_, e2, rfl⟩ .nil)
  · refine .line (by simp) (.cons .define .nil) (.line (by simp) (.cons (.expr (.cmp (.call rfl .lit
      (.bin (.bin .var .lit rfl (by unfold Fits; decide +kernel)) .lit rfl (by unfold Fits; decide +kernel)))
      (.holds .lit (by show (_ : Int) < 8; decide +kernel) (.not .lit (by show ¬ (8 : Int) = 0; decide))))) .nil) .nil)

end Verif.CalcP
