import Verif.CalcEval

/-
What the calculator example computes (C101).
-/

namespace Verif.Spec.Calc

open Verif.Calc (UnOp BinOp CmpOp Name)

/-- Expressions; an assignment to something that is neither a variable nor a function is an error. -/
inductive E
  | lit (v : Int)
  | var (x : Name)
  | un (op : UnOp) (e : E)
  | bin (l : E) (op : BinOp) (r : E)
  | cmp (x : E) (xs : List (CmpOp × E))
  | ite (c t f : E)
  | call (f : Name) (x : E)
  | set (x : Name) (e : E)
  | error

/-- Statements: a function is defined, or an expression is computed. -/
inductive Stmt
  | define (f p : Name) (body : E)
  | expr (e : E)

/-- The values of an `int`. -/
def Fits (v : Int) : Prop := -2 ^ 31 ≤ v ∧ v < 2 ^ 31

/-- `q` is `a / b` rounded towards zero. -/
def DivVal (a b q : Int) : Prop :=
  b ≠ 0 ∧ ∃ r, a = q * b + r ∧ r.natAbs < b.natAbs ∧ (0 ≤ a → 0 ≤ r) ∧ (a ≤ 0 → r ≤ 0)

/-- Bit `i` of an integer in two's complement of unlimited width. -/
def bit (i : Nat) (v : Int) : Bool := (v / 2 ^ i) % 2 == 1

def BitVal (f : Bool → Bool → Bool) (a b w : Int) : Prop := ∀ i, bit i w = f (bit i a) (bit i b)

def UnVal : UnOp → Int → Int → Prop
  | .negate, v, w => w = -v
  | .complement, v, w => ∀ i, bit i w = !bit i v

def BinVal : BinOp → Int → Int → Int → Prop
  | .plus, a, b, w => w = a + b
  | .minus, a, b, w => w = a - b
  | .times, a, b, w => w = a * b
  | .div, a, b, w => DivVal a b w
  | .pow, a, b, w => (0 ≤ b ∧ w = a ^ b.toNat) ∨ (b < 0 ∧ DivVal 1 (a ^ (-b).toNat) w)
  | .bitAnd, a, b, w => BitVal and a b w
  | .bitOr, a, b, w => BitVal or a b w
  | .bitXor, a, b, w => BitVal xor a b w

def Cmp : CmpOp → Int → Int → Prop
  | .equal, a, b => a = b
  | .less, a, b => a < b

abbrev Vars := Name → Int
abbrev Fns := Name → Option (Name × E)

def upd (s : Vars) (x : Name) (v : Int) : Vars := fun y => if y = x then v else s y

/-- An expression, or the rest of a chain of comparisons. -/
inductive T
  | e (e : E)
  | rest (v : Int) (xs : List (CmpOp × E))

/-- With the functions `F`, the expression has the value `v` and changes the variables from `s` to `s'`.  Results of
    operators have to be in `R`.  Parameters are variables that have their old value again after the call. -/
inductive Eval (R : Int → Prop) (F : Fns) : T → Vars → Int → Vars → Prop
  | lit {v : Int} {s : Vars} : Eval R F (.e (.lit v)) s v s
  | var {x : Name} {s : Vars} : Eval R F (.e (.var x)) s (s x) s
  | un {op : UnOp} {e : E} {s s1 : Vars} {v w : Int} : Eval R F (.e e) s v s1 → UnVal op v w → R w →
      Eval R F (.e (.un op e)) s w s1
  | bin {op : BinOp} {l r : E} {s s1 s2 : Vars} {a b w : Int} : Eval R F (.e l) s a s1 → Eval R F (.e r) s1 b s2 →
      BinVal op a b w → R w → Eval R F (.e (.bin l op r)) s w s2
  | cmp {x : E} {xs : List (CmpOp × E)} {s s1 s2 : Vars} {v w : Int} : Eval R F (.e x) s v s1 →
      Eval R F (.rest v xs) s1 w s2 → Eval R F (.e (.cmp x xs)) s w s2
  | all {v : Int} {s : Vars} : Eval R F (.rest v []) s 1 s
  | holds {op : CmpOp} {x : E} {xs : List (CmpOp × E)} {s s1 s2 : Vars} {a b w : Int} : Eval R F (.e x) s b s1 →
      Cmp op a b → Eval R F (.rest b xs) s1 w s2 → Eval R F (.rest a ((op, x) :: xs)) s w s2
  | not {op : CmpOp} {x : E} {xs : List (CmpOp × E)} {s s1 : Vars} {a b : Int} : Eval R F (.e x) s b s1 →
      ¬ Cmp op a b → Eval R F (.rest a ((op, x) :: xs)) s 0 s1
  | yes {c t f : E} {s s1 s2 : Vars} {v w : Int} : Eval R F (.e c) s v s1 → v ≠ 0 → Eval R F (.e t) s1 w s2 →
      Eval R F (.e (.ite c t f)) s w s2
  | no {c t f : E} {s s1 s2 : Vars} {w : Int} : Eval R F (.e c) s 0 s1 → Eval R F (.e f) s1 w s2 →
      Eval R F (.e (.ite c t f)) s w s2
  | unknown {f : Name} {x : E} {s : Vars} : F f = none → Eval R F (.e (.call f x)) s 0 s
  | call {f p : Name} {x body : E} {s s1 s2 : Vars} {v w : Int} : F f = some (p, body) → Eval R F (.e x) s v s1 →
      Eval R F (.e body) (upd s1 p v) w s2 → Eval R F (.e (.call f x)) s w (upd s2 p (s1 p))
  | set {x : Name} {e : E} {s s1 : Vars} {v : Int} : Eval R F (.e e) s v s1 → Eval R F (.e (.set x e)) s v (upd s1 x v)
  | error {s : Vars} : Eval R F (.e .error) s 0 s

/-- One statement. -/
inductive Step (R : Int → Prop) : Stmt → Fns → Vars → Int → Fns → Vars → Prop
  | define {f p : Name} {body : E} {F : Fns} {s : Vars} :
      Step R (.define f p body) F s 0 (fun g => if g = f then some (p, body) else F g) s
  | expr {e : E} {F : Fns} {s s1 : Vars} {v : Int} : Eval R F (.e e) s v s1 → Step R (.expr e) F s v F s1

/-- The statements of a line, `v` is the value of the one before. -/
inductive Line (R : Int → Prop) : List Stmt → Int → Fns → Vars → Int → Fns → Vars → Prop
  | nil {v : Int} {F : Fns} {s : Vars} : Line R [] v F s v F s
  | cons {x : Stmt} {xs : List Stmt} {u v w : Int} {F F1 F2 : Fns} {s s1 s2 : Vars} : Step R x F s v F1 s1 →
      Line R xs v F1 s1 w F2 s2 → Line R (x :: xs) u F s w F2 s2

/-- A session prints the value of the last statement of every line that is not empty. -/
inductive Session (R : Int → Prop) : List (List Stmt) → Fns → Vars → List Int → Prop
  | nil {F : Fns} {s : Vars} : Session R [] F s []
  | empty {ls : List (List Stmt)} {F : Fns} {s : Vars} {vs : List Int} : Session R ls F s vs → Session R ([] :: ls) F s vs
  | line {l : List Stmt} {ls : List (List Stmt)} {F F1 : Fns} {s s1 : Vars} {v : Int} {vs : List Int} : l ≠ [] →
      Line R l 0 F s v F1 s1 → Session R ls F1 s1 vs → Session R (l :: ls) F s (v :: vs)

end Verif.Spec.Calc

namespace Verif.Calc

open Spec.Calc (E Stmt Fits DivVal bit BitVal UnVal BinVal Cmp Vars Fns upd T Eval Step Line Session)

mutual
/-- The expression of an object without function definitions. -/
def strip : Obj → Option E
  | .literal _ v => some (.lit v)
  | .name _ x => some (.var x)
  | .unary _ op r => (strip r).map (.un op)
  | .binary _ l op r => match strip l, strip r with
    | some a, some b => some (.bin a op b)
    | _, _ => none
  | .comparison _ x xs => match strip x, stripRest xs with
    | some a, some b => some (.cmp a b)
    | _, _ => none
  | .cond _ c t f => match strip c, strip t, strip f with
    | some a, some b, some d => some (.ite a b d)
    | _, _, _ => none
  | .call _ f x => (strip x).map (.call f)
  | .assign _ (.name _ x) r => (strip r).map (.set x)
  | .assign _ (.call _ _ (.name _ _)) _ => none
  | .assign _ _ _ => some .error
def stripRest : List (CmpOp × Obj) → Option (List (CmpOp × E))
  | [] => some []
  | (op, x) :: xs => match strip x, stripRest xs with
    | some a, some b => some ((op, a) :: b)
    | _, _ => none
end

/-- The statement of an object: functions are only defined by whole statements. -/
def stmtOf : Obj → Option Stmt
  | .assign _ (.call _ f (.name _ p)) r => (strip r).map (.define f p)
  | o => (strip o).map .expr

mutual
/-- The literals are values of an `int`. -/
def Obj.Lits : Obj → Prop
  | .literal _ v => Fits v
  | .name _ _ => True
  | .unary _ _ r => r.Lits
  | .binary _ l _ r => l.Lits ∧ r.Lits
  | .comparison _ x xs => x.Lits ∧ LitsRest xs
  | .cond _ c t f => c.Lits ∧ t.Lits ∧ f.Lits
  | .call _ _ x => x.Lits
  | .assign _ l r => l.Lits ∧ r.Lits
def LitsRest : List (CmpOp × Obj) → Prop
  | [] => True
  | (_, x) :: xs => x.Lits ∧ LitsRest xs
end

/-! ### Arithmetic -/

theorem fit_iff {v w : Int} : fit v = some w ↔ w = v ∧ Fits w := by
  unfold fit Fits intMin intMax
  split
  · simp only [Option.some.injEq]; constructor
    · rintro rfl; omega
    · rintro ⟨rfl, -⟩; rfl
  · simp only [reduceCtorEq, false_iff]; omega

theorem toInt_fits (x : BitVec 32) : Fits x.toInt := by
  have h1 := BitVec.le_toInt x
  have h2 := BitVec.toInt_lt (x := x)
  unfold Fits
  simp only [show (32 - 1) = 31 from rfl] at h1 h2
  omega

theorem divVal_iff {a b q : Int} : DivVal a b q ↔ b ≠ 0 ∧ q = a.tdiv b := by
  have key : b ≠ 0 → DivVal a b (a.tdiv b) := by
    intro hb
    refine ⟨hb, a.tmod b, ?_, ?_, ?_, ?_⟩
    · have := Int.mul_tdiv_add_tmod a b
      rw [Int.mul_comm]
      exact this.symm
    · rw [Int.natAbs_tmod]
      exact Nat.mod_lt _ (by omega)
    · intro h; exact Int.tmod_nonneg _ h
    · intro h
      have h1 : 0 ≤ (-a).tmod b := Int.tmod_nonneg _ (by omega)
      rw [Int.neg_tmod] at h1
      omega
  constructor
  · rintro ⟨hb, r, h1, h2, h3, h4⟩
    obtain ⟨-, r', k1, k2, k3, k4⟩ := key hb
    refine ⟨hb, ?_⟩
    have e : (q - a.tdiv b) * b = r' - r := by rw [Int.sub_mul]; omega
    have hn : (q - a.tdiv b).natAbs * b.natAbs = (r' - r).natAbs := by rw [← Int.natAbs_mul, e]
    have hlt : (r' - r).natAbs < b.natAbs := by omega
    rw [← hn] at hlt
    have h0 : (q - a.tdiv b).natAbs = 0 := by
      rcases Nat.eq_zero_or_pos (q - a.tdiv b).natAbs with h | h
      · exact h
      · have := Nat.le_mul_of_pos_left b.natAbs h
        omega
    omega
  · rintro ⟨hb, rfl⟩
    exact key hb

theorem toInt_ofInt {v : Int} (h : Fits v) : (BitVec.ofInt 32 v).toInt = v := by
  rw [BitVec.toInt_ofInt]
  unfold Fits at h
  exact Int.bmod_eq_of_le (by omega) (by omega)

theorem bit_ofInt (v : Int) (i : Nat) (hi : i < 32) : (BitVec.ofInt 32 v).getLsbD i = bit i v := by
  unfold bit
  rw [← BitVec.testBit_toNat, BitVec.toNat_ofInt, Nat.testBit_eq_decide_div_mod_eq]
  have hm : ((2 ^ 32 : Nat) : Int) = 2 ^ i * 2 ^ (32 - i) := by
    rw [← Int.pow_add, show i + (32 - i) = 32 by omega]; rfl
  have he : ∃ k, (2 : Int) ^ (32 - i) = 2 * k := ⟨2 ^ (31 - i), by
    rw [show 32 - i = (31 - i) + 1 by omega, Int.pow_succ, Int.mul_comm]⟩
  have hp : (0 : Int) < 2 ^ i := Int.pow_pos (by decide)
  obtain ⟨k, he⟩ := he
  obtain ⟨m, hm'⟩ : ∃ m : Nat, v % ((2 ^ 32 : Nat) : Int) = m :=
    ⟨(v % ((2 ^ 32 : Nat) : Int)).toNat, (Int.toNat_of_nonneg (Int.emod_nonneg _ (by decide))).symm⟩
  have hv : v = (m : Int) + 2 ^ i * (2 * k * (v / ((2 ^ 32 : Nat) : Int))) := by
    have := Int.emod_add_mul_ediv v ((2 ^ 32 : Nat) : Int)
    rw [hm'] at this
    rw [← Int.mul_assoc, ← he, ← hm]
    exact this.symm
  have hq : v / 2 ^ i = (m : Int) / 2 ^ i + 2 * k * (v / ((2 ^ 32 : Nat) : Int)) := by
    conv => lhs; rw [hv]
    rw [Int.add_mul_ediv_left _ _ (by omega)]
  rw [hq, hm', Int.mul_assoc]
  simp only [Int.toNat_natCast, Int.add_mul_emod_self_left]
  have hc : ((m / 2 ^ i % 2 : Nat) : Int) = (m : Int) / 2 ^ i % 2 := by norm_cast
  rw [← hc]
  have hz : ∀ z : Nat, decide (z = 1) = ((z : Int) == 1) := fun z => by
    by_cases h : z = 1
    · subst h; rfl
    · have : (z : Int) ≠ 1 := by omega
      simp [h, this]
  exact hz _

theorem bit_high {v : Int} (h : Fits v) {i : Nat} (hi : 31 ≤ i) : bit i v = decide (v < 0) := by
  unfold bit
  have hp : (2 : Int) ^ 31 ≤ 2 ^ i := by
    have := Nat.pow_le_pow_right (n := 2) (by decide) hi
    exact_mod_cast this
  unfold Fits at h
  by_cases hv : v < 0
  · have : v / 2 ^ i = -1 := by
      have h1 : v = (v + 2 ^ i) + 2 ^ i * (-1) := by omega
      rw [h1, Int.add_mul_ediv_left _ _ (by omega), Int.ediv_eq_zero_of_lt (by omega) (by omega)]
      rfl
    rw [this]
    simp [hv]
  · rw [Int.ediv_eq_zero_of_lt (by omega) (by omega)]
    simp [hv]

/-- Values of an `int` with the same bits are the same. -/
theorem bits_inj {v w : Int} (hv : Fits v) (hw : Fits w) (h : ∀ i, bit i v = bit i w) : v = w := by
  rw [← toInt_ofInt hv, ← toInt_ofInt hw]
  congr 1
  apply BitVec.eq_of_getLsbD_eq
  intro i hi
  rw [bit_ofInt v i hi, bit_ofInt w i hi, h i]

theorem bits_toInt (x : BitVec 32) {i : Nat} : bit i x.toInt = x.getLsbD (min i 31) := by
  have e : bit (min i 31) x.toInt = x.getLsbD (min i 31) := by
    rw [← bit_ofInt _ _ (by omega), BitVec.ofInt_toInt]
  rw [← e]
  by_cases hi : i ≤ 31
  · rw [Nat.min_eq_left hi]
  · rw [bit_high (toInt_fits x) (by omega), bit_high (toInt_fits x) (by omega)]

theorem bits_min {v : Int} (h : Fits v) (i : Nat) : (BitVec.ofInt 32 v).getLsbD (min i 31) = bit i v := by
  rw [← bits_toInt, toInt_ofInt h]

theorem UnOp.eval_iff {op : UnOp} {v w : Int} (hv : Fits v) : op.eval v = some w ↔ UnVal op v w ∧ Fits w := by
  cases op with
  | negate => simp only [UnOp.eval, UnVal, fit_iff]
  | complement =>
    have key : ∀ i, bit i (~~~(BitVec.ofInt 32 v)).toInt = !bit i v := by
      intro i
      rw [bits_toInt, BitVec.getLsbD_not, bits_min hv]
      simp; omega
    simp only [UnOp.eval, UnVal, Option.some.injEq]
    constructor
    · rintro rfl
      exact ⟨key, toInt_fits _⟩
    · rintro ⟨h1, h2⟩
      exact bits_inj (toInt_fits _) h2 fun i => by rw [key, h1]

theorem bitOp_iff {f : Bool → Bool → Bool} {x : BitVec 32} {a b w : Int} (ha : Fits a) (hb : Fits b)
    (h : ∀ i, x.getLsbD i = f ((BitVec.ofInt 32 a).getLsbD i) ((BitVec.ofInt 32 b).getLsbD i)) :
    x.toInt = w ↔ BitVal f a b w ∧ Fits w := by
  have key : BitVal f a b x.toInt := by
    intro i
    rw [bits_toInt, h, bits_min ha, bits_min hb]
  constructor
  · rintro rfl
    exact ⟨key, toInt_fits _⟩
  · rintro ⟨h1, h2⟩
    exact bits_inj (toInt_fits _) h2 fun i => by rw [key i, h1 i]

theorem natAbs_pow (a : Int) (k : Nat) : (a ^ k).natAbs = a.natAbs ^ k := by
  induction k with
  | zero => simp
  | succ k ih => rw [Int.pow_succ, Int.natAbs_mul, ih, Nat.pow_succ]

theorem negOne_pow (k : Nat) : (-1 : Int) ^ k = if k % 2 = 0 then 1 else -1 := by
  induction k with
  | zero => rfl
  | succ k ih =>
    rw [Int.pow_succ, ih]
    split <;> split <;> first | omega | rfl

theorem powInt_iff {a b w : Int} : powInt a b = some w ↔ BinVal .pow a b w ∧ Fits w := by
  simp only [powInt, BinVal]
  by_cases hb : 0 ≤ b
  · rw [if_pos hb, fit_iff]
    constructor
    · rintro ⟨h1, h2⟩; exact ⟨.inl ⟨hb, h1⟩, h2⟩
    · rintro ⟨⟨-, h1⟩ | ⟨h1, -⟩, h2⟩
      · exact ⟨h1, h2⟩
      · omega
  · rw [if_neg hb]
    obtain ⟨k, hk⟩ : ∃ k : Nat, (-b).toNat = k + 1 := ⟨(-b).toNat - 1, by omega⟩
    have hd : ((0 ≤ b ∧ w = a ^ b.toNat) ∨ (b < 0 ∧ DivVal 1 (a ^ (-b).toNat) w)) ↔ DivVal 1 (a ^ (-b).toNat) w := by
      constructor
      · rintro (⟨h, -⟩ | ⟨-, h⟩)
        · omega
        · exact h
      · exact fun h => .inr ⟨by omega, h⟩
    rw [hd, divVal_iff]
    by_cases h0 : a = 0
    · subst h0
      rw [if_pos rfl, hk, Int.pow_succ]
      simp
    rw [if_neg h0]
    by_cases h1 : a = 1
    · subst h1
      rw [if_pos rfl, Int.one_pow]
      simp only [Option.some.injEq]
      constructor
      · rintro rfl; exact ⟨⟨by decide, rfl⟩, by unfold Fits; decide⟩
      · rintro ⟨⟨-, h⟩, -⟩; exact h.symm
    rw [if_neg h1]
    by_cases h2 : a = -1
    · subst h2
      rw [if_pos rfl, negOne_pow]
      have hpar : (b % 2 = 0) ↔ ((-b).toNat % 2 = 0) := by omega
      simp only [Option.some.injEq]
      by_cases he : b % 2 = 0
      · rw [if_pos he, if_pos (hpar.1 he)]
        constructor
        · rintro rfl; exact ⟨⟨by decide, rfl⟩, by unfold Fits; decide⟩
        · rintro ⟨⟨-, h⟩, -⟩; exact h.symm
      · rw [if_neg he, if_neg (fun h => he (hpar.2 h))]
        constructor
        · rintro rfl; exact ⟨⟨by decide, rfl⟩, by unfold Fits; decide⟩
        · rintro ⟨⟨-, h⟩, -⟩; exact h.symm
    rw [if_neg h2]
    have hbig : 2 ≤ (a ^ (-b).toNat).natAbs := by
      rw [natAbs_pow, hk, Nat.pow_succ]
      have h3 : 2 ≤ a.natAbs := by omega
      have h4 : 0 < a.natAbs ^ k := Nat.pow_pos (by omega)
      calc 2 ≤ 1 * a.natAbs := by omega
        _ ≤ a.natAbs ^ k * a.natAbs := Nat.mul_le_mul_right _ h4
    have hz : (1 : Int).tdiv (a ^ (-b).toNat) = 0 := by
      have := Int.natAbs_tdiv 1 (a ^ (-b).toNat)
      have h5 : Nat.div (Int.natAbs 1) (a ^ (-b).toNat).natAbs = 0 := Nat.div_eq_of_lt (show 1 < _ from hbig)
      omega
    rw [hz]
    simp only [Option.some.injEq]
    constructor
    · rintro rfl; exact ⟨⟨by intro h; rw [h] at hbig; simp at hbig, rfl⟩, by unfold Fits; decide⟩
    · rintro ⟨⟨-, h⟩, -⟩; exact h.symm

theorem BinOp.eval_iff {op : BinOp} {a b w : Int} (ha : Fits a) (hb : Fits b) :
    op.eval a b = some w ↔ BinVal op a b w ∧ Fits w := by
  cases op with
  | plus => simp only [BinOp.eval, BinVal, fit_iff]
  | minus => simp only [BinOp.eval, BinVal, fit_iff]
  | times => simp only [BinOp.eval, BinVal, fit_iff]
  | div =>
    simp only [BinOp.eval, BinVal, divVal_iff]
    by_cases h : b = 0
    · simp [h]
    · rw [if_neg h, fit_iff]; simp [h]
  | pow => exact powInt_iff
  | bitAnd => simp only [BinOp.eval, BinVal, Option.some.injEq]; exact bitOp_iff ha hb fun i => by simp
  | bitOr => simp only [BinOp.eval, BinVal, Option.some.injEq]; exact bitOp_iff ha hb fun i => by simp
  | bitXor => simp only [BinOp.eval, BinVal, Option.some.injEq]; exact bitOp_iff ha hb fun i => by simp

theorem CmpOp.eval_iff {op : CmpOp} {a b : Int} : op.eval a b = true ↔ Cmp op a b := by
  cases op <;> simp [CmpOp.eval, Cmp]

/-! ### More steps do not change the outcome -/

def Le (r r' : Out) : Prop := r = .steps ∨ r = r'

theorem Le.refl (r : Out) : Le r r := .inr rfl

theorem Le.bind {stmts : List Obj} {a : Nat} {r r' : Out} {f g : Int → Env → Out} (h : Le r r')
    (hf : ∀ v e, Le (f v e) (g v e)) : Le (r.bind stmts a f) (r'.bind stmts a g) := by
  rcases h with rfl | rfl
  · exact .inl rfl
  · cases r with
    | val v e =>
      simp only [Out.bind]
      split
      · exact hf v e
      · exact .refl _
    | _ => exact .refl _

theorem Le.ret {r r' : Out} {f g : Int → Env → Out} (h : Le r r')
    (hf : ∀ v e, Le (f v e) (g v e)) : Le (r.ret f) (r'.ret g) := by
  rcases h with rfl | rfl
  · exact .inl rfl
  · cases r with
    | val v e => exact hf v e
    | _ => exact .refl _

/-- An assignment is one to a variable, to a function, or an error. -/
theorem assign_cases (l : Obj) : (∃ b x, l = .name b x) ∨ (∃ b f c p, l = .call b f (.name c p)) ∨
    ∀ a r, strip (.assign a l r) = some .error ∧ ∀ late stmts n e, eval late stmts (n + 1) (.obj (.assign a l r)) e = .val 0 e := by
  cases l with
  | name b x => exact .inl ⟨b, x, rfl⟩
  | call b f x =>
    cases x with
    | name c p => exact .inr (.inl ⟨b, f, c, p, rfl⟩)
    | _ => exact .inr (.inr fun a r => ⟨by simp [strip], fun late stmts n e => by simp [eval]⟩)
  | _ => exact .inr (.inr fun a r => ⟨by simp [strip], fun late stmts n e => by simp [eval]⟩)

theorem eval_le {late : Bool} {stmts : List Obj} : ∀ n w e, Le (eval late stmts n w e) (eval late stmts (n + 1) w e)
  | 0, _, _ => .inl rfl
  | n + 1, w, e => by
    have ih := eval_le (late := late) (stmts := stmts) n
    cases w with
    | loop a v xs =>
      cases xs with
      | nil => rw [eval, eval]; exact .refl _
      | cons x xs =>
        obtain ⟨op, x⟩ := x
        rw [eval, eval]
        refine (ih _ _).bind fun w e1 => ?_
        split
        · exact ih _ _
        · exact .refl _
    | obj o =>
      cases o with
      | literal a v => rw [eval, eval]; exact .refl _
      | name a x => rw [eval, eval]; exact .refl _
      | unary a op r => rw [eval, eval]; exact (ih _ _).bind fun _ _ => .refl _
      | binary a l op r => rw [eval, eval]; exact (ih _ _).bind fun _ _ => (ih _ _).bind fun _ _ => .refl _
      | comparison a x xs => rw [eval, eval]; exact (ih _ _).bind fun _ _ => ih _ _
      | cond a c t f =>
        rw [eval, eval]
        refine (ih _ _).bind fun w e1 => ?_
        split
        · exact ih _ _
        · exact ih _ _
      | call a f x =>
        rw [eval, eval]
        cases e.findFn f with
        | none => exact .refl _
        | some p =>
          refine (ih _ _).ret fun v e1 => ?_
          cases e1.findFn f with
          | none => exact .refl _
          | some p1 => exact (ih _ _).ret fun _ _ => .refl _
      | assign a l r =>
        rcases assign_cases l with ⟨b, x, rfl⟩ | ⟨b, f, c, p, rfl⟩ | h
        · rw [eval, eval]; exact (ih _ _).bind fun _ _ => .refl _
        · rw [eval, eval]; exact .refl _
        · rw [(h a r).2, (h a r).2]; exact .refl _

theorem eval_mono {late : Bool} {stmts : List Obj} {n m : Nat} {w : What} {e : Env} {r : Out} (h : eval late stmts n w e = r)
    (hr : r ≠ .steps) (hm : n ≤ m) : eval late stmts m w e = r := by
  induction hm with
  | refl => exact h
  | step _ ih =>
    rcases eval_le (late := late) (stmts := stmts) _ w e with h' | h'
    · exact (hr (ih.symm.trans h')).elim
    · exact h'.symm.trans ih

/-! ### The environment and the objects that exist -/

/-- The environment has these functions and variables. -/
structure Sim (e : Env) (F : Fns) (s : Vars) : Prop where
  vars : ∀ x, s x = (e.vars x).getD 0
  fits : ∀ x, Fits (s x)
  fns : ∀ f, (e.findFn f = none ∧ F f = none) ∨
    ∃ p b t, e.findFn f = some (p, b) ∧ F f = some (p, t) ∧ strip b = some t ∧ b.Lits

def Held (stmts : List Obj) (e : Env) (as : List Nat) : Prop := ∀ a ∈ as, alive stmts e a = true

theorem Held.fns {stmts : List Obj} {e e' : Env} {as : List Nat} (h : Held stmts e as) (he : e'.fns = e.fns) :
    Held stmts e' as := fun a ha => by
  have := h a ha
  unfold alive at this ⊢
  rw [he]
  exact this

theorem findFn_fns {e e' : Env} (h : e'.fns = e.fns) (f : Name) : e'.findFn f = e.findFn f := by
  unfold Env.findFn; rw [h]

/-- The bodies of functions exist. -/
theorem held_body {stmts : List Obj} {e : Env} {f p : Name} {b : Obj} (h : e.findFn f = some (p, b)) : Held stmts e b.owned := by
  intro a ha
  unfold Env.findFn at h
  obtain ⟨x, h1, h2⟩ := Option.map_eq_some_iff.1 h
  unfold alive
  simp only [Bool.or_eq_true, List.any_eq_true]
  refine .inr ⟨x, List.mem_of_find?_eq_some h1, ?_⟩
  rw [h2]
  simpa using ha

theorem Sim.setVar {e : Env} {F : Fns} {s : Vars} (h : Sim e F s) {x : Name} {v : Int} (hv : Fits v) :
    Sim (e.setVar x v) F (upd s x v) where
  vars y := by
    unfold upd Env.setVar
    by_cases hy : y = x
    · simp [hy]
    · simp [hy, h.vars]
  fits y := by
    unfold upd
    split
    · exact hv
    · exact h.fits y
  fns f := by
    have : (e.setVar x v).findFn f = e.findFn f := rfl
    rw [this]
    exact h.fns f

def stripW : What → Option T
  | .obj o => (strip o).map .e
  | .loop _ v xs => (stripRest xs).map (.rest v)
def HeldW (stmts : List Obj) (e : Env) : What → Prop
  | .obj o => Held stmts e o.owned
  | .loop a _ xs => Held stmts e (a :: ownedRest xs)
def LitsW : What → Prop
  | .obj o => o.Lits
  | .loop _ _ xs => LitsRest xs

theorem Held.cons {stmts : List Obj} {e : Env} {a : Nat} {as : List Nat} :
    Held stmts e (a :: as) ↔ alive stmts e a = true ∧ Held stmts e as := by simp [Held]
theorem Held.append {stmts : List Obj} {e : Env} {as bs : List Nat} :
    Held stmts e (as ++ bs) ↔ Held stmts e as ∧ Held stmts e bs := by
  simp only [Held, List.mem_append]
  exact ⟨fun h => ⟨fun a ha => h a (.inl ha), fun a ha => h a (.inr ha)⟩, fun h a ha => ha.elim (h.1 a) (h.2 a)⟩

/-- What is to be shown of an outcome. -/
def Good (F : Fns) (t : T) (s : Vars) (e : Env) (r : Out) : Prop :=
  ∀ v e', r = .val v e' → ∃ s', Eval Fits F t s v s' ∧ Sim e' F s' ∧ Fits v ∧ e'.fns = e.fns

theorem bind_val {stmts : List Obj} {a : Nat} {r : Out} {f : Int → Env → Out} {v : Int} {e : Env}
    (h : r.bind stmts a f = .val v e) : ∃ w e1, r = .val w e1 ∧ alive stmts e1 a = true ∧ f w e1 = .val v e := by
  cases r with
  | val w e1 =>
    simp only [Out.bind] at h
    split at h
    · exact ⟨_, _, rfl, ‹_›, h⟩
    · cases h
  | ub => cases h
  | steps => cases h

theorem ret_val {r : Out} {f : Int → Env → Out} {v : Int} {e : Env}
    (h : r.ret f = .val v e) : ∃ w e1, r = .val w e1 ∧ f w e1 = .val v e := by
  cases r with
  | val w e1 => exact ⟨_, _, rfl, h⟩
  | ub => cases h
  | steps => cases h

theorem ofOpt_val {e e' : Env} {o : Option Int} {v : Int} (h : ofOpt e o = .val v e') : o = some v ∧ e' = e := by
  cases o with
  | none => cases h
  | some w => simp only [ofOpt, Out.val.injEq] at h; exact ⟨by rw [h.1], h.2.symm⟩

theorem eval_sound {late : Bool} {stmts : List Obj} {F : Fns} : ∀ n w e s t, Sim e F s → stripW w = some t →
    HeldW stmts e w → LitsW w → Good F t s e (eval late stmts n w e)
  | 0, _, _, _, _, _, _, _, _ => by intro v e' h; rw [eval] at h; cases h
  | n + 1, w, e, s, t, hs, ht, hh, hl => by
    have ih := eval_sound (late := late) (stmts := stmts) (F := F) n
    intro v e' h
    cases w with
    | loop a x xs =>
      cases xs with
      | nil =>
        rw [eval] at h
        simp only [stripW, stripRest, Option.map_some, Option.some.injEq] at ht
        simp only [Out.val.injEq] at h
        obtain ⟨rfl, rfl⟩ := h
        subst ht
        exact ⟨s, .all, hs, by unfold Fits; decide, rfl⟩
      | cons y ys =>
        obtain ⟨op, y⟩ := y
        rw [eval] at h
        simp only [stripW, stripRest] at ht
        cases h1 : strip y with
        | none => simp [h1] at ht
        | some ty =>
        cases h2 : stripRest ys with
        | none => simp [h1, h2] at ht
        | some tys =>
        simp only [h1, h2, Option.map_some, Option.some.injEq] at ht
        subst ht
        simp only [HeldW, ownedRest, Held.cons, Held.append] at hh
        simp only [LitsW, LitsRest] at hl
        obtain ⟨w, e1, k1, k2, k3⟩ := bind_val h
        obtain ⟨s1, m1, m2, m3, m4⟩ := ih (.obj y) e s (.e ty) hs (by simp [stripW, h1]) hh.2.1 hl.1 _ _ k1
        by_cases hc : op.eval x w = true
        · rw [if_pos hc] at k3
          obtain ⟨s2, p1, p2, p3, p4⟩ := ih (.loop a w ys) e1 s1 (.rest w tys) m2 (by simp [stripW, h2])
            (Held.fns (by simp only [Held.cons]; exact ⟨hh.1, hh.2.2⟩) m4) hl.2 _ _ k3
          exact ⟨s2, .holds m1 (CmpOp.eval_iff.1 hc) p1, p2, p3, p4.trans m4⟩
        · rw [if_neg hc] at k3
          simp only [Out.val.injEq] at k3
          obtain ⟨rfl, rfl⟩ := k3
          exact ⟨s1, .not m1 (fun hh => hc (CmpOp.eval_iff.2 hh)), m2, by unfold Fits; decide, m4⟩
    | obj o =>
      cases o with
      | literal a x =>
        rw [eval] at h
        simp only [stripW, strip, Option.map_some, Option.some.injEq] at ht
        simp only [Out.val.injEq] at h
        obtain ⟨rfl, rfl⟩ := h
        subst ht
        exact ⟨s, .lit, hs, hl, rfl⟩
      | name a x =>
        rw [eval] at h
        simp only [stripW, strip, Option.map_some, Option.some.injEq] at ht
        simp only [Out.val.injEq] at h
        obtain ⟨rfl, rfl⟩ := h
        subst ht
        rw [← hs.vars x]
        exact ⟨s, .var, hs, hs.fits x, rfl⟩
      | unary a op r =>
        rw [eval] at h
        simp only [stripW, strip] at ht
        cases h1 : strip r with
        | none => simp [h1] at ht
        | some tr =>
        simp only [h1, Option.map_some, Option.some.injEq] at ht
        subst ht
        simp only [HeldW, Obj.owned, Held.cons] at hh
        obtain ⟨w, e1, k1, k2, k3⟩ := bind_val h
        obtain ⟨s1, m1, m2, m3, m4⟩ := ih (.obj r) e s (.e tr) hs (by simp [stripW, h1]) hh.2 hl _ _ k1
        obtain ⟨k4, rfl⟩ := ofOpt_val k3
        obtain ⟨k5, k6⟩ := (UnOp.eval_iff m3).1 k4
        exact ⟨s1, .un m1 k5 k6, m2, k6, m4⟩
      | binary a l op r =>
        rw [eval] at h
        simp only [stripW, strip] at ht
        cases h1 : strip l with
        | none => simp [h1] at ht
        | some tl =>
        cases h2 : strip r with
        | none => simp [h1, h2] at ht
        | some tr =>
        simp only [h1, h2, Option.map_some, Option.some.injEq] at ht
        subst ht
        simp only [HeldW, Obj.owned, Held.cons, Held.append] at hh
        simp only [LitsW, Obj.Lits] at hl
        obtain ⟨w, e1, k1, k2, k3⟩ := bind_val h
        obtain ⟨s1, m1, m2, m3, m4⟩ := ih (.obj l) e s (.e tl) hs (by simp [stripW, h1]) hh.2.1 hl.1 _ _ k1
        obtain ⟨x, e2, q1, q2, q3⟩ := bind_val k3
        obtain ⟨s2, p1, p2, p3, p4⟩ := ih (.obj r) e1 s1 (.e tr) m2 (by simp [stripW, h2]) (Held.fns hh.2.2 m4) hl.2 _ _ q1
        obtain ⟨k4, rfl⟩ := ofOpt_val q3
        obtain ⟨k5, k6⟩ := (BinOp.eval_iff m3 p3).1 k4
        exact ⟨s2, .bin m1 p1 k5 k6, p2, k6, p4.trans m4⟩
      | comparison a x xs =>
        rw [eval] at h
        simp only [stripW, strip] at ht
        cases h1 : strip x with
        | none => simp [h1] at ht
        | some tx =>
        cases h2 : stripRest xs with
        | none => simp [h1, h2] at ht
        | some txs =>
        simp only [h1, h2, Option.map_some, Option.some.injEq] at ht
        subst ht
        simp only [HeldW, Obj.owned, Held.cons, Held.append] at hh
        simp only [LitsW, Obj.Lits] at hl
        obtain ⟨w, e1, k1, k2, k3⟩ := bind_val h
        obtain ⟨s1, m1, m2, m3, m4⟩ := ih (.obj x) e s (.e tx) hs (by simp [stripW, h1]) hh.2.1 hl.1 _ _ k1
        obtain ⟨s2, p1, p2, p3, p4⟩ := ih (.loop a w xs) e1 s1 (.rest w txs) m2 (by simp [stripW, h2])
          (Held.fns (by simp only [Held.cons]; exact ⟨hh.1, hh.2.2⟩) m4) hl.2 _ _ k3
        exact ⟨s2, .cmp m1 p1, p2, p3, p4.trans m4⟩
      | cond a c t f =>
        rw [eval] at h
        simp only [stripW, strip] at ht
        cases h1 : strip c with
        | none => simp [h1] at ht
        | some tc =>
        cases h2 : strip t with
        | none => simp [h1, h2] at ht
        | some tt =>
        cases h3 : strip f with
        | none => simp [h1, h2, h3] at ht
        | some tf =>
        simp only [h1, h2, h3, Option.map_some, Option.some.injEq] at ht
        subst ht
        simp only [HeldW, Obj.owned, Held.cons, Held.append] at hh
        simp only [LitsW, Obj.Lits] at hl
        obtain ⟨w, e1, k1, k2, k3⟩ := bind_val h
        obtain ⟨s1, m1, m2, m3, m4⟩ := ih (.obj c) e s (.e tc) hs (by simp [stripW, h1]) hh.2.1 hl.1 _ _ k1
        by_cases hw : w ≠ 0
        · rw [if_pos hw] at k3
          obtain ⟨s2, p1, p2, p3, p4⟩ := ih (.obj t) e1 s1 (.e tt) m2 (by simp [stripW, h2]) (Held.fns hh.2.2.1 m4) hl.2.1 _ _ k3
          exact ⟨s2, .yes m1 hw p1, p2, p3, p4.trans m4⟩
        · rw [if_neg hw] at k3
          obtain ⟨s2, p1, p2, p3, p4⟩ := ih (.obj f) e1 s1 (.e tf) m2 (by simp [stripW, h3]) (Held.fns hh.2.2.2 m4) hl.2.2 _ _ k3
          have : w = 0 := by omega
          subst this
          exact ⟨s2, .no m1 p1, p2, p3, p4.trans m4⟩
      | call a f x =>
        rw [eval] at h
        simp only [stripW, strip] at ht
        cases h1 : strip x with
        | none => simp [h1] at ht
        | some tx =>
        simp only [h1, Option.map_some, Option.some.injEq] at ht
        subst ht
        simp only [HeldW, Obj.owned, Held.cons] at hh
        rcases hs.fns f with ⟨f1, f2⟩ | ⟨p, b, tb, f1, f2, f3, f4⟩
        · rw [f1] at h
          simp only [Out.val.injEq] at h
          obtain ⟨rfl, rfl⟩ := h
          exact ⟨s, .unknown f2, hs, by unfold Fits; decide, rfl⟩
        · rw [f1] at h
          obtain ⟨w, e1, k1, k3⟩ := ret_val h
          obtain ⟨s1, m1, m2, m3, m4⟩ := ih (.obj x) e s (.e tx) hs (by simp [stripW, h1]) hh.2 hl _ _ k1
          have f5 : e1.findFn f = some (p, b) := by rw [findFn_fns m4]; exact f1
          rw [f5] at k3
          simp only [ite_self] at k3
          obtain ⟨y, e2, q1, q3⟩ := ret_val k3
          obtain ⟨s2, p1, p2, p3, p4⟩ := ih (.obj b) (e1.setVar p w) (upd s1 p w) (.e tb) (m2.setVar m3) (by simp [stripW, f3])
            (held_body (f := f) f5) f4 _ _ q1
          have p5 : e2.fns = e.fns := p4.trans m4
          rw [findFn_fns p5, f1] at q3
          simp only [Out.val.injEq] at q3
          obtain ⟨rfl, rfl⟩ := q3
          rw [← m2.vars p]
          exact ⟨_, .call f2 m1 p1, p2.setVar (m2.fits p), p3, p5⟩
      | assign a l r =>
        rcases assign_cases l with ⟨b, x, rfl⟩ | ⟨b, f, c, p, rfl⟩ | hx
        · rw [eval] at h
          simp only [stripW, strip] at ht
          cases h1 : strip r with
          | none => simp [h1] at ht
          | some tr =>
          simp only [h1, Option.map_some, Option.some.injEq] at ht
          subst ht
          simp only [HeldW, Obj.owned, Held.cons, Held.append] at hh
          simp only [LitsW, Obj.Lits] at hl
          obtain ⟨w, e1, k1, k2, k3⟩ := bind_val h
          obtain ⟨s1, m1, m2, m3, m4⟩ := ih (.obj r) e s (.e tr) hs (by simp [stripW, h1]) hh.2.2 hl.2 _ _ k1
          simp only [Out.val.injEq] at k3
          obtain ⟨rfl, rfl⟩ := k3
          exact ⟨_, .set m1, m2.setVar m3, m3, m4⟩
        · simp [stripW, strip] at ht
        · rw [(hx a r).2] at h
          simp only [stripW, (hx a r).1, Option.map_some, Option.some.injEq] at ht
          simp only [Out.val.injEq] at h
          obtain ⟨rfl, rfl⟩ := h
          subst ht
          exact ⟨s, .error, hs, by unfold Fits; decide, rfl⟩

/-- The objects an expression may come from. -/
inductive Shape : Obj → E → Prop
  | literal {a : Nat} {v : Int} : Shape (.literal a v) (.lit v)
  | name {a : Nat} {x : Name} : Shape (.name a x) (.var x)
  | unary {a : Nat} {op : UnOp} {r : Obj} {t : E} : strip r = some t → Shape (.unary a op r) (.un op t)
  | binary {a : Nat} {op : BinOp} {l r : Obj} {t u : E} : strip l = some t → strip r = some u → Shape (.binary a l op r) (.bin t op u)
  | comparison {a : Nat} {x : Obj} {xs : List (CmpOp × Obj)} {t : E} {ts : List (CmpOp × E)} : strip x = some t →
      stripRest xs = some ts → Shape (.comparison a x xs) (.cmp t ts)
  | cond {a : Nat} {c x y : Obj} {tc tx ty : E} : strip c = some tc → strip x = some tx → strip y = some ty →
      Shape (.cond a c x y) (.ite tc tx ty)
  | call {a : Nat} {f : Name} {x : Obj} {t : E} : strip x = some t → Shape (.call a f x) (.call f t)
  | assign {a b : Nat} {x : Name} {r : Obj} {t : E} : strip r = some t → Shape (.assign a (.name b x) r) (.set x t)
  | error {a : Nat} {l r : Obj} : (∀ late stmts n e, eval late stmts (n + 1) (.obj (.assign a l r)) e = .val 0 e) →
      Shape (.assign a l r) .error

theorem shape_of {o : Obj} {t : E} (ht : strip o = some t) : Shape o t := by
  cases o with
  | literal a v =>
    simp only [strip, Option.some.injEq] at ht
    subst ht
    exact .literal
  | name a x =>
    simp only [strip, Option.some.injEq] at ht
    subst ht
    exact .name
  | unary a op r =>
    simp only [strip] at ht
    obtain ⟨u, h1, rfl⟩ := Option.map_eq_some_iff.1 ht
    exact .unary h1
  | binary a l op r =>
    simp only [strip] at ht
    cases h1 : strip l with
    | none => simp [h1] at ht
    | some tl =>
    cases h2 : strip r with
    | none => simp [h1, h2] at ht
    | some tr =>
    simp only [h1, h2, Option.some.injEq] at ht
    subst ht
    exact .binary h1 h2
  | comparison a x xs =>
    simp only [strip] at ht
    cases h1 : strip x with
    | none => simp [h1] at ht
    | some tl =>
    cases h2 : stripRest xs with
    | none => simp [h1, h2] at ht
    | some tr =>
    simp only [h1, h2, Option.some.injEq] at ht
    subst ht
    exact .comparison h1 h2
  | cond a c x y =>
    simp only [strip] at ht
    cases h1 : strip c with
    | none => simp [h1] at ht
    | some tc =>
    cases h2 : strip x with
    | none => simp [h1, h2] at ht
    | some tt =>
    cases h3 : strip y with
    | none => simp [h1, h2, h3] at ht
    | some tf =>
    simp only [h1, h2, h3, Option.some.injEq] at ht
    subst ht
    exact .cond h1 h2 h3
  | call a f x =>
    simp only [strip] at ht
    obtain ⟨u, h1, rfl⟩ := Option.map_eq_some_iff.1 ht
    exact .call h1
  | assign a l r =>
    rcases assign_cases l with ⟨b, x, rfl⟩ | ⟨b, f, c, p, rfl⟩ | hx
    · simp only [strip] at ht
      obtain ⟨u, h1, rfl⟩ := Option.map_eq_some_iff.1 ht
      exact .assign h1
    · simp [strip] at ht
    · rw [(hx a r).1] at ht
      cases ht
      exact .error (hx a r).2

theorem stripW_e {w : What} {t : E} (h : stripW w = some (.e t)) : ∃ o, w = .obj o ∧ Shape o t := by
  cases w with
  | obj o =>
    simp only [stripW] at h
    obtain ⟨u, h1, h2⟩ := Option.map_eq_some_iff.1 h
    cases h2
    exact ⟨o, rfl, shape_of h1⟩
  | loop a v xs =>
    simp only [stripW] at h
    obtain ⟨u, h1, h2⟩ := Option.map_eq_some_iff.1 h
    cases h2

theorem stripW_rest {w : What} {v : Int} {ts : List (CmpOp × E)} (h : stripW w = some (.rest v ts)) :
    ∃ a xs, w = .loop a v xs ∧ stripRest xs = some ts := by
  cases w with
  | obj o =>
    simp only [stripW] at h
    obtain ⟨u, h1, h2⟩ := Option.map_eq_some_iff.1 h
    cases h2
  | loop a v xs =>
    simp only [stripW] at h
    obtain ⟨u, h1, h2⟩ := Option.map_eq_some_iff.1 h
    cases h2
    exact ⟨a, xs, rfl, h1⟩

theorem stripRest_cons {xs : List (CmpOp × Obj)} {op : CmpOp} {t : E} {ts : List (CmpOp × E)}
    (h : stripRest xs = some ((op, t) :: ts)) : ∃ x ys, xs = (op, x) :: ys ∧ strip x = some t ∧ stripRest ys = some ts := by
  cases xs with
  | nil => simp [stripRest] at h
  | cons y ys =>
    obtain ⟨op', y⟩ := y
    simp only [stripRest] at h
    cases h1 : strip y with
    | none => simp [h1] at h
    | some tl =>
    cases h2 : stripRest ys with
    | none => simp [h1, h2] at h
    | some tr =>
    simp only [h1, h2, Option.some.injEq, List.cons.injEq, Prod.mk.injEq] at h
    obtain ⟨⟨rfl, rfl⟩, rfl⟩ := h
    exact ⟨y, ys, rfl, h1, h2⟩

theorem eval_complete {late : Bool} {stmts : List Obj} {F : Fns} {t : T} {s s' : Vars} {v : Int} (h : Eval Fits F t s v s') :
    ∀ w e, Sim e F s → stripW w = some t → HeldW stmts e w → LitsW w →
      ∃ n e', eval late stmts n w e = .val v e' ∧ Sim e' F s' ∧ Fits v ∧ e'.fns = e.fns := by
  have up : ∀ {n m w e v e'}, eval late stmts n w e = .val v e' → n ≤ m → eval late stmts m w e = .val v e' :=
    fun h hm => eval_mono h (by simp) hm
  induction h with
  | lit =>
    intro w e hs ht hh hl
    obtain ⟨o, rfl, ho⟩ := stripW_e ht
    cases ho
    exact ⟨1, e, by simp [eval], hs, hl, rfl⟩
  | @var x s =>
    intro w e hs ht hh hl
    obtain ⟨o, rfl, ho⟩ := stripW_e ht
    cases ho
    exact ⟨1, e, by simp [eval, hs.vars], hs, hs.fits x, rfl⟩
  | un _ h2 h3 ih =>
    intro w e hs ht hh hl
    obtain ⟨o, rfl, ho⟩ := stripW_e ht
    cases ho with
    | unary k =>
    simp only [HeldW, Obj.owned, Held.cons] at hh
    obtain ⟨n, e1, m1, m2, m3, m4⟩ := ih (.obj _) e hs (by simp [stripW, k]) hh.2 hl
    refine ⟨n + 1, e1, ?_, m2, h3, m4⟩
    rw [eval, m1]
    have ha := (Held.fns (fun a ha => by cases List.mem_singleton.1 ha; exact hh.1) m4 : Held stmts e1 [_]) _ (List.mem_singleton.2 rfl)
    simp only [Out.bind, ha, if_true]
    rw [(UnOp.eval_iff m3).2 ⟨h2, h3⟩]
    rfl
  | bin _ _ h3 h4 ih1 ih2 =>
    intro w e hs ht hh hl
    obtain ⟨o, rfl, ho⟩ := stripW_e ht
    cases ho with
    | binary k1 k2 =>
    simp only [HeldW, Obj.owned, Held.cons, Held.append] at hh
    simp only [LitsW, Obj.Lits] at hl
    obtain ⟨n, e1, m1, m2, m3, m4⟩ := ih1 (.obj _) e hs (by simp [stripW, k1]) hh.2.1 hl.1
    obtain ⟨n', e2, p1, p2, p3, p4⟩ := ih2 (.obj _) e1 m2 (by simp [stripW, k2]) (Held.fns hh.2.2 m4) hl.2
    refine ⟨max n n' + 1, e2, ?_, p2, h4, p4.trans m4⟩
    have ha : ∀ {e' : Env}, e'.fns = e.fns → alive stmts e' _ = true := fun he =>
      (Held.fns (fun a ha => by cases List.mem_singleton.1 ha; exact hh.1) he : Held stmts _ [_]) _ (List.mem_singleton.2 rfl)
    rw [eval, up m1 (Nat.le_max_left _ _)]
    simp only [Out.bind, ha m4, if_true]
    rw [up p1 (Nat.le_max_right _ _)]
    simp only [ha (p4.trans m4), if_true]
    rw [(BinOp.eval_iff m3 p3).2 ⟨h3, h4⟩]
    rfl
  | cmp _ _ ih1 ih2 =>
    intro w e hs ht hh hl
    obtain ⟨o, rfl, ho⟩ := stripW_e ht
    cases ho with
    | comparison k1 k2 =>
    simp only [HeldW, Obj.owned, Held.cons, Held.append] at hh
    simp only [LitsW, Obj.Lits] at hl
    obtain ⟨n, e1, m1, m2, m3, m4⟩ := ih1 (.obj _) e hs (by simp [stripW, k1]) hh.2.1 hl.1
    obtain ⟨n', e2, p1, p2, p3, p4⟩ := ih2 (.loop _ _ _) e1 m2 (by simp only [stripW, k2]; rfl)
      (Held.fns (by simp only [Held.cons]; exact ⟨hh.1, hh.2.2⟩) m4) hl.2
    refine ⟨max n n' + 1, e2, ?_, p2, p3, p4.trans m4⟩
    have ha := (Held.fns (fun a ha => by cases List.mem_singleton.1 ha; exact hh.1) m4 : Held stmts e1 [_]) _ (List.mem_singleton.2 rfl)
    rw [eval, up m1 (Nat.le_max_left _ _)]
    simp only [Out.bind, ha, if_true]
    exact up p1 (Nat.le_max_right _ _)
  | all =>
    intro w e hs ht hh hl
    obtain ⟨a, xs, rfl, k⟩ := stripW_rest ht
    cases xs with
    | nil => exact ⟨1, e, by simp [eval], hs, by unfold Fits; decide, rfl⟩
    | cons y ys =>
      obtain ⟨op, y⟩ := y
      simp only [stripRest] at k
      cases h1 : strip y <;> cases h2 : stripRest ys <;> simp [h1, h2] at k
  | holds _ h2 _ ih1 ih2 =>
    intro w e hs ht hh hl
    obtain ⟨a, xs, rfl, k⟩ := stripW_rest ht
    obtain ⟨x, ys, rfl, k1, k2⟩ := stripRest_cons k
    simp only [HeldW, ownedRest, Held.cons, Held.append] at hh
    simp only [LitsW, LitsRest] at hl
    obtain ⟨n, e1, m1, m2, m3, m4⟩ := ih1 (.obj _) e hs (by simp [stripW, k1]) hh.2.1 hl.1
    obtain ⟨n', e2, p1, p2, p3, p4⟩ := ih2 (.loop a _ _) e1 m2 (by simp only [stripW, k2]; rfl)
      (Held.fns (by simp only [Held.cons]; exact ⟨hh.1, hh.2.2⟩) m4) hl.2
    refine ⟨max n n' + 1, e2, ?_, p2, p3, p4.trans m4⟩
    have ha := (Held.fns (fun a ha => by cases List.mem_singleton.1 ha; exact hh.1) m4 : Held stmts e1 [a]) _ (List.mem_singleton.2 rfl)
    rw [eval, up m1 (Nat.le_max_left _ _)]
    simp only [Out.bind, ha, if_true]
    rw [if_pos (CmpOp.eval_iff.2 h2)]
    exact up p1 (Nat.le_max_right _ _)
  | not _ h2 ih1 =>
    intro w e hs ht hh hl
    obtain ⟨a, xs, rfl, k⟩ := stripW_rest ht
    obtain ⟨x, ys, rfl, k1, k2⟩ := stripRest_cons k
    simp only [HeldW, ownedRest, Held.cons, Held.append] at hh
    simp only [LitsW, LitsRest] at hl
    obtain ⟨n, e1, m1, m2, m3, m4⟩ := ih1 (.obj _) e hs (by simp [stripW, k1]) hh.2.1 hl.1
    refine ⟨n + 1, e1, ?_, m2, by unfold Fits; decide, m4⟩
    have ha := (Held.fns (fun a ha => by cases List.mem_singleton.1 ha; exact hh.1) m4 : Held stmts e1 [a]) _ (List.mem_singleton.2 rfl)
    rw [eval, m1]
    simp only [Out.bind, ha, if_true]
    rw [if_neg fun hc => h2 (CmpOp.eval_iff.1 hc)]
  | yes _ h2 _ ih1 ih2 =>
    intro w e hs ht hh hl
    obtain ⟨o, rfl, ho⟩ := stripW_e ht
    cases ho with
    | cond k1 k2 k3 =>
    simp only [HeldW, Obj.owned, Held.cons, Held.append] at hh
    simp only [LitsW, Obj.Lits] at hl
    obtain ⟨n, e1, m1, m2, m3, m4⟩ := ih1 (.obj _) e hs (by simp [stripW, k1]) hh.2.1 hl.1
    obtain ⟨n', e2, p1, p2, p3, p4⟩ := ih2 (.obj _) e1 m2 (by simp [stripW, k2]) (Held.fns hh.2.2.1 m4) hl.2.1
    refine ⟨max n n' + 1, e2, ?_, p2, p3, p4.trans m4⟩
    have ha := (Held.fns (fun a ha => by cases List.mem_singleton.1 ha; exact hh.1) m4 : Held stmts e1 [_]) _ (List.mem_singleton.2 rfl)
    rw [eval, up m1 (Nat.le_max_left _ _)]
    simp only [Out.bind, ha, if_true]
    rw [if_pos h2]
    exact up p1 (Nat.le_max_right _ _)
  | no _ _ ih1 ih2 =>
    intro w e hs ht hh hl
    obtain ⟨o, rfl, ho⟩ := stripW_e ht
    cases ho with
    | cond k1 k2 k3 =>
    simp only [HeldW, Obj.owned, Held.cons, Held.append] at hh
    simp only [LitsW, Obj.Lits] at hl
    obtain ⟨n, e1, m1, m2, m3, m4⟩ := ih1 (.obj _) e hs (by simp [stripW, k1]) hh.2.1 hl.1
    obtain ⟨n', e2, p1, p2, p3, p4⟩ := ih2 (.obj _) e1 m2 (by simp [stripW, k3]) (Held.fns hh.2.2.2 m4) hl.2.2
    refine ⟨max n n' + 1, e2, ?_, p2, p3, p4.trans m4⟩
    have ha := (Held.fns (fun a ha => by cases List.mem_singleton.1 ha; exact hh.1) m4 : Held stmts e1 [_]) _ (List.mem_singleton.2 rfl)
    rw [eval, up m1 (Nat.le_max_left _ _)]
    simp only [Out.bind, ha, if_true]
    rw [if_neg (by simp)]
    exact up p1 (Nat.le_max_right _ _)
  | @unknown f x s hf =>
    intro w e hs ht hh hl
    obtain ⟨o, rfl, ho⟩ := stripW_e ht
    cases ho with
    | call k =>
    rcases hs.fns f with ⟨f1, f2⟩ | ⟨p, b, tb, f1, f2, f3, f4⟩
    · exact ⟨1, e, by simp [eval, f1], hs, by unfold Fits; decide, rfl⟩
    · rw [hf] at f2; cases f2
  | @call f p x body s s1 s2 v w' hf _ _ ih1 ih2 =>
    intro w e hs ht hh hl
    obtain ⟨o, rfl, ho⟩ := stripW_e ht
    cases ho with
    | call k =>
    simp only [HeldW, Obj.owned, Held.cons] at hh
    rcases hs.fns f with ⟨f1, f2⟩ | ⟨p', b, tb, f1, f2, f3, f4⟩
    · rw [hf] at f2; cases f2
    · rw [hf] at f2
      simp only [Option.some.injEq, Prod.mk.injEq] at f2
      obtain ⟨rfl, rfl⟩ := f2
      obtain ⟨n, e1, m1, m2, m3, m4⟩ := ih1 (.obj _) e hs (by simp [stripW, k]) hh.2 hl
      have f5 : e1.findFn f = some (p, b) := by rw [findFn_fns m4]; exact f1
      obtain ⟨n', e2, p1, p2, p3, p4⟩ := ih2 (.obj b) (e1.setVar p v) (m2.setVar m3) (by simp [stripW, f3])
        (held_body (f := f) f5) f4
      have p5 : e2.fns = e.fns := p4.trans m4
      refine ⟨max n n' + 1, e2.setVar p (s1 p), ?_, p2.setVar (m2.fits p), p3, p5⟩
      rw [eval, f1]
      simp only
      rw [up m1 (Nat.le_max_left _ _)]
      simp only [Out.ret, f5, ite_self]
      rw [up p1 (Nat.le_max_right _ _)]
      simp only [findFn_fns p5, f1, m2.vars]
  | set _ ih =>
    intro w e hs ht hh hl
    obtain ⟨o, rfl, ho⟩ := stripW_e ht
    cases ho with
    | assign k =>
    simp only [HeldW, Obj.owned, Held.cons, Held.append] at hh
    simp only [LitsW, Obj.Lits] at hl
    obtain ⟨n, e1, m1, m2, m3, m4⟩ := ih (.obj _) e hs (by simp [stripW, k]) hh.2.2 hl.2
    refine ⟨n + 1, _, ?_, m2.setVar m3, m3, m4⟩
    have ha := (Held.fns (fun a ha => by cases List.mem_singleton.1 ha; exact hh.1) m4 : Held stmts e1 [_]) _ (List.mem_singleton.2 rfl)
    rw [eval, m1]
    simp only [Out.bind, ha, if_true]
  | error =>
    intro w e hs ht hh hl
    obtain ⟨o, rfl, ho⟩ := stripW_e ht
    cases ho with
    | error k => exact ⟨1, e, k _ _ _ _, hs, by unfold Fits; decide, rfl⟩

/-! ### Statements, lines and sessions -/

theorem findFn_setFn (e : Env) (f p : Name) (b : Obj) (g : Name) :
    (e.setFn f p b).findFn g = if g = f then some (p, b) else e.findFn g := by
  unfold Env.setFn Env.findFn
  by_cases hg : g = f
  · subst hg
    simp
  · rw [if_neg hg, List.find?_cons_of_neg (by simpa using fun h => hg h.symm), List.find?_filter]
    congr 2
    funext x
    by_cases hx : x.1 = g
    · simp [hx, hg]
    · simp [hx]

theorem Sim.setFn {e : Env} {F : Fns} {s : Vars} (h : Sim e F s) {f p : Name} {b : Obj} {t : E} (hb : strip b = some t)
    (hl : b.Lits) : Sim ((if (e.vars p).isSome then e else e.setVar p 0).setFn f p b)
      (fun g => if g = f then some (p, t) else F g) s where
  vars x := by
    rw [h.vars]
    show _ = ((if (e.vars p).isSome then e else e.setVar p 0).vars x).getD 0
    split
    · rfl
    · rename_i hp
      unfold Env.setVar
      by_cases hx : x = p
      · subst hx
        simp only [Bool.not_eq_true, Option.isSome_eq_false_iff, Option.isNone_iff_eq_none] at hp
        simp [hp]
      · simp [hx]
  fits := h.fits
  fns g := by
    rw [findFn_setFn]
    by_cases hg : g = f
    · exact .inr ⟨p, b, t, by simp [hg], by simp [hg], hb, hl⟩
    · have : (if (e.vars p).isSome then e else e.setVar p 0).findFn g = e.findFn g := by split <;> rfl
      simp only [hg, if_false, this]
      exact h.fns g

/-- A statement is a definition, or an expression. -/
theorem stmt_cases {o : Obj} {st : Stmt} (h : stmtOf o = some st) :
    (∃ a b f c p r t, o = .assign a (.call b f (.name c p)) r ∧ strip r = some t ∧ st = .define f p t) ∨
    ∃ t, strip o = some t ∧ st = .expr t := by
  unfold stmtOf at h
  split at h
  · obtain ⟨t, h1, rfl⟩ := Option.map_eq_some_iff.1 h
    exact .inl ⟨_, _, _, _, _, _, _, rfl, h1, rfl⟩
  · obtain ⟨t, h1, rfl⟩ := Option.map_eq_some_iff.1 h
    exact .inr ⟨t, h1, rfl⟩

theorem held_stmt {stmts : List Obj} {e : Env} {o : Obj} (h : o ∈ stmts) : Held stmts e o.owned := by
  intro a ha
  unfold alive
  simp only [Bool.or_eq_true, List.any_eq_true]
  exact .inl ⟨o, h, by simpa using ha⟩

section

variable {late : Bool} {stmts : List Obj}

theorem stmt_sound {o : Obj} {st : Stmt} {F : Fns} {s : Vars} {e e' : Env} {n : Nat} {v : Int} (hst : stmtOf o = some st)
    (hs : Sim e F s) (hm : o ∈ stmts) (hl : o.Lits) (h : eval late stmts n (.obj o) e = .val v e') :
    ∃ F' s', Step Fits st F s v F' s' ∧ Sim e' F' s' := by
  rcases stmt_cases hst with ⟨a, b, f, c, p, r, t, rfl, h1, rfl⟩ | ⟨t, h1, rfl⟩
  · cases n with
    | zero => rw [eval] at h; cases h
    | succ n =>
      rw [eval] at h
      simp only [Out.val.injEq] at h
      obtain ⟨rfl, rfl⟩ := h
      exact ⟨_, _, .define, hs.setFn h1 hl.2⟩
  · obtain ⟨s', m1, m2, -, -⟩ := eval_sound n (.obj o) e s (.e t) hs (by simp [stripW, h1]) (held_stmt hm) hl _ _ h
    exact ⟨F, s', .expr m1, m2⟩

theorem stmt_complete {o : Obj} {st : Stmt} {F F' : Fns} {s s' : Vars} {e : Env} {v : Int} (hst : stmtOf o = some st)
    (hs : Sim e F s) (hm : o ∈ stmts) (hl : o.Lits) (h : Step Fits st F s v F' s') :
    ∃ n e', eval late stmts n (.obj o) e = .val v e' ∧ Sim e' F' s' := by
  rcases stmt_cases hst with ⟨a, b, f, c, p, r, t, rfl, h1, rfl⟩ | ⟨t, h1, rfl⟩
  · cases h
    exact ⟨1, _, by rw [eval], hs.setFn h1 hl.2⟩
  · cases h with
    | expr h =>
    obtain ⟨n, e', m1, m2, -, -⟩ := eval_complete (late := late) (stmts := stmts) h (.obj o) e hs (by simp [stripW, h1])
      (held_stmt hm) hl
    exact ⟨n, e', m1, m2⟩

theorem evalList_mono {n m : Nat} (hm : n ≤ m) : ∀ {os : List Obj} {u v : Int} {e e' : Env},
    evalList late stmts n os u e = .val v e' → evalList late stmts m os u e = .val v e'
  | [], _, _, _, _, h => h
  | o :: os, u, v, e, e', h => by
    rw [evalList] at h ⊢
    obtain ⟨w, e1, h1, h2⟩ := ret_val h
    rw [eval_mono h1 (by simp) hm]
    exact evalList_mono hm h2

theorem line_sound {n : Nat} : ∀ {os : List Obj} {sts : List Stmt} {F : Fns} {s : Vars} {e e' : Env} {u v : Int},
    os.map stmtOf = sts.map some → Sim e F s → (∀ o ∈ os, o ∈ stmts ∧ o.Lits) → evalList late stmts n os u e = .val v e' →
    ∃ F' s', Line Fits sts u F s v F' s' ∧ Sim e' F' s'
  | [], sts, F, s, e, e', u, v, hst, hs, _, h => by
    cases sts with
    | cons _ _ => simp at hst
    | nil =>
      simp only [evalList, Out.val.injEq] at h
      obtain ⟨rfl, rfl⟩ := h
      exact ⟨F, s, .nil, hs⟩
  | o :: os, sts, F, s, e, e', u, v, hst, hs, hm, h => by
    cases sts with
    | nil => simp at hst
    | cons st sts =>
      simp only [List.map_cons, List.cons.injEq] at hst
      rw [evalList] at h
      obtain ⟨w, e1, h1, h2⟩ := ret_val h
      obtain ⟨F1, s1, m1, m2⟩ := stmt_sound hst.1 hs (hm o (by simp)).1 (hm o (by simp)).2 h1
      obtain ⟨F2, s2, p1, p2⟩ := line_sound hst.2 m2 (fun x hx => hm x (by simp [hx])) h2
      exact ⟨F2, s2, .cons m1 p1, p2⟩

theorem line_complete : ∀ {os : List Obj} {sts : List Stmt} {F F' : Fns} {s s' : Vars} {e : Env} {u v : Int},
    os.map stmtOf = sts.map some → Sim e F s → (∀ o ∈ os, o ∈ stmts ∧ o.Lits) → Line Fits sts u F s v F' s' →
    ∃ n e', evalList late stmts n os u e = .val v e' ∧ Sim e' F' s'
  | [], sts, F, F', s, s', e, u, v, hst, hs, _, h => by
    cases sts with
    | cons _ _ => simp at hst
    | nil =>
      cases h
      exact ⟨0, e, rfl, hs⟩
  | o :: os, sts, F, F', s, s', e, u, v, hst, hs, hm, h => by
    cases sts with
    | nil => simp at hst
    | cons st sts =>
      simp only [List.map_cons, List.cons.injEq] at hst
      cases h with
      | cons h1 h2 =>
      obtain ⟨n, e1, m1, m2⟩ := stmt_complete (late := late) hst.1 hs (hm o (by simp)).1 (hm o (by simp)).2 h1
      obtain ⟨n', e2, p1, p2⟩ := line_complete hst.2 m2 (fun x hx => hm x (by simp [hx])) h2
      refine ⟨max n n', e2, ?_, p2⟩
      rw [evalList, eval_mono m1 (by simp) (Nat.le_max_left _ _)]
      exact evalList_mono (Nat.le_max_right _ _) p1

theorem session_mono {n m : Nat} (hm : n ≤ m) : ∀ {ls : List (List Obj)} {e : Env} {r : List Int × Env},
    session late n ls e = some r → session late m ls e = some r
  | [], _, _, h => h
  | l :: ls, e, r, h => by
    rw [session] at h ⊢
    split at h
    · rename_i hl
      rw [if_pos hl]
      exact session_mono hm h
    · rename_i hl
      rw [if_neg hl]
      cases h1 : evalList late l n l 0 e with
      | val v e1 =>
        simp only [h1] at h
        obtain ⟨r', h2, rfl⟩ := Option.map_eq_some_iff.1 h
        rw [evalList_mono hm h1]
        simp only
        rw [session_mono hm h2]
        rfl
      | ub => simp only [h1] at h; cases h
      | steps => simp only [h1] at h; cases h

theorem session_sound {n : Nat} : ∀ {ls : List (List Obj)} {sts : List (List Stmt)} {F : Fns} {s : Vars} {e e' : Env} {vs : List Int},
    ls.map (·.map stmtOf) = sts.map (·.map some) → Sim e F s → (∀ l ∈ ls, ∀ o ∈ l, o.Lits) →
    session late n ls e = some (vs, e') → Session Fits sts F s vs
  | [], sts, F, s, e, e', vs, hst, hs, _, h => by
    cases sts with
    | cons _ _ => simp at hst
    | nil =>
      simp only [session, Option.some.injEq, Prod.mk.injEq] at h
      rw [← h.1]
      exact .nil
  | l :: ls, sts, F, s, e, e', vs, hst, hs, hl, h => by
    cases sts with
    | nil => simp at hst
    | cons st sts =>
      simp only [List.map_cons, List.cons.injEq] at hst
      rw [session] at h
      split at h
      · rename_i he
        obtain rfl := List.isEmpty_iff.1 he
        obtain rfl : st = [] := by simpa using hst.1.symm
        exact .empty (session_sound hst.2 hs (fun x hx => hl x (by simp [hx])) h)
      · rename_i he
        cases h1 : evalList late l n l 0 e with
        | val v e1 =>
          simp only [h1] at h
          obtain ⟨r', h2, h3⟩ := Option.map_eq_some_iff.1 h
          simp only [Prod.mk.injEq] at h3
          obtain ⟨rfl, rfl⟩ := h3
          obtain ⟨F1, s1, m1, m2⟩ := line_sound hst.1 hs (fun o ho => ⟨ho, hl l (by simp) o ho⟩) h1
          refine .line ?_ m1 (session_sound hst.2 m2 (fun x hx => hl x (by simp [hx])) h2)
          rintro rfl
          have : l = [] := by simpa using hst.1
          exact he (by rw [this]; rfl)
        | ub => simp only [h1] at h; cases h
        | steps => simp only [h1] at h; cases h

theorem session_complete : ∀ {ls : List (List Obj)} {sts : List (List Stmt)} {F : Fns} {s : Vars} {e : Env} {vs : List Int},
    ls.map (·.map stmtOf) = sts.map (·.map some) → Sim e F s → (∀ l ∈ ls, ∀ o ∈ l, o.Lits) →
    Session Fits sts F s vs → ∃ n e', session late n ls e = some (vs, e')
  | [], sts, F, s, e, vs, hst, hs, _, h => by
    cases sts with
    | cons _ _ => simp at hst
    | nil =>
      cases h
      exact ⟨0, e, rfl⟩
  | l :: ls, sts, F, s, e, vs, hst, hs, hl, h => by
    cases sts with
    | nil => simp at hst
    | cons st sts =>
      simp only [List.map_cons, List.cons.injEq] at hst
      cases h with
      | empty h =>
        have : l = [] := by simpa using hst.1
        subst this
        obtain ⟨n, e', k⟩ := session_complete hst.2 hs (fun x hx => hl x (by simp [hx])) h
        exact ⟨n, e', by rw [session]; exact k⟩
      | line h1 h2 h3 =>
        obtain ⟨n, e1, m1, m2⟩ := line_complete (late := late) (stmts := l) hst.1 hs (fun o ho => ⟨ho, hl l (by simp) o ho⟩) h2
        obtain ⟨n', e', k⟩ := session_complete hst.2 m2 (fun x hx => hl x (by simp [hx])) h3
        refine ⟨max n n', e', ?_⟩
        have hne : l.isEmpty = false := by
          cases l with
          | nil => exact (h1 (by simpa using hst.1.symm)).elim
          | cons _ _ => rfl
        rw [session, hne]
        simp only [Bool.false_eq_true, if_false]
        rw [evalList_mono (Nat.le_max_left _ _) m1]
        simp only
        rw [session_mono (Nat.le_max_right _ _) k]
        rfl

end

/-! ### The theorems -/

theorem sim_init : Sim {} (fun _ => none) (fun _ => 0) :=
  ⟨fun _ => rfl, fun _ => by unfold Fits; decide, fun _ => .inl ⟨rfl, rfl⟩⟩

/-- **C101** In a session in which functions are only defined by whole statements, the calculator prints these values if and
    only if they are the values of the statements, computed with integers whose results all are values of an `int`.  It does
    not depend on the order in which the compiler evaluates the arguments of `std::exchange`.
    Missing: functions defined within expressions, see `C101_redefine_refuted` and `C101_restore_refuted`. -/
theorem C101_session_partial {late : Bool} {ls : List (List Obj)} {sts : List (List Stmt)} {vs : List Int}
    (hst : ls.map (·.map stmtOf) = sts.map (·.map some)) (hl : ∀ l ∈ ls, ∀ o ∈ l, o.Lits) :
    (∃ n e', session late n ls {} = some (vs, e')) ↔ Session Fits sts (fun _ => none) (fun _ => 0) vs :=
  ⟨fun ⟨_, _, h⟩ => session_sound hst sim_init hl h, session_complete hst sim_init hl⟩

/-- **C101** The behavior of an expression is not undefined if all results are values of an `int`, whatever the variables and
    functions are; and the parameters of the functions called have their old values again. -/
theorem C101_defined_partial {late : Bool} {stmts : List Obj} {F : Fns} {s s' : Vars} {e : Env} {o : Obj} {t : E} {v : Int}
    (hs : Sim e F s) (ho : strip o = some t) (hm : o ∈ stmts) (hl : o.Lits) (h : Eval Fits F (.e t) s v s') (n : Nat) :
    eval late stmts n (.obj o) e = .steps ∨ ∃ e', eval late stmts n (.obj o) e = .val v e' ∧ Sim e' F s' := by
  obtain ⟨m, e', m1, m2, -, -⟩ := eval_complete (late := late) (stmts := stmts) h (.obj o) e hs (by simp [stripW, ho])
    (held_stmt hm) hl
  by_cases hr : eval late stmts n (.obj o) e = .steps
  · exact .inl hr
  · have h1 := eval_mono rfl hr (Nat.le_max_left n m)
    have h2 := eval_mono m1 (by simp) (Nat.le_max_right n m)
    exact .inr ⟨e', h1.symm.trans h2, m2⟩

theorem eval_weaken {R R' : Int → Prop} (hR : ∀ v, R v → R' v) {F : Fns} {t : T} {s s' : Vars} {v : Int} (h : Eval R F t s v s') :
    Eval R' F t s v s' := by
  induction h with
  | lit => exact .lit
  | var => exact .var
  | un _ h2 h3 ih => exact .un ih h2 (hR _ h3)
  | bin _ _ h3 h4 ih1 ih2 => exact .bin ih1 ih2 h3 (hR _ h4)
  | cmp _ _ ih1 ih2 => exact .cmp ih1 ih2
  | all => exact .all
  | holds _ h2 _ ih1 ih2 => exact .holds ih1 h2 ih2
  | not _ h2 ih => exact .not ih h2
  | yes _ h2 _ ih1 ih2 => exact .yes ih1 h2 ih2
  | no _ _ ih1 ih2 => exact .no ih1 ih2
  | unknown h => exact .unknown h
  | call h _ _ ih1 ih2 => exact .call h ih1 ih2
  | set _ ih => exact .set ih
  | error => exact .error

theorem line_weaken {R R' : Int → Prop} (hR : ∀ v, R v → R' v) {l : List Stmt} {u v : Int} {F F' : Fns} {s s' : Vars}
    (h : Line R l u F s v F' s') : Line R' l u F s v F' s' := by
  induction h with
  | nil => exact .nil
  | cons h1 _ ih =>
    refine .cons ?_ ih
    cases h1 with
    | define => exact .define
    | expr h => exact .expr (eval_weaken hR h)

/-- **C101** What the calculator prints is exact. -/
theorem C101_exact_partial {late : Bool} {ls : List (List Obj)} {sts : List (List Stmt)} {vs : List Int} {n : Nat} {e' : Env}
    (hst : ls.map (·.map stmtOf) = sts.map (·.map some)) (hl : ∀ l ∈ ls, ∀ o ∈ l, o.Lits)
    (h : session late n ls {} = some (vs, e')) : Session (fun _ => True) sts (fun _ => none) (fun _ => 0) vs := by
  have weaken : ∀ {sts F s vs}, Session Fits sts F s vs → Session (fun _ => True) sts F s vs := by
    intro sts F s vs h1
    induction h1 with
    | nil => exact .nil
    | empty _ ih => exact .empty ih
    | line h1 h2 _ ih => exact .line h1 (line_weaken (fun _ _ => trivial) h2) ih
  exact weaken ((C101_session_partial hst hl).1 ⟨n, e', h⟩)

def Out.isUb : Out → Bool
  | .ub => true
  | _ => false

theorem Out.isUb_iff {r : Out} : r.isUb = true ↔ r = .ub := by cases r <;> simp [Out.isUb]

namespace Ex

def x : Name := [120]
def y : Name := [121]
def f : Name := [102]

/-- `f(x) = x*x; y = f(3)+1`, then `y < 11`, then `-7/2`. -/
def prog : List (List Obj) :=
  [[.assign 0 (.call 1 f (.name 2 x)) (.binary 3 (.name 4 x) .times (.name 5 x)),
    .assign 6 (.name 7 y) (.binary 8 (.call 9 f (.literal 10 3)) .plus (.literal 11 1))],
   [.comparison 12 (.name 13 y) [(.less, .literal 14 11)]],
   [.binary 15 (.unary 16 .negate (.literal 17 7)) .div (.literal 18 2)]]

example : (session false 9 prog {}).map (·.1) = some [10, 1, -3] := by decide +kernel

/-- It is covered by the theorems. -/
example : ∃ sts : List (List Stmt), prog.map (·.map stmtOf) = sts.map (·.map some) ∧ ∀ l ∈ prog, ∀ o ∈ l, o.Lits :=
  ⟨[[.define f x (.bin (.var x) .times (.var x)), .expr (.set y (.bin (.call f (.lit 3)) .plus (.lit 1)))],
    [.expr (.cmp (.var y) [(.less, .lit 11)])], [.expr (.bin (.un .negate (.lit 7)) .div (.lit 2))]],
    by simp [prog, stmtOf, strip, stripRest], by simp [prog, Obj.Lits, LitsRest, Fits]⟩

end Ex

open Ex

/-- **C101**, refuted without the condition on the results: the behavior is undefined for `2147483647 + 1`, whose value is
    2147483648, and for `2**31` and `-(-2147483647 - 1)`. -/
theorem C101_overflow_refuted :
    (∃ o t, strip o = some t ∧ o.Lits ∧ Eval (fun _ => True) (fun _ => none) (.e t) (fun _ => 0) 2147483648 (fun _ => 0)
      ∧ ∀ late n, 2 ≤ n → eval late [o] n (.obj o) {} = .ub)
    ∧ (∀ late, eval late [.binary 0 (.literal 1 2) .pow (.literal 2 31)] 2 (.obj (.binary 0 (.literal 1 2) .pow (.literal 2 31))) {} = .ub)
    ∧ ∀ late, let o : Obj := .unary 0 .negate (.binary 1 (.unary 2 .negate (.literal 3 2147483647)) .minus (.literal 4 1))
        eval late [o] 4 (.obj o) {} = .ub := by
  refine ⟨⟨.binary 0 (.literal 1 2147483647) .plus (.literal 2 1), .bin (.lit 2147483647) .plus (.lit 1), by simp [strip],
    by simp [Obj.Lits, Fits], .bin .lit .lit (by simp [BinVal]) trivial, fun late n hn => eval_mono (Out.isUb_iff.1 ?_) (by simp) hn⟩,
    fun late => Out.isUb_iff.1 ?_, fun late => Out.isUb_iff.1 ?_⟩ <;> revert late <;> decide +kernel

/-- **C101**, refuted: the behavior is undefined for `1/0` and `0**(-1)`, which are accepted by the grammar, and nothing checks
    them. -/
theorem C101_zero_refuted : ∀ late,
    (let o : Obj := .binary 0 (.literal 1 1) .div (.literal 2 0); eval late [o] 2 (.obj o) {} = .ub)
    ∧ let o : Obj := .binary 0 (.literal 1 0) .pow (.unary 2 .negate (.literal 3 1)); eval late [o] 3 (.obj o) {} = .ub := by
  intro late
  refine ⟨Out.isUb_iff.1 ?_, Out.isUb_iff.1 ?_⟩ <;> revert late <;> decide +kernel

/-- The two lines `f(x) = (f(x) = 1) + x` and `f(2)`. -/
def redefine : List (List Obj) :=
  [[.assign 0 (.call 1 f (.name 2 x)) (.binary 3 (.assign 4 (.call 5 f (.name 6 x)) (.literal 7 1)) .plus (.name 8 x))],
   [.call 9 f (.literal 10 2)]]

/-- **C101**, refuted for functions defined within expressions: after `f(x) = (f(x) = 1) + x`, the call `f(2)` accesses an
    object that was deleted.  `expr_call::evaluate` does not keep the body of the function alive, and the assignment in it
    replaces the only owner. -/
theorem C101_redefine_refuted : (redefine.flatten.flatMap Obj.owned).Nodup ∧ ∀ late, ∃ e,
    evalList late [.assign 0 (.call 1 f (.name 2 x)) (.binary 3 (.assign 4 (.call 5 f (.name 6 x)) (.literal 7 1)) .plus (.name 8 x))]
      9 redefine.head! 0 {} = .val 0 e ∧
    evalList late [.call 9 f (.literal 10 2)] 9 [.call 9 f (.literal 10 2)] 0 e = .ub := by
  refine ⟨by decide +kernel, fun late => ⟨_, rfl, Out.isUb_iff.1 ?_⟩⟩
  revert late
  decide +kernel

/-- **C101**, refuted for functions defined within expressions: after `f(x) = (f(y) = 1)`, `x = 3` and `y = 4`, the call `f(7)`
    leaves `x` at 7 and sets `y` to 3.  `param` in `expr_call::evaluate` refers to the element of the map, which was replaced
    by the call, and so the old value of `x` is stored in `y`. -/
theorem C101_restore_refuted : ∀ late, (session late 9
    [[.assign 0 (.call 1 f (.name 2 x)) (.assign 3 (.call 4 f (.name 5 y)) (.literal 6 1))],
     [.assign 7 (.name 8 x) (.literal 9 3)], [.assign 10 (.name 11 y) (.literal 12 4)], [.call 13 f (.literal 14 7)],
     [.name 15 x], [.name 16 y]] {}).map (·.1) = some [0, 3, 4, 0, 7, 3] := by
  decide +kernel

end Verif.Calc
