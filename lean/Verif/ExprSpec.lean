import Verif.ExprOps

/-
What the value of an expression should look like; nothing here refers to binding powers.
-/

namespace Verif.Spec

/-- The symbols of an expression: an atom parsed from a range of the input, or an operator. -/
inductive Sym
  | atom (b e : Nat)
  | op (id : Nat)
  deriving DecidableEq, Repr

mutual
/-- The symbols of a tree from left to right. -/
def yield : ETree → List Sym
  | .atom b e => [.atom b e]
  | .pre o t => .op o :: yield t
  | .post o t => yield t ++ [.op o]
  | .inf o l r => yield l ++ .op o :: yield r
  | .list _ [] => []
  | .list o (t :: ts) => yield t ++ yieldTail o ts
def yieldTail (o : Nat) : List ETree → List Sym
  | [] => []
  | t :: ts => .op o :: (yield t ++ yieldTail o ts)
end

mutual
/-- The operators whose left operand begins where the tree begins, and the prefix operator there. -/
def leftEnd : ETree → List Nat
  | .atom _ _ => []
  | .pre o _ => [o]
  | .post o t => o :: leftEnd t
  | .inf o l _ => o :: leftEnd l
  | .list o ts => o :: leftEndHead ts
def leftEndHead : List ETree → List Nat
  | [] => []
  | t :: _ => leftEnd t
end

mutual
/-- The operators whose right operand ends where the tree ends. -/
def rightEnd : ETree → List Nat
  | .atom _ _ => []
  | .pre o t => o :: rightEnd t
  | .post _ _ => []
  | .inf o _ r => o :: rightEnd r
  | .list o ts => o :: rightEndLast ts
def rightEndLast : List ETree → List Nat
  | [] => []
  | [t] => rightEnd t
  | _ :: t :: ts => rightEndLast (t :: ts)
end

mutual
def opsOf : ETree → List Nat
  | .atom _ _ => []
  | .pre o t => o :: opsOf t
  | .post o t => o :: opsOf t
  | .inf o l r => o :: (opsOf l ++ opsOf r)
  | .list o ts => o :: opsOfAll ts
def opsOfAll : List ETree → List Nat
  | [] => []
  | t :: ts => opsOf t ++ opsOfAll ts
end

mutual
/-- How many operations a tree consists of. -/
def size : ETree → Nat
  | .atom _ _ => 0
  | .pre _ t => size t + 1
  | .post _ t => size t + 1
  | .inf _ l r => size l + size r + 1
  | .list _ ts => sizeAll ts + 1
def sizeAll : List ETree → Nat
  | [] => 0
  | t :: ts => size t + sizeAll ts
end

mutual
/-- How deeply operations are nested. -/
def height : ETree → Nat
  | .atom _ _ => 0
  | .pre _ t => height t + 1
  | .post _ t => height t + 1
  | .inf _ l r => max (height l) (height r) + 1
  | .list _ ts => heightAll ts + 1
def heightAll : List ETree → Nat
  | [] => 0
  | t :: ts => max (height t) (heightAll ts)
end

/-- The operators of an expression: the kind and the level; a higher level binds tighter. -/
abbrev Table := Nat → Option (OpKind × Nat)

/-- Operators that associate to the left. -/
def leftAssoc : OpKind → Bool
  | .infixRight | .postfix => false
  | _ => true

/-- `p` may be the operator of the left operand of `o`, if nothing is between its right operand and `o`:
    it binds tighter, or equally and both associate to the left. -/
def LeftOk (T : Table) (o p : Nat) : Prop :=
  ∃ ko lo kp lp, T o = some (ko, lo) ∧ T p = some (kp, lp) ∧
    (lo < lp ∨ (lo = lp ∧ leftAssoc ko = true ∧ leftAssoc kp = true))

/-- `q` may be the operator of the right operand of `o`, if nothing is between `o` and its left operand:
    it binds tighter, or equally and `o` associates to the right or `q` is a prefix, a postfix or a
    right associative operator. -/
def RightOk (T : Table) (o q : Nat) : Prop :=
  ∃ ko lo kq lq, T o = some (ko, lo) ∧ T q = some (kq, lq) ∧
    (lo < lq ∨ (lo = lq ∧ (ko = .infixRight ∨ kq = .prefix ∨ leftAssoc kq = false)))

def hasKind (T : Table) (o : Nat) (ks : List OpKind) : Prop := ∃ k l, T o = some (k, l) ∧ k ∈ ks

mutual
/-- The tree respects precedence and associativity. -/
def Nested (T : Table) : ETree → Prop
  | .atom _ _ => True
  | .pre o t => hasKind T o [.prefix] ∧ Nested T t ∧ ∀ q ∈ leftEnd t, RightOk T o q
  | .post o t => hasKind T o [.postfix] ∧ Nested T t ∧ ∀ p ∈ rightEnd t, LeftOk T o p
  | .inf o l r => hasKind T o [.infixLeft, .infixRight, .infixSingle] ∧ Nested T l ∧ Nested T r
      ∧ (∀ p ∈ rightEnd l, LeftOk T o p) ∧ ∀ q ∈ leftEnd r, RightOk T o q
  | .list o ts => hasKind T o [.infixList] ∧ 2 ≤ ts.length ∧ NestedAll T ts
      ∧ (∀ t ∈ ts.dropLast, ∀ p ∈ rightEnd t, LeftOk T o p) ∧ ∀ t ∈ ts.tail, ∀ q ∈ leftEnd t, RightOk T o q
def NestedAll (T : Table) : List ETree → Prop
  | [] => True
  | t :: ts => Nested T t ∧ NestedAll T ts
end

mutual
/-- No operator that cannot be chained is, and lists are not the left operand of the same operator. -/
def Unchained (T : Table) : ETree → Prop
  | .atom _ _ => True
  | .pre _ t => Unchained T t
  | .post _ t => Unchained T t
  | .inf o l r => Unchained T l ∧ Unchained T r ∧ (hasKind T o [.infixSingle] → o ∉ rightEnd l)
  | .list o ts => UnchainedAll T ts ∧ ∀ t ∈ ts.dropLast, o ∉ rightEnd t
def UnchainedAll (T : Table) : List ETree → Prop
  | [] => True
  | t :: ts => Unchained T t ∧ UnchainedAll T ts
end

/-- What was parsed: atoms and operators with the range of the input they were parsed from. -/
inductive Piece
  | atom (b e : Nat)
  | op (id b e : Nat)

def Piece.sym : Piece → Sym
  | .atom b e => .atom b e
  | .op id _ _ => .op id

/-- Parsing atoms and operators one after the other takes the position from `p` to `q`.  An operator is
    one of its literals, whitespace, and the rule behind. -/
inductive Consumes (E : Env) (i : Nat) : Nat → List Piece → Nat → Prop
  | nil (p : Nat) : Consumes E i p [] p
  | atom {q : Nat} {xs : List Piece} {n : Nat} {cx : Cx} {st : St} {r : Res}
      (h : exec E n cx (.run (E.exprs i).atom) st = some r) (ho : r.out = .ok)
      (t : Consumes E i r.st.pos xs q) : Consumes E i st.pos (.atom st.pos r.st.pos :: xs) q
  | op {b q : Nat} {xs : List Piece} {n : Nat} {cx : Cx} {st : St} {r1 r2 : Res} {o : OpDef} {l : Lit} {k : Kind}
      {ru : Rule} (hm : o ∈ (E.exprs i).ops.all) (hl : (l, k, ru) ∈ o.lits)
      (hs : l.Matches ((E.inp.drop b).map (E.exprs i).fold)) (hb : st.pos = b + l.str.length)
      (h1 : exec E n cx .ws st = some r1) (ho1 : r1.out = .ok)
      (h2 : exec E n cx (.run ru) r1.st = some r2) (ho2 : r2.out = .ok)
      (t : Consumes E i r2.st.pos xs q) : Consumes E i b (.op o.id b r2.st.pos :: xs) q

/-- The table of an expression production with the levels `lvl`. -/
def tableOf (e : ExprDef) (lvl : OpDef → Nat) : Table := fun id =>
  (e.ops.all.find? fun o => o.id == id).map fun o => (o.kind, lvl o)

end Verif.Spec

namespace Verif

open Spec

theorem Spec.Consumes.append {E : Env} {i p q m : Nat} {xs ys : List Piece} (h1 : Consumes E i p xs m)
    (h2 : Consumes E i m ys q) : Consumes E i p (xs ++ ys) q := by
  induction h1 with
  | nil => exact h2
  | atom h ho _ ih => exact .atom h ho (ih h2)
  | op a b c d e f g k _ ih => exact .op a b c d e f g k (ih h2)

/-- What is assumed of an expression production: literals and levels as above; operations are
    identified by their id; the rules behind the operators are no expressions themselves; and the root
    operation of a subexpression is one of the operations. -/
structure ExprOk (E : Env) (i : Nat) (lvl : OpDef → Nat) : Prop where
  lits : LitsOk E.eof (E.exprs i).fold (E.exprs i).ops.all
  lvl : Leveled lvl 1 (E.exprs i).ops
  ids : ∀ o ∈ (E.exprs i).ops.all, ∀ p ∈ (E.exprs i).ops.all, o.id = p.id → o = p
  rules : ∀ o ∈ (E.exprs i).ops.all, ∀ l ∈ o.lits, NoExpr l.2.2
  root : ∀ o, (E.exprs i).root = some o → o ∈ (E.exprs i).ops.all

namespace ExprOk

variable {E : Env} {i : Nat} {lvl : OpDef → Nat}

theorem table (ok : ExprOk E i lvl) {o : OpDef} (ho : o ∈ (E.exprs i).ops.all) :
    tableOf (E.exprs i) lvl o.id = some (o.kind, lvl o) := by
  unfold tableOf
  cases h : (E.exprs i).ops.all.find? fun p => p.id == o.id with
  | none => exact (List.find?_eq_none.1 h o ho (by simp)).elim
  | some p =>
    have h1 := List.find?_some h
    have := ok.ids p (List.mem_of_find?_eq_some h) o ho (by simpa using h1)
    subst this
    rfl

theorem of_table (ok : ExprOk E i lvl) {id : Nat} {x : OpKind × Nat} (h : tableOf (E.exprs i) lvl id = some x) :
    ∃ o ∈ (E.exprs i).ops.all, o.id = id ∧ x = (o.kind, lvl o) := by
  unfold tableOf at h
  obtain ⟨o, h1, rfl⟩ := Option.map_eq_some_iff.1 h
  exact ⟨o, List.mem_of_find?_eq_some h1, by simpa using List.find?_some h1, rfl⟩

theorem bp (ok : ExprOk E i lvl) {o : OpDef} (ho : o ∈ (E.exprs i).ops.all) :
    ∃ g, (E.exprs i).bpOf o = o.kind.bp g (lvl o) ∧ 1 ≤ lvl o :=
  (bpOf_spec 0 0 _ ok.lvl fun p hp h => ok.ids p hp o ho h).1 ho

/-- The binding power on the left, or of a prefix operator. -/
def power (lvl : OpDef → Nat) (o : OpDef) : Nat :=
  if o.kind = .prefix then (o.kind.bp 0 (lvl o)).rhs else (o.kind.bp 0 (lvl o)).lhs

theorem rhs_eq (ok : ExprOk E i lvl) {o : OpDef} (ho : o ∈ (E.exprs i).ops.all) :
    ((E.exprs i).bpOf o).rhs = (o.kind.bp 0 (lvl o)).rhs := by
  obtain ⟨g, h, _⟩ := ok.bp ho
  rw [h]
  cases o.kind <;> rfl

theorem post_mem (ok : ExprOk E i lvl) {o : OpDef} {min : Nat} :
    o ∈ (E.exprs i).postOps min ↔ o ∈ (E.exprs i).ops.all ∧ o.kind ≠ .prefix ∧ min ≤ power lvl o := by
  unfold ExprDef.postOps power
  rw [opList_mem 1 _ ok.lvl]
  simp

theorem pre_mem (ok : ExprOk E i lvl) {o : OpDef} {min : Nat} :
    o ∈ (E.exprs i).preOps min ↔ o ∈ (E.exprs i).ops.all ∧ o.kind = .prefix ∧ min ≤ power lvl o := by
  unfold ExprDef.preOps power
  rw [opList_mem 1 _ ok.lvl]
  simp

/-- An operator that is not considered after the right operand of `p` may have `p` in its left operand. -/
theorem leftOk (ok : ExprOk E i lvl) {o p : OpDef} (ho : o ∈ (E.exprs i).ops.all) (hp : p ∈ (E.exprs i).ops.all)
    (hk : o.kind ≠ .prefix) (hpk : p.kind ≠ .postfix) (h : o ∉ (E.exprs i).postOps ((E.exprs i).bpOf p).rhs) :
    LeftOk (tableOf (E.exprs i) lvl) o.id p.id := by
  refine ⟨_, _, _, _, ok.table ho, ok.table hp, ?_⟩
  rw [ok.post_mem, ok.rhs_eq hp] at h
  have h' : ¬ (p.kind.bp 0 (lvl p)).rhs ≤ power lvl o := fun hh => h ⟨ho, hk, hh⟩
  clear h
  unfold power at h'
  rw [if_neg hk] at h'
  revert hk hpk h'
  cases o.kind <;> cases p.kind <;> simp [OpKind.bp, leftAssoc] <;> omega

theorem rightOk (ok : ExprOk E i lvl) {o q : OpDef} (ho : o ∈ (E.exprs i).ops.all) (hq : q ∈ (E.exprs i).ops.all)
    (hok : o.kind ≠ .postfix) (h : ((E.exprs i).bpOf o).rhs ≤ power lvl q) :
    RightOk (tableOf (E.exprs i) lvl) o.id q.id := by
  refine ⟨_, _, _, _, ok.table ho, ok.table hq, ?_⟩
  rw [ok.rhs_eq ho] at h
  unfold power at h
  revert hok h
  cases o.kind <;> cases q.kind <;> simp [OpKind.bp, leftAssoc] <;> omega

end ExprOk

theorem Spec.yieldTail_snoc (o : Nat) (t : ETree) : ∀ ts : List ETree,
    yieldTail o (ts ++ [t]) = yieldTail o ts ++ .op o :: yield t
  | [] => by simp [yieldTail]
  | s :: ts => by simp [yieldTail, Spec.yieldTail_snoc o t ts]

theorem Spec.rightEndLast_snoc (t : ETree) : ∀ ts : List ETree, rightEndLast (ts ++ [t]) = rightEnd t
  | [] => by simp [rightEndLast]
  | [s] => by simp [rightEndLast]
  | s :: s' :: ts => by
    have := Spec.rightEndLast_snoc t (s' :: ts)
    simpa [rightEndLast] using this

theorem Spec.nestedAll_iff {T : Table} : ∀ {ts : List ETree}, NestedAll T ts ↔ ∀ t ∈ ts, Nested T t
  | [] => by simp [NestedAll]
  | s :: ts => by simp [NestedAll, Spec.nestedAll_iff (ts := ts)]

theorem Spec.unchainedAll_iff {T : Table} : ∀ {ts : List ETree}, UnchainedAll T ts ↔ ∀ t ∈ ts, Unchained T t
  | [] => by simp [UnchainedAll]
  | s :: ts => by simp [UnchainedAll, Spec.unchainedAll_iff (ts := ts)]

theorem Spec.opsOfAll_mem {id : Nat} : ∀ {ts : List ETree}, id ∈ opsOfAll ts ↔ ∃ t ∈ ts, id ∈ opsOf t
  | [] => by simp [opsOfAll]
  | s :: ts => by simp [opsOfAll, Spec.opsOfAll_mem (ts := ts)]

theorem Spec.sizeAll_append : ∀ a b : List ETree, sizeAll (a ++ b) = sizeAll a + sizeAll b
  | [], b => by simp [sizeAll]
  | s :: a, b => by simp [sizeAll, Spec.sizeAll_append a b, Nat.add_assoc]

end Verif
