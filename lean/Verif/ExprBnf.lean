import Verif.ExprComplete

/-
Expressions are those of the grammar that the documentation describes (C102): "It will parse the chain `operand op operand`",
where the operand is an operation that binds tighter, or the atom.
-/

namespace Verif

open Spec

namespace Spec

mutual
/-- The ways from an operation to the atom by following the operands, and choosing one of the groups. -/
def chains : OpTree → List (List OpDef)
  | .atom => [[]]
  | .op o t => (chains t).map (o :: ·)
  | .groups [] => [[]]
  | .groups (g :: gs) => chains g ++ chainsAll gs
def chainsAll : List OpTree → List (List OpDef)
  | [] => []
  | g :: gs => chains g ++ chainsAll gs
end

/-- The expressions of an operation, whose operand is the next one, as documented for `infix_op_left` and so on: an operand
    alone, or the operator with its operands; `a op b op c` is `(a op b) op c`, `a op (b op c)`, an error, or a list. -/
inductive Strat : List OpDef → ETree → Prop
  | atom (b e : Nat) : Strat [] (.atom b e)
  | tighter {o : OpDef} {os : List OpDef} {t : ETree} (h : Strat os t) : Strat (o :: os) t
  | left {o : OpDef} {os : List OpDef} {l r : ETree} (hk : o.kind = .infixLeft) (hl : Strat (o :: os) l) (hr : Strat os r) :
      Strat (o :: os) (.inf o.id l r)
  | right {o : OpDef} {os : List OpDef} {l r : ETree} (hk : o.kind = .infixRight) (hl : Strat os l) (hr : Strat (o :: os) r) :
      Strat (o :: os) (.inf o.id l r)
  | single {o : OpDef} {os : List OpDef} {l r : ETree} (hk : o.kind = .infixSingle) (hl : Strat os l) (hr : Strat os r) :
      Strat (o :: os) (.inf o.id l r)
  | list {o : OpDef} {os : List OpDef} {ts : List ETree} (hk : o.kind = .infixList) (hn : 2 ≤ ts.length)
      (h : ∀ t ∈ ts, Strat os t) : Strat (o :: os) (.list o.id ts)
  | pre {o : OpDef} {os : List OpDef} {t : ETree} (hk : o.kind = .prefix) (h : Strat (o :: os) t) : Strat (o :: os) (.pre o.id t)
  | post {o : OpDef} {os : List OpDef} {t : ETree} (hk : o.kind = .postfix) (h : Strat (o :: os) t) : Strat (o :: os) (.post o.id t)

/-- `x` is reached from `t` by following operands. -/
inductive Below (x : OpTree) : OpTree → Prop
  | here : Below x x
  | op {o : OpDef} {t : OpTree} (h : Below x t) : Below x (.op o t)
  | groups {gs : List OpTree} {g : OpTree} (hg : g ∈ gs) (h : Below x g) : Below x (.groups gs)

/-- Where an expression starts: with the operation of the production, or the root operation of a subexpression. -/
inductive Start (e : ExprDef) : OpTree → Prop
  | whole (h : e.root = none) : Start e e.ops
  | sub {o : OpDef} {x : OpTree} (h : e.root = some o) (hb : Below (.op o x) e.ops) : Start e (.op o x)

/-- No groups within groups. -/
inductive NoGroups : OpTree → Prop
  | atom : NoGroups .atom
  | op {o : OpDef} {t : OpTree} (h : NoGroups t) : NoGroups (.op o t)
inductive Flat : OpTree → Prop
  | atom : Flat .atom
  | op {o : OpDef} {t : OpTree} (h : Flat t) : Flat (.op o t)
  | groups {gs : List OpTree} (h : ∀ g ∈ gs, NoGroups g) : Flat (.groups gs)

end Spec

/-- The operation at the top of a tree. -/
def rootId : ETree → Option Nat
  | .atom _ _ => none
  | .pre o _ | .post o _ | .inf o _ _ | .list o _ => some o

theorem rootId_left {t : ETree} {id : Nat} (h : rootId t = some id) : id ∈ leftEnd t := by
  cases t <;> simp only [rootId, Option.some.injEq, reduceCtorEq] at h <;> subst h <;> simp [leftEnd]

theorem rootId_right {t : ETree} {id : Nat} (h : rootId t = some id) : id ∈ rightEnd t ∨ ∃ u, t = .post id u := by
  cases t <;> simp only [rootId, Option.some.injEq, reduceCtorEq] at h <;> subst h <;> simp [rightEnd]

section

variable {E : Env} {i : Nat} {lvl : OpDef → Nat} {c : List OpDef}

/-- The operations of a chain are at consecutive levels. -/
structure ChainOk (E : Env) (i : Nat) (lvl : OpDef → Nat) (c : List OpDef) : Prop where
  mem : ∀ o ∈ c, o ∈ (E.exprs i).ops.all
  lvl : ∀ (k : Nat) (h : k < c.length), lvl c[k] = k + 1

namespace ChainOk

theorem table (ok : ExprOk E i lvl) (hc : ChainOk E i lvl c) {k : Nat} (h : k < c.length) :
    tableOf (E.exprs i) lvl c[k].id = some (c[k].kind, k + 1) := by
  rw [ok.table (hc.mem _ (List.getElem_mem h)), hc.lvl k h]

theorem inj (ok : ExprOk E i lvl) (hc : ChainOk E i lvl c) {j k : Nat} (hj : j < c.length) (hk : k < c.length)
    (h : c[j].id = c[k].id) : j = k := by
  have h1 := hc.table ok hj
  rw [h, hc.table ok hk] at h1
  simp only [Option.some.injEq, Prod.mk.injEq] at h1
  omega

theorem kind (ok : ExprOk E i lvl) (hc : ChainOk E i lvl c) {k : Nat} (h : k < c.length) {ks : List OpKind}
    (hk : hasKind (tableOf (E.exprs i) lvl) c[k].id ks) : c[k].kind ∈ ks := by
  obtain ⟨kd, l, h1, h2⟩ := hk
  rw [hc.table ok h] at h1
  simp only [Option.some.injEq, Prod.mk.injEq] at h1
  exact h1.1 ▸ h2

theorem left (ok : ExprOk E i lvl) (hc : ChainOk E i lvl c) {j k : Nat} (hj : j < c.length) (hk : k < c.length)
    (h : LeftOk (tableOf (E.exprs i) lvl) c[k].id c[j].id) : k < j ∨ (k = j ∧ leftAssoc c[k].kind = true) := by
  obtain ⟨ko, lo, kp, lp, h1, h2, h3⟩ := h
  rw [hc.table ok hk] at h1
  rw [hc.table ok hj] at h2
  simp only [Option.some.injEq, Prod.mk.injEq] at h1 h2
  obtain ⟨rfl, rfl⟩ := h1
  obtain ⟨rfl, rfl⟩ := h2
  rcases h3 with h3 | ⟨h3, h4, -⟩
  · exact .inl (by omega)
  · exact .inr ⟨by omega, h4⟩

theorem right (ok : ExprOk E i lvl) (hc : ChainOk E i lvl c) {j k : Nat} (hj : j < c.length) (hk : k < c.length)
    (h : RightOk (tableOf (E.exprs i) lvl) c[k].id c[j].id) :
    k < j ∨ (k = j ∧ c[k].kind ∈ [.infixRight, .prefix, .postfix]) := by
  obtain ⟨ko, lo, kp, lp, h1, h2, h3⟩ := h
  rw [hc.table ok hk] at h1
  rw [hc.table ok hj] at h2
  simp only [Option.some.injEq, Prod.mk.injEq] at h1 h2
  obtain ⟨rfl, rfl⟩ := h1
  obtain ⟨rfl, rfl⟩ := h2
  rcases h3 with h3 | ⟨h3, h4⟩
  · exact .inl (by omega)
  · have : k = j := by omega
    subst this
    refine .inr ⟨rfl, ?_⟩
    revert h4
    cases c[k].kind <;> simp [leftAssoc]

end ChainOk

theorem strat_lift {t : ETree} : ∀ {d j : Nat}, j + d ≤ c.length → Strat (c.drop (j + d)) t → Strat (c.drop j) t
  | 0, _, _, h => h
  | d + 1, j, hd, h => by
    have hj : j < c.length := by omega
    rw [List.drop_eq_getElem_cons hj]
    refine .tighter (strat_lift (d := d) (by omega) ?_)
    rwa [show j + 1 + d = j + (d + 1) by omega]

theorem strat_le {t : ETree} {j k : Nat} (hk : k ≤ j) (hj : j ≤ c.length) (h : Strat (c.drop j) t) : Strat (c.drop k) t := by
  refine strat_lift (d := j - k) (by omega) ?_
  rwa [show k + (j - k) = j by omega]

/-- The tree is one of the operation at `j`, and its top is that operation; or it is an atom. -/
def At (c : List OpDef) (t : ETree) (j : Nat) : Prop :=
  j ≤ c.length ∧ Strat (c.drop j) t ∧ ((rootId t = none ∧ j = c.length) ∨ ∃ h : j < c.length, rootId t = some c[j].id)

/-- Postfix operators bind tighter than all infix and other postfix operators. -/
def PostTight (E : Env) (i : Nat) (lvl : OpDef → Nat) : Prop :=
  ∀ p ∈ (E.exprs i).ops.all, p.kind = .postfix → ∀ o ∈ (E.exprs i).ops.all, o.kind ≠ .prefix → o ≠ p → lvl o < lvl p

theorem operand_left (ok : ExprOk E i lvl) (hc : ChainOk E i lvl c) (hp : PostTight E i lvl) {t : ETree} {j k : Nat} (h : At c t j)
    (hk : k < c.length) (hkind : c[k].kind ≠ .prefix) (hn : Nested (tableOf (E.exprs i) lvl) t)
    (hl : ∀ p ∈ rightEnd t, LeftOk (tableOf (E.exprs i) lvl) c[k].id p) :
    k < j ∨ (k = j ∧ rootId t = some c[k].id ∧
      ((leftAssoc c[k].kind = true ∧ c[k].id ∈ rightEnd t) ∨ c[k].kind = .postfix)) := by
  obtain ⟨-, -, ⟨-, h3⟩ | ⟨hj, h3⟩⟩ := h
  · exact .inl (by omega)
  · rcases rootId_right h3 with h4 | ⟨u, h4⟩
    · rcases hc.left ok hj hk (hl _ h4) with h5 | ⟨rfl, h6⟩
      · exact .inl h5
      · exact .inr ⟨rfl, h3, .inl ⟨h6, h4⟩⟩
    · rw [h4] at hn
      have h5 := hc.kind ok hj hn.1
      simp only [List.mem_singleton] at h5
      by_cases he : c[k] = c[j]
      · have : k = j := hc.inj ok hk hj (by rw [he])
        subst this
        exact .inr ⟨rfl, h3, .inr h5⟩
      · have := hp _ (hc.mem _ (List.getElem_mem hj)) h5 _ (hc.mem _ (List.getElem_mem hk)) hkind he
        rw [hc.lvl j hj, hc.lvl k hk] at this
        exact .inl (by omega)

theorem operand_right (ok : ExprOk E i lvl) (hc : ChainOk E i lvl c) {t : ETree} {j k : Nat} (h : At c t j)
    (hk : k < c.length) (hl : ∀ q ∈ leftEnd t, RightOk (tableOf (E.exprs i) lvl) c[k].id q) :
    k < j ∨ (k = j ∧ c[k].kind ∈ [.infixRight, .prefix, .postfix]) := by
  obtain ⟨-, -, ⟨-, h3⟩ | ⟨hj, h3⟩⟩ := h
  · exact .inl (by omega)
  · exact hc.right ok hj hk (hl _ (rootId_left h3))

theorem mem_dropLast_or_tail {α : Type} : ∀ {ts : List α} {t : α}, 2 ≤ ts.length → t ∈ ts → t ∈ ts.dropLast ∨ t ∈ ts.tail
  | a :: b :: ts, t, _, h => by
    rcases List.mem_cons.1 h with rfl | h
    · exact .inl (by simp)
    · exact .inr (by simpa using h)
  | [a], _, h, _ => by simp at h
  | [], _, h, _ => by simp at h

mutual
/-- A tree nested by precedence and associativity is one of the grammar. -/
theorem strat_of (ok : ExprOk E i lvl) (hc : ChainOk E i lvl c) (hp : PostTight E i lvl) : ∀ t : ETree,
    Nested (tableOf (E.exprs i) lvl) t → Unchained (tableOf (E.exprs i) lvl) t →
    (∀ id ∈ opsOf t, ∃ o ∈ c, o.id = id) → ∃ j, At c t j
  | .atom b e, _, _, _ => ⟨c.length, Nat.le_refl _, by rw [List.drop_length]; exact .atom b e, .inl ⟨rfl, rfl⟩⟩
  | .pre id t, hn, hu, hm => by
    obtain ⟨o, ho, rfl⟩ := hm id (by simp [opsOf])
    obtain ⟨k, hk, rfl⟩ := List.getElem_of_mem ho
    obtain ⟨j, hj⟩ := strat_of ok hc hp t hn.2.1 hu (fun id h => hm id (by simp [opsOf, h]))
    have h1 := hc.kind ok hk hn.1
    simp only [List.mem_singleton] at h1
    have h2 : k ≤ j := by rcases operand_right ok hc hj hk hn.2.2 with h | ⟨h, -⟩ <;> omega
    have h3 := strat_le h2 hj.1 hj.2.1
    rw [List.drop_eq_getElem_cons hk] at h3
    exact ⟨k, by omega, by rw [List.drop_eq_getElem_cons hk]; exact .pre h1 h3, .inr ⟨hk, rfl⟩⟩
  | .post id t, hn, hu, hm => by
    obtain ⟨o, ho, rfl⟩ := hm id (by simp [opsOf])
    obtain ⟨k, hk, rfl⟩ := List.getElem_of_mem ho
    obtain ⟨j, hj⟩ := strat_of ok hc hp t hn.2.1 hu (fun id h => hm id (by simp [opsOf, h]))
    have h1 := hc.kind ok hk hn.1
    simp only [List.mem_singleton] at h1
    have h2 : k ≤ j := by
      rcases operand_left ok hc hp hj hk (by rw [h1]; decide) hn.2.1 hn.2.2 with h | ⟨h, -⟩ <;> omega
    have h3 := strat_le h2 hj.1 hj.2.1
    rw [List.drop_eq_getElem_cons hk] at h3
    exact ⟨k, by omega, by rw [List.drop_eq_getElem_cons hk]; exact .post h1 h3, .inr ⟨hk, rfl⟩⟩
  | .inf id l r, hn, hu, hm => by
    obtain ⟨o, ho, rfl⟩ := hm id (by simp [opsOf])
    obtain ⟨k, hk, rfl⟩ := List.getElem_of_mem ho
    obtain ⟨j, hj⟩ := strat_of ok hc hp l hn.2.1 hu.1 (fun id h => hm id (by simp [opsOf, h]))
    obtain ⟨m, hm'⟩ := strat_of ok hc hp r hn.2.2.1 hu.2.1 (fun id h => hm id (by simp [opsOf, h]))
    have h1 := hc.kind ok hk hn.1
    have hkp : c[k].kind ≠ .prefix := by intro h; rw [h] at h1; simp at h1
    have a1 := operand_left ok hc hp hj hk hkp hn.2.1 hn.2.2.2.1
    have a2 := operand_right ok hc hm' hk hn.2.2.2.2
    refine ⟨k, by omega, ?_, .inr ⟨hk, rfl⟩⟩
    rw [List.drop_eq_getElem_cons hk]
    simp only [List.mem_cons, List.not_mem_nil, or_false] at h1
    rcases h1 with h1 | h1 | h1
    · have b1 : k ≤ j := by rcases a1 with h | ⟨h, -⟩ <;> omega
      have b2 : k + 1 ≤ m := by
        rcases a2 with h | ⟨-, h⟩
        · omega
        · rw [h1] at h; simp at h
      have h3 := strat_le b1 hj.1 hj.2.1
      rw [List.drop_eq_getElem_cons hk] at h3
      exact .left h1 h3 (strat_le b2 hm'.1 hm'.2.1)
    · have b1 : k + 1 ≤ j := by
        rcases a1 with h | ⟨-, -, ⟨h, -⟩ | h⟩
        · omega
        · rw [h1] at h; simp [leftAssoc] at h
        · rw [h1] at h; cases h
      have b2 : k ≤ m := by rcases a2 with h | ⟨h, -⟩ <;> omega
      have h3 := strat_le b2 hm'.1 hm'.2.1
      rw [List.drop_eq_getElem_cons hk] at h3
      exact .right h1 (strat_le b1 hj.1 hj.2.1) h3
    · have b1 : k + 1 ≤ j := by
        rcases a1 with h | ⟨-, -, ⟨-, h⟩ | h⟩
        · omega
        · exact (hu.2.2 ⟨_, _, hc.table ok hk, by simp [h1]⟩ h).elim
        · rw [h1] at h; cases h
      have b2 : k + 1 ≤ m := by
        rcases a2 with h | ⟨-, h⟩
        · omega
        · rw [h1] at h; simp at h
      exact .single h1 (strat_le b1 hj.1 hj.2.1) (strat_le b2 hm'.1 hm'.2.1)
  | .list id ts, hn, hu, hm => by
    obtain ⟨o, ho, rfl⟩ := hm id (by simp [opsOf])
    obtain ⟨k, hk, rfl⟩ := List.getElem_of_mem ho
    have h1 := hc.kind ok hk hn.1
    simp only [List.mem_singleton] at h1
    have hall := stratAll_of ok hc hp ts hn.2.2.1 hu.1 (fun id h => hm id (by simp [opsOf, h]))
    refine ⟨k, by omega, ?_, .inr ⟨hk, rfl⟩⟩
    rw [List.drop_eq_getElem_cons hk]
    refine .list h1 hn.2.1 fun t ht => ?_
    obtain ⟨j, hj⟩ := hall t ht
    have hnt := nestedAll_iff.1 hn.2.2.1 t ht
    refine strat_le ?_ hj.1 hj.2.1
    rcases mem_dropLast_or_tail hn.2.1 ht with h | h
    · rcases operand_left ok hc hp hj hk (by rw [h1]; decide) hnt (hn.2.2.2.1 t h) with h2 | ⟨-, -, ⟨-, h2⟩ | h2⟩
      · exact h2
      · exact (hu.2 t h h2).elim
      · rw [h1] at h2; cases h2
    · rcases operand_right ok hc hj hk (hn.2.2.2.2 t h) with h2 | ⟨-, h2⟩
      · exact h2
      · rw [h1] at h2; simp at h2
theorem stratAll_of (ok : ExprOk E i lvl) (hc : ChainOk E i lvl c) (hp : PostTight E i lvl) : ∀ ts : List ETree,
    NestedAll (tableOf (E.exprs i) lvl) ts → UnchainedAll (tableOf (E.exprs i) lvl) ts →
    (∀ id ∈ opsOfAll ts, ∃ o ∈ c, o.id = id) → ∀ t ∈ ts, ∃ j, At c t j
  | [], _, _, _ => by simp
  | t :: ts, hn, hu, hm => by
    intro s hs
    rcases List.mem_cons.1 hs with h0 | hs
    · rw [h0]
      exact strat_of ok hc hp t hn.1 hu.1 fun id h => hm id (by simp [opsOfAll, h])
    · exact stratAll_of ok hc hp ts hn.2 hu.2 (fun id h => hm id (by simp [opsOfAll, h])) s hs
end

/-! ## Chains -/

theorem groupPathAll_index {id : Nat} : ∀ {gs : List OpTree} {k : Nat} {p : List Nat}, groupPathAll id k gs = some p →
    ∃ j p', p = j :: p' ∧ k ≤ j
  | [], _, _, h => by simp [groupPathAll] at h
  | g :: gs, k, p, h => by
    simp only [groupPathAll] at h
    split at h
    · cases h; exact ⟨_, _, rfl, Nat.le_refl _⟩
    · obtain ⟨j, p', h1, h2⟩ := groupPathAll_index h
      exact ⟨j, p', h1, by omega⟩

mutual
/-- The operations in no group and those of one group are on one way. -/
theorem chain_exists : ∀ (t : OpTree) (p : List Nat), ∃ c ∈ chains t,
    ∀ id, groupPath id t = some [] ∨ groupPath id t = some p → ∃ o ∈ c, o.id = id
  | .atom, _ => ⟨[], by simp [chains], by simp [groupPath]⟩
  | .op o t, p => by
    obtain ⟨c, h1, h2⟩ := chain_exists t p
    refine ⟨o :: c, by simp [chains, h1], fun id h => ?_⟩
    simp only [groupPath] at h
    split at h
    · rename_i h3
      exact ⟨o, by simp, h3⟩
    · obtain ⟨q, h4, h5⟩ := h2 id h
      exact ⟨q, by simp [h4], h5⟩
  | .groups [], _ => ⟨[], by simp [chains], by simp [groupPath, groupPathAll]⟩
  | .groups (g :: gs), p => by
    obtain ⟨c, h1, h2⟩ := chainAll_exists (g :: gs) 0 p (by simp)
    refine ⟨c, by simpa [chains, chainsAll] using h1, fun id h => ?_⟩
    simp only [groupPath] at h
    rcases h with h | h
    · obtain ⟨j, p', h3, -⟩ := groupPathAll_index h
      cases h3
    · exact h2 id h
theorem chainAll_exists : ∀ (gs : List OpTree) (k : Nat) (p : List Nat), gs ≠ [] → ∃ c ∈ chainsAll gs,
    ∀ id, groupPathAll id k gs = some p → ∃ o ∈ c, o.id = id
  | [], _, _, h => (h rfl).elim
  | g :: gs, k, p, _ => by
    by_cases hp : ∃ p', p = k :: p'
    · obtain ⟨p', rfl⟩ := hp
      obtain ⟨c, h1, h2⟩ := chain_exists g p'
      refine ⟨c, by simp [chainsAll, h1], fun id h => ?_⟩
      simp only [groupPathAll] at h
      split at h
      · rename_i q hq
        simp only [Option.some.injEq, List.cons.injEq, true_and] at h
        exact h2 id (.inr (h ▸ hq))
      · obtain ⟨j, p'', h3, h4⟩ := groupPathAll_index h
        simp only [List.cons.injEq] at h3
        omega
    · have hrest : ∀ id, groupPathAll id k (g :: gs) = some p → groupPathAll id (k + 1) gs = some p := by
        intro id h
        simp only [groupPathAll] at h
        split at h
        · cases h; exact (hp ⟨_, rfl⟩).elim
        · exact h
      cases gs with
      | nil =>
        obtain ⟨c, h1, -⟩ := chain_exists g []
        refine ⟨c, by simp [chainsAll, h1], fun id h => ?_⟩
        have := hrest id h
        simp [groupPathAll] at this
      | cons g' gs =>
        obtain ⟨c, h1, h2⟩ := chainAll_exists (g' :: gs) (k + 1) p (by simp)
        exact ⟨c, by rw [chainsAll, List.mem_append]; exact .inr h1, fun id h => h2 id (hrest id h)⟩
end

mutual
theorem chain_mem : ∀ (t : OpTree) {c : List OpDef}, c ∈ chains t → ∀ o ∈ c, o ∈ t.all
  | .atom, c, h => by simp only [chains, List.mem_singleton] at h; subst h; simp
  | .op o t, c, h => by
    simp only [chains, List.mem_map] at h
    obtain ⟨c', h1, rfl⟩ := h
    intro q hq
    rcases List.mem_cons.1 hq with h2 | hq
    · simp [OpTree.all, h2]
    · simp [OpTree.all, chain_mem t h1 q hq]
  | .groups [], c, h => by simp only [chains, List.mem_singleton] at h; subst h; simp
  | .groups (g :: gs), c, h => by
    simp only [chains, List.mem_append] at h
    intro q hq
    simp only [OpTree.all, OpTree.allGroups, List.mem_append]
    rcases h with h | h
    · exact .inl (chain_mem g h q hq)
    · exact .inr (chainAll_mem gs h q hq)
theorem chainAll_mem : ∀ (gs : List OpTree) {c : List OpDef}, c ∈ chainsAll gs → ∀ o ∈ c, o ∈ OpTree.allGroups gs
  | [], c, h => by simp [chainsAll] at h
  | g :: gs, c, h => by
    simp only [chainsAll, List.mem_append] at h
    intro q hq
    simp only [OpTree.allGroups, List.mem_append]
    rcases h with h | h
    · exact .inl (chain_mem g h q hq)
    · exact .inr (chainAll_mem gs h q hq)
end

mutual
theorem chain_lvl {lvl : OpDef → Nat} : ∀ (t : OpTree) {n : Nat} {c : List OpDef}, Leveled lvl n t → c ∈ chains t →
    ∀ (k : Nat) (h : k < c.length), lvl c[k] = n + k
  | .atom, n, c, _, h => by simp only [chains, List.mem_singleton] at h; subst h; simp
  | .op o t, n, c, hl, h => by
    simp only [chains, List.mem_map] at h
    simp only [Leveled] at hl
    obtain ⟨c', h1, rfl⟩ := h
    intro k hk
    cases k with
    | zero => simpa using hl.1
    | succ k =>
      have := chain_lvl t hl.2 h1 k (by simpa using hk)
      simp only [List.getElem_cons_succ]
      omega
  | .groups [], n, c, _, h => by simp only [chains, List.mem_singleton] at h; subst h; simp
  | .groups (g :: gs), n, c, hl, h => by
    simp only [chains, List.mem_append] at h
    simp only [Leveled, Leveled.LeveledAll] at hl
    rcases h with h | h
    · exact chain_lvl g hl.1 h
    · exact chainAll_lvl gs hl.2 h
theorem chainAll_lvl {lvl : OpDef → Nat} : ∀ (gs : List OpTree) {n : Nat} {c : List OpDef}, Leveled.LeveledAll lvl n gs →
    c ∈ chainsAll gs → ∀ (k : Nat) (h : k < c.length), lvl c[k] = n + k
  | [], n, c, _, h => by simp [chainsAll] at h
  | g :: gs, n, c, hl, h => by
    simp only [chainsAll, List.mem_append] at h
    simp only [Leveled.LeveledAll] at hl
    rcases h with h | h
    · exact chain_lvl g hl.1 h
    · exact chainAll_lvl gs hl.2 h
end

theorem chain_ok (ok : ExprOk E i lvl) (h : c ∈ chains (E.exprs i).ops) : ChainOk E i lvl c :=
  ⟨chain_mem _ h, fun k hk => by rw [chain_lvl _ ok.lvl h k hk, Nat.add_comm]⟩

mutual
/-- A rest of a way is the way from the operation it starts with. -/
theorem chain_drop : ∀ (t : OpTree) {c : List OpDef}, c ∈ chains t → ∀ (k : Nat) (h : k < c.length),
    ∃ x, Below (.op c[k] x) t ∧ c.drop k ∈ chains (.op c[k] x)
  | .atom, c, h => by simp only [chains, List.mem_singleton] at h; subst h; simp
  | .op o t, c, h => by
    intro k hk
    have h' := h
    simp only [chains, List.mem_map] at h
    obtain ⟨c', h1, rfl⟩ := h
    cases k with
    | zero => exact ⟨t, .here, h'⟩
    | succ k =>
      obtain ⟨x, h2, h3⟩ := chain_drop t h1 k (by simpa using hk)
      exact ⟨x, .op h2, by simpa using h3⟩
  | .groups [], c, h => by simp only [chains, List.mem_singleton] at h; subst h; simp
  | .groups (g :: gs), c, h => by
    intro k hk
    simp only [chains, List.mem_append] at h
    rcases h with h | h
    · obtain ⟨x, h2, h3⟩ := chain_drop g h k hk
      exact ⟨x, .groups (by simp) h2, h3⟩
    · obtain ⟨g', x, h1, h2, h3⟩ := chainAll_drop gs h k hk
      exact ⟨x, .groups (by simp [h1]) h2, h3⟩
theorem chainAll_drop : ∀ (gs : List OpTree) {c : List OpDef}, c ∈ chainsAll gs → ∀ (k : Nat) (h : k < c.length),
    ∃ g x, g ∈ gs ∧ Below (.op c[k] x) g ∧ c.drop k ∈ chains (.op c[k] x)
  | [], c, h => by simp [chainsAll] at h
  | g :: gs, c, h => by
    intro k hk
    simp only [chainsAll, List.mem_append] at h
    rcases h with h | h
    · obtain ⟨x, h2, h3⟩ := chain_drop g h k hk
      exact ⟨g, x, by simp, h2, h3⟩
    · obtain ⟨g', x, h1, h2, h3⟩ := chainAll_drop gs h k hk
      exact ⟨g', x, by simp [h1], h2, h3⟩
end

theorem chainsAll_mem {c : List OpDef} : ∀ {gs : List OpTree} {g : OpTree}, g ∈ gs → c ∈ chains g → c ∈ chainsAll gs
  | g' :: gs, g, hg, h => by
    rw [chainsAll, List.mem_append]
    rcases List.mem_cons.1 hg with rfl | hg
    · exact .inl h
    · exact .inr (chainsAll_mem hg h)

theorem chains_groups {c : List OpDef} {gs : List OpTree} {g : OpTree} (hg : g ∈ gs) (h : c ∈ chains g) :
    c ∈ chains (.groups gs) := by
  cases gs with
  | nil => simp at hg
  | cons g' gs => exact chainsAll_mem hg h

theorem below_chain {x t : OpTree} (hb : Below x t) {c : List OpDef} (h : c ∈ chains x) : ∃ pre, pre ++ c ∈ chains t := by
  induction hb with
  | here => exact ⟨[], h⟩
  | @op o t _ ih =>
    obtain ⟨pre, h1⟩ := ih
    exact ⟨o :: pre, by simp [chains, h1]⟩
  | groups hg _ ih =>
    obtain ⟨pre, h1⟩ := ih
    exact ⟨pre, chains_groups hg h1⟩

/-! ## From the grammar to the nesting -/

mutual
theorem leftEnd_ops : ∀ (t : ETree), ∀ id ∈ leftEnd t, id ∈ opsOf t
  | .atom _ _ => by simp [leftEnd]
  | .pre o t => by simp [leftEnd, opsOf]
  | .post o t => by
    intro id h
    simp only [leftEnd, opsOf, List.mem_cons] at h ⊢
    exact h.imp_right (leftEnd_ops t id)
  | .inf o l r => by
    intro id h
    simp only [leftEnd, opsOf, List.mem_cons, List.mem_append] at h ⊢
    rcases h with h | h
    · exact .inl h
    · exact .inr (.inl (leftEnd_ops l id h))
  | .list o ts => by
    intro id h
    simp only [leftEnd, opsOf, List.mem_cons] at h ⊢
    exact h.imp_right (leftEndHead_ops ts id)
theorem leftEndHead_ops : ∀ (ts : List ETree), ∀ id ∈ leftEndHead ts, id ∈ opsOfAll ts
  | [] => by simp [leftEndHead]
  | t :: ts => by
    intro id h
    simp only [leftEndHead, opsOfAll, List.mem_append] at h ⊢
    exact .inl (leftEnd_ops t id h)
end

mutual
theorem rightEnd_ops : ∀ (t : ETree), ∀ id ∈ rightEnd t, id ∈ opsOf t
  | .atom _ _ => by simp [rightEnd]
  | .post o t => by simp [rightEnd, opsOf]
  | .pre o t => by
    intro id h
    simp only [rightEnd, opsOf, List.mem_cons] at h ⊢
    exact h.imp_right (rightEnd_ops t id)
  | .inf o l r => by
    intro id h
    simp only [rightEnd, opsOf, List.mem_cons, List.mem_append] at h ⊢
    rcases h with h | h
    · exact .inl h
    · exact .inr (.inr (rightEnd_ops r id h))
  | .list o ts => by
    intro id h
    simp only [rightEnd, opsOf, List.mem_cons] at h ⊢
    exact h.imp_right (rightEndLast_ops ts id)
theorem rightEndLast_ops : ∀ (ts : List ETree), ∀ id ∈ rightEndLast ts, id ∈ opsOfAll ts
  | [] => by simp [rightEndLast]
  | [t] => by
    intro id h
    simp only [rightEndLast, opsOfAll, List.append_nil] at h ⊢
    exact rightEnd_ops t id h
  | t :: t' :: ts => by
    intro id h
    simp only [rightEndLast] at h
    rw [opsOfAll, List.mem_append]
    exact .inr (rightEndLast_ops (t' :: ts) id h)
end

theorem opsOfAll_iff {id : Nat} : ∀ {ts : List ETree}, id ∈ opsOfAll ts ↔ ∃ t ∈ ts, id ∈ opsOf t
  | [] => by simp [opsOfAll]
  | t :: ts => by simp [opsOfAll, opsOfAll_iff (ts := ts)]

theorem nested_of (ok : ExprOk E i lvl) (hc : ChainOk E i lvl c) {os : List OpDef} {t : ETree} (h : Strat os t) :
    ∀ k, os = c.drop k → (∀ id ∈ opsOf t, ∃ j, ∃ hj : j < c.length, k ≤ j ∧ c[j].id = id) ∧
      Nested (tableOf (E.exprs i) lvl) t ∧ Unchained (tableOf (E.exprs i) lvl) t := by
  have split : ∀ {o : OpDef} {os : List OpDef} {k : Nat}, o :: os = c.drop k →
      ∃ h : k < c.length, o = c[k] ∧ os = c.drop (k + 1) := by
    intro o os k h
    have hk : k < c.length := by
      apply Decidable.byContradiction
      intro h'
      rw [List.drop_eq_nil_of_le (by omega)] at h
      cases h
    rw [List.drop_eq_getElem_cons hk] at h
    simp only [List.cons.injEq] at h
    exact ⟨hk, h⟩
  have kindOf : ∀ {k : Nat} (hk : k < c.length) {ks : List OpKind}, c[k].kind ∈ ks →
      hasKind (tableOf (E.exprs i) lvl) c[k].id ks := fun hk ks h => ⟨_, _, hc.table ok hk, h⟩
  have mkL : ∀ {j k : Nat} (hj : j < c.length) (hk : k < c.length), (k < j ∨ (k = j ∧ leftAssoc c[k].kind = true)) →
      LeftOk (tableOf (E.exprs i) lvl) c[k].id c[j].id := by
    rintro j k hj hk (h | ⟨rfl, h⟩)
    · exact ⟨_, _, _, _, hc.table ok hk, hc.table ok hj, .inl (by omega)⟩
    · exact ⟨_, _, _, _, hc.table ok hk, hc.table ok hj, .inr ⟨rfl, h, h⟩⟩
  have mkR : ∀ {j k : Nat} (hj : j < c.length) (hk : k < c.length),
      (k < j ∨ (k = j ∧ (c[k].kind = .infixRight ∨ c[k].kind = .prefix))) →
      RightOk (tableOf (E.exprs i) lvl) c[k].id c[j].id := by
    rintro j k hj hk (h | ⟨rfl, h⟩)
    · exact ⟨_, _, _, _, hc.table ok hk, hc.table ok hj, .inl (by omega)⟩
    · exact ⟨_, _, _, _, hc.table ok hk, hc.table ok hj, .inr ⟨rfl, h.imp_right .inl⟩⟩
  induction h with
  | atom b e => exact fun k _ => ⟨by simp [opsOf], by simp [Nested], by simp [Unchained]⟩
  | tighter _ ih =>
    intro k hk
    obtain ⟨h1, -, h3⟩ := split hk
    obtain ⟨a1, a2⟩ := ih _ h3
    refine ⟨fun id hid => ?_, a2⟩
    obtain ⟨j, hj, h4, h5⟩ := a1 id hid
    exact ⟨j, hj, by omega, h5⟩
  | left hkd _ _ ihl ihr =>
    intro k hk
    obtain ⟨h1, rfl, h3⟩ := split hk
    obtain ⟨a1, a2, a3⟩ := ihl _ hk
    obtain ⟨b1, b2, b3⟩ := ihr _ h3
    refine ⟨fun id hid => ?_, ⟨kindOf h1 (by simp [hkd]), a2, b2, fun p hp => ?_, fun q hq => ?_⟩,
      a3, b3, fun h => ?_⟩
    · simp only [opsOf, List.mem_cons, List.mem_append] at hid
      rcases hid with rfl | hid | hid
      · exact ⟨k, h1, Nat.le_refl _, rfl⟩
      · exact a1 id hid
      · obtain ⟨j, hj, h4, h5⟩ := b1 id hid
        exact ⟨j, hj, by omega, h5⟩
    · obtain ⟨j, hj, h4, rfl⟩ := a1 p (rightEnd_ops _ p hp)
      refine mkL hj h1 ?_
      rcases Nat.lt_or_ge k j with h5 | h5
      · exact .inl h5
      · exact .inr ⟨by omega, by rw [hkd]; rfl⟩
    · obtain ⟨j, hj, h4, rfl⟩ := b1 q (leftEnd_ops _ q hq)
      exact mkR hj h1 (.inl (by omega))
    · have := hc.kind ok h1 h
      rw [hkd] at this
      simp at this
  | right hkd _ _ ihl ihr =>
    intro k hk
    obtain ⟨h1, rfl, h3⟩ := split hk
    obtain ⟨a1, a2, a3⟩ := ihl _ h3
    obtain ⟨b1, b2, b3⟩ := ihr _ hk
    refine ⟨fun id hid => ?_, ⟨kindOf h1 (by simp [hkd]), a2, b2, fun p hp => ?_, fun q hq => ?_⟩,
      a3, b3, fun h => ?_⟩
    · simp only [opsOf, List.mem_cons, List.mem_append] at hid
      rcases hid with rfl | hid | hid
      · exact ⟨k, h1, Nat.le_refl _, rfl⟩
      · obtain ⟨j, hj, h4, h5⟩ := a1 id hid
        exact ⟨j, hj, by omega, h5⟩
      · exact b1 id hid
    · obtain ⟨j, hj, h4, rfl⟩ := a1 p (rightEnd_ops _ p hp)
      exact mkL hj h1 (.inl (by omega))
    · obtain ⟨j, hj, h4, rfl⟩ := b1 q (leftEnd_ops _ q hq)
      refine mkR hj h1 ?_
      rcases Nat.lt_or_ge k j with h5 | h5
      · exact .inl h5
      · exact .inr ⟨by omega, .inl hkd⟩
    · have := hc.kind ok h1 h
      rw [hkd] at this
      simp at this
  | single hkd _ _ ihl ihr =>
    intro k hk
    obtain ⟨h1, rfl, h3⟩ := split hk
    obtain ⟨a1, a2, a3⟩ := ihl _ h3
    obtain ⟨b1, b2, b3⟩ := ihr _ h3
    refine ⟨fun id hid => ?_, ⟨kindOf h1 (by simp [hkd]), a2, b2, fun p hp => ?_, fun q hq => ?_⟩,
      a3, b3, fun _ h => ?_⟩
    · simp only [opsOf, List.mem_cons, List.mem_append] at hid
      rcases hid with rfl | hid | hid
      · exact ⟨k, h1, Nat.le_refl _, rfl⟩
      · obtain ⟨j, hj, h4, h5⟩ := a1 id hid
        exact ⟨j, hj, by omega, h5⟩
      · obtain ⟨j, hj, h4, h5⟩ := b1 id hid
        exact ⟨j, hj, by omega, h5⟩
    · obtain ⟨j, hj, h4, rfl⟩ := a1 p (rightEnd_ops _ p hp)
      exact mkL hj h1 (.inl (by omega))
    · obtain ⟨j, hj, h4, rfl⟩ := b1 q (leftEnd_ops _ q hq)
      exact mkR hj h1 (.inl (by omega))
    · obtain ⟨j, hj, h4, h5⟩ := a1 _ (rightEnd_ops _ _ h)
      have := hc.inj ok hj h1 h5
      omega
  | list hkd hn _ ih =>
    intro k hk
    obtain ⟨h1, rfl, h3⟩ := split hk
    refine ⟨fun id hid => ?_, ⟨kindOf h1 (by simp [hkd]), hn, nestedAll_iff.2 fun t ht => (ih t ht _ h3).2.1,
      fun t ht p hp => ?_, fun t ht q hq => ?_⟩, unchainedAll_iff.2 fun t ht => (ih t ht _ h3).2.2, fun t ht h => ?_⟩
    · simp only [opsOf, List.mem_cons] at hid
      rcases hid with rfl | hid
      · exact ⟨k, h1, Nat.le_refl _, rfl⟩
      · obtain ⟨t, ht, hid⟩ := opsOfAll_iff.1 hid
        obtain ⟨j, hj, h4, h5⟩ := (ih t ht _ h3).1 id hid
        exact ⟨j, hj, by omega, h5⟩
    · obtain ⟨j, hj, h4, rfl⟩ := (ih t (List.dropLast_subset _ ht) _ h3).1 p (rightEnd_ops _ p hp)
      exact mkL hj h1 (.inl (by omega))
    · obtain ⟨j, hj, h4, rfl⟩ := (ih t (List.mem_of_mem_tail ht) _ h3).1 q (leftEnd_ops _ q hq)
      exact mkR hj h1 (.inl (by omega))
    · obtain ⟨j, hj, h4, h5⟩ := (ih t (List.dropLast_subset _ ht) _ h3).1 _ (rightEnd_ops _ _ h)
      have := hc.inj ok hj h1 h5
      omega
  | pre hkd _ ih =>
    intro k hk
    obtain ⟨h1, rfl, h3⟩ := split hk
    obtain ⟨a1, a2, a3⟩ := ih _ hk
    refine ⟨fun id hid => ?_, ⟨kindOf h1 (by simp [hkd]), a2, fun q hq => ?_⟩, a3⟩
    · simp only [opsOf, List.mem_cons] at hid
      rcases hid with rfl | hid
      · exact ⟨k, h1, Nat.le_refl _, rfl⟩
      · exact a1 id hid
    · obtain ⟨j, hj, h4, rfl⟩ := a1 q (leftEnd_ops _ q hq)
      refine mkR hj h1 ?_
      rcases Nat.lt_or_ge k j with h5 | h5
      · exact .inl h5
      · exact .inr ⟨by omega, .inr hkd⟩
  | post hkd _ ih =>
    intro k hk
    obtain ⟨h1, rfl, h3⟩ := split hk
    obtain ⟨a1, a2, a3⟩ := ih _ hk
    refine ⟨fun id hid => ?_, ⟨kindOf h1 (by simp [hkd]), a2, fun p hp => ?_⟩, a3⟩
    · simp only [opsOf, List.mem_cons] at hid
      rcases hid with rfl | hid
      · exact ⟨k, h1, Nat.le_refl _, rfl⟩
      · exact a1 id hid
    · obtain ⟨j, hj, h4, rfl⟩ := a1 p (rightEnd_ops _ p hp)
      refine mkL hj h1 (.inl ?_)
      apply Decidable.byContradiction
      intro h5
      have h6 : k = j := by omega
      subst h6
      obtain ⟨kd, l, h7, h8⟩ := nested_right _ a2 _ hp
      rw [hc.table ok hj, hkd] at h7
      simp only [Option.some.injEq, Prod.mk.injEq] at h7
      exact h8 h7.1.symm

/-! ## Groups -/

mutual
theorem groupPath_none {id : Nat} : ∀ (t : OpTree), (∀ o ∈ t.all, o.id ≠ id) → groupPath id t = none
  | .atom, _ => by simp [groupPath]
  | .op o t, h => by
    simp only [groupPath]
    rw [if_neg (h o (by simp [OpTree.all])), groupPath_none t fun q hq => h q (by simp [OpTree.all, hq])]
  | .groups gs, h => by
    simp only [groupPath]
    exact groupPathAll_none gs 0 fun q hq => h q (by simpa [OpTree.all] using hq)
theorem groupPathAll_none {id : Nat} : ∀ (gs : List OpTree) (k : Nat), (∀ o ∈ OpTree.allGroups gs, o.id ≠ id) →
    groupPathAll id k gs = none
  | [], _, _ => by simp [groupPathAll]
  | g :: gs, k, h => by
    simp only [groupPathAll]
    rw [groupPath_none g fun q hq => h q (by simp [OpTree.allGroups, hq])]
    exact groupPathAll_none gs (k + 1) fun q hq => h q (by simp [OpTree.allGroups, hq])
end

theorem noGroups_path {t : OpTree} (h : NoGroups t) {o : OpDef} : o ∈ t.all → groupPath o.id t = some [] := by
  induction h with
  | atom => simp [OpTree.all]
  | op _ ih =>
    intro ho
    simp only [groupPath]
    split
    · rfl
    · rename_i h1
      simp only [OpTree.all, List.mem_cons] at ho
      rcases ho with rfl | ho
      · exact (h1 rfl).elim
      · exact ih ho

theorem groups_path : ∀ {gs : List OpTree} {c : List OpDef} (k : Nat), (∀ g ∈ gs, NoGroups g) →
    ((OpTree.allGroups gs).map OpDef.id).Nodup → c ∈ chainsAll gs → ∃ p, ∀ o ∈ c, groupPathAll o.id k gs = some p
  | [], _, _, _, _, h => by simp [chainsAll] at h
  | g :: gs, c, k, hg, hd, h => by
    simp only [chainsAll, List.mem_append] at h
    simp only [OpTree.allGroups, List.map_append, List.nodup_append] at hd
    rcases h with h | h
    · refine ⟨[k], fun o ho => ?_⟩
      simp only [groupPathAll]
      rw [noGroups_path (hg g (by simp)) (chain_mem g h o ho)]
    · obtain ⟨p, hp⟩ := groups_path (k + 1) (fun g' h' => hg g' (by simp [h'])) hd.2.1 h
      refine ⟨p, fun o ho => ?_⟩
      simp only [groupPathAll]
      rw [groupPath_none g, hp o ho]
      intro q hq
      exact hd.2.2 _ (List.mem_map_of_mem hq) _ (List.mem_map_of_mem (chainAll_mem gs h o ho))

theorem flat_path {t : OpTree} (h : Flat t) : ∀ {c : List OpDef}, (t.all.map OpDef.id).Nodup → c ∈ chains t →
    ∃ p, ∀ o ∈ c, groupPath o.id t = some [] ∨ groupPath o.id t = some p := by
  induction h with
  | atom =>
    intro c _ hc
    simp only [chains, List.mem_singleton] at hc
    subst hc
    simp
  | @op o t _ ih =>
    intro c hd hc
    simp only [chains, List.mem_map] at hc
    obtain ⟨c', h1, rfl⟩ := hc
    simp only [OpTree.all, List.map_cons, List.nodup_cons] at hd
    obtain ⟨p, hp⟩ := ih hd.2 h1
    refine ⟨p, fun q hq => ?_⟩
    simp only [groupPath]
    split
    · exact .inl rfl
    · rename_i h2
      rcases List.mem_cons.1 hq with rfl | hq
      · exact (h2 rfl).elim
      · exact hp q hq
  | @groups gs hg =>
    intro c hd hc
    cases gs with
    | nil =>
      simp only [chains, List.mem_singleton] at hc
      subst hc
      simp
    | cons g gs =>
      obtain ⟨p, hp⟩ := groups_path (c := c) 0 hg (by simpa [OpTree.all] using hd) (by simpa [chains, chainsAll] using hc)
      exact ⟨p, fun o ho => .inr (by simpa [groupPath] using hp o ho)⟩

/-! ## The properties -/

/-- **C102** What an expression parses without error is an expression of the grammar: of the operation it starts with, along
    operands and one choice of groups. Provided that postfix operators bind tighter than all infix operators, and a root
    operation is in no group. -/
theorem C102_sound_partial {n : Nat} {cx : Cx} {st : St} {r : Res} (ok : ExprOk E i lvl) (hpost : PostTight E i lvl)
    (hroot : ∀ ro, (E.exprs i).root = some ro → groupPath ro.id (E.exprs i).ops = some [])
    (h : exec E n cx (.run (.expr i)) st = some r) (hp : st.pos ≤ E.inp.length)
    (hq : ∀ ev ∈ r.evs, ev.isError = false) :
    ∃ t xs x c, r.st.ex.val = some t ∧ Consumes E i st.pos xs r.st.pos ∧ yield t = xs.map Piece.sym
      ∧ Start (E.exprs i) x ∧ c ∈ chains x ∧ Strat c t := by
  obtain ⟨-, t, xs, a1, a2, a3, a4, a5, a6, -⟩ := C47_sound ok h hp hq
  obtain ⟨t', p, b1, b2⟩ := C68_groups ok h hp hq
  rw [a1] at b1; cases b1
  obtain ⟨c, c1, c2⟩ := chain_exists (E.exprs i).ops p
  have hc := chain_ok ok c1
  obtain ⟨j, d1, d2, d3⟩ := strat_of ok hc hpost t a4 a5 fun id hid => c2 id (b2 id hid)
  cases hr : (E.exprs i).root with
  | none => exact ⟨t, xs, _, c, a1, a2, a3, .whole hr, c1, by simpa using strat_le (Nat.zero_le j) d1 d2⟩
  | some ro =>
    obtain ⟨o, e1, e2⟩ := c2 ro.id (.inl (hroot ro hr))
    have e3 : o = ro := ok.ids _ (hc.mem o e1) _ (ok.root ro hr) e2
    subst e3
    obtain ⟨m, hm, rfl⟩ := List.getElem_of_mem e1
    obtain ⟨x, f1, f2⟩ := chain_drop _ c1 m hm
    refine ⟨t, xs, _, _, a1, a2, a3, .sub hr f1, f2, strat_le ?_ d1 d2⟩
    rcases d3 with ⟨-, d3⟩ | ⟨hj, d3⟩
    · omega
    · obtain ⟨k, l, g1, g2⟩ := a6 _ ⟨hc.mem _ e1, .inl hr⟩ _ (leftEnd_ops _ _ (rootId_left d3))
      rw [hc.table ok hj] at g1
      simp only [Option.some.injEq, Prod.mk.injEq] at g1
      rw [hc.lvl m hm] at g2
      omega

/-- **C102** Every expression of the grammar is parsed, as that expression. Provided that there are no groups within groups, no
    operation is reached on two ways, and no operator follows. -/
theorem C102_complete_partial (ok : ExprOk E i lvl) (hflat : Flat (E.exprs i).ops)
    (hids : ((E.exprs i).ops.all.map OpDef.id).Nodup) {cx : Cx} {t : ETree} {st : St} {e : Nat} {x : OpTree}
    (hx : Start (E.exprs i) x) (hcx : c ∈ chains x) (ht : Strat c t) (hs : Spell E cx i st (yield t) st.pos e)
    (hend : ∀ o ∈ (E.exprs i).ops.all, o.kind ≠ .prefix → ¬ o.Hits (E.exprs i).fold (E.inp.drop e))
    (hmax : size t ≤ (E.exprs i).maxNest) :
    ∃ r, Exec E cx (.run (.expr i)) st r ∧ r.out = .ok ∧ r.st.ex.val = some t ∧ r.st.pos = e
      ∧ ∀ ev ∈ r.evs, ev.isError = false := by
  have main : ∀ pre, pre ++ c ∈ chains (E.exprs i).ops →
      (∀ ro, Root (E.exprs i) ro → ∃ h : pre.length < (pre ++ c).length, (pre ++ c)[pre.length] = ro) →
      ∃ r, Exec E cx (.run (.expr i)) st r ∧ r.out = .ok ∧ r.st.ex.val = some t ∧ r.st.pos = e
        ∧ ∀ ev ∈ r.evs, ev.isError = false := by
    intro pre h1 h2
    have hc := chain_ok ok h1
    obtain ⟨a1, a2, a3⟩ := nested_of ok hc ht pre.length (by simp)
    obtain ⟨p, hp⟩ := flat_path hflat hids h1
    refine C48_complete_partial (p := p) ok a2 a3 (fun ro hro o ho hid => ?_) (fun id hid => ?_) hs hend hmax
    · obtain ⟨h3, h4⟩ := h2 ro hro
      obtain ⟨j, hj, h5, h6⟩ := a1 _ (leftEnd_ops _ _ hid)
      have h7 : (pre ++ c)[j] = o := ok.ids _ (hc.mem _ (List.getElem_mem hj)) _ ho h6
      rcases Nat.lt_or_ge pre.length j with h8 | h8
      · refine .inl ?_
        rw [← h4, ← h7, hc.lvl _ h3, hc.lvl j hj]
        omega
      · refine .inr ?_
        have : j = pre.length := by omega
        subst this
        rw [← h4, ← h7]
    · obtain ⟨j, hj, -, h6⟩ := a1 _ hid
      rw [← h6]
      exact hp _ (List.getElem_mem hj)
  cases hx with
  | whole hr =>
    refine main [] hcx fun ro hro => ?_
    obtain ⟨h1, h2 | ⟨-, y, h2⟩⟩ := hro
    · rw [hr] at h2; cases h2
    · rw [h2] at hcx
      simp only [chains, List.mem_map] at hcx
      obtain ⟨c', -, rfl⟩ := hcx
      exact ⟨by simp, rfl⟩
  | sub hr hb =>
    obtain ⟨pre, h1⟩ := below_chain hb hcx
    refine main pre h1 fun ro hro => ?_
    obtain ⟨-, h2 | ⟨h2, -⟩⟩ := hro
    · rw [hr] at h2; cases h2
      simp only [chains, List.mem_map] at hcx
      obtain ⟨c', -, rfl⟩ := hcx
      exact ⟨by simp, by simp⟩
    · rw [hr] at h2; cases h2

end

end Verif
