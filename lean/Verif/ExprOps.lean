import Verif.ExprKeep
import Verif.LitTrieProps

/-
The operators of an expression: which one is parsed, and which ones are considered for a minimal
binding power.
-/

namespace Verif

/-- A literal of the operator matches at the beginning of `s`. -/
def OpDef.Hits (o : OpDef) (fold : Nat → Nat) (s : List Nat) : Prop := ∃ l ∈ o.lits, l.1.Matches (s.map fold)

/-- The literals are matched by their spelling only: folding is idempotent, none contains the EOF
    character, and literals of the same spelling are of the same kind. -/
structure LitsOk (eof : Option Nat) (fold : Nat → Nat) (ops : List OpDef) : Prop where
  fold : ∀ u, fold (fold u) = fold u
  eof : ∀ o ∈ ops, ∀ l ∈ o.lits, ∀ c ∈ l.1.str, eof ≠ some c
  same : ∀ o ∈ ops, ∀ l ∈ o.lits, ∀ o' ∈ ops, ∀ l' ∈ o'.lits, l.1.str = l'.1.str → l.1.kw = l'.1.kw

theorem LitsOk.sub {eof : Option Nat} {fold : Nat → Nat} {a b : List OpDef} (h : LitsOk eof fold a)
    (hs : ∀ o ∈ b, o ∈ a) : LitsOk eof fold b :=
  ⟨h.fold, fun o ho => h.eof o (hs o ho), fun o ho l hl o' ho' => h.same o (hs o ho) l hl o' (hs o' ho')⟩

theorem buildOps_eq (ls : List Lit) : buildOps ls = buildLits ls.zipIdx := by
  have : ∀ (ls : List Lit) (t : Trie) (v c : Nat),
      (ls.foldl (fun (st : Trie × Nat × Nat) l =>
        (st.1.insertLit l st.2.2 st.2.1, st.2.1 + 1, st.2.2 + (if l.kw.isSome then 1 else 0))) (t, v, c)).1
      = ((ls.zipIdx v).foldl (fun (st : Trie × Nat) p =>
        (st.1.insertLit p.1 st.2 p.2, st.2 + (if p.1.kw.isSome then 1 else 0))) (t, c)).1 := by
    intro ls
    induction ls with
    | nil => intros; rfl
    | cons l ls ih => intro t v c; simp only [List.foldl_cons, List.zipIdx_cons]; exact ih _ _ _
  exact this ls _ _ _

theorem flatLits_mem {ops : List OpDef} {o : OpDef} {l : Lit × Kind × Rule} :
    (o, l) ∈ flatLits ops ↔ o ∈ ops ∧ l ∈ o.lits := by
  simp only [flatLits, List.mem_flatMap, List.mem_map, Prod.mk.injEq]
  constructor
  · rintro ⟨o', h1, l', h2, rfl, rfl⟩; exact ⟨h1, h2⟩
  · rintro ⟨h1, h2⟩; exact ⟨o, h1, l, h2, rfl, rfl⟩

/-- The operator with the longest literal that matches is parsed; none exactly if none matches. -/
theorem parseOperator_spec {eof : Option Nat} {fold : Nat → Nat} {ops : List OpDef} (hok : LitsOk eof fold ops)
    (s : List Nat) : ∃ r, parseOperator eof fold ops s = some r
      ∧ (r = none ↔ ∀ o ∈ ops, ¬ o.Hits fold s)
      ∧ ∀ o k ru n, r = some ((o, k, ru), n) → o ∈ ops ∧ (∃ l, (l, k, ru) ∈ o.lits ∧ l.Matches (s.map fold)
          ∧ l.str.length = n) ∧ ∀ o' ∈ ops, ∀ l' ∈ o'.lits, l'.1.Matches (s.map fold) → l'.1.str.length ≤ n := by
  have hm : ((flatLits ops).map (·.2.1)).zipIdx.map (·.1) = (flatLits ops).map (·.2.1) := by
    rw [List.zipIdx_map_fst]
  have hmem : ∀ l, l ∈ (flatLits ops).map (·.2.1) ↔ ∃ o ∈ ops, ∃ k ru, (l, k, ru) ∈ o.lits := by
    intro l
    constructor
    · intro h
      obtain ⟨⟨o, l', k, ru⟩, h1, rfl⟩ := List.mem_map.1 h
      have := flatLits_mem.1 h1
      exact ⟨o, this.1, k, ru, this.2⟩
    · rintro ⟨o, h1, k, ru, h2⟩
      exact List.mem_map.2 ⟨(o, l, k, ru), flatLits_mem.2 ⟨h1, h2⟩, rfl⟩
  obtain ⟨r, h1, h2, h3⟩ := litTrie_spec ((flatLits ops).map (·.2.1)).zipIdx
    (by
      rw [hm]
      intro l hl l' hl'
      obtain ⟨o, ho, k, ru, h⟩ := (hmem l).1 hl
      obtain ⟨o', ho', k', ru', h'⟩ := (hmem l').1 hl'
      exact hok.same o ho _ h o' ho' _ h') eof fold hok.fold
    (by
      intro l hl
      have : l.1 ∈ (flatLits ops).map (·.2.1) := by rw [← hm]; exact List.mem_map.2 ⟨l, hl, rfl⟩
      obtain ⟨o, ho, k, ru, h⟩ := (hmem _).1 this
      exact hok.eof o ho _ h) s
  rw [hm, ← buildOps_eq] at h1
  rw [hm] at h2 h3
  unfold parseOperator
  simp only [h1]
  cases r with
  | none =>
    refine ⟨none, rfl, ⟨fun _ o ho hh => ?_, fun _ => rfl⟩, nofun⟩
    obtain ⟨⟨l, k, ru⟩, hl, hmt⟩ := hh
    exact h3.1 rfl l ((hmem l).2 ⟨o, ho, k, ru, hl⟩) hmt
  | some x =>
    obtain ⟨v, n⟩ := x
    obtain ⟨⟨l, hl, hmt, hn, hv⟩, hmax⟩ := (h2 v n).1 rfl
    obtain ⟨i, l', e1, e2, e3⟩ := hv
    rw [List.getElem?_zipIdx] at e1
    simp only [Nat.zero_add, Option.map_eq_some_iff, Prod.mk.injEq, List.getElem?_map] at e1
    obtain ⟨l'', ⟨⟨o, l3, k, ru⟩, e4, e5⟩, rfl, rfl⟩ := e1
    simp only at e5
    subst e5
    simp only [e4]
    have hle : n ≤ s.length := by
      have := hmt.1.length_le
      simp only [List.length_map] at this
      omega
    rw [if_pos hle]
    have hof := flatLits_mem.1 (List.mem_of_getElem? e4)
    have hmt' : l3.Matches (s.map fold) := by
      obtain ⟨o2, ho2, k2, ru2, h5⟩ := (hmem l).1 hl
      have hkw := hok.same o hof.1 _ hof.2 o2 ho2 _ h5 e2
      refine ⟨e2 ▸ hmt.1, fun f hf => ?_⟩
      rw [e2]
      exact hmt.2 f (hkw ▸ hf)
    refine ⟨_, rfl, ⟨nofun, fun h => (h o hof.1 ⟨_, hof.2, hmt'⟩).elim⟩, ?_⟩
    intro o' k' ru' n' heq
    simp only [Option.some.injEq, Prod.mk.injEq] at heq
    obtain ⟨⟨rfl, rfl, rfl⟩, rfl⟩ := heq
    refine ⟨hof.1, ⟨l3, hof.2, hmt', by rw [e2]; exact hn⟩, fun o' ho' l' hl' hm' => ?_⟩
    obtain ⟨l', k', ru'⟩ := l'
    exact hmax l' ((hmem _).2 ⟨o', ho', k', ru', hl'⟩) hm'

theorem parseOperator_none {eof : Option Nat} {fold : Nat → Nat} {ops : List OpDef} (hok : LitsOk eof fold ops)
    {s : List Nat} (h : parseOperator eof fold ops s = some none) : ∀ o ∈ ops, ¬ o.Hits fold s := by
  obtain ⟨r, h1, h2, _⟩ := parseOperator_spec hok s
  rw [h1] at h
  exact h2.1 (Option.some.inj h)

theorem parseOperator_some {eof : Option Nat} {fold : Nat → Nat} {ops : List OpDef} (hok : LitsOk eof fold ops)
    {s : List Nat} {o : OpDef} {k : Kind} {ru : Rule} {n : Nat}
    (h : parseOperator eof fold ops s = some (some ((o, k, ru), n))) :
    o ∈ ops ∧ ∃ l, (l, k, ru) ∈ o.lits ∧ l.Matches (s.map fold) ∧ l.str.length = n := by
  obtain ⟨r, h1, _, h3⟩ := parseOperator_spec hok s
  rw [h1] at h
  obtain ⟨h4, h5, _⟩ := h3 o k ru n (Option.some.inj h)
  exact ⟨h4, h5⟩

/-- If there is only one operator that could match, it is parsed. -/
theorem parseOperator_only {eof : Option Nat} {fold : Nat → Nat} {ops : List OpDef} (hok : LitsOk eof fold ops)
    {s : List Nat} {o : OpDef} {l : Lit} {k : Kind} {ru : Rule} (ho : o ∈ ops) (hl : (l, k, ru) ∈ o.lits)
    (hm : l.Matches (s.map fold))
    (hu : ∀ o' ∈ ops, ∀ l' ∈ o'.lits, l'.1.Matches (s.map fold) → o' = o ∧ l' = (l, k, ru)) :
    parseOperator eof fold ops s = some (some ((o, k, ru), l.str.length)) := by
  obtain ⟨r, h1, h2, h3⟩ := parseOperator_spec hok s
  cases r with
  | none => exact (h2.1 rfl o ho ⟨_, hl, hm⟩).elim
  | some x =>
    obtain ⟨⟨o', k', ru'⟩, n⟩ := x
    obtain ⟨h4, ⟨l', h5, h6, h7⟩, _⟩ := h3 o' k' ru' n rfl
    obtain ⟨rfl, h8⟩ := hu o' h4 _ h5 h6
    simp only [Prod.mk.injEq] at h8
    obtain ⟨rfl, rfl, rfl⟩ := h8
    rw [h1, h7]

theorem parseOperator_nil {eof : Option Nat} {fold : Nat → Nat} (hf : ∀ u, fold (fold u) = fold u) (s : List Nat) :
    parseOperator eof fold [] s = some none := by
  obtain ⟨r, h1, h2, _⟩ := parseOperator_spec (ops := []) (eof := eof) (fold := fold) ⟨hf, nofun, nofun⟩ s
  rw [h1, h2.2 nofun]

namespace Spec

/-- The levels of the operations: the operation of the expression has level 1, its operands level 2,
    and so on. -/
def Leveled (lvl : OpDef → Nat) : Nat → OpTree → Prop
  | _, .atom => True
  | n, .op o operand => lvl o = n ∧ Leveled lvl (n + 1) operand
  | n, .groups gs => LeveledAll lvl n gs
where
  LeveledAll (lvl : OpDef → Nat) : Nat → List OpTree → Prop
    | _, [] => True
    | n, g :: gs => Leveled lvl n g ∧ LeveledAll lvl n gs

end Spec

/-- `lhs` or, for prefix operators, `rhs`. -/
def BP.left (b : BP) : Nat := if b.lhs = 0 then b.rhs else b.lhs

mutual
theorem opList_mem {lvl : OpDef → Nat} {pre : Bool} {min : Nat} {o : OpDef} : ∀ (n : Nat) (t : OpTree),
    Spec.Leveled lvl n t →
    (o ∈ t.opList pre min n ↔ o ∈ t.all ∧ (o.kind = .prefix ↔ pre = true)
      ∧ min ≤ if o.kind = .prefix then (o.kind.bp 0 (lvl o)).rhs else (o.kind.bp 0 (lvl o)).lhs)
  | n, .atom, _ => by simp [OpTree.opList, OpTree.all]
  | n, .op p operand, h => by
    simp only [Spec.Leveled] at h
    have ih := opList_mem (pre := pre) (min := min) (o := o) (n + 1) operand h.2
    simp only [OpTree.opList, OpTree.all, List.mem_cons]
    have hc : ((p.kind == .prefix) = pre ∧ (((p.kind == .prefix) = true ∧ (p.kind.bp 0 n).rhs ≥ min)
        ∨ ((!(p.kind == .prefix)) = true ∧ (p.kind.bp 0 n).lhs ≥ min)))
        ↔ ((p.kind = .prefix ↔ pre = true)
          ∧ min ≤ if p.kind = .prefix then (p.kind.bp 0 (lvl p)).rhs else (p.kind.bp 0 (lvl p)).lhs) := by
      rw [h.1]
      cases pre <;> cases hk : p.kind <;> simp [OpKind.bp]
    split
    · rename_i h1
      rw [hc] at h1
      rw [List.mem_append, ih, List.mem_singleton]
      constructor
      · rintro (⟨a, b⟩ | rfl)
        · exact ⟨.inr a, b⟩
        · exact ⟨.inl rfl, h1⟩
      · rintro ⟨rfl | a, b⟩
        · exact .inr rfl
        · exact .inl ⟨a, b⟩
    · rename_i h1
      rw [hc] at h1
      rw [ih]
      constructor
      · rintro ⟨a, b⟩; exact ⟨.inr a, b⟩
      · rintro ⟨rfl | a, b⟩
        · exact (h1 b).elim
        · exact ⟨a, b⟩
  | n, .groups gs, h => by
    simp only [OpTree.opList, OpTree.all]
    exact opListGroups_mem n gs h
theorem opListGroups_mem {lvl : OpDef → Nat} {pre : Bool} {min : Nat} {o : OpDef} : ∀ (n : Nat) (gs : List OpTree),
    Spec.Leveled.LeveledAll lvl n gs →
    (o ∈ OpTree.opListGroups pre min n gs ↔ o ∈ OpTree.allGroups gs ∧ (o.kind = .prefix ↔ pre = true)
      ∧ min ≤ if o.kind = .prefix then (o.kind.bp 0 (lvl o)).rhs else (o.kind.bp 0 (lvl o)).lhs)
  | n, [], _ => by simp [OpTree.opListGroups, OpTree.allGroups]
  | n, g :: gs, h => by
    have ih1 := opList_mem (pre := pre) (min := min) (o := o) n g h.1
    have ih2 := opListGroups_mem (pre := pre) (min := min) (o := o) n gs h.2
    simp only [OpTree.opListGroups, OpTree.allGroups, List.mem_append, ih1, ih2]
    constructor
    · rintro (⟨a, b⟩ | ⟨a, b⟩)
      · exact ⟨.inl a, b⟩
      · exact ⟨.inr a, b⟩
    · rintro ⟨a | a, b⟩
      · exact .inl ⟨a, b⟩
      · exact .inr ⟨a, b⟩
end

theorem OpKind.bp_valid (k : OpKind) (g n : Nat) : (k.bp g (n + 1)).isValid = true := by
  cases k <;> simp [OpKind.bp, BP.isValid]

mutual
/-- The binding power that is looked up is the one of the level; if the operation is not there, there is none. -/
theorem bpOf_spec {lvl : OpDef → Nat} {o : OpDef} : ∀ (n g : Nat) (t : OpTree), Spec.Leveled lvl (n + 1) t →
    (∀ p ∈ t.all, p.id = o.id → p = o) →
    (o ∈ t.all → ∃ g', t.bpOf o.id g n = o.kind.bp g' (lvl o) ∧ 1 ≤ lvl o)
    ∧ (o ∉ t.all → ((t.bpOf o.id g n).lhs = 0 ∧ (t.bpOf o.id g n).rhs = 0))
  | n, g, .atom, _, _ => by simp [OpTree.all, OpTree.bpOf]
  | n, g, .op p operand, h, hu => by
    simp only [Spec.Leveled] at h
    have ih := bpOf_spec (o := o) (n + 1) g operand h.2 fun q hq => hu q (by simp [OpTree.all, hq])
    simp only [OpTree.bpOf, OpTree.all, List.mem_cons]
    by_cases hp : p.id = o.id
    · have := hu p (by simp [OpTree.all]) hp
      subst this
      rw [if_pos rfl]
      exact ⟨fun _ => ⟨g, by rw [h.1], by omega⟩, fun hn => (hn (.inl rfl)).elim⟩
    · rw [if_neg hp]
      refine ⟨fun ho => ih.1 (ho.resolve_left fun he => hp (he ▸ rfl)), fun ho => ih.2 fun h => ho (.inr h)⟩
  | n, g, .groups gs, h, hu => by
    simp only [OpTree.bpOf, OpTree.all]
    exact bpOfGroups_spec n g gs h fun q hq => hu q (by simp [OpTree.all, hq])
theorem bpOfGroups_spec {lvl : OpDef → Nat} {o : OpDef} : ∀ (n g : Nat) (gs : List OpTree),
    Spec.Leveled.LeveledAll lvl (n + 1) gs → (∀ p ∈ OpTree.allGroups gs, p.id = o.id → p = o) →
    (o ∈ OpTree.allGroups gs → ∃ g', OpTree.bpOfGroups o.id g n gs = o.kind.bp g' (lvl o) ∧ 1 ≤ lvl o)
    ∧ (o ∉ OpTree.allGroups gs → ((OpTree.bpOfGroups o.id g n gs).lhs = 0 ∧ (OpTree.bpOfGroups o.id g n gs).rhs = 0))
  | n, g, [], _, _ => by simp [OpTree.allGroups, OpTree.bpOfGroups]
  | n, g, t :: gs, h, hu => by
    have ih1 := bpOf_spec (o := o) n (g + 1) t h.1 fun q hq => hu q (by simp [OpTree.allGroups, hq])
    have ih2 := bpOfGroups_spec (o := o) n (t.bpOf o.id (g + 1) n).group gs h.2
      fun q hq => hu q (by simp [OpTree.allGroups, hq])
    simp only [OpTree.bpOfGroups, OpTree.allGroups, List.mem_append]
    by_cases ho : o ∈ t.all
    · obtain ⟨g', h1, h2⟩ := ih1.1 ho
      rw [h1]
      obtain ⟨m, hm⟩ : ∃ m, lvl o = m + 1 := ⟨lvl o - 1, by omega⟩
      rw [if_pos (by rw [hm]; exact OpKind.bp_valid _ _ _)]
      exact ⟨fun _ => ⟨g', rfl, h2⟩, fun hn => (hn (.inl ho)).elim⟩
    · obtain ⟨h1, h2⟩ := ih1.2 ho
      have hv : (t.bpOf o.id (g + 1) n).isValid = false := by simp [BP.isValid, h1, h2]
      rw [if_neg (by rw [hv]; simp)]
      exact ⟨fun h => ih2.1 (h.resolve_left ho), fun h => ih2.2 fun h' => h (.inr h')⟩
end

end Verif
