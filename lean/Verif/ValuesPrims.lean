import Verif.ValuesParseProps
import Verif.TokensId
import Verif.DelimRule

/-
The rules without parts that produce values: integers, identifiers, symbols, delimited content.

Source: /repo/include/lexy/dsl/integer.hpp, identifier.hpp, symbol.hpp, delimited.hpp
-/

namespace Verif.Val

open Spec

theorem PVals.le {evs : List Ev} {hi : Nat} {vs : List PVal} : ∀ {lo}, PVals evs hi lo vs → lo ≤ hi := by
  induction vs with
  | nil => exact fun h => h
  | cons v vs ih =>
    intro lo h
    cases v with
    | num i => exact ih (lo := lo) h
    | made t i => exact ih (lo := lo) h
    | lexeme b e =>
      obtain ⟨h1, h2, -, h3⟩ := h
      exact Nat.le_trans h1 (Nat.le_trans h2 (ih h3))

theorem PVals.weaken {evs evs' : List Ev} {hi hi' : Nat} {vs : List PVal} (he : ∀ ev ∈ evs, ev ∈ evs') (hh : hi ≤ hi') :
    ∀ {lo lo'}, lo' ≤ lo → PVals evs hi lo vs → PVals evs' hi' lo' vs := by
  induction vs with
  | nil => exact fun hl h => Nat.le_trans hl (Nat.le_trans h hh)
  | cons v vs ih =>
    intro lo lo' hl h
    cases v with
    | num i => exact ih hl h
    | made t i => exact ih hl h
    | lexeme b e =>
      obtain ⟨h1, h2, ⟨k, h3⟩, h4⟩ := h
      exact ⟨Nat.le_trans hl h1, h2, ⟨k, he _ h3⟩, ih (Nat.le_refl _) h4⟩

theorem PVals.append {evs : List Ev} {mid hi : Nat} {a b : List PVal} :
    ∀ {lo}, PVals evs mid lo a → PVals evs hi mid b → PVals evs hi lo (a ++ b) := by
  induction a with
  | nil => exact fun h1 h2 => h2.weaken (fun _ h => h) (Nat.le_refl _) h1
  | cons v vs ih =>
    intro lo h1 h2
    cases v with
    | num i => exact ih (lo := lo) h1 h2
    | made t i => exact ih (lo := lo) h1 h2
    | lexeme b e =>
      obtain ⟨h3, h4, h5, h6⟩ := h1
      exact ⟨h3, h4, h5, ih h6 h2⟩

/-! ## Integers -/

/-- The value of an integer: what `IntParser::parse` makes of its digits, integer.hpp l.396-409; those from where the rule
    begins to where it stopped. -/
def intVal (conv : List Int → Option (Nat × Bool)) (inp : List Nat) (b e : Nat) : Int :=
  match conv (((inp.take e).drop b).map Int.ofNat) with
  | some (v, _) => v
  | none => 0

/-- `dsl::integer`, integer.hpp l.388-487. -/
def intPrim (kind dkind : Kind) (tag otag : Nat) (tok : List Nat → TokRes) (b : Base)
    (conv : List Int → Option (Nat × Bool)) : VPrim where
  rule := intRule kind dkind tag otag tok b conv
  sink := false
  vals := fun inp p => [[.num (intVal conv inp p (intParse kind dkind tag otag tok b conv inp p).2.1)]]
  ok := fun s p _ _ => (intParse_errs s p).1
  ok' := fun s p _ _ => (intParse_errs s p).1

/-! ## Identifiers and symbols -/

theorem idParseR_ok {L T : CC} {tag : Nat} {s : List Nat} {p : Nat} (h : (idParseR L T tag s p).1 = true) :
    PVals (idParseR L T tag s p).2.2 (idParseR L T tag s p).2.1 p [.lexeme p (p + (idLen L T (s.drop p)).getD 0)] := by
  unfold idParseR at h ⊢
  cases hn : idLen L T (s.drop p) with
  | none => rw [hn] at h; cases h
  | some n => exact ⟨Nat.le_refl _, Nat.le_add_right _ _, ⟨.identifier, List.mem_singleton.2 rfl⟩, Nat.le_refl _⟩

/-- `dsl::identifier`, identifier.hpp l.141-207: "a lexeme that is the range of code units". -/
def idPrim (L T : CC) (tag : Nat) : VPrim where
  rule := idRule L T tag
  sink := false
  vals := fun inp p => [[.lexeme p (p + (idLen L T (inp.drop p)).getD 0)]]
  ok := fun _ _ _ h => idParseR_ok h
  ok' := fun _ _ _ h => idParseR_ok h

/-- `dsl::identifier` in `context_identifier`, context_identifier.hpp l.45-64. -/
def idVId (L T : CC) (tag : Nat) : VId where
  rule := idRule L T tag
  len := fun s => (idLen L T s).getD 0
  ok := fun _ _ _ h => idParseR_ok h
  ok' := fun _ _ _ h => idParseR_ok h

/-- `symbol<Table>`, symbol.hpp l.450-514: the value is that of the symbol with the index, here the index. -/
def symPrim (t : SymTable) (eof : Option Nat) (tag : Nat) : VPrim where
  rule := symRule t eof tag
  sink := false
  vals := fun inp p => match symTry t eof (inp.drop p) with
    | some (some (i, _)) => [[.num i]]
    | _ => [[]]
  ok := fun s p h _ => by
    have := (symParse_tr (t := t) (eof := eof) (tag := tag) s p h).bounds h
    split <;> exact this.1
  ok' := fun s p h _ => by
    have := (symParse_tr (t := t) (eof := eof) (tag := tag) s p h).bounds h
    split <;> exact this.1

/-- `symbol<Table>(identifier)`, symbol.hpp l.359-445. -/
def symIdPrim (t : SymTable) (eof : Option Nat) (kind : Kind) (L T : CC) (itag tag : Nat) : VPrim where
  rule := symIdRule t eof kind L T itag tag
  sink := false
  vals := fun inp p => match symIdTry t eof (T.tryParse .utf8) (inp.drop p) with
    | some (some (i, _)) => [[.num i]]
    | _ => [[]]
  ok := fun s p h _ => by
    have := (symIdParseR_tr (t := t) (eof := eof) (kind := kind) (L := L) (T := T) (itag := itag) (tag := tag) s p h).bounds h
    split <;> exact this.1
  ok' := fun s p h _ => by
    have := (symIdParseR_tr (t := t) (eof := eof) (kind := kind) (L := L) (T := T) (itag := itag) (tag := tag) s p h).bounds h
    split <;> exact this.1

/-! ## Delimited content -/

/-- A branch of an escape sequence with its values; `finish<sink_parser>`, delimited.hpp l.403-407. -/
structure EscV where
  br : EscBr
  vals : List Nat → Nat → List PVal
  ok : ∀ s p r, p ≤ s.length → br.run s p = some r → r.1 = true → PVals r.2.2 r.2.1 p (vals s p)

/-- `_del` with the values of its escape sequences. -/
structure DelimV where
  del : DelimR
  esc : List (PTok × List EscV)

def DelimV.rule (d : DelimV) : DelimR := { d.del with escapes := d.esc.map fun x => (x.1, x.2.map EscV.br) }

/-- `_del_chars::finish`, delimited.hpp l.169-177. -/
def delLex (b e : Nat) : List (List PVal) := if b = e then [] else [[.lexeme b e]]

/-- The branches of an escape, delimited.hpp l.394-412: the sink is called with the values of the branch that is taken, if
    it succeeds and there are any. -/
def escBranchVals : List EscV → List Nat → Nat → List (List PVal)
  | [], _, _ => []
  | b :: bs, inp, p =>
    match b.br.run inp p with
    | some r => if r.1 && !(b.vals inp p).isEmpty then [b.vals inp p] else []
    | none => escBranchVals bs inp p

/-- The fold over the escapes, delimited.hpp l.239-241. -/
def escTryVals : List (PTok × List EscV) → List Nat → Nat → List (List PVal)
  | [], _, _ => []
  | (t, bs) :: xs, inp, p =>
    let r := t.run (inp.drop p)
    if r.1 then escBranchVals bs inp (p + r.2) else escTryVals xs inp p

/-- The calls of the sink in `_del::_loop`, delimited.hpp l.209-250; as `DelimR.loop`. -/
def DelimV.calls (d : DelimV) (inp : List Nat) (b p : Nat) : List (List PVal) :=
  let s := inp.drop p
  if (d.del.close.run s).1 then delLex b p
  else if d.rule.atLimit s then delLex b p
  else match escTry d.rule.kind d.rule.escTag d.rule.escapes inp b p with
    | some (q, _) =>
      if _h : p < q ∧ q ≤ inp.length then delLex b p ++ (escTryVals d.esc inp p ++ d.calls inp q q) else []
    | none =>
      let n := (d.del.char s).2
      if _h : 0 < n ∧ p + n ≤ inp.length then
        if (d.del.char s).1 then d.calls inp b (p + n)
        else delLex b p ++ d.calls inp (p + n) (p + n)
      else []
termination_by inp.length - p
decreasing_by all_goals grind

theorem delLex_ok {kind : Kind} {b e : Nat} (h : b ≤ e) : PVals (delContent kind b e) e b (delLex b e).flatten := by
  unfold delContent delLex
  split
  · exact h
  · exact ⟨Nat.le_refl _, h, ⟨kind, List.mem_singleton.2 rfl⟩, Nat.le_refl _⟩

theorem escBranches_ok {bs : List EscV} {s : List Nat} {p : Nat} (hp : p ≤ s.length) :
    PVals (escBranches (bs.map EscV.br) s p).2.2 (escBranches (bs.map EscV.br) s p).2.1 p (escBranchVals bs s p).flatten := by
  induction bs with
  | nil => exact Nat.le_refl _
  | cons b bs ih =>
    simp only [List.map_cons, escBranches, escBranchVals]
    cases hr : b.br.run s p with
    | none => exact ih.weaken (fun ev h => List.mem_append_right _ h) (Nat.le_refl _) (Nat.le_refl _)
    | some r =>
      simp only
      split
      · rename_i h
        simp only [Bool.and_eq_true] at h
        simpa using b.ok s p r hp hr h.1
      · exact (b.br.errs s p r hr).1

theorem escTry_ok {kind : Kind} {escTag : Nat} {xs : List (PTok × List EscV)} {s : List Nat} {b p : Nat} {r : Nat × List Ev}
    (hb : b ≤ p) (hp : p ≤ s.length)
    (h : escTry kind escTag (xs.map fun x => (x.1, x.2.map EscV.br)) s b p = some r) :
    PVals r.2 r.1 b (delLex b p ++ escTryVals xs s p).flatten := by
  induction xs with
  | nil => cases h
  | cons x xs ih =>
    obtain ⟨t, bs⟩ := x
    simp only [List.map_cons, escTry] at h
    simp only [escTryVals]
    split at h
    · rename_i h1
      cases h
      rw [if_pos h1]
      have hl := t.le (s.drop p)
      rw [List.length_drop] at hl
      simp only [escParse, List.flatten_append]
      refine PVals.append (mid := p) ((delLex_ok hb).weaken (fun ev h => List.mem_append_left _ h) (Nat.le_refl _) (Nat.le_refl _)) ?_
      refine (escBranches_ok (bs := bs) (p := p + (t.run (s.drop p)).2) (by omega)).weaken (fun ev h => ?_) (Nat.le_refl _)
        (Nat.le_add_right _ _)
      exact List.mem_append_right _ (List.mem_cons_of_mem _ (List.mem_append_left _ h))
    · rename_i h1
      rw [if_neg h1]
      exact ih h

/-- The lexemes the sink is called with are tokens that were reported, in order. -/
theorem DelimV.calls_ok (d : DelimV) (inp : List Nat) (start b p : Nat) (hb : b ≤ p) (hp : p ≤ inp.length)
    (h : (d.rule.loop inp start b p).1 = true) :
    PVals (d.rule.loop inp start b p).2.2 (d.rule.loop inp start b p).2.1 b (d.calls inp b p).flatten := by
  rw [DelimR.loop] at h ⊢
  rw [DelimV.calls]
  simp only at h ⊢
  have e1 : d.rule.close = d.del.close := rfl
  have e2 : d.rule.char = d.del.char := rfl
  rw [e1, e2] at h ⊢
  split
  · rename_i h1
    have := d.del.close.le (inp.drop p)
    exact (delLex_ok hb).weaken (fun ev h => List.mem_append_left _ h) (Nat.le_add_right _ _) (Nat.le_refl _)
  · rename_i h1
    rw [if_neg h1] at h
    split
    · rename_i h2
      rw [if_pos h2] at h
      cases h
    · rename_i h2
      rw [if_neg h2] at h
      cases he : escTry d.rule.kind d.rule.escTag d.rule.escapes inp b p with
      | some r =>
        obtain ⟨q, evs⟩ := r
        simp only [he] at h ⊢
        split
        · rename_i h3
          rw [dif_pos h3] at h
          have ih := d.calls_ok inp start q q (Nat.le_refl _) h3.2 h
          have h4 := escTry_ok hb hp he
          rw [← List.append_assoc, List.flatten_append]
          exact PVals.append (h4.weaken (fun ev h => List.mem_append_left _ h) (Nat.le_refl _) (Nat.le_refl _))
            (ih.weaken (fun ev h => List.mem_append_right _ h) (Nat.le_refl _) (Nat.le_refl _))
        · rename_i h3
          rw [dif_neg h3] at h
          cases h
      | none =>
        simp only [he] at h ⊢
        split
        · rename_i h3
          rw [dif_pos h3] at h
          split
          · rename_i h4
            rw [if_pos h4] at h
            exact d.calls_ok inp start b _ (by omega) h3.2 h
          · rename_i h4
            rw [if_neg h4] at h
            have ih := d.calls_ok inp start (p + (d.del.char (inp.drop p)).2) _ (Nat.le_refl _) h3.2 h
            rw [List.flatten_append]
            refine PVals.append ((delLex_ok hb).weaken (fun ev h => List.mem_append_left _ h) (Nat.le_refl _) (Nat.le_refl _)) ?_
            refine ih.weaken (fun ev h => ?_) (Nat.le_refl _) (Nat.le_add_right _ _)
            exact List.mem_append_right _ (List.mem_cons_of_mem _ (List.mem_cons_of_mem _ (List.mem_cons_of_mem _
              (List.mem_cons_of_mem _ h))))
        · rename_i h3
          rw [dif_neg h3] at h
          cases h
termination_by inp.length - p
decreasing_by all_goals omega

/-- `_del`, delimited.hpp l.252-280: the value is that of the sink. -/
def DelimV.prim (d : DelimV) : VPrim where
  rule := d.rule.rule
  sink := true
  vals := fun inp p => d.calls inp p p
  ok := fun s p hp h => d.calls_ok s p p p (Nat.le_refl _) hp h
  ok' := fun s p hp h => d.calls_ok s p p p (Nat.le_refl _) hp h

/-- `.symbol<Table>()` in an escape sequence, delimited.hpp l.430-445. -/
def EscV.ofSym (t : SymTable) (eof : Option Nat) (tag : Nat) : EscV where
  br := .ofRule (symRule t eof tag) (fun inp p => (symLen t eof (inp.drop p)).isSome) rfl
  vals := fun inp p => ((symPrim t eof tag).vals inp p).flatten
  ok := fun s p r hp h hr => by
    have h' : (if (symLen t eof (s.drop p)).isSome = true then some (symParse t eof tag s p) else none) = some r := h
    split at h'
    · cases h'
      exact (symPrim t eof tag).ok s p hp hr
    · cases h'

/-! ## They do not report productions -/

section
variable (V : VEnv)

theorem overflowEv_quiet {conv : List Int → Option (Nat × Bool)} {tag b e : Nat} {us : List Nat} :
    finished (overflowEv conv tag b e us) = [] := by
  unfold overflowEv
  split <;> rfl

theorem quiet_int {kind dkind : Kind} {tag otag : Nat} {tok : List Nat → TokRes} {b : Base}
    {conv : List Int → Option (Nat × Bool)} : QuietRule V (.prim (intRule kind dkind tag otag tok b conv)) := by
  have h : ∀ s p, finished (intParse kind dkind tag otag tok b conv s p).2.2 = [] := by
    intro s p
    unfold intParse
    simp only
    split
    · exact overflowEv_quiet
    · split
      · rfl
      · exact overflowEv_quiet
  exact quiet_prim V h h

theorem quiet_id {L T : CC} {tag : Nat} : QuietRule V (.prim (idRule L T tag)) := by
  have h : ∀ s p, finished (idParseR L T tag s p).2.2 = [] := by
    intro s p
    unfold idParseR
    split <;> rfl
  exact quiet_prim V h h

theorem quiet_sym {t : SymTable} {eof : Option Nat} {tag : Nat} : QuietRule V (.prim (symRule t eof tag)) := by
  have h : ∀ s p, finished (symParse t eof tag s p).2.2 = [] := by
    intro s p
    unfold symParse
    split <;> rfl
  exact quiet_prim V h h

theorem quiet_symId {t : SymTable} {eof : Option Nat} {kind : Kind} {L T : CC} {itag tag : Nat} :
    QuietRule V (.prim (symIdRule t eof kind L T itag tag)) := by
  have h : ∀ s p, finished (symIdParseR t eof kind L T itag tag s p).2.2 = [] := by
    intro s p
    unfold symIdParseR
    split
    · rfl
    · split <;> rfl
  exact quiet_prim V h h

end

end Verif.Val
