import Verif.Grammar
import Verif.LiteralProps

/-
Tries built from literals with arbitrary values: operators (operator.hpp), lookahead and find (lookahead.hpp,
recover.hpp).

Source: /repo/include/lexy/dsl/lookahead.hpp, operator.hpp, literal.hpp
-/

namespace Verif

/-- Insertion of literals with values one after the other, `char_class` counts the classes of the literals before:
    the common part of `_build_look_trie` (lookahead.hpp l.25-42), `_build_trie` of operators (operator.hpp l.44-56)
    and of literal sets (literal.hpp l.517-533). -/
def buildLits (ls : List (Lit × Nat)) : Trie :=
  (ls.foldl (fun (st : Trie × Nat) p =>
    (st.1.insertLit p.1 st.2 p.2, st.2 + (if p.1.kw.isSome then 1 else 0))) (Trie.empty, 0)).1

/-- The literals of `_look_trie`, lookahead.hpp l.25-42: needles with the value 0, then limits with the value 1. -/
def lookLits (needles limits : List Lit) : List (Lit × Nat) :=
  needles.map (fun l => (l, 0)) ++ limits.map (fun l => (l, 1))

theorem Trie.tryMatch_le (t : Trie) (classes : List (List Nat → Bool)) (eof : Option Nat) (fold cur : Nat → Nat)
    (node : Nat) (s : List Nat) {v n : Nat} (h : t.tryMatch classes eof fold cur node s = some (some (v, n))) :
    n ≤ s.length := by
  have own : ∀ {rest : List Nat} {v n : Nat}, t.ownMatch classes node rest = some (v, n) → n = 0 := by
    intro rest v n h
    unfold Trie.ownMatch at h
    split at h
    · cases h
    · split at h
      · cases h; rfl
      · split at h
        · cases h
        · cases h; rfl
  induction s generalizing cur node v n with
  | nil =>
    rw [Trie.tryMatch] at h
    simp only at h
    cases hf : (t.nodeTransitions node).find? (fun tr => peekIs eof cur [] tr.char) with
    | some tr => rw [hf] at h; cases h
    | none => rw [hf] at h; simp only [Option.some.injEq] at h; rw [own h]; exact Nat.le_refl _
  | cons u s ih =>
    rw [Trie.tryMatch] at h
    simp only at h
    cases hf : (t.nodeTransitions node).find? (fun tr => peekIs eof cur (u :: s) tr.char) with
    | none => rw [hf] at h; simp only [Option.some.injEq] at h; rw [own h]; exact Nat.zero_le _
    | some tr =>
      rw [hf] at h
      simp only at h
      cases hr : t.tryMatch classes eof fold (fun u => fold (cur u)) tr.dst s with
      | none => rw [hr] at h; cases h
      | some r =>
        rw [hr] at h
        cases r with
        | none => simp only [Option.map_some, Option.map_none, Option.some.injEq] at h; rw [own h]; exact Nat.zero_le _
        | some p =>
          obtain ⟨v', n'⟩ := p
          simp only [Option.map_some, Option.some.injEq, Prod.mk.injEq] at h
          have := ih (fun u => fold (cur u)) tr.dst hr (by
            intro rest v n h
            unfold Trie.ownMatch at h
            split at h
            · cases h
            · split at h
              · cases h; rfl
              · split at h
                · cases h
                · cases h; rfl)
          rw [List.length_cons]
          omega

/-- `lit_trie_matcher<_look_trie<Encoding, Needle, End>, 0>::try_match`, lookahead.hpp l.60-63, recover.hpp l.75-84. -/
def lookFn (eof : Option Nat) (fold : Nat → Nat) (needles limits : List Lit) : LookFn where
  run := fun s =>
    let ls := lookLits needles limits
    match (buildLits ls).tryMatch (litClasses (ls.map (·.1))) eof fold fold 0 s with
    | some (some (v, n)) => some (v == 0, n)
    | _ => none
  le := fun s b n h => by
    simp only at h
    split at h
    · rename_i v n' h'
      cases h
      exact Trie.tryMatch_le _ _ _ _ _ _ _ h'
    · cases h

end Verif
