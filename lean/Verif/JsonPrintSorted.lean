import Verif.JsonPrintOrder

/-
C100: the members of an object are printed in the order of their keys.
-/

namespace Verif.Spec.Json

open Verif.Json

/-- The lines of members: a key, ` : ` and the value, indented. -/
inductive Members (level : Nat) : List (List Nat × Ast) → List (List Nat) → Prop
  | nil : Members level [] []
  | cons {k kt vt : List Nat} {a : Ast} {ms : List (List Nat × Ast)} {ls : List (List Nat)} (hk : printString k = some kt)
      (hv : printAst (level + 1) a = some vt) (h : Members level ms ls) :
      Members level ((k, a) :: ms) ((List.replicate (level + 1) 0x20 ++ kt ++ [0x20, 0x3A, 0x20] ++ vt) :: ls)

end Verif.Spec.Json

namespace Verif.Json

open Verif.Spec.Json

theorem keyLt_lex : ∀ {x y : List Nat}, keyLt x y = true → List.Lex (· < ·) x y
  | [], [], h => by simp [keyLt] at h
  | [], _ :: _, _ => .nil
  | _ :: _, [], h => by simp [keyLt] at h
  | a :: x, b :: y, h => by
    simp only [keyLt] at h
    by_cases h1 : a < b
    · exact .rel h1
    · rw [if_neg h1] at h
      by_cases h2 : b < a
      · rw [if_pos h2] at h; cases h
      · rw [if_neg h2] at h
        obtain rfl : a = b := by omega
        exact .cons (keyLt_lex h)

theorem joinElems_intercalate {level : Nat} : ∀ {ps : List (List Nat)},
    joinElems level ps = List.intercalate [0x2C, 0x0A] (ps.map (List.replicate (level + 1) 0x20 ++ ·))
  | [] => rfl
  | [t] => by simp [joinElems, indent, List.intercalate]
  | t :: t' :: ts => by
    rw [joinElems, joinElems_intercalate (ps := t' :: ts)]
    simp [indent, List.intercalate]

theorem printKeys_members {level : Nat} : ∀ {m : List (List Nat × Ast)} {ps : List (List Nat)},
    (∀ x ∈ m, (printAst (level + 1) x.2).isSome) →
    printKeys (m.map fun x => (x.1, (printAst (level + 1) x.2).getD [])) = some ps →
    Members level m (ps.map (List.replicate (level + 1) 0x20 ++ ·))
  | [], ps, _, h => by cases h; exact .nil
  | (k, a) :: m, ps, hs, h => by
    simp only [List.map_cons, printKeys, Option.bind_eq_some_iff, Option.map_eq_some_iff] at h
    obtain ⟨x, h1, y, h2, rfl⟩ := h
    obtain ⟨v, hv⟩ := Option.isSome_iff_exists.1 (hs (k, a) (by simp))
    simp only at hv
    have := Members.cons h1 hv (printKeys_members (fun x hx => hs x (by simp [hx])) h2)
    simpa [printMember, hv] using this

/-- **C100.** An object is printed in braces, its members in the order of their keys (compared lexicographically, as bytes), each
    on a line of its own, with commas between them. -/
theorem C100_sorted {ms : List (List Nat × Ast)} {level : Nat} {t : List Nat} (hd : (ms.map (·.1)).Nodup)
    (h : printAst level (.object ms) = some t) :
    ∃ ms' ls, ms'.Perm ms ∧ ms'.Pairwise (fun x y => List.Lex (· < ·) x.1 y.1) ∧ Members level ms' ls ∧
      t = [0x7B, 0x0A] ++ List.intercalate [0x2C, 0x0A] ls ++ [0x0A] ++ List.replicate level 0x20 ++ [0x7D] := by
  have hs : ∀ x ∈ ms, (printAst (level + 1) x.2).isSome := by
    intro x hx
    cases h1 : printAst (level + 1) x.2 with
    | some => rfl
    | none => unfold printAst at h; rw [printMap_none hx h1] at h; cases h
  unfold printAst at h
  rw [printMap_some hs] at h
  simp only [Option.bind_some] at h
  rw [byKey_map (fun a => (printAst (level + 1) a).getD []) ms] at h
  obtain ⟨ps, h1, rfl⟩ := Option.map_eq_some_iff.1 h
  refine ⟨byKey ms, _, byKey_perm ms, (byKey_ascending hd).imp fun h => keyLt_lex h,
    printKeys_members (fun x hx => hs x ((byKey_perm ms).mem_iff.1 hx)) h1, ?_⟩
  rw [brackets, joinElems_intercalate]
  simp [indent]

/-- `{"b": null, "a": true}` is printed as `{\n "a" : true,\n "b" : null\n}`. -/
example : (printAst 0 (.object [([0x62], .null), ([0x61], .bool true)])).map (List.map Char.ofNat) =
    some "{\n \"a\" : true,\n \"b\" : null\n}".toList := by decide +kernel

end Verif.Json
