import Verif.Grammar

/-
Example grammars, used to show that the theorems about grammars are not vacuous.
-/

namespace Verif.Ex

/-- A token that matches one code unit out of a list. -/
def oneOf (kind tag : Nat) (us : List Nat) : PTok where
  kind := .user kind
  tag := tag
  run := fun s => match s with
    | [] => (false, 0)
    | u :: _ => if us.contains u then (true, 1) else (false, 0)
  le := fun s => by
    cases s with
    | nil => exact Nat.le_refl _
    | cons u s => simp only; split <;> simp

/-- A literal. -/
def lit (kind tag : Nat) (w : List Nat) : PTok where
  kind := .user kind
  tag := tag
  run := fun s => if w.isPrefixOf s then (true, w.length) else (false, 0)
  le := fun s => by
    split
    · rename_i h
      exact (List.isPrefixOf_iff_prefix.1 h).length_le
    · exact Nat.zero_le _

/-- A needle and a limit of one code unit. -/
def lookFor (needle limit : Nat) : LookFn where
  run := fun s => match s with
    | [] => none
    | u :: _ => if u = needle then some (true, 1) else if u = limit then some (false, 1) else none
  le := fun s b n h => by
    cases s with
    | nil => cases h
    | cons u s =>
      simp only at h
      by_cases h1 : u = needle
      · rw [if_pos h1] at h; cases h; simp
      · rw [if_neg h1] at h
        by_cases h2 : u = limit
        · rw [if_pos h2] at h; cases h; simp
        · rw [if_neg h2] at h; cases h

def open_ : Rule := .tok (lit 1 11 [40])
def close : Rule := .tok (lit 2 12 [41])
def comma : Rule := .tok (lit 3 13 [44])
def digit : Rule := .tok (oneOf 4 14 [48, 49, 50, 51, 52, 53, 54, 55, 56, 57])
def plus : Rule := .tok (lit 5 15 [43])
def space : Rule := .tok (oneOf 6 16 [32])
def letter : Rule := .tok (oneOf 7 17 [97, 98, 99])

/-- `(1,2)`: a list in parentheses whose items are digits or parenthesised lists; whitespace is skipped. -/
def lists : Nat → ProdDef
  | 0 => { rule := .br open_ (.lstt close (.chc [.recu 0 21 true, .prod 1]) (some (comma, .sep 22)) fun _ => false),
           ws := some space, branch := true }
  | 2 => { rule := .br open_ (.lstt close (.chc [.recu 2 21 true, .prod 1]) (some (comma, .sep 22)) fun _ => false),
           branch := true }
  | 3 => { rule := .seq (.prod 2) (.tryt none letter (.find (lookFor 41 42))),
           ws := some space }
  | _ => { rule := digit, isTok := true }

def env (s : List Nat) (prods : Nat → ProdDef) : Env := { inp := s, prods := prods, exprs := fun _ => ⟨.els, .atom, none, 256, id, 0, 0, 0⟩ }

/-- What can be observed of a result. -/
def obs (r : Option Res) : Option (Out × Nat × List Ev) := r.map fun r => (r.out, r.st.pos, r.evs)

/-- `(1 ,,2) a`: a missing item, recovery, whitespace and nested productions. -/
def missingItem : Env := env [40, 49, 32, 44, 44, 50, 41, 32, 97] lists

/-- `(1 +`: an unterminated list. -/
def unterminated : Env := env [40, 49, 32, 43] lists

end Verif.Ex
