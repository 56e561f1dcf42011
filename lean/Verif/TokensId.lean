import Verif.Tokens
import Verif.Identifier
import Verif.Until

/-
Identifiers and symbols that are identifiers, as parts of grammars: further instances of `PTok` and `PRule`
(see Tokens.lean).

Source: /repo/include/lexy/dsl/identifier.hpp, symbol.hpp
-/

namespace Verif

/-- The pattern of an identifier, `_idp`, identifier.hpp l.33-76; the character classes in UTF-8. -/
def idLen (L T : CC) (s : List Nat) : Option Nat := (identMatch (L.tryParse .utf8) (T.tryParse .utf8) s).map (min · s.length)

/-- `_idp` as a token. -/
def idTok (kind : Kind) (tag : Nat) (L T : CC) : PTok :=
  .of kind tag fun s => match idLen L T s with
    | some n => (true, n)
    | none => (false, 0)

theorem idLen_le {L T : CC} {s : List Nat} {n : Nat} (h : idLen L T s = some n) : n ≤ s.length := by
  unfold idLen at h
  obtain ⟨m, -, rfl⟩ := Option.map_eq_some_iff.1 h
  exact Nat.min_le_right _ _

/-- `_id::p::parse` without reserved identifiers, identifier.hpp l.144-170; if the pattern does not match, the error is
    reported by the leading character class, l.70-74 and token.hpp l.73-90. -/
def idParseR (L T : CC) (tag : Nat) (inp : List Nat) (p : Nat) : Bool × Nat × List Ev :=
  match idLen L T (inp.drop p) with
  | some n => (true, p + n, [.token .identifier p (p + n)])
  | none => (false, p, [.token .error p p, .error tag p p])

section
variable {L T : CC} {tag : Nat}

theorem idParseR_tr (s : List Nat) (p : Nat) (h : p ≤ s.length) :
    Tr s.length p (if (idParseR L T tag s p).1 then .ok else .fail) (idParseR L T tag s p).2.2 (idParseR L T tag s p).2.1 := by
  unfold idParseR
  split
  · rename_i n hn
    have := idLen_le hn
    rw [List.length_drop] at this
    exact .token _ (Nat.le_add_right _ _) (by omega)
  · exact .seq (a := [_]) (.token _ (Nat.le_refl _) h) (.errorFail _ (Nat.le_refl _) h)

theorem idParseR_fails (s : List Nat) (p : Nat) (h : (idParseR L T tag s p).1 = false) :
    ∃ ev ∈ (idParseR L T tag s p).2.2, ev.isError = true := by
  unfold idParseR at h ⊢
  split at h
  · cases h
  · exact ⟨.error tag p p, by simp, rfl⟩

theorem idParseR_errs (s : List Nat) (p : Nat) : p ≤ (idParseR L T tag s p).2.1 ∧ ErrOk p (idParseR L T tag s p).2.2 := by
  unfold idParseR
  split
  · exact ⟨Nat.le_add_right _ _, .one rfl rfl⟩
  · exact ⟨Nat.le_refl _, .cons_plain rfl rfl (.err (Nat.le_refl _))⟩

end

/-- `_id<L, T>`, identifier.hpp l.141-207. -/
def idRule (L T : CC) (tag : Nat) : PRule where
  ws := true
  parse := idParseR L T tag
  branch := some fun inp p => (idLen L T (inp.drop p)).isSome
  finish := idParseR L T tag
  parse_tr := idParseR_tr
  finish_tr := idParseR_tr
  coh := fun _ _ _ _ _ => rfl
  fails := idParseR_fails
  finish_fails := idParseR_fails
  errs := idParseR_errs
  finish_errs := idParseR_errs

/-- A symbol that is not the prefix of an identifier, `Table.try_parse` and `try_match_token(T{}, …)`, symbol.hpp
    l.374-384 and 413-415. -/
def symIdLen (t : SymTable) (eof : Option Nat) (T : CC) (s : List Nat) : Option Nat :=
  match symIdTry t eof (T.tryParse .utf8) s with
  | some (some (_, n)) => some (min n s.length)
  | _ => none

theorem symIdLen_le {t : SymTable} {eof : Option Nat} {T : CC} {s : List Nat} {n : Nat} (h : symIdLen t eof T s = some n) :
    n ≤ s.length := by
  unfold symIdLen at h
  split at h
  · cases h; exact Nat.min_le_right _ _
  · cases h

/-- `_sym<Table, _idp<L, T>, Tag>::p::parse`, symbol.hpp l.403-443, where no whitespace is skipped (it would be part of the
    range of the error, C69).  `itag`: the error of the pattern, `tag`: `unknown_symbol`. -/
def symIdParseR (t : SymTable) (eof : Option Nat) (kind : Kind) (L T : CC) (itag tag : Nat) (inp : List Nat) (p : Nat) :
    Bool × Nat × List Ev :=
  match symIdLen t eof T (inp.drop p) with
  | some n => (true, p + n, [.token kind p (p + n)])
  | none =>
    match idLen L T (inp.drop p) with
    | some n => (false, p + n, [.token kind p (p + n), .error tag p (p + n)])
    | none => (false, p, [.token .error p p, .error itag p p])

section
variable {t : SymTable} {eof : Option Nat} {kind : Kind} {L T : CC} {itag tag : Nat}

theorem symIdParseR_tr (s : List Nat) (p : Nat) (h : p ≤ s.length) :
    Tr s.length p (if (symIdParseR t eof kind L T itag tag s p).1 then .ok else .fail)
      (symIdParseR t eof kind L T itag tag s p).2.2 (symIdParseR t eof kind L T itag tag s p).2.1 := by
  unfold symIdParseR
  split
  · rename_i n hn
    have := symIdLen_le hn
    rw [List.length_drop] at this
    exact .token _ (Nat.le_add_right _ _) (by omega)
  · split
    · rename_i n hn
      have := idLen_le hn
      rw [List.length_drop] at this
      exact .seq (a := [_]) (.token _ (Nat.le_add_right _ _) (by omega)) (.errorFail _ (by omega) (by omega))
    · exact .seq (a := [_]) (.token _ (Nat.le_refl _) h) (.errorFail _ (Nat.le_refl _) h)

theorem symIdParseR_fails (s : List Nat) (p : Nat) (h : (symIdParseR t eof kind L T itag tag s p).1 = false) :
    ∃ ev ∈ (symIdParseR t eof kind L T itag tag s p).2.2, ev.isError = true := by
  unfold symIdParseR at h ⊢
  split at h
  · cases h
  · split
    · exact ⟨_, List.mem_cons_of_mem _ (List.mem_singleton.2 rfl), rfl⟩
    · exact ⟨.error itag p p, by simp, rfl⟩

theorem symIdParseR_errs (s : List Nat) (p : Nat) : p ≤ (symIdParseR t eof kind L T itag tag s p).2.1 ∧
    ErrOk p (symIdParseR t eof kind L T itag tag s p).2.2 := by
  unfold symIdParseR
  split
  · exact ⟨Nat.le_add_right _ _, .one rfl rfl⟩
  · split
    · exact ⟨Nat.le_add_right _ _, .cons_plain rfl rfl (.err (Nat.le_refl _))⟩
    · exact ⟨Nat.le_refl _, .cons_plain rfl rfl (.err (Nat.le_refl _))⟩

end

/-- `_sym<Table, _idp<L, T>, Tag>`, symbol.hpp l.359-445. -/
def symIdRule (t : SymTable) (eof : Option Nat) (kind : Kind) (L T : CC) (itag tag : Nat) : PRule where
  ws := true
  parse := symIdParseR t eof kind L T itag tag
  branch := some fun inp p => (symIdLen t eof T (inp.drop p)).isSome
  finish := symIdParseR t eof kind L T itag tag
  parse_tr := symIdParseR_tr
  finish_tr := symIdParseR_tr
  coh := fun _ _ _ _ _ => rfl
  fails := symIdParseR_fails
  finish_fails := symIdParseR_fails
  errs := symIdParseR_errs
  finish_errs := symIdParseR_errs

/-- `_until<Condition>` with a literal as condition, until.hpp l.73-116. -/
def untilLit (eof : Option Nat) (kind tag : Nat) (w : List Nat) : PTok :=
  .of (.user kind) tag (untilTok (fun s => if ((litTok eof kind tag w).run s).1 then some w.length else none) eof)

end Verif
