import Verif.Lang

/-
What it takes for a rule to derive a part of the input (C38): the derivation read backwards, for each kind of rule that the
examples use.
-/

namespace Verif

open Spec

section
variable {E : Env} {w : Option Rule} {p q : Nat}

theorem lang_gap_none (h : Lang E none .gap p q) : q = p := by
  cases h; rfl

/-- Whitespace that is a token. -/
theorem lang_gap_tok {t : PTok} {P : Nat → Nat → Prop} (h : Lang E (some (.tok t)) .gap p q) (h0 : ∀ p, P p p)
    (h1 : ∀ p n q, t.run (E.inp.drop p) = (true, n) → P (p + n) q → P p q) : P p q := by
  generalize hw : some (Rule.tok t) = w at h
  generalize hg : Goal.gap = g at h
  induction h with
  | noGap => exact h0 _
  | gapTok ht h h' ih ih' =>
    cases hw
    cases h with
    | «match» h => exact h1 _ _ _ h (ih' rfl rfl)
    | matchOther ht' _ => cases ht'
  | gapRule h h' ih ih' =>
    cases hw
    cases h with
    | token ht h hw =>
      have e := lang_gap_none hw
      subst e
      cases h with
      | «match» h => exact h1 _ _ _ h (ih' rfl rfl)
      | matchOther ht' _ => cases ht'
    | context h => cases h
  | gapBreak h ih =>
    cases hw
    cases h
  | gapWs => cases hw
  | _ => cases hg

theorem lang_tok {t : PTok} (h : Lang E w (.rule (.tok t) false) p q) :
    ∃ n, t.run (E.inp.drop p) = (true, n) ∧ Lang E w .gap (p + n) q := by
  cases h with
  | token ht h hw =>
    cases h with
    | «match» h => exact ⟨_, h, hw⟩
    | matchOther ht' _ => cases ht'
  | context h => cases h

theorem lang_prim {r : PRule} (h : Lang E w (.rule (.prim r) false) p q) :
    ∃ m evs, r.parse E.inp p = (true, m, evs) ∧ (∀ ev ∈ evs, ev.isError = false) ∧ (r.ws = false → q = m) ∧ Lang E w .gap m q := by
  cases h with
  | token ht h hw => cases ht
  | prim h he hn hw => exact ⟨_, _, h, he, hn, hw⟩
  | context h => cases h

theorem lang_seq {a b : Rule} (h : Lang E w (.rule (.seq a b) false) p q) :
    ∃ m, Lang E w (.rule a false) p m ∧ Lang E w (.rule b false) m q := by
  cases h with
  | token ht h hw => cases ht
  | seq h1 h2 => exact ⟨_, h1, h2⟩
  | context h => cases h

theorem lang_br {a b : Rule} (h : Lang E w (.rule (.br a b) false) p q) :
    ∃ m, Lang E w (.rule a false) p m ∧ Lang E w (.rule b false) m q := by
  cases h with
  | token ht h hw => cases ht
  | branch h1 h2 => exact ⟨_, h1, h2⟩
  | context h => cases h

theorem lang_chc {rs : List Rule} (h : Lang E w (.rule (.chc rs) false) p q) : ∃ r ∈ rs, Lang E w (.rule r false) p q := by
  cases h with
  | token ht h hw => cases ht
  | choice hr h => exact ⟨_, hr, h⟩
  | context h => cases h

theorem lang_ifR {r : Rule} (h : Lang E w (.rule (.ifR r) false) p q) : q = p ∨ Lang E w (.rule r false) p q := by
  cases h with
  | token ht h hw => cases ht
  | ifYes h => exact .inr h
  | ifNo => exact .inl rfl
  | context h => cases h

theorem lang_opt {r : Rule} (h : Lang E w (.rule (.opt r) false) p q) : q = p ∨ Lang E w (.rule r false) p q := by
  cases h with
  | token ht h hw => cases ht
  | optYes h => exact .inr h
  | optNo => exact .inl rfl
  | context h => cases h

theorem lang_els (h : Lang E w (.rule .els false) p q) : q = p := by
  cases h with
  | token ht h hw => cases ht
  | els => rfl
  | context h => rfl

theorem lang_err {tag : Nat} {r : Option Rule} (h : Lang E w (.rule (.err tag r) false) p q) : False := by
  cases h with
  | token ht h hw => cases ht
  | context h => cases h

theorem lang_try {r : Rule} {rc : Recov} (h : Lang E w (.rule (.tryr r rc) false) p q) : Lang E w (.rule r false) p q := by
  cases h with
  | token ht h hw => cases ht
  | try_ h => exact h
  | context h => cases h

theorem lang_recu {n tag : Nat} {b : Bool} (h : Lang E w (.rule (.recu n tag b) false) p q) : Lang E w (.rule (.prod n) false) p q := by
  cases h with
  | token ht h hw => cases ht
  | recurse h => exact h
  | context h => cases h

theorem lang_peek {tag : Nat} {r : Rule} (h : Lang E w (.rule (.peek tag r) false) p q) : q = p := by
  cases h with
  | token ht h hw => cases ht
  | peek h => rfl
  | context h => rfl

theorem lang_wsn {r : Rule} (h : Lang E w (.rule (.wsn r) false) p q) : ∃ m, Lang E w (.rule r false) p m ∧ Lang E w .gap m q := by
  cases h with
  | token ht h hw => cases ht
  | noWs h hw => exact ⟨_, h, hw⟩
  | context h => cases h

theorem lang_optt {t r : Rule} (h : Lang E w (.rule (.optt t r) false) p q) :
    Lang E w (.rule t false) p q ∨ Lang E w (.rule r false) p q := by
  cases h with
  | token ht h hw => cases ht
  | terminatedNo h => exact .inl h
  | terminatedYes h => exact .inr h
  | context h => cases h

theorem lang_lstt {t item : Rule} {sep : Option Sep} {limit : List Nat → Bool} (h : Lang E w (.rule (.lstt t item sep limit) false) p q) :
    ∃ m l, Lang E w (.rule item false) p m ∧ Lang E w (.tail item sep) m l ∧ Lang E w (.rule t false) l q := by
  cases h with
  | token ht h hw => cases ht
  | terminated h1 h2 h3 => exact ⟨_, _, h1, h2, h3⟩
  | context h => cases h

theorem lang_lst {item : Rule} {sep : Option Sep} (h : Lang E w (.rule (.lst item sep) false) p q) :
    ∃ m, Lang E w (.rule item false) p m ∧ Lang E w (.tail item sep) m q := by
  cases h with
  | token ht h hw => cases ht
  | list h1 h2 => exact ⟨_, h1, h2⟩
  | context h => cases h

/-- A list whose separator is not allowed at the end. -/
theorem lang_tail {item s : Rule} {tag : Nat} (h : Lang E w (.tail item (some (s, .sep tag))) p q) :
    q = p ∨ ∃ m l, Lang E w (.rule s false) p m ∧ Lang E w (.rule item false) m l ∧ Lang E w (.tail item (some (s, .sep tag))) l q := by
  cases h with
  | tailEnd => exact .inl rfl
  | tailSep h1 h2 h3 => exact .inr ⟨_, _, h1, h2, h3⟩
  | tailTrailing hk _ => exact hk.elim

/-- A production without whitespace of its own. -/
theorem lang_prod {n : Nat} {d : ProdDef} (hd : E.prods n = d) (hw : d.ws = none) (h : Lang E w (.rule (.prod n) false) p q) :
    ∃ m, Lang E (if d.isTok then none else w) (.rule d.rule false) p m ∧ (d.isTok = false → q = m) ∧ Lang E w .gap m q := by
  subst hd
  cases h with
  | token ht h hw => cases ht
  | prod h1 h2 h3 h4 h5 =>
    have e := h2 hw
    subst e
    have e2 : innerWs (E.prods n) w = if (E.prods n).isTok then none else w := by unfold innerWs; rw [hw]
    rw [e2] at h3
    exact ⟨_, h3, h4, h5⟩
  | context h => cases h

end
/-- Nothing goes back. -/
theorem lang_le {E : Env} {w : Option Rule} {g : Goal} {p q : Nat} (h : Lang E w g p q) : p ≤ q := by
  induction h
  case prim r p m q evs h he hn hw ih =>
    have := (r.errs E.inp p).1
    rw [h] at this
    exact Nat.le_trans this ih
  all_goals first | omega | (rename_i ih; exact ih)

end Verif
