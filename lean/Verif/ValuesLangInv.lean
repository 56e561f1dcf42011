import Verif.ValuesLang
import Verif.LangInv

/-
The values of the language read backwards (C98): what it takes for a rule to have values; what has values is in the language.
-/

namespace Verif

open Spec Val

/-! ## What has values is in the language -/

def Spec.VGoal.erase : VGoal → Goal
  | .rule r _ => .rule r.erase false
  | .tail item sep _ => .tail item.erase (eraseSep sep)
  | .times k item sep _ => .times k item.erase (eraseSep sep) false
  | .comb rs els handled _ => .comb (VR.eraseL rs) els handled

theorem eraseL_mem {rs : List VR} {r : VR} (h : r ∈ rs) : r.erase ∈ VR.eraseL rs := by
  induction rs with
  | nil => cases h
  | cons a rs ih =>
    rcases List.mem_cons.1 h with rfl | h
    · exact List.mem_cons_self
    · exact List.mem_cons_of_mem _ (ih h)

theorem eraseL_get {rs : List VR} {r : VR} {i : Nat} (h : rs[i]? = some r) : (VR.eraseL rs)[i]? = some r.erase := by
  induction rs generalizing i with
  | nil => cases h
  | cons a rs ih =>
    cases i with
    | zero => cases h; rfl
    | succ i => exact ih (i := i) h

theorem eraseL_len (rs : List VR) : (VR.eraseL rs).length = rs.length := by
  induction rs with
  | nil => rfl
  | cons a rs ih => simp [VR.eraseL, ih]

theorem noop_lang {E : Env} {w : Option Rule} {p : Nat} : Lang E w (.rule (.prim noop) false) p p :=
  .prim (m := p) (evs := []) rfl nofun (fun _ => rfl) .noGap

/-- What has values is derived by the rule without them. -/
theorem vlang_lang {V : VEnv} {cur : Nat} {w : Option Rule} {g : VGoal} {p q : Nat} (h : VLang V cur w g p q) :
    Lang V.env w g.erase p q := by
  induction h with
  | leaf h => exact h
  | capture h hw => exact .token rfl (.match h) hw
  | value => exact noop_lang
  | prim h he hn hw => exact .prim h he hn hw
  | position h ih => exact .position ih
  | pre h ih => exact ih
  | parseAs h ih => exact ih
  | seq h1 h2 ih1 ih2 => exact .seq ih1 ih2
  | branch h1 h2 ih1 ih2 => exact .branch ih1 ih2
  | choice hr h ih => exact .choice (eraseL_mem hr) ih
  | ifYes h ih => exact .ifYes ih
  | ifNo => exact .ifNo
  | optYes h ih => exact .optYes ih
  | optNo => exact .optNo
  | must h ih => exact .must ih
  | @list _ _ item sep _ _ _ _ _ h1 h2 ih1 ih2 =>
    rcases sep with _ | ⟨s, k⟩
    · exact .list ih1 ih2
    · exact .list ih1 ih2
  | tailEnd => exact .tailEnd
  | tailNext h1 h2 ih1 ih2 => exact .tailNext ih1 ih2
  | tailSep h1 h2 h3 ih1 ih2 ih3 => exact .tailSep ih1 ih2 ih3
  | tailTrailing hk h ih => exact .tailTrailing hk ih
  | @terminated _ _ t item sep _ _ _ _ _ _ _ _ h1 h2 h3 ih1 ih2 ih3 =>
    rcases sep with _ | ⟨s, k⟩
    · exact .terminated ih1 ih2 ih3
    · exact .terminated ih1 ih2 ih3
  | terminatedNo h ih => exact .terminatedNo ih
  | terminatedYes h ih => exact .terminatedYes ih
  | @repeatNone _ _ _ _ _ _ sep _ _ _ h hn ih =>
    rcases sep with _ | ⟨s, k⟩
    · exact .repeatNone ih hn
    · exact .repeatNone ih hn
  | @repeat_ _ _ _ _ _ _ sep _ _ _ _ _ _ _ _ h hn h1 h2 ih ih1 ih2 =>
    rcases sep with _ | ⟨s, k⟩
    · exact .repeat_ ih hn ih1 ih2
    · exact .repeat_ ih hn ih1 ih2
  | timesEnd => exact .timesEnd
  | timesTrailing hk h ih => exact .timesTrailing hk ih
  | timesNext h1 h2 ih1 ih2 => exact .timesNext ih1 ih2
  | timesSep h1 h2 h3 ih1 ih2 ih3 => exact .timesSep ih1 ih2 ih3
  | tryT h h2 ih ih2 => exact .tryT ih ih2
  | tryNone h ih => exact .tryNone ih
  | try_ h ih => exact .try_ ih
  | prod h1 hw h2 ht h3 ih => exact .prod h1 hw ih ht h3
  | captureProd h1 hw h2 ht h3 ih => exact .prod h1 hw ih (fun hf => by rw [show (V.env.prods _).isTok = (V.prods _).isTok from rfl, ht] at hf; cases hf) h3
  | recurse h ih => exact .recurse ih
  | noWs h hw ih => exact .noWs ih hw
  | combination h ih => exact .combination ih
  | combAll h => exact .combAll fun i hi => h i (by rwa [eraseL_len] at hi)
  | combPartial => exact .combPartial
  | combBreak hr h => exact .combBreak (eraseL_mem hr) h
  | combNext hr hi h h2 ih ih2 => exact .combNext (eraseL_get hr) hi ih ih2
  | combIt => exact .combIt
  | count h ih => exact .count ih
  | counter => exact noop_lang
  | identifier h he hn hw => exact .capture (.prim h he hn hw)

theorem vlang_le {V : VEnv} {cur : Nat} {w : Option Rule} {g : VGoal} {p q : Nat} (h : VLang V cur w g p q) : p ≤ q :=
  lang_le (vlang_lang h)

/-! ## Backwards -/

section
variable {V : VEnv} {cur : Nat} {w : Option Rule} {vs : List Val} {p q : Nat}

theorem vl_leaf_inv {r : Rule} (h : VLang V cur w (.rule (.leaf r) vs) p q) : vs = [] ∧ Lang V.env w (.rule r false) p q := by
  cases h with
  | leaf h => exact ⟨rfl, h⟩

theorem vl_cap_inv {t : PTok} (h : VLang V cur w (.rule (.cap t) vs) p q) :
    ∃ n, t.run (V.inp.drop p) = (true, n) ∧ vs = [.lexeme p (p + n)] ∧ Lang V.env w .gap (p + n) q := by
  cases h with
  | capture h hw => exact ⟨_, h, rfl, hw⟩

theorem vl_prim_inv {r : VPrim} (h : VLang V cur w (.rule (.prim r) vs) p q) :
    ∃ m evs, r.rule.parse V.inp p = (true, m, evs) ∧ (∀ ev ∈ evs, ev.isError = false) ∧ (r.rule.ws = false → q = m) ∧
      Lang V.env w .gap m q ∧ vs = if r.sink then sinkValue V cur ((r.vals V.inp p).map (·.map PVal.val))
        else (r.vals V.inp p).flatten.map PVal.val := by
  cases h with
  | prim h he hn hw => exact ⟨_, _, h, he, hn, hw, rfl⟩

theorem vl_pre_inv {a : Atom} {r : VR} (h : VLang V cur w (.rule (.pre a r) vs) p q) :
    ∃ us, vs = a.val :: us ∧ VLang V cur w (.rule r us) p q := by
  cases h with
  | pre h => exact ⟨_, rfl, h⟩

theorem vl_seq_inv {a b : VR} (h : VLang V cur w (.rule (.seq a b) vs) p q) :
    ∃ m va vb, vs = va ++ vb ∧ VLang V cur w (.rule a va) p m ∧ VLang V cur w (.rule b vb) m q := by
  cases h with
  | seq h1 h2 => exact ⟨_, _, _, rfl, h1, h2⟩

theorem vl_br_inv {a b : VR} (h : VLang V cur w (.rule (.br a b) vs) p q) :
    ∃ m va vb, vs = va ++ vb ∧ VLang V cur w (.rule a va) p m ∧ VLang V cur w (.rule b vb) m q := by
  cases h with
  | branch h1 h2 => exact ⟨_, _, _, rfl, h1, h2⟩

theorem vl_chc_inv {rs : List VR} (h : VLang V cur w (.rule (.chc rs) vs) p q) : ∃ r ∈ rs, VLang V cur w (.rule r vs) p q := by
  cases h with
  | choice hr h => exact ⟨_, hr, h⟩

theorem vl_if_inv {b : VR} (h : VLang V cur w (.rule (.ifR b) vs) p q) : (vs = [] ∧ q = p) ∨ VLang V cur w (.rule b vs) p q := by
  cases h with
  | ifYes h => exact .inr h
  | ifNo => exact .inl ⟨rfl, rfl⟩

theorem vl_opt_inv {b : VR} (h : VLang V cur w (.rule (.opt b) vs) p q) :
    (vs = [.nullopt] ∧ q = p) ∨ VLang V cur w (.rule b vs) p q := by
  cases h with
  | optYes h => exact .inr h
  | optNo => exact .inl ⟨rfl, rfl⟩

theorem vl_optt_inv {t r : VR} (h : VLang V cur w (.rule (.optt t r) vs) p q) :
    (∃ us, vs = .nullopt :: us ∧ VLang V cur w (.rule t us) p q) ∨ VLang V cur w (.rule r vs) p q := by
  cases h with
  | terminatedNo h => exact .inl ⟨_, rfl, h⟩
  | terminatedYes h => exact .inr h

theorem vl_lstt_inv {t item : VR} {sep : Option VSep} {limit : List Nat → Bool} (h : VLang V cur w (.rule (.lstt t item sep limit) vs) p q) :
    ∃ m l us ut calls, vs = sinkValue V cur (oneCall us ++ calls) ++ ut ∧ VLang V cur w (.rule item us) p m ∧
      VLang V cur w (.tail item sep calls) m l ∧ VLang V cur w (.rule t ut) l q := by
  cases h with
  | terminated h1 h2 h3 => exact ⟨_, _, _, _, _, rfl, h1, h2, h3⟩

theorem vl_list_inv {item : VR} {sep : Option VSep} (h : VLang V cur w (.rule (.lst item sep) vs) p q) :
    ∃ m us calls, vs = sinkValue V cur (oneCall us ++ calls) ∧ VLang V cur w (.rule item us) p m ∧
      VLang V cur w (.tail item sep calls) m q := by
  cases h with
  | list h1 h2 => exact ⟨_, _, _, rfl, h1, h2⟩

/-- The rest of a list whose separators cannot trail. -/
theorem vl_tail_inv {item s : VR} {tag : Nat} {calls : List (List Val)} (h : VLang V cur w (.tail item (some (s, .sep tag)) calls) p q) :
    (calls = [] ∧ q = p) ∨ ∃ m l us ui rest, calls = oneCall us ++ (oneCall ui ++ rest) ∧ VLang V cur w (.rule s us) p m ∧
      VLang V cur w (.rule item ui) m l ∧ VLang V cur w (.tail item (some (s, .sep tag)) rest) l q := by
  cases h with
  | tailEnd => exact .inl ⟨rfl, rfl⟩
  | tailSep h1 h2 h3 => exact .inr ⟨_, _, _, _, _, rfl, h1, h2, h3⟩
  | tailTrailing hk h => cases hk

theorem vl_tail_none_inv {item : VR} {calls : List (List Val)} (h : VLang V cur w (.tail item none calls) p q) :
    (calls = [] ∧ q = p) ∨ ∃ m ui rest, calls = oneCall ui ++ rest ∧ VLang V cur w (.rule item ui) p m ∧
      VLang V cur w (.tail item none rest) m q := by
  cases h with
  | tailEnd => exact .inl ⟨rfl, rfl⟩
  | tailNext h1 h2 => exact .inr ⟨_, _, _, rfl, h1, h2⟩

theorem vl_prod_inv {n : Nat} (h : VLang V cur w (.rule (.prod n) vs) p q) :
    ∃ m l us, Lang V.env (innerWs (V.env.prods n) w) .gap p m ∧ ((V.prods n).ws = none → m = p) ∧
      VLang V n (innerWs (V.env.prods n) w) (.rule (V.prods n).rule us) m l ∧ ((V.prods n).isTok = false → q = l) ∧
      Lang V.env w .gap l q ∧ vs = if (V.prods n).void then [] else [.call n us] := by
  cases h with
  | prod h1 hw h2 ht h3 => exact ⟨_, _, _, h1, hw, h2, ht, h3, rfl⟩

theorem vl_recu_inv {n tag : Nat} {b : Bool} (h : VLang V cur w (.rule (.recu n tag b) vs) p q) : VLang V cur w (.rule (.prod n) vs) p q := by
  cases h with
  | recurse h => exact h

theorem vl_wsn_inv {r : VR} (h : VLang V cur w (.rule (.wsn r) vs) p q) :
    ∃ m, VLang V cur w (.rule r vs) p m ∧ Lang V.env w .gap m q := by
  cases h with
  | noWs h hw => exact ⟨_, h, hw⟩

theorem vl_try_inv {r : VR} {rec : VRecov} (h : VLang V cur w (.rule (.tryr r rec) vs) p q) : VLang V cur w (.rule r vs) p q := by
  cases h with
  | try_ h => exact h

end

end Verif
