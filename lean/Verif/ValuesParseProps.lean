import Verif.ValuesCalls
import Verif.GrammarEx

/-
`lexy::parse`: its value is what the callbacks make of what was parsed.
-/

namespace Verif.Val

open Spec

/-- The context of the entry production. -/
def VEnv.cx0 (V : VEnv) (n m : Nat) : VCx := ⟨⟨(V.prods n).ws, m⟩, n⟩

/-- What the result of `parseV` consists of. -/
theorem parseV_cases {V : VEnv} {fuel n m : Nat} {r : VRes} {res : Option Val} (h : parseV V fuel n m = some (r, res)) :
    (∃ st0 evs0, exec V.env fuel (V.cx0 n m).cx .ws { pos := 0 } = some ⟨.fail, st0, evs0⟩ ∧ res = none ∧
      r.evs = [.grammarStart 0, .prodStart n 0] ++ evs0 ++ [.prodCancel n st0.pos, .grammarCancel st0.pos] ∧
      r.calls = [] ∧ r.st = st0) ∨
    ∃ st0 evs0 d, exec V.env fuel (V.cx0 n m).cx .ws { pos := 0 } = some ⟨.ok, st0, evs0⟩ ∧
      dv V fuel (V.cx0 n m) (.run (V.prods n).rule) st0 = some d ∧ r.st = d.st ∧
      ((∃ vs, (d.out = .ok ∧ vs = d.vals ∨ ∃ pre, d.out = .ret pre ∧ vs = pre ++ d.vals) ∧ res = some (.call n vs) ∧
        r.evs = [.grammarStart 0, .prodStart n 0] ++ (evs0 ++ d.evs) ++ [.prodFinish n d.st.pos, .grammarFinish d.st.pos] ∧
        r.calls = d.calls ++ [(n, vs)]) ∨
      (d.out = .fail ∧ res = none ∧
        r.evs = [.grammarStart 0, .prodStart n 0] ++ (evs0 ++ d.evs) ++ [.prodCancel n d.st.pos, .grammarCancel d.st.pos] ∧
        r.calls = d.calls)) := by
  unfold parseV at h
  simp only [C79_continuations] at h
  change (match viaC' (exec V.env fuel (V.cx0 n m).cx .ws { pos := 0 }) fun st =>
    resume n (kFinal n) [] (dv V fuel (V.cx0 n m) (.run (V.prods n).rule) st) with
    | none => none
    | some r => _) = _ at h
  cases hw : exec V.env fuel (V.cx0 n m).cx .ws { pos := 0 } with
  | none => rw [hw] at h; cases h
  | some w =>
    rw [hw] at h
    obtain ⟨o, st0, evs0⟩ := w
    cases o with
    | fail => cases h; exact .inl ⟨st0, evs0, rfl, rfl, rfl, rfl, rfl⟩
    | brk => cases h
    | ok =>
      right
      cases hd : dv V fuel (V.cx0 n m) (.run (V.prods n).rule) st0 with
      | none => simp [viaC', hd, resume_none, emitC] at h
      | some d =>
        refine ⟨st0, evs0, d, rfl, hd, ?_⟩
        obtain ⟨out, st, evs, calls, vals⟩ := d
        simp only [viaC', hd] at h
        cases out with
        | ok =>
          simp only [resume_ok, kFinal, emitC, Option.map_some, VRes.pre, List.nil_append, List.append_nil,
            Option.some.injEq, Prod.mk.injEq] at h
          obtain ⟨rfl, rfl⟩ := h
          exact ⟨rfl, .inl ⟨vals, .inl ⟨rfl, rfl⟩, rfl, rfl, rfl⟩⟩
        | fail =>
          simp only [resume_fail, emitC, Option.map_some, VRes.pre, List.nil_append, Option.some.injEq, Prod.mk.injEq] at h
          obtain ⟨rfl, rfl⟩ := h
          exact ⟨rfl, .inr ⟨rfl, rfl, rfl, rfl⟩⟩
        | brk => simp [resume_brk, emitC, VRes.pre] at h
        | ret pre =>
          simp only [resume_ret, emitC, Option.map_some, VRes.pre, List.nil_append, List.append_nil,
            Option.some.injEq, Prod.mk.injEq] at h
          obtain ⟨rfl, rfl⟩ := h
          exact ⟨rfl, .inl ⟨pre ++ vals, .inr ⟨pre, rfl, rfl⟩, rfl, rfl, rfl⟩⟩

/-- What the callbacks were called with. -/
theorem parseV_prod {V : VEnv} {fuel n m : Nat} {r : VRes} {res : Option Val} (h : parseV V fuel n m = some (r, res)) :
    Prod' 0 V.inp.length r.evs r.calls [] := by
  rcases parseV_cases h with ⟨st0, evs0, hw, -, h2, h3, -⟩ | ⟨st0, evs0, d, hw, hd, -, hr⟩
  · rw [h3]
    exact ⟨Nat.zero_le _, by simpa [spans, Val.leavesL] using Spec.Ordered.nil, by simp, by simp [Val.leavesL], by simp,
      by simp [Val.resultsL], Spec.CallsOk.nil⟩
  · have hb := ws_moves (V := V) (n := fuel) (cx := (V.cx0 n m).cx) (st := { pos := 0 }) (Nat.zero_le _) _ hw
    obtain ⟨h1, h2, h3⟩ := (dv_obs V fuel).plain (V.cx0 n m) (.run (V.prods n).rule) st0 rfl hb.2 d hd
    have h4 := ((Prod'.nil 0 []).widen (hi := st0.pos) (Nat.zero_le _) ([.grammarStart 0, .prodStart n 0] ++ evs0)).append h3
    simp only [List.nil_append] at h4
    rcases hr with ⟨vs, hvs, -, he, hc⟩ | ⟨-, -, he, hc⟩
    · have h5 : Prod' 0 d.st.pos ([.grammarStart 0, .prodStart n 0] ++ evs0 ++ d.evs) d.calls vs := by
        rcases hvs with ⟨-, rfl⟩ | ⟨pre, hp, rfl⟩
        · exact h4
        · exact h4.flags pre (h2 pre hp)
      rw [he, hc]
      have := ((h5.call n).widen h1 [.prodFinish n d.st.pos, .grammarFinish d.st.pos]).drop
      simpa using this
    · rw [he, hc]
      have := (h4.widen h1 [.prodCancel n d.st.pos, .grammarCancel d.st.pos]).drop
      simpa using this

/-- **Values are handed on in the order of the input.**  The lexemes and positions a callback gets, directly or as part
    of other values, are about parts of the input; each is behind those before it, or a part of them. -/
theorem C79_values_in_order {V : VEnv} {fuel n m : Nat} {r : VRes} {res : Option Val}
    (h : parseV V fuel n m = some (r, res)) (call : Nat × List Val) (hc : call ∈ r.calls) :
    Ordered 0 V.inp.length (spans call.2) :=
  (parseV_prod h).cord call hc

/-- **A lexeme is a token or a production.**  The lexemes a callback gets are exactly the range of a token or production
    the parse reported: trailing whitespace is not part of them.  Positions are those of position tokens. -/
theorem C79_lexemes_reported {V : VEnv} {fuel n m : Nat} {r : VRes} {res : Option Val}
    (h : parseV V fuel n m = some (r, res)) (call : Nat × List Val) (hc : call ∈ r.calls) :
    ∀ v ∈ Val.leavesL call.2, Reported r.evs v :=
  (parseV_prod h).crep call hc

/-- **Results are handed on once.**  The results of callbacks a callback gets, directly or as part of other values, are
    results of calls before it, in the order of the calls, each at most once. -/
theorem C79_results_once {V : VEnv} {fuel n m : Nat} {r : VRes} {res : Option Val}
    (h : parseV V fuel n m = some (r, res)) : CallsOk r.calls :=
  (parseV_prod h).cres

/-- **The value of a parse** is the result of the last call, that of the callback of the entry production; there is one
    exactly if the parse was not cancelled. -/
theorem C79_parse_value {V : VEnv} {fuel n m : Nat} {r : VRes} {res : Option Val}
    (h : parseV V fuel n m = some (r, res)) :
    (∃ vs before, res = some (.call n vs) ∧ r.calls = before ++ [(n, vs)] ∧
      r.evs.getLast? = some (.grammarFinish r.st.pos)) ∨
    (res = none ∧ r.evs.getLast? = some (.grammarCancel r.st.pos)) := by
  rcases parseV_cases h with ⟨st0, evs0, hw, h1, h2, h3, h4⟩ | ⟨st0, evs0, d, hw, hd, hst, hr⟩
  · refine .inr ⟨h1, ?_⟩
    rw [h2, h4, List.getLast?_append]
    rfl
  · rw [hst]
    rcases hr with ⟨vs, hvs, h1, he, hc⟩ | ⟨-, h1, he, hc⟩
    · refine .inl ⟨vs, d.calls, h1, hc, ?_⟩
      rw [he, List.getLast?_append]
      rfl
    · refine .inr ⟨h1, ?_⟩
      rw [he, List.getLast?_append]
      rfl

/-- **A callback is called for each production that is finished**, once and in the order in which they are, and never
    for one that is cancelled.  (Rules whose values are not modelled must not finish productions.) -/
theorem C79_callbacks_partial {V : VEnv} {fuel n m : Nat} {r : VRes} {res : Option Val}
    (h : parseV V fuel n m = some (r, res)) (hV : ∀ m, ∀ r ∈ (V.prods m).rule.parts, QuietRule V r) :
    r.calls.map Prod.fst = finished r.evs := by
  have hnil : ∀ evs : List Ev, finished ([.grammarStart 0, .prodStart n 0] ++ evs) = finished evs := fun _ => rfl
  rcases parseV_cases h with ⟨st0, evs0, hw, -, h2, h3, -⟩ | ⟨st0, evs0, d, hw, hd, -, hr⟩
  · have := quiet_ws _ _ _ _ hw
    simp only at this
    rw [h2, h3, List.append_assoc, hnil, finished_append, this]
    rfl
  · have h1 := quiet_ws _ _ _ _ hw
    simp only at h1
    have h2 := dv_called V hV fuel (V.cx0 n m) (.run (V.prods n).rule) st0 (hV n) d hd
    rcases hr with ⟨vs, hvs, -, he, hc⟩ | ⟨-, -, he, hc⟩
    · rw [he, hc, List.append_assoc, hnil, finished_append, finished_append, h1, h2]
      simp [finished]
    · rw [he, hc, List.append_assoc, hnil, finished_append, finished_append, h1, h2]
      simp [finished]

/-- **Values do not influence parsing.**  Without its values, the parse is that of the grammar without its values, for
    grammars without `return_` and with `parse_as` for tokens and productions only. -/
theorem C79_parsing_partial {V : VEnv} {fuel n m : Nat} {r : VRes} {res : Option Val}
    (h : parseV V fuel n m = some (r, res)) (hV : ∀ m, (V.prods m).rule.std = true) :
    runGrammar V.env fuel n m = some ⟨if res.isSome then .ok else .fail, r.st, r.evs⟩ := by
  have hrun : ∀ y, onOk' (exec V.env fuel (V.cx0 n m).cx .ws { pos := 0 }) (fun st =>
      exec V.env fuel (V.cx0 n m).cx (.run (V.prods n).rule.erase) st) = y →
      runGrammar V.env fuel n m = emit [.grammarStart 0, .prodStart n 0] (andThen y fun o st =>
      match o with
      | .ok => some ⟨.ok, st, [.prodFinish n st.pos, .grammarFinish st.pos]⟩
      | .fail => some ⟨.fail, st, [.prodCancel n st.pos, .grammarCancel st.pos]⟩
      | .brk => none) := fun y hy => by rw [← hy]; rfl
  rcases parseV_cases h with ⟨st0, evs0, hw, h1, h2, h3, h4⟩ | ⟨st0, evs0, d, hw, hd, hst, hr⟩
  · rw [hrun (some ⟨.fail, st0, evs0⟩) (by rw [hw]; simp [onOk', andThen]), h1, h2, h4]
    simp [andThen, emit]
  · obtain ⟨h5, h6⟩ := erase_sim V hV fuel (V.cx0 n m) (.run (V.prods n).rule) st0 (hV n) d hd
    have h7 : exec V.env fuel (V.cx0 n m).cx (.run (V.prods n).rule.erase) st0 = some d.res := h6
    rcases hr with ⟨vs, hvs, h1, he, hc⟩ | ⟨ho, h1, he, hc⟩
    · rcases hvs with ⟨ho, -⟩ | ⟨pre, ho, -⟩
      · rw [hrun (some ⟨.ok, d.st, evs0 ++ d.evs⟩) (by rw [hw]; simp [onOk', andThen, h7, DRes.res, ho]), he, h1, hst]
        simp [andThen, emit]
      · exact absurd ho (h5 pre)
    · rw [hrun (some ⟨.fail, d.st, evs0 ++ d.evs⟩) (by rw [hw]; simp [onOk', andThen, h7, DRes.res, ho]), he, h1, hst]
      simp [andThen, emit]

end Verif.Val
