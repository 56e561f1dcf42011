import Verif.JsonSound
import Verif.JsonValueSpec
import Verif.ValuesLangInv
import Verif.ValuesLangProps
import Verif.CallbackProps

/-
The value of a parse of examples/json.cpp without errors represents the value of the text (C99).
-/

namespace Verif.Json

open Spec (Lang VLang)
open Spec.Json Val

/-! ## Evaluation -/

theorem evalLL_append {s : List Nat} {a b : List (List Val)} {oa ob : List (List Obj)} (ha : evalLL s a = some oa) (hb : evalLL s b = some ob) :
    evalLL s (a ++ b) = some (oa ++ ob) := by
  induction a generalizing oa with
  | nil =>
    simp only [evalLL, Option.some.injEq] at ha
    subst ha
    exact hb
  | cons v a ih =>
    simp only [evalLL, Option.bind_eq_some_iff, Option.some.injEq] at ha
    obtain ⟨o, h1, os, h2, rfl⟩ := ha
    simp only [List.cons_append, evalLL, h1, Option.bind_some, ih h2]

theorem mapM_append {α β : Type} {f : α → Option β} {a b : List α} {oa ob : List β} (ha : a.mapM f = some oa) (hb : b.mapM f = some ob) :
    (a ++ b).mapM f = some (oa ++ ob) := by
  rw [List.mapM_append, ha, hb]
  rfl

theorem seg_slice {s t : List Nat} {p q : Nat} (h : Seg s p q t) : (s.take q).drop p = t := by
  obtain ⟨rfl, h⟩ := h
  rw [List.drop_take, h, Nat.add_sub_cancel_left, List.take_left]

/-! ## Integers -/

theorem digit_char {u : Nat} {b : Base} (h : Spec.IsDigitOf b u) : Spec.IsChar (Int.ofNat u) ∧ (Spec.digitI b (Int.ofNat u)).isSome = true := by
  have h2 := Spec.isDigitOf_lt h
  refine ⟨⟨by simp only [Int.ofNat_eq_natCast]; omega, by simp only [Int.ofNat_eq_natCast]; omega⟩, ?_⟩
  unfold Spec.digitI
  rw [if_pos (by simp only [Int.ofNat_eq_natCast]; omega)]
  exact h

theorem intVal_decimal {s t : List Nat} {p m : Nat} {T : Traits} (hT : T.Ok .decimal) (hs : Seg s p m t) (ht : ∀ u ∈ t, Digit u)
    (hl : decimal t ≤ T.max) : intVal (boundedParse true T .decimal) s p m = decimal t := by
  unfold intVal
  rw [seg_slice hs]
  have hd : ∀ c ∈ t.map Int.ofNat, Spec.IsChar c ∧ (Spec.digitI .decimal c).isSome = true := by
    intro c hc
    obtain ⟨u, hu, rfl⟩ := List.mem_map.1 hc
    exact digit_char ((digit_iff u).2 (ht u hu))
  obtain ⟨v, ov, h1, h2, h3⟩ := C17_integer_exact_partial true T .decimal hT (t.map Int.ofNat)
    ⟨fun c hc => (hd c hc).1, fun _ c hc => (hd c hc).2⟩ (fun c hc => (hd c (List.mem_of_getLast? hc)).2)
  rw [h1]
  rw [value_eq t ht] at h2 h3
  have : ov = false := by
    cases ov with
    | false => rfl
    | true => have := h2.1 rfl; omega
  simp only [h3 this]

theorem hex_digitI {u : Nat} (h : Hex u) : Spec.digitI .hex (Int.ofNat u) = some (hexDigit u) := by
  unfold Spec.digitI Spec.digit hexDigit
  unfold Hex Digit at h
  rw [if_pos (by simp only [Int.ofNat_eq_natCast]; omega)]
  have : (Int.ofNat u).toNat = u := rfl
  rw [this]
  simp only [Spec.radix, Spec.lowerHex, Spec.upperHex, true_and]
  grind

theorem intVal_hex {s : List Nat} {p m a b c d : Nat} (hs : Seg s p m [a, b, c, d]) (ha : Hex a) (hb : Hex b) (hc : Hex c) (hd : Hex d) :
    intVal (nDigitsParse true (.plain char16) 4 .hex) s p m =
      (((hexDigit a * 16 + hexDigit b) * 16 + hexDigit c) * 16 + hexDigit d : Nat) := by
  unfold intVal
  rw [seg_slice hs]
  have h4 : ∀ u ∈ [a, b, c, d], Hex u := by
    intro u hu
    simp only [List.mem_cons, List.not_mem_nil, or_false] at hu
    rcases hu with rfl | rfl | rfl | rfl <;> assumption
  have hall : ∀ x ∈ [a, b, c, d].map Int.ofNat, Spec.IsChar x ∧ (Spec.digitI .hex x).isSome = true := by
    intro x hx
    obtain ⟨u, hu, rfl⟩ := List.mem_map.1 hx
    exact digit_char ((hex_iff u).2 (h4 u hu))
  obtain ⟨v, ov, h1, h2, h3⟩ := C18_n_digits_integer (.plain char16) .hex traitsChar16 4 ([a, b, c, d].map Int.ofNat)
    (fun x hx => (hall x hx).1) (fun x hx => (hall x hx).2) rfl
  have hv : Spec.value .hex ([a, b, c, d].map Int.ofNat) =
      ((hexDigit a * 16 + hexDigit b) * 16 + hexDigit c) * 16 + hexDigit d := by
    unfold Spec.value
    simp only [List.map_cons, List.map_nil]
    rw [valueFrom_cons_some (hex_digitI ha), valueFrom_cons_some (hex_digitI hb), valueFrom_cons_some (hex_digitI hc),
      valueFrom_cons_some (hex_digitI hd)]
    simp [Spec.valueFrom, Base.radix]
  rw [hv] at h2 h3
  have lt : ∀ u, Hex u → hexDigit u < 16 := by
    intro u hu
    unfold hexDigit
    unfold Hex Digit at hu
    grind
  have hm : (Traits.plain char16).max = 65535 := rfl
  rw [hm] at h2
  have := lt a ha
  have := lt b hb
  have := lt c hc
  have := lt d hd
  have : ov = false := by
    cases ov with
    | false => rfl
    | true => have := h2.1 rfl; omega
  rw [h1]
  simp only [h3 this]

/-! ## Strings -/

/-- The calls of the sink of a string append this. -/
def Appends (s : List Nat) (calls : List (List PVal)) (u : List Nat) : Prop :=
  ∃ objs xs, evalLL s (calls.map (·.map PVal.val)) = some objs ∧ objs.mapM strArg = some xs ∧
    ∀ r, xs.foldl (Cb.strStep .utf8) r = r ++ u

theorem Appends.nil {s : List Nat} : Appends s [] [] := ⟨[], [], rfl, rfl, fun r => by simp⟩

theorem Appends.append {s : List Nat} {a b : List (List PVal)} {u v : List Nat} (h1 : Appends s a u) (h2 : Appends s b v) :
    Appends s (a ++ b) (u ++ v) := by
  obtain ⟨o1, x1, e1, m1, f1⟩ := h1
  obtain ⟨o2, x2, e2, m2, f2⟩ := h2
  refine ⟨o1 ++ o2, x1 ++ x2, by rw [List.map_append]; exact evalLL_append e1 e2, mapM_append m1 m2, fun r => ?_⟩
  rw [List.foldl_append, f1, f2, List.append_assoc]

theorem Appends.lex {s u : List Nat} {b e : Nat} (h : Seg s b e u) : Appends s (delLex b e) u := by
  unfold delLex
  split
  · rename_i he
    subst he
    have h1 := h.1
    have : u = [] := List.length_eq_zero_iff.1 (by omega)
    subst this
    exact .nil
  · refine ⟨[[.lexeme u]], [.lexeme u], ?_, rfl, fun r => rfl⟩
    simp only [List.map_cons, List.map_nil, PVal.val, evalLL, evalL, eval, seg_slice h, Option.bind_some]

theorem Appends.sym {s : List Nat} {i v : Nat} (h : escapedSymbols.vals[i]? = some v) : Appends s [[.num i]] [v] := by
  refine ⟨[[.int i]], [.char v], ?_, ?_, fun r => rfl⟩
  · simp only [List.map_cons, List.map_nil, PVal.val, evalLL, evalL, eval, Option.bind_some]
  · simp [strArg, h]

theorem Appends.cp {s : List Nat} {i : Int} {v : Nat} (hi : i = v) (hv : v ≤ 0x10FFFF) : Appends s [[.made 13 i]] (Spec.utf8 v) := by
  subst hi
  refine ⟨[[.codePoint v]], [.codePoint v], ?_, rfl, fun r => ?_⟩
  · simp only [List.map_cons, List.map_nil, PVal.val, evalLL, evalL, eval, Option.bind_some, construct, Int.toNat_natCast]
  · simp only [List.foldl_cons, List.foldl_nil, Cb.strStep, encodeCp, encodeUtf8_eq_spec hv]

/-- The symbol of a simple escape. -/
theorem sym_val {s : List Nat} {n : Nat} (h : symLen escapedSymbols eof s = some n) :
    ∃ c t i v, s = c :: t ∧ (c, v) ∈ escaped ∧ escapedSymbols.vals[i]? = some v ∧ v < 128 ∧
      ((symPrim escapedSymbols eof 9).vals s 0).flatten = [.num (i : Nat)] := by
  obtain ⟨r, h1, h2, h3⟩ := C12_symbol_longest escapedSymbols.syms eof id (fun _ => rfl) (by decide) s
  unfold symLen symTry at h
  rw [show escapedSymbols.fold = id from rfl, h1] at h
  cases r with
  | none => cases h
  | some x =>
    obtain ⟨i, k⟩ := x
    obtain ⟨w, h4, -, h5, rfl, -⟩ := (h2 i k).1 rfl
    rw [List.map_id] at h5
    obtain ⟨t, rfl⟩ := h5
    have hv : ((symPrim escapedSymbols eof 9).vals (w ++ t) 0).flatten = [.num (i : Nat)] := by
      simp only [symPrim, symTry, List.drop_zero]
      rw [show escapedSymbols.fold = id from rfl, h1]
      rfl
    have h8 : i < 8 := by
      rcases Nat.lt_or_ge i 8 with h | h
      · exact h
      · rw [List.getElem?_eq_none (by exact h)] at h4; cases h4
    have : i = 0 ∨ i = 1 ∨ i = 2 ∨ i = 3 ∨ i = 4 ∨ i = 5 ∨ i = 6 ∨ i = 7 := by omega
    rcases this with rfl | rfl | rfl | rfl | rfl | rfl | rfl | rfl <;> cases h4 <;>
      exact ⟨_, t, _, _, rfl, by decide, rfl, by decide, hv⟩

theorem symPrim_shift {s : List Nat} {p : Nat} : (symPrim escapedSymbols eof 9).vals s p = (symPrim escapedSymbols eof 9).vals (s.drop p) 0 := by
  simp only [symPrim, List.drop_zero]

def symEsc : EscV := EscV.ofSym escapedSymbols eof 9
def codeEsc : EscV :=
  EscV.ofProd 13 (litTok eof 0 0 [0x75]) (.user 3) (.user 3) 3 4 (nDigits .hex 4) .hex (nDigitsParse true (.plain char16) 4 .hex)

/-- What a simple escape or a code unit stands for. -/
inductive EscMeans : List Nat → Nat → Prop
  | sym {c v : Nat} (h : (c, v) ∈ escaped) : EscMeans [c] v
  | code {a b c d : Nat} (ha : Hex a) (hb : Hex b) (hc : Hex c) (hd : Hex d) :
      EscMeans [0x75, a, b, c, d] (((hexDigit a * 16 + hexDigit b) * 16 + hexDigit c) * 16 + hexDigit d)

theorem code_lt {a b c d : Nat} (ha : Hex a) (hb : Hex b) (hc : Hex c) (hd : Hex d) :
    ((hexDigit a * 16 + hexDigit b) * 16 + hexDigit c) * 16 + hexDigit d < 65536 := by
  have lt : ∀ u, Hex u → hexDigit u < 16 := by
    intro u hu
    unfold hexDigit
    unfold Hex Digit at hu
    grind
  have := lt a ha
  have := lt b hb
  have := lt c hc
  have := lt d hd
  omega

theorem branchVals_hit {e : EscV} {es : List EscV} {s : List Nat} {p : Nat} {r : Bool × Nat × List Ev} {w : PVal} {ws : List PVal}
    (h : e.br.run s p = some r) (hr : r.1 = true) (hv : e.vals s p = w :: ws) : escBranchVals (e :: es) s p = [w :: ws] := by
  simp only [escBranchVals, h, hr, hv, List.isEmpty_cons, Bool.not_false, Bool.and_self, if_true]

theorem branchVals_miss {e : EscV} {es : List EscV} {s : List Nat} {p : Nat} (h : e.br.run s p = none) :
    escBranchVals (e :: es) s p = escBranchVals es s p := by
  simp only [escBranchVals, h]

theorem calls_eq (s : List Nat) (b p : Nat) : contentV.calls s b p =
    if (content.close.run (s.drop p)).1 then delLex b p
    else if content.atLimit (s.drop p) then delLex b p
    else match escTry content.kind content.escTag content.escapes s b p with
      | some (q, _) =>
        if _h : p < q ∧ q ≤ s.length then delLex b p ++ (escTryVals contentV.esc s p ++ contentV.calls s q q) else []
      | none =>
        if _h : 0 < (content.char (s.drop p)).2 ∧ p + (content.char (s.drop p)).2 ≤ s.length then
          if (content.char (s.drop p)).1 then contentV.calls s b (p + (content.char (s.drop p)).2)
          else delLex b p ++ contentV.calls s (p + (content.char (s.drop p)).2) (p + (content.char (s.drop p)).2)
        else [] := by
  rw [DelimV.calls]
  rfl

/-- An escape that is taken without an error, and what the sink is called with. -/
theorem esc_value {s : List Nat} {kind : Kind} {tag b p n m : Nat} {t : PTok} {es : List Ev}
    (h : (m, es) = escParse kind tag t [symEsc.br, codeEsc.br] s b p n)
    (hq : ∀ ev ∈ es, ev.isError = false) :
    ∃ u v, EscMeans u v ∧ Seg s (p + n) m u ∧ Appends s (escBranchVals [symEsc, codeEsc] s (p + n)) (Spec.utf8 v) := by
  have hsound := esc_sound h hq
  have e1 : m = _ := congrArg Prod.fst h
  clear h
  simp only [escParse, escBranches, symEsc, codeEsc, EscV.ofSym, EscV.ofProd, EscBr.ofRule, EscBr.ofProd, symRule] at e1
  obtain ⟨o, hy⟩ : ∃ o, symLen escapedSymbols eof (s.drop (p + n)) = o := ⟨_, rfl⟩
  cases o with
  | some k =>
    obtain ⟨c, t, i, v, h1, h2, h3, h4, h5⟩ := sym_val hy
    obtain ⟨rfl, -⟩ := (sym_iff _ _).1 hy
    simp only [hy, Option.isSome_some, if_true, symParse] at e1
    subst e1
    refine ⟨[c], v, .sym h2, .cons h1, ?_⟩
    rw [← symPrim_shift] at h5
    have hr : symEsc.br.run s (p + n) = some (symParse escapedSymbols eof 9 s (p + n)) := by
      show (if _ then _ else _) = _
      rw [if_pos (by show (symLen _ _ _).isSome = true; rw [hy]; rfl)]
      rfl
    rw [branchVals_hit hr (by simp only [symParse, hy]) h5]
    have : Spec.utf8 v = [v] := by unfold Spec.utf8; rw [if_pos h4]
    rw [this]
    exact Appends.sym h3
  | none =>
    have hr : symEsc.br.run s (p + n) = none := by
      show (if _ then _ else _) = _
      rw [if_neg (by show ¬ (symLen _ _ _).isSome = true; rw [hy]; simp)]
    rw [branchVals_miss hr]
    clear hr
    rcases hsound with ⟨c, hc, s2⟩ | ⟨a, b, c, d, ha, hb, hc, hd, s2⟩
    · have := (sym_iff (s.drop (p + n)) 1).2 ⟨rfl, c, _, s2.2, hc⟩
      rw [hy] at this
      cases this
    · obtain ⟨s3, s4⟩ := Seg.split (t := [0x75]) (u := [a, b, c, d]) s2
      refine ⟨_, _, .code ha hb hc hd, s2, ?_⟩
      have h2 : (litTok eof 0 0 [0x75]).run (s.drop (p + n)) = (true, 1) :=
        (lit_run (fun c hc => by simp only [List.mem_singleton] at hc; subst hc; decide) _ _).2 ⟨s3.pre, rfl⟩
      have hlen := C16_n_digits .hex 4 (s.drop (p + n + 1))
      have hpre : 4 ≤ (s.drop (p + n + 1)).length ∧ ∀ u ∈ (s.drop (p + n + 1)).take 4, Spec.IsDigitOf .hex u := by
        have h4 := s4.2
        have e4 : s.drop (p + n + 1) = [a, b, c, d] ++ s.drop m := h4
        rw [e4]
        refine ⟨by simp, ?_⟩
        intro u hu
        simp only [List.cons_append, List.nil_append, List.take_succ_cons, List.take_zero, List.mem_cons, List.not_mem_nil, or_false] at hu
        rcases hu with rfl | rfl | rfl | rfl <;> exact (hex_iff _).2 ‹_›
      have hcl : clamp (nDigits .hex 4) (s.drop (p + n + 1)) = (true, 4) := by
        rw [clamp_eq (hlen.1 hpre) hpre.1]
      have hp : ∀ k, (intParse (.user 3) (.user 3) 3 4 (nDigits .hex 4) .hex k s (p + n + 1)).1 = true ∧
          (intParse (.user 3) (.user 3) 3 4 (nDigits .hex 4) .hex k s (p + n + 1)).2.1 = p + n + 1 + 4 := by
        intro k
        unfold intParse
        simp only [hcl, if_true, and_self]
      have hk := hp (nDigitsParse true (.plain char16) 4 .hex)
      have hr : ∃ r, codeEsc.br.run s (p + n) = some r ∧ r.1 = true := by
        show ∃ r, prodBranch _ _ _ s (p + n) = some r ∧ r.1 = true
        simp only [prodBranch, h2, if_true, intRule, hk.1]
        exact ⟨_, rfl, rfl⟩
      obtain ⟨r, hr, hr1⟩ := hr
      have hv : codeEsc.vals s (p + n) = [.made 13 (intVal (nDigitsParse true (.plain char16) 4 .hex) s (p + n + 1) (p + n + 1 + 4))] := by
        show [PVal.made 13 (intVal _ s (p + n + ((litTok eof 0 0 [0x75]).run (s.drop (p + n))).2)
          (intParse _ _ _ _ _ _ _ s (p + n + ((litTok eof 0 0 [0x75]).run (s.drop (p + n))).2)).2.1)] = _
        simp only [h2, hk.2]
      rw [branchVals_hit hr hr1 hv]
      have e5 : m = p + n + 1 + 4 := s4.1
      rw [e5] at s4
      refine Appends.cp ?_ (by have := code_lt ha hb hc hd; omega)
      exact intVal_hex s4 ha hb hc hd

theorem contentV_rule : contentV.rule = content := rfl

/-- The string behind its opening quote: `u` is what was collected before. -/
theorem loop_value {s : List Nat} (hs : Units 256 s) (start b p q : Nat) (evs : List Ev) (u : List Nat) (hu : Seg s b p u)
    (h : content.loop s start b p = (true, q, evs)) (hq : ∀ ev ∈ evs, ev.isError = false) :
    ∃ t cs, CharsV exampleLimits t cs ∧ Seg s p q (t ++ [0x22]) ∧ Appends s (contentV.calls s b p) (u ++ encoded cs) := by
  rw [DelimR.loop] at h
  rw [calls_eq]
  simp only at h
  split at h
  · rename_i h1
    rw [if_pos h1]
    cases h
    exact ⟨[], [], .nil, lit_seg (by decide) (Prod.ext h1 rfl), by simpa [encoded] using Appends.lex hu⟩
  · rename_i h1
    rw [if_neg h1]
    split at h
    · cases h
    · rename_i h2
      rw [if_neg h2]
      cases he : escTry content.kind content.escTag content.escapes s b p with
      | some r =>
        obtain ⟨m, es⟩ := r
        simp only [he] at h ⊢
        split at h
        · rename_i h3
          rw [dif_pos h3]
          obtain ⟨x, hx, h4, h5⟩ := escTry_some he
          simp only [Prod.mk.injEq] at h
          obtain ⟨h6, h7, rfl⟩ := h
          obtain ⟨t, cs, ht, hseg, hap⟩ := loop_value hs start m m q (content.loop s start m m).2.2 [] .nil (Prod.ext h6 (Prod.ext h7 rfl))
            fun ev hev => hq ev (List.mem_append_right _ hev)
          have hqe : ∀ ev ∈ es, ev.isError = false := fun ev hev => hq ev (List.mem_append_left _ hev)
          have ex : x = (litTok eof 0 0 [0x5C], [symEsc.br, codeEsc.br]) := List.mem_singleton.1 hx
          subst ex
          have s1 := lit_seg (s := s) (p := p) (by decide) (Prod.ext h4 rfl)
          obtain ⟨w, v, hm, s2, ha⟩ := esc_value h5 hqe
          have et : escTryVals contentV.esc s p =
              escBranchVals [symEsc, codeEsc] s (p + ((litTok eof 0 0 [0x5C]).run (s.drop p)).2) := by
            show escTryVals [(litTok eof 0 0 [0x5C], [symEsc, codeEsc])] s p = _
            simp only [escTryVals]
            exact if_pos h4
          rw [et]
          have hc : CharsV exampleLimits (0x5C :: (w ++ t)) (v :: cs) := by
            cases hm with
            | sym h => exact .escape h ht
            | code x1 x2 x3 x4 => exact .code x1 x2 x3 x4 ht
          refine ⟨0x5C :: (w ++ t), v :: cs, hc, ?_, ?_⟩
          · have := (s1.append s2).append hseg
            simpa using this
          · have := (Appends.lex hu).append (ha.append hap)
            simpa [encoded] using this
        · cases h
      | none =>
        simp only [he] at h ⊢
        split at h
        · rename_i h3
          rw [dif_pos h3]
          split at h
          · rename_i h4
            rw [if_pos h4]
            obtain ⟨h5, h6, h7⟩ := (C20_char_class .utf8 codePoint codePoint_ok (s.drop p) (hs.drop p) _).1 (Prod.ext h4 rfl)
            obtain ⟨h8, h9, h10⟩ := C02_utf8_decode_sound (s.drop p) (hs.drop p) h5
            rw [control_denote] at h6
            have e7 : (content.char (s.drop p)).2 = (parseUtf8 (s.drop p)).len := h7
            have s1 := Seg.of_take h9
            rw [h10, ← e7] at s1
            obtain ⟨t, cs, ht, hseg, hap⟩ := loop_value hs start b _ q evs _ (hu.append s1) h hq
            have e1 : ∀ v, v < 128 → Spec.utf8 v = [v] := fun v hv => by unfold Spec.utf8; rw [if_pos hv]
            refine ⟨Spec.utf8 (parseUtf8 (s.drop p)).cp ++ t, _ :: cs, .unescaped ⟨h6.1, fun hv => h1 ?_, fun hv => ?_, h8⟩ h6.2 ht, ?_, ?_⟩
            · rw [hv, e1 _ (by decide)] at s1
              exact (lit_hit' (by decide)).2 s1.pre
            · rw [hv, e1 _ (by decide)] at s1
              have := (lit_hit' (kind := 0) (tag := 0) (by decide)).2 s1.pre
              simp only [content, escTry, this, if_true] at he
              cases he
            · rw [List.append_assoc]
              exact s1.append hseg
            · simpa [encoded] using hap
          · simp only [Prod.mk.injEq] at h
            obtain ⟨-, -, rfl⟩ := h
            have := hq (.error content.charTag p p) (by simp)
            cases this
        · cases h
termination_by s.length - p

/-! ## Productions -/

theorem vlit_ws {s w : List Nat} (hs : Units 256 s) {cur p q : Nat} {vs : List Val} (hw : ∀ c ∈ w, c < 128)
    (h : VLang (venv s) cur W (.rule (litV w) vs) p q) : vs = [] ∧ ∃ b, Blank b ∧ Seg s p q (w ++ b) := by
  obtain ⟨rfl, g⟩ := vl_leaf_inv h
  rw [erase_env] at g
  exact ⟨rfl, lit_ws hs hw g⟩

theorem vlit_none {s w : List Nat} {cur p q : Nat} {vs : List Val} (hw : ∀ c ∈ w, c < 128)
    (h : VLang (venv s) cur none (.rule (litV w) vs) p q) : vs = [] ∧ Seg s p q w := by
  obtain ⟨rfl, g⟩ := vl_leaf_inv h
  rw [erase_env] at g
  exact ⟨rfl, lit_none hw g⟩

theorem not_void (n : Nat) : (prodsV n).void = false ∧ (prodsV n).sinkVoid = false := by
  match n with
  | 0 | 1 | 2 | 3 | 4 | 5 | 6 | 7 | 8 | 9 | 10 | 11 | 12 => exact ⟨rfl, rfl⟩
  | _ + 13 => exact ⟨rfl, rfl⟩

theorem sink_one {s : List Nat} {cur : Nat} {calls : List (List Val)} : Spec.sinkValue (venv s) cur calls = [.sink cur calls] := by
  unfold Spec.sinkValue
  rw [show ((venv s).prods cur).sinkVoid = false from (not_void cur).2]
  rfl

/-- A production without whitespace of its own. -/
theorem vprod {s : List Nat} {w : Option Rule} {cur n p q : Nat} {vs : List Val} (hw : (prods n).ws = none)
    (h : VLang (venv s) cur w (.rule (.prod n) vs) p q) :
    ∃ m us, vs = [.call n us] ∧ VLang (venv s) n (if (prods n).isTok then none else w) (.rule (prodsV n).rule us) p m ∧
      ((prods n).isTok = false → q = m) ∧ Lang (env s) w .gap m q := by
  obtain ⟨m, l, us, h1, h2, h3, h4, h5, rfl⟩ := vl_prod_inv h
  have ep : (venv s).env.prods n = prods n := by rw [erase_env]; rfl
  have e1 : ((venv s).prods n).ws = none := by rw [← ep] at hw; exact hw
  have e2 : ((venv s).prods n).isTok = (prods n).isTok := by rw [← ep]; rfl
  rw [h2 e1, ep] at h3
  rw [erase_env] at h5
  refine ⟨l, us, ?_, ?_, fun h => h4 (by rw [e2]; exact h), h5⟩
  · rw [show ((venv s).prods n).void = false from (not_void n).1]
    rfl
  · unfold Spec.innerWs at h3
    rw [hw] at h3
    exact h3

/-- A token production and whitespace. -/
theorem vtok_prod {s : List Nat} (hs : Units 256 s) {cur n p q : Nat} {vs : List Val} (hn : (prods n).isTok = true) (hw : (prods n).ws = none)
    (h : VLang (venv s) cur W (.rule (.prod n) vs) p q) :
    ∃ m b us, vs = [.call n us] ∧ VLang (venv s) n none (.rule (prodsV n).rule us) p m ∧ Blank b ∧ Seg s m q b := by
  obtain ⟨m, us, rfl, h1, -, h2⟩ := vprod hw h
  rw [if_pos hn] at h1
  obtain ⟨b, hb, h3⟩ := gap_sound hs h2
  exact ⟨m, b, us, rfl, h1, hb, h3⟩

/-- A transparent production inside of a token. -/
theorem vpart_none {s : List Nat} {cur n p q : Nat} {vs : List Val} (hn : (prods n).isTok = false) (hw : (prods n).ws = none)
    (h : VLang (venv s) cur none (.rule (.prod n) vs) p q) :
    ∃ us, vs = [.call n us] ∧ VLang (venv s) n none (.rule (prodsV n).rule us) p q := by
  obtain ⟨m, us, rfl, h1, h2, -⟩ := vprod hw h
  rw [if_neg (by rw [hn]; decide)] at h1
  rw [h2 hn]
  exact ⟨us, rfl, h1⟩

theorem eval_call {s : List Nat} {n : Nat} {us : List Val} {os : List Obj} {o : Obj} (h1 : evalL s us = some os)
    (h2 : callback n os = some o) : eval s (.call n us) = some o := by
  rw [eval, h1]
  exact h2

theorem evalL_one {s : List Nat} {v : Val} {o : Obj} (h : eval s v = some o) : evalL s [v] = some [o] := by
  simp only [evalL, h, Option.bind_some]

theorem evalL_append {s : List Nat} {a b : List Val} {oa ob : List Obj} (ha : evalL s a = some oa) (hb : evalL s b = some ob) :
    evalL s (a ++ b) = some (oa ++ ob) := by
  induction a generalizing oa with
  | nil =>
    simp only [evalL, Option.some.injEq] at ha
    subst ha
    exact hb
  | cons v a ih =>
    simp only [evalL, Option.bind_eq_some_iff, Option.some.injEq] at ha
    obtain ⟨o, h1, os, h2, rfl⟩ := ha
    simp only [List.cons_append, evalL, h1, Option.bind_some, ih h2]

/-! ## Strings as productions -/

theorem string_value {s : List Nat} (hs : Units 256 s) {cur p q : Nat} {vs : List Val}
    (h : VLang (venv s) cur W (.rule (.prod 10) vs) p q) :
    ∃ k b cs, StrV exampleLimits k cs ∧ Blank b ∧ Seg s p q (k ++ b) ∧ evalL s vs = some [.string (encoded cs)] := by
  obtain ⟨m, b, us, rfl, h1, hb, h2⟩ := vtok_prod hs rfl rfl h
  obtain ⟨m', h3, h4⟩ := vl_wsn_inv h1
  rw [erase_env] at h4
  have := lang_gap_none h4
  subst this
  obtain ⟨l, va, vb, rfl, h5, h6⟩ := vl_br_inv h3
  obtain ⟨rfl, s1⟩ := vlit_none (by decide) h5
  obtain ⟨e, evs, h7, h8, -, h9, rfl⟩ := vl_prim_inv h6
  rw [erase_env] at h9
  have := lang_gap_none h9
  subst this
  obtain ⟨t, cs, ht, s2, objs, xs, ha, hx, hf⟩ := loop_value hs _ _ _ _ _ [] .nil h7 h8
  refine ⟨_, b, cs, ⟨t, rfl, ht⟩, hb, (s1.append s2).append h2, evalL_one (eval_call (os := [.string (encoded cs)]) ?_ rfl)⟩
  rw [if_pos (show contentV.prim.sink = true from rfl), sink_one]
  refine evalL_one ?_
  have ha' : evalLL s ((contentV.prim.vals (venv s).inp l).map (·.map PVal.val)) = some objs := ha
  rw [eval, ha']
  simp only [Option.bind_some, sinkOf, hx]
  have := hf []
  simp only [List.nil_append] at this
  simp only [Cb.Sink.run, Cb.asStringSink, this, Option.map_some]

/-! ## Numbers -/

theorem prim_int {s : List Nat} {cur p q : Nat} {vs : List Val} {kind dkind : Kind} {tag otag : Nat} {tok : List Nat → TokRes} {b : Base}
    {conv : List _root_.Int → Option (Nat × Bool)}
    (h : VLang (venv s) cur none (.rule (.prim (intPrim kind dkind tag otag tok b conv)) vs) p q) :
    ∃ evs, intParse kind dkind tag otag tok b conv s p = (true, q, evs) ∧ (∀ ev ∈ evs, ev.isError = false) ∧
      vs = [.num (intVal conv s p q)] := by
  obtain ⟨m, evs, h1, h2, -, h3, rfl⟩ := vl_prim_inv h
  rw [erase_env] at h3
  have := lang_gap_none h3
  subst this
  have h1' : intParse kind dkind tag otag tok b conv s p = (true, q, evs) := h1
  refine ⟨evs, h1', h2, ?_⟩
  show [Val.num (intVal conv s p (intParse kind dkind tag otag tok b conv s p).2.1)] = _
  rw [h1']

theorem asInt_none {t : Cb.IntTy} {v : Nat} (hs : t.signed = true) (hb : 0 < t.bits) (h : v < 2 ^ (t.bits - 1)) (m : Bool) :
    asInt t ((if m then [.minus] else []) ++ [.int v]) = some (.int (if m then -v else v)) ∧
    asInt t [.plus, .int v] = some (.int v) := by
  have h' : (v : _root_.Int) < 2 ^ (t.bits - 1) := by exact_mod_cast h
  have hf : t.Fits v ∧ t.Fits (-v) := by
    unfold Cb.IntTy.Fits Cb.IntTy.min Cb.IntTy.max
    rw [if_pos hs, if_pos hs]
    omega
  obtain ⟨h1, h2⟩ := Cb.C72_as_integer_partial t t hb v (by omega) hf.1 hb
  refine ⟨?_, ?_⟩
  · cases m with
    | false =>
      simp only [Bool.false_eq_true, if_false, List.nil_append, asInt, h1 .none (by simp) hf.1, Option.map_some]
    | true =>
      simp only [if_true, List.cons_append, List.nil_append, asInt, h2 hf.2 (.inl hs), Option.map_some]
  · simp only [asInt, h1 .plus (by simp) hf.1, Option.map_some]

theorem minus_value {s : List Nat} {cur p q : Nat} {vs : List Val}
    (h : VLang (venv s) cur none (.rule (minusV eof 2) vs) p q) : Seg s p q [0x2D] ∧ evalL s vs = some [.minus] := by
  obtain ⟨us, rfl, h1⟩ := vl_pre_inv h
  obtain ⟨rfl, s1⟩ := vlit_none (w := [0x2D]) (by decide) h1
  exact ⟨s1, rfl⟩

theorem plus_value {s : List Nat} {cur p q : Nat} {vs : List Val}
    (h : VLang (venv s) cur none (.rule (plusV eof 1) vs) p q) : Seg s p q [0x2B] ∧ evalL s vs = some [.plus] := by
  obtain ⟨us, rfl, h1⟩ := vl_pre_inv h
  obtain ⟨rfl, s1⟩ := vlit_none (w := [0x2B]) (by decide) h1
  exact ⟨s1, rfl⟩

theorem int_digits {t : List Nat} (h : Int t) : ∀ u ∈ t, Digit u := by
  rcases h with rfl | ⟨c, t, rfl, h1, h2, h3⟩
  · intro u hu
    simp only [List.mem_singleton] at hu
    subst hu
    exact ⟨by decide, by decide⟩
  · intro u hu
    rcases List.mem_cons.1 hu with rfl | hu
    · exact ⟨by omega, h2⟩
    · exact h3 u hu

theorem integer_value {s : List Nat} {cur p q : Nat} {vs : List Val} (h : VLang (venv s) cur none (.rule (.prod 7) vs) p q) :
    ∃ (m : Bool) (int : List Nat), Int int ∧ exampleLimits.int int ∧ Seg s p q ((if m then [0x2D] else []) ++ int) ∧
      evalL s vs = some [.int (if m then -(decimal int : Nat) else (decimal int : Nat))] := by
  obtain ⟨us, rfl, h1⟩ := vpart_none rfl rfl h
  obtain ⟨i, va, vb, rfl, h7, h8⟩ := vl_seq_inv h1
  obtain ⟨evs, h9, h10, rfl⟩ := prim_int h8
  obtain ⟨int, s2, hi, hl⟩ := integer_sound h9 h10
  have ev : intVal (boundedParse true (.plain int64) .decimal) s i q = (decimal int : Nat) :=
    intVal_decimal traits64 s2 (int_digits hi) (by
      have : decimal int < 2 ^ 63 := hl
      show decimal int ≤ 2 ^ 63 - 1
      omega)
  have e2 : evalL s [.num (intVal (boundedParse true (.plain int64) .decimal) s i q)] = some [.int (decimal int : Nat)] := by
    rw [ev]; rfl
  obtain ⟨m, s1, e1⟩ : ∃ m : Bool, Seg s p i (if m then [0x2D] else []) ∧ evalL s va = some (if m then [.minus] else []) := by
    rcases vl_if_inv h7 with ⟨rfl, rfl⟩ | h
    · exact ⟨false, .nil, rfl⟩
    · obtain ⟨s1, e1⟩ := minus_value h
      exact ⟨true, s1, e1⟩
  exact ⟨m, int, hi, hl, s1.append s2, evalL_one (eval_call (evalL_append e1 e2) (asInt_none (t := i64) rfl (by decide) hl m).1)⟩

theorem fraction_value {s : List Nat} {cur p q : Nat} {vs : List Val} (h : VLang (venv s) cur none (.rule (.opt (.prod 8)) vs) p q) :
    ∃ t f, FracV t f ∧ Seg s p q t ∧
      ((f = none ∧ evalL s vs = some [.nullopt]) ∨ ∃ d, f = some d ∧ evalL s vs = some [.string d]) := by
  rcases vl_opt_inv h with ⟨rfl, rfl⟩ | h
  · exact ⟨[], none, .none, .nil, .inl ⟨rfl, rfl⟩⟩
  · obtain ⟨us, rfl, h1⟩ := vpart_none rfl rfl h
    obtain ⟨j, va, vb, rfl, h12, h13⟩ := vl_br_inv h1
    obtain ⟨rfl, s1⟩ := vlit_none (by decide) h12
    obtain ⟨n, h14, rfl, h15⟩ := vl_cap_inv h13
    rw [erase_env] at h15
    have := lang_gap_none h15
    subst this
    obtain ⟨h16, h17⟩ := (digits_run _ _).1 h14
    have hd := maxRun_digits h17 h16
    have s2 : Seg s j (j + n) _ := .of_take h17.le
    refine ⟨_, _, .some hd, s1.append s2, .inr ⟨_, rfl, evalL_one (eval_call (os := [.lexeme _]) (evalL_one ?_) rfl)⟩⟩
    rw [eval, seg_slice s2]
    rfl

theorem exponent_value {s : List Nat} {cur p q : Nat} {vs : List Val} (h : VLang (venv s) cur none (.rule (.opt (.prod 9)) vs) p q) :
    ∃ t x, ExpV exampleLimits t x ∧ Seg s p q t ∧
      ((x = none ∧ evalL s vs = some [.nullopt]) ∨ ∃ d, x = some d ∧ evalL s vs = some [.int d]) := by
  rcases vl_opt_inv h with ⟨rfl, rfl⟩ | h
  · exact ⟨[], none, .none, .nil, .inl ⟨rfl, rfl⟩⟩
  · obtain ⟨us, rfl, h1⟩ := vpart_none rfl rfl h
    obtain ⟨j, va, vb, rfl, h12, h13⟩ := vl_br_inv h1
    obtain ⟨rfl, g12⟩ := vl_leaf_inv h12
    rw [erase_env] at g12
    obtain ⟨j', vc, vd, rfl, h14, h15⟩ := vl_seq_inv h13
    obtain ⟨evs, h16, h17, rfl⟩ := prim_int h15
    obtain ⟨t, s5, ht, hx⟩ := exponent_sound h16 h17
    have ev : intVal (boundedParse true (.plain int16) .decimal) s j' q = (decimal t : Nat) :=
      intVal_decimal traits16 s5 ht.2 (by
        have : decimal t < 2 ^ 15 := hx
        show decimal t ≤ 2 ^ 15 - 1
        omega)
    have e2 : evalL s [.num (intVal (boundedParse true (.plain int16) .decimal) s j' q)] = some [.int (decimal t : Nat)] := by
      rw [ev]; rfl
    obtain ⟨c, hc, s6⟩ : ∃ c, (c = 0x65 ∨ c = 0x45) ∧ Seg s p j [c] := by
      obtain ⟨r, hr, h19⟩ := lang_chc g12
      rcases pair_mem hr with rfl | rfl
      · exact ⟨_, .inl rfl, lit_none (by decide) h19⟩
      · exact ⟨_, .inr rfl, lit_none (by decide) h19⟩
    have hT := fun m => asInt_none (t := i16) (v := decimal t) rfl (by decide) hx m
    rcases vl_if_inv h14 with ⟨rfl, rfl⟩ | h
    · exact ⟨_, _, .some hc ht hx, s6.append s5, .inr ⟨_, rfl, evalL_one (eval_call e2 (hT false).1)⟩⟩
    · obtain ⟨r, hr, h19⟩ := vl_chc_inv h
      rcases pair_mem hr with rfl | rfl
      · obtain ⟨s7, e7⟩ := plus_value h19
        exact ⟨_, _, .plus hc ht hx, s6.append (s7.append s5), .inr ⟨_, rfl, evalL_one (eval_call (evalL_append (a := []) rfl (evalL_append e7 e2)) (hT true).2)⟩⟩
      · obtain ⟨s7, e7⟩ := minus_value h19
        exact ⟨_, _, .minus hc ht hx, s6.append (s7.append s5), .inr ⟨_, rfl, evalL_one (eval_call (evalL_append (a := []) rfl (evalL_append e7 e2)) (hT true).1)⟩⟩

theorem number_value {s : List Nat} {p q : Nat} {vs : List Val} (h : VLang (venv s) 6 none (.rule (prodsV 6).rule vs) p q) :
    ∃ t n, NumberV exampleLimits t n ∧ Seg s p q t ∧
      eval s (.call 6 vs) = some (.number ⟨if n.minus then -n.int else n.int, n.frac, n.exp⟩) := by
  obtain ⟨m, va, vb, rfl, h1, h2⟩ := vl_br_inv h
  obtain ⟨rfl, g1⟩ := vl_leaf_inv h1
  have := lang_peek g1
  subst this
  obtain ⟨l, vc, vd, rfl, h3, h4⟩ := vl_seq_inv h2
  obtain ⟨k, ve, vf, rfl, h5, h6⟩ := vl_seq_inv h4
  obtain ⟨mi, int, hi, hl, s1, e1⟩ := integer_value h3
  obtain ⟨frac, f, hf, s2, e2⟩ := fraction_value h5
  obtain ⟨exp, x, hx, s3, e3⟩ := exponent_value h6
  refine ⟨_, ⟨mi, decimal int, f, x⟩, ⟨int, frac, exp, rfl, hi, hl, rfl, hf, hx⟩, (s1.append s2).append s3, ?_⟩
  rcases e2 with ⟨rfl, e2⟩ | ⟨d, rfl, e2⟩ <;> rcases e3 with ⟨rfl, e3⟩ | ⟨y, rfl, e3⟩ <;>
    exact eval_call (evalL_append (a := []) rfl (evalL_append e1 (evalL_append e2 e3))) rfl

/-! ## Lists -/

/-- Items of a list: `P` is what a text, its values and their meaning have in common; `Q` is that for the rest of a list. -/
theorem tail_value {X : Type} {s : List Nat} (hs : Units 256 s) {item : VR} {cur : Nat} {P : List Nat → List Val → X → Prop}
    {Q : List Nat → List (List Val) → List X → Prop} (h0 : ∀ t us x, P t us x → ∃ u us', us = u :: us')
    (h1 : ∀ t us x, P t us x → Q t [us] [x])
    (h2 : ∀ t us x b u calls xs, P t us x → Blank b → Q u calls xs → Q (t ++ (0x2C :: b ++ u)) (us :: calls) (x :: xs)) (n : Nat) :
    ∀ (p q : Nat) (t : List Nat) (us : List Val) (x : X) (calls : List (List Val)), q - p ≤ n → P t us x →
      VLang (venv s) cur W (.tail item (some (litV [0x2C], .sep 10)) calls) p q →
      (∀ m l us, p < m → l ≤ q → VLang (venv s) cur W (.rule item us) m l → ∃ t x, P t us x ∧ Seg s m l t) →
      ∃ u xs, Q (t ++ u) (Spec.oneCall us ++ calls) xs ∧ Seg s p q u := by
  induction n with
  | zero =>
    intro p q t us x calls hn ht h hi
    obtain ⟨u0, us0, rfl⟩ := h0 _ _ _ ht
    rcases vl_tail_inv h with ⟨rfl, rfl⟩ | ⟨m, l, v1, v2, rest, rfl, h3, h4, h5⟩
    · exact ⟨[], [x], by rw [List.append_nil]; exact h1 _ _ _ ht, .nil⟩
    · obtain ⟨rfl, b, hb, s1⟩ := vlit_ws hs (by decide) h3
      have := s1.1
      have := vlang_le h4
      have := vlang_le h5
      simp at *
      omega
  | succ n ih =>
    intro p q t us x calls hn ht h hi
    obtain ⟨u0, us0, rfl⟩ := h0 _ _ _ ht
    rcases vl_tail_inv h with ⟨rfl, rfl⟩ | ⟨m, l, v1, v2, rest, rfl, h3, h4, h5⟩
    · exact ⟨[], [x], by rw [List.append_nil]; exact h1 _ _ _ ht, .nil⟩
    · obtain ⟨rfl, b, hb, s1⟩ := vlit_ws hs (by decide) h3
      have e1 := s1.1
      have e2 := vlang_le h4
      have e3 := vlang_le h5
      simp only [List.cons_append, List.nil_append, List.length_cons] at e1
      obtain ⟨y, xy, hx, s2⟩ := hi m l v2 (by omega) e3 h4
      obtain ⟨u, xs, hu, s3⟩ := ih l q y v2 xy rest (by omega) hx h5 fun m' l' us h6 h7 => hi m' l' us (by omega) h7
      exact ⟨0x2C :: b ++ (y ++ u), x :: xs, h2 _ _ _ _ _ _ _ ht hb hu, s1.append (s2.append s3)⟩

/-- An array or an object. -/
theorem list_value {X : Type} {s : List Nat} (hs : Units 256 s) {o c : Nat} (ho : o < 128) (hc : c < 128) {item : VR} {cur : Nat}
    {P : List Nat → List Val → X → Prop}
    {Q : List Nat → List (List Val) → List X → Prop} (h0 : ∀ t us x, P t us x → ∃ u us', us = u :: us')
    (h1 : ∀ t us x, P t us x → Q t [us] [x])
    (h2 : ∀ t us x b u calls xs, P t us x → Blank b → Q u calls xs → Q (t ++ (0x2C :: b ++ u)) (us :: calls) (x :: xs)) {p q : Nat}
    {vs : List Val} (h : VLang (venv s) cur W (.rule (optListV o c item) vs) p q)
    (hi : ∀ m l us, p < m → l ≤ q → VLang (venv s) cur W (.rule item us) m l → ∃ t x, P t us x ∧ Seg s m l t) :
    ∃ b b', Blank b ∧ Blank b' ∧ ((vs = [.nullopt] ∧ Seg s p q (o :: b ++ c :: b')) ∨
      ∃ x calls xs, vs = [.sink cur calls] ∧ Q x calls xs ∧ Seg s p q (o :: b ++ x ++ c :: b')) := by
  obtain ⟨m, va, vb, rfl, h3, h4⟩ := vl_br_inv h
  obtain ⟨rfl, b, hb, s1⟩ := vlit_ws hs (by simpa using ho) h3
  have e1 := s1.1
  simp only [List.cons_append, List.nil_append, List.length_cons] at e1
  rcases vl_optt_inv h4 with ⟨us, rfl, h5⟩ | h5
  · obtain ⟨rfl, b', hb', s2⟩ := vlit_ws hs (by simpa using hc) h5
    exact ⟨b, b', hb, hb', .inl ⟨rfl, by simpa using s1.append s2⟩⟩
  · obtain ⟨l, k, us, ut, calls, rfl, h6, h7, h8⟩ := vl_lstt_inv h5
    obtain ⟨rfl, b', hb', s2⟩ := vlit_ws hs (by simpa using hc) h8
    have e2 := vlang_le h6
    have e3 := vlang_le h7
    have e4 := vlang_le h8
    obtain ⟨t, x, ht, s3⟩ := hi m l us (by omega) (by omega) h6
    obtain ⟨u, xs, hu, s4⟩ := tail_value hs h0 h1 h2 _ l k t us x calls (Nat.le_refl _) ht h7
      fun m' l' us h9 h10 => hi m' l' us (by omega) (by omega)
    refine ⟨b, b', hb, hb', .inr ⟨t ++ u, _, xs, ?_, hu, by simpa using (s1.append (s3.append s4)).append s2⟩⟩
    rw [sink_one]
    rfl

/-! ## Values -/

theorem means_values_blank {L : Limits} {b u : List Nat} {vs : List JV} (hb : Blank b) (h : Means L u (.values vs)) :
    Means L (b ++ u) (.values vs) := by
  cases h with
  | last h1 h2 h3 => simpa using Means.last (hb.append h1) h2 h3
  | more h1 h2 h3 h4 => simpa using Means.more (hb.append h1) h2 h3 h4

theorem means_members_blank {L : Limits} {b u : List Nat} {ms : List (List Nat × JV)} (hb : Blank b) (h : Means L u (.members ms)) :
    Means L (b ++ u) (.members ms) := by
  cases h with
  | lastMember h1 h2 h3 h4 h5 h6 => simpa using Means.lastMember (hb.append h1) h2 h3 h4 h5 h6
  | moreMembers h1 h2 h3 h4 h5 h6 h7 => simpa using Means.moreMembers (hb.append h1) h2 h3 h4 h5 h6 h7

/-- The members as they are inserted. -/
inductive RepM : List (List Nat × JV) → List (List Nat × Ast) → Prop
  | nil : RepM [] []
  | cons {cs : List Nat} {v : JV} {a : Ast} {ms : List (List Nat × JV)} {m : List (List Nat × Ast)} (h : Rep v a) (hs : RepM ms m) :
      RepM ((cs, v) :: ms) ((encoded cs, a) :: m)

theorem lookup_find {k : List Nat} {f : List Nat × Ast → Bool} (hf : ∀ x, f x = true ↔ x.1 = k) (m : List (List Nat × Ast)) :
    lookup k m = (m.find? f).map (·.2) := by
  induction m with
  | nil => rfl
  | cons x m ih =>
    obtain ⟨k', a⟩ := x
    unfold lookup
    by_cases h : k' = k
    · rw [if_pos h, List.find?_cons_of_pos ((hf _).2 h)]
      rfl
    · rw [if_neg h, ih, List.find?_cons_of_neg (fun g => h ((hf _).1 g))]

theorem repM_first {ms : List (List Nat × JV)} {m : List (List Nat × Ast)} (h : RepM ms m) (k : List Nat) :
    (firstOf k ms = none → lookup k m = none) ∧ ∀ v, firstOf k ms = some v → ∃ a, lookup k m = some a ∧ Rep v a := by
  induction h with
  | nil => exact ⟨fun _ => rfl, fun v h => by cases h⟩
  | @cons cs v a ms m h hs ih =>
    unfold firstOf lookup
    by_cases hk : encoded cs = k
    · rw [if_pos hk, if_pos hk]
      refine ⟨fun g => (by cases g), fun v' g => ?_⟩
      cases g
      exact ⟨a, rfl, h⟩
    · rw [if_neg hk, if_neg hk]
      exact ih

theorem rep_object {ms : List (List Nat × JV)} {m : List (List Nat × Ast)} (h : RepM ms m) :
    Rep (.object ms) (.object (Cb.asCollectionSink.run m)) := by
  obtain ⟨h1, h2, -⟩ := Cb.C55_collection m
  have hl : ∀ k, lookup k (Cb.asCollectionSink.run m) = lookup k m := fun k => by
    refine (lookup_find (fun x => ?_) _).trans ((congrArg _ (h2 k)).trans (lookup_find (fun x => ?_) _).symm)
    all_goals exact @beq_iff_eq _ instBEqOfDecidableEq _ _ _
  refine .object h1 (fun k hk => by rw [hl]; exact (repM_first h k).1 hk)
    (fun k _ _ => (lookup k m).getD .null) (fun k v hv => ?_) (fun k v hv => ?_)
  · obtain ⟨a, ha, -⟩ := (repM_first h k).2 v hv
    rw [hl, ha]; rfl
  · obtain ⟨a, ha, hr⟩ := (repM_first h k).2 v hv
    rw [ha]; exact hr

theorem members_arg {m : List (List Nat × Ast)} : (m.map fun x => [Obj.string x.1, Obj.value x.2]).mapM objectArg = some m := by
  induction m with
  | nil => rfl
  | cons x m ih =>
    rw [List.map_cons, List.mapM_cons, ih]
    rfl

theorem values_arg {as : List Ast} : (as.map fun a => [Obj.value a]).mapM arrayArg = some as := by
  induction as with
  | nil => rfl
  | cons x m ih =>
    rw [List.map_cons, List.mapM_cons, ih]
    rfl

theorem vals_mem {r a b c d e f g : VR} (h : r ∈ [a, b, c, d, e, f, g]) : r = a ∨ r = b ∨ r = c ∨ r = d ∨ r = e ∨ r = f ∨ r = g := by
  simpa only [List.mem_cons, List.not_mem_nil, or_false] using h

theorem vpair_mem {r a b : VR} (h : r ∈ [a, b]) : r = a ∨ r = b := by
  simpa only [List.mem_cons, List.not_mem_nil, or_false] using h

/-- A value and whitespace. -/
theorem value_value {s : List Nat} (hs : Units 256 s) (k : Nat) : ∀ (cur p q : Nat) (vs : List Val), q - p = k →
    VLang (venv s) cur W (.rule (.prod 1) vs) p q →
    ∃ t b j a, Means exampleLimits t (.value j) ∧ Blank b ∧ Seg s p q (t ++ b) ∧ Rep j a ∧ evalL s vs = some [.value a] ∧
      ∃ us, vs = [.call 1 us] := by
  induction k using Nat.strongRecOn with
  | _ k ih =>
    intro cur p q vs hk h
    obtain ⟨m, us, rfl, h1, h2, -⟩ := vprod (n := 1) rfl h
    cases h2 rfl
    obtain ⟨r, hr, h3⟩ := vl_chc_inv h1
    have hv : ∀ cur m l us, p < m → l ≤ q → VLang (venv s) cur W (.rule valueV us) m l →
        ∃ t b j a, Means exampleLimits t (.value j) ∧ Blank b ∧ Seg s m l (t ++ b) ∧ Rep j a ∧ evalL s us = some [.value a] ∧
          ∃ ws, us = [.call 1 ws] := by
      intro cur m l us h4 h5 h6
      by_cases hle : m ≤ l
      · exact ih (l - m) (by omega) cur m l us rfl (vl_recu_inv h6)
      · exact absurd (vlang_le h6) hle
    suffices hsuff : ∃ t b j a o, Means exampleLimits t (.value j) ∧ Blank b ∧ Seg s p q (t ++ b) ∧ Rep j a ∧ evalL s us = some [o] ∧
        mkValue [o] = some (.value a) by
      obtain ⟨t, b, j, a, o, g1, g2, g3, g4, g5, g6⟩ := hsuff
      exact ⟨t, b, j, a, g1, g2, g3, g4, evalL_one (eval_call g5 g6), us, rfl⟩
    rcases vals_mem hr with rfl | rfl | rfl | rfl | rfl | rfl | rfl
    · obtain ⟨m, b, ws, rfl, h4, hb, s1⟩ := vtok_prod hs rfl rfl h3
      obtain ⟨rfl, s2⟩ := vlit_none (by decide) h4
      exact ⟨_, b, _, _, .null, .null, hb, s2.append s1, .null, rfl, rfl⟩
    · obtain ⟨m, b, ws, rfl, h4, hb, s1⟩ := vtok_prod hs rfl rfl h3
      obtain ⟨r, hr, h5⟩ := vl_chc_inv h4
      rcases vpair_mem hr with rfl | rfl
      · obtain ⟨xs, rfl, h6⟩ := vpart_none (n := 4) rfl rfl h5
        obtain ⟨rfl, s2⟩ := vlit_none (by decide) h6
        exact ⟨_, b, _, _, .bool true, .true, hb, s2.append s1, .bool, rfl, rfl⟩
      · obtain ⟨xs, rfl, h6⟩ := vpart_none (n := 5) rfl rfl h5
        obtain ⟨rfl, s2⟩ := vlit_none (by decide) h6
        exact ⟨_, b, _, _, .bool false, .false, hb, s2.append s1, .bool, rfl, rfl⟩
    · obtain ⟨m, b, ws, rfl, h4, hb, s1⟩ := vtok_prod hs rfl rfl h3
      obtain ⟨t, n, ht, s2, e⟩ := number_value h4
      exact ⟨t, b, _, _, _, .number ht, hb, s2.append s1, .number, evalL_one e, rfl⟩
    · obtain ⟨t, b, cs, ht, hb, s1, e⟩ := string_value hs h3
      exact ⟨t, b, _, _, _, .string ht, hb, s1, .string, e, rfl⟩
    · obtain ⟨m, ws, rfl, h4, h5, -⟩ := vprod (n := 12) rfl h3
      cases h5 rfl
      obtain ⟨b, b', hb, hb', hx⟩ := list_value (X := List Nat × JV) hs (by decide) (by decide)
        (P := fun t us x => (∃ w k w1 w2 v w', t = w ++ k ++ w1 ++ 0x3A :: (w2 ++ v ++ w') ∧ Blank w ∧ StrV exampleLimits k x.1 ∧ Blank w1 ∧
          Blank w2 ∧ Means exampleLimits v (.value x.2) ∧ Blank w') ∧ (∃ u us', us = u :: us') ∧
          ∃ a, Rep x.2 a ∧ evalL s us = some [.string (encoded x.1), .value a])
        (Q := fun t calls xs => Means exampleLimits t (.members xs) ∧ ∃ m, RepM xs m ∧
          evalLL s calls = some (m.map fun x => [Obj.string x.1, Obj.value x.2]))
        (fun t us x h => h.2.1)
        (by
          rintro t us ⟨cs, j⟩ ⟨⟨w, k, w1, w2, v, w', rfl, h1, h2, h3, h4, h5, h6⟩, -, a, ha, he⟩
          refine ⟨.lastMember h1 h2 h3 h4 h5 h6, [(encoded cs, a)], .cons ha .nil, ?_⟩
          simp only [evalLL, he, Option.bind_some, List.map_cons, List.map_nil])
        (by
          rintro t us ⟨cs, j⟩ b u calls xs ⟨⟨w, k, w1, w2, v, w', rfl, h1, h2, h3, h4, h5, h6⟩, -, a, ha, he⟩ hb ⟨hm, m, hr, hl⟩
          refine ⟨?_, (encoded cs, a) :: m, .cons ha hr, ?_⟩
          · simpa using Means.moreMembers h1 h2 h3 h4 h5 h6 (means_members_blank hb hm)
          · simp only [evalLL, he, hl, Option.bind_some, List.map_cons])
        h4
        (by
          intro m l us h6 h7 h8
          obtain ⟨i, va, vb, rfl, h9, h10⟩ := vl_seq_inv h8
          obtain ⟨j, vc, vd, rfl, h11, h12⟩ := vl_seq_inv h10
          obtain ⟨k, w1, cs, hk, hw1, s2, e2⟩ := string_value hs h9
          obtain ⟨m', ws', rfl, -⟩ := vprod (n := 10) rfl h9
          obtain ⟨rfl, g11⟩ := vl_leaf_inv h11
          rw [erase_env] at g11
          obtain ⟨w2, hw2, s3⟩ := lit_ws hs (by decide) (lang_try g11)
          have e1 := s2.le
          have e3 := s3.le
          obtain ⟨v, w', x, a, hd, hw', s4, hr, he, -⟩ := hv _ j l vd (by omega) h7 h12
          refine ⟨_, (cs, x), ⟨⟨[], k, w1, w2, v, w', rfl, .nil, hk, hw1, hw2, hd, hw'⟩, ⟨_, _, rfl⟩, a, hr, ?_⟩, ?_⟩
          · exact evalL_append e2 he
          · simpa using s2.append (s3.append s4))
      rcases hx with ⟨rfl, s1⟩ | ⟨x, calls, ms, rfl, ⟨hm, m, hr, he⟩, s1⟩
      · refine ⟨_, b', _, .object (Cb.asCollectionSink.run []), _, .emptyObject hb, hb', by simpa using s1, rep_object .nil, rfl, rfl⟩
      · have hm := means_members_blank hb hm
        refine ⟨_, b', _, .object (Cb.asCollectionSink.run m), .object (Cb.asCollectionSink.run m), .object hm, hb', by simpa using s1,
          rep_object hr, ?_, rfl⟩
        refine evalL_one (eval_call (os := [.object (Cb.asCollectionSink.run m)]) (evalL_one ?_) rfl)
        rw [eval, he]
        simp only [Option.bind_some, sinkOf, members_arg, Option.map_some]
    · obtain ⟨m, ws, rfl, h4, h5, -⟩ := vprod (n := 11) rfl h3
      cases h5 rfl
      obtain ⟨b, b', hb, hb', hx⟩ := list_value (X := JV) hs (by decide) (by decide)
        (P := fun t us x => (∃ w v w', t = w ++ v ++ w' ∧ Blank w ∧ Means exampleLimits v (.value x) ∧ Blank w') ∧
          (∃ u us', us = u :: us') ∧ ∃ a, Rep x a ∧ evalL s us = some [.value a])
        (Q := fun t calls xs => Means exampleLimits t (.values xs) ∧ ∃ as, RepL xs as ∧
          evalLL s calls = some (as.map fun a => [Obj.value a]))
        (fun t us x h => h.2.1)
        (by
          rintro t us j ⟨⟨w, v, w', rfl, h1, h2, h3⟩, -, a, ha, he⟩
          refine ⟨.last h1 h2 h3, [a], .cons ha .nil, ?_⟩
          simp only [evalLL, he, Option.bind_some, List.map_cons, List.map_nil])
        (by
          rintro t us j b u calls xs ⟨⟨w, v, w', rfl, h1, h2, h3⟩, -, a, ha, he⟩ hb ⟨hm, as, hr, hl⟩
          refine ⟨.more h1 h2 h3 (means_values_blank hb hm), a :: as, .cons ha hr, ?_⟩
          simp only [evalLL, he, hl, Option.bind_some, List.map_cons])
        h4
        (by
          intro m l us h6 h7 h8
          obtain ⟨v, w', x, a, hd, hw', s4, hr, he, ws', rfl⟩ := hv _ m l us h6 h7 h8
          exact ⟨_, x, ⟨⟨[], v, w', rfl, .nil, hd, hw'⟩, ⟨_, _, rfl⟩, a, hr, he⟩, s4⟩)
      rcases hx with ⟨rfl, s1⟩ | ⟨x, calls, xs, rfl, ⟨hm, as, hr, he⟩, s1⟩
      · exact ⟨_, b', _, .array [], _, .emptyArray hb, hb', by simpa using s1, .array .nil, rfl, rfl⟩
      · have hm := means_values_blank hb hm
        refine ⟨_, b', _, .array as, .array as, .array hm, hb', by simpa using s1, .array hr, ?_, rfl⟩
        refine evalL_one (eval_call (os := [.array as]) (evalL_one ?_) rfl)
        rw [eval, he]
        simp only [Option.bind_some, sinkOf, values_arg, Option.map_some, (Cb.C55_list as .empty).1]
    · obtain ⟨rfl, h4⟩ := vl_leaf_inv h3
      exact (lang_err h4).elim

/-- A parse without errors. -/
theorem parse_value {s : List Nat} (hs : Units 256 s) {fuel : Nat} {r : VRes} {v : Val}
    (h : parseV (venv s) fuel 0 maxDepth = some (r, some v)) (hq : ∀ ev ∈ r.evs, ev.isError = false) :
    ∃ t rest j a, s = t ++ rest ∧ (rest = [] ∨ rest.head? = some 0xFF) ∧ TextMeans exampleLimits t j ∧ eval s v = some (.value a) ∧
      Rep j a := by
  obtain ⟨p, vs, rfl, h1, h2⟩ := C98_values (std s) (by rw [erase_env]; exact lits s) h hq
  rw [erase_env] at h1
  obtain ⟨w, hw, s1⟩ := gap_sound hs h1
  obtain ⟨l, va, vb, rfl, h3, h4⟩ := vl_seq_inv h2
  obtain ⟨t, w', j, a, hm, hw', s2, hr, he, -⟩ := value_value hs _ _ p l va rfl h3
  obtain ⟨rfl, h5⟩ := vl_leaf_inv h4
  rw [erase_env] at h5
  obtain ⟨e, evs, h7, h8, -, -⟩ := lang_prim h5
  have s3 := s1.append s2
  refine ⟨w ++ (t ++ w'), s.drop l, j, a, s3.2, ?_, ⟨w, t, w', by simp, hw, hm, hw'⟩,
    eval_call (evalL_append he (b := []) rfl) rfl, hr⟩
  have h9 : peekEof eof (s.drop l) = true := by
    cases h9 : peekEof eof (s.drop l) with
    | true => rfl
    | false =>
      have h10 : eofParse eof 12 s l = (true, e, evs) := h7
      unfold eofParse at h10
      simp only [h9, Bool.false_eq_true, if_false, Prod.mk.injEq] at h10
      have := h8 _ (by rw [← h10.2.2]; exact List.mem_singleton.2 rfl)
      cases this
  cases hd : s.drop l with
  | nil => exact .inl rfl
  | cons c t =>
    rw [hd] at h9
    simp only [peekEof, eof, beq_iff_eq, Option.some.injEq] at h9
    exact .inr (by rw [← h9]; rfl)

end Verif.Json
