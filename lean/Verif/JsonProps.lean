import Verif.JsonComplete
import Verif.TerminationProps

/-
C81, C82: the language of examples/json.cpp.

Source: /repo/examples/json.cpp
-/

namespace Verif.Json

open Verif Tot Spec.Json

/-! ## The top level -/

/-- If parsing is finished with one number of steps, then with more the result is the same. -/
theorem runGrammar_mono {E : Env} {n d k j : Nat} (hk : k ≤ j) {r : Res} (h : runGrammar E k n d = some r) :
    runGrammar E j n d = some r := by
  unfold runGrammar at h ⊢
  obtain ⟨r1, h1, rfl⟩ := emit_some.1 h
  refine emit_some.2 ⟨r1, ?_, rfl⟩
  unfold onOk' andThen at h1 ⊢
  cases h2 : exec E k ⟨(E.prods n).ws, d⟩ .ws { pos := 0 } with
  | none => rw [h2] at h1; cases h1
  | some x =>
    rw [h2] at h1
    rw [exec_mono hk h2]
    cases ho : x.out with
    | ok =>
      simp only [ho] at h1 ⊢
      cases h3 : exec E k ⟨(E.prods n).ws, d⟩ (.run (E.prods n).rule) x.st with
      | none => rw [h3] at h1; cases h1
      | some y =>
        rw [h3] at h1
        rw [exec_mono hk h3]
        exact h1
    | fail => simpa only [ho] using h1
    | brk => simpa only [ho] using h1

theorem accepts_det {k j : Nat} {s : List Nat} {a b : Bool} (h1 : accepts k s = some a) (h2 : accepts j s = some b) : a = b := by
  obtain ⟨r, e1, rfl⟩ := Option.map_eq_some_iff.1 h1
  obtain ⟨r', e2, rfl⟩ := Option.map_eq_some_iff.1 h2
  have f1 := runGrammar_mono (Nat.le_max_left k j) e1
  have f2 := runGrammar_mono (Nat.le_max_right k j) e2
  rw [f1] at f2
  rw [Option.some.inj f2]

/-- The end that the grammar looks for. -/
def AtEnd (rest : List Nat) : Prop := rest = [] ∨ rest.head? = some 0xFF

theorem text_segs {L : Limits} {n : Nat} {t rest : List Nat} (h : Text L n t) : ∃ v m l q w w', t = w ++ v ++ w' ∧ Derives L .value n v ∧ Blank w ∧ Blank w' ∧
    Seg (t ++ rest) 0 m w ∧ Seg (t ++ rest) m l v ∧ Seg (t ++ rest) l q w' ∧ (t ++ rest).drop q = rest := by
  obtain ⟨w, v, w', rfl, hw, hv, hw'⟩ := h
  have hS : Seg (w ++ v ++ w' ++ rest) 0 (w ++ v ++ w').length (w ++ v ++ w') :=
    ⟨by simp, by rw [List.drop_zero, List.drop_left]⟩
  obtain ⟨h1, h2⟩ := hS.split
  obtain ⟨h3, h4⟩ := h1.split
  exact ⟨v, _, _, _, w, w', rfl, hv, hw, hw', h3, h4, h2, by rw [List.drop_left]⟩

theorem atEnd_next {s rest : List Nat} {q : Nat} (hr : AtEnd rest) (hq : s.drop q = rest) : Next s q (· = 0xFF) := by
  intro c t h
  rw [h] at hq
  subst hq
  rcases hr with hr | hr
  · cases hr
  · simpa using hr

theorem complete {s t rest : List Nat} (hs : Units 256 s) (e : s = t ++ rest) (ht : Text exampleLimits maxDepth t) (hr : AtEnd rest) :
    ∃ fuel, accepts fuel s = some true := by
  subst e
  obtain ⟨v, m, l, q, w, w', -, hv, hw, hw', s1, s2, s3, hq⟩ := text_segs (rest := rest) ht
  have hn := atEnd_next hr hq
  obtain ⟨c, u, rfl, hc⟩ := value_start hv
  have hW := ws_ok (d := 0) hs hw s1 (next_seg s2 (start_not hc).1)
  have hV := derives_ok hs hv 0 rfl m l q w' s2 hw' s3 (hn.mono fun c h => .inr (.inr (.inr (.inr h))))
  have hE : Does (env (t ++ rest)) cW true 0 (.run (.prim (eofRule eof 12))) q q := by
    refine does_prim (m := q) (evs := [.token .eof q q]) ?_ (by simp [Ev.isError]) rfl
    show eofParse eof 12 (t ++ rest) q = _
    unfold eofParse
    rw [hq, if_pos]
    rcases hr with rfl | hr
    · rfl
    · cases rest with
      | nil => cases hr
      | cons c r => simp only [List.head?_cons, Option.some.injEq] at hr; subst hr; rfl
  obtain ⟨e1, q1, k1, h1⟩ := hW { pos := 0 } rfl rfl rfl
  obtain ⟨e2, q2, k2, h2⟩ := does_seq hV hE { pos := m } rfl rfl rfl
  refine ⟨max k1 k2, ?_⟩
  have f1 := exec_mono (Nat.le_max_left k1 k2) h1
  have f2 := exec_mono (Nat.le_max_right k1 k2) h2
  have : runGrammar (env (t ++ rest)) (max k1 k2) 0 maxDepth =
      some ⟨.ok, { pos := q }, [.grammarStart 0, .prodStart 0 0] ++ (e1 ++ e2 ++ [.prodFinish 0 q, .grammarFinish q])⟩ := by
    unfold runGrammar
    refine emit_some.2 ⟨⟨.ok, { pos := q }, e1 ++ e2 ++ [.prodFinish 0 q, .grammarFinish q]⟩, ?_, rfl⟩
    unfold onOk' andThen
    rw [show exec (env (t ++ rest)) (max k1 k2) ⟨((env (t ++ rest)).prods 0).ws, maxDepth⟩ .ws { pos := 0 } = _ from f1]
    simp only
    rw [show exec (env (t ++ rest)) (max k1 k2) ⟨((env (t ++ rest)).prods 0).ws, maxDepth⟩
      (.run ((env (t ++ rest)).prods 0).rule) { pos := m } = _ from f2]
    rfl
  unfold accepts
  rw [this]
  simp only [Option.map_some, Option.some.injEq, Bool.and_eq_true, beq_iff_eq, true_and, Bool.not_eq_true', List.any_eq_false,
    Bool.not_eq_true]
  intro ev hev
  simp only [List.mem_append, List.mem_cons, List.not_mem_nil, or_false] at hev
  rcases hev with (rfl | rfl) | (h | h) | (rfl | rfl)
  · rfl
  · rfl
  · exact q1 ev h
  · exact q2 ev h
  · rfl
  · rfl

theorem deep_rejected {s t rest : List Nat} (hs : Units 256 s) (e : s = t ++ rest) {n : Nat} (ht : Text exampleLimits n t)
    (hr : AtEnd rest) (hd : ¬ Text exampleLimits maxDepth t) (fuel : Nat) : accepts fuel s ≠ some true := by
  subst e
  obtain ⟨v, m, l, q, w, w', et, hv, hw, hw', s1, s2, s3, hq⟩ := text_segs (rest := rest) ht
  have hn := atEnd_next hr hq
  obtain ⟨c, u, ev, hc⟩ := value_start hv
  have hW := ws_ok (d := 0) hs hw s1 (by rw [ev] at s2; exact next_seg s2 (start_not hc).1)
  have hV := derives_bad hs hv 0 maxDepth rfl (fun h => hd ⟨w, v, w', et, hw, h, hw'⟩) m l q w' s2 hw' s3
    (hn.mono fun c h => .inr (.inr (.inr (.inr h))))
  intro h
  obtain ⟨r, h1, h2⟩ := Option.map_eq_some_iff.1 h
  have hB : Bad (runGrammar (env (t ++ rest)) fuel 0 maxDepth) := by
    unfold runGrammar
    refine bad_emit (bad_left ?_)
    unfold onOk'
    exact bad_right (st := { pos := m }) (fun r hr => does_det hW (st := { pos := 0 }) rfl rfl rfl r hr)
      (errs_seq_left hV fuel { pos := m } rfl rfl rfl)
  obtain ⟨e, he, hb⟩ := hB r h1
  simp only [Bool.and_eq_true, beq_iff_eq, Bool.not_eq_true', List.any_eq_false] at h2
  exact absurd hb (h2.2 e he)

/-! ## Parsing ends -/

theorem space_eats {E : Env} : Eats E (.tok space) := by
  refine .tok fun s hs => ?_
  have key : ∀ n, (CC.alt (AClass.cc .blank) (AClass.cc .newline)).tryParse .utf8 s = some n → n = 1 ∧ s ≠ [] := by
    intro n h
    unfold CC.tryParse at h
    split at h
    · rename_i ht
      refine ⟨(Option.some.inj h).symm, ?_⟩
      rintro rfl
      revert ht
      decide
    · cases h
  show 0 < min _ s.length
  replace hs : (match (CC.alt (AClass.cc .blank) (AClass.cc .newline)).tryParse .utf8 s with
    | some n => (true, n)
    | none => (false, 0)).1 = true := hs
  split at hs
  · rename_i n hn
    obtain ⟨rfl, h⟩ := key n hn
    have := List.length_pos_iff.2 h
    simp only [hn]
    omega
  · cases hs

theorem comma_eats {E : Env} : Eats E (lit [0x2C]) ∧ Moves E (lit [0x2C]) := by
  have : ∀ s, ((litTok eof 0 0 [0x2C]).run s).1 = true → 0 < ((litTok eof 0 0 [0x2C]).run s).2 := by
    intro s hs
    obtain ⟨t, ht⟩ := (lit_hit (by decide) s).1 hs
    have := (lit_run (eof := eof) (kind := 0) (tag := 0) (w := [0x2C]) (by decide) s 1).2 ⟨⟨t, ht⟩, rfl⟩
    rw [this]
    decide
  exact ⟨.tok this, .tok this⟩

/-- The recursive calls: of `json_value`, with the whitespace of `json`. -/
def Calls (k : Nat) (ws : Option Rule) (_ : List VarKey) : Prop := k = 1 ∧ ws = W

variable {s : List Nat} {V : List VarKey}

theorem skip_wf (w : Rule) (h : W = some w) : Wf (env s) Calls .skip false false none [] w := by
  cases h
  exact .stok rfl space_eats .mtok

theorem no_wf (w : Rule) (h : none = some w) : Wf (env s) Calls .skip false false none [] w := by cases h

theorem tokN {l b : Bool} {t : PTok} : Wf (env s) Calls .run l b none V (.tok t) := .tok no_wf
theorem tokS {l b : Bool} {t : PTok} : Wf (env s) Calls .run l b W V (.tok t) := .tok skip_wf

theorem tokProd {l b : Bool} {n : Nat} {ws : Option Rule} (hw : ∀ w, ws = some w → Wf (env s) Calls .skip false false none [] w)
    (ht : (prods n).isTok = true) (hn : (prods n).ws = none) (h : Wf (env s) Calls .run l false none V (prods n).rule) :
    Wf (env s) Calls .run l b ws V (.prod n) := by
  have e : subWs ws ((env s).prods n) = none := by
    show subWs ws (prods n) = none
    simp [subWs, hn, ht]
  exact .prod (by rw [e]; exact h) hw (by rw [e]; exact no_wf)

theorem plainProd {l b : Bool} {n : Nat} {ws : Option Rule} (hw : ∀ w, ws = some w → Wf (env s) Calls .skip false false none [] w)
    (ht : (prods n).isTok = false) (hn : (prods n).ws = none) (h : Wf (env s) Calls .run l false ws V (prods n).rule) :
    Wf (env s) Calls .run l b ws V (.prod n) := by
  have e : subWs ws ((env s).prods n) = ws := by
    show subWs ws (prods n) = ws
    simp [subWs, hn, ht]
  exact .prod (by rw [e]; exact h) hw (by rw [e]; exact hw)

theorem string_wf {b : Bool} : Wf (env s) Calls .run true b W V (.prod 10) :=
  tokProd (n := 10) skip_wf rfl rfl (.wsn (.br tokN (.prim no_wf)) no_wf)

theorem optList_wf {o c : Nat} {item : Rule} (hi : Wf (env s) Calls .run true false W V item) (hb : item.isBranch (env s) = false) :
    Wf (env s) Calls .run true false W V (optList o c item) := by
  have hb' : item.isBranch (env s) = true → False := by rw [hb]; nofun
  exact .br tokS (.optt tokS .ctok (.lstts tokS .ctok hi (fun h => (hb' h).elim) (fun h => (hb' h).elim) tokS .ctok
    comma_eats.1 comma_eats.2))

theorem value_wf : Wf (env s) Calls .run true false W V (.prod 1) := by
  have hval : Wf (env s) Calls .run true false W V value := .recu ⟨rfl, rfl⟩
  have h7 : ∀ {b}, Wf (env s) Calls .run true b none V (.prod 7) :=
    plainProd (n := 7) no_wf rfl rfl (.seq (.ifR tokN .ctok) (.prim no_wf))
  have h8 : ∀ {b}, Wf (env s) Calls .run true b none V (.prod 8) := plainProd (n := 8) no_wf rfl rfl (.br tokN tokN)
  have c2 : ∀ {x y : PTok}, Wf (env s) Calls .cond false false none V (.chc [.tok x, .tok y]) := by
    intro x y
    refine .cchc fun r hr => ?_
    rcases pair_mem hr with rfl | rfl <;> exact .ctok
  have r2 : ∀ {x y : PTok} {b}, Wf (env s) Calls .run true b none V (.chc [.tok x, .tok y]) := by
    intro x y b
    refine .chc (fun r hr => ?_) (fun r hr => ?_) <;> rcases pair_mem hr with rfl | rfl
    · exact tokN
    · exact tokN
    · exact .ctok
    · exact .ctok
  have h9 : ∀ {b}, Wf (env s) Calls .run true b none V (.prod 9) :=
    plainProd (n := 9) no_wf rfl rfl (.br r2 (.seq (.ifR r2 c2) (.prim no_wf)))
  refine plainProd (n := 1) skip_wf rfl rfl (.chc (fun r hr => ?_) (fun r hr => ?_)) <;>
    simp only [List.mem_cons, List.not_mem_nil, or_false] at hr
  · rcases hr with rfl | rfl | rfl | rfl | rfl | rfl | rfl
    · exact tokProd (n := 2) skip_wf rfl rfl tokN
    · refine tokProd (n := 3) skip_wf rfl rfl (.chc (fun r hr => ?_) (fun r hr => ?_)) <;> rcases pair_mem hr with rfl | rfl
      · exact plainProd (n := 4) no_wf rfl rfl tokN
      · exact plainProd (n := 5) no_wf rfl rfl tokN
      · exact .cprod rfl .ctok
      · exact .cprod rfl .ctok
    · exact tokProd (n := 6) skip_wf rfl rfl (.br (.peek .mtok) (.seq h7 (.seq (.opt h8 (.cprod rfl (.cbr .ctok)))
        (.opt h9 (.cprod rfl (.cbr c2))))))
    · exact string_wf
    · exact plainProd (n := 12) skip_wf rfl rfl (optList_wf (.seq string_wf (.seq
        (.tryr tokS skip_wf (fun r h => by cases h; exact .els) (fun _ _ h => nomatch h) (fun _ _ h => nomatch h)) hval)) rfl)
    · exact plainProd (n := 11) skip_wf rfl rfl (optList_wf hval rfl)
    · exact .err fun _ h => nomatch h
  · rcases hr with rfl | rfl | rfl | rfl | rfl | rfl | rfl
    · exact .cprod rfl .ctok
    · refine .cprod rfl (.cchc fun r hr => ?_)
      rcases pair_mem hr with rfl | rfl
      · exact .cprod rfl .ctok
      · exact .cprod rfl .ctok
    · exact .cprod rfl (.cbr (.cpeek .mtok))
    · exact .cprod rfl (.cwsn (.cbr .ctok))
    · exact .cprod rfl (.cbr .ctok)
    · exact .cprod rfl (.cbr .ctok)
    · exact .cerr

/-- **C81.** Parsing ends, for every input. -/
theorem C81_ends (s : List Nat) : ∃ fuel b, ∀ k, fuel ≤ k → accepts k s = some b := by
  obtain ⟨fuel, r, -, h⟩ := C80_terminates (E := env s) (G := Calls) (n := 0) (d := maxDepth) (by decide)
    (fun k ws V h => by obtain ⟨rfl, rfl⟩ := h; exact value_wf)
    (.seq value_wf (.prim skip_wf)) skip_wf
  exact ⟨fuel, _, fun k hk => by unfold accepts; rw [h k hk]; rfl⟩

/-- **C81.** The grammar accepts exactly the JSON texts within its limits: what is before the end of the input, which is
    also where a byte 0xFF is. -/
theorem C81_accepts {s : List Nat} (hs : Units 256 s) {k : Nat} {b : Bool} (h : accepts k s = some b) :
    b = true ↔ ∃ t rest, s = t ++ rest ∧ Text exampleLimits 19 t ∧ (rest = [] ∨ rest.head? = some 0xFF) := by
  constructor
  · rintro rfl
    obtain ⟨t, rest, e, ⟨n, ht⟩, hr⟩ := sound hs h
    refine ⟨t, rest, e, Classical.byContradiction fun hd => ?_, hr⟩
    exact deep_rejected hs e ht hr hd k h
  · rintro ⟨t, rest, e, ht, hr⟩
    obtain ⟨j, hj⟩ := complete hs e ht hr
    exact accepts_det h hj

/-- A text with numbers, escapes, nested arrays and objects and whitespace: ` {"a" : [1, -2.5e+3, true], "\u00e9": "é\n"} `. -/
def sample : List Nat :=
  [0x20, 0x7B, 0x22, 0x61, 0x22, 0x20, 0x3A, 0x20, 0x5B, 0x31, 0x2C, 0x20, 0x2D, 0x32, 0x2E, 0x35, 0x65, 0x2B, 0x33, 0x2C, 0x20,
    0x74, 0x72, 0x75, 0x65, 0x5D, 0x2C, 0x20, 0x22, 0x5C, 0x75, 0x30, 0x30, 0x65, 0x39, 0x22, 0x3A, 0x20, 0x22, 0xC3, 0xA9, 0x5C,
    0x6E, 0x22, 0x7D, 0x20]

example : Units 256 sample ∧ accepts 60 sample = some true := by
  refine ⟨by unfold Units; decide, by decide +kernel⟩

/-- With a trailing comma, a missing quote, a leading zero, a number without digits: rejected. -/
example : accepts 60 [0x5B, 0x31, 0x2C, 0x5D] = some false ∧ accepts 60 [0x22, 0x61] = some false ∧
    accepts 60 [0x30, 0x31] = some false ∧ accepts 60 [0x2D] = some false := by
  refine ⟨?_, ?_, ?_, ?_⟩ <;> decide +kernel

/-! ## RFC 8259 -/

theorem _root_.Verif.Spec.Json.Chars.limits {L : Limits} {v : List Nat} (h : Chars L v) : Chars noLimits v := by
  induction h with
  | nil => exact .nil
  | unescaped h _ _ ih => exact .unescaped h trivial ih
  | escape h _ ih => exact .escape h ih
  | code ha hb hc hd _ ih => exact .code ha hb hc hd ih

theorem _root_.Verif.Spec.Json.Str.limits {L : Limits} {v : List Nat} (h : Str L v) : Str noLimits v := by
  obtain ⟨t, e, h⟩ := h
  exact ⟨t, e, h.limits⟩

theorem _root_.Verif.Spec.Json.Number.limits {L : Limits} {v : List Nat} (h : Number L v) : Number noLimits v := by
  obtain ⟨a, b, c, d, e, h1, h2, -, h3, h4⟩ := h
  refine ⟨a, b, c, d, e, h1, h2, trivial, h3, ?_⟩
  rcases h4 with h4 | ⟨x, y, z, e, h5, h6, h7, -⟩
  · exact .inl h4
  · exact .inr ⟨x, y, z, e, h5, h6, h7, trivial⟩

theorem _root_.Verif.Spec.Json.Derives.limits {L : Limits} {k : Part} {n : Nat} {v : List Nat} (h : Derives L k n v) :
    Derives noLimits k n v := by
  induction h with
  | null => exact .null
  | true => exact .true
  | false => exact .false
  | number h => exact .number h.limits
  | string h => exact .string h.limits
  | emptyArray h => exact .emptyArray h
  | array _ ih => exact .array ih
  | emptyObject h => exact .emptyObject h
  | object _ ih => exact .object ih
  | last h1 _ h2 ih => exact .last h1 ih h2
  | more h1 _ h2 _ ih ih' => exact .more h1 ih h2 ih'
  | lastMember h1 hk h2 h3 _ h4 ih => exact .lastMember h1 hk.limits h2 h3 ih h4
  | moreMembers h1 hk h2 h3 _ h4 _ ih ih' => exact .moreMembers h1 hk.limits h2 h3 ih h4 ih'

/-- A JSON text does not contain the byte 0xFF. -/
theorem text_no_ff {L : Limits} {n : Nat} {s : List Nat} (h : Text L n s) : 0xFF ∉ s := by
  have blank : ∀ {w}, Blank w → 0xFF ∉ w := by
    intro w hw hm
    have := hw _ hm
    omega
  have digits : ∀ {t : List Nat}, (∀ c ∈ t, Digit c) → 0xFF ∉ t := by
    intro t ht hm
    have := ht _ hm
    unfold Digit at this
    omega
  have number : ∀ {t}, Number L t → 0xFF ∉ t := by
    rintro t ⟨a, b, c, d, rfl, h1, h2, -, h3, h4⟩
    simp only [List.mem_append, not_or]
    refine ⟨⟨⟨?_, ?_⟩, ?_⟩, ?_⟩
    · rcases h1 with rfl | rfl <;> decide
    · rcases h2 with rfl | ⟨c, t, rfl, h1, h2, h3⟩
      · decide
      · simp only [List.mem_cons, not_or]
        exact ⟨by omega, digits h3⟩
    · rcases h3 with rfl | ⟨t, rfl, h⟩
      · nofun
      · simp only [List.mem_cons, not_or]
        exact ⟨by omega, digits h.2⟩
    · rcases h4 with rfl | ⟨x, y, z, rfl, h5, h6, h7, -⟩
      · nofun
      · simp only [List.mem_cons, List.mem_append, not_or]
        refine ⟨by omega, ?_, digits h7.2⟩
        rcases h6 with rfl | rfl | rfl <;> decide
  have chars : ∀ {t}, Chars L t → 0xFF ∉ t := by
    intro t h
    induction h with
    | nil => nofun
    | @unescaped v s h _ _ ih =>
      simp only [List.mem_append, not_or]
      refine ⟨?_, ih⟩
      have := h.2.2.2.1
      unfold Spec.utf8
      split
      · simp only [List.mem_cons, List.not_mem_nil, or_false]; omega
      · split
        · simp only [List.mem_cons, List.not_mem_nil, or_false]; omega
        · split
          · simp only [List.mem_cons, List.not_mem_nil, or_false]; omega
          · simp only [List.mem_cons, List.not_mem_nil, or_false]; omega
    | @escape c s h _ ih =>
      simp only [List.mem_cons, List.not_mem_nil, or_false, not_or] at h ⊢
      exact ⟨by omega, by omega, ih⟩
    | code ha hb hc hd _ ih =>
      unfold Hex Digit at ha hb hc hd
      simp only [List.mem_cons, not_or]
      exact ⟨by omega, by omega, by omega, by omega, by omega, by omega, ih⟩
  have str : ∀ {t}, Str L t → 0xFF ∉ t := by
    rintro t ⟨u, rfl, h⟩
    simp only [List.mem_cons, List.mem_append, List.not_mem_nil, or_false, not_or]
    exact ⟨by omega, chars h, by omega⟩
  have derives : ∀ {k n v}, Derives L k n v → 0xFF ∉ v := by
    intro k n v h
    induction h with
    | null => decide
    | true => decide
    | false => decide
    | number h => exact number h
    | string h => exact str h
    | emptyArray h =>
      simp only [List.mem_cons, List.mem_append, List.not_mem_nil, or_false, not_or]
      exact ⟨by omega, blank h, by omega⟩
    | array _ ih =>
      simp only [List.mem_cons, List.mem_append, List.not_mem_nil, or_false, not_or]
      exact ⟨by omega, ih, by omega⟩
    | emptyObject h =>
      simp only [List.mem_cons, List.mem_append, List.not_mem_nil, or_false, not_or]
      exact ⟨by omega, blank h, by omega⟩
    | object _ ih =>
      simp only [List.mem_cons, List.mem_append, List.not_mem_nil, or_false, not_or]
      exact ⟨by omega, ih, by omega⟩
    | last h1 _ h2 ih =>
      simp only [List.mem_append, not_or]
      exact ⟨⟨blank h1, ih⟩, blank h2⟩
    | more h1 _ h2 _ ih ih' =>
      simp only [List.mem_append, List.mem_cons, not_or]
      exact ⟨⟨⟨blank h1, ih⟩, blank h2⟩, by omega, ih'⟩
    | lastMember h1 hk h2 h3 _ h4 ih =>
      simp only [List.mem_append, List.mem_cons, not_or]
      exact ⟨⟨⟨blank h1, str hk⟩, blank h2⟩, by omega, ⟨blank h3, ih⟩, blank h4⟩
    | moreMembers h1 hk h2 h3 _ h4 _ ih ih' =>
      simp only [List.mem_append, List.mem_cons, not_or]
      exact ⟨⟨⟨blank h1, str hk⟩, blank h2⟩, by omega, ⟨⟨blank h3, ih⟩, blank h4⟩, by omega, ih'⟩
  obtain ⟨w, v, w', rfl, h1, h2, h3⟩ := h
  simp only [List.mem_append, not_or]
  exact ⟨⟨blank h1, derives h2⟩, blank h3⟩

/-- **C82, partial.** Of the inputs without the byte 0xFF only JSON texts are accepted. -/
theorem C82_sound_partial {s : List Nat} (hs : Units 256 s) {k : Nat} (h : accepts k s = some true) (hf : 0xFF ∉ s) :
    ∃ n, Text noLimits n s := by
  obtain ⟨t, rest, rfl, ⟨w, v, w', e, h1, h2, h3⟩, hr⟩ := (C81_accepts hs h).1 rfl
  have : rest = [] := by
    rcases hr with rfl | hr
    · rfl
    · cases rest with
      | nil => cases hr
      | cons c r =>
        simp only [List.head?_cons, Option.some.injEq] at hr
        subst hr
        exact absurd (by simp) hf
  subst this
  exact ⟨maxDepth, w, v, w', by rw [List.append_nil, e], h1, h2.limits, h3⟩

/-- **C82, partial.** JSON texts within the limits are accepted; they contain no byte 0xFF. -/
theorem C82_complete_partial {s : List Nat} (hs : Units 256 s) (h : Text exampleLimits 19 s) :
    ∃ k, accepts k s = some true := complete hs (by rw [List.append_nil]) h (.inl rfl)

/-- **C82 is false**: what follows a byte 0xFF is ignored, as it is the code unit for EOF in UTF-8.  `1` followed by this
    byte and `x` is accepted, but no JSON text. -/
theorem C82_garbage_refuted : accepts 60 [0x31, 0xFF, 0x78] = some true ∧ ∀ n, ¬ Text noLimits n [0x31, 0xFF, 0x78] :=
  ⟨by decide +kernel, fun _ h => text_no_ff h (by decide)⟩

theorem not_accepted {j : Nat} {s : List Nat} (h : accepts j s = some false) (k : Nat) : accepts k s ≠ some true :=
  fun h' => nomatch accepts_det h h'

/-- The control characters above 0x20 are allowed in strings by the RFC, but the grammar rejects them: U+007F and U+0085. -/
theorem C82_control_refuted :
    (Text noLimits 0 [0x22, 0x7F, 0x22] ∧ ∀ k, accepts k [0x22, 0x7F, 0x22] ≠ some true) ∧
      (Text noLimits 0 [0x22, 0xC2, 0x85, 0x22] ∧ ∀ k, accepts k [0x22, 0xC2, 0x85, 0x22] ≠ some true) := by
  have nil : Blank [] := nofun
  refine ⟨⟨⟨[], [0x22, 0x7F, 0x22], [], rfl, nil, .string ⟨[0x7F], rfl, ?_⟩, nil⟩, not_accepted (j := 60) (by decide +kernel)⟩,
    ⟨[], [0x22, 0xC2, 0x85, 0x22], [], rfl, nil, .string ⟨[0xC2, 0x85], rfl, ?_⟩, nil⟩, not_accepted (j := 60) (by decide +kernel)⟩
  · exact .unescaped (v := 0x7F) (by unfold Unescaped; decide) trivial .nil
  · exact .unescaped (v := 0x85) (by unfold Unescaped; decide) trivial .nil

/-- The smallest `int64_t` is rejected: the digits are converted without the sign. -/
theorem C82_min_refuted : ∃ t, Units 256 t ∧ Text noLimits 0 t ∧ t = (toString (-(2 ^ 63 : Int))).toList.map Char.toNat ∧
    ∀ k, accepts k t ≠ some true := by
  have nil : Blank [] := nofun
  refine ⟨[0x2D, 0x39, 0x32, 0x32, 0x33, 0x33, 0x37, 0x32, 0x30, 0x33, 0x36, 0x38, 0x35, 0x34, 0x37, 0x37, 0x35, 0x38, 0x30, 0x38],
    by unfold Units; decide, ⟨[], _, [], by rw [List.append_nil]; rfl, nil, .number ?_, nil⟩, by decide +kernel,
    not_accepted (j := 60) (by decide +kernel)⟩
  refine ⟨[0x2D], _, [], [], by rw [List.append_nil, List.append_nil]; rfl, .inr rfl, .inr ⟨_, _, rfl, by omega, by omega, ?_⟩, trivial,
    .inl rfl, .inl rfl⟩
  unfold Digit
  decide

/-- Twenty nested arrays around a number are rejected. -/
theorem C82_depth_refuted : let t := List.replicate 20 0x5B ++ [0x31] ++ List.replicate 20 0x5D
    Text noLimits 20 t ∧ ∀ k, accepts k t ≠ some true := by
  have nil : Blank [] := nofun
  have nest : ∀ n, Derives noLimits .value n (List.replicate n 0x5B ++ [0x31] ++ List.replicate n 0x5D) := by
    intro n
    induction n with
    | zero => exact .number ⟨[], [0x31], [], [], rfl, .inl rfl, .inr ⟨0x31, [], rfl, by omega, by omega, nofun⟩, trivial, .inl rfl, .inl rfl⟩
    | succ n ih =>
      have := Derives.array (.last nil ih nil)
      rw [List.replicate_succ, List.replicate_succ']
      simpa using this
  exact ⟨⟨[], _, [], by rw [List.append_nil]; rfl, nil, nest 20, nil⟩, not_accepted (j := 300) (by decide +kernel)⟩

end Verif.Json
