import Verif.XmlComplete

/-
C89, C90: the language of examples/xml.cpp.

Source: /repo/examples/xml.cpp
-/

namespace Verif.Xml

open Spec.Xml

/-! ## The top level -/

theorem okTo_runGrammar {E : Env} {k n d : Nat} {s' : St} : OkTo (runGrammar E k n d) s' ↔
    ∃ s1, Runs E k ⟨(E.prods n).ws, d⟩ .ws { pos := 0 } s1 ∧ Runs E k ⟨(E.prods n).ws, d⟩ (.run (E.prods n).rule) s1 s' := by
  unfold runGrammar
  simp only
  rw [okTo_emit]
  constructor
  · rintro ⟨-, e, hq, h⟩
    obtain ⟨r1, r2, h1, h2, h3⟩ := andThen_some.1 h
    obtain ⟨o, s, e1⟩ := r1
    simp only [Res.mk.injEq] at h3
    obtain ⟨h4, h5, rfl⟩ := h3
    cases o with
    | ok =>
      cases h2
      subst h5
      exact okTo_onOk'.1 ⟨e1, hq.left, h1⟩
    | fail => cases h2; cases h4
    | brk => cases h2
  · intro h
    obtain ⟨e, hq, h⟩ := okTo_onOk'.2 h
    refine ⟨?_, e ++ [.prodFinish n s'.pos, .grammarFinish s'.pos], quiet_append.2 ⟨hq, ?_⟩, andThen_some.2 ⟨_, _, h, rfl, rfl⟩⟩ <;>
      · intro ev hev
        simp only [List.mem_cons, List.not_mem_nil, or_false] at hev
        rcases hev with rfl | rfl <;> rfl

theorem accepts_iff {k : Nat} {s : List Nat} : accepts k s = some true ↔ ∃ s', OkTo (runGrammar (env s) k 0 1024) s' := by
  unfold accepts
  rw [Option.map_eq_some_iff]
  constructor
  · rintro ⟨⟨o, st, evs⟩, h1, h2⟩
    simp only [Bool.and_eq_true, beq_iff_eq, Bool.not_eq_true', List.any_eq_false] at h2
    obtain ⟨rfl, h2⟩ := h2
    exact ⟨st, evs, fun ev hev => by simpa using h2 ev hev, h1⟩
  · rintro ⟨st, evs, hq, h⟩
    refine ⟨_, h, ?_⟩
    simp only [Bool.and_eq_true, beq_iff_eq, Bool.not_eq_true', List.any_eq_false, true_and]
    exact fun ev hev => by simpa using hq ev hev

theorem accepts_det {k j : Nat} {s : List Nat} {a b : Bool} (h1 : accepts k s = some a) (h2 : accepts j s = some b) : a = b := by
  obtain ⟨r, e1, rfl⟩ := Option.map_eq_some_iff.1 h1
  obtain ⟨r', e2, rfl⟩ := Option.map_eq_some_iff.1 h2
  have f1 := runGrammar_mono (Nat.le_max_left k j) e1
  have f2 := runGrammar_mono (Nat.le_max_right k j) e2
  rw [f1] at f2
  rw [Option.some.inj f2]

/-- The end that the grammar looks for. -/
def AtEnd (rest : List Nat) : Prop := rest = [] ∨ rest.head? = some 0xFF

theorem eof_iff (r : List Nat) : peekEof eof r = true ↔ AtEnd r := by
  cases r with
  | nil => simp [peekEof, AtEnd]
  | cons c r =>
    simp only [peekEof, AtEnd, eof, List.head?_cons, reduceCtorEq, false_or, beq_iff_eq, Option.some.injEq]
    exact eq_comm

theorem sound {s : List Nat} (hs : Units 256 s) {k : Nat} (h : accepts k s = some true) :
    ∃ t rest, s = t ++ rest ∧ Document example_ 1024 t ∧ AtEnd rest := by
  obtain ⟨s', h⟩ := accepts_iff.1 h
  obtain ⟨s0, h0, h⟩ := okTo_runGrammar.1 h
  obtain ⟨_, -, h0'⟩ := runs_step h0
  have := ((okTo_ret (o := .ok) (st := { pos := 0 })).1 h0').2
  subst this
  obtain ⟨_, -, s1, h1, h⟩ := runs_seq h
  obtain ⟨_, -, s2, h2, h⟩ := runs_seq h
  obtain ⟨_, -, s3, h3, h⟩ := runs_seq h
  obtain ⟨m, hm, q1, rfl, g1⟩ := misc_went hs h1
  obtain ⟨e, he, q2, rfl, g2⟩ := element_went hs _ _ _ rfl (Nat.zero_le _) h2
  obtain ⟨m', hm', q3, rfl, g3⟩ := misc_went hs h3
  obtain ⟨q, evs, h4, h5, -⟩ := runs_prim rfl h
  have hq : peekEof eof (s.drop q3) = true := by
    replace h4 : (true, q3, if peekEof eof (s.drop q3) then [Ev.token .eof q3 q3] else [.error 10 q3 q3]) = (true, q, evs) := h4
    by_cases hq : peekEof eof (s.drop q3) = true
    · exact hq
    · rw [if_neg hq] at h4
      cases h4
      exact nomatch h5 (.error 10 q3 q3) (by simp)
  have g := g1.append (g2.append g3)
  refine ⟨m ++ (e ++ m'), s.drop q3, ?_, ⟨m, e, m', rfl, hm, he, hm'⟩, (eof_iff _).1 hq⟩
  exact g.2

theorem complete {s t rest : List Nat} (hs : Units 256 s) (e : s = t ++ rest) (ht : Document example_ 1024 t) (hr : AtEnd rest) :
    ∃ k, accepts k s = some true := by
  obtain ⟨m, el, m', rfl, hm, he, hm'⟩ := ht
  have hseg : Seg s 0 (m ++ (el ++ m')).length (m ++ (el ++ m')) := by
    rw [← Nat.zero_add (m ++ (el ++ m')).length]
    exact .of_prefix (by rw [e]; exact List.prefix_append _ _) rfl
  have hd : s.drop (m ++ (el ++ m')).length = rest := by rw [e, List.drop_left]
  generalize (m ++ (el ++ m')).length = q at hseg hd
  obtain ⟨s1, s2⟩ := hseg.split
  obtain ⟨s3, s4⟩ := s2.split
  obtain ⟨c, r, h1, hc⟩ := element_start he
  have hlt : s.drop (0 + m.length) = 0x3C :: c :: (r ++ s.drop (0 + m.length + el.length)) := by
    rw [s3.2, h1]
    rfl
  have d1 : Does (env s) C true 0 (.run misc) 0 (0 + m.length) := by
    refine misc_does hs hm s1 ?_ ?_
    · rw [hlt]
      rintro u ⟨⟩
      simp only [example_]
      omega
    · rw [hlt]
      rintro ⟨z, hz⟩
      simp only [List.cons_append, List.cons.injEq] at hz
      unfold NameStart at hc
      omega
  have d2 : Does (env s) C true 0 (.run (.prod 1)) (0 + m.length) (0 + m.length + el.length) := claims hs he _ _ 0 s3 (by decide)
  have d3 : Does (env s) C true 0 (.run misc) (0 + m.length + el.length) q := by
    refine misc_does hs hm' s4 ?_ ?_ <;> rw [hd]
    · intro u hu
      rcases hr with rfl | hr
      · cases hu
      · rw [hr] at hu
        cases hu
        simp only [example_]
        omega
    · intro hp
      have := prefix_head rfl hp
      rcases hr with rfl | hr
      · cases this
      · rw [hr] at this
        cases this
  have d4 : Does (env s) C true 0 (.run (.prim (eofRule eof 10))) q q := by
    refine does_prim (m := q) (evs := [.token .eof q q]) ?_ (by simp [Ev.isError]) rfl
    show eofParse eof 10 s q = _
    unfold eofParse
    rw [hd, if_pos ((eof_iff _).2 hr)]
  obtain ⟨k, h⟩ := (does_seq d1 (does_seq d2 (does_seq d3 d4))).reaches (st := { pos := 0 }) rfl rfl rfl
  refine ⟨k + 1, accepts_iff.2 ⟨_, okTo_runGrammar.2 ⟨{ pos := 0 }, ⟨[], quiet_nil, rfl⟩, h.mono (Nat.le_succ k)⟩⟩⟩

/-- **C89.** If parsing ends, it accepts exactly the documents within the limit of the depth: what is before the end of the
    input, which is also where a byte 0xFF is. -/
theorem C89_accepts {s : List Nat} (hs : Units 256 s) {k : Nat} {b : Bool} (h : accepts k s = some b) :
    b = true ↔ ∃ t rest, s = t ++ rest ∧ Document example_ 1024 t ∧ (rest = [] ∨ rest.head? = some 0xFF) := by
  constructor
  · rintro rfl
    exact sound hs h
  · rintro ⟨t, rest, e, ht, hr⟩
    obtain ⟨j, hj⟩ := complete hs e ht hr
    exact accepts_det h hj

/-- **C89.** On a document, parsing ends with success. -/
theorem C89_complete {s t rest : List Nat} (hs : Units 256 s) (e : s = t ++ rest) (ht : Document example_ 1024 t)
    (hr : rest = [] ∨ rest.head? = some 0xFF) : ∃ k, ∀ j, k ≤ j → accepts j s = some true := by
  obtain ⟨k, h⟩ := complete hs e ht hr
  refine ⟨k, fun j hj => ?_⟩
  obtain ⟨r, e1, h2⟩ := Option.map_eq_some_iff.1 h
  exact Option.map_eq_some_iff.2 ⟨r, runGrammar_mono hj e1, h2⟩

/-- `<!--c--><a ><b>x&lt;é</b ><c/><![CDATA[<]]]></a> ` -/
def sample : List Nat :=
  [0x3C, 0x21, 0x2D, 0x2D, 0x63, 0x2D, 0x2D, 0x3E, 0x3C, 0x61, 0x20, 0x3E, 0x3C, 0x62, 0x3E, 0x78, 0x26, 0x6C, 0x74, 0x3B, 0xC3, 0xA9,
    0x3C, 0x2F, 0x62, 0x20, 0x3E, 0x3C, 0x63, 0x2F, 0x3E, 0x3C, 0x21, 0x5B, 0x43, 0x44, 0x41, 0x54, 0x41, 0x5B, 0x3C, 0x5D, 0x5D, 0x5D,
    0x3E, 0x3C, 0x2F, 0x61, 0x3E, 0x20]

example : Units 256 sample ∧ accepts 200 sample = some true := by
  refine ⟨by unfold Units; decide, by decide +kernel⟩

/-- `<a></b>`, `<a>`, `<a/><a/>`, `<a>&x;</a>`, and nothing at all: rejected. -/
example : accepts 200 [0x3C, 0x61, 0x3E, 0x3C, 0x2F, 0x62, 0x3E] = some false ∧ accepts 200 [0x3C, 0x61, 0x3E] = some false ∧
    accepts 200 [0x3C, 0x61, 0x2F, 0x3E, 0x3C, 0x61, 0x2F, 0x3E] = some false ∧
    accepts 200 [0x3C, 0x61, 0x3E, 0x26, 0x78, 0x3B, 0x3C, 0x2F, 0x61, 0x3E] = some false ∧ accepts 200 [] = some false := by
  refine ⟨?_, ?_, ?_, ?_, ?_⟩ <;> decide +kernel

/-! ## XML itself -/

theorem xmlChar_scalar {v : Nat} (h : XmlChar v) : Spec.IsScalar v := by
  unfold XmlChar at h
  unfold Spec.IsScalar
  omega

theorem utf8_ne_ff {v : Nat} (hv : Spec.IsScalar v) : ∀ x ∈ Spec.utf8 v, x ≠ 0xFF := by
  unfold Spec.IsScalar at hv
  unfold Spec.utf8
  intro x hx
  split at hx
  · simp only [List.mem_cons, List.not_mem_nil, or_false] at hx
    omega
  · split at hx
    · simp only [List.mem_cons, List.not_mem_nil, or_false] at hx
      omega
    · split at hx <;> simp only [List.mem_cons, List.not_mem_nil, or_false] at hx <;> omega

theorem utf8_first {v c : Nat} {r t : List Nat} (hv : XmlChar v) (h : Spec.utf8 v ++ t = c :: r) (hc : c < 128) : v = c := by
  obtain ⟨a, b, h1, -, -, h2⟩ := utf8_tail (xmlChar_scalar hv)
  rw [h1] at h
  simp only [List.cons_append, List.cons.injEq] at h
  rw [h.1] at h2
  exact h2 hc

theorem comment_ok {t : List Nat} (h : XmlComment t) : example_.comment t := by
  have key : ∀ {v : Nat}, XmlChar v → v ≠ 0x2D → ∀ t, ¬ [0x2D, 0x2D, 0x3E] <+: Spec.utf8 v ++ t := by
    rintro v hv h t ⟨z, hz⟩
    exact h (utf8_first hv hz.symm (by decide))
  induction h with
  | nil => exact ⟨nofun, nofun⟩
  | @char v t hv h _ ih =>
    refine ⟨fun x hx => ?_, firstEnd_cons (xmlChar_scalar hv) ⟨_, _, rfl, by decide⟩ (by rw [List.append_assoc]; exact key hv h _) ih.2⟩
    rcases List.mem_append.1 hx with hx | hx
    · exact utf8_ne_ff (xmlChar_scalar hv) x hx
    · exact ih.1 x hx
  | @dash v t hv h _ ih =>
    have h1 : FirstEnd [0x2D, 0x2D, 0x3E] (Spec.utf8 v ++ t) :=
      firstEnd_cons (xmlChar_scalar hv) ⟨_, _, rfl, by decide⟩ (by rw [List.append_assoc]; exact key hv h _) ih.2
    refine ⟨fun x hx => ?_, ?_⟩
    · rcases List.mem_cons.1 hx with rfl | hx
      · decide
      rcases List.mem_append.1 hx with hx | hx
      · exact utf8_ne_ff (xmlChar_scalar hv) x hx
      · exact ih.1 x hx
    · refine firstEnd_cons (v := 0x2D) (by decide) ⟨_, _, rfl, by decide⟩ ?_ h1
      rintro ⟨z, hz⟩
      rw [utf8_ascii (by decide)] at hz
      simp only [List.cons_append, List.nil_append, List.cons.injEq, true_and, List.append_assoc] at hz
      have hz' : Spec.utf8 v ++ (t ++ [0x2D, 0x2D, 0x3E]) = 0x2D :: 0x3E :: z := by rw [← List.append_assoc]; exact hz.symm
      exact h (utf8_first hv hz' (by decide))

theorem space_ok {w : List Nat} (h : Space xml w) : Space example_ w := by
  intro c hc
  have := h c hc
  simp only [xml] at this
  simp only [example_]
  omega

theorem derives_ok {part : Part} {b : Nat} {w : List Nat} (h : Derives xml part b w) : Derives example_ part b w := by
  have text : ∀ {t : List Nat}, Text xml t → Text example_ t := fun ht => ⟨ht.1.mono fun v hv => ⟨trivial, hv.2⟩, trivial⟩
  induction h with
  | empty hn hw => exact .empty hn (space_ok hw)
  | element hn hw _ hw' ih => exact .element hn (space_ok hw) ih (space_ok hw')
  | text ht => exact .text (text ht)
  | more ht _ _ ih1 ih2 => exact .more (text ht) ih1 ih2
  | child _ ih => exact .child ih
  | comment hc => obtain ⟨t, rfl, h⟩ := hc; exact .comment ⟨t, rfl, comment_ok h⟩
  | cdata hc => obtain ⟨t, rfl, h, h'⟩ := hc; exact .cdata ⟨t, rfl, h.mono fun _ _ => trivial, h'⟩
  | reference hr => exact .reference hr

theorem misc_ok {m : List Nat} (h : Misc xml m) : Misc example_ m := by
  induction h with
  | nil => exact .nil
  | space hc _ ih => exact .space (space_ok (w := [_]) (fun x hx => by rw [List.mem_singleton.1 hx]; exact hc) _ (by simp)) ih
  | comment hc _ ih => obtain ⟨t, rfl, h⟩ := hc; exact .comment ⟨t, rfl, comment_ok h⟩ ih

/-- **C90.** A document of this part of XML is accepted, if it is not nested too deeply (`C90_depth_refuted`). -/
theorem C90_complete_partial {s : List Nat} (hs : Units 256 s) (h : Document xml 1024 s) :
    ∃ k, ∀ j, k ≤ j → accepts j s = some true := by
  obtain ⟨m, e, m', rfl, h1, h2, h3⟩ := h
  exact C89_complete hs (List.append_nil _).symm ⟨m, e, m', rfl, misc_ok h1, derives_ok h2, misc_ok h3⟩ (.inl rfl)

/-! ## Where they differ -/

theorem chars_take {P : Nat → Prop} {c : Nat} {r : List Nat} (h : Chars P (c :: r)) (hc : c < 128) : P c ∧ Chars P r := by
  generalize he : c :: r = s at h
  cases h with
  | nil => cases he
  | @cons v t hv hp ht =>
    obtain ⟨a, b, h1, -, -, h2⟩ := utf8_tail hv
    have e := he
    rw [h1] at e
    simp only [List.cons_append, List.cons.injEq] at e
    have hva := h2 (by omega)
    rw [utf8_ascii (by omega)] at he
    simp only [List.cons_append, List.nil_append, List.cons.injEq] at he
    obtain ⟨rfl, rfl⟩ := he
    exact ⟨hp, ht⟩

/-- Characters of XML, one after the other, that begin with ASCII characters. -/
theorem chars_drop {P : Nat → Prop} : ∀ {a r : List Nat}, (∀ c ∈ a, c < 128) → Chars P (a ++ r) → Chars P r
  | [], _, _, h => h
  | _ :: _, _, ha, h => chars_drop (fun x hx => ha x (by simp [hx])) (chars_take h (ha _ (by simp))).2

theorem ascii_chars {t : List Nat} (h : ∀ x ∈ t, XmlChar x ∧ x < 128) : Chars XmlChar t := by
  induction t with
  | nil => exact .nil
  | cons x t ih =>
    have := Chars.cons (xmlChar_scalar (h x (by simp)).1) (h x (by simp)).1 (ih fun y hy => h y (by simp [hy]))
    rw [utf8_ascii (h x (by simp)).2] at this
    exact this

theorem space_chars {w : List Nat} (h : Space xml w) : Chars XmlChar w := by
  refine ascii_chars fun x hx => ?_
  have := h x hx
  simp only [xml] at this
  unfold XmlChar
  omega

theorem name_chars {n : List Nat} (h : Name n) : Chars XmlChar n := by
  obtain ⟨c, t, rfl, h1, h2⟩ := h
  have key : ∀ x, NameChar x → XmlChar x ∧ x < 128 := by
    intro x hx
    unfold NameChar NameStart at hx
    unfold XmlChar
    omega
  refine ascii_chars fun x hx => ?_
  rcases List.mem_cons.1 hx with rfl | hx
  · exact key _ (.inl h1)
  · exact key _ (h2 x hx)

theorem lit_chars {w : List Nat} (h : ∀ x ∈ w, 0x20 ≤ x ∧ x < 128) : Chars XmlChar w :=
  ascii_chars fun x hx => by have := h x hx; unfold XmlChar; omega

theorem xmlComment_chars {t : List Nat} (h : XmlComment t) : Chars XmlChar t := by
  induction h with
  | nil => exact .nil
  | char hv _ _ ih => exact .cons (xmlChar_scalar hv) hv ih
  | dash hv _ _ ih => exact (lit_chars (w := [0x2D]) (by decide)).append (.cons (xmlChar_scalar hv) hv ih)

theorem comment_chars {c : List Nat} (h : Comment xml c) : Chars XmlChar c := by
  obtain ⟨t, rfl, h⟩ := h
  exact ((lit_chars (by decide)).append (xmlComment_chars h)).append (lit_chars (by decide))

theorem derives_chars {part : Part} {b : Nat} {w : List Nat} (h : Derives xml part b w) : Chars XmlChar w := by
  have text : ∀ {t : List Nat}, Text xml t → Chars XmlChar t := fun ht => ht.1.mono fun v hv => hv.1
  induction h with
  | empty hn hw =>
    exact (((lit_chars (by decide)).append (name_chars hn)).append (space_chars hw)).append (lit_chars (by decide))
  | element hn hw _ hw' ih =>
    exact (((((lit_chars (by decide)).append (name_chars hn)).append (space_chars hw)).append (lit_chars (by decide))).append ih).append
      ((((lit_chars (by decide)).append (name_chars hn)).append (space_chars hw')).append (lit_chars (by decide)))
  | text ht => exact text ht
  | more ht _ _ ih1 ih2 => exact (text ht).append (ih1.append ih2)
  | child _ ih => exact ih
  | comment hc => exact comment_chars hc
  | cdata hc => obtain ⟨t, rfl, h, -⟩ := hc; exact ((lit_chars (by decide)).append h).append (lit_chars (by decide))
  | reference hr =>
    rcases hr with rfl | rfl | rfl | rfl | rfl <;> exact lit_chars (by decide)

theorem misc_chars {m : List Nat} (h : Misc xml m) : Chars XmlChar m := by
  induction h with
  | nil => exact .nil
  | space hc _ ih => exact (space_chars (w := [_]) (fun x hx => by rw [List.mem_singleton.1 hx]; exact hc)).append ih
  | comment hc _ ih => exact (comment_chars hc).append ih

/-- A document of XML consists of characters of XML. -/
theorem document_chars {b : Nat} {s : List Nat} (h : Document xml b s) : Chars XmlChar s := by
  obtain ⟨m, e, m', rfl, h1, h2, h3⟩ := h
  exact (misc_chars h1).append ((derives_chars h2).append (misc_chars h3))

/-- **C90**, refuted: a vertical tab as whitespace in a tag, `<a\v/>`, and a null character as text, `<a>\0</a>`. -/
theorem C90_control_refuted :
    (accepts 200 [0x3C, 0x61, 0x0B, 0x2F, 0x3E] = some true ∧ ∀ b, ¬ Document xml b [0x3C, 0x61, 0x0B, 0x2F, 0x3E]) ∧
    (accepts 200 [0x3C, 0x61, 0x3E, 0x00, 0x3C, 0x2F, 0x61, 0x3E] = some true ∧
      ∀ b, ¬ Document xml b [0x3C, 0x61, 0x3E, 0x00, 0x3C, 0x2F, 0x61, 0x3E]) := by
  refine ⟨⟨by decide +kernel, fun b h => ?_⟩, by decide +kernel, fun b h => ?_⟩
  · have h1 := chars_drop (a := [0x3C, 0x61]) (by decide) (document_chars h)
    have := (chars_take h1 (by decide)).1
    unfold XmlChar at this
    omega
  · have h1 := chars_drop (a := [0x3C, 0x61, 0x3E]) (by decide) (document_chars h)
    have := (chars_take h1 (by decide)).1
    unfold XmlChar at this
    omega

theorem utf8_not_trail {v c : Nat} {r t : List Nat} (hv : Spec.IsScalar v) (h : Spec.utf8 v ++ t = c :: r) (hc : 0x80 ≤ c) : 0xC2 ≤ c ∧ c < 0xF5 := by
  unfold Spec.IsScalar at hv
  unfold Spec.utf8 at h
  split at h
  · simp only [List.cons_append, List.cons.injEq] at h
    omega
  · split at h
    · simp only [List.cons_append, List.cons.injEq] at h
      omega
    · split at h <;> simp only [List.cons_append, List.cons.injEq] at h <;> omega

theorem chars_no_trail {P : Nat → Prop} {c : Nat} {r : List Nat} (hc : 0x80 ≤ c) (hc' : c < 0xC2 ∨ 0xF5 ≤ c) : ¬ Chars P (c :: r) := by
  intro h
  generalize he : c :: r = s at h
  cases h with
  | nil => cases he
  | cons hv => have := utf8_not_trail hv he.symm hc; omega

/-- **C90**, refuted: comments may have bytes that are not UTF-8, `<!--\x80--><a/>`; behind a byte 0xFF there may be anything,
    `<a/>\xFF<`. -/
theorem C90_utf8_refuted :
    (accepts 200 [0x3C, 0x21, 0x2D, 0x2D, 0x80, 0x2D, 0x2D, 0x3E, 0x3C, 0x61, 0x2F, 0x3E] = some true ∧
      ∀ b, ¬ Document xml b [0x3C, 0x21, 0x2D, 0x2D, 0x80, 0x2D, 0x2D, 0x3E, 0x3C, 0x61, 0x2F, 0x3E]) ∧
    (accepts 200 [0x3C, 0x61, 0x2F, 0x3E, 0xFF, 0x3C] = some true ∧ ∀ b, ¬ Document xml b [0x3C, 0x61, 0x2F, 0x3E, 0xFF, 0x3C]) := by
  refine ⟨⟨by decide +kernel, fun b h => ?_⟩, by decide +kernel, fun b h => ?_⟩
  · have h1 := chars_drop (a := [0x3C, 0x21, 0x2D, 0x2D]) (by decide) (document_chars h)
    exact chars_no_trail (by decide) (by decide) h1
  · have h1 := chars_drop (a := [0x3C, 0x61, 0x2F, 0x3E]) (by decide) (document_chars h)
    exact chars_no_trail (by decide) (by decide) h1

/-- **C90**, refuted: comments may have `--`, `<!----x--><a/>`. -/
theorem C90_comment_refuted :
    accepts 200 [0x3C, 0x21, 0x2D, 0x2D, 0x2D, 0x2D, 0x78, 0x2D, 0x2D, 0x3E, 0x3C, 0x61, 0x2F, 0x3E] = some true ∧
      ∀ b, ¬ Document xml b [0x3C, 0x21, 0x2D, 0x2D, 0x2D, 0x2D, 0x78, 0x2D, 0x2D, 0x3E, 0x3C, 0x61, 0x2F, 0x3E] := by
  refine ⟨by decide +kernel, ?_⟩
  rintro b ⟨m, e, m', he, hm, hel, -⟩
  cases hm with
  | nil =>
    obtain ⟨c, r, rfl, hc⟩ := element_start hel
    simp only [List.nil_append, List.cons_append, List.cons.injEq] at he
    unfold NameStart at hc
    omega
  | space hc _ =>
    simp only [List.cons_append, List.cons.injEq] at he
    simp only [xml] at hc
    omega
  | comment hc _ =>
    obtain ⟨t, rfl, ht⟩ := hc
    simp only [List.cons_append, List.nil_append, List.append_assoc, List.cons.injEq, true_and] at he
    cases ht with
    | nil => simp at he
    | char hv h _ =>
      rw [List.append_assoc] at he
      exact h (utf8_first hv he.symm (by decide))
    | dash hv h _ =>
      simp only [List.cons_append, List.append_assoc, List.cons.injEq, true_and] at he
      exact h (utf8_first hv he.symm (by decide))

/-- What is behind `<a>`. -/
theorem open_a {D : Dialect} (hD : ∀ c, D.space c → c ≤ 0x20) {b : Nat} {e rest x : List Nat} (h : Derives D .element b e)
    (he : e ++ rest = 0x3C :: 0x61 :: 0x3E :: x) : ∃ c w, Derives D .content b c ∧ Space D w ∧
      x = c ++ (0x3C :: 0x2F :: 0x61 :: (w ++ 0x3E :: rest)) := by
  have name : ∀ {n w r : List Nat} {y : Nat}, Name n → Space D w → n ++ (w ++ y :: r) = 0x61 :: 0x3E :: x → n = [0x61] ∧ w = [] ∧ y = 0x3E ∧ r = x := by
    rintro n w r y ⟨c, t, rfl, h1, h2⟩ hw he
    simp only [List.cons_append, List.cons.injEq] at he
    obtain ⟨rfl, he⟩ := he
    cases t with
    | cons d t =>
      simp only [List.cons_append, List.cons.injEq] at he
      have := h2 d (by simp)
      unfold NameChar NameStart at this
      omega
    | nil =>
      cases w with
      | cons d w =>
        simp only [List.nil_append, List.cons_append, List.cons.injEq] at he
        have := hD d (hw d (by simp))
        omega
      | nil =>
        simp only [List.nil_append, List.cons.injEq] at he
        exact ⟨rfl, rfl, he.1, he.2⟩
  generalize hp : Part.element = part at h
  cases h with
  | @empty b n w hn hw =>
    simp only [List.cons_append, List.nil_append, List.append_assoc, List.cons.injEq, true_and] at he
    have := (name hn hw he).2.2.1
    omega
  | @element b n w c w' hn hw hc hw' =>
    simp only [List.cons_append, List.nil_append, List.append_assoc, List.cons.injEq, true_and] at he
    obtain ⟨rfl, rfl, -, rfl⟩ := name hn hw he
    exact ⟨c, w', hc, hw', by simp⟩
  | _ => cases hp

/-- Text up to a `<` or `&`. -/
theorem text_span {D : Dialect} {t r a x : List Nat} {y : Nat} (ht : Text D t) (hy : y = 0x3C ∨ y = 0x26) (ha : ∀ c ∈ a, c < 128 ∧ c ≠ 0x3C ∧ c ≠ 0x26)
    (h : t ++ y :: r = a ++ 0x3C :: x) : t = a := by
  obtain ⟨ht, -⟩ := ht
  induction a generalizing t with
  | nil =>
    cases ht with
    | nil => rfl
    | @cons v t hv hp _ =>
      exfalso
      obtain ⟨c, r, h1, -, -, h2⟩ := utf8_tail hv
      rw [h1] at h
      simp only [List.cons_append, List.nil_append, List.cons.injEq] at h
      have := hp.2
      omega
  | cons c a ih =>
    cases t with
    | nil =>
      simp only [List.nil_append, List.cons_append, List.cons.injEq] at h
      have := ha c (by simp)
      omega
    | cons d t =>
      simp only [List.cons_append, List.cons.injEq] at h
      obtain ⟨rfl, h⟩ := h
      rw [ih (fun x hx => ha x (by simp [hx])) h (chars_take ht (ha d (by simp)).1).2]

theorem item_start {D : Dialect} {b : Nat} {w : List Nat} (h : Derives D .item b w) : ∃ y r, w = y :: r ∧ (y = 0x3C ∨ y = 0x26) := by
  generalize hp : Part.item = part at h
  cases h with
  | child he => obtain ⟨c, r, rfl, -⟩ := element_start he; exact ⟨_, _, rfl, .inl rfl⟩
  | comment hc => obtain ⟨t, rfl, -⟩ := hc; exact ⟨_, _, rfl, .inl rfl⟩
  | cdata hc => obtain ⟨t, rfl, -⟩ := hc; exact ⟨_, _, rfl, .inl rfl⟩
  | reference hr => rcases hr with rfl | rfl | rfl | rfl | rfl <;> exact ⟨_, _, rfl, .inr rfl⟩
  | _ => cases hp

theorem misc_not_a {D : Dialect} (hD : ∀ c, D.space c → c ≤ 0x20) {m r x : List Nat} {y : Nat} (hy : y ≠ 0x21) (hm : Misc D m)
    (h : m ++ r = 0x3C :: y :: x) : m = [] := by
  cases hm with
  | nil => rfl
  | space hc _ =>
    simp only [List.cons_append, List.cons.injEq] at h
    have := hD _ hc
    omega
  | comment hc _ =>
    obtain ⟨t, rfl, ht⟩ := hc
    simp only [List.cons_append, List.nil_append, List.append_assoc, List.cons.injEq, true_and] at h
    omega

theorem xml_space {c : Nat} (h : xml.space c) : c ≤ 0x20 := by
  simp only [xml] at h
  omega

/-- **C90**, refuted: `]]>` in the text, `<a>]]></a>`. -/
theorem C90_text_refuted : accepts 200 [0x3C, 0x61, 0x3E, 0x5D, 0x5D, 0x3E, 0x3C, 0x2F, 0x61, 0x3E] = some true ∧
    ∀ b, ¬ Document xml b [0x3C, 0x61, 0x3E, 0x5D, 0x5D, 0x3E, 0x3C, 0x2F, 0x61, 0x3E] := by
  refine ⟨by decide +kernel, ?_⟩
  rintro b ⟨m, e, m', he, hm, hel, -⟩
  have := misc_not_a (fun _ => xml_space) (by decide) hm he.symm
  subst this
  obtain ⟨c, w, hc, -, h⟩ := open_a (fun _ => xml_space) hel he.symm
  have bad : ¬ Text xml [0x5D, 0x5D, 0x3E] := fun ht => ht.2 List.infix_rfl
  generalize hp : Part.content = part at hc
  cases hc with
  | text ht =>
    have := text_span (a := [0x5D, 0x5D, 0x3E]) ht (.inl rfl) (by decide) h.symm
    subst this
    exact bad ht
  | more ht hi _ =>
    obtain ⟨y, r, rfl, hy⟩ := item_start hi
    simp only [List.append_assoc, List.cons_append] at h
    have := text_span (a := [0x5D, 0x5D, 0x3E]) ht hy (by decide) h.symm
    subst this
    exact bad ht
  | _ => cases hp

/-! ## The depth -/

/-- Start tags and end tags, `n` times. -/
def opens : Nat → List Nat → List Nat
  | 0, x => x
  | n + 1, x => 0x3C :: 0x61 :: 0x3E :: opens n x

def nested : Nat → List Nat
  | 0 => [0x3C, 0x61, 0x2F, 0x3E]
  | n + 1 => [0x3C, 0x61, 0x3E] ++ nested n ++ [0x3C, 0x2F, 0x61, 0x3E]

theorem nested_xml (D : Dialect) (h : D.text []) (n : Nat) : Derives D .element n (nested n) := by
  have hn : Name [0x61] := ⟨0x61, [], rfl, .inr (.inr (.inr (by decide))), nofun⟩
  induction n with
  | zero => exact .empty (w := []) hn nofun
  | succ n ih =>
    have := Derives.element (D := D) (w := []) (w' := []) hn nofun (.more (t := []) ⟨.nil, h⟩ (.child ih) (.text ⟨.nil, h⟩)) nofun
    simpa [nested] using this

theorem nested_opens (n : Nat) : ∀ x, ∃ y, nested n ++ x = opens n (0x3C :: 0x61 :: 0x2F :: 0x3E :: y) := by
  induction n with
  | zero => exact fun x => ⟨x, rfl⟩
  | succ n ih =>
    intro x
    obtain ⟨y, h⟩ := ih ([0x3C, 0x2F, 0x61, 0x3E] ++ x)
    exact ⟨y, by simp only [nested, opens, ← h, List.append_assoc, List.cons_append, List.nil_append]⟩

theorem opens_depth {D : Dialect} (hD : ∀ c, D.space c → c ≤ 0x20) {n : Nat} : ∀ {b : Nat} {e rest x : List Nat}, Derives D .element b e →
    e ++ rest = opens n (0x3C :: 0x61 :: x) → n ≤ b := by
  induction n with
  | zero => exact fun _ _ => Nat.zero_le _
  | succ n ih =>
    intro b e rest x hel he
    obtain ⟨c, w, hc, -, h⟩ := open_a hD hel he
    have h0 : ∃ z, opens n (0x3C :: 0x61 :: x) = 0x3C :: 0x61 :: z := by
      cases n with
      | zero => exact ⟨_, rfl⟩
      | succ n => exact ⟨_, rfl⟩
    obtain ⟨z, hz⟩ := h0
    generalize hp : Part.content = part at hc
    cases hc with
    | text ht =>
      rw [hz] at h
      have := text_span (a := []) ht (.inl rfl) nofun h.symm
      subst this
      simp at h
    | @more b t i c ht hi _ =>
      obtain ⟨y, r, rfl, hy⟩ := item_start hi
      simp only [List.append_assoc, List.cons_append] at h
      have h' := h
      rw [hz] at h'
      have := text_span (a := []) ht hy nofun h'.symm
      subst this
      simp only [List.nil_append, List.cons.injEq] at h'
      obtain ⟨rfl, h'⟩ := h'
      generalize hq : Part.item = part at hi
      generalize he : 0x3C :: r = e at hi
      cases hi with
      | @child b e hel' =>
        subst he
        have := ih hel' (rest := c ++ (0x3C :: 0x2F :: 0x61 :: (w ++ 0x3E :: rest))) (by rw [h]; rfl)
        omega
      | comment hc => obtain ⟨t, rfl, -⟩ := hc; cases he; simp at h'
      | cdata hc => obtain ⟨t, rfl, -⟩ := hc; cases he; simp at h'
      | reference hr => rcases hr with rfl | rfl | rfl | rfl | rfl <;> cases he
      | _ => cases hq
    | _ => cases hp

/-- **C90**, refuted: documents that are nested more deeply are not accepted. -/
theorem C90_depth_refuted : ∃ s, Units 256 s ∧ Document xml 1025 s ∧ ∀ k, accepts k s ≠ some true := by
  have hu : ∀ n, Units 256 (nested n) := by
    intro n
    induction n with
    | zero => unfold Units nested; decide
    | succ n ih =>
      intro x hx
      simp only [nested, List.mem_append, List.mem_cons, List.not_mem_nil, or_false] at hx
      rcases hx with (hx | hx) | hx
      · omega
      · exact ih x hx
      · omega
  have hsp : ∀ c, example_.space c → c ≤ 0x20 := by
    intro c hc
    simp only [example_] at hc
    omega
  refine ⟨nested 1025, hu 1025, ⟨[], nested 1025, [], by simp, .nil, nested_xml xml (by simp [xml]) 1025, .nil⟩, fun k h => ?_⟩
  obtain ⟨t, rest, e, ⟨m, el, m', rfl, hm, hel, -⟩, -⟩ := sound (hu 1025) h
  obtain ⟨y, hy⟩ := nested_opens 1025 []
  rw [List.append_nil, e] at hy
  have h1 : m ++ (el ++ m' ++ rest) = opens 1025 (0x3C :: 0x61 :: 0x2F :: 0x3E :: y) := by
    rw [← hy]
    simp only [List.append_assoc]
  have := misc_not_a (y := 0x61) hsp (by decide) hm h1
  subst this
  have := opens_depth hsp (rest := m' ++ rest) hel (by rw [← List.append_assoc]; exact h1)
  omega

end Verif.Xml
