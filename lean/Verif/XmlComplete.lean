import Verif.XmlSound

/-
The grammar of examples/xml.cpp accepts XML as the example has it (Spec.Xml.example_).
-/

namespace Verif.Xml

open Spec.Xml

section
variable {s : List Nat} {cx : Cx} {on : Bool} {d p q : Nat}

theorem lit_does {w : List Nat} (hw : cx.ws = none) (ha : ∀ c ∈ w, c < 128) (h : Seg s p q w) : Does (env s) cx on d (.run (lit w)) p q := by
  have := h.1
  subst this
  exact does_tok ((lit_iff ha _ _).2 ⟨h.pre, rfl⟩) (does_ws_none hw)

theorem lit_fin_does {w : List Nat} (hw : cx.ws = none) (ha : ∀ c ∈ w, c < 128) (h : Seg s p q w) :
    Does (env s) cx on d (.bfinish (lit w)) p q := by
  have := h.1
  subst this
  exact fin_tok ((lit_iff ha _ _).2 ⟨h.pre, rfl⟩) (does_ws_none hw)

theorem ws_does (hs : Units 256 s) {w : List Nat} (hw : Space example_ w) (h : Seg s p q w)
    (hn : ∀ u, (s.drop q).head? = some u → ¬ example_.space u) : Does (env s) cx on d (.run ws) p q := by
  have := h.1
  subst this
  exact does_wsr_tok ((blank_iff (hs.drop p) _).2 ⟨w, _, h.2, hw, rfl, hn⟩)

theorem comment_does (hw : cx.ws = none) {w : List Nat} (hc : Comment example_ w) (h : Seg s p q w) :
    Does (env s) cx on d (.bfinish Verif.Xml.comment) p q := by
  obtain ⟨t, rfl, h1, h2⟩ := hc
  rw [List.append_assoc] at h
  obtain ⟨s1, s2⟩ := h.split
  refine fin_br (lit_fin_does hw (by decide) s1) ?_
  have := s2.1
  subst this
  exact does_tok ((until_iff (by decide) _).2 ⟨t, _, s2.2, rfl, h1, h2⟩) (does_ws_none hw)

theorem comment_start {w : List Nat} (hc : Comment example_ w) (h : Seg s p q w) : [0x3C, 0x21, 0x2D, 0x2D] <+: s.drop p := by
  obtain ⟨t, rfl, h1, h2⟩ := hc
  rw [List.append_assoc] at h
  exact h.split.1.pre

theorem cdata_does (hs : Units 256 s) (hw : cx.ws = none) {w : List Nat} (hc : CData example_ w) (h : Seg s p q w) :
    Does (env s) cx true d (.bfinish (prods 3).rule) p q := by
  obtain ⟨t, rfl, h1, h2⟩ := hc
  rw [List.append_assoc] at h
  obtain ⟨s1, s2⟩ := h.split
  obtain ⟨evs, h3, h4⟩ := cdata_complete hs h1 h2 _ _ _ _ s2
  refine fin_wsn (fin_br (lit_fin_does hw (by decide) s1) ?_) (does_ws_none hw)
  exact does_prim (r := cdataContent.rule) h4 h3 (does_ws_none hw)

theorem cdata_start {w : List Nat} (hc : CData example_ w) (h : Seg s p q w) :
    [0x3C, 0x21, 0x5B, 0x43, 0x44, 0x41, 0x54, 0x41, 0x5B] <+: s.drop p := by
  obtain ⟨t, rfl, h1, h2⟩ := hc
  rw [List.append_assoc] at h
  exact h.split.1.pre

theorem reference_split {w : List Nat} (hr : Reference w) : ∃ x ∈ entities.syms, w = [0x26] ++ (x ++ [0x3B]) := by
  rcases hr with rfl | rfl | rfl | rfl | rfl
  · exact ⟨[0x71, 0x75, 0x6F, 0x74], by decide, rfl⟩
  · exact ⟨[0x61, 0x6D, 0x70], by decide, rfl⟩
  · exact ⟨[0x61, 0x70, 0x6F, 0x73], by decide, rfl⟩
  · exact ⟨[0x6C, 0x74], by decide, rfl⟩
  · exact ⟨[0x67, 0x74], by decide, rfl⟩

theorem reference_does (hs : Units 256 s) (hw : cx.ws = none) {w : List Nat} (hr : Reference w) (h : Seg s p q w) :
    Does (env s) cx on d (.bfinish (prods 4).rule) p q := by
  obtain ⟨x, hx, rfl⟩ := reference_split hr
  obtain ⟨s1, s2⟩ := h.split
  obtain ⟨s3, s4⟩ := s2.split
  refine fin_br (lit_fin_does hw (by decide) s1) (does_seq (does_prim (m := p + [0x26].length + x.length)
    (evs := [.token (.user 7) (p + [0x26].length) (p + [0x26].length + x.length)]) ?_ ?_ ?_) (lit_does hw (by decide) s4))
  · have h1 := ref_complete (w := x) (r := s.drop q) (hs.drop (p + [0x26].length)) hx (by rw [s2.2]; simp)
    show symIdParseR entities eof (.user 7) headChar trailingChar 7 11 s _ = _
    unfold symIdParseR
    rw [h1]
  · intro ev hev
    rw [List.mem_singleton.1 hev]
    rfl
  · exact does_ws_none hw

theorem reference_start {w : List Nat} (hr : Reference w) (h : Seg s p q w) : [0x26] <+: s.drop p := by
  obtain ⟨x, hx, rfl⟩ := reference_split hr
  exact h.split.1.pre

theorem text_does (hs : Units 256 s) (hw : cx.ws = none) {t : List Nat} (ht : Text example_ t) (h0 : t ≠ []) (h : Seg s p q t)
    (hst : Stops textChar (s.drop q)) : Does (env s) cx on d (.run (prods 5).rule) p q := by
  have := h.1
  subst this
  refine does_prim (m := p + t.length) (evs := [.token .identifier p (p + t.length)]) ?_ ?_ ?_
  · show idParseR textChar textChar 12 s p = _
    unfold idParseR
    rw [(text_iff (hs.drop p) _).2 ⟨t, _, h.2, h0, ht, rfl, hst⟩]
  · intro ev hev
    rw [List.mem_singleton.1 hev]
    rfl
  · exact does_ws_none hw

/-- Text begins with something else than markup. -/
theorem text_start {t : List Nat} (ht : Text example_ t) (h0 : t ≠ []) (h : Seg s p q t) :
    ∀ u, (s.drop p).head? = some u → u ≠ 0x3C ∧ u ≠ 0x26 := by
  obtain ⟨ht, -⟩ := ht
  rw [h.2]
  cases ht with
  | nil => exact absurd rfl h0
  | @cons v t hv hp _ =>
    obtain ⟨c, r, h1, -, -, h2⟩ := utf8_tail hv
    rw [h1]
    rintro u ⟨⟩
    have := hp.2
    omega

theorem prefix_head {w : List Nat} {c : Nat} {r t : List Nat} (hw : w = c :: r) (h : w <+: t) : t.head? = some c := by
  obtain ⟨z, rfl⟩ := h
  rw [hw]
  rfl

theorem stops_markup {r : List Nat} (h : [0x3C] <+: r ∨ [0x26] <+: r) : Stops textChar r := by
  rintro v hv hd hp
  rw [text_denote] at hd
  obtain ⟨c, x, h1, -, -, h2⟩ := utf8_tail hv
  have h3 := prefix_head h1 hp
  rcases h with h | h
  · have := prefix_head rfl h
    rw [h3] at this
    cases this
    omega
  · have := prefix_head rfl h
    rw [h3] at this
    cases this
    omega

theorem fin_els_does : Does (env s) cx on d (.bfinish .els) p p :=
  does_of_reaches fun st h _ _ => by subst h; exact reaches_fin_els

/-! ## The content -/

theorem sub_C {k : Nat} (h1 : (prods k).isTok = false) (h2 : (prods k).ws = none) : Cx.sub C ((env s).prods k) = C := by
  unfold Cx.sub
  rw [show (env s).prods k = prods k from rfl, h1, h2]
  rfl

theorem fin_prod_does {k : Nat} (h1 : (prods k).isTok = false) (h2 : (prods k).ws = none)
    (h : Does (env s) C on d (.bfinish (prods k).rule) p q) : Does (env s) C on d (.bfinish (.prod k)) p q := by
  refine fin_prod (E := env s) (n := k) (m := q) ?_ ?_
  · rw [sub_C h1 h2]; exact h
  · rw [show (env s).prods k = prods k from rfl, h1]; rfl

/-- Which branch of the content is taken. -/
theorem content_take {pre post : List Rule} {r : Rule} (he : [Rule.prod 2, .prod 3, .br (.peek 8 (lit [0x3C])) (.recu 1 9 false), .prod 4,
    .br .els (.prod 5)] = pre ++ r :: post) (hp : ∀ x ∈ pre, Not (env s) x p) (hc : Cond (env s) (.btry r) p true)
    (h : Does (env s) C on d (.bfinish r) p q) : Does (env s) C on d (.run content) p q := by
  refine does_of_reaches fun st h1 h2 h3 => ?_
  subst h1
  unfold content
  rw [he]
  exact reaches_chc hp hc (h.reaches rfl h2 h3)

theorem not_comment (h : ¬ [0x3C, 0x21, 0x2D, 0x2D] <+: s.drop p) : Not (env s) (.prod 2) p :=
  not_prod (E := env s) rfl rfl (not_br (not_lit (by decide) h))

theorem not_cdata (h : ¬ [0x3C, 0x21, 0x5B, 0x43, 0x44, 0x41, 0x54, 0x41, 0x5B] <+: s.drop p) : Not (env s) (.prod 3) p :=
  not_prod (E := env s) rfl rfl (not_wsn (not_br (not_lit (by decide) h)))

theorem not_child (h : ¬ [0x3C] <+: s.drop p) : Not (env s) (.br (.peek 8 (lit [0x3C])) (.recu 1 9 false)) p :=
  not_br (not_peek ((lit_no (by decide) _).2 h))

theorem not_close (h : ¬ [0x3C, 0x2F] <+: s.drop p) : Not (env s) close p := not_br (not_lit (by decide) h)

/-- What an element begins with. -/
theorem element_start {D : Dialect} {b : Nat} {w : List Nat} (h : Derives D .element b w) : ∃ c r, w = 0x3C :: c :: r ∧ NameStart c := by
  generalize hp : Part.element = part at h
  cases h with
  | empty hn _ => obtain ⟨c, t, rfl, h, -⟩ := hn; exact ⟨c, _, rfl, h⟩
  | element hn _ _ _ => obtain ⟨c, t, rfl, h, -⟩ := hn; exact ⟨c, _, rfl, h⟩
  | _ => cases hp

/-- Behind a name, spaces, and a `/` or `>`. -/
theorem name_end {w r : List Nat} {c : Nat} (hw : Space example_ w) (hc : c = 0x2F ∨ c = 0x3E) :
    ∀ u, (w ++ c :: r).head? = some u → ¬ NameChar u := by
  cases w with
  | nil =>
    rintro u ⟨⟩
    unfold NameChar NameStart
    omega
  | cons x w =>
    rintro u ⟨⟩
    have := hw x (by simp)
    simp only [example_] at this
    unfold NameChar NameStart
    omega

theorem space_end {r : List Nat} {c : Nat} (hc : c = 0x2F ∨ c = 0x3E) : ∀ u, (c :: r).head? = some u → ¬ example_.space u := by
  rintro u ⟨⟩
  simp only [example_]
  omega

/-- Two beginnings of the same text agree. -/
theorem prefix_clash {a b t : List Nat} (h : a.take b.length ≠ b.take a.length) (ha : a <+: t) (hb : b <+: t) : False := by
  obtain ⟨x, rfl⟩ := ha
  obtain ⟨y, hy⟩ := hb
  refine h ?_
  have e := congrArg (List.take (min a.length b.length)) hy
  rw [List.take_append_of_le_length (Nat.min_le_right _ _), List.take_append_of_le_length (Nat.min_le_left _ _)] at e
  by_cases hl : a.length ≤ b.length
  · rw [Nat.min_eq_left hl] at e
    rw [e, List.take_length, List.take_of_length_le hl]
  · rw [Nat.min_eq_right (by omega), List.take_length] at e
    rw [← e, List.take_of_length_le (l := b) (by omega)]

theorem not_markup (h : ∀ u, (s.drop p).head? = some u → u ≠ 0x3C ∧ u ≠ 0x26) (c : Nat) (r : List Nat) (hc : c = 0x3C ∨ c = 0x26) :
    ¬ c :: r <+: s.drop p := by
  intro hp
  have := h c (prefix_head rfl hp)
  omega

/-- Text in the content. -/
theorem text_item (hs : Units 256 s) {t : List Nat} {e : Nat} (ht : Text example_ t) (h0 : t ≠ []) (h : Seg s p e t)
    (hst : Stops textChar (s.drop e)) (hr : Items (env s) C true d close content e q) : Items (env s) C true d close content p q := by
  have hm := not_markup (text_start ht h0 h)
  refine .next (not_close (hm _ _ (.inl rfl))) (content_take (pre := [.prod 2, .prod 3, .br (.peek 8 (lit [0x3C])) (.recu 1 9 false), .prod 4])
    (post := []) rfl ?_ (cond_br cond_els) (fin_br fin_els_does (does_prod (n := 5) rfl (m := e) ?_ rfl))) hr
  · intro x hx
    simp only [List.mem_cons, List.not_mem_nil, or_false] at hx
    rcases hx with rfl | rfl | rfl | rfl
    · exact not_comment (hm _ _ (.inl rfl))
    · exact not_cdata (hm _ _ (.inl rfl))
    · exact not_child (hm _ _ (.inl rfl))
    · exact not_prod (E := env s) rfl rfl (not_br (not_lit (by decide) (hm _ _ (.inr rfl))))
  · rw [sub_C rfl rfl]
    exact text_does hs rfl ht h0 h hst

end

/-- The claims of the induction. -/
def Claim (s : List Nat) : Part → Nat → List Nat → Prop
  | .element, b, w => ∀ p q d, Seg s p q w → d + b ≤ 1024 → Does (env s) C true d (.run (.prod 1)) p q
  | .content, b, w => ∀ p q d, Seg s p q w → d + b ≤ 1024 → [0x3C, 0x2F] <+: s.drop q → Items (env s) C true d close content p q
  | .item, b, w => ∀ p q d, Seg s p q w → d + b ≤ 1024 → Does (env s) C true d (.run content) p q ∧ ¬ [0x3C, 0x2F] <+: s.drop p ∧
      ([0x3C] <+: s.drop p ∨ [0x26] <+: s.drop p)

section
variable {s : List Nat}

/-- The start tag up to its name and the spaces behind it, and what comes behind. -/
theorem element_body (hs : Units 256 s) {n w : List Nat} (hn : Name n) (hw : Space example_ w) {p q d : Nat} {x : List Nat} {c : Nat}
    (hc : c = 0x2F ∨ c = 0x3E) (h : Seg s p q ([0x3C] ++ n ++ w ++ (c :: x)))
    (hr : ∀ st : St, st.pos = p + ([0x3C] ++ n ++ w).length → st.depth = d → st.wsOn = true → getIdent 0 st.vars = some n →
      Gets (env s) C (.run (.chc [.br (lit [0x2F]) (lit [0x3E]),
        .br .els (.seq (lit [0x3E]) (.optt close (.lstt close content none fun _ => false)))])) st { st with pos := q }) :
    Does (env s) C true d (.run (.prod 1)) p q := by
  refine does_of_reaches fun st h1 h2 h3 => ?_
  subst h1
  obtain ⟨s123, s4⟩ := h.split
  obtain ⟨s12, s3⟩ := s123.split
  obtain ⟨s1, s2⟩ := s12.split
  have e2 : s.drop (st.pos + ([0x3C] ++ n).length) = w ++ c :: (x ++ s.drop q) := by
    rw [s3.2, s4.2]
    rfl
  have hname : idLen headChar trailingChar (s.drop (st.pos + 1)) = some n.length := by
    refine (name_iff (hs.drop _) _).2 ⟨n, _, s2.2, hn, rfl, ?_⟩
    rw [e2]
    exact name_end hw hc
  have hbody : Gets (env s) (C.sub ((env s).prods 1)) (.run ((env s).prods 1).rule) { st with ex := {} }
      { st with pos := q, vars := (.ident 0, Var.ident n) :: st.vars, ex := {} } := by
    rw [sub_C rfl rfl]
    have r1 : Gets (env s) C (.run (lit [0x3C])) { st with vars := (.ident 0, Var.ident []) :: st.vars, ex := {} }
        { st with pos := st.pos + 1, vars := (.ident 0, Var.ident []) :: st.vars, ex := {} } :=
      (lit_does (d := d) (on := true) rfl (by decide) s1).reaches rfl h2 h3
    have r2 : Gets (env s) C (.run (.idCap 0 (idRule headChar trailingChar 7) nameLen))
        { st with pos := st.pos + 1, vars := (.ident 0, Var.ident []) :: st.vars, ex := {} }
        { st with pos := st.pos + ([0x3C] ++ n).length, vars := (.ident 0, Var.ident n) :: st.vars, ex := {} } := by
      have := reaches_idCap (E := env s) (cx := C) (id := 0) (r := idRule headChar trailingChar 7) (len := nameLen)
        (st := { st with pos := st.pos + 1, vars := (.ident 0, Var.ident []) :: st.vars, ex := {} }) (q := st.pos + 1 + n.length)
        (evs := [.token .identifier (st.pos + 1) (st.pos + 1 + n.length)]) rfl ?_ ?_ (w := []) rfl
      · have hcap : ((env s).inp.drop (st.pos + 1)).take (nameLen ((env s).inp.drop (st.pos + 1))) = n := by
          rw [show (env s).inp = s from rfl, nameLen, hname, Option.getD_some]
          exact s2.take rfl
        simp only [hcap, setVar, if_true] at this
        have e : st.pos + 1 + n.length = st.pos + ([0x3C] ++ n).length := by simp; omega
        rw [e] at this
        exact this
      · show idParseR headChar trailingChar 7 s (st.pos + 1) = _
        unfold idParseR
        rw [hname]
      · intro ev hev
        rw [List.mem_singleton.1 hev]
        rfl
    have r3 : Gets (env s) C (.run ws)
        { st with pos := st.pos + ([0x3C] ++ n).length, vars := (.ident 0, Var.ident n) :: st.vars, ex := {} }
        { st with pos := st.pos + ([0x3C] ++ n ++ w).length, vars := (.ident 0, Var.ident n) :: st.vars, ex := {} } :=
      (ws_does (d := d) (on := true) hs hw s3 (by rw [s4.2]; exact space_end hc)).reaches rfl h2 h3
    exact reaches_seq reaches_varCreate (reaches_br r1 (reaches_seq r2 (reaches_seq r3 (hr _ rfl h2 h3 rfl))))
  have := reaches_prod (E := env s) (cx := C) (k := 1) rfl rfl hbody
  have e : ({ ({ st with pos := q, vars := (.ident 0, Var.ident n) :: st.vars, ex := {} } : St).frame st.vars.length with ex := st.ex } : St) =
      { st with pos := q } := by
    unfold St.frame
    simp
  rw [e] at this
  exact this

theorem claims (hs : Units 256 s) {part : Part} {b : Nat} {w : List Nat} (h : Derives example_ part b w) : Claim s part b w := by
  induction h with
  | @empty b n w hn hw =>
    intro p q d hseg hd
    refine element_body hs hn hw (c := 0x2F) (.inl rfl) hseg ?_
    intro st h1 h2 h3 _
    have s4 := hseg.split.2
    rw [← h1] at s4
    obtain ⟨s5, s6⟩ := Seg.split (t := [0x2F]) (u := [0x3E]) s4
    refine reaches_chc (pre := []) nofun (cond_br (cond_lit (by decide) s5.pre)) (reaches_fin_br
      ((lit_fin_does (d := d) (on := true) rfl (by decide) s5).reaches rfl h2 h3) ((lit_does (d := d) (on := true) rfl (by decide) s6).reaches rfl h2 h3))
  | @element b n w c w' hn hw hc hw' ih =>
    intro p q d hseg hd
    have hseg : Seg s p q ([0x3C] ++ n ++ w ++ (0x3E :: (c ++ ([0x3C, 0x2F] ++ (n ++ (w' ++ [0x3E])))))) := by
      simp only [List.append_assoc, List.cons_append, List.nil_append] at hseg ⊢
      exact hseg
    refine element_body hs hn hw (c := 0x3E) (.inr rfl) hseg ?_
    intro st h1 h2 h3 hv
    have s4 := hseg.split.2
    rw [← h1] at s4
    obtain ⟨s5, s6⟩ := Seg.split (t := [0x3E]) s4
    obtain ⟨s7, s8⟩ := s6.split
    obtain ⟨s9, s10⟩ := s8.split
    obtain ⟨s11, s12⟩ := s10.split
    obtain ⟨s13, s14⟩ := s12.split
    have n1 : Not (env s) (.br (lit [0x2F]) (lit [0x3E])) st.pos := not_br (not_lit (by decide) fun h => by
      have h1 := prefix_head rfl h
      have h2 := prefix_head rfl s5.pre
      rw [h1] at h2
      cases h2)
    refine reaches_chc (pre := [.br (lit [0x2F]) (lit [0x3E])]) (by simpa using n1) (cond_br cond_els) (reaches_fin_br reaches_fin_els
      (reaches_seq ((lit_does (d := d) (on := true) rfl (by decide) s5).reaches rfl h2 h3) ?_))
    refine reaches_optlist (ih _ _ d s7 hd s9.pre) rfl h2 h3 ?_
    -- the end tag
    have hname : (idTok .identifier 7 headChar trailingChar).run (s.drop (st.pos + [0x3E].length + c.length + [0x3C, 0x2F].length)) =
        (true, n.length) := by
      have h1 := (name_iff (hs.drop (st.pos + [0x3E].length + c.length + [0x3C, 0x2F].length)) n.length).2 ⟨n, _, s11.2, hn, rfl, by
        rw [s13.2, s14.2]
        exact name_end hw' (.inr rfl)⟩
      simp only [idTok, PTok.of, clamp, h1, Nat.min_eq_left (idLen_le h1)]
    have r1 := (lit_fin_does (d := d) (on := true) (cx := C) rfl (by decide) s9).reaches (st := { st with pos := _ }) rfl h2 h3
    have r2 := reaches_idRem (E := env s) (cx := C) (id := 0) (tag := 6) (st := { st with pos := _ }) rfl hname (by
      rw [show (env s).inp = s from rfl]
      exact hv.trans (congrArg some (s11.take rfl).symm))
    have r3 := (ws_does (d := d) (on := true) (cx := C) hs hw' s13 (by rw [s14.2]; exact space_end (.inr rfl))).reaches
      (st := { st with pos := _ }) rfl h2 h3
    have r4 := (lit_does (d := d) (on := true) (cx := C) rfl (by decide) s14).reaches (st := { st with pos := _ }) rfl h2 h3
    exact reaches_fin_br r1 (reaches_seq r2 (reaches_seq r3 r4))
  | @text b t ht =>
    intro p q d hseg hd hcl
    have hst : Stops textChar (s.drop q) := stops_markup (.inl ((List.prefix_append [0x3C] [0x2F]).trans hcl))
    have hdone : Items (env s) C true d close content q q := .done (cond_br (cond_lit (by decide) hcl))
    by_cases h0 : t = []
    · subst h0
      have := hseg.1
      simp only [List.length_nil, Nat.add_zero] at this
      subst this
      exact hdone
    · exact text_item hs ht h0 hseg hst hdone
  | @more b t i c ht hi hc ihi ihc =>
    intro p q d hseg hd hcl
    obtain ⟨s1, s2⟩ := hseg.split
    obtain ⟨s3, s4⟩ := s2.split
    obtain ⟨h1, h2, h3⟩ := ihi _ _ d s3 hd
    have hrest : Items (env s) C true d close content (p + t.length) q := .next (not_close h2) h1 (ihc _ _ d s4 hd hcl)
    by_cases h0 : t = []
    · subst h0
      exact hrest
    · exact text_item hs ht h0 s1 (stops_markup h3) hrest
  | @child b e he ih =>
    intro p q d hseg hd
    obtain ⟨c, r, rfl, hc⟩ := element_start he
    have e1 : s.drop p = 0x3C :: c :: (r ++ s.drop q) := hseg.2
    have hc1 : c ≠ 0x21 ∧ c ≠ 0x2F := by
      unfold NameStart at hc
      omega
    have hlt : [0x3C] <+: s.drop p := ⟨_, e1.symm⟩
    have second : ∀ x u, 0x3C :: x :: u <+: s.drop p → x = c := by
      rintro x u ⟨z, hz⟩
      rw [e1] at hz
      simp only [List.cons_append, List.cons.injEq] at hz
      exact hz.2.1
    refine ⟨content_take (pre := [.prod 2, .prod 3]) rfl ?_ (cond_br (cond_peek ((lit_yes (by decide) _).2 hlt)))
      (fin_br (does_peek ((lit_yes (by decide) _).2 hlt)).2 (does_recu (by show d < 1024; omega) (ih p q (d + 1) hseg (by omega)))), fun h => hc1.2 (second _ _ h).symm, .inl hlt⟩
    intro x hx
    simp only [List.mem_cons, List.not_mem_nil, or_false] at hx
    rcases hx with rfl | rfl
    · exact not_comment fun h => hc1.1 (second _ _ h).symm
    · exact not_cdata fun h => hc1.1 (second _ _ h).symm
  | @comment b w hc =>
    intro p q d hseg hd
    have h1 := comment_start hc hseg
    refine ⟨content_take (pre := []) rfl nofun (cond_prod (E := env s) rfl rfl (cond_br (cond_lit (by decide) h1)))
      (fin_prod_does (k := 2) rfl rfl (comment_does rfl hc hseg)), ?_, .inl ((List.prefix_append [0x3C] _).trans h1)⟩
    exact fun h => prefix_clash (by decide) h h1
  | @cdata b w hc =>
    intro p q d hseg hd
    have h1 := cdata_start hc hseg
    refine ⟨content_take (pre := [.prod 2]) rfl ?_ (cond_prod (E := env s) rfl rfl (cond_wsn (cond_br (cond_lit (by decide) h1))))
      (fin_prod_does (k := 3) rfl rfl (cdata_does hs rfl hc hseg)), ?_, .inl ((List.prefix_append [0x3C] _).trans h1)⟩
    · intro x hx
      simp only [List.mem_cons, List.not_mem_nil, or_false] at hx
      subst hx
      exact not_comment fun h => prefix_clash (by decide) h h1
    · exact fun h => prefix_clash (by decide) h h1
  | @reference b w hr =>
    intro p q d hseg hd
    have h1 := reference_start hr hseg
    refine ⟨content_take (pre := [.prod 2, .prod 3, .br (.peek 8 (lit [0x3C])) (.recu 1 9 false)]) rfl ?_
      (cond_prod (E := env s) rfl rfl (cond_br (cond_lit (by decide) h1)))
      (fin_prod_does (k := 4) rfl rfl (reference_does hs rfl hr hseg)), ?_, .inr h1⟩
    · intro x hx
      simp only [List.mem_cons, List.not_mem_nil, or_false] at hx
      rcases hx with rfl | rfl | rfl
      · exact not_comment fun h => prefix_clash (by decide) h h1
      · exact not_cdata fun h => prefix_clash (by decide) h h1
      · exact not_child fun h => prefix_clash (by decide) h h1
    · exact fun h => prefix_clash (by decide) h h1

/-- `ws | inline_<comment>` before and behind the root element. -/
theorem misc_does (hs : Units 256 s) {m : List Nat} (hm : Misc example_ m) {cx : Cx} {on : Bool} {d p q : Nat} (h : Seg s p q m)
    (hn : ∀ u, (s.drop q).head? = some u → ¬ example_.space u) (hn' : ¬ [0x3C, 0x21, 0x2D, 0x2D] <+: s.drop q) :
    Does (env s) cx on d (.run misc) p q := by
  refine does_wsr_chc ?_
  have no_space : ∀ {p : Nat}, (∀ u, (s.drop p).head? = some u → ¬ example_.space u) → Not (env s) (.tok space) p := by
    intro p h
    refine not_tok (Bool.eq_false_iff.2 fun h1 => ?_)
    obtain ⟨u, t, h4, h5, h6⟩ := (space_iff (hs.drop p) (space.run (s.drop p)).snd).1 (Prod.ext h1 rfl)
    exact h u (by rw [h4]; rfl) h5
  induction hm generalizing p with
  | nil =>
    have := h.1
    simp only [List.length_nil, Nat.add_zero] at this
    subst this
    refine does_loop_brk (pre := [.tok space, Verif.Xml.comment]) ?_
    intro x hx
    simp only [List.mem_cons, List.not_mem_nil, or_false] at hx
    rcases hx with rfl | rfl
    · exact no_space hn
    · exact not_br (not_lit (by decide) hn')
  | @space c t hc _ ih =>
    obtain ⟨s1, s2⟩ := Seg.split (t := [c]) h
    refine does_loop_next (does_of_reaches fun st h1 h2 h3 => ?_) (ih s2)
    subst h1
    have h4 : space.run (s.drop st.pos) = (true, 1) := (space_iff (hs.drop _) 1).2 ⟨c, _, s1.2, hc, rfl⟩
    exact reaches_chc (pre := []) nofun (cond_tok (by rw [show (env s).inp = s from rfl, h4])) ((fin_tok h4 (does_ws_none rfl)).reaches rfl h2 h3)
  | @comment c t hc _ ih =>
    obtain ⟨s1, s2⟩ := h.split
    refine does_loop_next (does_of_reaches fun st h1 h2 h3 => ?_) (ih s2)
    subst h1
    have h4 := comment_start hc s1
    refine reaches_chc (pre := [.tok space]) ?_ (cond_br (cond_lit (by decide) h4)) ((comment_does rfl hc s1).reaches rfl h2 h3)
    intro x hx
    simp only [List.mem_cons, List.not_mem_nil, or_false] at hx
    subst hx
    refine no_space fun u hu => ?_
    rw [prefix_head rfl h4] at hu
    cases hu
    simp only [example_]
    omega

end

end Verif.Xml
