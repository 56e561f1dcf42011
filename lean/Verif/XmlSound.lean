import Verif.XmlTok
import Verif.Runs

/-
What the grammar of examples/xml.cpp accepts is XML as the example has it (Spec.Xml.example_).
-/

namespace Verif.Xml

open Spec.Xml

/-- Nothing but the position changed, and `w` was consumed. -/
def Went (s : List Nat) (st s' : St) (w : List Nat) : Prop := ∃ q, s' = { st with pos := q } ∧ Seg s st.pos q w

theorem Went.append {s : List Nat} {st s1 s2 : St} {t u : List Nat} (h1 : Went s st s1 t) (h2 : Went s s1 s2 u) : Went s st s2 (t ++ u) := by
  obtain ⟨q, rfl, h1⟩ := h1
  obtain ⟨q', rfl, h2⟩ := h2
  exact ⟨q', rfl, h1.append h2⟩

theorem Went.nil {s : List Nat} {st : St} : Went s st st [] := ⟨st.pos, rfl, .nil⟩

section
variable {s : List Nat} {n : Nat} {cx : Cx} {st s' : St}

theorem lit_went {w : List Nat} (hw : cx.ws = none) (ha : ∀ c ∈ w, c < 128) (h : Runs (env s) n cx (.run (lit w)) st s') : Went s st s' w := by
  obtain ⟨k, h1, rfl⟩ := runs_tok hw h
  obtain ⟨h2, h3⟩ := (lit_iff ha _ _).1 h1
  exact ⟨_, rfl, .of_prefix h2 h3⟩

theorem lit_fin {w : List Nat} (hw : cx.ws = none) (ha : ∀ c ∈ w, c < 128) (hp : w <+: s.drop st.pos)
    (h : Runs (env s) n cx (.bfinish (lit w)) st s') : Went s st s' w := by
  have h1 := runs_fin_tok hw h
  have h2 := (lit_iff (kind := 0) (tag := 0) ha (s.drop st.pos) _).2 ⟨hp, rfl⟩
  refine ⟨_, h1, ?_⟩
  rw [show (env s).inp = s from rfl, h2]
  exact .of_prefix hp rfl

theorem cond_lit {w : List Nat} (ha : ∀ c ∈ w, c < 128) {p : Nat} (hp : w <+: s.drop p) : Cond (env s) (.btry (lit w)) p true :=
  cond_tok ((lit_yes ha _).2 hp)

theorem not_lit {w : List Nat} (ha : ∀ c ∈ w, c < 128) {p : Nat} (hp : ¬ w <+: s.drop p) : Not (env s) (lit w) p :=
  not_tok ((lit_no ha _).2 hp)

theorem ws_went (hs : Units 256 s) (h : Runs (env s) n cx (.run ws) st s') : ∃ w, Space example_ w ∧ Went s st s' w := by
  obtain ⟨k, h1, rfl⟩ := runs_wsr_tok h
  obtain ⟨w, t, h2, h3, h4, -⟩ := (blank_iff (hs.drop _) k).1 h1
  exact ⟨w, h3, _, rfl, .of_prefix ⟨t, h2.symm⟩ h4⟩

/-- A comment behind `<!--`. -/
theorem comment_went (hw : cx.ws = none) (hp : [0x3C, 0x21, 0x2D, 0x2D] <+: s.drop st.pos)
    (h : Runs (env s) n cx (.bfinish Verif.Xml.comment) st s') : ∃ w, Comment example_ w ∧ Went s st s' w := by
  obtain ⟨m, -, s1, h1, h2⟩ := runs_fin_br h
  have w1 := lit_fin hw (by decide) hp h1
  obtain ⟨k, h3, rfl⟩ := runs_tok hw h2
  obtain ⟨t, r, h4, h5, h6, h7⟩ := (until_iff (by decide) k).1 h3
  have w2 : Went s s1 { s1 with pos := s1.pos + k } (t ++ [0x2D, 0x2D, 0x3E]) := ⟨_, rfl, .of_prefix ⟨r, h4.symm⟩ h5⟩
  refine ⟨_, ⟨t, rfl, h6, h7⟩, ?_⟩
  have := w1.append w2
  rw [← List.append_assoc] at this
  exact this

/-- A CDATA section behind `<![CDATA[`. -/
theorem cdata_went (hs : Units 256 s) (hw : cx.ws = none) (hon : st.wsOn = true)
    (hp : [0x3C, 0x21, 0x5B, 0x43, 0x44, 0x41, 0x54, 0x41, 0x5B] <+: s.drop st.pos)
    (h : Runs (env s) n cx (.bfinish (prods 3).rule) st s') : ∃ w, CData example_ w ∧ Went s st s' w := by
  obtain ⟨m, -, s0, h0, rfl⟩ := runs_fin_wsn hw h
  obtain ⟨m, -, s1, h1, h2⟩ := runs_fin_br h0
  have w1 := lit_fin (st := { st with wsOn := false }) hw (by decide) hp h1
  obtain ⟨q, evs, h3, h4, rfl⟩ := runs_prim hw h2
  obtain ⟨t, h5, h6, h7⟩ := cdata_sound hs _ _ _ _ _ h3 h4
  obtain ⟨q1, rfl, w1⟩ := w1
  refine ⟨_, ⟨t, rfl, h5, h6⟩, q, ?_, ?_⟩
  · simp only [hon]
  · rw [List.append_assoc]
    exact w1.append h7

/-- A reference behind `&`. -/
theorem reference_went (hw : cx.ws = none) (hp : [0x26] <+: s.drop st.pos)
    (h : Runs (env s) n cx (.bfinish (prods 4).rule) st s') : ∃ w, Reference w ∧ Went s st s' w := by
  obtain ⟨m, -, s1, h1, h2⟩ := runs_fin_br h
  have w1 := lit_fin hw (by decide) hp h1
  obtain ⟨m, -, s2, h3, h4⟩ := runs_seq h2
  have w3 := lit_went hw (by decide) h4
  obtain ⟨q, evs, h5, h6, rfl⟩ := runs_prim hw h3
  have h7 : symIdParseR entities eof (.user 7) headChar trailingChar 7 11 s s1.pos = (true, q, evs) := h5
  unfold symIdParseR at h7
  split at h7
  · rename_i k hk
    simp only [Prod.mk.injEq, true_and] at h7
    obtain ⟨w, h8, h9, h10⟩ := ref_sound hk
    have w2 : Went s s1 { s1 with pos := q } w := ⟨q, rfl, by rw [← h7.1]; exact .of_prefix h9 h10⟩
    refine ⟨_, ?_, (w1.append w2).append w3⟩
    simp only [entities, List.mem_cons, List.not_mem_nil, or_false] at h8
    unfold Reference
    rcases h8 with rfl | rfl | rfl | rfl | rfl <;> simp
  · split at h7 <;> cases h7

/-- Text. -/
theorem text_went (hs : Units 256 s) (hw : cx.ws = none) (h : Runs (env s) n cx (.run (prods 5).rule) st s') :
    ∃ t, Text example_ t ∧ Went s st s' t := by
  obtain ⟨q, evs, h1, -, rfl⟩ := runs_prim hw h
  have h1 : idParseR textChar textChar 12 s st.pos = (true, q, evs) := h1
  unfold idParseR at h1
  split at h1
  · rename_i k hk
    obtain ⟨t, r, h2, -, h3, h4, -⟩ := (text_iff (hs.drop _) k).1 hk
    simp only [Prod.mk.injEq, true_and] at h1
    exact ⟨t, h3, q, rfl, by rw [← h1.1]; exact .of_prefix ⟨r, h2.symm⟩ h4⟩
  · cases h1

/-- The end tag behind `</`. -/
theorem close_went (hs : Units 256 s) (hw : cx.ws = none) {name : List Nat} (hv : getIdent 0 st.vars = some name) (hp : [0x3C, 0x2F] <+: s.drop st.pos)
    (h : Runs (env s) n cx (.bfinish close) st s') : ∃ w, Space example_ w ∧ Went s st s' ([0x3C, 0x2F] ++ name ++ w ++ [0x3E]) := by
  obtain ⟨m, -, s1, h1, h2⟩ := runs_fin_br h
  obtain ⟨q1, rfl, w1⟩ := lit_fin hw (by decide) hp h1
  obtain ⟨m, -, s2, h3, h4⟩ := runs_seq h2
  obtain ⟨m, -, s3, h5, h6⟩ := runs_seq h4
  have w4 := lit_went hw (by decide) h6
  obtain ⟨w, hsp, w3⟩ := ws_went hs h5
  obtain ⟨k, h7, h8, rfl⟩ := runs_idRem hw h3
  simp only at h7 h8
  rw [hv] at h8
  cases h8
  have w2 : Went s { st with pos := q1 } { st with pos := q1 + k } ((s.drop q1).take k) := by
    exact ⟨_, rfl, .of_take (by have := (idTok .identifier 7 headChar trailingChar).le ((env s).inp.drop q1); rw [h7] at this; exact this)⟩
  exact ⟨w, hsp, (((show Went s st _ _ from ⟨q1, rfl, w1⟩).append w2).append w3).append w4⟩

end

/-- `ws | inline_<comment>` before and behind the root element. -/
theorem misc_went {s : List Nat} (hs : Units 256 s) {n : Nat} {cx : Cx} {st s' : St} (h : Runs (env s) n cx (.run misc) st s') :
    ∃ w, Misc example_ w ∧ Went s st s' w := by
  obtain ⟨m, -, s1, h1, rfl⟩ := runs_wsr rfl h
  obtain ⟨m, -, h1⟩ := runs_step h1
  have key : ∀ n (st s' : St), Runs (env s) n ⟨none, 0⟩ (.loopR (.chc ([.tok space, Verif.Xml.comment] ++ [.brk]))) st s' → st.vars = [] →
      ∃ w, Misc example_ w ∧ Went s st s' w := by
    intro n
    induction n using Nat.strongRecOn with
    | _ n ih =>
      intro st s' h hv
      obtain ⟨m, hm, h⟩ := runs_loopR h
      by_cases h1 : (space.run (s.drop st.pos)).1 = true
      · -- a blank
        have hc : Cond (env s) (.btry (.tok space)) st.pos true := cond_tok h1
        rcases h with ⟨s1, evs, h, -⟩ | ⟨s1, h, h'⟩
        · obtain ⟨m', -, y, h2, h3, -⟩ := chc_some (pre := []) nofun hc h
          exact absurd h3 (fin_tok_not_brk rfl h2)
        · obtain ⟨m', -, h2⟩ := runs_chc (pre := []) nofun hc h
          have h3 := runs_fin_tok rfl h2
          subst h3
          rw [frame_self] at h'
          obtain ⟨w, hw, hg⟩ := ih m hm _ _ h' hv
          obtain ⟨u, t, h4, h5, h6⟩ := (space_iff (hs.drop st.pos) (space.run (s.drop st.pos)).snd).1 (Prod.ext h1 rfl)
          rw [show (env s).inp = s from rfl, h6] at hg
          exact ⟨u :: w, .space h5 hw, (show Went s st { st with pos := st.pos + 1 } [u] from ⟨_, rfl, .cons h4⟩).append hg⟩
      · have hn1 : Not (env s) (.tok space) st.pos := not_tok (Bool.eq_false_iff.2 h1)
        by_cases h2 : [0x3C, 0x21, 0x2D, 0x2D] <+: s.drop st.pos
        · -- a comment
          have hc : Cond (env s) (.btry Verif.Xml.comment) st.pos true := cond_br (cond_lit (by decide) h2)
          rcases h with ⟨s1, evs, h, -⟩ | ⟨s1, h, h'⟩
          · obtain ⟨m', -, y, h2, h3, -⟩ := chc_some (pre := [.tok space]) (by simpa using hn1) hc h
            exact absurd h3 (fin_br_not_brk (fun _ _ _ => fin_tok_not_brk rfl) (fun _ _ _ => tok_not_brk rfl) h2)
          · obtain ⟨m', -, h3⟩ := runs_chc (pre := [.tok space]) (by simpa using hn1) hc h
            obtain ⟨w1, hw1, hg1⟩ := comment_went rfl h2 h3
            obtain ⟨q, rfl, hg1⟩ := hg1
            rw [frame_self] at h'
            obtain ⟨w, hw, hg⟩ := ih m hm _ _ h' hv
            exact ⟨w1 ++ w, .comment hw1 hw, (show Went s st _ w1 from ⟨_, rfl, hg1⟩).append hg⟩
        · -- neither
          have hn2 : Not (env s) Verif.Xml.comment st.pos := not_br (not_lit (by decide) h2)
          have hc : Cond (env s) (.btry .brk) st.pos true := fun _ _ _ => ⟨1, rfl⟩
          have hn : ∀ x ∈ [Rule.tok space, Verif.Xml.comment], Not (env s) x st.pos := by
            intro x hx
            simp only [List.mem_cons, List.not_mem_nil, or_false] at hx
            rcases hx with rfl | rfl
            · exact hn1
            · exact hn2
          rcases h with ⟨s1, evs, hb, rfl⟩ | ⟨s1, h, h'⟩
          · obtain ⟨m', -, y, h2, h3, h4, -⟩ := chc_some hn hc hb
            have : s1 = st := h4.symm.trans (fin_brk h2).2
            subst this
            exact ⟨[], .nil, s1.pos, frame_self, .nil⟩
          · obtain ⟨m', -, e, -, h3⟩ := runs_chc hn hc h
            cases (fin_brk h3).1
  obtain ⟨w, hw, q, hq, hg⟩ := key m { pos := st.pos } s1 h1 rfl
  subst hq
  exact ⟨w, hw, q, rfl, hg⟩

/-! ## Elements -/

/-- The context of the grammar. -/
abbrev C : Cx := ⟨none, 1024⟩

theorem content_text {b : Nat} {t c : List Nat} (ht : Text example_ t) (hc : Derives example_ .content b c) :
    Derives example_ .content b (t ++ c) := by
  generalize hp : Part.content = part at hc
  cases hc with
  | text ht' => exact .text ⟨ht.1.append ht'.1, trivial⟩
  | more ht' hi hc => rw [← List.append_assoc]; exact .more ⟨ht.1.append ht'.1, trivial⟩ hi hc
  | _ => cases hp

theorem content_item {b : Nat} {i c : List Nat} (hi : Derives example_ .item b i) (hc : Derives example_ .content b c) :
    Derives example_ .content b (i ++ c) :=
  .more (t := []) ⟨.nil, trivial⟩ hi hc

/-- What one part of the content adds. -/
def Adds (b : Nat) (w : List Nat) : Prop := ∀ c, Derives example_ .content b c → Derives example_ .content b (w ++ c)

section
variable {s : List Nat}

/-- An element; `rec` is the claim for less fuel. -/
theorem item_went (hs : Units 256 s) {n : Nat}
    (rec : ∀ m, m < n → ∀ st s', st.wsOn = true → st.depth ≤ 1024 → Runs (env s) m C (.run (.prod 1)) st s' →
      ∃ w, Derives example_ .element (1024 - st.depth) w ∧ Went s st s' w)
    {st s' : St} (hon : st.wsOn = true) (h : Runs (env s) n C (.run content) st s') :
    ∃ w, Adds (1024 - st.depth) w ∧ Went s st s' w := by
  have prod_fin : ∀ {k m : Nat}, Runs (env s) m C (.bfinish (.prod k)) st s' → (prods k).isTok = false → (prods k).ws = none →
      ∃ m s1, Runs (env s) m C (.bfinish (prods k).rule) { st with ex := {} } s1 ∧ s' = { s1.frame st.vars.length with ex := st.ex } := by
    intro k m h h1 h2
    obtain ⟨m', -, s1, h3, h4⟩ := runs_fin_prod (E := env s) h1 h
    have : Cx.sub C ((env s).prods k) = C := by
      unfold Cx.sub
      rw [show (env s).prods k = prods k from rfl, h1, h2]
      rfl
    rw [this] at h3
    exact ⟨m', s1, h3, h4⟩
  have done : ∀ {w : List Nat} {s1 : St}, Went s { st with ex := {} } s1 w → Went s st { s1.frame st.vars.length with ex := st.ex } w := by
    rintro w s1 ⟨q, rfl, h⟩
    refine ⟨q, ?_, h⟩
    unfold St.frame
    simp only [Nat.sub_self, List.drop_zero]
  by_cases h1 : [0x3C, 0x21, 0x2D, 0x2D] <+: s.drop st.pos
  · -- a comment
    have hc : Cond (env s) (.btry (.prod 2)) st.pos true := cond_prod (E := env s) rfl rfl (cond_br (cond_lit (by decide) h1))
    obtain ⟨m, hm, h⟩ := runs_chc (pre := []) nofun hc h
    obtain ⟨m, s1, h', rfl⟩ := prod_fin h rfl rfl
    obtain ⟨w, hw, hg⟩ := comment_went (st := { st with ex := {} }) rfl h1 h'
    exact ⟨w, fun c hc => content_item (.comment hw) hc, done hg⟩
  have n1 : Not (env s) (.prod 2) st.pos := not_prod (E := env s) rfl rfl (not_br (not_lit (by decide) h1))
  by_cases h2 : [0x3C, 0x21, 0x5B, 0x43, 0x44, 0x41, 0x54, 0x41, 0x5B] <+: s.drop st.pos
  · -- a CDATA section
    have hc : Cond (env s) (.btry (.prod 3)) st.pos true := cond_prod (E := env s) rfl rfl (cond_wsn (cond_br (cond_lit (by decide) h2)))
    obtain ⟨m, hm, h⟩ := runs_chc (pre := [.prod 2]) (by simpa using n1) hc h
    obtain ⟨m, s1, h', rfl⟩ := prod_fin h rfl rfl
    obtain ⟨w, hw, hg⟩ := cdata_went (st := { st with ex := {} }) hs rfl hon h2 h'
    exact ⟨w, fun c hc => content_item (.cdata hw) hc, done hg⟩
  have n2 : Not (env s) (.prod 3) st.pos := not_prod (E := env s) rfl rfl (not_wsn (not_br (not_lit (by decide) h2)))
  have n12 : ∀ x ∈ [Rule.prod 2, .prod 3], Not (env s) x st.pos := by
    intro x hx
    simp only [List.mem_cons, List.not_mem_nil, or_false] at hx
    rcases hx with rfl | rfl
    · exact n1
    · exact n2
  by_cases h3 : [0x3C] <+: s.drop st.pos
  · -- a child
    have hc : Cond (env s) (.btry (.br (.peek 8 (lit [0x3C])) (.recu 1 9 false))) st.pos true := cond_br (cond_peek ((lit_yes (by decide) _).2 h3))
    obtain ⟨m, hm, h⟩ := runs_chc n12 hc h
    obtain ⟨m1, hm1, s1, h4, h5⟩ := runs_fin_br h
    have := runs_fin_peek h4
    subst this
    obtain ⟨h6, m2, hm2, s2, h7, rfl⟩ := runs_recu h5
    have h6 : s1.depth < 1024 := h6
    obtain ⟨w, hw, q, rfl, hg⟩ := rec m2 (by omega) { s1 with depth := s1.depth + 1 } s2 hon (by simp only; omega) h7
    refine ⟨w, fun c hc => content_item ?_ hc, q, by simp, hg⟩
    have := Derives.child hw
    rw [show 1024 - (s1.depth + 1) + 1 = 1024 - s1.depth by omega] at this
    exact this
  have n3 : Not (env s) (.br (.peek 8 (lit [0x3C])) (.recu 1 9 false)) st.pos := not_br (not_peek ((lit_no (by decide) _).2 h3))
  have n123 : ∀ x ∈ [Rule.prod 2, .prod 3, .br (.peek 8 (lit [0x3C])) (.recu 1 9 false)], Not (env s) x st.pos := by
    intro x hx
    simp only [List.mem_cons, List.not_mem_nil, or_false] at hx
    rcases hx with rfl | rfl | rfl
    · exact n1
    · exact n2
    · exact n3
  by_cases h4 : [0x26] <+: s.drop st.pos
  · -- a reference
    have hc : Cond (env s) (.btry (.prod 4)) st.pos true := cond_prod (E := env s) rfl rfl (cond_br (cond_lit (by decide) h4))
    obtain ⟨m, hm, h⟩ := runs_chc n123 hc h
    obtain ⟨m, s1, h', rfl⟩ := prod_fin h rfl rfl
    obtain ⟨w, hw, hg⟩ := reference_went (st := { st with ex := {} }) rfl h4 h'
    exact ⟨w, fun c hc => content_item (.reference hw) hc, done hg⟩
  · -- text
    have n4 : Not (env s) (.prod 4) st.pos := not_prod (E := env s) rfl rfl (not_br (not_lit (by decide) h4))
    have n1234 : ∀ x ∈ [Rule.prod 2, .prod 3, .br (.peek 8 (lit [0x3C])) (.recu 1 9 false), .prod 4], Not (env s) x st.pos := by
      intro x hx
      simp only [List.mem_cons, List.not_mem_nil, or_false] at hx
      rcases hx with rfl | rfl | rfl | rfl
      · exact n1
      · exact n2
      · exact n3
      · exact n4
    obtain ⟨m, hm, h⟩ := runs_chc n1234 (cond_br cond_els) h
    obtain ⟨m1, hm1, s1, h5, h6⟩ := runs_fin_br h
    have := runs_fin_els h5
    subst this
    obtain ⟨m2, -, s2, h7, rfl⟩ := runs_prod (E := env s) rfl rfl h6
    obtain ⟨t, ht, hg⟩ := text_went hs rfl h7
    exact ⟨t, fun c hc => content_text ht hc, done hg⟩

/-- The rest of the content, up to the end tag. -/
theorem tail_went (hs : Units 256 s) {n : Nat}
    (rec : ∀ m, m < n → ∀ st s', st.wsOn = true → st.depth ≤ 1024 → Runs (env s) m C (.run (.prod 1)) st s' →
      ∃ w, Derives example_ .element (1024 - st.depth) w ∧ Went s st s' w) :
    ∀ m, m ≤ n → ∀ {st s' : St}, st.wsOn = true → Runs (env s) m C (.ltTerm close content none fun _ => false) st s' →
      ∃ c, Derives example_ .content (1024 - st.depth) c ∧ Went s st s' c ∧ [0x3C, 0x2F] <+: s.drop s'.pos := by
  intro m
  induction m using Nat.strongRecOn with
  | _ m ih =>
    intro hm st s' hon h
    by_cases h1 : [0x3C, 0x2F] <+: s.drop st.pos
    · have := runs_ltTerm_yes (cond_br (cond_lit (by decide) h1)) h
      subst this
      exact ⟨[], .text ⟨.nil, trivial⟩, .nil, h1⟩
    · obtain ⟨m1, hm1, s1, h2, h3⟩ := runs_ltTerm_no (not_br (not_lit (by decide) h1)) h
      obtain ⟨w, hw, q, rfl, hg⟩ := item_went hs (fun j hj => rec j (by omega)) hon h2
      rw [frame_self] at h3
      obtain ⟨c, hc, hg', h4⟩ := ih m1 hm1 (by omega) (st := { st with pos := q }) hon h3
      exact ⟨w ++ c, hw c hc, (show Went s st _ w from ⟨q, rfl, hg⟩).append hg', h4⟩

/-- An element. -/
theorem element_went (hs : Units 256 s) : ∀ n, ∀ st s', st.wsOn = true → st.depth ≤ 1024 → Runs (env s) n C (.run (.prod 1)) st s' →
    ∃ w, Derives example_ .element (1024 - st.depth) w ∧ Went s st s' w := by
  intro n
  induction n using Nat.strongRecOn with
  | _ n ih =>
    intro st s' hon hd h
    obtain ⟨m, hm, se, h1, rfl⟩ := runs_prod (E := env s) rfl rfl h
    obtain ⟨m1, hm1, s1, h2, h3⟩ := runs_seq h1
    have := runs_varCreate h2
    subst this
    obtain ⟨m2, hm2, s2, h4, h5⟩ := runs_br h3
    obtain ⟨q1, rfl, w1⟩ := lit_went rfl (by decide) h4
    obtain ⟨m3, hm3, s3, h6, h7⟩ := runs_seq h5
    obtain ⟨q2, evs, h8, -, rfl⟩ := runs_idCap rfl h6
    have h8 : idParseR headChar trailingChar 7 s q1 = (true, q2, evs) := h8
    unfold idParseR at h8
    split at h8
    rotate_left
    · cases h8
    rename_i k hk
    obtain ⟨name, r, h9, hname, h10, -⟩ := (name_iff (hs.drop q1) k).1 hk
    simp only [Prod.mk.injEq, true_and] at h8
    obtain ⟨rfl, -⟩ := h8
    have w2 : Seg s q1 (q1 + k) name := .of_prefix ⟨r, h9.symm⟩ h10
    have hcap : ((env s).inp.drop q1).take (nameLen ((env s).inp.drop q1)) = name := by
      rw [show (env s).inp = s from rfl, nameLen, hk, Option.getD_some]
      exact w2.take h10
    obtain ⟨m4, hm4, s4, h11, h12⟩ := runs_seq h7
    simp only [hcap, setVar, if_true] at h11 h12
    obtain ⟨w, hsp, q3, rfl, w3⟩ := ws_went hs h11
    have fin : ∀ {x : List Nat} {se : St}, Went s { st with pos := q3, vars := (.ident 0, Var.ident name) :: st.vars, ex := {} } se x →
        Went s st { se.frame st.vars.length with ex := st.ex } ([0x3C] ++ name ++ w ++ x) := by
      rintro x se ⟨q, rfl, hg⟩
      refine ⟨q, ?_, ((w1.append w2).append w3).append hg⟩
      unfold St.frame
      simp
    by_cases h13 : [0x2F] <+: s.drop q3
    · -- an empty element
      obtain ⟨m5, hm5, h14⟩ := runs_chc (pre := []) nofun (cond_br (cond_lit (by decide) h13)) h12
      obtain ⟨m6, hm6, s5, h15, h16⟩ := runs_fin_br h14
      have w4 := lit_fin rfl (by decide) (by exact h13) h15
      have w5 := lit_went rfl (by decide) h16
      exact ⟨_, .empty hname hsp, fin (w4.append w5)⟩
    · have n1 : Not (env s) (.br (lit [0x2F]) (lit [0x3E])) q3 := not_br (not_lit (by decide) h13)
      obtain ⟨m5, hm5, h14⟩ := runs_chc (pre := [.br (lit [0x2F]) (lit [0x3E])]) (by simpa using n1) (cond_br cond_els) h12
      obtain ⟨m6, hm6, s5, h15, h16⟩ := runs_fin_br h14
      have := runs_fin_els h15
      subst this
      obtain ⟨m7, hm7, s6, h17, h18⟩ := runs_seq h16
      obtain ⟨q4, rfl, w4⟩ := lit_went rfl (by decide) h17
      have w4 : Went s { st with pos := q3, vars := (.ident 0, Var.ident name) :: st.vars, ex := {} }
        { st with pos := q4, vars := (.ident 0, Var.ident name) :: st.vars, ex := {} } [0x3E] := ⟨q4, rfl, w4⟩
      by_cases h19 : [0x3C, 0x2F] <+: s.drop q4
      · -- no content
        obtain ⟨m8, hm8, h20⟩ := runs_optt_yes (cond_br (cond_lit (by decide) h19)) h18
        obtain ⟨w', hsp', w5⟩ := close_went (name := name) hs rfl rfl h19 h20
        have := Derives.element (D := example_) (b := 1024 - st.depth) (c := []) hname hsp (.text ⟨.nil, trivial⟩) hsp'
        refine ⟨_, this, ?_⟩
        have := fin (w4.append w5)
        simp only [List.append_assoc, List.nil_append] at this ⊢
        exact this
      · obtain ⟨m8, hm8, h20⟩ := runs_optt_no (not_br (not_lit (by decide) h19)) h18
        obtain ⟨m9, hm9, s7, s8, h21, h22, h23⟩ := runs_lstt h20
        obtain ⟨x, hx, q5, rfl, w5⟩ := item_went hs (fun j hj => ih j (by omega)) (by exact hon) h21
        rw [frame_self] at h22
        obtain ⟨c, hc, ⟨q6, rfl, w6⟩, h24⟩ := tail_went hs (n := m9) (fun j hj => ih j (by omega)) m9 (Nat.le_refl _) (by exact hon) h22
        obtain ⟨w', hsp', w7⟩ := close_went (name := name) hs rfl rfl h24 h23
        have := Derives.element (D := example_) (b := 1024 - st.depth) hname hsp (hx c hc) hsp'
        refine ⟨_, this, ?_⟩
        have := fin (((w4.append ⟨q5, rfl, w5⟩).append ⟨q6, rfl, w6⟩).append w7)
        simp only [List.append_assoc] at this ⊢
        exact this

end

end Verif.Xml
