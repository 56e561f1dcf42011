import Verif.XmlProps
import Verif.TerminationProps

/-
C89: parsing with the grammar of examples/xml.cpp ends, for every input.
-/

namespace Verif.Xml

open Tot

theorem utf8_pos {s : List Nat} (h : (parseCp .utf8 s).error = .success) : 0 < (parseCp .utf8 s).len ∧ s ≠ [] := by
  cases s with
  | nil => exact absurd h (by decide)
  | cons u s =>
    refine ⟨?_, by simp⟩
    have ite : ∀ {c : Prop} [Decidable c] {x y : CpResult}, (x.error = .success → 0 < x.len) → (y.error = .success → 0 < y.len) →
        (if c then x else y).error = .success → 0 < (if c then x else y).len := by
      intro c _ x y h1 h2
      split
      · exact h1
      · exact h2
    revert h
    simp only [parseCp, parseUtf8]
    repeat' apply ite
    all_goals simp

theorem class_pos {c : CC} {s : List Nat} {n : Nat} (h : c.tryParse .utf8 s = some n) : 0 < n ∧ s ≠ [] := by
  unfold CC.tryParse at h
  split at h
  · rename_i ht
    cases h
    refine ⟨Nat.zero_lt_one, ?_⟩
    rintro rfl
    cases ht
  · split at h
    · cases h
    · simp only at h
      split at h
      · cases h
      · rename_i he
        split at h
        · cases h
        · cases h
          exact utf8_pos (by simpa using he)

theorem idLen_pos {L T : CC} {s : List Nat} {n : Nat} (h : idLen L T s = some n) : 0 < n := by
  unfold idLen at h
  obtain ⟨m, hm, rfl⟩ := Option.map_eq_some_iff.1 h
  unfold identMatch at hm
  split at hm
  · cases hm
  · rename_i k hk
    cases hm
    obtain ⟨h1, h2⟩ := class_pos hk
    have := List.length_pos_iff.2 h2
    omega

theorem space_eats {E : Env} : Eats E (.tok space) := by
  refine .tok fun s hs => ?_
  show 0 < min _ s.length
  replace hs : (match (CC.alt (AClass.cc .space) (AClass.cc .newline)).tryParse .utf8 s with
    | some n => (true, n)
    | none => (false, 0)).1 = true := hs
  split at hs
  · rename_i n hn
    obtain ⟨h1, h⟩ := class_pos hn
    have := List.length_pos_iff.2 h
    simp only [hn]
    omega
  · cases hs

theorem lit_eats {E : Env} {w : List Nat} (hw : ∀ c ∈ w, c < 128) (h : w ≠ []) : Eats E (lit w) := by
  refine .tok fun s hs => ?_
  obtain ⟨n, hn⟩ : ∃ n, (litTok eof 0 0 w).run s = (true, n) := ⟨_, Prod.ext hs rfl⟩
  rw [hn, ((lit_iff hw s n).1 hn).2]
  exact List.length_pos_iff.2 h

theorem text_eats {E : Env} : Eats E (.prim (idRule textChar textChar 12)) := by
  refine .prim fun s q h => ?_
  replace h : (idParseR textChar textChar 12 s q).1 = true := h
  show q < (idParseR textChar textChar 12 s q).2.1
  unfold idParseR at h ⊢
  split at h
  · rename_i n hn
    have := idLen_pos hn
    simp only [hn]
    omega
  · cases h

/-- The recursive calls: of `element`, without whitespace. -/
def Calls (k : Nat) (ws : Option Rule) (_ : List VarKey) : Prop := k = 1 ∧ ws = none

variable {s : List Nat} {V : List VarKey} {l b : Bool}

theorem no_skip (w : Rule) (h : none = some w) : Wf (env s) Calls .skip false false none [] w := by cases h

theorem wfTok {t : PTok} : Wf (env s) Calls .run l b none V (.tok t) := .tok no_skip

theorem wfProd {n : Nat} (hn : (prods n).ws = none) (h : Wf (env s) Calls .run l false none V (prods n).rule) :
    Wf (env s) Calls .run l b none V (.prod n) := by
  have e : subWs none ((env s).prods n) = none := by
    show subWs none (prods n) = none
    simp [subWs, hn]
  exact .prod (by rw [e]; exact h) no_skip (by rw [e]; exact no_skip)

theorem wfWs : Wf (env s) Calls .run l b none V ws := .wsr (.stok rfl space_eats .mtok)

theorem wfComment : Wf (env s) Calls .run l b none V comment := .br wfTok wfTok

theorem wfClose (hV : .ident 0 ∈ V) : Wf (env s) Calls .run l b none V close :=
  .br wfTok (.seq (.idRem hV no_skip) (.seq wfWs wfTok))

theorem content_eats : Eats (env s) content := by
  refine .chc fun r hr => ?_
  simp only [List.mem_cons, List.not_mem_nil, or_false] at hr
  rcases hr with rfl | rfl | rfl | rfl | rfl
  · exact .prod (.brL (lit_eats (by decide) (by simp)))
  · exact .prod (.wsn (.brL (lit_eats (by decide) (by simp))))
  · exact .brR (.recu (.prod (.seqR (.brL (lit_eats (by decide) (by simp))))))
  · exact .prod (.brL (lit_eats (by decide) (by simp)))
  · exact .brR (.prod text_eats)

theorem wfContent : Wf (env s) Calls .run true b none V content := by
  refine .chc (fun r hr => ?_) (fun r hr => ?_) <;> simp only [List.mem_cons, List.not_mem_nil, or_false] at hr <;>
    rcases hr with rfl | rfl | rfl | rfl | rfl
  · exact wfProd (n := 2) rfl wfComment
  · exact wfProd (n := 3) rfl (.wsn (.br wfTok (.prim no_skip)) no_skip)
  · exact .br (.peek .mtok) (.recu ⟨rfl, rfl⟩)
  · exact wfProd (n := 4) rfl (.br wfTok (.seq (.prim no_skip) wfTok))
  · exact .br .els (wfProd (n := 5) rfl (.prim no_skip))
  · exact .cprod rfl (.cbr .ctok)
  · exact .cprod rfl (.cwsn (.cbr .ctok))
  · exact .cbr (.cpeek .mtok)
  · exact .cprod rfl (.cbr .ctok)
  · exact .cbr .cels

theorem wfElement : Wf (env s) Calls .run true b none V (.prod 1) := by
  have hn : ¬ content.isBranch (env s) = true := by simp [content, Rule.isBranch, Rule.uncond]
  have hV : VarKey.ident 0 ∈ VarKey.ident 0 :: V := by simp
  refine wfProd (n := 1) rfl (.scope (.br wfTok (.seq (.idCap hV no_skip) (.seq wfWs (.chc (fun r hr => ?_) (fun r hr => ?_)))))) <;>
    simp only [List.mem_cons, List.not_mem_nil, or_false] at hr <;> rcases hr with rfl | rfl
  · exact .br wfTok wfTok
  · exact .br .els (.seq wfTok (.optt (wfClose hV) (.cbr .ctok) (.lstt (wfClose hV) (.cbr .ctok) wfContent content_eats
      (fun h => (hn h).elim) (fun h => (hn h).elim))))
  · exact .cbr .ctok
  · exact .cbr .cels

theorem wfMisc : Wf (env s) Calls .run l b none V misc := by
  refine .wsr (.sother rfl (.loop (.chc (fun r hr => ?_) (fun r hr => ?_)) (.chc fun r hr => ?_))) <;>
    simp only [List.cons_append, List.nil_append, List.mem_cons, List.not_mem_nil, or_false] at hr <;>
    rcases hr with rfl | rfl | rfl
  · exact wfTok
  · exact wfComment
  · exact .brk
  · exact .ctok
  · exact .cbr .ctok
  · exact .cbrk
  · exact space_eats
  · exact .brL (lit_eats (by decide) (by simp))
  · exact .brk

/-- **C89.** Parsing ends, for every input. -/
theorem C89_ends (s : List Nat) : ∃ fuel b, ∀ k, fuel ≤ k → accepts k s = some b := by
  obtain ⟨fuel, r, -, h⟩ := C80_terminates (E := env s) (G := Calls) (n := 0) (d := maxDepth) (by decide)
    (fun k ws V h => by obtain ⟨rfl, rfl⟩ := h; exact wfElement)
    (.seq wfMisc (.seq wfElement (.seq wfMisc (.prim no_skip)))) no_skip
  exact ⟨fuel, _, fun k hk => by unfold accepts; rw [h k hk]; rfl⟩

/-- An element that is not closed: the list of its contents recovers until the end of the input. -/
example : ∃ fuel, accepts fuel [0x3C, 0x61, 0x3E, 0xC3, 0x3C, 0x62, 0x3E] = some false := ⟨200, by decide +kernel⟩

end Verif.Xml
