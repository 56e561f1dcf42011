import Verif.JsonTreeProps
import Verif.XmlProps
import Verif.XmlEnds

/-
The parse trees of the grammar of examples/xml.cpp are lossless, also those of inputs with errors.
-/

namespace Verif

open Spec

theorem plain_id {L T : CC} {tag : Nat} : PlainPrim (idRule L T tag) := by
  have key : ∀ s p, NoChain (idParseR L T tag s p).2.2 := by
    intro s p
    unfold idParseR
    split <;> simp [NoChain]
  exact fun s p => ⟨key s p, key s p⟩

theorem plain_symId {t : SymTable} {eof : Option Nat} {kind : Kind} {L T : CC} {itag tag : Nat} :
    PlainPrim (symIdRule t eof kind L T itag tag) := by
  have key : ∀ s p, NoChain (symIdParseR t eof kind L T itag tag s p).2.2 := by
    intro s p
    unfold symIdParseR
    split
    · simp [NoChain]
    · split <;> simp [NoChain]
  exact fun s p => ⟨key s p, key s p⟩

namespace Xml

theorem plain_close : PlainRule close := .br (.tok _) (.seq (.idRem _ _ _) (.seq (.wsr _) (.tok _)))

theorem plain_content : PlainRule content := by
  refine .chc ?_
  intro r hr
  simp only [List.mem_cons, List.not_mem_nil, or_false] at hr
  rcases hr with rfl | rfl | rfl | rfl | rfl
  · exact .prod _
  · exact .prod _
  · exact .br (.peek _ _) (.recu _ _ _)
  · exact .prod _
  · exact .br .els (.prod _)

theorem plain_prods (n : Nat) : PlainRule (prods n).rule := by
  unfold prods
  split
  · exact .seq (.wsr _) (.seq (.prod _) (.seq (.wsr _) (.prim plain_eof)))
  · refine .seq (.varCreate _ _) (.br (.tok _) (.seq (.idCap _ _ plain_id) (.seq (.wsr _) (.chc ?_))))
    intro r hr
    simp only [List.mem_cons, List.not_mem_nil, or_false] at hr
    rcases hr with rfl | rfl
    · exact .br (.tok _) (.tok _)
    · exact .br .els (.seq (.tok _) (.optt plain_close (.lstt _ plain_close plain_content (by rintro s hs; cases hs))))
  · exact .br (.tok _) (.tok _)
  · exact .wsn (.br (.tok _) (.prim (plain_delim _ (by rintro x hx; cases hx))))
  · exact .br (.tok _) (.seq (.prim plain_symId) (.tok _))
  · exact .prim plain_id

theorem not_transparent (n : Nat) : (prods n).transparent = false := by
  unfold prods
  split <;> rfl

/-- **C33** Every parse tree of the XML example is lossless, also if errors were reported: its tokens are adjacent,
    begin at the beginning of the input, and with the remaining input they are the input. -/
theorem C33_xml {z : PT.Sizes} (hz : z.Ok) {N : PT.Names} {s : List Nat} {fuel : Nat} {T : PT.Tree} {v : Validated}
    (h : PT.parseAsTree z (env s) N fuel 0 maxDepth = some (some T, v)) :
    ∃ t p, (∀ m, t.size < m → PT.readTree z T.heap m T.root = some t)
      ∧ PT.Adjacent 0 t.leaves p
      ∧ PT.remainingInput T = some (p, s.length)
      ∧ PT.textOf s t.leaves ++ s.drop p = s := by
  obtain ⟨r, h1, _⟩ := Option.bind_eq_some_iff.1 h
  obtain ⟨x, h3, h4, h5⟩ := PT.C33_lossless_static_partial (N := N) hz (noExprs_plain (E := env s) plain_prods 0)
    (fun n => not_transparent n) h1
  rw [h] at h3
  simp only [Option.some.injEq, Prod.mk.injEq] at h3
  obtain ⟨rfl, _⟩ := h3
  have ho : r.out = .ok := Classical.byContradiction fun hn => by cases h4 hn
  obtain ⟨T', t, e, h6⟩ := h5 ho
  cases e
  exact ⟨t, _, h6⟩

/-- **C33** and building the tree ends without a violated precondition, for every input. -/
theorem C33_xml_ends {z : PT.Sizes} (hz : z.Ok) (N : PT.Names) (s : List Nat) :
    ∃ fuel x v, PT.parseAsTree z (env s) N fuel 0 maxDepth = some (x, v) := by
  obtain ⟨fuel, b, h⟩ := C89_ends s
  obtain ⟨r, h1, _⟩ := Option.map_eq_some_iff.1 (h fuel (Nat.le_refl _))
  obtain ⟨x, h3, _⟩ := PT.C33_lossless_static_partial (N := N) hz (noExprs_plain (E := env s) plain_prods 0)
    (fun n => not_transparent n) h1
  exact ⟨fuel, x, _, h3⟩

/-- There is such a tree for `<a>&x;b</a>`, although `x` is not an entity. -/
example : ((PT.parseAsTree .x64 (env [0x3C, 0x61, 0x3E, 0x26, 0x78, 0x3B, 0x62, 0x3C, 0x2F, 0x61, 0x3E]) PT.Ex.names 60 0 maxDepth).map
    fun (T, v) => (T.isSome, v.status)) = some (true, .recovered) := by decide +kernel

end Xml

end Verif
