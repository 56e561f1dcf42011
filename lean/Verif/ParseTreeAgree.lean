import Verif.XmlTreeProps

/-
`parse_as_tree` and the other actions, for grammars where the tree builder cannot go wrong.
-/

namespace Verif

namespace PT

/-- **C42** For grammars with neither expressions nor transparent productions `parse_as_tree` ends whenever
    `validate` does, with the same result, and has a tree exactly if `parse` has a value; `validate` ends whenever
    `parse_as_tree` does. -/
theorem C42_tree_static {z : Sizes} (hz : z.Ok) {E : Env} {N : Names} {fuel n d : Nat}
    (hE : Verif.Spec.NoExprs E n) (hT : ∀ n, (E.prods n).transparent = false) (v : Validated) :
    validateAction E fuel n d = some v ↔
      ∃ t p, parseAsTree z E N fuel n d = some (t, v) ∧ parseAction E fuel n d = some p ∧ p.impl = v
        ∧ t.isSome = p.hasValue := by
  constructor
  · intro h
    obtain ⟨r, h1, h2⟩ := Option.map_eq_some_iff.1 h
    subst h2
    obtain ⟨t, h3, _⟩ := C33_lossless_static_partial (N := N) hz hE hT h1
    obtain ⟨_, p, h4, h5, h6⟩ := C42_tree_agrees h3
    exact ⟨t, p, h3, h4, h5, h6⟩
  · rintro ⟨t, p, h, _⟩
    exact (C42_tree_agrees h).1

end PT

namespace Xml

/-- **C42** The XML example has a parse tree for an input exactly if the parse of that input succeeds or recovers. -/
theorem C42_xml {z : PT.Sizes} (hz : z.Ok) (N : PT.Names) (s : List Nat) (fuel : Nat) (v : Validated) :
    validateAction (env s) fuel 0 maxDepth = some v ↔
      ∃ t p, PT.parseAsTree z (env s) N fuel 0 maxDepth = some (t, v) ∧ parseAction (env s) fuel 0 maxDepth = some p
        ∧ p.impl = v ∧ t.isSome = p.hasValue :=
  PT.C42_tree_static hz (noExprs_plain (E := env s) plain_prods 0) (fun n => not_transparent n) v

/-- There is no tree for `<a>`, and one for `<a/>`. -/
example : ((PT.parseAsTree .x64 (env [0x3C, 0x61, 0x3E]) PT.Ex.names 60 0 maxDepth).map
    fun (T, v) => (T.isSome, v.status)) = some (false, .fatal)
  ∧ ((PT.parseAsTree .x64 (env [0x3C, 0x61, 0x2F, 0x3E]) PT.Ex.names 60 0 maxDepth).map
    fun (T, v) => (T.isSome, v.status)) = some (true, .success) := by decide +kernel

end Xml

end Verif
