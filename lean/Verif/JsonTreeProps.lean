import Verif.ParseTreeChains
import Verif.JsonProps

/-
The parse trees of the grammar of examples/json.cpp are lossless.
-/

namespace Verif

namespace Spec

/-- A rule without expressions; only the kinds of rules that examples/json.cpp and
    examples/xml.cpp use. -/
inductive PlainRule : Rule → Prop
  | tok (t) : PlainRule (.tok t)
  | prim {p} : PlainPrim p → PlainRule (.prim p)
  | els : PlainRule .els
  | wsr (r) : PlainRule (.wsr r)
  | varCreate (id v) : PlainRule (.varCreate id v)
  | idCap (id) {p} (len) : PlainPrim p → PlainRule (.idCap id p len)
  | idRem (id tag t) : PlainRule (.idRem id tag t)
  | err (tag) : PlainRule (.err tag none)
  | peek (tag r) : PlainRule (.peek tag r)
  | prod (n) : PlainRule (.prod n)
  | recu (n tag b) : PlainRule (.recu n tag b)
  | seq {a b} : PlainRule a → PlainRule b → PlainRule (.seq a b)
  | br {a b} : PlainRule a → PlainRule b → PlainRule (.br a b)
  | optt {a b} : PlainRule a → PlainRule b → PlainRule (.optt a b)
  | chc {rs} : (∀ r ∈ rs, PlainRule r) → PlainRule (.chc rs)
  | ifR {r} : PlainRule r → PlainRule (.ifR r)
  | opt {r} : PlainRule r → PlainRule (.opt r)
  | wsn {r} : PlainRule r → PlainRule (.wsn r)
  | lstt {term item sep} (limit) : PlainRule term → PlainRule item → (∀ s ∈ sep, PlainRule s.1) →
      PlainRule (.lstt term item sep limit)
  | tryr {r rc} : PlainRule r → PlainRule rc → PlainRule (.tryr r (.wrap rc))

end Spec

open Spec

theorem noExprs_plain {E : Env} (h : ∀ n, PlainRule (E.prods n).rule) (n : Nat) : NoExprs E n := by
  refine ⟨PlainRule, fun r hr => ?_, h n⟩
  unfold NoExprAt
  cases hr with
  | tok | els | err | peek | wsr | varCreate | idRem => exact ⟨trivial, trivial⟩
  | prim hp | idCap _ _ hp => exact ⟨trivial, hp⟩
  | prod n => exact ⟨trivial, h n⟩
  | recu n => exact ⟨.prod n, .prod n⟩
  | seq h1 h2 | br h1 h2 | optt h1 h2 => exact ⟨⟨h1, h2⟩, trivial⟩
  | chc h1 => exact ⟨h1, trivial⟩
  | ifR h1 | opt h1 | wsn h1 => exact ⟨h1, trivial⟩
  | lstt _ h1 h2 h3 => exact ⟨⟨h1, h2, h3⟩, trivial⟩
  | tryr h1 h2 => exact ⟨⟨h1, h2⟩, trivial⟩

theorem nc_cons {ev : Ev} {a : List Ev} (h1 : NoChain [ev]) (h2 : NoChain a) : NoChain (ev :: a) := nc_append h1 h2

theorem plain_int {kind dkind : Kind} {tag otag : Nat} {tok : List Nat → TokRes} {b : Base}
    {conv : List Int → Option (Nat × Bool)} : PlainPrim (intRule kind dkind tag otag tok b conv) := by
  have ho : ∀ x y us, NoChain (overflowEv conv otag x y us) := by
    intro x y us
    unfold overflowEv
    split <;> simp [NoChain]
  have key : ∀ s p, NoChain (intParse kind dkind tag otag tok b conv s p).2.2 := by
    intro s p
    unfold intParse
    simp only
    split
    · exact nc_cons (by simp [NoChain]) (ho _ _ _)
    · split
      · simp [NoChain]
      · exact nc_append (a := [_, _, _, _]) (by simp [NoChain]) (ho _ _ _)
  exact fun s p => ⟨key s p, key s p⟩

theorem plain_eof {eof : Option Nat} {tag : Nat} : PlainPrim (eofRule eof tag) := by
  have key : ∀ s p, NoChain (eofParse eof tag s p).2.2 := by
    intro s p
    unfold eofParse
    simp only
    split <;> simp [NoChain]
  exact fun s p => ⟨key s p, key s p⟩

theorem plain_sym {t : SymTable} {eof : Option Nat} {tag : Nat} : PlainPrim (symRule t eof tag) := by
  have key : ∀ s p, NoChain (symParse t eof tag s p).2.2 := by
    intro s p
    unfold symParse
    split <;> simp [NoChain]
  exact fun s p => ⟨key s p, key s p⟩

/-- The same for a branch of an escape sequence. -/
def PlainEsc (b : EscBr) : Prop := (∀ s p r, b.run s p = some r → NoChain r.2.2) ∧ ∀ p, NoChain (b.cancel p)

theorem plain_ofRule {r : PRule} {f : List Nat → Nat → Bool} {h : r.branch = some f} (hr : PlainPrim r) :
    PlainEsc (.ofRule r f h) := by
  refine ⟨fun s p x hx => ?_, fun p => nc_nil⟩
  simp only [EscBr.ofRule] at hx
  split at hx
  · cases hx; exact (hr s p).2
  · cases hx

theorem plain_ofProd {n : Nat} {t : PTok} {r : PRule} (hr : PlainPrim r) : PlainEsc (.ofProd n t r) := by
  refine ⟨fun s p x hx => ?_, fun p => by simp [EscBr.ofProd, NoChain]⟩
  simp only [EscBr.ofProd, prodBranch] at hx
  split at hx
  · cases hx
    refine nc_cons (by simp [NoChain]) (nc_append (nc_cons (by simp [NoChain]) (hr _ _).1) ?_)
    split <;> simp [NoChain]
  · cases hx

theorem nc_content (kind : Kind) (b e : Nat) : NoChain (delContent kind b e) := by
  unfold delContent
  split <;> simp [NoChain]

theorem nc_branches {bs : List EscBr} (h : ∀ b ∈ bs, PlainEsc b) (s : List Nat) (p : Nat) :
    NoChain (escBranches bs s p).2.2 := by
  induction bs with
  | nil => exact nc_nil
  | cons b bs ih =>
    simp only [escBranches]
    cases hb : b.run s p with
    | some r => exact (h b (by simp)).1 s p r hb
    | none => exact nc_append ((h b (by simp)).2 p) (ih fun b hb => h b (by simp [hb]))

theorem plain_loop (d : DelimR) (h : ∀ x ∈ d.escapes, ∀ b ∈ x.2, PlainEsc b) (inp : List Nat) (start b p : Nat) :
    NoChain (d.loop inp start b p).2.2 := by
  have miss : NoChain (delContent d.kind b p ++ [.error d.missTag start p]) :=
    nc_append (nc_content _ _ _) (by simp [NoChain])
  rw [DelimR.loop]
  simp only
  split
  · exact nc_append (nc_content _ _ _) (by simp [NoChain])
  · split
    · exact miss
    · split
      · rename_i q evs he
        split
        · rename_i hq
          obtain ⟨x, hx, h1, h2⟩ := escTry_some he
          have ih := plain_loop d h inp start q q
          refine nc_append ?_ ih
          have h3 : evs = _ := congrArg Prod.snd h2
          rw [h3]
          refine nc_append (nc_content _ _ _) (nc_cons (by simp [NoChain]) (nc_append (nc_branches (h x hx) _ _) ?_))
          split <;> simp [NoChain]
        · exact miss
      · split
        · split
          · exact plain_loop d h inp start b (p + (d.char (inp.drop p)).2)
          · have ih := plain_loop d h inp start (p + (d.char (inp.drop p)).2) (p + (d.char (inp.drop p)).2)
            exact nc_append (nc_content _ _ _) (nc_append (a := [_, _, _, _]) (by simp [NoChain]) ih)
        · exact miss
termination_by inp.length - p
decreasing_by all_goals omega

theorem plain_delim (d : DelimR) (h : ∀ x ∈ d.escapes, ∀ b ∈ x.2, PlainEsc b) : PlainPrim d.rule :=
  fun s p => ⟨plain_loop d h s p p p, plain_loop d h s p p p⟩

namespace Json

open Verif.Spec.Json

theorem plain_content : PlainPrim content.rule := by
  refine plain_delim _ fun x hx b hb => ?_
  simp only [content, List.mem_cons, List.not_mem_nil, or_false] at hx
  subst hx
  simp only [List.mem_cons, List.not_mem_nil, or_false] at hb
  rcases hb with rfl | rfl
  · exact plain_ofRule plain_sym
  · exact plain_ofProd plain_int

theorem plain_optList {o c : Nat} {item : Rule} (h : PlainRule item) : PlainRule (optList o c item) :=
  .br (.tok _) (.optt (.tok _) (.lstt _ (.tok _) h (by rintro s hs; cases hs; exact .tok _)))

theorem plain_prods (n : Nat) : PlainRule (prods n).rule := by
  unfold prods
  split
  · exact .seq (.prod _) (.prim plain_eof)
  · refine .chc ?_
    intro r hr
    simp only [List.mem_cons, List.not_mem_nil, or_false] at hr
    rcases hr with rfl | rfl | rfl | rfl | rfl | rfl | rfl <;> constructor
  · exact .tok _
  · refine .chc ?_
    intro r hr
    simp only [List.mem_cons, List.not_mem_nil, or_false] at hr
    rcases hr with rfl | rfl <;> constructor
  · exact .tok _
  · exact .tok _
  · exact .br (.peek _ _) (.seq (.prod _) (.seq (.opt (.prod _)) (.opt (.prod _))))
  · exact .seq (.ifR (.tok _)) (.prim plain_int)
  · exact .br (.tok _) (.tok _)
  · refine .br (.chc ?_) (.seq (.ifR (.chc ?_)) (.prim plain_int)) <;>
    · intro r hr
      simp only [List.mem_cons, List.not_mem_nil, or_false] at hr
      rcases hr with rfl | rfl <;> exact .tok _
  · exact .wsn (.br (.tok _) (.prim plain_content))
  · exact plain_optList (.recu _ _ _)
  · exact plain_optList (.seq (.prod _) (.seq (.tryr (.tok _) .els) (.recu _ _ _)))
  · exact .br (.tok _) (.prim plain_int)

/-- **C33** The parse tree of an input that the grammar accepts is lossless. -/
theorem C33_json {z : PT.Sizes} (hz : z.Ok) {N : PT.Names} {s : List Nat} {fuel : Nat}
    (h : accepts fuel s = some true) :
    ∃ T t v p, PT.parseAsTree z (env s) N fuel 0 maxDepth = some (some T, v) ∧ v.status = .success
      ∧ (∀ m, t.size < m → PT.readTree z T.heap m T.root = some t)
      ∧ PT.Adjacent 0 t.leaves p
      ∧ PT.remainingInput T = some (p, s.length)
      ∧ PT.textOf s t.leaves ++ s.drop p = s := by
  unfold accepts at h
  obtain ⟨r, h1, h2⟩ := Option.map_eq_some_iff.1 h
  simp only [Bool.and_eq_true, beq_iff_eq, Bool.not_eq_true', List.any_eq_false, Bool.not_eq_true] at h2
  obtain ⟨T, t, a1, a2, a3, a4, a5⟩ := PT.C33_lossless_no_expr_partial (N := N) hz
    (noExprs_plain (E := env s) plain_prods 0) rfl h1 h2.1 h2.2
  refine ⟨T, t, validateResult r, r.st.pos, ?_, ?_, a2, a3, a4, a5⟩
  · simp [PT.parseAsTree, h1, a1]
  · have hn : Spec.errors r.evs = [] := by
      have hq := h2.2
      revert hq
      generalize r.evs = evs
      induction evs with
      | nil => intro _; rfl
      | cons e evs ih =>
        intro hq
        cases e with
        | error tag b e => exact absurd (hq _ (List.mem_cons_self ..)) (by simp [Ev.isError])
        | _ => exact ih fun x hx => hq x (List.mem_cons_of_mem _ hx)
    simp [validateResult, Validated.mk', validateOn_fold, hn]

/-- **C33** The parse tree of every JSON text within the limits of the example is lossless: its tokens are
    adjacent, begin at the beginning of the input, and with the remaining input they are the input. -/
theorem C33_json_text {z : PT.Sizes} (hz : z.Ok) {N : PT.Names} {s t rest : List Nat} (hs : Units 256 s)
    (e : s = t ++ rest) (ht : Text exampleLimits 19 t) (hr : rest = [] ∨ rest.head? = some 0xFF) :
    ∃ fuel T tr v p, PT.parseAsTree z (env s) N fuel 0 maxDepth = some (some T, v) ∧ v.status = .success
      ∧ (∀ m, tr.size < m → PT.readTree z T.heap m T.root = some tr)
      ∧ PT.Adjacent 0 tr.leaves p
      ∧ PT.remainingInput T = some (p, s.length)
      ∧ PT.textOf s tr.leaves ++ s.drop p = s := by
  obtain ⟨fuel, hf⟩ := complete hs e ht hr
  obtain ⟨T, tr, v, p, h⟩ := C33_json (N := N) hz hf
  exact ⟨fuel, T, tr, v, p, h⟩

/-- `[-1, {"a":true}] ` has a lossless tree; `json_value`, `integer` and `true_` are transparent. -/
def treeSample : List Nat :=
  [0x5B, 0x2D, 0x31, 0x2C, 0x20, 0x7B, 0x22, 0x61, 0x22, 0x3A, 0x74, 0x72, 0x75, 0x65, 0x7D, 0x5D, 0x20]

example : ((PT.parseAsTree .x64 (env treeSample) PT.Ex.names 60 0 maxDepth).bind fun (T, v) =>
      T.bind fun T => (PT.readTree .x64 T.heap 60 T.root).map fun t =>
        (PT.textOf treeSample t.leaves, t.leaves.length, v.status)) = some (treeSample, 15, .success) := by
  decide +kernel

end Json

end Verif
