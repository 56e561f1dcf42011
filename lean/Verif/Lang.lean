import Verif.ExprOps
import Verif.ChoiceProps

/-
The language of a grammar (C38), independently of how it is parsed: which parts of the input a rule can derive.
It is ambiguous where lexy is not (a choice derives what any of its alternatives derives, a loop may end at any time), and
whitespace may or may not be there where whitespace can be skipped; that the first alternative is taken is C39, that
whitespace is skipped is C50.
What the rules for context variables check is not part of it (C52), they derive the empty range.
-/

namespace Verif.Spec

/-- What can be derived: a rule (`brk`: that ends with `break_`); a rule matched as a token; whitespace; the rest of a list
    behind an item; the rest of a repetition of `k` more items; the branches of a combination that are not `handled`;
    operands and operators of an expression. -/
inductive Goal
  | rule (r : Rule) (brk : Bool)
  | tok (r : Rule)
  | gap
  | tail (item : Rule) (sep : Option Sep)
  | times (k : Nat) (item : Rule) (sep : Option Sep) (brk : Bool)
  | comb (rs : List Rule) (els : CombElse) (handled : List Nat)
  | operand (i : Nat)
  | op (i : Nat) (o : OpDef)

/-- A trailing separator is allowed. -/
def SepKind.Trails : SepKind → Prop
  | .sep _ => False
  | .trailing | .ignoreTrailing => True

/-- The whitespace inside of a production: its own, none for a token production, or the one of its parent. -/
def innerWs (d : ProdDef) (w : Option Rule) : Option Rule :=
  match d.ws with
  | some r => some r
  | none => if d.isTok then none else w

/-- Rules that only concern context variables. -/
def Rule.IsContext : Rule → Prop
  | .varCreate .. | .flagSet .. | .flagToggle .. | .flagIs .. | .cntAdd .. | .cntIs .. | .cntEq .. => True
  | _ => False

/-- With whitespace `w`, the goal derives the input from `p` to `q`. -/
inductive Lang (E : Env) : Option Rule → Goal → Nat → Nat → Prop
  -- tokens
  | match {w : Option Rule} {t : PTok} {p n : Nat} (h : t.run (E.inp.drop p) = (true, n)) : Lang E w (.tok (.tok t)) p (p + n)
  | matchRule {w : Option Rule} {k : Kind} {tag : Nat} {r : Rule} {p q : Nat} (h : Lang E none (.rule r false) p q) :
      Lang E w (.tok (.tokr k tag r)) p q
  | matchOther {w : Option Rule} {r : Rule} {p q : Nat} (ht : r.isToken = false) (h : Lang E none (.rule r false) p q) :
      Lang E w (.tok r) p q
  | token {w : Option Rule} {r : Rule} {p m q : Nat} (ht : r.isToken = true) (h : Lang E w (.tok r) p m) (hw : Lang E w .gap m q) :
      Lang E w (.rule r false) p q
  | prim {w : Option Rule} {r : PRule} {p m q : Nat} {evs : List Ev} (h : r.parse E.inp p = (true, m, evs))
      (he : ∀ ev ∈ evs, ev.isError = false) (hn : r.ws = false → q = m) (hw : Lang E w .gap m q) : Lang E w (.rule (.prim r) false) p q
  -- whitespace: any number of the whitespace rule
  | noGap {w : Option Rule} {p : Nat} : Lang E w .gap p p
  | gapTok {r : Rule} {p m q : Nat} (ht : r.isToken = true) (h : Lang E none (.tok r) p m) (h' : Lang E (some r) .gap m q) :
      Lang E (some r) .gap p q
  | gapRule {r : Rule} {p m q : Nat} (h : Lang E none (.rule r false) p m) (h' : Lang E (some r) .gap m q) : Lang E (some r) .gap p q
  | gapBreak {r : Rule} {p q : Nat} (h : Lang E none (.rule r true) p q) : Lang E (some r) .gap p q
  | gapWs {r : Rule} {p q : Nat} (h : Lang E (some r) .gap p q) : Lang E (some (.wsr r)) .gap p q
  | whitespace {w : Option Rule} {r : Rule} {p q : Nat} (h : Lang E (some r) .gap p q) : Lang E w (.rule (.wsr r) false) p q
  -- sequences and choices
  | els {w : Option Rule} {p : Nat} : Lang E w (.rule .els false) p p
  | seq {w : Option Rule} {a b : Rule} {k : Bool} {p m q : Nat} (h1 : Lang E w (.rule a false) p m) (h2 : Lang E w (.rule b k) m q) :
      Lang E w (.rule (.seq a b) k) p q
  | seqBreak {w : Option Rule} {a b : Rule} {p q : Nat} (h : Lang E w (.rule a true) p q) : Lang E w (.rule (.seq a b) true) p q
  | branch {w : Option Rule} {a b : Rule} {k : Bool} {p m q : Nat} (h1 : Lang E w (.rule a false) p m)
      (h2 : Lang E w (.rule b k) m q) : Lang E w (.rule (.br a b) k) p q
  | branchBreak {w : Option Rule} {a b : Rule} {p q : Nat} (h : Lang E w (.rule a true) p q) : Lang E w (.rule (.br a b) true) p q
  | choice {w : Option Rule} {rs : List Rule} {r : Rule} {k : Bool} {p q : Nat} (hr : r ∈ rs) (h : Lang E w (.rule r k) p q) :
      Lang E w (.rule (.chc rs) k) p q
  | ifYes {w : Option Rule} {b : Rule} {k : Bool} {p q : Nat} (h : Lang E w (.rule b k) p q) : Lang E w (.rule (.ifR b) k) p q
  | ifNo {w : Option Rule} {b : Rule} {p : Nat} : Lang E w (.rule (.ifR b) false) p p
  | optYes {w : Option Rule} {b : Rule} {k : Bool} {p q : Nat} (h : Lang E w (.rule b k) p q) : Lang E w (.rule (.opt b) k) p q
  | optNo {w : Option Rule} {b : Rule} {p : Nat} : Lang E w (.rule (.opt b) false) p p
  | must {w : Option Rule} {b e : Rule} {k : Bool} {p q : Nat} (h : Lang E w (.rule b k) p q) : Lang E w (.rule (.must b e) k) p q
  -- loops
  | break_ {w : Option Rule} {p : Nat} : Lang E w (.rule .brk true) p p
  | loopEnd {w : Option Rule} {r : Rule} {p q : Nat} (h : Lang E w (.rule r true) p q) : Lang E w (.rule (.loop r) false) p q
  | loopNext {w : Option Rule} {r : Rule} {p m q : Nat} (h1 : Lang E w (.rule r false) p m)
      (h2 : Lang E w (.rule (.loop r) false) m q) : Lang E w (.rule (.loop r) false) p q
  | whileEnd {w : Option Rule} {b : Rule} {p : Nat} : Lang E w (.rule (.whl b) false) p p
  | whileNext {w : Option Rule} {b : Rule} {p m q : Nat} (h1 : Lang E w (.rule b false) p m)
      (h2 : Lang E w (.rule (.whl b) false) m q) : Lang E w (.rule (.whl b) false) p q
  -- lists: an item, then separated items; a separator behind the last item if it is allowed
  | list {w : Option Rule} {item : Rule} {sep : Option Sep} {p m q : Nat} (h1 : Lang E w (.rule item false) p m)
      (h2 : Lang E w (.tail item sep) m q) : Lang E w (.rule (.lst item sep) false) p q
  | tailEnd {w : Option Rule} {item : Rule} {sep : Option Sep} {p : Nat} : Lang E w (.tail item sep) p p
  | tailNext {w : Option Rule} {item : Rule} {p m q : Nat} (h1 : Lang E w (.rule item false) p m)
      (h2 : Lang E w (.tail item none) m q) : Lang E w (.tail item none) p q
  | tailSep {w : Option Rule} {item s : Rule} {k : SepKind} {p m l q : Nat} (h1 : Lang E w (.rule s false) p m)
      (h2 : Lang E w (.rule item false) m l) (h3 : Lang E w (.tail item (some (s, k))) l q) : Lang E w (.tail item (some (s, k))) p q
  | tailTrailing {w : Option Rule} {item s : Rule} {k : SepKind} {p q : Nat} (hk : SepKind.Trails k) (h : Lang E w (.rule s false) p q) :
      Lang E w (.tail item (some (s, k))) p q
  | terminated {w : Option Rule} {t item : Rule} {sep : Option Sep} {limit : List Nat → Bool} {k : Bool} {p m l q : Nat}
      (h1 : Lang E w (.rule item false) p m) (h2 : Lang E w (.tail item sep) m l) (h3 : Lang E w (.rule t k) l q) :
      Lang E w (.rule (.lstt t item sep limit) k) p q
  | terminatedNo {w : Option Rule} {t r : Rule} {k : Bool} {p q : Nat} (h : Lang E w (.rule t k) p q) : Lang E w (.rule (.optt t r) k) p q
  | terminatedYes {w : Option Rule} {t r : Rule} {k : Bool} {p q : Nat} (h : Lang E w (.rule r k) p q) : Lang E w (.rule (.optt t r) k) p q
  -- repetition
  | repeatNone {w : Option Rule} {c item : Rule} {f : List Nat → Nat} {sep : Option Sep} {p q : Nat} (h : Lang E w (.rule c false) p q)
      (hn : f ((E.inp.take q).drop p) = 0) : Lang E w (.rule (.rep c f item sep) false) p q
  | repeat_ {w : Option Rule} {c item : Rule} {f : List Nat → Nat} {sep : Option Sep} {b : Bool} {p m l q n : Nat}
      (h : Lang E w (.rule c false) p m) (hn : f ((E.inp.take m).drop p) = n + 1) (h1 : Lang E w (.rule item false) m l)
      (h2 : Lang E w (.times n item sep b) l q) : Lang E w (.rule (.rep c f item sep) b) p q
  | timesEnd {w : Option Rule} {item : Rule} {sep : Option Sep} {p : Nat} : Lang E w (.times 0 item sep false) p p
  | timesTrailing {w : Option Rule} {item s : Rule} {k : SepKind} {b : Bool} {p q : Nat} (hk : SepKind.Trails k)
      (h : Lang E w (.rule s b) p q) : Lang E w (.times 0 item (some (s, k)) b) p q
  | timesNext {w : Option Rule} {item : Rule} {b : Bool} {n p m q : Nat} (h1 : Lang E w (.rule item false) p m)
      (h2 : Lang E w (.times n item none b) m q) : Lang E w (.times (n + 1) item none b) p q
  | timesSep {w : Option Rule} {item s : Rule} {k : SepKind} {b : Bool} {n p m l q : Nat} (h1 : Lang E w (.rule s false) p m)
      (h2 : Lang E w (.rule item false) m l) (h3 : Lang E w (.times n item (some (s, k)) b) l q) :
      Lang E w (.times (n + 1) item (some (s, k)) b) p q
  -- error recovery is not part of the language
  | tryT {w : Option Rule} {t r : Rule} {rec : Recov} {k : Bool} {p m q : Nat} (h : Lang E w (.rule r false) p m)
      (h2 : Lang E w (.rule t k) m q) : Lang E w (.rule (.tryt (some t) r rec) k) p q
  | tryNone {w : Option Rule} {r : Rule} {rec : Recov} {p q : Nat} (h : Lang E w (.rule r false) p q) :
      Lang E w (.rule (.tryt none r rec) false) p q
  | try_ {w : Option Rule} {r : Rule} {rec : Recov} {p q : Nat} (h : Lang E w (.rule r false) p q) :
      Lang E w (.rule (.tryr r rec) false) p q
  -- productions
  | prod {w : Option Rule} {n p m l q : Nat} (h1 : Lang E (innerWs (E.prods n) w) .gap p m) (hw : (E.prods n).ws = none → m = p)
      (h2 : Lang E (innerWs (E.prods n) w) (.rule (E.prods n).rule false) m l) (ht : (E.prods n).isTok = false → q = l)
      (h3 : Lang E w .gap l q) : Lang E w (.rule (.prod n) false) p q
  | recurse {w : Option Rule} {n tag : Nat} {b : Bool} {p q : Nat} (h : Lang E w (.rule (.prod n) false) p q) :
      Lang E w (.rule (.recu n tag b) false) p q
  -- lookahead
  | peek {w : Option Rule} {tag : Nat} {r : Rule} {p q : Nat} (h : Lang E w (.tok r) p q) : Lang E w (.rule (.peek tag r) false) p p
  | peekNot {w : Option Rule} {tag : Nat} {r : Rule} {p : Nat} (h : ¬ Spec.MatchesHere E r p) :
      Lang E w (.rule (.peekn tag r) false) p p
  | look {w : Option Rule} {tag : Nat} {l : LookFn} {p : Nat} (h : (lookScan l E.eof (E.inp.drop p)).1 = true) :
      Lang E w (.rule (.look tag l) false) p p
  -- rules around rules
  | noWs {w : Option Rule} {r : Rule} {p m q : Nat} (h : Lang E w (.rule r false) p m) (hw : Lang E w .gap m q) :
      Lang E w (.rule (.wsn r) false) p q
  | noWsBreak {w : Option Rule} {r : Rule} {p q : Nat} (h : Lang E w (.rule r true) p q) : Lang E w (.rule (.wsn r) true) p q
  | position {w : Option Rule} {r : Rule} {k : Bool} {p q : Nat} (h : Lang E w (.rule r k) p q) : Lang E w (.rule (.posr r) k) p q
  | separator {w : Option Rule} {tag : Nat} {b : Rule} {p : Nat} : Lang E w (.rule (.nsep tag b) false) p p
  -- combinations: every branch exactly once, in any order
  | combination {w : Option Rule} {tag : Nat} {rs : List Rule} {els : CombElse} {p q : Nat} (h : Lang E w (.comb rs els []) p q) :
      Lang E w (.rule (.comb tag rs els) false) p q
  | combAll {w : Option Rule} {rs : List Rule} {els : CombElse} {handled : List Nat} {p : Nat} (h : ∀ i, i < rs.length → i ∈ handled) :
      Lang E w (.comb rs els handled) p p
  | combPartial {w : Option Rule} {rs : List Rule} {handled : List Nat} {p : Nat} : Lang E w (.comb rs .brk handled) p p
  | combBreak {w : Option Rule} {rs : List Rule} {els : CombElse} {handled : List Nat} {r : Rule} {p q : Nat} (hr : r ∈ rs)
      (h : Lang E w (.rule r true) p q) : Lang E w (.comb rs els handled) p q
  | combNext {w : Option Rule} {rs : List Rule} {els : CombElse} {handled : List Nat} {r : Rule} {i p m q : Nat} (hr : rs[i]? = some r)
      (hi : i ∉ handled) (h : Lang E w (.rule r false) p m) (h2 : Lang E w (.comb rs els (i :: handled)) m q) :
      Lang E w (.comb rs els handled) p q
  | combIt {w : Option Rule} {i p : Nat} : Lang E w (.rule (.combIt i) false) p p
  -- context variables
  | context {w : Option Rule} {r : Rule} {p : Nat} (h : Rule.IsContext r) : Lang E w (.rule r false) p p
  | count {w : Option Rule} {id : Nat} {r : Rule} {sign : Int} {p q : Nat} (h : Lang E w (.rule r false) p q) :
      Lang E w (.rule (.cntPush id r sign) false) p q
  | capture {w : Option Rule} {id : Nat} {r : PRule} {len : List Nat → Nat} {p q : Nat} (h : Lang E w (.rule (.prim r) false) p q) :
      Lang E w (.rule (.idCap id r len) false) p q
  | rematch {w : Option Rule} {id tag : Nat} {t : PTok} {p q : Nat} (h : Lang E w (.rule (.tok t) false) p q) :
      Lang E w (.rule (.idRem id tag t) false) p q
  -- expressions
  | expr {w : Option Rule} {i p q : Nat} (h : Lang E w (.operand i) p q) : Lang E w (.rule (.expr i) false) p q
  | atom {w : Option Rule} {i p q : Nat} (h : Lang E w (.rule (E.exprs i).atom false) p q) : Lang E w (.operand i) p q
  | op {w : Option Rule} {i p m q : Nat} {o : OpDef} {l : Lit} {k : Kind} {r : Rule} (ho : o ∈ (E.exprs i).ops.all)
      (hl : (l, k, r) ∈ o.lits) (hm : l.Matches ((E.inp.drop p).map (E.exprs i).fold))
      (hw : Lang E w .gap (p + l.str.length) m) (h : Lang E w (.rule r false) m q) : Lang E w (.op i o) p q
  | prefix {w : Option Rule} {i p m q : Nat} {o : OpDef} (hk : o.kind = .prefix) (h1 : Lang E w (.op i o) p m)
      (h2 : Lang E w (.operand i) m q) : Lang E w (.operand i) p q
  | postfix {w : Option Rule} {i p m q : Nat} {o : OpDef} (hk : o.kind = .postfix) (h1 : Lang E w (.operand i) p m)
      (h2 : Lang E w (.op i o) m q) : Lang E w (.operand i) p q
  | infix {w : Option Rule} {i p m l q : Nat} {o : OpDef} (hk : o.kind ≠ .prefix ∧ o.kind ≠ .postfix) (h1 : Lang E w (.operand i) p m)
      (h2 : Lang E w (.op i o) m l) (h3 : Lang E w (.operand i) l q) : Lang E w (.operand i) p q

end Verif.Spec
