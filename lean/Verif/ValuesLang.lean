import Verif.Lang
import Verif.Values

/-
The values of the language of a grammar (C98), independently of how it is parsed: which values a rule has for a part of the
input it derives.  It extends the language of Lang.lean with what the documentation says about values
(/repo/docs/content/reference/dsl, sections "Values").

Nothing is said about the values of context variables: the value of a counter is any number.
-/

namespace Verif.Spec

open Val

/-- A sink is called with the values of an item, if there are any. -/
def oneCall : List Val → List (List Val)
  | [] => []
  | vs => [vs]

/-- The value of the sink of a production, for these calls. -/
def sinkValue (V : VEnv) (cur : Nat) (calls : List (List Val)) : List Val :=
  if (V.prods cur).sinkVoid then [] else [.sink cur calls]

/-- The value of `repeat`, whose items are from `b` to `e`. -/
def repValue (V : VEnv) (cur : Nat) (kd : RepKind) (b e : Nat) (calls : List (List Val)) : List Val :=
  match kd with
  | .discard => []
  | .list => sinkValue V cur calls
  | .capture => [.covered b e]

/-- What can be derived: a rule with its values; with the calls of the sink, the rest of a list behind an item, the rest of a
    repetition of `k` more items, and the branches of a combination that are not `handled`. -/
inductive VGoal
  | rule (r : VR) (vs : List Val)
  | tail (item : VR) (sep : Option VSep) (calls : List (List Val))
  | times (k : Nat) (item : VR) (sep : Option VSep) (calls : List (List Val))
  | comb (rs : List VR) (els : CombElse) (handled : List Nat) (calls : List (List Val))

/-- In the production `cur` and with whitespace `w`, the goal derives the input from `p` to `q`. -/
inductive VLang (V : VEnv) : Nat → Option Rule → VGoal → Nat → Nat → Prop
  -- rules without values
  | leaf {cur : Nat} {w : Option Rule} {r : Rule} {p q : Nat} (h : Lang V.env w (.rule r false) p q) :
      VLang V cur w (.rule (.leaf r) []) p q
  -- capture: "a lexeme whose range covers everything consumed by `token` except any trailing whitespace"
  | capture {cur : Nat} {w : Option Rule} {t : PTok} {p n q : Nat} (h : t.run (V.inp.drop p) = (true, n))
      (hw : Lang V.env w .gap (p + n) q) : VLang V cur w (.rule (.cap t) [.lexeme p (p + n)]) p q
  | value {cur : Nat} {w : Option Rule} {a : Atom} {p : Nat} : VLang V cur w (.rule (.val a) [a.val]) p p
  | prim {cur : Nat} {w : Option Rule} {r : VPrim} {p m q : Nat} {evs : List Ev} (h : r.rule.parse V.inp p = (true, m, evs))
      (he : ∀ ev ∈ evs, ev.isError = false) (hn : r.rule.ws = false → q = m) (hw : Lang V.env w .gap m q) :
      VLang V cur w (.rule (.prim r) (if r.sink then sinkValue V cur ((r.vals V.inp p).map (·.map PVal.val))
        else (r.vals V.inp p).flatten.map PVal.val)) p q
  -- position: "an iterator to the current position", then the values of the rule
  | position {cur : Nat} {w : Option Rule} {r : VR} {vs : List Val} {p q : Nat} (h : VLang V cur w (.rule r vs) p q) :
      VLang V cur w (.rule (.posr r) (.pos p :: vs)) p q
  | pre {cur : Nat} {w : Option Rule} {a : Atom} {r : VR} {vs : List Val} {p q : Nat} (h : VLang V cur w (.rule r vs) p q) :
      VLang V cur w (.rule (.pre a r) (a.val :: vs)) p q
  | parseAs {cur : Nat} {w : Option Rule} {t : Nat} {r : VR} {vs : List Val} {p q : Nat} (h : VLang V cur w (.rule r vs) p q) :
      VLang V cur w (.rule (.pas t r) [.made t vs]) p q
  -- sequence: "all values produced by the rules in the same order as the rules were parsed"
  | seq {cur : Nat} {w : Option Rule} {a b : VR} {va vb : List Val} {p m q : Nat} (h1 : VLang V cur w (.rule a va) p m)
      (h2 : VLang V cur w (.rule b vb) m q) : VLang V cur w (.rule (.seq a b) (va ++ vb)) p q
  | branch {cur : Nat} {w : Option Rule} {a b : VR} {va vb : List Val} {p m q : Nat} (h1 : VLang V cur w (.rule a va) p m)
      (h2 : VLang V cur w (.rule b vb) m q) : VLang V cur w (.rule (.br a b) (va ++ vb)) p q
  | choice {cur : Nat} {w : Option Rule} {rs : List VR} {r : VR} {vs : List Val} {p q : Nat} (hr : r ∈ rs)
      (h : VLang V cur w (.rule r vs) p q) : VLang V cur w (.rule (.chc rs) vs) p q
  | ifYes {cur : Nat} {w : Option Rule} {b : VR} {vs : List Val} {p q : Nat} (h : VLang V cur w (.rule b vs) p q) :
      VLang V cur w (.rule (.ifR b) vs) p q
  | ifNo {cur : Nat} {w : Option Rule} {b : VR} {p : Nat} : VLang V cur w (.rule (.ifR b) []) p p
  -- option: the values of the rule, or "an object of the tag type `lexy::nullopt`"
  | optYes {cur : Nat} {w : Option Rule} {b : VR} {vs : List Val} {p q : Nat} (h : VLang V cur w (.rule b vs) p q) :
      VLang V cur w (.rule (.opt b) vs) p q
  | optNo {cur : Nat} {w : Option Rule} {b : VR} {p : Nat} : VLang V cur w (.rule (.opt b) [.nullopt]) p p
  | must {cur : Nat} {w : Option Rule} {b : VR} {e : Rule} {vs : List Val} {p q : Nat} (h : VLang V cur w (.rule b vs) p q) :
      VLang V cur w (.rule (.must b e) vs) p q
  -- lists: the value of the sink, which is called for each item and each separator
  | list {cur : Nat} {w : Option Rule} {item : VR} {sep : Option VSep} {vs : List Val} {calls : List (List Val)} {p m q : Nat}
      (h1 : VLang V cur w (.rule item vs) p m) (h2 : VLang V cur w (.tail item sep calls) m q) :
      VLang V cur w (.rule (.lst item sep) (sinkValue V cur (oneCall vs ++ calls))) p q
  | tailEnd {cur : Nat} {w : Option Rule} {item : VR} {sep : Option VSep} {p : Nat} : VLang V cur w (.tail item sep []) p p
  | tailNext {cur : Nat} {w : Option Rule} {item : VR} {vs : List Val} {calls : List (List Val)} {p m q : Nat}
      (h1 : VLang V cur w (.rule item vs) p m) (h2 : VLang V cur w (.tail item none calls) m q) :
      VLang V cur w (.tail item none (oneCall vs ++ calls)) p q
  | tailSep {cur : Nat} {w : Option Rule} {item s : VR} {k : SepKind} {us vs : List Val} {calls : List (List Val)} {p m l q : Nat}
      (h1 : VLang V cur w (.rule s us) p m) (h2 : VLang V cur w (.rule item vs) m l)
      (h3 : VLang V cur w (.tail item (some (s, k)) calls) l q) :
      VLang V cur w (.tail item (some (s, k)) (oneCall us ++ (oneCall vs ++ calls))) p q
  | tailTrailing {cur : Nat} {w : Option Rule} {item s : VR} {k : SepKind} {us : List Val} {p q : Nat} (hk : SepKind.Trails k)
      (h : VLang V cur w (.rule s us) p q) : VLang V cur w (.tail item (some (s, k)) (oneCall us)) p q
  -- then the values of the terminator
  | terminated {cur : Nat} {w : Option Rule} {t item : VR} {sep : Option VSep} {limit : List Nat → Bool} {vs vt : List Val}
      {calls : List (List Val)} {p m l q : Nat} (h1 : VLang V cur w (.rule item vs) p m)
      (h2 : VLang V cur w (.tail item sep calls) m l) (h3 : VLang V cur w (.rule t vt) l q) :
      VLang V cur w (.rule (.lstt t item sep limit) (sinkValue V cur (oneCall vs ++ calls) ++ vt)) p q
  | terminatedNo {cur : Nat} {w : Option Rule} {t r : VR} {vs : List Val} {p q : Nat} (h : VLang V cur w (.rule t vs) p q) :
      VLang V cur w (.rule (.optt t r) (.nullopt :: vs)) p q
  | terminatedYes {cur : Nat} {w : Option Rule} {t r : VR} {vs : List Val} {p q : Nat} (h : VLang V cur w (.rule r vs) p q) :
      VLang V cur w (.rule (.optt t r) vs) p q
  -- repetition: the number is not a value
  | repeatNone {cur : Nat} {w : Option Rule} {kd : RepKind} {c item : VR} {f : List Nat → Nat} {sep : Option VSep} {vc : List Val}
      {p q : Nat} (h : VLang V cur w (.rule c vc) p q) (hn : f ((V.inp.take q).drop p) = 0) :
      VLang V cur w (.rule (.rep kd c f item sep) (repValue V cur kd q q [])) p q
  | repeat_ {cur : Nat} {w : Option Rule} {kd : RepKind} {c item : VR} {f : List Nat → Nat} {sep : Option VSep} {vc vs : List Val}
      {calls : List (List Val)} {p m l q n : Nat} (h : VLang V cur w (.rule c vc) p m)
      (hn : f ((V.inp.take m).drop p) = n + 1) (h1 : VLang V cur w (.rule item vs) m l)
      (h2 : VLang V cur w (.times n item sep calls) l q) :
      VLang V cur w (.rule (.rep kd c f item sep) (repValue V cur kd m q (oneCall vs ++ calls))) p q
  | timesEnd {cur : Nat} {w : Option Rule} {item : VR} {sep : Option VSep} {p : Nat} : VLang V cur w (.times 0 item sep []) p p
  | timesTrailing {cur : Nat} {w : Option Rule} {item s : VR} {k : SepKind} {us : List Val} {p q : Nat} (hk : SepKind.Trails k)
      (h : VLang V cur w (.rule s us) p q) : VLang V cur w (.times 0 item (some (s, k)) (oneCall us)) p q
  | timesNext {cur : Nat} {w : Option Rule} {item : VR} {vs : List Val} {calls : List (List Val)} {n p m q : Nat}
      (h1 : VLang V cur w (.rule item vs) p m) (h2 : VLang V cur w (.times n item none calls) m q) :
      VLang V cur w (.times (n + 1) item none (oneCall vs ++ calls)) p q
  | timesSep {cur : Nat} {w : Option Rule} {item s : VR} {k : SepKind} {us vs : List Val} {calls : List (List Val)} {n p m l q : Nat}
      (h1 : VLang V cur w (.rule s us) p m) (h2 : VLang V cur w (.rule item vs) m l)
      (h3 : VLang V cur w (.times n item (some (s, k)) calls) l q) :
      VLang V cur w (.times (n + 1) item (some (s, k)) (oneCall us ++ (oneCall vs ++ calls))) p q
  -- error recovery is not part of the language
  | tryT {cur : Nat} {w : Option Rule} {t r : VR} {rec : VRecov} {vs vt : List Val} {p m q : Nat} (h : VLang V cur w (.rule r vs) p m)
      (h2 : VLang V cur w (.rule t vt) m q) : VLang V cur w (.rule (.tryt (some t) r rec) (vs ++ vt)) p q
  | tryNone {cur : Nat} {w : Option Rule} {r : VR} {rec : VRecov} {vs : List Val} {p q : Nat} (h : VLang V cur w (.rule r vs) p q) :
      VLang V cur w (.rule (.tryt none r rec) vs) p q
  | try_ {cur : Nat} {w : Option Rule} {r : VR} {rec : VRecov} {vs : List Val} {p q : Nat} (h : VLang V cur w (.rule r vs) p q) :
      VLang V cur w (.rule (.tryr r rec) vs) p q
  -- productions: the result of its callback, which gets the values of its rule
  | prod {cur : Nat} {w : Option Rule} {n : Nat} {vs : List Val} {p m l q : Nat} (h1 : Lang V.env (innerWs (V.env.prods n) w) .gap p m)
      (hw : (V.prods n).ws = none → m = p) (h2 : VLang V n (innerWs (V.env.prods n) w) (.rule (V.prods n).rule vs) m l)
      (ht : (V.prods n).isTok = false → q = l) (h3 : Lang V.env w .gap l q) :
      VLang V cur w (.rule (.prod n) (if (V.prods n).void then [] else [.call n vs])) p q
  -- a captured token production: first the lexeme
  | captureProd {cur : Nat} {w : Option Rule} {n : Nat} {vs : List Val} {p m l q : Nat}
      (h1 : Lang V.env (innerWs (V.env.prods n) w) .gap p m) (hw : (V.prods n).ws = none → m = p)
      (h2 : VLang V n (innerWs (V.env.prods n) w) (.rule (V.prods n).rule vs) m l) (ht : (V.prods n).isTok = true)
      (h3 : Lang V.env w .gap l q) :
      VLang V cur w (.rule (.capp n) (.lexeme p l :: if (V.prods n).void then [] else [.call n vs])) p q
  | recurse {cur : Nat} {w : Option Rule} {n tag : Nat} {b : Bool} {vs : List Val} {p q : Nat}
      (h : VLang V cur w (.rule (.prod n) vs) p q) : VLang V cur w (.rule (.recu n tag b) vs) p q
  | noWs {cur : Nat} {w : Option Rule} {r : VR} {vs : List Val} {p m q : Nat} (h : VLang V cur w (.rule r vs) p m)
      (hw : Lang V.env w .gap m q) : VLang V cur w (.rule (.wsn r) vs) p q
  -- combinations: every branch exactly once, in any order; the sink is called for each
  | combination {cur : Nat} {w : Option Rule} {tag : Nat} {rs : List VR} {els : CombElse} {calls : List (List Val)} {p q : Nat}
      (h : VLang V cur w (.comb rs els [] calls) p q) : VLang V cur w (.rule (.comb tag rs els) (sinkValue V cur calls)) p q
  | combAll {cur : Nat} {w : Option Rule} {rs : List VR} {els : CombElse} {handled : List Nat} {p : Nat}
      (h : ∀ i, i < rs.length → i ∈ handled) : VLang V cur w (.comb rs els handled []) p p
  | combPartial {cur : Nat} {w : Option Rule} {rs : List VR} {handled : List Nat} {p : Nat} :
      VLang V cur w (.comb rs .brk handled []) p p
  | combBreak {cur : Nat} {w : Option Rule} {rs : List VR} {els : CombElse} {handled : List Nat} {r : VR} {p q : Nat} (hr : r ∈ rs)
      (h : Lang V.env w (.rule r.erase true) p q) : VLang V cur w (.comb rs els handled []) p q
  | combNext {cur : Nat} {w : Option Rule} {rs : List VR} {els : CombElse} {handled : List Nat} {r : VR} {i : Nat} {vs : List Val}
      {calls : List (List Val)} {p m q : Nat} (hr : rs[i]? = some r) (hi : i ∉ handled) (h : VLang V cur w (.rule r vs) p m)
      (h2 : VLang V cur w (.comb rs els (i :: handled) calls) m q) : VLang V cur w (.comb rs els handled (oneCall vs ++ calls)) p q
  | combIt {cur : Nat} {w : Option Rule} {i p : Nat} : VLang V cur w (.rule (.combIt i) []) p p
  -- context variables
  | count {cur : Nat} {w : Option Rule} {id : Nat} {r : VR} {sign : Int} {vs : List Val} {p q : Nat}
      (h : VLang V cur w (.rule r vs) p q) : VLang V cur w (.rule (.cntPush id r sign) vs) p q
  | counter {cur : Nat} {w : Option Rule} {id : Nat} {i : Int} {p : Nat} : VLang V cur w (.rule (.cntVal id) [.num i]) p p
  | identifier {cur : Nat} {w : Option Rule} {id : Nat} {r : VId} {p m q : Nat} {evs : List Ev}
      (h : r.rule.parse V.inp p = (true, m, evs)) (he : ∀ ev ∈ evs, ev.isError = false) (hn : r.rule.ws = false → q = m)
      (hw : Lang V.env w .gap m q) : VLang V cur w (.rule (.idCap id r) [.lexeme p (p + r.len (V.inp.drop p))]) p q

end Verif.Spec
