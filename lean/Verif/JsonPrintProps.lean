import Verif.JsonPrint
import Verif.JsonValueProps

/-
C100: the output of examples/json.cpp.
-/

namespace Verif.Spec.Json

open Verif.Json (Ast AstNumber)

/-- Printable characters of ASCII. -/
def PlainStr (s : List Nat) : Prop := ∀ c ∈ s, 0x20 ≤ c ∧ c ≤ 0x7E

/-- A number that can be written within the limits of the example. -/
structure PlainNum (n : AstNumber) : Prop where
  int : n.integer.natAbs < 2 ^ 63
  frac : ∀ f, n.fraction = some f → Digits f
  exp : ∀ e, n.exponent = some e → e.natAbs < 2 ^ 15

/-- A value whose strings are printable ASCII, nested at most `n` deep, with different keys in every map. -/
inductive Plain : Nat → Ast → Prop
  | null {n : Nat} : Plain n .null
  | bool {n : Nat} {b : Bool} : Plain n (.bool b)
  | number {n : Nat} {x : AstNumber} (h : PlainNum x) : Plain n (.number x)
  | string {n : Nat} {s : List Nat} (h : PlainStr s) : Plain n (.string s)
  | emptyArray {n : Nat} : Plain n (.array [])
  | array {n : Nat} {vs : List Ast} (h : ∀ a ∈ vs, Plain n a) : Plain (n + 1) (.array vs)
  | emptyObject {n : Nat} : Plain n (.object [])
  | object {n : Nat} {ms : List (List Nat × Ast)} (hd : (ms.map (·.1)).Nodup) (hk : ∀ x ∈ ms, PlainStr x.1)
      (h : ∀ x ∈ ms, Plain n x.2) : Plain (n + 1) (.object ms)

/-- The strings are printable ASCII, and the nesting is at most `n` deep. -/
inductive Ascii : Nat → Ast → Prop
  | null {n : Nat} : Ascii n .null
  | bool {n : Nat} {b : Bool} : Ascii n (.bool b)
  | number {n : Nat} {x : AstNumber} : Ascii n (.number x)
  | string {n : Nat} {s : List Nat} (h : PlainStr s) : Ascii n (.string s)
  | emptyArray {n : Nat} : Ascii n (.array [])
  | array {n : Nat} {vs : List Ast} (h : ∀ a ∈ vs, Ascii n a) : Ascii (n + 1) (.array vs)
  | emptyObject {n : Nat} : Ascii n (.object [])
  | object {n : Nat} {ms : List (List Nat × Ast)} (hk : ∀ x ∈ ms, PlainStr x.1) (h : ∀ x ∈ ms, Ascii n x.2) :
      Ascii (n + 1) (.object ms)

/-- Equal, up to the order in which the members of a map are written down. -/
inductive Alike : Ast → Ast → Prop
  | null : Alike .null .null
  | bool {b : Bool} : Alike (.bool b) (.bool b)
  | number {n : AstNumber} : Alike (.number n) (.number n)
  | string {s : List Nat} : Alike (.string s) (.string s)
  | array {vs ws : List Ast} (hl : vs.length = ws.length)
      (h : ∀ (i : Nat) a b, vs[i]? = some a → ws[i]? = some b → Alike a b) : Alike (.array vs) (.array ws)
  | object {m m' : List (List Nat × Ast)} (hl : ∀ k, lookup k m = none ↔ lookup k m' = none)
      (h : ∀ k a b, lookup k m = some a → lookup k m' = some b → Alike a b) : Alike (.object m) (.object m')

mutual
/-- Objects that represent the same value are equal. -/
theorem alike_rep : ∀ {j : JV} {a b : Ast}, Rep j a → Rep j b → Alike a b
  | _, _, _, .null, h => by cases h; exact .null
  | _, _, _, .bool, h => by cases h; exact .bool
  | _, _, _, .number, h => by cases h; exact .number
  | _, _, _, .string, h => by cases h; exact .string
  | _, _, _, .array g, h => by
    cases h with
    | array h => exact .array (alike_repL g h).1 (alike_repL g h).2
  | _, _, _, .object (ms := ms) (m := m) hd hn f hf g, h => by
    cases h with
    | @object _ m' hd' hn' f' hf' g' =>
      refine .object (fun k => ?_) fun k a b ha hb => ?_
      · cases hk : firstOf k ms with
        | none => exact ⟨fun _ => hn' k hk, fun _ => hn k hk⟩
        | some v => rw [hf k v hk, hf' k v hk]; simp
      · cases hk : firstOf k ms with
        | none => rw [hn k hk] at ha; cases ha
        | some v =>
          rw [hf k v hk] at ha
          rw [hf' k v hk] at hb
          cases ha
          cases hb
          exact alike_rep (g k v hk) (g' k v hk)
theorem alike_repL : ∀ {vs : List JV} {as bs : List Ast}, RepL vs as → RepL vs bs →
    as.length = bs.length ∧ ∀ (i : Nat) x y, as[i]? = some x → bs[i]? = some y → Alike x y
  | _, _, _, .nil, h => by cases h; exact ⟨rfl, nofun⟩
  | _, _, _, .cons g gs, h => by
    cases h with
    | cons h hs =>
      obtain ⟨h1, h2⟩ := alike_repL gs hs
      refine ⟨by simp [h1], fun i x y hx hy => ?_⟩
      cases i with
      | zero => cases hx; cases hy; exact alike_rep g h
      | succ i => exact h2 i x y (by simpa using hx) (by simpa using hy)
end

end Verif.Spec.Json

namespace Verif.Json

open Spec.Json

/-! ## Numbers -/

theorem decDigits_decimal (k n : Nat) (h : n < 10 ^ (k + 1)) : decimal (decDigits k n) = n := by
  induction k generalizing n with
  | zero =>
    simp only [decDigits, decimal, List.foldl_cons, List.foldl_nil]
    omega
  | succ k ih =>
    unfold decDigits
    split
    · simp only [decimal, List.foldl_cons, List.foldl_nil]; omega
    · have h2 := ih (n / 10) (by rw [Nat.pow_succ] at h; omega)
      unfold decimal at h2 ⊢
      rw [List.foldl_append, h2]
      simp only [List.foldl_cons, List.foldl_nil]
      omega

theorem decDigits_int (k n : Nat) (h : n < 10 ^ (k + 1)) : Spec.Json.Int (decDigits k n) := by
  induction k generalizing n with
  | zero =>
    unfold decDigits
    rcases Nat.eq_zero_or_pos n with rfl | hn
    · exact .inl rfl
    · exact .inr ⟨_, _, rfl, by omega, by omega, nofun⟩
  | succ k ih =>
    unfold decDigits
    split
    · rcases Nat.eq_zero_or_pos n with rfl | hn
      · exact .inl rfl
      · exact .inr ⟨_, _, rfl, by omega, by omega, nofun⟩
    · rename_i hn
      have hl : n / 10 < 10 ^ (k + 1) := by rw [Nat.pow_succ] at h; omega
      rcases ih (n / 10) hl with h0 | ⟨c, t, hc, h1, h2, h3⟩
      · have := decDigits_decimal k (n / 10) hl
        rw [h0] at this
        simp only [decimal, List.foldl_cons, List.foldl_nil] at this
        omega
      · rw [hc]
        refine .inr ⟨c, t ++ [0x30 + n % 10], rfl, h1, h2, fun d hd => ?_⟩
        rcases List.mem_append.1 hd with hd | hd
        · exact h3 d hd
        · simp only [List.mem_singleton] at hd; unfold Digit; omega

theorem int_digits' {t : List Nat} (h : Spec.Json.Int t) : Digits t :=
  ⟨by rcases h with rfl | ⟨c, t, rfl, -⟩ <;> simp, int_digits h⟩

theorem frac_null {f : List Nat} (h : ∀ c ∈ f, Digit c) : f.takeWhile (· != 0) = f := by
  induction f with
  | nil => rfl
  | cons c f ih =>
    have := h c (by simp)
    unfold Digit at this
    rw [List.takeWhile_cons_of_pos (by simp only [bne_iff_ne]; omega), ih fun d hd => h d (by simp [hd])]

theorem print_number {n : AstNumber} (h : PlainNum n) :
    ∃ x : Num, NumberV exampleLimits (printNumber n) x ∧ Rep (.number x) (.number n) := by
  obtain ⟨i, f, e⟩ := n
  obtain ⟨h1, h2, h3⟩ := h
  simp only at h1 h2 h3
  have hp : (2 : Nat) ^ 63 < 10 ^ (20 + 1) := by decide
  have hi := decDigits_decimal 20 i.natAbs (by omega)
  refine ⟨⟨decide (i < 0), i.natAbs, f, e⟩, ⟨decDigits 20 i.natAbs, (match f with | some f => 0x2E :: f | none => []),
    (match e with | some e => 0x65 :: printInt e | none => []), ?_, decDigits_int 20 _ (by omega), ?_, hi.symm, ?_, ?_⟩, ?_⟩
  · unfold printNumber printInt
    cases f with
    | none => cases e <;> simp
    | some f => cases e <;> simp [frac_null (h2 f rfl).2]
  · show decimal _ < 2 ^ 63
    omega
  · cases f with
    | none => exact .none
    | some f => exact .some (h2 f rfl)
  · cases e with
    | none => exact .none
    | some e =>
      have he := h3 e rfl
      have hd := decDigits_decimal 20 e.natAbs (by omega)
      have hg := int_digits' (decDigits_int 20 e.natAbs (by omega))
      have hl : exampleLimits.exp (decDigits 20 e.natAbs) := by show decimal _ < 2 ^ 15; omega
      show ExpV exampleLimits (0x65 :: printInt e) (some e)
      unfold printInt
      by_cases hn : e < 0
      · rw [if_pos hn]
        have : e = -(decimal (decDigits 20 e.natAbs) : _root_.Int) := by rw [hd]; omega
        have g := ExpV.minus (L := exampleLimits) (e := 0x65) (.inl rfl) hg hl
        rw [← this] at g
        exact g
      · rw [if_neg hn]
        have : e = (decimal (decDigits 20 e.natAbs) : _root_.Int) := by rw [hd]; omega
        have g := ExpV.some (L := exampleLimits) (e := 0x65) (.inl rfl) hg hl
        rw [← this] at g
        exact g
  · have : (if decide (i < 0) = true then -(i.natAbs : _root_.Int) else i.natAbs) = i := by
      by_cases hn : i < 0
      · simp [hn]; omega
      · simp [hn]; omega
    have g := Rep.number (n := ⟨decide (i < 0), i.natAbs, f, e⟩)
    simp only at g
    rw [this] at g
    exact g

/-! ## Strings -/

theorem encoded_plain {s : List Nat} (h : PlainStr s) : encoded s = s := by
  induction s with
  | nil => rfl
  | cons c s ih =>
    have hc := h c (by simp)
    have : Spec.utf8 c = [c] := by unfold Spec.utf8; rw [if_pos (by omega)]
    unfold encoded at ih ⊢
    rw [List.flatMap_cons, ih fun d hd => h d (by simp [hd]), this]
    rfl

theorem print_chars {s : List Nat} (h : PlainStr s) : ∃ t, printChars s = some t ∧ CharsV exampleLimits t s := by
  induction s with
  | nil => exact ⟨[], rfl, .nil⟩
  | cons c s ih =>
    obtain ⟨t, h1, h2⟩ := ih fun d hd => h d (by simp [hd])
    have hc := h c (by simp)
    unfold printChars printChar
    by_cases h3 : c = 0x22
    · subst h3
      refine ⟨_, by rw [h1]; rfl, .escape ?_ h2⟩
      decide
    · by_cases h4 : c = 0x5C
      · subst h4
        refine ⟨_, by rw [h1]; rfl, .escape ?_ h2⟩
        decide
      · have : iscntrl c = some false := by
          unfold iscntrl
          rw [if_pos (by omega)]
          simp only [Option.some.injEq, Bool.or_eq_false_iff, decide_eq_false_iff_not, beq_eq_false_iff_ne]
          omega
        have hu : Spec.utf8 c = [c] := by unfold Spec.utf8; rw [if_pos (by omega)]
        refine ⟨[c] ++ t, by rw [if_neg h3, if_neg h4, this, h1]; rfl, ?_⟩
        rw [← hu]
        refine .unescaped ⟨hc.1, h3, h4, ?_⟩ ?_ h2
        · unfold Spec.IsScalar; omega
        · show ¬ (0x7F ≤ c ∧ c ≤ 0x9F); omega

theorem print_string {s : List Nat} (h : PlainStr s) : ∃ t, printString s = some t ∧ StrV exampleLimits t s := by
  obtain ⟨t, h1, h2⟩ := print_chars h
  exact ⟨_, by unfold printString; rw [h1]; rfl, t, rfl, h2⟩

/-! ## Arrays and objects -/

theorem blank_indent (n : Nat) : Blank (indent n) := fun c hc => .inl (List.mem_replicate.1 hc).2

theorem blank_cons {c : Nat} {w : List Nat} (h : c = 0x20 ∨ c = 0x09 ∨ c = 0x0A ∨ c = 0x0D) (hw : Blank w) : Blank (c :: w) := by
  intro d hd
  rcases List.mem_cons.1 hd with rfl | hd
  · exact h
  · exact hw d hd

theorem blank_append {w w' : List Nat} (h : Blank w) (h' : Blank w') : Blank (w ++ w') := by
  intro d hd
  rcases List.mem_append.1 hd with hd | hd
  · exact h d hd
  · exact h' d hd

/-- What is printed for a value. -/
def Printed (n : Nat) (x : List Nat × JV) : Prop := Means exampleLimits x.1 (.value x.2) ∧ Derives exampleLimits .value n x.1

theorem print_elems {n level : Nat} : ∀ {l : List (List Nat × JV)} {w w' : List Nat}, l ≠ [] → (∀ x ∈ l, Printed n x) → Blank w →
    Blank w' → Means exampleLimits (w ++ joinElems level (l.map (·.1)) ++ w') (.values (l.map (·.2))) ∧
      Derives exampleLimits .values n (w ++ joinElems level (l.map (·.1)) ++ w')
  | [], _, _, h, _, _, _ => absurd rfl h
  | [x], w, w', _, h, hw, hw' => by
    obtain ⟨h1, h2⟩ := h x (by simp)
    have hb := blank_append hw (blank_indent (level + 1))
    have g1 := Means.last hb h1 hw'
    have g2 := Derives.last hb h2 hw'
    simp only [List.map_cons, List.map_nil, joinElems]
    rw [← List.append_assoc w]
    exact ⟨g1, g2⟩
  | x :: y :: l, w, w', _, h, hw, hw' => by
    obtain ⟨h1, h2⟩ := h x (by simp)
    have hb := blank_append hw (blank_indent (level + 1))
    obtain ⟨g1, g2⟩ := print_elems (n := n) (level := level) (l := y :: l) (w := [0x0A]) (w' := w') (by simp)
      (fun z hz => h z (by simp only [List.mem_cons] at hz ⊢; exact .inr hz)) (blank_cons (by omega) nofun) hw'
    have k1 := Means.more hb h1 (w' := []) nofun g1
    have k2 := Derives.more hb h2 (w' := []) nofun g2
    simp only [List.map_cons, joinElems, List.append_assoc, List.nil_append, List.append_nil, List.cons_append] at k1 k2 ⊢
    exact ⟨k1, k2⟩

theorem print_array {n level : Nat} {l : List (List Nat × JV)} (hl : l ≠ []) (h : ∀ x ∈ l, Printed n x) :
    Printed (n + 1) (brackets 0x5B 0x5D level (l.map (·.1)), .array (l.map (·.2))) := by
  obtain ⟨h1, h2⟩ := print_elems (n := n) (level := level) (w := [0x0A]) (w' := 0x0A :: indent level) hl h (blank_cons (by omega) nofun)
    (blank_cons (by omega) (blank_indent level))
  have g1 := Means.array h1
  have g2 := Derives.array h2
  simp only [List.append_assoc, List.nil_append, List.cons_append] at g1 g2
  exact ⟨g1, g2⟩

/-- A member: its key, the text of the key, the text of the value, the value. -/
def PrintedM (n : Nat) (x : List Nat × List Nat × List Nat × JV) : Prop :=
  StrV exampleLimits x.2.1 x.1 ∧ Printed n x.2.2

theorem print_mems {n level : Nat} : ∀ {l : List (List Nat × List Nat × List Nat × JV)} {w w' : List Nat}, l ≠ [] →
    (∀ x ∈ l, PrintedM n x) → Blank w → Blank w' →
    Means exampleLimits (w ++ joinElems level (l.map fun x => printMember x.2.1 x.2.2.1) ++ w') (.members (l.map fun x => (x.1, x.2.2.2))) ∧
      Derives exampleLimits .members n (w ++ joinElems level (l.map fun x => printMember x.2.1 x.2.2.1) ++ w')
  | [], _, _, h, _, _, _ => absurd rfl h
  | [x], w, w', _, h, hw, hw' => by
    obtain ⟨h0, h1, h2⟩ := h x (by simp)
    have hb := blank_append hw (blank_indent (level + 1))
    have g1 := Means.lastMember hb h0 (w1 := [0x20]) (w2 := [0x20]) (blank_cons (by omega) nofun) (blank_cons (by omega) nofun) h1 hw'
    have g2 := Derives.lastMember hb (str_of h0) (w1 := [0x20]) (w2 := [0x20]) (blank_cons (by omega) nofun) (blank_cons (by omega) nofun) h2 hw'
    simp only [List.map_cons, List.map_nil, joinElems, printMember, List.append_assoc, List.nil_append, List.append_nil,
      List.cons_append] at g1 g2 ⊢
    exact ⟨g1, g2⟩
  | x :: y :: l, w, w', _, h, hw, hw' => by
    obtain ⟨h0, h1, h2⟩ := h x (by simp)
    have hb := blank_append hw (blank_indent (level + 1))
    obtain ⟨g1, g2⟩ := print_mems (n := n) (level := level) (l := y :: l) (w := [0x0A]) (w' := w') (by simp)
      (fun z hz => h z (by simp only [List.mem_cons] at hz ⊢; exact .inr hz)) (blank_cons (by omega) nofun) hw'
    have k1 := Means.moreMembers hb h0 (w1 := [0x20]) (w2 := [0x20]) (blank_cons (by omega) nofun) (blank_cons (by omega) nofun) h1
      (w' := []) nofun g1
    have k2 := Derives.moreMembers hb (str_of h0) (w1 := [0x20]) (w2 := [0x20]) (blank_cons (by omega) nofun)
      (blank_cons (by omega) nofun) h2 (w' := []) nofun g2
    simp only [List.map_cons, joinElems, printMember, List.append_assoc, List.nil_append, List.append_nil, List.cons_append] at k1 k2 ⊢
    exact ⟨k1, k2⟩

theorem print_object {n level : Nat} {l : List (List Nat × List Nat × List Nat × JV)} (hl : l ≠ []) (h : ∀ x ∈ l, PrintedM n x) :
    Printed (n + 1) (brackets 0x7B 0x7D level (l.map fun x => printMember x.2.1 x.2.2.1), .object (l.map fun x => (x.1, x.2.2.2))) := by
  obtain ⟨h1, h2⟩ := print_mems (n := n) (level := level) (w := [0x0A]) (w' := 0x0A :: indent level) hl h (blank_cons (by omega) nofun)
    (blank_cons (by omega) (blank_indent level))
  have g1 := Means.object h1
  have g2 := Derives.object h2
  simp only [List.append_assoc, List.nil_append, List.cons_append] at g1 g2
  exact ⟨g1, g2⟩

/-! ## The order of a map -/

theorem insertKey_map {α β : Type} (f : α → β) (k : List Nat) (a : α) : ∀ m : List (List Nat × α),
    insertKey k (f a) (m.map fun x => (x.1, f x.2)) = (insertKey k a m).map fun x => (x.1, f x.2)
  | [] => rfl
  | (k', b) :: m => by
    simp only [List.map_cons, insertKey]
    split
    · rfl
    · rw [insertKey_map f k a m]; rfl

theorem byKey_map {α β : Type} (f : α → β) : ∀ m : List (List Nat × α),
    byKey (m.map fun x => (x.1, f x.2)) = (byKey m).map fun x => (x.1, f x.2)
  | [] => rfl
  | (k, a) :: m => by
    simp only [List.map_cons, byKey]
    rw [byKey_map f m, insertKey_map]

theorem insertKey_perm {α : Type} (k : List Nat) (a : α) : ∀ m : List (List Nat × α), (insertKey k a m).Perm ((k, a) :: m)
  | [] => .refl _
  | (k', b) :: m => by
    simp only [insertKey]
    split
    · exact .refl _
    · exact ((insertKey_perm k a m).cons _).trans (.swap _ _ _)

theorem byKey_perm {α : Type} : ∀ m : List (List Nat × α), (byKey m).Perm m
  | [] => .refl _
  | (k, a) :: m => (insertKey_perm k a _).trans ((byKey_perm m).cons _)

/-! ## Values -/

theorem print_list {n level : Nat} : ∀ {vs : List Ast},
    (∀ a ∈ vs, ∃ t j, printAst level a = some t ∧ Printed n (t, j) ∧ Rep j a) →
    ∃ l : List (List Nat × JV), printList level vs = some (l.map (·.1)) ∧ (∀ x ∈ l, Printed n x) ∧ RepL (l.map (·.2)) vs ∧
      l.length = vs.length
  | [], _ => ⟨[], by unfold printList; rfl, nofun, .nil, rfl⟩
  | a :: vs, h => by
    obtain ⟨t, j, h1, h2, h3⟩ := h a (by simp)
    obtain ⟨l, g1, g2, g3, g4⟩ := print_list (n := n) (level := level) (vs := vs) fun b hb => h b (by simp [hb])
    refine ⟨(t, j) :: l, by unfold printList; rw [h1, g1]; rfl, fun x hx => ?_, .cons h3 g3, by simp [g4]⟩
    rcases List.mem_cons.1 hx with rfl | hx
    · exact h2
    · exact g2 x hx

/-- A member: its key; the texts of the key and of the value, the value; what represents it. -/
abbrev Member := List Nat × (List Nat × List Nat × JV) × Ast

theorem print_map {n level : Nat} : ∀ {ms : List (List Nat × Ast)}, (∀ x ∈ ms, PlainStr x.1) →
    (∀ x ∈ ms, ∃ t j, printAst level x.2 = some t ∧ Printed n (t, j) ∧ Rep j x.2) →
    ∃ q : List Member, ms = q.map (fun x => (x.1, x.2.2)) ∧ printMap level ms = some (q.map fun x => (x.1, x.2.1.2.1)) ∧
      ∀ x ∈ q, PlainStr x.1 ∧ printString x.1 = some x.2.1.1 ∧ PrintedM n (x.1, x.2.1) ∧ Rep x.2.1.2.2 x.2.2
  | [], _, _ => ⟨[], rfl, by unfold printMap; rfl, nofun⟩
  | (k, a) :: ms, hk, h => by
    obtain ⟨t, j, h1, h2, h3⟩ := h (k, a) (by simp)
    obtain ⟨q, g1, g2, g3⟩ := print_map (n := n) (level := level) (ms := ms) (fun b hb => hk b (by simp [hb])) fun b hb => h b (by simp [hb])
    obtain ⟨u, k1, k2⟩ := print_string (hk (k, a) (by simp))
    refine ⟨(k, (u, t, j), a) :: q, by rw [g1]; rfl, by unfold printMap; simp only at h1; rw [h1, g2]; rfl, fun x hx => ?_⟩
    rcases List.mem_cons.1 hx with rfl | hx
    · exact ⟨hk (k, a) (by simp), k1, ⟨k2, h2⟩, h3⟩
    · exact g3 x hx

theorem print_keys : ∀ {q : List Member}, (∀ x ∈ q, printString x.1 = some x.2.1.1) →
    printKeys (q.map fun x => (x.1, x.2.1.2.1)) = some (q.map fun x => printMember x.2.1.1 x.2.1.2.1)
  | [], _ => rfl
  | x :: q, h => by
    simp only [List.map_cons, printKeys]
    rw [h x (by simp), print_keys fun y hy => h y (by simp [hy])]
    rfl

theorem lookup_mem {m : List (List Nat × Ast)} (hd : (m.map (·.1)).Nodup) {k : List Nat} {a : Ast} (h : (k, a) ∈ m) :
    lookup k m = some a := by
  induction m with
  | nil => cases h
  | cons x m ih =>
    obtain ⟨k', b⟩ := x
    simp only [List.map_cons, List.nodup_cons] at hd
    unfold lookup
    rcases List.mem_cons.1 h with e | h
    · cases e; rw [if_pos rfl]
    · rw [if_neg, ih hd.2 h]
      rintro rfl
      exact hd.1 (List.mem_map.2 ⟨_, h, rfl⟩)

theorem lookup_none {m : List (List Nat × Ast)} {k : List Nat} (h : ∀ x ∈ m, x.1 ≠ k) : lookup k m = none := by
  induction m with
  | nil => rfl
  | cons x m ih =>
    obtain ⟨k', b⟩ := x
    unfold lookup
    rw [if_neg (h (k', b) (by simp)), ih fun y hy => h y (by simp [hy])]

theorem firstOf_some {ms : List (List Nat × JV)} {k : List Nat} {v : JV} (h : firstOf k ms = some v) :
    ∃ cs, (cs, v) ∈ ms ∧ encoded cs = k := by
  induction ms with
  | nil => cases h
  | cons x ms ih =>
    obtain ⟨cs, v'⟩ := x
    unfold firstOf at h
    split at h
    · rename_i he; cases h; exact ⟨cs, by simp, he⟩
    · obtain ⟨cs', h1, h2⟩ := ih h
      exact ⟨cs', by simp [h1], h2⟩

theorem firstOf_none {ms : List (List Nat × JV)} {k : List Nat} (h : firstOf k ms = none) : ∀ x ∈ ms, encoded x.1 ≠ k := by
  induction ms with
  | nil => nofun
  | cons x ms ih =>
    obtain ⟨cs, v'⟩ := x
    unfold firstOf at h
    split at h
    · cases h
    · rename_i he
      intro y hy
      rcases List.mem_cons.1 hy with rfl | hy
      · exact he
      · exact ih h y hy

theorem rep_members {q q' : List Member} (hp : q'.Perm q) (hd : (q.map (·.1)).Nodup)
    (h : ∀ x ∈ q, PlainStr x.1 ∧ Rep x.2.1.2.2 x.2.2) :
    Rep (.object (q'.map fun x => (x.1, x.2.1.2.2))) (.object (q.map fun x => (x.1, x.2.2))) := by
  have hd' : ((q.map fun x => (x.1, x.2.2)).map (·.1)).Nodup := by
    rw [List.map_map]
    exact hd
  have key : ∀ k v, firstOf k (q'.map fun x => (x.1, x.2.1.2.2)) = some v →
      ∃ a, lookup k (q.map fun x => (x.1, x.2.2)) = some a ∧ Rep v a := by
    intro k v hf
    obtain ⟨cs, h1, h2⟩ := firstOf_some hf
    obtain ⟨x, hx, e⟩ := List.mem_map.1 h1
    cases e
    have hx := hp.mem_iff.1 hx
    obtain ⟨g1, g2⟩ := h x hx
    rw [encoded_plain g1] at h2
    exact ⟨_, lookup_mem hd' (List.mem_map.2 ⟨x, hx, by rw [← h2]⟩), g2⟩
  refine .object hd' (fun k hk => lookup_none fun x hx => ?_) (fun k v hv => (key k v hv).choose)
    (fun k v hv => (key k v hv).choose_spec.1) fun k v hv => (key k v hv).choose_spec.2
  obtain ⟨y, hy, rfl⟩ := List.mem_map.1 hx
  have := firstOf_none hk (y.1, y.2.1.2.2) (List.mem_map.2 ⟨y, hp.mem_iff.2 hy, rfl⟩)
  rwa [encoded_plain (h y hy).1] at this

theorem print_value {n : Nat} {a : Ast} (h : Plain n a) : ∀ level, ∃ t j, printAst level a = some t ∧ Printed n (t, j) ∧ Rep j a := by
  induction h with
  | null => exact fun level => ⟨_, _, by unfold printAst; rfl, ⟨.null, .null⟩, .null⟩
  | @bool n b =>
    intro level
    cases b
    · exact ⟨_, _, by unfold printAst; rfl, ⟨.false, .false⟩, .bool⟩
    · exact ⟨_, _, by unfold printAst; rfl, ⟨.true, .true⟩, .bool⟩
  | number h =>
    intro level
    obtain ⟨x, h1, h2⟩ := print_number h
    exact ⟨_, _, by unfold printAst; rfl, ⟨.number h1, .number (number_of h1)⟩, h2⟩
  | @string n s h =>
    intro level
    obtain ⟨t, h1, h2⟩ := print_string h
    have h3 := Rep.string (cs := s)
    rw [encoded_plain h] at h3
    exact ⟨_, _, by unfold printAst; exact h1, ⟨.string h2, .string (str_of h2)⟩, h3⟩
  | emptyArray =>
    intro level
    have hb : Blank (0x0A :: 0x0A :: indent level) := blank_cons (by omega) (blank_cons (by omega) (blank_indent level))
    exact ⟨_, _, by unfold printAst printList; rfl, ⟨.emptyArray hb, .emptyArray hb⟩, .array .nil⟩
  | @array n vs h ih =>
    intro level
    cases vs with
    | nil =>
      have hb : Blank (0x0A :: 0x0A :: indent level) := blank_cons (by omega) (blank_cons (by omega) (blank_indent level))
      exact ⟨_, _, by unfold printAst printList; rfl, ⟨.emptyArray hb, .emptyArray hb⟩, .array .nil⟩
    | cons a vs =>
      obtain ⟨l, h1, h2, h3, h4⟩ := print_list (n := n) (level := level + 1) fun a ha => ih a ha (level + 1)
      refine ⟨_, _, by unfold printAst; rw [h1]; rfl, print_array ?_ h2, .array h3⟩
      rintro rfl
      cases h4
  | emptyObject =>
    intro level
    have hb : Blank (0x0A :: 0x0A :: indent level) := blank_cons (by omega) (blank_cons (by omega) (blank_indent level))
    exact ⟨_, _, by unfold printAst printMap; rfl, ⟨.emptyObject hb, .emptyObject hb⟩,
      rep_members (q := []) (q' := []) .nil .nil nofun⟩
  | @object n ms hd hk h ih =>
    intro level
    obtain ⟨q, rfl, h1, h2⟩ := print_map (n := n) (level := level + 1) hk fun a ha => ih a ha (level + 1)
    rw [List.map_map] at hd
    have hd : (q.map (·.1)).Nodup := hd
    have hp := byKey_perm q
    have hq := byKey_map (fun x : (List Nat × List Nat × JV) × Ast => x.1.2.1) q
    have hr := rep_members hp hd fun x hx => ⟨(h2 x hx).1, (h2 x hx).2.2.2⟩
    have h2' : ∀ x ∈ byKey q, _ := fun x hx => h2 x (hp.mem_iff.1 hx)
    by_cases hn : byKey q = []
    · have : q = [] := by
        have := hp.length_eq
        rw [hn] at this
        exact List.eq_nil_of_length_eq_zero this.symm
      subst this
      have hb : Blank (0x0A :: 0x0A :: indent level) := blank_cons (by omega) (blank_cons (by omega) (blank_indent level))
      exact ⟨_, _, by unfold printAst; unfold printMap; rfl, ⟨.emptyObject hb, .emptyObject hb⟩, hr⟩
    · have ho := print_object (n := n) (level := level) (l := (byKey q).map fun x => (x.1, x.2.1)) (by simpa using hn)
        (fun x hx => by
          obtain ⟨y, hy, rfl⟩ := List.mem_map.1 hx
          exact (h2' y hy).2.2.1)
      rw [List.map_map, List.map_map] at ho
      exact ⟨_, _, by unfold printAst; rw [h1]; simp only [Option.bind_some]; rw [hq, print_keys fun x hx => (h2' x hx).2.1]; rfl, ho, hr⟩

/-- **C100.** What is printed for a value whose strings are printable ASCII is a JSON text, and its value is the one that is
    represented by the object. -/
theorem C100_text_partial {n : Nat} {a : Ast} (h : Plain n a) :
    ∃ t j, printAst 0 a = some t ∧ TextMeans exampleLimits t j ∧ Text exampleLimits n t ∧ Rep j a := by
  obtain ⟨t, j, h1, ⟨h2, h3⟩, h4⟩ := print_value h 0
  exact ⟨t, j, h1, ⟨[], t, [], by simp, nofun, h2, nofun⟩, ⟨[], t, [], by simp, nofun, h3, nofun⟩, h4⟩

theorem digits_units {t : List Nat} (h : ∀ c ∈ t, Digit c) : Units 256 t := fun c hc => by
  have := h c hc
  unfold Digit at this
  omega

theorem blank_units {w : List Nat} (h : Blank w) : Units 256 w := fun c hc => by
  have := h c hc
  omega

theorem units_append {s t : List Nat} (h : Units 256 s) (h' : Units 256 t) : Units 256 (s ++ t) := fun c hc => by
  rcases List.mem_append.1 hc with hc | hc
  · exact h c hc
  · exact h' c hc

theorem units_cons {c : Nat} {s : List Nat} (h : c < 256) (h' : Units 256 s) : Units 256 (c :: s) := fun d hd => by
  rcases List.mem_cons.1 hd with rfl | hd
  · exact h
  · exact h' d hd

theorem number_units {L : Limits} {s : List Nat} {n : Num} (h : NumberV L s n) : Units 256 s := by
  obtain ⟨int, frac, exp, rfl, h1, -, -, h2, h3⟩ := h
  refine units_append (units_append (units_append ?_ (digits_units (int_digits h1))) ?_) ?_
  · cases n.minus
    · nofun
    · exact units_cons (by omega) nofun
  · generalize n.frac = f at h2
    cases h2 with
    | none => nofun
    | some h => exact units_cons (by omega) (digits_units h.2)
  · generalize n.exp = e at h3
    cases h3 with
    | none => nofun
    | some h1 h2 => exact units_cons (by omega) (digits_units h2.2)
    | plus h1 h2 => exact units_cons (by omega) (units_cons (by omega) (digits_units h2.2))
    | minus h1 h2 => exact units_cons (by omega) (units_cons (by omega) (digits_units h2.2))

theorem utf8_units {v : Nat} (h : Spec.IsScalar v) : Units 256 (Spec.utf8 v) := by
  unfold Spec.IsScalar at h
  unfold Spec.utf8
  intro c hc
  split at hc <;> (try split at hc) <;> (try split at hc) <;>
    simp only [List.mem_cons, List.not_mem_nil, or_false] at hc <;> omega

theorem hex_units {c : Nat} (h : Hex c) : c < 256 := by
  unfold Hex Digit at h
  omega

theorem chars_units {L : Limits} {t cs : List Nat} (h : CharsV L t cs) : Units 256 t := by
  induction h with
  | nil => nofun
  | unescaped h _ _ ih => exact units_append (utf8_units h.2.2.2) ih
  | @escape c v s cs h _ ih =>
    refine units_cons (by omega) (units_cons ?_ ih)
    revert h
    unfold escaped
    simp only [List.mem_cons, Prod.mk.injEq, List.not_mem_nil, or_false]
    omega
  | code ha hb hc hd _ ih =>
    exact units_cons (by omega) (units_cons (by omega) (units_cons (hex_units ha) (units_cons (hex_units hb) (units_cons (hex_units hc)
      (units_cons (hex_units hd) ih)))))

theorem str_units {L : Limits} {t cs : List Nat} (h : StrV L t cs) : Units 256 t := by
  obtain ⟨u, rfl, h⟩ := h
  exact units_cons (by omega) (units_append (chars_units h) (units_cons (by omega) nofun))

theorem means_units {L : Limits} {t : List Nat} {m : Meaning} (h : Means L t m) : Units 256 t := by
  induction h with
  | null | true | false => intro c hc; simp only [List.mem_cons, List.not_mem_nil, or_false] at hc; omega
  | number h => exact number_units h
  | string h => exact str_units h
  | emptyArray h | emptyObject h => exact units_cons (by omega) (units_append (blank_units h) (units_cons (by omega) nofun))
  | array _ h | object _ h => exact units_cons (by omega) (units_append h (units_cons (by omega) nofun))
  | last h1 _ h2 ih => exact units_append (units_append (blank_units h1) ih) (blank_units h2)
  | more h1 _ h2 _ ih ih2 => exact units_append (units_append (units_append (blank_units h1) ih) (blank_units h2)) (units_cons (by omega) ih2)
  | lastMember h1 h2 h3 h4 _ h5 ih =>
    exact units_append (units_append (units_append (blank_units h1) (str_units h2)) (blank_units h3))
      (units_cons (by omega) (units_append (units_append (blank_units h4) ih) (blank_units h5)))
  | moreMembers h1 h2 h3 h4 _ h5 _ ih ih2 =>
    exact units_append (units_append (units_append (blank_units h1) (str_units h2)) (blank_units h3))
      (units_cons (by omega) (units_append (units_append (units_append (blank_units h4) ih) (blank_units h5)) (units_cons (by omega) ih2)))

/-- **C100.** What is printed for a value whose strings are printable ASCII is parsed without errors, to an equal value. -/
theorem C100_roundtrip_partial {a : Ast} (h : Plain 19 a) :
    ∃ t fuel b, printAst 0 a = some t ∧ (∀ k, fuel ≤ k → parse k t = some (some b, true)) ∧ Alike a b := by
  obtain ⟨t, j, h1, h2, h3, h4⟩ := C100_text_partial h
  have hu : Units 256 t := by
    obtain ⟨w, v, w', rfl, hw, hv, hw'⟩ := h2
    exact units_append (units_append (blank_units hw) (means_units hv)) (blank_units hw')
  obtain ⟨fuel, b, g1, g2⟩ := C99_parse (rest := []) hu (by simp) h3 h2 (.inl rfl)
  exact ⟨t, fuel, b, h1, g2, alike_rep h4 g1⟩

theorem rep_plain {t : List Nat} {m : Meaning} (h : Means exampleLimits t m) :
    match m with
    | .value j => ∀ n a, Rep j a → Ascii n a → Plain n a
    | .values vs => ∀ v ∈ vs, ∀ n a, Rep v a → Ascii n a → Plain n a
    | .members ms => ∀ x ∈ ms, ∀ n a, Rep x.2 a → Ascii n a → Plain n a := by
  have hl : ∀ {vs as}, RepL vs as → (∀ v ∈ vs, ∀ n a, Rep v a → Ascii n a → Plain n a) →
      ∀ a ∈ as, ∀ n, Ascii n a → Plain n a := by
    intro vs as
    induction vs generalizing as with
    | nil => intro h; cases h; exact fun _ => nofun
    | cons v vs ih =>
      intro h hv a ha n hn
      cases h with
      | cons h hs =>
        rcases List.mem_cons.1 ha with rfl | ha
        · exact hv v (by simp) n _ h hn
        · exact ih hs (fun v hv' => hv v (by simp [hv'])) a ha n hn
  induction h with
  | null => intro n a h _; cases h; exact .null
  | true => intro n a h _; cases h; exact .bool
  | false => intro n a h _; cases h; exact .bool
  | @number s x h =>
    intro n a h' _
    cases h'
    refine .number ⟨?_, ?_, ?_⟩
    · obtain ⟨int, frac, exp, -, -, h1, h2, -⟩ := h
      have h1 : decimal int < 2 ^ 63 := h1
      show (if x.minus = true then -(x.int : _root_.Int) else x.int).natAbs < 2 ^ 63
      split <;> omega
    · obtain ⟨int, frac, exp, -, -, -, -, h1, -⟩ := h
      intro f hf
      rw [show x.frac = some f from hf] at h1
      cases h1
      assumption
    · obtain ⟨int, frac, exp, -, -, -, -, -, h1⟩ := h
      intro e he
      rw [show x.exp = some e from he] at h1
      cases h1 with
      | some _ _ hl => have hl : decimal _ < 2 ^ 15 := hl; omega
      | plus _ _ hl => have hl : decimal _ < 2 ^ 15 := hl; omega
      | minus _ _ hl => have hl : decimal _ < 2 ^ 15 := hl; omega
  | string h => intro n a h' ha; cases h'; cases ha with | string ha => exact .string ha
  | emptyArray => intro n a h _; cases h with | array h => cases h; exact .emptyArray
  | array h ih =>
    intro n a h' ha
    cases h' with
    | array h' =>
      cases ha with
      | emptyArray => exact .emptyArray
      | array ha => exact .array fun a g => hl h' ih a g _ (ha a g)
  | emptyObject =>
    intro n a h _
    cases h with
    | @object _ m hd hn f hf h =>
      cases m with
      | nil => exact .emptyObject
      | cons x m =>
        have := hn x.1 rfl
        unfold lookup at this
        rw [if_pos rfl] at this
        cases this
  | @object s ms h ih =>
    intro n a h' ha
    cases h' with
    | @object _ m hd hn f hf h =>
      cases ha with
      | emptyObject => exact .emptyObject
      | object hk ha =>
        refine .object hd hk fun x hx => ?_
        have hx' := lookup_mem hd (k := x.1) (a := x.2) hx
        cases hv : firstOf x.1 ms with
        | none => rw [hn _ hv] at hx'; cases hx'
        | some v =>
          obtain ⟨cs, g1, -⟩ := firstOf_some hv
          have g2 := h x.1 v hv
          rw [hf x.1 v hv] at hx'
          rw [Option.some.inj hx'] at g2
          exact ih _ g1 _ _ g2 (ha x hx)
  | last _ _ _ ih => intro v hv; simp only [List.mem_singleton] at hv; subst hv; exact ih
  | more _ _ _ _ ih ih2 =>
    intro v hv
    rcases List.mem_cons.1 hv with rfl | hv
    · exact ih
    · exact ih2 v hv
  | lastMember _ _ _ _ _ _ ih => intro v hv; simp only [List.mem_singleton] at hv; subst hv; exact ih
  | moreMembers _ _ _ _ _ _ _ ih ih2 =>
    intro v hv
    rcases List.mem_cons.1 hv with rfl | hv
    · exact ih
    · exact ih2 v hv

/-- **C100.** The program of the example: if the strings of a text are printable ASCII, what is printed for its value is parsed
    without errors, to an equal value. -/
theorem C100_program_partial {s : List Nat} (hs : Units 256 s) {fuel : Nat} {a : Ast} (h : parse fuel s = some (some a, true))
    (ha : Ascii 19 a) : ∃ t fuel' b, printAst 0 a = some t ∧ (∀ k, fuel' ≤ k → parse k t = some (some b, true)) ∧ Alike a b := by
  obtain ⟨t, rest, j, -, -, ⟨w, v, w', -, -, hv, -⟩, hj⟩ := C99_value hs h
  exact C100_roundtrip_partial (rep_plain hv 19 a hj ha)

/-! ## Strings that are not printable ASCII -/

/-- The string that was parsed. -/
def strOf : Option (Option Ast × Bool) → Option (List Nat)
  | some (some (.string s), true) => some s
  | _ => none

theorem strOf_some {x : Option (Option Ast × Bool)} {s : List Nat} (h : strOf x = some s) : x = some (some (.string s), true) := by
  unfold strOf at h
  split at h
  · cases h; rfl
  · cases h

/-- What is printed for the value of a parse is JSON. -/
def PrintsJson : Prop :=
  ∀ s fuel a t, Units 256 s → parse fuel s = some (some a, true) → printAst 0 a = some t → ∃ L j, TextMeans L t j

/-- Printing the value of a parse has no undefined behavior. -/
def PrintsAll : Prop :=
  ∀ s fuel a, Units 256 s → parse fuel s = some (some a, true) → (printAst 0 a).isSome

/-- **What the example prints is not JSON**: a control character is printed as `\x0a`, which is not an escape sequence of JSON
    (json.cpp l.84-85): the output for the text `"\n"` is not accepted by the example itself. -/
theorem C100_control_refuted : ¬ PrintsJson := by
  intro h
  have h1 : parse 60 [0x22, 0x5C, 0x6E, 0x22] = some (some (.string [0x0A]), true) := strOf_some (by decide +kernel)
  obtain ⟨L, j, w, v, w', e, hw, hv, hw'⟩ := h _ _ _ [0x22, 0x5C, 0x78, 0x30, 0x61, 0x22] (by unfold Units; decide) h1 (by decide +kernel)
  have hc := value_head hv
  obtain ⟨c, r, rfl, hc⟩ := hc
  have : w = [] := by
    cases w with
    | nil => rfl
    | cons d w =>
      have := hw d (by simp)
      simp only [List.cons_append, List.cons.injEq] at e
      omega
  subst this
  simp only [List.nil_append, List.cons_append, List.cons.injEq] at e
  obtain ⟨rfl, e⟩ := e
  generalize hx : 34 :: r = x at hv
  cases hv with
  | null | true | false | emptyArray | array | emptyObject | object => simp at hx
  | number h => obtain ⟨c, r, h1, h2⟩ := number_head h; rw [← hx] at h1; cases h1; omega
  | string h =>
    obtain ⟨t, h1, h⟩ := h
    rw [← hx] at h1
    simp only [List.cons.injEq, true_and] at h1
    subst h1
    cases h with
    | nil => simp at e
    | unescaped hu => exact absurd rfl (unescaped_head hu (by simpa using e.symm)).2
    | escape hm =>
      simp only [List.cons_append, List.cons.injEq, true_and] at e
      obtain ⟨rfl, -⟩ := e
      exact absurd hm (by unfold escaped; simp)
    | code => simp at e

/-- **Printing a string with a character outside of ASCII is undefined behavior**: `std::iscntrl(c)` with a `char` that is
    negative (json.cpp l.84); here for the text `"é"`. -/
theorem C100_iscntrl_refuted : ¬ PrintsAll := by
  intro h
  have h1 : parse 60 [0x22, 0xC3, 0xA9, 0x22] = some (some (.string [0xC3, 0xA9]), true) := strOf_some (by decide +kernel)
  exact absurd (h _ _ _ (by unfold Units; decide) h1) (by decide +kernel)

/-- The value of a hexadecimal digit in lower case. -/
def Spec.hexValue (c : Nat) : Option Nat :=
  if 0x30 ≤ c ∧ c ≤ 0x39 then some (c - 0x30) else if 0x61 ≤ c ∧ c ≤ 0x66 then some (c - 0x61 + 10) else none

/-- **C100.** How the ASCII characters of a string are printed: quotes and backslashes behind a backslash, the 33 control
    characters (DEL is one) as `\x` and two digits, everything else as it is. -/
theorem C100_escapes : ∀ c < 128,
    ((c = 0x22 ∨ c = 0x5C) → printChar c = some [0x5C, c]) ∧
    ((c < 0x20 ∨ c = 0x7F) → ∃ a b, printChar c = some [0x5C, 0x78, a, b] ∧
      (Spec.hexValue a).bind (fun x => (Spec.hexValue b).map fun y => 16 * x + y) = some c) ∧
    (c ≠ 0x22 ∧ c ≠ 0x5C ∧ 0x20 ≤ c ∧ c ≠ 0x7F → printChar c = some [c]) := by
  intro c hc
  refine ⟨?_, fun h => ⟨hexChar (c / 16), hexChar (c % 16), ?_⟩, ?_⟩ <;> revert c <;> decide +kernel

/-! ## Examples -/

/-- `{"b": [1, -2.5e-3, "x\"y"], "a": {}}` is printed in the order of the keys. -/
example : printAst 0 (.object [([0x62], .array [.number ⟨1, none, none⟩, .number ⟨-2, some [0x35], some (-3)⟩, .string [0x78, 0x22, 0x79]]),
      ([0x61], .object [])]) =
    some ("{\n \"a\" : {\n\n },\n \"b\" : [\n  1,\n  -2.5e-3,\n  \"x\\\"y\"\n ]\n}".toList.map Char.toNat) := by
  decide +kernel

/-- The hypotheses of the round trip hold for it. -/
example : Plain 19 (.object [([0x62], .array [.number ⟨1, none, none⟩, .number ⟨-2, some [0x35], some (-3)⟩, .string [0x78, 0x22, 0x79]]),
    ([0x61], .object [])]) := by
  have d : Digits [0x35] := ⟨by simp, fun c hc => by simp only [List.mem_singleton] at hc; unfold Digit; omega⟩
  refine .object (by decide) (by unfold PlainStr; decide) fun x hx => ?_
  simp only [List.mem_cons, List.not_mem_nil, or_false] at hx
  rcases hx with rfl | rfl
  · refine .array fun a ha => ?_
    simp only [List.mem_cons, List.not_mem_nil, or_false] at ha
    rcases ha with rfl | rfl | rfl
    · exact .number ⟨by decide, nofun, nofun⟩
    · exact .number ⟨by decide, fun f hf => by cases hf; exact d, fun e he => by cases he; decide⟩
    · exact .string (by unfold PlainStr; decide)
  · exact .emptyObject

end Verif.Json
