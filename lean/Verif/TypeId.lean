import Verif.StrViewProps

/-!
# C96: tags and productions are identified by their names

Models `type_name`, `type_id` (include/lexy/_detail/type_name.hpp l.93-128), `error<Reader, void>::is` (include/lexy/error.hpp
l.43-47) and the identity of productions (include/lexy/grammar.hpp l.186-215).

Types are records of what these functions look at: types that are no templates and not in an anonymous namespace.
-/

namespace Verif.Ty

open Sv Sv.Spec

/-- A class of C++. -/
structure CppTy where
  /-- which class it is -/
  id : Nat
  /-- the namespaces (and classes) it is in, and its own name -/
  comps : List (List Nat)
  /-- what `T::name()` returns, if there is such a function -/
  nameF : Option (List Nat) := none
  /-- `T::name`, if there is such a variable: the class where it is declared (it may be inherited), and the string -/
  nameV : Option (Nat × List Nat) := none

/-- What the compiler prints in `_full_type_name`. -/
def CppTy.pretty (cc : Compiler) (t : CppTy) : List Nat := cc.pre ++ ([] ++ join t.comps) ++ cc.suf

/-- `type_name<T>`, type_name.hpp l.93-104; as null-terminated string. -/
def typeNameOf (cc : Compiler) (t : CppTy) : Option (List Nat) :=
  match t.nameF, t.nameV with
  | some s, _ => some (s ++ [0])
  | none, some (_, s) => some (s ++ [0])
  | none, none => typeName cc (t.pretty cc) 1

/-- The address of a static member of a class, or of the variable template `_type_id_holder` for a type. -/
inductive Addr
  | member (cls : Nat)
  | holder (ty : Nat)
  deriving DecidableEq

/-- `type_id<T>`, type_name.hpp l.112-128. -/
def typeId (t : CppTy) : Addr :=
  match t.nameV, t.nameF with
  | some (cls, _), none => .member cls
  | _, _ => .holder t.id

/-- `error<Reader, Tag>(…).is<Other>()`, error.hpp l.43-47 and l.69-76: the strings are compared. -/
def errorIs (cc : Compiler) (tag other : CppTy) : Option Bool :=
  (typeNameOf cc tag).bind fun a => (typeNameOf cc other).map fun b => a == b

/-- A type that C++ can have: its name consists of identifiers; the name is short enough to be stored. -/
structure Spec.Proper (cc : Compiler) (t : CppTy) : Prop where
  nonempty : join t.comps ≠ []
  ident : ∀ c ∈ t.comps, 58 ∉ c ∧ 60 ∉ c ∧ 0 ∉ c
  named : ¬ cc.anon <+: join t.comps
  short : (join t.comps).length < 2 ^ 32

theorem join_cons (c : List Nat) {cs : List (List Nat)} (h : cs ≠ []) : join (c :: cs) = c ++ [58, 58] ++ join cs := by
  cases cs with
  | nil => exact absurd rfl h
  | cons d ds => rfl

theorem append_58 {a b r s : List Nat} (ha : 58 ∉ a) (hb : 58 ∉ b) (h : a ++ 58 :: r = b ++ 58 :: s) : a = b ∧ r = s := by
  induction a generalizing b with
  | nil =>
    cases b with
    | nil => simpa using h
    | cons x b =>
      simp only [List.nil_append, List.cons_append, List.cons.injEq] at h
      exact absurd List.mem_cons_self (h.1 ▸ hb)
  | cons x a ih =>
    cases b with
    | nil =>
      simp only [List.nil_append, List.cons_append, List.cons.injEq] at h
      exact absurd List.mem_cons_self (h.1 ▸ ha)
    | cons y b =>
      simp only [List.cons_append, List.cons.injEq] at h
      obtain ⟨h1, h2⟩ := ih (fun e => ha (List.mem_cons_of_mem _ e)) (fun e => hb (List.mem_cons_of_mem _ e)) h.2
      exact ⟨by rw [h.1, h1], h2⟩

/-- A qualified name has only one meaning. -/
theorem join_inj : ∀ {cs ds : List (List Nat)}, cs ≠ [] → ds ≠ [] → (∀ c ∈ cs, 58 ∉ c) → (∀ d ∈ ds, 58 ∉ d) →
    join cs = join ds → cs = ds
  | [c], [d], _, _, _, _, h => by simpa [join] using h
  | [c], d :: e :: ds, _, _, hc, _, h => by
    rw [join_cons d (by simp)] at h
    exact absurd (show 58 ∈ join [c] by rw [h]; simp) (hc c (by simp))
  | c :: e :: cs, [d], _, _, _, hd, h => by
    rw [join_cons c (by simp)] at h
    exact absurd (show 58 ∈ join [d] by rw [← h]; simp) (hd d (by simp))
  | c :: c' :: cs, d :: d' :: ds, _, _, hc, hd, h => by
    rw [join_cons c (by simp), join_cons d (by simp)] at h
    simp only [List.append_assoc, List.cons_append, List.nil_append] at h
    obtain ⟨h1, h2⟩ := append_58 (hc c (by simp)) (hd d (by simp)) h
    simp only [List.cons.injEq, true_and] at h2
    rw [h1, join_inj (cs := c' :: cs) (ds := d' :: ds) (by simp) (by simp) (fun x hx => hc x (List.mem_cons_of_mem _ hx))
      (fun x hx => hd x (List.mem_cons_of_mem _ hx)) h2]

/-- The message of an error without `name`: the name without the outermost namespace. -/
theorem C96_message {cc : Compiler} (hc : cc = clang ∨ cc = gcc) {t : CppTy} (ht : Spec.Proper cc t) (hf : t.nameF = none)
    (hv : t.nameV = none) : typeNameOf cc t = some (join (t.comps.drop (min 1 (t.comps.length - 1))) ++ [0]) := by
  unfold typeNameOf
  rw [hf, hv]
  exact C86_type_name cc hc false t.comps 1 ht.nonempty ht.ident (fun _ => ht.named) ht.short

/-- The name that is shown for a type: the one it has been given, as function before variable; otherwise the one in the source
    without the outermost namespace. -/
def Spec.shown (t : CppTy) : List Nat :=
  (t.nameF.or (t.nameV.map (·.2))).getD (join (t.comps.drop (min 1 (t.comps.length - 1))))

/-- The message of every error. -/
theorem C96_shown {cc : Compiler} (hc : cc = clang ∨ cc = gcc) {t : CppTy} (ht : Spec.Proper cc t) :
    typeNameOf cc t = some (Spec.shown t ++ [0]) := by
  cases hf : t.nameF with
  | some s => simp [typeNameOf, Spec.shown, hf]
  | none =>
    cases hv : t.nameV with
    | some x => simp [typeNameOf, Spec.shown, hf, hv]
    | none =>
      rw [C96_message hc ht hf hv]
      simp [Spec.shown, hf, hv]

/-- `is<Tag>()` says whether the shown names are equal. -/
theorem C96_is_shown {cc : Compiler} (hc : cc = clang ∨ cc = gcc) {t u : CppTy} (ht : Spec.Proper cc t)
    (hu : Spec.Proper cc u) : errorIs cc t u = some (decide (Spec.shown t = Spec.shown u)) := by
  unfold errorIs
  rw [C96_shown hc ht, C96_shown hc hu]
  simp only [Option.bind_some, Option.map_some, Option.some.injEq]
  rw [Bool.eq_iff_iff, beq_iff_eq, decide_eq_true_eq, List.append_cancel_right_eq]

/-- `is<Tag>()` (partial): for tags in the same outermost namespace (with at least one) and without `name`, it says whether
    the error has this tag. -/
theorem C96_is_partial {cc : Compiler} (hc : cc = clang ∨ cc = gcc) {t u : CppTy} (ht : Spec.Proper cc t)
    (hu : Spec.Proper cc u) (hf : t.nameF = none ∧ t.nameV = none) (hg : u.nameF = none ∧ u.nameV = none)
    (h2 : 2 ≤ t.comps.length ∧ 2 ≤ u.comps.length) (hn : t.comps.head? = u.comps.head?) :
    errorIs cc t u = some (decide (t.comps = u.comps)) := by
  unfold errorIs
  rw [C96_message hc ht hf.1 hf.2, C96_message hc hu hg.1 hg.2]
  obtain ⟨ti, tc, tf, tv⟩ := t
  obtain ⟨ui, uc, uf, uv⟩ := u
  match tc, uc, h2, hn with
  | c :: d :: cs, c' :: d' :: cs', _, hn =>
    have e1 : min 1 ((c :: d :: cs).length - 1) = 1 := by simp only [List.length_cons]; omega
    have e2 : min 1 ((c' :: d' :: cs').length - 1) = 1 := by simp only [List.length_cons]; omega
    have hn' : c = c' := by simpa using hn
    simp only [Option.bind_some, Option.map_some, e1, e2, List.drop_succ_cons, List.drop_zero, Option.some.injEq]
    rw [Bool.eq_iff_iff, beq_iff_eq, decide_eq_true_eq, List.append_cancel_right_eq]
    constructor
    · intro h
      rw [hn', join_inj (by simp) (by simp) (fun x hx => (ht.ident x (List.mem_cons_of_mem _ hx)).1)
        (fun x hx => (hu.ident x (List.mem_cons_of_mem _ hx)).1) h]
    · intro h
      rw [(List.cons.inj h).2]

def lexyChoice : CppTy := ⟨0, [chars "lexy", chars "exhausted_choice"], none, none⟩
def otherChoice : CppTy := ⟨1, [chars "app", chars "exhausted_choice"], none, none⟩
def lexyEof : CppTy := ⟨2, [chars "lexy", chars "expected_eof"], none, none⟩

/-- The hypotheses of `C96_is_partial` are met by the tags of the library. -/
example : errorIs gcc lexyChoice lexyEof = some false ∧ errorIs gcc lexyChoice lexyChoice = some true ∧
    Spec.Proper gcc lexyChoice ∧ Spec.Proper gcc lexyEof := by
  refine ⟨by decide +kernel, by decide +kernel, ⟨by decide +kernel, by decide +kernel, by decide +kernel, by decide +kernel⟩,
    ⟨by decide +kernel, by decide +kernel, by decide +kernel, by decide +kernel⟩⟩

/-- Documented (error.adoc): "Different kinds of errors are identified by the `Tag`".  `is<Tag>()` compares messages: an error
    with the tag `app::exhausted_choice` is a `lexy::exhausted_choice`. -/
theorem C96_is_refuted : ¬ ∀ t u, Spec.Proper gcc t → Spec.Proper gcc u → errorIs gcc t u = some true → t.comps = u.comps := by
  intro h
  have p1 : Spec.Proper gcc otherChoice := ⟨by decide +kernel, by decide +kernel, by decide +kernel, by decide +kernel⟩
  have p2 : Spec.Proper gcc lexyChoice := ⟨by decide +kernel, by decide +kernel, by decide +kernel, by decide +kernel⟩
  have := h otherChoice lexyChoice p1 p2 (by decide +kernel)
  revert this
  decide +kernel

/-- `type_id` "returns a unique address for each type" (partial): for types that declare their `name` themselves, if they have
    such a variable. -/
theorem C96_type_id_partial {t u : CppTy} (ht : ∀ c s, t.nameV = some (c, s) → c = t.id)
    (hu : ∀ c s, u.nameV = some (c, s) → c = u.id) (hsame : t.id = u.id → t = u) : typeId t = typeId u ↔ t = u := by
  constructor
  · intro h
    apply hsame
    obtain ⟨ti, tc, tf, tv⟩ := t
    obtain ⟨ui, uc, uf, uv⟩ := u
    cases tv with
    | none =>
      cases uv with
      | none => simpa [typeId] using h
      | some v => cases uf <;> simp_all [typeId]
    | some w =>
      have := ht w.1 w.2 rfl
      cases uv with
      | none => cases tf <;> simp_all [typeId]
      | some v =>
        have := hu v.1 v.2 rfl
        cases tf <;> cases uf <;> simp_all [typeId]
  · rintro rfl; rfl

/-- `type_id` "returns a unique address for each type" (type_name.hpp l.109), which identifies productions:
    not if a class inherits `name` (`struct b : a {}` with `static constexpr auto name = "a"` in `a`): both have the
    address of `a::name`, and nodes of the parse tree for `b` compare equal to `a`. -/
theorem C96_type_id_refuted : ∃ t u : CppTy, t ≠ u ∧ t.comps ≠ u.comps ∧ typeId t = typeId u := by
  refine ⟨⟨0, [chars "a"], none, some (0, chars "a")⟩, ⟨1, [chars "b"], none, some (0, chars "a")⟩, ?_, by decide +kernel, rfl⟩
  intro h
  cases h

end Verif.Ty
