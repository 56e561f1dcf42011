import Verif.JsonPrintProps

/-
C100: what examples/json.cpp prints does not depend on the order of the members.
-/

namespace Verif.Spec.Json

open Verif.Json (Ast AstNumber)

/-- The keys of every map are different. -/
inductive Distinct : Ast → Prop
  | null : Distinct .null
  | bool {b : Bool} : Distinct (.bool b)
  | number {n : AstNumber} : Distinct (.number n)
  | string {s : List Nat} : Distinct (.string s)
  | array {vs : List Ast} (h : ∀ a ∈ vs, Distinct a) : Distinct (.array vs)
  | object {ms : List (List Nat × Ast)} (hd : (ms.map (·.1)).Nodup) (h : ∀ x ∈ ms, Distinct x.2) : Distinct (.object ms)

end Verif.Spec.Json

namespace Verif.Json

open Spec.Json

/-! ## The order of the keys -/

theorem keyLt_irrefl : ∀ x, keyLt x x = false
  | [] => rfl
  | a :: x => by simp [keyLt, keyLt_irrefl x]

theorem keyLt_asymm : ∀ {x y}, keyLt x y = true → keyLt y x = false
  | [], [], h => by simp [keyLt] at h
  | [], _ :: _, _ => rfl
  | _ :: _, [], h => by simp [keyLt] at h
  | a :: x, b :: y, h => by
    simp only [keyLt] at h ⊢
    split at h
    · rw [if_neg (by omega), if_pos (by assumption)]
    · split at h
      · cases h
      · rw [if_neg (by assumption), if_neg (by assumption)]
        exact keyLt_asymm h

theorem keyLt_trans : ∀ {x y z}, keyLt x y = true → keyLt y z = true → keyLt x z = true
  | [], [], _, h, _ => by simp [keyLt] at h
  | [], _ :: _, [], _, h => by simp [keyLt] at h
  | [], _ :: _, _ :: _, _, _ => rfl
  | _ :: _, [], _, h, _ => by simp [keyLt] at h
  | _ :: _, _ :: _, [], _, h => by simp [keyLt] at h
  | a :: x, b :: y, c :: z, h, h' => by
    simp only [keyLt] at h h' ⊢
    split at h
    · split at h'
      · rw [if_pos (by omega)]
      · split at h'
        · cases h'
        · rw [if_pos (by omega)]
    · split at h
      · cases h
      · split at h'
        · rw [if_pos (by omega)]
        · split at h'
          · cases h'
          · rw [if_neg (by omega), if_neg (by omega)]
            exact keyLt_trans h h'

theorem keyLt_total : ∀ {x y}, keyLt x y = false → x ≠ y → keyLt y x = true
  | [], [], _, h => (h rfl).elim
  | [], _ :: _, h, _ => by simp [keyLt] at h
  | _ :: _, [], _, _ => rfl
  | a :: x, b :: y, h, hn => by
    simp only [keyLt] at h ⊢
    split at h
    · cases h
    · split at h
      · rw [if_pos (by assumption)]
      · have : a = b := by omega
        subst this
        rw [if_neg (by omega), if_neg (by omega)]
        exact keyLt_total h (by simpa using hn)

variable {α : Type}

/-- The keys are in ascending order. -/
def Ascending (m : List (List Nat × α)) : Prop := m.Pairwise fun x y => keyLt x.1 y.1 = true

theorem insertKey_ascending {k : List Nat} {a : α} : ∀ {m : List (List Nat × α)}, Ascending m → (∀ x ∈ m, x.1 ≠ k) →
    Ascending (insertKey k a m)
  | [], _, _ => by simp [insertKey, Ascending]
  | (k', b) :: m, h, hn => by
    unfold Ascending at h
    rw [List.pairwise_cons] at h
    simp only [insertKey]
    split
    · rename_i hk
      unfold Ascending
      rw [List.pairwise_cons, List.pairwise_cons]
      refine ⟨fun x hx => ?_, h⟩
      rcases List.mem_cons.1 hx with rfl | hx
      · exact hk
      · exact keyLt_trans hk (h.1 x hx)
    · rename_i hk
      unfold Ascending
      rw [List.pairwise_cons]
      refine ⟨fun x hx => ?_, insertKey_ascending h.2 fun x hx => hn x (by simp [hx])⟩
      rcases List.mem_cons.1 ((insertKey_perm k a m).mem_iff.1 hx) with rfl | hx
      · exact keyLt_total (by simpa using hk) (Ne.symm (hn (k', b) (by simp)))
      · exact h.1 x hx

theorem byKey_ascending : ∀ {m : List (List Nat × α)}, (m.map (·.1)).Nodup → Ascending (byKey m)
  | [], _ => by simp [byKey, Ascending]
  | (k, a) :: m, h => by
    simp only [List.map_cons, List.nodup_cons] at h
    refine insertKey_ascending (byKey_ascending h.2) fun x hx he => h.1 ?_
    exact List.mem_map.2 ⟨x, (byKey_perm m).mem_iff.1 hx, he⟩

theorem ascending_unique : ∀ {m m' : List (List Nat × α)}, Ascending m → Ascending m' → (∀ x, x ∈ m ↔ x ∈ m') → m = m'
  | [], [], _, _, _ => rfl
  | [], y :: m', _, _, h => by have := (h y).2 (by simp); simp at this
  | x :: m, [], _, _, h => by have := (h x).1 (by simp); simp at this
  | x :: m, y :: m', h1, h2, h => by
    unfold Ascending at h1 h2
    rw [List.pairwise_cons] at h1 h2
    have hxy : x = y := by
      rcases List.mem_cons.1 ((h x).1 (by simp)) with h3 | h3
      · exact h3
      · rcases List.mem_cons.1 ((h y).2 (by simp)) with h4 | h4
        · exact h4.symm
        · have := keyLt_asymm (h1.1 y h4)
          rw [h2.1 x h3] at this
          cases this
    subst hxy
    rw [ascending_unique h1.2 h2.2 fun z => ⟨fun hz => ?_, fun hz => ?_⟩]
    · rcases List.mem_cons.1 ((h z).1 (by simp [hz])) with rfl | h3
      · have := h1.1 z hz
        rw [keyLt_irrefl] at this
        cases this
      · exact h3
    · rcases List.mem_cons.1 ((h z).2 (by simp [hz])) with rfl | h3
      · have := h2.1 z hz
        rw [keyLt_irrefl] at this
        cases this
      · exact h3

/-! ## Printing -/

theorem mem_lookup : ∀ {m : List (List Nat × Ast)} {k : List Nat} {a : Ast}, lookup k m = some a → (k, a) ∈ m
  | [], _, _, h => by simp [lookup] at h
  | (k', b) :: m, k, a, h => by
    unfold lookup at h
    split at h
    · rename_i hk
      cases h
      simp [hk]
    · exact List.mem_cons_of_mem _ (mem_lookup h)

theorem printMap_some {level : Nat} : ∀ {m : List (List Nat × Ast)}, (∀ x ∈ m, (printAst level x.2).isSome) →
    printMap level m = some (m.map fun x => (x.1, (printAst level x.2).getD []))
  | [], _ => by simp [printMap]
  | (k, a) :: m, h => by
    unfold printMap
    have := h (k, a) (by simp)
    simp only at this
    obtain ⟨t, ht⟩ := Option.isSome_iff_exists.1 this
    rw [printMap_some fun x hx => h x (by simp [hx])]
    simp [ht]

theorem printMap_none {level : Nat} : ∀ {m : List (List Nat × Ast)} {x : List Nat × Ast}, x ∈ m → printAst level x.2 = none →
    printMap level m = none
  | (k, a) :: m, x, hx, h => by
    unfold printMap
    rcases List.mem_cons.1 hx with rfl | hx
    · simp only at h
      rw [h]
      rfl
    · rw [printMap_none hx h]
      cases printAst level a <;> rfl

theorem printList_eq {level : Nat} : ∀ {vs ws : List Ast}, vs.length = ws.length →
    (∀ (i : Nat) a b, vs[i]? = some a → ws[i]? = some b → printAst level a = printAst level b) → printList level vs = printList level ws
  | [], [], _, _ => rfl
  | [], _ :: _, h, _ => by simp at h
  | _ :: _, [], h, _ => by simp at h
  | a :: vs, b :: ws, hl, h => by
    unfold printList
    rw [h 0 a b rfl rfl, printList_eq (by simpa using hl) fun i x y hx hy => h (i + 1) x y (by simpa using hx) (by simpa using hy)]

/-- **C100.** The output does not depend on the order of members: equal values are printed equally. -/
theorem C100_order {a b : Ast} (h : Alike a b) (ha : Distinct a) (hb : Distinct b) (level : Nat) :
    printAst level a = printAst level b := by
  induction h generalizing level with
  | null => rfl
  | bool => rfl
  | number => rfl
  | string => rfl
  | @array vs ws hl _ ih =>
    cases ha with
    | array ha =>
    cases hb with
    | array hb =>
    unfold printAst
    rw [printList_eq hl fun i x y hx hy => ih i x y hx hy (ha x (List.mem_of_getElem? hx)) (hb y (List.mem_of_getElem? hy)) _]
  | @object m m' hl _ ih =>
    cases ha with
    | object hd ha =>
    cases hb with
    | object hd' hb =>
    have left : ∀ x ∈ m, ∃ y ∈ m', y.1 = x.1 ∧ printAst (level + 1) x.2 = printAst (level + 1) y.2 := by
      rintro ⟨k, a⟩ hx
      have h1 := lookup_mem hd hx
      cases h2 : lookup k m' with
      | none => rw [(hl k).2 h2] at h1; cases h1
      | some b => exact ⟨(k, b), mem_lookup h2, rfl, ih k a b h1 h2 (ha _ hx) (hb _ (mem_lookup h2)) _⟩
    have right : ∀ y ∈ m', ∃ x ∈ m, x.1 = y.1 ∧ printAst (level + 1) x.2 = printAst (level + 1) y.2 := by
      rintro ⟨k, b⟩ hy
      have h1 := lookup_mem hd' hy
      cases h2 : lookup k m with
      | none => rw [(hl k).1 h2] at h1; cases h1
      | some a => exact ⟨(k, a), mem_lookup h2, rfl, ih k a b h2 h1 (ha _ (mem_lookup h2)) (hb _ hy) _⟩
    unfold printAst
    by_cases hs : ∀ x ∈ m, (printAst (level + 1) x.2).isSome
    · have hs' : ∀ y ∈ m', (printAst (level + 1) y.2).isSome := fun y hy => by
        obtain ⟨x, h1, -, h3⟩ := right y hy
        exact h3 ▸ hs x h1
      rw [printMap_some hs, printMap_some hs']
      simp only [Option.bind_some]
      have nd : ∀ {l : List (List Nat × Ast)}, (l.map (·.1)).Nodup →
          ((l.map fun x => (x.1, (printAst (level + 1) x.2).getD [])).map (·.1)).Nodup := fun h => by
        rw [List.map_map]; exact h
      rw [ascending_unique (byKey_ascending (nd hd)) (byKey_ascending (nd hd')) fun z => ?_]
      rw [(byKey_perm _).mem_iff, (byKey_perm _).mem_iff, List.mem_map, List.mem_map]
      constructor
      · rintro ⟨x, hx, rfl⟩
        obtain ⟨y, h1, h2, h3⟩ := left x hx
        exact ⟨y, h1, by rw [h2, h3]⟩
      · rintro ⟨y, hy, rfl⟩
        obtain ⟨x, h1, h2, h3⟩ := right y hy
        exact ⟨x, h1, by rw [h2, h3]⟩
    · obtain ⟨x, hx, h1⟩ : ∃ x ∈ m, printAst (level + 1) x.2 = none := by
        apply Classical.byContradiction
        intro hn
        refine hs fun x hx => ?_
        cases h2 : printAst (level + 1) x.2 with
        | some => rfl
        | none => exact (hn ⟨x, hx, h2⟩).elim
      obtain ⟨y, hy, -, h3⟩ := left x hx
      rw [printMap_none hx h1, printMap_none hy (h3 ▸ h1)]

mutual
theorem rep_distinct : ∀ {j : JV} {a : Ast}, Rep j a → Distinct a
  | _, _, .null => .null
  | _, _, .bool => .bool
  | _, _, .number => .number
  | _, _, .string => .string
  | _, _, .array h => .array (repL_distinct h)
  | _, _, .object (ms := ms) (m := m) hd hn f hf h => .object hd (by
    rintro ⟨k, a⟩ hx
    have h1 := lookup_mem hd hx
    cases h2 : firstOf k ms with
    | none => rw [hn k h2] at h1; cases h1
    | some v =>
      rw [hf k v h2] at h1
      cases h1
      exact rep_distinct (h k v h2))
theorem repL_distinct : ∀ {vs : List JV} {as : List Ast}, RepL vs as → ∀ a ∈ as, Distinct a
  | _, _, .nil => by simp
  | _, _, .cons h hs => by
    intro a ha
    rcases List.mem_cons.1 ha with h0 | ha
    · rw [h0]; exact rep_distinct h
    · exact repL_distinct hs a ha
end

theorem plain_distinct {n : Nat} {a : Ast} (h : Plain n a) : Distinct a := by
  induction h with
  | null => exact .null
  | bool => exact .bool
  | number => exact .number
  | string => exact .string
  | emptyArray => exact .array (by simp)
  | array _ ih => exact .array ih
  | emptyObject => exact .object (by simp) (by simp)
  | object hd _ _ ih => exact .object hd ih

/-- **C100.** Printing what was printed and parsed gives the same text. -/
theorem C100_fixpoint_partial {a : Ast} (h : Plain 19 a) :
    ∃ t fuel b, printAst 0 a = some t ∧ (∀ k, fuel ≤ k → parse k t = some (some b, true)) ∧ printAst 0 b = some t := by
  obtain ⟨t, fuel, b, h1, h2, h3⟩ := C100_roundtrip_partial h
  refine ⟨t, fuel, b, h1, h2, ?_⟩
  obtain ⟨t', j, g1, ⟨w, v, w', rfl, hw, hv, hw'⟩, -⟩ := C100_text_partial h
  rw [h1] at g1; cases g1
  have hu : Units 256 (w ++ v ++ w') := units_append (units_append (blank_units hw) (means_units hv)) (blank_units hw')
  obtain ⟨-, -, j', -, -, -, g3⟩ := C99_value hu (h2 fuel (Nat.le_refl _))
  rw [← h1]
  exact (C100_order h3 (plain_distinct h) (rep_distinct g3) 0).symm

/-- The hypotheses can be met. -/
example : Alike (.object [([0x62], .null), ([0x61], .bool true)]) (.object [([0x61], .bool true), ([0x62], .null)]) := by
  refine .object (fun k => ?_) fun k a b h1 h2 => ?_
  · simp only [lookup]
    split <;> split <;> simp
  · simp only [lookup] at h1 h2
    by_cases h3 : [0x62] = k
    · subst h3
      simp only [if_true, Option.some.injEq] at h1
      simp at h2
      subst h1 h2
      exact .null
    · rw [if_neg h3] at h1 h2
      split at h1
      · rename_i h4
        rw [if_pos h4] at h2
        cases h1; cases h2
        exact .bool
      · cases h1

example : printAst 0 (.object [([0x62], .null), ([0x61], .bool true)]) =
    printAst 0 (.object [([0x61], .bool true), ([0x62], .null)]) := by decide +kernel

end Verif.Json
