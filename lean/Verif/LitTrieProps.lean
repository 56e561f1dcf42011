import Verif.LitTrie

/-
Tries of literals with values match the longest literal (for operators, lookahead and find).
-/

namespace Verif

/-- The value of the last literal with this spelling. -/
def lastVal (ls : List (Lit × Nat)) (u : List Nat) (v : Nat) : Prop :=
  ∃ (i : Nat) (l : Lit), ls[i]? = some (l, v) ∧ l.str = u ∧ ∀ (j : Nat) (p : Lit × Nat), i < j → ls[j]? = some p → p.1.str ≠ u

theorem lastVal_append {ls : List (Lit × Nat)} {l : Lit} {w v : Nat} {u : List Nat} :
    lastVal (ls ++ [(l, w)]) u v ↔ if u = l.str then v = w else lastVal ls u v := by
  unfold lastVal
  split
  · rename_i e
    subst e
    constructor
    · rintro ⟨i, l', h1, h2, h3⟩
      rcases Nat.lt_or_ge i ls.length with h | h
      · exact absurd rfl (h3 ls.length (l, w) h (by simp))
      · have hi : i = ls.length := by
          have := (List.getElem?_eq_some_iff.1 h1).1
          simp at this; omega
        subst hi
        simp at h1
        exact h1.2.symm
    · rintro rfl
      refine ⟨ls.length, l, by simp, rfl, ?_⟩
      intro j p hj hp
      have := (List.getElem?_eq_some_iff.1 hp).1
      simp at this; omega
  · rename_i e
    constructor
    · rintro ⟨i, l', h1, h2, h3⟩
      rcases Nat.lt_or_ge i ls.length with h | h
      · rw [List.getElem?_append_left h] at h1
        refine ⟨i, l', h1, h2, fun j p hj hp => h3 j p hj ?_⟩
        rw [List.getElem?_append_left (List.getElem?_eq_some_iff.1 hp).1]
        exact hp
      · have hi : i = ls.length := by
          have := (List.getElem?_eq_some_iff.1 h1).1
          simp at this; omega
        subst hi
        simp at h1
        exact absurd (h1.1 ▸ h2.symm) e
    · rintro ⟨i, l', h1, h2, h3⟩
      have hl := (List.getElem?_eq_some_iff.1 h1).1
      refine ⟨i, l', by rw [List.getElem?_append_left hl]; exact h1, h2, fun j p hj hp => ?_⟩
      rcases Nat.lt_or_ge j ls.length with h | h
      · rw [List.getElem?_append_left h] at hp
        exact h3 j p hj hp
      · have hi : j = ls.length := by
          have := (List.getElem?_eq_some_iff.1 hp).1
          simp at this; omega
        subst hi
        simp at hp
        subst hp
        exact fun h => e h.symm

/-- What the trie built from `pre` stores. -/
structure LitsInv (pre : List (Lit × Nat)) (t : Trie) : Prop where
  inv : t.Inv
  val : ∀ u v, t.valAt u = some v ↔ lastVal pre u v
  cls : ∀ u i, t.clsAt u = some i → ∃ l ∈ pre.map (·.1), ∃ f, l.str = u ∧ l.kw = some f ∧
    (litClasses (pre.map (·.1)))[i]? = some f
  clsNone : ∀ u, t.clsAt u = none → ∀ l ∈ pre.map (·.1), l.str = u → l.kw = none
  chars : ∀ tr ∈ t.trans, ∃ l ∈ pre.map (·.1), tr.char ∈ l.str

theorem litsInv_step {pre : List (Lit × Nat)} {t : Trie} (h : LitsInv pre t) (l : Lit) (v : Nat) :
    LitsInv (pre ++ [(l, v)]) (t.insertLit l (litClasses (pre.map (·.1))).length v) := by
  obtain ⟨i1, i2, i3, i4⟩ := Trie.insertLit_spec h.inv l (litClasses (pre.map (·.1))).length v
  have hmap : (pre ++ [(l, v)]).map (·.1) = pre.map (·.1) ++ [l] := by simp
  have hcl : litClasses (pre.map (·.1) ++ [l]) = litClasses (pre.map (·.1)) ++ l.kw.toList := by
    unfold litClasses; rw [List.filterMap_append]; cases hk : l.kw <;> simp [hk]
  refine ⟨i1, ?_, ?_, ?_, ?_⟩
  · intro u w
    rw [i2, lastVal_append]
    split
    · simp [eq_comm]
    · exact h.val u w
  · intro u i hi
    rw [i3] at hi
    rw [hmap, hcl]
    split at hi
    · rename_i e
      obtain ⟨rfl, hk⟩ := e
      simp only [Option.some.injEq] at hi
      subst hi
      obtain ⟨f, hf⟩ := Option.isSome_iff_exists.1 hk
      exact ⟨l, by simp, f, rfl, hf, by simp [hf]⟩
    · obtain ⟨l', h1, f, h2, h3, h4⟩ := h.cls u i hi
      refine ⟨l', List.mem_append_left _ h1, f, h2, h3, ?_⟩
      rw [List.getElem?_append_left]
      · exact h4
      · exact (List.getElem?_eq_some_iff.1 h4).1
  · intro u hu l' hl' hs
    rw [i3] at hu
    rw [hmap] at hl'
    split at hu
    · simp at hu
    · rename_i e
      rcases List.mem_append.1 hl' with h1 | h1
      · exact h.clsNone u hu l' h1 hs
      · simp only [List.mem_singleton] at h1
        subst h1
        simp only [hs, true_and] at e
        simpa using e
  · intro tr htr
    rw [hmap]
    rcases i4 tr htr with h1 | h1
    · obtain ⟨l', h2, h3⟩ := h.chars tr h1
      exact ⟨l', List.mem_append_left _ h2, h3⟩
    · exact ⟨l, by simp, h1⟩

theorem litsInv_build (ls : List (Lit × Nat)) : LitsInv ls (buildLits ls) := by
  have gen : ∀ (ls pre : List (Lit × Nat)) (t : Trie), LitsInv pre t →
      LitsInv (pre ++ ls) (ls.foldl (fun (st : Trie × Nat) p =>
        (st.1.insertLit p.1 st.2 p.2, st.2 + (if p.1.kw.isSome then 1 else 0)))
          (t, (litClasses (pre.map (·.1))).length)).1 := by
    intro ls
    induction ls with
    | nil => intro pre t h; simpa using h
    | cons l ls ih =>
      intro pre t h
      rw [List.foldl_cons]
      have := ih (pre ++ [l]) _ (litsInv_step h l.1 l.2)
      rw [List.append_assoc, List.singleton_append] at this
      have hlen : (litClasses ((pre ++ [l]).map (·.1))).length =
          (litClasses (pre.map (·.1))).length + (if l.1.kw.isSome then 1 else 0) := by
        unfold litClasses; rw [List.map_append, List.filterMap_append]; cases hk : l.1.kw <;> simp [hk]
      rw [hlen] at this
      exact this
  have h0 : LitsInv [] Trie.empty := by
    refine ⟨Trie.inv_empty, ?_, ?_, ?_, ?_⟩
    · intro u v
      have : Trie.empty.valAt u = none := by
        unfold Trie.valAt
        cases u with
        | nil => rfl
        | cons c u => simp [Trie.walk, Trie.step, Trie.nodeTransitions, Trie.empty]
      simp [this, lastVal]
    · intro u i hi
      have : Trie.empty.clsAt u = none := by
        unfold Trie.clsAt
        cases u with
        | nil => rfl
        | cons c u => simp [Trie.walk, Trie.step, Trie.nodeTransitions, Trie.empty]
      rw [this] at hi; simp at hi
    · intro _ _ l hl; simp at hl
    · intro tr htr; simp [Trie.empty] at htr
  exact gen ls [] Trie.empty h0

theorem lits_accept {ls : List (Lit × Nat)} (hcons : SetConsistent (ls.map (·.1))) {w rest : List Nat} {v : Nat} :
    (buildLits ls).Accept (litClasses (ls.map (·.1))) 0 w rest v ↔
      lastVal ls w v ∧ ∃ l ∈ ls.map (·.1), l.str = w ∧ ∀ f, l.kw = some f → f rest = false := by
  have h := litsInv_build ls
  rw [Trie.accept_root, h.val]
  constructor
  · rintro ⟨h0, h3⟩
    have h0' := h0
    obtain ⟨i, l, g1, g2, _⟩ := h0'
    have hl : l ∈ ls.map (·.1) := List.mem_map.2 ⟨_, List.mem_of_getElem? g1, rfl⟩
    refine ⟨h0, l, hl, g2, ?_⟩
    intro f hf
    cases hc : (buildLits ls).clsAt w with
    | none => rw [h.clsNone w hc l hl g2] at hf; simp at hf
    | some i =>
      obtain ⟨l', k1, g, k2, k3, k4⟩ := h.cls w i hc
      have := hcons l hl l' k1 (g2.trans k2.symm)
      rw [hf, k3] at this
      simp only [Option.some.injEq] at this
      rw [this]; exact h3 i g hc k4
  · rintro ⟨h0, l, h1, h2, h3⟩
    refine ⟨h0, ?_⟩
    intro i f hi hf
    obtain ⟨l', g1, g, g2, g3, g4⟩ := h.cls w i hi
    rw [hf] at g4
    simp only [Option.some.injEq] at g4
    subst g4
    have := hcons l h1 l' g1 (h2.trans g2.symm)
    rw [g3] at this
    exact h3 f this

theorem exists_lastVal {ls : List (Lit × Nat)} {l : Lit} (h : l ∈ ls.map (·.1)) : ∃ v, lastVal ls l.str v := by
  obtain ⟨i, hi⟩ : ∃ i : Nat, (∃ p, ls[i]? = some p ∧ p.1.str = l.str) ∧
      ∀ j : Nat, i < j → ¬ ∃ p, ls[j]? = some p ∧ p.1.str = l.str := by
    obtain ⟨p, hp, rfl⟩ := List.mem_map.1 h
    obtain ⟨k, hk⟩ := List.getElem?_of_mem hp
    have : ∀ n (k : Nat), n = ls.length - k → (∃ q, ls[k]? = some q ∧ q.1.str = p.1.str) →
        ∃ i : Nat, (∃ q, ls[i]? = some q ∧ q.1.str = p.1.str) ∧
        ∀ j : Nat, i < j → ¬ ∃ q, ls[j]? = some q ∧ q.1.str = p.1.str := by
      intro n
      induction n using Nat.strongRecOn with
      | _ n ih =>
        intro k hn hk
        by_cases hex : ∃ j : Nat, k < j ∧ ∃ q, ls[j]? = some q ∧ q.1.str = p.1.str
        · obtain ⟨j, hj, q, hq⟩ := hex
          have := (List.getElem?_eq_some_iff.1 hq.1).1
          exact ih (ls.length - j) (by omega) j rfl ⟨q, hq⟩
        · exact ⟨k, hk, fun j hj hx => hex ⟨j, hj, hx⟩⟩
    exact this _ k rfl ⟨p, hk, rfl⟩
  obtain ⟨⟨p, h1, h2⟩, h3⟩ := hi
  exact ⟨p.2, i, p.1, h1, h2, fun j q hj hq hs => h3 j hj ⟨q, hq, hs⟩⟩

/-- The trie finds the longest literal that matches, and the value of the last literal with this spelling. -/
theorem litTrie_spec (ls : List (Lit × Nat)) (hcons : SetConsistent (ls.map (·.1))) (eof : Option Nat)
    (fold : Nat → Nat) (hfold : ∀ u, fold (fold u) = fold u)
    (heof : ∀ l ∈ ls, ∀ c ∈ l.1.str, eof ≠ some c) (s : List Nat) :
    ∃ r, (buildLits ls).tryMatch (litClasses (ls.map (·.1))) eof fold fold 0 s = some r ∧
      (∀ v n, r = some (v, n) ↔ (∃ l ∈ ls.map (·.1), l.Matches (s.map fold) ∧ l.str.length = n ∧ lastVal ls l.str v) ∧
        ∀ l ∈ ls.map (·.1), l.Matches (s.map fold) → l.str.length ≤ n) ∧
      (r = none ↔ ∀ l ∈ ls.map (·.1), ¬ l.Matches (s.map fold)) := by
  have hinv := litsInv_build ls
  have heof' : ∀ tr ∈ (buildLits ls).trans, eof ≠ some tr.char := by
    intro tr htr
    obtain ⟨l, hl, hc⟩ := hinv.chars tr htr
    obtain ⟨p, hp, rfl⟩ := List.mem_map.1 hl
    exact heof p hp _ hc
  obtain ⟨r, hr, h1, h2⟩ := Trie.tryMatch_spec (litClasses (ls.map (·.1))) eof fold hfold heof' s 0
  simp only [lits_accept hcons] at h1 h2
  have hmatch : ∀ l ∈ ls.map (·.1), l.Matches (s.map fold) → l.str.length ≤ s.length ∧
      (s.map fold).take l.str.length = l.str ∧
      ∃ l' ∈ ls.map (·.1), l'.str = (s.map fold).take l.str.length ∧
        ∀ f, l'.kw = some f → f ((s.map fold).drop l.str.length) = false := by
    intro l hl hm
    have := hm.1.length_le
    have ht := List.prefix_iff_eq_take.1 hm.1
    exact ⟨by simpa using this, ht.symm, l, hl, ht, hm.2⟩
  have hfound : ∀ v n, r = some (v, n) → (∃ l ∈ ls.map (·.1), l.Matches (s.map fold) ∧ l.str.length = n ∧ lastVal ls l.str v) ∧
        ∀ l ∈ ls.map (·.1), l.Matches (s.map fold) → l.str.length ≤ n := by
    intro v n hvn
    obtain ⟨h3, ⟨hv, l, h4, h5, h6⟩, h7⟩ := h2 v n hvn
    have hp := map_take_prefix (by simpa using h3) h5
    refine ⟨⟨l, h4, ⟨hp.1, by rw [hp.2]; exact h6⟩, hp.2, h5 ▸ hv⟩, ?_⟩
    intro l' hl' hm
    rcases Nat.lt_or_ge n l'.str.length with hlt | hle
    · obtain ⟨a, b, c⟩ := hmatch l' hl' hm
      obtain ⟨v', hv'⟩ := exists_lastVal hl'
      exact absurd ⟨by rw [b]; exact hv', c⟩ (h7 _ hlt a v')
    · exact hle
  have hlast : ∀ u v v', lastVal ls u v → lastVal ls u v' → v = v' := by
    intro u v v' h1 h2
    have a := (hinv.val u v).2 h1
    rw [(hinv.val u v').2 h2] at a
    exact (Option.some.inj a).symm
  have hsome : (∃ l ∈ ls.map (·.1), l.Matches (s.map fold)) → ∃ v n, r = some (v, n) := by
    rintro ⟨l, hl, hm⟩
    cases r with
    | none =>
      obtain ⟨a, b, c⟩ := hmatch l hl hm
      obtain ⟨v', hv'⟩ := exists_lastVal hl
      exact absurd ⟨by rw [b]; exact hv', c⟩ (h1 rfl _ a v')
    | some p => exact ⟨p.1, p.2, rfl⟩
  refine ⟨r, hr, fun v n => ⟨hfound v n, ?_⟩, ?_, ?_⟩
  · rintro ⟨⟨l, hl, hm, hn, hv⟩, hmax⟩
    obtain ⟨v', n', hr'⟩ := hsome ⟨l, hl, hm⟩
    obtain ⟨⟨l', k1, k2, k3, k4⟩, k5⟩ := hfound v' n' hr'
    have e1 := k5 l hl hm
    have e2 := hmax l' k1 k2
    have hn' : n' = n := by omega
    have hs : l'.str = l.str := by
      rw [List.prefix_iff_eq_take.1 k2.1, List.prefix_iff_eq_take.1 hm.1, k3, hn, hn']
    rw [hs] at k4
    rw [hr', hn', hlast _ _ _ k4 hv]
  · intro hn l hl hm
    obtain ⟨v, n, h⟩ := hsome ⟨l, hl, hm⟩
    rw [hn] at h; cases h
  · intro hno
    cases r with
    | none => rfl
    | some p =>
      obtain ⟨⟨l', k1, k2, _⟩, _⟩ := hfound p.1 p.2 rfl
      exact absurd k2 (hno l' k1)

end Verif
