import Verif.CaseFold
import Verif.CodePointProps

/-
C63: Unicode case folding of literals, literal sets and strings.
-/

namespace Verif

section
variable {e : Enc} {cf : Nat → Nat} {s : List Nat}

/-- What the reader delivers, before the first error that has no extent. -/
def foldStream (e : Enc) (cf : Nat → Nat) (s : List Nat) : List Nat :=
  if _h : 0 < (parseCp e s).len ∧ s ≠ [] then
    (if (parseCp e s).error = .success then encodeCp e (cf (parseCp e s).cp) else s.take (parseCp e s).len)
      ++ foldStream e cf (s.drop (parseCp e s).len)
  else []
termination_by s.length
decreasing_by
  have : 0 < s.length := List.length_pos_iff.2 _h.2
  simp; omega

theorem encodeCp_ne_nil (e : Enc) (v : Nat) : encodeCp e v ≠ [] := by
  cases e
  · simp [encodeCp, encodeAscii]
  · simp only [encodeCp, encodeUtf8]; split
    · simp
    split
    · simp
    split <;> simp
  · simp only [encodeCp, encodeUtf16]; split <;> simp
  · simp [encodeCp, encodeUtf32]

theorem encodeCp_length (e : Enc) (v : Nat) : (encodeCp e v).length ≤ 4 := by
  cases e
  · simp [encodeCp, encodeAscii]
  · simp only [encodeCp, encodeUtf8]; split
    · simp
    split
    · simp
    split <;> simp
  · simp only [encodeCp, encodeUtf16]; split <;> simp
  · simp [encodeCp, encodeUtf32]

/-- The units that `parse_code_point` can see. -/
def seen (e : Enc) (s : List Nat) : List Nat := (s.take 4).takeWhile fun u => !(e.eofUnit == some u)

theorem seen_prefix : seen e s <+: s := (List.takeWhile_prefix _).trans (List.take_prefix _ _)

theorem drop_eq_cons {p : Nat} (h : p < s.length) : s.drop p = s[p] :: s.drop (p + 1) :=
  List.drop_eq_getElem_cons h

theorem ahead_base (k : Nat) : ∀ p, p ≤ s.length →
    (baseOps e.eofUnit s).ahead k p = some (((s.drop p).take k).takeWhile fun u => !(e.eofUnit == some u)) := by
  induction k with
  | zero => intro p hp; simp [RdOps.ahead]
  | succ k ih =>
    intro p hp
    rcases Nat.lt_or_ge p s.length with h | h
    · rw [drop_eq_cons h, List.take_succ_cons, List.takeWhile_cons]
      simp only [RdOps.ahead, baseOps, List.getElem?_eq_getElem h]
      by_cases c : e.eofUnit = some s[p]
      · simp [c]
      · have := ih (p + 1) (by omega)
        simp only [baseOps] at this
        simp [c, h, this]
    · have : s.drop p = [] := List.drop_eq_nil_of_le h
      simp [RdOps.ahead, baseOps, List.getElem?_eq_none h, this]

theorem advance_base (k : Nat) : ∀ p, p + k ≤ s.length →
    (baseOps e.eofUnit s).advance k p = some (p + k) := by
  induction k with
  | zero => intro p _; simp [RdOps.advance]
  | succ k ih =>
    intro p hp
    have := ih (p + 1) (by omega)
    simp only [RdOps.advance]
    have hb : (baseOps e.eofUnit s).bump p = some (p + 1) := by simp [baseOps]; omega
    simp only [hb, this]; congr 1; omega

theorem collect_base (n : Nat) : ∀ k p, p + k ≤ s.length → k ≤ n →
    (∀ i, p ≤ i → i < p + k → ∀ u, s[i]? = some u → e.eofUnit ≠ some u) →
    (baseOps e.eofUnit s).collect (p + k) n p = some ((s.drop p).take k, p + k) := by
  induction n with
  | zero => intro k p h hk _; have : k = 0 := by omega
            subst this; simp [RdOps.collect, baseOps]
  | succ n ih =>
    intro k p h hk hu
    simp only [RdOps.collect]
    by_cases hz : k = 0
    · subst hz; simp [baseOps]
    · have hlt : p < s.length := by omega
      have hne := hu p (by omega) (by omega) s[p] (List.getElem?_eq_getElem hlt)
      have hc : (baseOps e.eofUnit s).current p = p := rfl
      have hp : (baseOps e.eofUnit s).peek p = some s[p] := by
        simp [baseOps, List.getElem?_eq_getElem hlt, hne]
      have hb : (baseOps e.eofUnit s).bump p = some (p + 1) := by simp [baseOps]; omega
      rw [hc, if_neg (by omega)]
      simp only [hp, hb]
      have := ih (k - 1) (p + 1) (by omega) (by omega) (fun i h1 h2 => hu i (by omega) (by omega))
      rw [show p + 1 + (k - 1) = p + k by omega] at this
      rw [this, drop_eq_cons hlt]
      simp only [Option.map_some, Option.some.injEq, Prod.mk.injEq, and_true]
      rw [show k = (k - 1) + 1 by omega, List.take_succ_cons]
      simp

/-- What the proofs need to know about the decoder for the text `s`. -/
structure DecOk (e : Enc) (s : List Nat) : Prop where
  units : Units e.bound s
  seen : ∀ p, parseCp e (Verif.seen e (s.drop p)) = parseCp e (s.drop p)
  sound : ∀ p, (parseCp e (s.drop p)).error = .success →
    Spec.Faithful e (parseCp e (s.drop p)).cp ∧
      (s.drop p).take (parseCp e (s.drop p)).len = encodeCp e (parseCp e (s.drop p)).cp
  bad : ∀ p r, (parseCp e (s.drop p)).error ≠ .success → 0 < (parseCp e (s.drop p)).len → Units e.bound r →
    (parseCp e r).error ≠ .leadsWithTrailing →
    (parseCp e ((s.drop p).take (parseCp e (s.drop p)).len ++ r)).error ≠ .success

/-- What the reader has filled into its buffer at a position. -/
def piece (e : Enc) (cf : Nat → Nat) (s : List Nat) : List Nat :=
  if (parseCp e s).error = .success then encodeCp e (cf (parseCp e s).cp) else s.take (parseCp e s).len

theorem foldStream_eq : foldStream e cf s = if 0 < (parseCp e s).len ∧ s ≠ [] then
    piece e cf s ++ foldStream e cf (s.drop (parseCp e s).len) else [] := by
  rw [foldStream]; simp only [piece]; split <;> rfl

theorem len_le_seen (h : DecOk e s) (p : Nat) :
    (parseCp e (s.drop p)).len ≤ (seen e (s.drop p)).length := by
  rw [← h.seen p]
  exact parseCp_len_le e _ (fun u hu => (h.units.drop p) u (seen_prefix.subset hu))

theorem fill_base (h : DecOk e s) {p : Nat} (hp : p ≤ s.length) :
    foldFill e cf (baseOps e.eofUnit s) p
      = some ⟨p + (parseCp e (s.drop p)).len, p, piece e cf (s.drop p)⟩ := by
  have hlen := len_le_seen h p
  have hle : (seen e (s.drop p)).length ≤ s.length - p := by
    have := (seen_prefix (e := e) (s := s.drop p)).length_le
    simpa using this
  have h4 : (seen e (s.drop p)).length ≤ 4 := by
    have := (List.takeWhile_prefix (l := (s.drop p).take 4) fun u => !(e.eofUnit == some u)).length_le
    simp only [List.length_take] at this
    unfold seen; omega
  have hparse : (baseOps e.eofUnit s).parseCp e p
      = some (parseCp e (s.drop p), p + (parseCp e (s.drop p)).len) := by
    unfold RdOps.parseCp
    rw [ahead_base 4 p hp]
    have hs := h.seen p
    unfold seen at hs
    simp only [hs]
    rw [advance_base _ p (by omega)]
    rfl
  unfold foldFill piece
  rw [hparse]
  by_cases c : (parseCp e (s.drop p)).error = .success
  · simp only [c, if_true]; rfl
  · simp only [c, if_false]
    rw [collect_base 4 _ p (by omega) (by omega)]
    · rfl
    · intro i h1 h2 u hu
      have hi : i - p < (seen e (s.drop p)).length := by omega
      have hget : (seen e (s.drop p))[i - p]? = some u := by
        obtain ⟨t, ht⟩ := seen_prefix (e := e) (s := s.drop p)
        have : (s.drop p)[i - p]? = some u := by
          rw [List.getElem?_drop, show p + (i - p) = i by omega, hu]
        rw [← ht, List.getElem?_append_left hi] at this
        exact this
      have hm := List.mem_of_getElem? hget
      unfold seen at hm
      have hall := List.all_takeWhile (p := fun u => !(e.eofUnit == some u)) (l := (s.drop p).take 4)
      rw [List.all_eq_true] at hall
      have := hall u hm
      simpa using this

/-- A reader that is in step with the text. -/
structure FOk (e : Enc) (cf : Nat → Nat) (s : List Nat) (r : FoldRd Nat) : Prop where
  le : r.impl ≤ s.length
  buf : r.buf = [] → foldStream e cf (s.drop r.impl) = []

/-- What it will deliver. -/
def FoldRd.left (e : Enc) (cf : Nat → Nat) (s : List Nat) (r : FoldRd Nat) : List Nat :=
  r.buf ++ foldStream e cf (s.drop r.impl)

theorem success_len (hs : Units e.bound s) (h : (parseCp e s).error = .success) : 0 < (parseCp e s).len := by
  rcases Nat.eq_zero_or_pos (parseCp e s).len with h0 | h0
  · rcases parseCp_len_pos e s hs h0 with h' | h'
    · rw [h] at h'; simp at h'
    · rw [h] at h'; simp at h'
  · exact h0

theorem fill_ok (h : DecOk e s) {p : Nat} (hp : p ≤ s.length) :
    ∃ r, foldFill e cf (baseOps e.eofUnit s) p = some r ∧ FOk e cf s r ∧ r.cur = p
      ∧ r.impl = p + (parseCp e (s.drop p)).len ∧ r.buf = piece e cf (s.drop p)
      ∧ r.left e cf s = foldStream e cf (s.drop p) := by
  refine ⟨_, fill_base h hp, ?_, rfl, rfl, rfl, ?_⟩
  all_goals have hlen := parseCp_len_le e (s.drop p) (h.units.drop p)
  all_goals simp only [List.length_drop] at hlen
  · constructor
    · simp only; omega
    · intro hb
      simp only at hb ⊢
      rcases Nat.eq_zero_or_pos (parseCp e (s.drop p)).len with h0 | h0
      · simp [h0, foldStream_eq]
      · exfalso
        unfold piece at hb
        split at hb
        · exact encodeCp_ne_nil _ _ hb
        · have := congrArg List.length hb
          simp at this; omega
  · unfold FoldRd.left
    simp only
    rcases Nat.eq_zero_or_pos (parseCp e (s.drop p)).len with h0 | h0
    · have hne : (parseCp e (s.drop p)).error ≠ .success := fun hx => by
        have := success_len (h.units.drop p) hx; omega
      simp [piece, hne, h0, foldStream_eq]
    · have hne : s.drop p ≠ [] := by
        intro hx; have := congrArg List.length hx; simp at this; omega
      conv => rhs; rw [foldStream_eq, if_pos ⟨h0, hne⟩]
      rw [List.drop_drop]

theorem fbump (h : DecOk e s) {r : FoldRd Nat} (hr : FOk e cf s r) {u : Nat} {us : List Nat}
    (hl : r.left e cf s = u :: us) :
    ∃ r', (foldOps e cf (baseOps e.eofUnit s)).bump r = some r' ∧ FOk e cf s r' ∧ r'.left e cf s = us := by
  unfold FoldRd.left at hl
  obtain ⟨impl, cur, buf⟩ := r
  match buf with
  | [] => simp only [List.nil_append] at hl; rw [hr.buf rfl] at hl; simp at hl
  | [a] =>
    obtain ⟨r', h1, h2, -, -, -, h3⟩ := fill_ok (cf := cf) h hr.le
    refine ⟨r', h1, h2, ?_⟩
    rw [h3]; simp only [List.cons_append, List.nil_append, List.cons.injEq] at hl; exact hl.2
  | a :: b :: t =>
    refine ⟨⟨impl, cur, b :: t⟩, rfl, ⟨hr.le, by simp⟩, ?_⟩
    simp only [List.cons_append, List.cons.injEq] at hl
    simp [FoldRd.left, ← hl.2]

theorem fpeek {r : FoldRd Nat} (hr : FOk e cf s r) :
    (foldOps e cf (baseOps e.eofUnit s)).peek r = (r.left e cf s).head? := by
  obtain ⟨impl, cur, buf⟩ := r
  cases buf with
  | nil => simp [foldOps, FoldRd.left, hr.buf rfl]
  | cons a t => simp [foldOps, FoldRd.left]

theorem matchLit_ok (h : DecOk e s) (lit : List Nat) : ∀ {r : FoldRd Nat}, FOk e cf s r →
    ∃ ok r', (foldOps e cf (baseOps e.eofUnit s)).matchLit lit r = some (ok, r') ∧ FOk e cf s r'
      ∧ (ok = true ↔ lit <+: r.left e cf s) := by
  induction lit with
  | nil => intro r hr; exact ⟨true, r, rfl, hr, by simp⟩
  | cons c lit ih =>
    intro r hr
    simp only [RdOps.matchLit]
    rw [fpeek hr]
    cases hl : r.left e cf s with
    | nil => exact ⟨false, r, by simp, hr, by simp⟩
    | cons u us =>
      obtain ⟨r', h1, h2, h3⟩ := fbump h hr hl
      by_cases c' : u = c
      · subst c'
        obtain ⟨ok, r'', a, b, d⟩ := ih h2
        refine ⟨ok, r'', ?_, b, ?_⟩
        · simp [h1, a]
        · rw [d, h3]; simp
      · refine ⟨false, r, by simp [c'], hr, ?_⟩
        simp only [Bool.false_eq_true, false_iff]
        intro hx
        rw [List.cons_prefix_cons] at hx
        exact c' hx.1.symm

theorem matchLit_append {σ : Type} (O : RdOps σ) (a b : List Nat) : ∀ r r', O.matchLit a r = some (true, r') →
    O.matchLit (a ++ b) r = O.matchLit b r' := by
  induction a with
  | nil => intro r r' h; simp [RdOps.matchLit] at h; simp [h]
  | cons c a ih =>
    intro r r' h
    simp only [RdOps.matchLit, List.cons_append] at h ⊢
    split at h
    · rename_i hp
      rw [if_pos hp]
      cases hb : O.bump r with
      | none => rw [hb] at h; simp at h
      | some q => rw [hb] at h; exact ih q r' h
    · simp at h

/-- Reading the whole buffer refills it at the next code point. -/
theorem matchLit_buf (h : DecOk e s) : ∀ (b : List Nat) (r : FoldRd Nat), FOk e cf s r → r.buf = b → b ≠ [] →
    ∃ r', foldFill e cf (baseOps e.eofUnit s) r.impl = some r' ∧
      (foldOps e cf (baseOps e.eofUnit s)).matchLit b r = some (true, r') := by
  intro b
  induction b with
  | nil => intro r _ _ h; exact absurd rfl h
  | cons a t ih =>
    intro r hr hb _
    obtain ⟨impl, cur, buf⟩ := r
    subst hb
    cases t with
    | nil =>
      obtain ⟨r', h1, -⟩ := fill_ok (cf := cf) h hr.le
      exact ⟨r', h1, by simp [RdOps.matchLit, foldOps, h1]⟩
    | cons b t =>
      obtain ⟨r', h1, h2⟩ := ih ⟨impl, cur, b :: t⟩ ⟨hr.le, by simp⟩ rfl (by simp)
      refine ⟨r', h1, ?_⟩
      rw [RdOps.matchLit]
      have hp : (foldOps e cf (baseOps e.eofUnit s)).peek ⟨impl, cur, a :: b :: t⟩ = some a := rfl
      have hb' : (foldOps e cf (baseOps e.eofUnit s)).bump ⟨impl, cur, a :: b :: t⟩
        = some ⟨impl, cur, b :: t⟩ := rfl
      simp only [hp, hb', if_true]
      exact h2

/-- Whether a sequence begins with a trailing unit depends on its first unit only. -/
theorem lwt_head (he : e = .utf8 ∨ e = .utf16) {a : Nat} {t t' : List Nat} (h : Units e.bound (a :: t))
    (h' : Units e.bound (a :: t')) (hl : (parseCp e (a :: t)).error ≠ .leadsWithTrailing) :
    (parseCp e (a :: t')).error ≠ .leadsWithTrailing := by
  rcases he with rfl | rfl
  · simp only [parseCp] at hl ⊢
    rw [parseUtf8_eqA h] at hl
    rw [parseUtf8_eqA h']
    have c1 := utf8A_cases ((a :: t)[0]?.getD 0xFF) ((a :: t)[1]?.getD 0xFF) ((a :: t)[2]?.getD 0xFF)
      ((a :: t)[3]?.getD 0xFF)
    have c2 := utf8A_cases ((a :: t')[0]?.getD 0xFF) ((a :: t')[1]?.getD 0xFF) ((a :: t')[2]?.getD 0xFF)
      ((a :: t')[3]?.getD 0xFF)
    dsimp only at c1 c2
    intro hx
    simp only [hx, reduceCtorEq, false_and, false_or, or_false, true_and] at c2
    simp only [hl, false_and, false_or] at c1
    simp only [List.getElem?_cons_zero, Option.getD_some] at c1 c2
    omega
  · simp only [parseCp, parseUtf16] at hl ⊢
    grind

theorem stream_facts (he : e = .utf8 ∨ e = .utf16) (h : DecOk e s)
    (hcf : ∀ v, Spec.Faithful e v → Spec.Faithful e (cf v)) : ∀ n p, s.length - p ≤ n →
    Units e.bound (foldStream e cf (s.drop p)) ∧
      (parseCp e (foldStream e cf (s.drop p))).error ≠ .leadsWithTrailing := by
  intro n
  have hnil : Units e.bound [] ∧ (parseCp e []).error ≠ .leadsWithTrailing := by
    refine ⟨fun u hu => by simp at hu, ?_⟩
    rcases he with rfl | rfl <;> decide
  induction n with
  | zero =>
    intro p hp
    have : s.drop p = [] := List.drop_eq_nil_of_le (by omega)
    rw [this, foldStream_eq]; simpa using hnil
  | succ n ih =>
    intro p hp
    rw [foldStream_eq]
    split
    · rename_i hc
      have hlen := parseCp_len_le e (s.drop p) (h.units.drop p)
      simp only [List.length_drop] at hlen
      have hpos : p < s.length := by
        rcases Nat.lt_or_ge p s.length with hx | hx
        · exact hx
        · exact absurd (List.drop_eq_nil_of_le hx) hc.2
      rw [List.drop_drop]
      obtain ⟨i1, i2⟩ := ih (p + (parseCp e (s.drop p)).len) (by omega)
      by_cases hsuc : (parseCp e (s.drop p)).error = .success
      · have hf := hcf _ (h.sound p hsuc).1
        simp only [piece, hsuc, if_true]
        refine ⟨Units.append (encodeCp_units e _ hf) i1, ?_⟩
        rw [parseCp_encodeCp e _ hf _ i1]; simp
      · simp only [piece, hsuc, if_false]
        have hu : Units e.bound ((s.drop p).take (parseCp e (s.drop p)).len) :=
          fun u hu => h.units.drop p u (List.mem_of_mem_take hu)
        refine ⟨hu.append i1, ?_⟩
        cases hd : s.drop p with
        | nil => exact absurd hd hc.2
        | cons a t =>
          have hlwt : (parseCp e (a :: t)).error ≠ .leadsWithTrailing := by
            intro hx
            have := (parseCp_lwt e (a :: t) (hd ▸ h.units.drop p) hx).1
            rw [hd] at hc; omega
          have hu' := hu.append i1
          rw [hd] at hu' hc
          obtain ⟨m, hm⟩ : ∃ m, (parseCp e (a :: t)).len = m + 1 := ⟨_, (Nat.succ_pred_eq_of_pos hc.1).symm⟩
          rw [hm] at hu' ⊢
          rw [List.take_succ_cons, List.cons_append] at hu' ⊢
          exact lwt_head he (hd ▸ h.units.drop p) hu' hlwt
    · exact hnil

/-- An encoded code point in front determines what is decoded. -/
theorem parse_of_prefix {w : Nat} (hw : Spec.Faithful e w) {t : List Nat} (ht : Units e.bound t)
    (h : encodeCp e w <+: t) : parseCp e t = ⟨w, .success, (encodeCp e w).length⟩ := by
  obtain ⟨r, rfl⟩ := h
  exact parseCp_encodeCp e w hw r (fun u hu => ht u (List.mem_append_right _ hu))

theorem match_fold (he : e = .utf8 ∨ e = .utf16) (h : DecOk e s)
    (hcf : ∀ v, Spec.Faithful e v → Spec.Faithful e (cf v)) (ws : List Nat) : (∀ w ∈ ws, Spec.Faithful e w) →
    ∀ p r, p ≤ s.length → foldFill e cf (baseOps e.eofUnit s) p = some r →
    ∃ ok r', (foldOps e cf (baseOps e.eofUnit s)).matchLit (ws.flatMap (encodeCp e)) r = some (ok, r') ∧
      ∀ n, (ok = true ∧ r'.cur = n) ↔ ∃ vs : List Nat, (∀ v ∈ vs, Spec.Faithful e v) ∧ vs.map cf = ws
        ∧ vs.flatMap (encodeCp e) <+: s.drop p ∧ n = p + (vs.flatMap (encodeCp e)).length := by
  induction ws with
  | nil =>
    intro _ p r hp hr
    obtain ⟨r1, a1, a2, a3, -⟩ := fill_ok (cf := cf) h hp
    rw [hr] at a1; cases a1
    refine ⟨true, r, rfl, fun n => ⟨?_, ?_⟩⟩
    · rintro ⟨-, rfl⟩
      exact ⟨[], by simp, rfl, by simp, by simp [a3]⟩
    · rintro ⟨vs, -, h2, -, rfl⟩
      have : vs = [] := by simpa using h2
      subst this
      simp [a3]
  | cons w ws ih =>
    intro hws p r hp hr
    obtain ⟨r1, a1, a2, a3, a4, a5, a6⟩ := fill_ok (cf := cf) h hp
    rw [hr] at a1; cases a1
    have hw := hws w (by simp)
    obtain ⟨su, -⟩ := stream_facts he h hcf _ p (Nat.le_refl _)
    obtain ⟨ok, r', b1, -, b3⟩ := matchLit_ok h ((w :: ws).flatMap (encodeCp e)) a2
    rw [a6] at b3
    have hlen := parseCp_len_le e (s.drop p) (h.units.drop p)
    simp only [List.length_drop] at hlen
    -- a sequence of code points in the input begins with what is decoded there
    have first : ∀ vs : List Nat, (∀ v ∈ vs, Spec.Faithful e v) → vs.map cf = w :: ws →
        vs.flatMap (encodeCp e) <+: s.drop p →
        ∃ v vs', vs = v :: vs' ∧ parseCp e (s.drop p) = ⟨v, .success, (encodeCp e v).length⟩ ∧ cf v = w
          ∧ vs'.map cf = ws := by
      intro vs f1 f2 f3
      cases vs with
      | nil => simp at f2
      | cons v vs' =>
        simp only [List.map_cons, List.cons.injEq] at f2
        refine ⟨v, vs', rfl, ?_, f2.1, f2.2⟩
        refine parse_of_prefix (f1 v (by simp)) (h.units.drop p) ?_
        rw [List.flatMap_cons] at f3
        exact (List.prefix_append _ _).trans f3
    by_cases hsuc : (parseCp e (s.drop p)).error = .success
    · obtain ⟨s1, s2⟩ := h.sound p hsuc
      generalize hv : (parseCp e (s.drop p)).cp = v at s1 s2
      have s3 : encodeCp e v <+: s.drop p := s2 ▸ List.take_prefix _ _
      have s4 := parse_of_prefix s1 (h.units.drop p) s3
      have hbuf : r.buf = encodeCp e (cf v) := by rw [a5]; simp [piece, hsuc, hv]
      by_cases hcw : cf v = w
      · subst hcw
        obtain ⟨r2, d1, d2⟩ := matchLit_buf h _ r a2 hbuf (encodeCp_ne_nil _ _)
        rw [a4] at d1
        obtain ⟨ok2, r3, e1, e2⟩ := ih (fun x hx => hws x (by simp [hx])) _ r2 (by omega) d1
        refine ⟨ok2, r3, ?_, fun n => ?_⟩
        · rw [List.flatMap_cons, matchLit_append _ _ _ _ _ d2]; exact e1
        · rw [e2 n]
          have hlv : (parseCp e (s.drop p)).len = (encodeCp e v).length := by rw [s4]
          constructor
          · rintro ⟨vs, g1, g2, g3, g4⟩
            refine ⟨v :: vs, ?_, by simp [g2], ?_, ?_⟩
            · intro x hx
              rcases List.mem_cons.1 hx with rfl | hx
              · exact s1
              · exact g1 x hx
            · obtain ⟨t, ht⟩ := g3
              refine ⟨t, ?_⟩
              rw [List.flatMap_cons, List.append_assoc, ht, ← List.drop_drop, hlv]
              obtain ⟨t', ht'⟩ := s3
              rw [← ht', List.drop_left]
            · rw [g4, List.flatMap_cons, List.length_append, hlv]; omega
          · rintro ⟨vs, g1, g2, g3, g4⟩
            obtain ⟨v', vs', rfl, q1, q2, q3⟩ := first vs g1 g2 g3
            rw [s4] at q1
            have : v = v' := by simpa using congrArg CpResult.cp q1
            subst this
            refine ⟨vs', fun x hx => g1 x (by simp [hx]), q3, ?_, ?_⟩
            · rw [← List.drop_drop, hlv]
              obtain ⟨t, ht⟩ := g3
              refine ⟨t, ?_⟩
              rw [← ht, List.flatMap_cons, List.append_assoc, List.drop_left]
            · rw [g4, List.flatMap_cons, List.length_append, hlv]; omega
      · refine ⟨ok, r', b1, fun n => ⟨?_, ?_⟩⟩
        · rintro ⟨hok, -⟩
          exfalso
          have hpre := b3.1 hok
          rw [List.flatMap_cons] at hpre
          have q1 := parse_of_prefix hw su ((List.prefix_append _ _).trans hpre)
          have hst : encodeCp e (cf v) <+: foldStream e cf (s.drop p) := by
            rw [← a6, FoldRd.left, hbuf]; exact List.prefix_append _ _
          have q2 := parse_of_prefix (hcf v s1) su hst
          rw [q1] at q2
          exact hcw (by simpa using (congrArg CpResult.cp q2).symm)
        · rintro ⟨vs, g1, g2, g3, g4⟩
          exfalso
          obtain ⟨v', vs', rfl, q1, q2, q3⟩ := first vs g1 g2 g3
          rw [s4] at q1
          have : v = v' := by simpa using congrArg CpResult.cp q1
          subst this
          exact hcw q2
    · refine ⟨ok, r', b1, fun n => ⟨?_, ?_⟩⟩
      · rintro ⟨hok, -⟩
        exfalso
        have hpre := b3.1 hok
        rw [List.flatMap_cons] at hpre
        have q1 := parse_of_prefix hw su ((List.prefix_append _ _).trans hpre)
        rw [foldStream_eq] at q1
        split at q1
        · rename_i hc
          rw [List.drop_drop] at q1
          obtain ⟨u1, u2⟩ := stream_facts he h hcf _ (p + (parseCp e (s.drop p)).len) (Nat.le_refl _)
          have := h.bad p _ hsuc hc.1 u1 u2
          simp only [piece, hsuc, if_false] at q1
          rw [q1] at this
          exact this rfl
        · rcases he with rfl | rfl <;> simp [parseCp, parseUtf8, parseUtf16, peek8] at q1
      · rintro ⟨vs, g1, g2, g3, g4⟩
        exfalso
        obtain ⟨v', vs', rfl, q1, -⟩ := first vs g1 g2 g3
        rw [q1] at hsuc
        exact hsuc rfl

end

/-! ### The decoders -/

theorem seen_utf8 (s : List Nat) (hs : Units 256 s) : parseUtf8 (seen .utf8 s) = parseUtf8 s := by
  rw [parseUtf8_eqA hs, parseUtf8_eqA (fun u hu => hs u (seen_prefix.subset hu))]
  unfold seen
  simp only [Enc.eofUnit]
  rcases s with - | ⟨a, s⟩
  · rfl
  by_cases ha : a = 255
  · subst ha; simp [utf8A]
  have ha' : (255 == a) = false := by simp; omega
  rcases s with - | ⟨b, s⟩
  · simp [ha']
  by_cases hb : b = 255
  · subst hb; simp [ha', utf8A]
  have hb' : (255 == b) = false := by simp; omega
  rcases s with - | ⟨c, s⟩
  · simp [ha', hb']
  by_cases hc : c = 255
  · subst hc; simp [ha', hb', utf8A]
  have hc' : (255 == c) = false := by simp; omega
  rcases s with - | ⟨d, s⟩
  · simp [ha', hb', hc']
  by_cases hd : d = 255
  · subst hd; simp [ha', hb', hc']
  have hd' : (255 == d) = false := by simp; omega
  simp [ha', hb', hc', hd']

theorem bad_utf8 (s r : List Nat) (hs : Units 256 s) (hr : Units 256 r)
    (h1 : (parseUtf8 s).error ≠ .success) (h2 : 0 < (parseUtf8 s).len)
    (h3 : (parseUtf8 r).error ≠ .leadsWithTrailing) :
    (parseUtf8 (s.take (parseUtf8 s).len ++ r)).error ≠ .success := by
  intro hx
  have hl := parseUtf8_len_le s hs
  have hu : Units 256 (s.take (parseUtf8 s).len ++ r) :=
    Units.append (fun u hu => hs u (List.mem_of_mem_take hu)) hr
  have hrt : ¬ (0x80 ≤ r[0]?.getD 0xFF ∧ r[0]?.getD 0xFF < 0xC0) := by
    rw [parseUtf8_eqA hr] at h3
    have := utf8A_cases (r[0]?.getD 0xFF) (r[1]?.getD 0xFF) (r[2]?.getD 0xFF) (r[3]?.getD 0xFF)
    dsimp only at this
    simp only [h3, false_and, false_or] at this
    omega
  have c1 := utf8A_cases (s[0]?.getD 0xFF) (s[1]?.getD 0xFF) (s[2]?.getD 0xFF) (s[3]?.getD 0xFF)
  dsimp only at c1
  rw [← parseUtf8_eqA hs] at c1
  simp only [h1, false_and, false_or] at c1
  -- the units of the new sequence
  have get : ∀ i, (s.take (parseUtf8 s).len ++ r)[i]?.getD 0xFF
      = if i < (parseUtf8 s).len then s[i]?.getD 0xFF else r[i - (parseUtf8 s).len]?.getD 0xFF := by
    intro i
    split
    · rename_i hi
      rw [List.getElem?_append_left (by simp; omega), List.getElem?_take_of_lt hi]
    · rename_i hi
      rw [List.getElem?_append_right (by simp; omega)]
      simp [Nat.min_eq_left hl]
  have c2 := utf8A_cases ((s.take (parseUtf8 s).len ++ r)[0]?.getD 0xFF)
    ((s.take (parseUtf8 s).len ++ r)[1]?.getD 0xFF) ((s.take (parseUtf8 s).len ++ r)[2]?.getD 0xFF)
    ((s.take (parseUtf8 s).len ++ r)[3]?.getD 0xFF)
  dsimp only at c2
  rw [← parseUtf8_eqA hu] at c2
  simp only [hx, reduceCtorEq, false_and, or_false, true_and] at c2
  simp only [get] at c2
  generalize parseUtf8 (s.take (parseUtf8 s).len ++ r) = R at c2
  generalize (parseUtf8 s).len = n at *
  clear get hx h1
  generalize s[0]?.getD 0xFF = a at *
  generalize s[1]?.getD 0xFF = b at *
  generalize s[2]?.getD 0xFF = c at *
  generalize s[3]?.getD 0xFF = d at *
  have hn : n = 1 ∨ n = 2 ∨ n = 3 ∨ n = 4 := by omega
  rcases hn with rfl | rfl | rfl | rfl
  all_goals simp at c2
  all_goals omega

theorem decOk_utf8 {s : List Nat} (hs : Units 256 s) : DecOk .utf8 s where
  units := hs
  seen p := seen_utf8 _ (hs.drop p)
  sound p h := by
    obtain ⟨h1, -, h2⟩ := C02_utf8_decode_sound _ (hs.drop p) h
    refine ⟨h1, ?_⟩
    simp only [parseCp, encodeCp]
    rw [encodeUtf8_eq_spec h1.1]; exact h2
  bad p r h1 h2 h3 h4 := bad_utf8 _ r (hs.drop p) h3 h1 h2 h4

/-- In UTF-16: no high surrogate of a plane with an even number (which the decoder gets wrong, see C03). -/
def Spec.OddPlanes (s : List Nat) : Prop := ∀ u ∈ s, 0xD800 ≤ u → u < 0xDC00 → (u - 0xD800) / 64 % 2 = 0

theorem decOk_utf16 {s : List Nat} (hs : Units 65536 s) (hp : Spec.OddPlanes s) : DecOk .utf16 s where
  units := hs
  seen p := by
    generalize s.drop p = t
    unfold seen
    have : ∀ l : List Nat, l.takeWhile (fun u => !(Enc.utf16.eofUnit == some u)) = l := by
      intro l; induction l with
      | nil => rfl
      | cons a l ih => simp [Enc.eofUnit] at ih ⊢; exact ih
    rw [this]
    match t with
    | [] => rfl
    | [_] => rfl
    | _ :: _ :: _ => simp [parseCp, parseUtf16]
  sound p h := by
    have hu : Units 65536 (s.drop p) := hs.drop p
    have ho : Spec.OddPlanes (s.drop p) := fun u hu => hp u (List.mem_of_mem_drop hu)
    generalize s.drop p = t at *
    simp only [parseCp] at h ⊢
    match t, hu, ho with
    | [], _, _ => simp [parseUtf16] at h
    | [u], hu, _ =>
      have hu' : u < 65536 := hu u (by simp)
      by_cases c : 0xD800 ≤ u ∧ u ≤ 0xDFFF
      · unfold parseUtf16 at h
        simp only [and_FC00 u hu'] at h
        split at h
        · simp at h
        · rw [if_pos (by omega)] at h; simp at h
      · rw [parseUtf16_single u [] hu' c]
        refine ⟨⟨⟨by simp; omega, by simpa using c⟩, .inl hu'⟩, ?_⟩
        simp only [encodeCp]
        rw [encodeUtf16_eq_spec]
        unfold Spec.utf16; rw [if_pos (by simpa using hu')]; rfl
    | u :: l :: t, hu, ho =>
      have hu' : u < 65536 := hu u (by simp)
      have hl' : l < 65536 := hu l (by simp)
      have hou := ho u (by simp)
      by_cases c : 0xD800 ≤ u ∧ u ≤ 0xDFFF
      · unfold parseUtf16 at h
        simp only [and_FC00 u hu', and_FC00 l hl'] at h
        split at h
        · split at h
          · simp at h
          · have hpair := parseUtf16_pair u l t (by omega) (by omega) (by omega) (by omega)
            rw [or_10000, if_neg (by have := hou (by omega) (by omega); omega)] at hpair
            have := hou (by omega) (by omega)
            rw [hpair]
            simp only [Spec.Faithful, Spec.IsScalar]
            refine ⟨⟨⟨?_, ?_⟩, ?_⟩, ?_⟩
            · omega
            · omega
            · omega
            · simp only [encodeCp]
              rw [encodeUtf16_eq_spec]
              unfold Spec.utf16
              rw [if_neg (by omega)]
              simp; omega
        · rw [if_pos (by omega)] at h; simp at h
      · rw [parseUtf16_single u _ hu' c]
        refine ⟨⟨⟨by simp; omega, by simpa using c⟩, .inl hu'⟩, ?_⟩
        simp only [encodeCp]
        rw [encodeUtf16_eq_spec]
        unfold Spec.utf16; rw [if_pos (by simpa using hu')]; rfl
  bad p r h1 h2 h3 h4 := by
    generalize s.drop p = t at *
    simp only [parseCp] at *
    unfold parseUtf16 at h1 h2 h4 ⊢
    grind

end Verif
