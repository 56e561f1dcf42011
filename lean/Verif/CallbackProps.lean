import Verif.Callback
import Verif.CaseFoldThms

/-
C55: the sinks and callbacks compute what their names say, in the order of the values.
C71: `lexy::bind`.  C72: `as_integer`.
-/

namespace Verif.Cb

variable {α β τ κ ν μ σ : Type}

/-! ### Lists -/

theorem pushBack_items (v : Vec α) (x : α) : (v.pushBack x).items = v.items ++ [x] := by
  unfold Vec.pushBack; split <;> rfl

theorem pushAll_items (xs : List α) : ∀ v : Vec α, (xs.foldl Vec.pushBack v).items = v.items ++ xs := by
  induction xs with
  | nil => simp
  | cons x xs ih => intro v; rw [List.foldl_cons, ih, pushBack_items]; simp

theorem reserve_items (v : Vec α) (n : Nat) : (v.reserve n).items = v.items := by
  unfold Vec.reserve; split <;> rfl

/-- With enough capacity, nothing is allocated. -/
theorem pushAll_cap (xs : List α) : ∀ v : Vec α, v.items.length + xs.length ≤ v.cap →
    xs.foldl Vec.pushBack v = ⟨v.items ++ xs, v.cap, v.allocs⟩ := by
  induction xs with
  | nil => intro v _; simp
  | cons x xs ih =>
    intro v h
    simp only [List.length_cons] at h
    have e : v.pushBack x = ⟨v.items ++ [x], v.cap, v.allocs⟩ := by
      unfold Vec.pushBack; rw [if_pos (by omega)]
    rw [List.foldl_cons, e, ih _ (by simp; omega)]
    simp

/-- C55, lists: the sink `as_list` produces the values in order; the callback produces its arguments in order and
    allocates at most once; `nullopt` gives an empty list and an existing list is unchanged. -/
theorem C55_list (xs : List α) (c : Vec α) :
    (asListSink.run xs).items = xs ∧ (asList (.elems xs)).items = xs ∧ (asList (.elems xs)).allocs ≤ 1
      ∧ (asList (α := α) .nullopt).items = [] ∧ asList (.container c) = c := by
  refine ⟨?_, ?_, ?_, rfl, rfl⟩
  · simp [Sink.run, asListSink, pushAll_items, Vec.empty]
  · simp [asList, pushAll_items, reserve_items, Vec.empty]
  · have hr : (Vec.empty.reserve xs.length : Vec α) = ⟨[], xs.length, (Vec.empty.reserve xs.length : Vec α).allocs⟩ ∧
        (Vec.empty.reserve xs.length : Vec α).allocs ≤ 1 := by
      unfold Vec.reserve Vec.empty
      by_cases h : xs.length ≤ 0
      · have h0 : xs.length = 0 := by omega
        simp [h0]
      · simp [h]
    simp only [asList]
    rw [pushAll_cap xs _ (by rw [hr.1]; simp)]
    exact hr.2

/-! ### Collections -/

theorem find_append (m : List (κ × ν)) (p : κ × ν → Bool) (kv : κ × ν) :
    (m ++ [kv]).find? p = (m.find? p).or (if p kv then some kv else none) := by
  rw [List.find?_append]; congr 1
  simp only [List.find?_cons, List.find?_nil]; cases p kv <;> rfl

theorem insertNew_find [DecidableEq κ] (m : List (κ × ν)) (kv : κ × ν) (k : κ) :
    (insertNew m kv).find? (·.1 == k) = (m.find? (·.1 == k)).or (if kv.1 == k then some kv else none) := by
  unfold insertNew
  split
  · rename_i h
    obtain ⟨p, hp, hk⟩ := List.any_eq_true.1 h
    rw [beq_iff_eq] at hk
    by_cases hkk : kv.1 = k
    · have : (m.find? (·.1 == k)).isSome := by
        rw [List.find?_isSome]; exact ⟨p, hp, by simp [hk, hkk]⟩
      cases e : m.find? (·.1 == k) with
      | none => simp [e] at this
      | some q => rfl
    · simp [hkk]
  · exact find_append m _ kv

theorem insertAll_find [DecidableEq κ] (xs : List (κ × ν)) (k : κ) : ∀ m : List (κ × ν),
    (xs.foldl insertNew m).find? (·.1 == k) = (m.find? (·.1 == k)).or (xs.find? (·.1 == k)) := by
  induction xs with
  | nil => simp
  | cons x xs ih =>
    intro m
    rw [List.foldl_cons, ih, insertNew_find, Option.or_assoc, List.find?_cons]
    cases x.1 == k <;> rfl

theorem insertAll_nodup [DecidableEq κ] (xs : List (κ × ν)) : ∀ m : List (κ × ν), (m.map (·.1)).Nodup →
    ((xs.foldl insertNew m).map (·.1)).Nodup := by
  induction xs with
  | nil => simp
  | cons x xs ih =>
    intro m h
    rw [List.foldl_cons]
    apply ih
    unfold insertNew
    split
    · exact h
    · rename_i hx
      rw [List.map_append, List.nodup_append]
      refine ⟨h, by simp, ?_⟩
      intro a ha b hb
      simp only [List.map_cons, List.map_nil, List.mem_singleton] at hb
      subst hb
      intro hab
      obtain ⟨p, hp, rfl⟩ := List.mem_map.1 ha
      exact hx (List.any_eq_true.2 ⟨p, hp, by simp [hab]⟩)

/-- C55, collections: `as_collection`, as sink and as callback, contains every key that was given exactly once,
    with the value that came first. -/
theorem C55_collection [DecidableEq κ] (xs : List (κ × ν)) :
    ((asCollectionSink.run xs).map (·.1)).Nodup ∧
    (∀ k, (asCollectionSink.run xs).find? (·.1 == k) = xs.find? (·.1 == k)) ∧
    asCollection (.elems xs) = asCollectionSink.run xs := by
  refine ⟨insertAll_nodup xs [] (by simp), fun k => ?_, rfl⟩
  show (xs.foldl insertNew []).find? _ = _
  rw [insertAll_find]; simp

/-- The documentation says: "if called with N arguments, the resulting container will contain N items". -/
theorem C55_collection_size_refuted :
    ¬ (∀ xs : List (Nat × Unit), (asCollection (.elems xs)).length = xs.length) := by
  intro h; exact absurd (h [(1, ()), (1, ())]) (by decide)

/-! ### Concatenation -/

theorem concatFold_items (tail : List (Vec α)) : ∀ h : Vec α,
    (tail.foldl (fun h c => c.items.foldl Vec.pushBack h) h).items = h.items ++ (tail.map (·.items)).flatten := by
  induction tail with
  | nil => simp
  | cons c tail ih => intro h; rw [List.foldl_cons, ih, pushAll_items]; simp

theorem concatStep_items (r c : Vec α) : (concatStep r c).items = r.items ++ c.items := by
  unfold concatStep
  split
  · rename_i h; simp [h]
  · simp only [pushAll_items]
    congr 1
    split
    · split <;> rw [reserve_items]
    · rfl

theorem concatSink_items (cs : List (Vec α)) : ∀ r : Vec α,
    (cs.foldl concatStep r).items = r.items ++ (cs.map (·.items)).flatten := by
  induction cs with
  | nil => simp
  | cons c cs ih => intro r; rw [List.foldl_cons, ih, concatStep_items]; simp

/-- What holds of the result of the concatenation sink: it is a valid vector, and its memory was allocated at most
    about log₂ of its size times since it has elements. -/
def Grown (r : Vec α) : Prop :=
  r.items.length ≤ r.cap ∧ (r.items ≠ [] → 2 ^ r.allocs ≤ r.cap ∧ (r.allocs = 0 ∨ r.cap ≤ 2 * r.items.length))

theorem concatStep_grown (r c : Vec α) (hr : Grown r) (hc : c.items.length ≤ c.cap) : Grown (concatStep r c) := by
  unfold concatStep
  split
  · refine ⟨hc, fun hne => ⟨?_, .inl rfl⟩⟩
    have : 0 < c.items.length := List.length_pos_iff.2 hne
    simp only; omega
  · rename_i hne
    obtain ⟨h1, h2⟩ := hr
    obtain ⟨h3, h4⟩ := h2 hne
    have hs1 : r.size = r.items.length := rfl
    have hs2 : c.size = c.items.length := rfl
    simp only
    by_cases ht : r.cap < r.size + c.size
    · rw [if_pos ht]
      by_cases h2c : 2 * r.cap < r.size + c.size
      · rw [if_pos h2c]
        have e : r.reserve (r.size + c.size) = ⟨r.items, r.size + c.size, r.allocs + 1⟩ := by
          unfold Vec.reserve; rw [if_neg (by omega)]
        rw [e, pushAll_cap _ _ (by simp; omega)]
        refine ⟨by simp; omega, fun _ => ⟨?_, .inr (by simp; omega)⟩⟩
        simp only [Nat.pow_succ]; omega
      · rw [if_neg h2c]
        have e : r.reserve (2 * r.cap) = ⟨r.items, 2 * r.cap, r.allocs + 1⟩ := by
          unfold Vec.reserve; rw [if_neg (by omega)]
        rw [e, pushAll_cap _ _ (by simp; omega)]
        refine ⟨by simp; omega, fun _ => ⟨?_, .inr (by simp; omega)⟩⟩
        simp only [Nat.pow_succ]; omega
    · rw [if_neg ht, pushAll_cap _ _ (by omega)]
      refine ⟨by simp; omega, fun _ => ⟨h3, ?_⟩⟩
      rcases h4 with h4 | h4
      · exact .inl h4
      · exact .inr (by simp; omega)

theorem concatSink_grown (cs : List (Vec α)) (hcs : ∀ c ∈ cs, c.items.length ≤ c.cap) : ∀ r : Vec α, Grown r →
    Grown (cs.foldl concatStep r) := by
  induction cs with
  | nil => intro r h; exact h
  | cons c cs ih =>
    intro r h
    rw [List.foldl_cons]
    exact ih (fun c hc => hcs c (by simp [hc])) _ (concatStep_grown r c h (hcs c (by simp)))

/-- C55, concatenation: `concat`, as sink and as callback, produces the elements of all containers in order.  The
    callback allocates at most once more; the sink allocates only logarithmically often since it took over the first
    container that is not empty. -/
theorem C55_concat (cs : List (Vec α)) (hcs : ∀ c ∈ cs, c.items.length ≤ c.cap) :
    (concatSink.run cs).items = (cs.map (·.items)).flatten ∧
    ((concatSink.run cs).items ≠ [] → 2 ^ (concatSink.run cs).allocs ≤ 2 * (concatSink.run cs).items.length ∨
      (concatSink.run cs).allocs = 0) ∧
    ∀ h t, cs = h :: t → (concatCall h t).items = (cs.map (·.items)).flatten ∧ (concatCall h t).allocs ≤ h.allocs + 1 := by
  refine ⟨?_, ?_, ?_⟩
  · simp [Sink.run, concatSink, concatSink_items, Vec.empty]
  · intro hne
    obtain ⟨-, h2⟩ := concatSink_grown cs hcs .empty ⟨by simp [Vec.empty], by simp [Vec.empty]⟩
    obtain ⟨h3, h4⟩ := h2 hne
    rcases h4 with h4 | h4
    · exact .inr h4
    · exact .inl (Nat.le_trans h3 h4)
  · rintro h t rfl
    unfold concatCall
    split
    · simp
    · simp only
      refine ⟨by rw [concatFold_items, reserve_items]; simp, ?_⟩
      -- after `reserve` there is space for everything
      have hsum : ∀ (l : List (Vec α)) (n : Nat), (l.map Vec.size).foldl (· + ·) n
          = n + ((l.map (·.items)).flatten).length := by
        intro l
        induction l with
        | nil => simp
        | cons c l ih => intro n; simp only [List.map_cons, List.foldl_cons, ih]; simp [Vec.size]; omega
      have hfold : ∀ (l : List (Vec α)) (v : Vec α), v.items.length + ((l.map (·.items)).flatten).length ≤ v.cap →
          (l.foldl (fun h c => c.items.foldl Vec.pushBack h) v).allocs = v.allocs := by
        intro l
        induction l with
        | nil => simp
        | cons c l ih =>
          intro v hv
          simp only [List.map_cons, List.flatten_cons, List.length_append] at hv
          rw [List.foldl_cons, pushAll_cap _ _ (by omega)]
          exact ih _ (by simp only [List.length_append]; omega)
      rw [hfold]
      · unfold Vec.reserve; split <;> simp
      · rw [hsum, reserve_items]
        have hs : h.size = h.items.length := rfl
        unfold Vec.reserve
        split
        · omega
        · simp only; omega

example : (concatSink.run [Vec.ofList [1], .ofList [2, 3, 4], .ofList [], .ofList [5]]).items = [1, 2, 3, 4, 5]
    ∧ (concatSink.run [Vec.ofList [1], .ofList [2, 3, 4], .ofList [], .ofList [5]]).allocs = 2 := by decide

/-! ### Collect, fold, count -/

theorem collect_items (cb : α → β) (xs : List α) : ∀ v : Vec β,
    (xs.foldl (fun r x => r.pushBack (cb x)) v).items = v.items ++ xs.map cb := by
  induction xs with
  | nil => simp
  | cons x xs ih => intro v; rw [List.foldl_cons, ih, pushBack_items]; simp

/-- C55, `collect`: the results of the callback in order; for callbacks without result, the callback is called with
    the values in order and they are counted. -/
theorem C55_collect (cb : α → β) (xs : List α) :
    ((collectSink cb).run xs).items = xs.map cb ∧ (collectVoidSink.run xs) = (xs.length, xs) := by
  refine ⟨by simp [Sink.run, collectSink, collect_items, Vec.empty], ?_⟩
  have : ∀ (xs : List α) (r : Nat × List α), xs.foldl (fun r x => (r.1 + 1, r.2 ++ [x])) r
      = (r.1 + xs.length, r.2 ++ xs) := by
    intro xs
    induction xs with
    | nil => simp
    | cons x xs ih => intro r; rw [List.foldl_cons, ih]; simp; omega
  simp [Sink.run, collectVoidSink, this]

/-- C55, `fold` and `count`: the value of `fold` after some values is the operation applied to the value before the
    last one and the last one; `count` is the number of values. -/
theorem C55_fold (init : τ) (op : τ → α → τ) (xs : List α) (x : α) :
    (foldSink init op).run [] = init ∧ (foldSink init op).run (xs ++ [x]) = op ((foldSink init op).run xs) x
      ∧ countSink.run xs = xs.length := by
  refine ⟨rfl, by simp [Sink.run, foldSink], ?_⟩
  have : ∀ (xs : List α) (n : Nat), xs.foldl (fun n _ => n + 1) n = n + xs.length := by
    intro xs
    induction xs with
    | nil => simp
    | cons x xs ih => intro n; rw [List.foldl_cons, ih]; simp; omega
  simp [Sink.run, countSink, foldSink, this]

/-! ### Strings -/

/-- The units an argument stands for. -/
def _root_.Verif.Spec.units (e : Enc) : StrArg → List Nat
  | .char c => [c]
  | .str s | .range s | .lexeme s => s
  | .codePoint cp => Spec.enc e cp

theorem encodeCp_spec (e : Enc) (cp : Nat) (h : cp ≤ 0x10FFFF) (ha : e = .ascii → cp ≤ 0x7F) : encodeCp e cp = Spec.enc e cp := by
  cases e with
  | ascii => have := ha rfl; simp [encodeCp, encodeAscii, Spec.enc]; omega
  | utf8 => exact encodeUtf8_eq_spec h
  | utf16 => exact encodeUtf16_eq_spec cp
  | utf32 => rfl

/-- Code points that are to be encoded are valid (and ASCII for the encoding ASCII). -/
def StrArg.Valid (e : Enc) : StrArg → Prop
  | .codePoint cp => cp ≤ 0x10FFFF ∧ (e = .ascii → cp ≤ 0x7F)
  | _ => True

theorem strStep_units (e : Enc) (r : List Nat) (a : StrArg) (ha : a.Valid e) : strStep e r a = r ++ Spec.units e a := by
  cases a with
  | codePoint cp => simp only [strStep, Spec.units]; rw [encodeCp_spec e cp ha.1 ha.2]
  | _ => rfl

/-- C55, strings: the sink `as_string` concatenates its characters, strings, lexemes and encoded code points in order
    and folds the whole; the callback does the same for a single argument that is not a character. -/
theorem C55_string (e : Enc) (cf : List Nat → Option (List Nat)) (xs : List StrArg) (hxs : ∀ a ∈ xs, a.Valid e) :
    (asStringSink e cf).run xs = cf (xs.flatMap (Spec.units e)) ∧
    ∀ a ∈ xs, (∀ c, a ≠ .char c) → asString e cf (some a) = (asStringSink e cf).run [a] := by
  have key : ∀ (xs : List StrArg) (r : List Nat), (∀ a ∈ xs, a.Valid e) →
      xs.foldl (strStep e) r = r ++ xs.flatMap (Spec.units e) := by
    intro xs
    induction xs with
    | nil => simp
    | cons x xs ih =>
      intro r h
      rw [List.foldl_cons, ih _ fun a ha => h a (by simp [ha]), strStep_units e r x (h x (by simp))]
      simp
  refine ⟨by simp [Sink.run, asStringSink, key xs [] hxs], ?_⟩
  intro a _ hc
  cases a with
  | char c => exact absurd rfl (hc c)
  | _ => rfl

/-- With Unicode case folding, and arguments that are well-formed text, the result is the folding of the whole text. -/
theorem C55_string_folded (cf : Nat → Nat) (hcf : ∀ v, Spec.IsScalar v → Spec.IsScalar (cf v)) (xs : List StrArg)
    (hxs : ∀ a ∈ xs, a.Valid .utf8) (vs : List Nat) (hvs : ∀ v ∈ vs, Spec.IsScalar v)
    (h : xs.flatMap (Spec.units .utf8) = vs.flatMap Spec.utf8) :
    (asStringSink .utf8 (strFold .utf8 cf)).run xs = some ((vs.map cf).flatMap Spec.utf8) := by
  rw [(C55_string .utf8 _ xs hxs).1, h, C63_string_partial cf hcf vs hvs]

-- A code point split over two lexemes: only the whole is folded.
example : (asStringSink .utf8 (strFold .utf8 Ex.cf)).run [.char 0x41, .lexeme [0xC3], .lexeme [0x84], .codePoint 0x212A]
    = some [0x61, 0xC3, 0xA4, 0x6B] := by decide +kernel

/-! ### Aggregates -/

theorem aggregate_with [DecidableEq μ] (ps : List (μ × ν)) : ∀ (t : μ → ν) (m : μ),
    asAggregateWith t ps m = ((ps.reverse.find? (·.1 == m)).map (·.2)).getD (t m) := by
  induction ps with
  | nil => intro t m; rfl
  | cons p ps ih =>
    intro t m
    obtain ⟨k, v⟩ := p
    simp only [asAggregateWith, ih, List.reverse_cons, find_append]
    cases e : ps.reverse.find? (·.1 == m) with
    | some q => rfl
    | none =>
      simp only [Option.map_none, Option.getD_none, Option.none_or, assign]
      by_cases hk : m = k
      · subst hk; simp
      · simp [hk, Ne.symm hk, show (k == m) = false by simp; exact fun h => hk h.symm]

/-- C55, aggregates: each member has the value that was assigned last, and members that were not assigned have
    their default; callback and sink agree; starting with an existing object its other members are kept. -/
theorem C55_aggregate [DecidableEq μ] (dflt : μ → ν) (ps : List (μ × ν)) (m : μ) :
    (asAggregateSink dflt).run ps m = ((ps.reverse.find? (·.1 == m)).map (·.2)).getD (dflt m) ∧
    asAggregate dflt ps = (asAggregateSink dflt).run ps ∧ asAggregateWith dflt ps = (asAggregateSink dflt).run ps := by
  have e : ∀ (ps : List (μ × ν)) (t : μ → ν), asAggregateWith t ps = ps.foldl (fun t mv => assign t mv.1 mv.2) t := by
    intro ps
    induction ps with
    | nil => intro t; rfl
    | cons p ps ih => intro t; obtain ⟨k, v⟩ := p; simp only [asAggregateWith, List.foldl_cons, ih]
  have e' : asAggregateWith dflt ps = (asAggregateSink dflt).run ps := e ps dflt
  refine ⟨by rw [← e', aggregate_with], ?_, e'⟩
  rw [← e']
  cases ps with
  | nil => rfl
  | cons p ps => rfl

example : (asAggregateSink (fun _ : Nat => 0)).run [(1, 5), (2, 6), (1, 7)] 1 = 7 := by decide

/-! ### A callback made from a sink, composition -/

/-- C55: `lexy::callback(sink)` called with some arguments is the sink called with each of them; composition with `|`
    is associative. -/
theorem C55_adapter {ι ρ γ δ : Type} (s : Sink σ ι ρ) (xs : List ι) (f : α → β) (g : β → γ) (h : γ → δ) :
    cbFromSink s xs = s.run xs ∧ composeCb (composeCb f g) h = composeCb f (composeCb g h) := ⟨rfl, rfl⟩

/-! ### Integers -/

theorem conv_fits (t : IntTy) (ht : 0 < t.bits) (v : Int) (h : t.Fits v) : t.conv v = v := by
  obtain ⟨b, s⟩ := t
  simp only [IntTy.Fits, IntTy.min, IntTy.max, IntTy.conv] at *
  obtain ⟨c, rfl⟩ : ∃ c, b = c + 1 := ⟨b - 1, by omega⟩
  simp only [Nat.add_sub_cancel] at *
  have hp : (2 : Int) ^ (c + 1) = 2 * 2 ^ c := by rw [Int.pow_succ]; omega
  have hpos : (0 : Int) < 2 ^ c := Int.pow_pos (by omega)
  rw [hp] at h ⊢
  clear hp
  generalize (2 : Int) ^ c = q at *
  cases s
  · simp only [Bool.false_eq_true, if_false, false_and] at *
    rw [Int.emod_eq_of_lt (by omega) (by omega)]
  · simp only [if_true, true_and] at *
    by_cases hv : 0 ≤ v
    · rw [Int.emod_eq_of_lt hv (by omega), if_neg (by omega)]
    · have : v % (2 * q) = v + 2 * q := by
        rw [← Int.add_emod_right, Int.emod_eq_of_lt (by omega) (by omega)]
      rw [this, if_pos (by omega)]; omega

/-- Converting to a type with at most as many bits does not depend on a conversion before. -/
theorem conv_conv (t p : IntTy) (h : t.bits ≤ p.bits) (v : Int) : t.conv (p.conv v) = t.conv v := by
  have hd : (2 : Int) ^ t.bits ∣ 2 ^ p.bits := by
    obtain ⟨d, hd⟩ := Nat.exists_eq_add_of_le h
    exact ⟨2 ^ d, by rw [hd, Int.pow_add]⟩
  have : (p.conv v) % 2 ^ t.bits = v % 2 ^ t.bits := by
    have hm : (v % 2 ^ p.bits) % 2 ^ t.bits = v % 2 ^ t.bits := Int.emod_emod_of_dvd v hd
    unfold IntTy.conv
    simp only
    split
    · rw [Int.sub_emod, Int.emod_eq_zero_of_dvd hd, Int.sub_zero, Int.emod_emod_of_dvd _ (Int.dvd_refl _), hm]
    · exact hm
  unfold IntTy.conv at this ⊢
  simp only at this ⊢
  rw [this]

/-- C72, `as_integer<T>` (partial): the value with its sign, if that fits into `T`; for a negative value the type of
    the digits has to be signed or smaller than `int`, or have at least as many bits as `T`. -/
theorem C72_as_integer_partial (t i : IntTy) (ht : 0 < t.bits) (v : Int) (hv : 0 ≤ v) (hi : i.Fits v)
    (hib : 0 < i.bits) :
    (∀ s, s ≠ Sign.minus → t.Fits v → asInteger t i s v = some v) ∧
    (t.Fits (-v) → (i.signed = true ∨ i.bits < 32 ∨ t.bits ≤ i.bits) → asInteger t i .minus v = some (-v)) := by
  constructor
  · intro s hs hf
    cases s with
    | minus => exact absurd rfl hs
    | none => simp [asInteger, conv_fits t ht v hf]
    | plus => simp [asInteger, conv_fits t ht v hf]
  · intro hf hcase
    have hneg : ∀ p : IntTy, p.signed = true → 0 < p.bits → v ≤ p.max → p.Fits (-v) := by
      intro p hp hpb hmax
      obtain ⟨b, s⟩ := p
      simp only at hp hpb
      subst hp
      simp only [IntTy.Fits, IntTy.min, IntTy.max, if_true] at *
      have hpos : (0 : Int) < 2 ^ (b - 1) := Int.pow_pos (by omega)
      omega
    simp only [asInteger, negate]
    by_cases hb : i.bits < 32
    · have hp : i.promote = ⟨32, true⟩ := by simp [IntTy.promote, hb]
      have hmax : v ≤ (⟨32, true⟩ : IntTy).max := by
        have h1 : v ≤ i.max := hi.2
        have h2 : i.max ≤ 2 ^ i.bits - 1 := by
          unfold IntTy.max
          split
          · have : (2 : Int) ^ (i.bits - 1) ≤ 2 ^ i.bits := by
              have := Nat.pow_le_pow_right (n := 2) (by omega) (show i.bits - 1 ≤ i.bits by omega)
              exact_mod_cast this
            omega
          · omega
        have h3 : (2 : Int) ^ i.bits ≤ 2 ^ 31 := by
          have := Nat.pow_le_pow_right (n := 2) (by omega) (show i.bits ≤ 31 by omega)
          exact_mod_cast this
        simp only [IntTy.max, if_true]
        omega
      rw [hp]
      simp only [if_true]
      rw [if_pos (hneg ⟨32, true⟩ rfl (by simp) hmax)]
      simp [conv_fits t ht _ hf]
    · have hp : i.promote = i := by simp [IntTy.promote, hb]
      rw [hp]
      by_cases hsg : i.signed = true
      · simp only [hsg, if_true]
        rw [if_pos (hneg i hsg hib hi.2)]
        simp [conv_fits t ht _ hf]
      · have htb : t.bits ≤ i.bits := by
          rcases hcase with h | h | h
          · exact absurd h hsg
          · omega
          · exact h
        simp only [hsg, Bool.false_eq_true, if_false, Option.map_some, Option.some.injEq]
        rw [conv_conv t i htb, conv_fits t ht _ hf]

example : asInteger ⟨64, true⟩ ⟨32, true⟩ .minus 5 = some (-5) ∧ asInteger ⟨32, true⟩ ⟨32, false⟩ .minus 5 = some (-5)
    ∧ (⟨32, true⟩ : IntTy).Fits 5 := by decide +kernel

/-- `as_integer<std::int64_t>` of `-5` whose digits are of type `unsigned` is 4294967291. -/
theorem C72_as_integer_refuted :
    ¬ (∀ (t i : IntTy) (v : Int), 0 ≤ v → i.Fits v → t.Fits (-v) → asInteger t i .minus v = some (-v)) := by
  intro h
  have := h ⟨64, true⟩ ⟨32, false⟩ 5 (by decide) (by decide +kernel) (by decide +kernel)
  rw [show asInteger ⟨64, true⟩ ⟨32, false⟩ .minus 5 = some 4294967291 by decide +kernel] at this
  simp at this

/-! ### C71: `bind` -/

/-- What a bound argument expands to, by the documentation. -/
def _root_.Verif.Spec.Expands (nullV : α) (st : Option σ) (args : List (Option α)) : Bound σ α → List α → Prop
  | .const v, r => r = [v]
  | .values, r => r = args.map (·.getD nullV)
  | .nth n fb fn, r =>
    -- missing or `nullopt`: the fallback, which is not transformed
    (∃ f, fb = some f ∧ (args.length < n ∨ args[n - 1]? = some none) ∧ r = [f])
    -- otherwise the n-th argument, transformed
    ∨ (∃ a, n ≤ args.length ∧ args[n - 1]? = some a ∧ (fb.isSome → a.isSome) ∧ r = [(fn.getD id) (a.getD nullV)])
  | .state fn, r => ∃ s, st = some s ∧ r = [fn s]

/-- A placeholder `nth_value<N>` has N > 0. -/
def Bound.Wf : Bound σ α → Prop
  | .nth n _ _ => 0 < n
  | _ => True

theorem expand_spec (nullV : α) (st : Option σ) (args : List (Option α)) (b : Bound σ α) (hb : b.Wf) (r : List α) :
    expand nullV st args b = some r ↔ Spec.Expands nullV st args b r := by
  cases b with
  | const v => simp [expand, Spec.Expands, @eq_comm _ r]
  | values => simp [expand, Spec.Expands, @eq_comm _ r]
  | state fn => cases st <;> simp [expand, Spec.Expands, @eq_comm _ r]
  | nth n fb fn =>
    have hn : 0 < n := hb
    by_cases hl : n > args.length
    · have hnone : args[n - 1]? = none := by simp; omega
      cases fb with
      | none => simp [expand, Spec.Expands, hl, hnone]
      | some f =>
        simp only [expand, Spec.Expands, hl, if_true, hnone]
        simp [@eq_comm _ r]
    · have hlt : n - 1 < args.length := by omega
      have hge := List.getElem?_eq_getElem hlt
      generalize args[n - 1] = a at hge
      cases fb with
      | none =>
        simp only [expand, Spec.Expands, hl, if_false, hge]
        cases fn <;> simp [@eq_comm _ r] <;> omega
      | some f =>
        cases a with
        | none =>
          simp only [expand, Spec.Expands, hl, if_false, hge]
          simp [@eq_comm _ r]
        | some v =>
          simp only [expand, Spec.Expands, hl, if_false, hge]
          cases fn <;> simp [@eq_comm _ r] <;> omega

/-- C71: `bind` calls the callback with the expansions of the bound arguments, one after the other; the call is
    ill-formed exactly if one of them has none.  (Both ways of computing the arguments.) -/
theorem C71_bind (nullV : α) (st : Option σ) (args : List (Option α)) (bound : List (Bound σ α)) (hb : ∀ b ∈ bound, b.Wf)
    (r : List α) :
    invokeBound nullV st args bound = some r ↔
      ∃ rs : List (List α), rs.length = bound.length ∧ rs.flatten = r ∧
        ∀ (i : Nat) (b : Bound σ α) (p : List α), bound[i]? = some b → (rs : List (List α))[i]? = some p → Spec.Expands nullV st args b p := by
  have hrec : ∀ (bound : List (Bound σ α)), (∀ b ∈ bound, b.Wf) → ∀ (acc r : List α),
      invokeRec nullV st args acc bound = some r ↔
      ∃ rs : List (List α), rs.length = bound.length ∧ acc ++ rs.flatten = r ∧
        ∀ (i : Nat) (b : Bound σ α) (p : List α), bound[i]? = some b → (rs : List (List α))[i]? = some p → Spec.Expands nullV st args b p := by
    intro bound
    induction bound with
    | nil =>
      intro _ acc r
      simp only [invokeRec, Option.some.injEq]
      constructor
      · rintro rfl; exact ⟨[], rfl, by simp, by simp⟩
      · rintro ⟨rs, h1, h2, -⟩
        have : rs = [] := by simpa using h1
        subst this; simpa using h2
    | cons b bs ih =>
      intro hb acc r
      simp only [invokeRec]
      constructor
      · intro h
        cases e : expand nullV st args b with
        | none => simp [e] at h
        | some vs =>
          simp only [e] at h
          obtain ⟨rs, h1, h2, h3⟩ := (ih (fun b hb' => hb b (by simp [hb'])) _ _).1 h
          refine ⟨vs :: rs, by simp [h1], by simpa using h2, ?_⟩
          intro i b' p hbi hpi
          cases i with
          | zero =>
            simp only [List.getElem?_cons_zero, Option.some.injEq] at hbi hpi
            subst hbi; subst hpi
            exact (expand_spec nullV st args b (hb b (by simp)) vs).1 e
          | succ i => exact h3 i b' p (by simpa using hbi) (by simpa using hpi)
      · rintro ⟨rs, h1, h2, h3⟩
        match rs, h1, h2, h3 with
        | [], h1, _, _ => simp at h1
        | v :: rs, h1, h2, h3 =>
          have e := (expand_spec nullV st args b (hb b (by simp)) v).2 (h3 0 b v rfl rfl)
          rw [e]
          exact (ih (fun b hb' => hb b (by simp [hb'])) _ _).2 ⟨rs, by simpa using h1, by simpa using h2,
            fun i b' p hbi hpi => h3 (i + 1) b' p (by simpa using hbi) (by simpa using hpi)⟩
  have hmap : ∀ (bound : List (Bound σ α)), bound.any Bound.isValues = false → ∀ acc : List α,
      invokeRec nullV st args acc bound = (invokeMap nullV st args bound).map (acc ++ ·) := by
    intro bound
    induction bound with
    | nil => intro _ acc; simp [invokeRec, invokeMap]
    | cons b bs ih =>
      intro hv acc
      simp only [List.any_cons, Bool.or_eq_false_iff] at hv
      simp only [invokeRec, invokeMap]
      have h1 : ∀ vs, expand nullV st args b = some vs → ∃ v, vs = [v] := by
        intro vs hvs
        cases b with
        | values => simp [Bound.isValues] at hv
        | const v => simp [expand] at hvs; exact ⟨v, hvs.symm⟩
        | state fn => cases st <;> simp [expand] at hvs; exact ⟨_, hvs.symm⟩
        | nth n fb fn =>
          cases fb with
          | none =>
            simp only [expand] at hvs
            split at hvs
            · simp at hvs
            · split at hvs
              · simp at hvs
              · simp only [Option.some.injEq] at hvs; exact ⟨_, hvs.symm⟩
          | some f =>
            simp only [expand] at hvs
            split at hvs
            · simp only [Option.some.injEq] at hvs; exact ⟨_, hvs.symm⟩
            · split at hvs
              · simp at hvs
              · simp only [Option.some.injEq] at hvs; exact ⟨_, hvs.symm⟩
              · simp only [Option.some.injEq] at hvs; exact ⟨_, hvs.symm⟩
      cases e : expand nullV st args b with
      | none => simp
      | some vs =>
        obtain ⟨v, rfl⟩ := h1 vs e
        simp only [ih hv.2]
        cases invokeMap nullV st args bs <;> simp
  unfold invokeBound
  split
  · rw [hrec bound hb]; simp
  · rename_i hv
    have := hmap bound (by simpa using hv) []
    simp only [List.nil_append] at this
    rw [show (invokeMap nullV st args bound).map (fun x => x) = invokeMap nullV st args bound by simp] at this
    rw [← this, hrec bound hb]; simp

-- `bind(cb, _2, values, _3 || 9, parse_state)` called with two values.
example : invokeBound 0 (some 7) [some 1, none] [.nth 1 none none, .values, .nth 2 (some 9) none, .nth 3 (some 8) none, .state id]
    = some [1, 1, 0, 9, 8, 7] := by decide

end Verif.Cb
