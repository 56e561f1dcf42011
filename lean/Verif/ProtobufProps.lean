import Verif.Protobuf
import Verif.BytesProps

/-
C104: the protobuf example prints the message that is encoded by its input.
-/

namespace Verif.Spec.Pb

open Verif.Pb (Value)

/-- A number as groups of seven bits, the lowest ones first; all bytes but the last one have the highest bit set. -/
inductive Varint : Nat → List Nat → Prop
  | last {b : Nat} : b < 128 → Varint b [b]
  | more {b v : Nat} {bs : List Nat} : 128 ≤ b → b < 256 → Varint v bs → Varint (b - 128 + 128 * v) (b :: bs)

/-- The encoding of a field: its key (the number and the wire type) and its value.  Numbers are computed modulo `2 ^ 64`, as the
    example says (l.101-102).  `P` restricts the encodings of numbers. -/
inductive Field (P : List Nat → Prop) : Nat × Value → List Nat → Prop
  | varint {k v : Nat} {kb vb : List Nat} : Varint k kb → P kb → k % 8 = 0 → Varint v vb → P vb →
      Field P (k % 2 ^ 64 / 8, .varint (v % 2 ^ 64)) (kb ++ vb)
  | fixed64 {k v : Nat} {kb : List Nat} : Varint k kb → P kb → k % 8 = 1 → v < 256 ^ 8 →
      Field P (k % 2 ^ 64 / 8, .fixed64 v) (kb ++ leBytes 8 v)
  | bytes {k n : Nat} {kb nb bs : List Nat} : Varint k kb → P kb → k % 8 = 2 → Varint n nb → P nb → bs.length = n % 2 ^ 64 →
      Field P (k % 2 ^ 64 / 8, .bytes bs) (kb ++ nb ++ bs)
  | fixed32 {k v : Nat} {kb : List Nat} : Varint k kb → P kb → k % 8 = 5 → v < 256 ^ 4 →
      Field P (k % 2 ^ 64 / 8, .fixed32 v) (kb ++ leBytes 4 v)

/-- A message is a sequence of fields. -/
inductive Message (P : List Nat → Prop) : List (Nat × Value) → List Nat → Prop
  | nil : Message P [] []
  | cons {f : Nat × Value} {fs : List (Nat × Value)} {b bs : List Nat} :
      Field P f b → Message P fs bs → Message P (f :: fs) (b ++ bs)

/-- No restriction. -/
def Any (_ : List Nat) : Prop := True

/-- Numbers of at most five bytes, or of six bytes if three of their bits are zero. -/
def Short (bs : List Nat) : Prop := bs.length ≤ 5 ∨ bs.length = 6 ∧ bs.getD 4 0 % 128 < 16

/-- There are no five bytes in a row with the highest bit set. -/
def NoRun (s : List Nat) : Prop := ∀ pre mid post : List Nat, s = pre ++ mid ++ post → mid.length = 5 → ∃ b ∈ mid, b < 128

/-- The number of the type `sint32` or `sint64` whose encoding is `v`. -/
def zigzag (v : Nat) : Int := if v % 2 = 0 then v / 2 else -((v : Int) + 1) / 2

/-- The number of the type `sfixed32` or `sfixed64` with the bits of `v`. -/
def twosComplement (n v : Nat) : Int := if v < 2 ^ (n - 1) then v else (v : Int) - 2 ^ n

end Verif.Spec.Pb

namespace Verif.Pb

open Verif.Spec.Pb Verif.Spec

/-! ### The single bytes -/

theorem lastTok_cons {b : Nat} (hb : b < 256) (s : List Nat) : lastTok (b :: s) = if b < 128 then (true, 1) else (false, 0) := by
  have : ∀ b : Fin 256, lastTok [b.1] = if b.1 < 128 then (true, 1) else (false, 0) := by decide +kernel
  have := this ⟨b, hb⟩
  simpa only [lastTok, bitsTok] using this

theorem prefixTok_cons {b : Nat} (hb : b < 256) (s : List Nat) :
    prefixTok (b :: s) = if b < 128 then (false, 0) else (true, 1) := by
  have : ∀ b : Fin 256, prefixTok [b.1] = if b.1 < 128 then (false, 0) else (true, 1) := by decide +kernel
  have := this ⟨b, hb⟩
  simpa only [prefixTok, bitsTok] using this

theorem last_cons {b : Nat} (hb : b < 256) (s : List Nat) :
    bintBranch true 1 lastTok (b :: s) 0 = if b < 128 then some (some b, 1, [.token 0 1]) else none := by
  unfold bintBranch
  rw [List.drop_zero, lastTok_cons hb]
  by_cases h : b < 128 <;> simp [h, bintConvert, bintValue]

theorem prefix_cons {b : Nat} (hb : b < 256) (h : 128 ≤ b) (s : List Nat) :
    bintParse true 1 prefixTok (b :: s) 0 = (some b, 1, [.token 0 1]) := by
  unfold bintParse byteTokenParse
  rw [List.drop_zero, prefixTok_cons hb]
  simp [show ¬ b < 128 by omega, bintConvert, bintValue]

theorem last_nil : bintBranch true 1 lastTok [] 0 = none := rfl
theorem prefix_nil : (bintParse true 1 prefixTok [] 0).1 = none := rfl

/-- The loop on its first byte. -/
theorem varintLoop_cons {n : Nat} {B : Builder} {b : Nat} (hb : b < 256) (s : List Nat) :
    varintLoop (n + 1) B (b :: s) =
      if b < 128 then (B.finish b).map fun x => .ok x s else (B.addPrefix b).bind fun B => varintLoop n B s := by
  by_cases h : b < 128
  · simp [varintLoop, last_cons hb, h]
  · simp [varintLoop, last_cons hb, h, prefix_cons hb (by omega)]

theorem varintLoop_nil {n : Nat} {B : Builder} : varintLoop (n + 1) B [] = some .err := rfl

/-- A number is the loop with a new builder. -/
theorem varint_eq (s : List Nat) (hs : ∀ b ∈ s, b < 256) : varint s = varintLoop (s.length + 2) .new s := by
  cases s with
  | nil => rfl
  | cons b s =>
    have hb := hs b (by simp)
    rw [varintLoop_cons hb]
    by_cases h : b < 128
    · simp [varint, last_cons hb, h]
    · simp [varint, last_cons hb, h, prefix_cons hb (by omega)]

/-! ### The builder -/

/-- What is built after a number of prefix bytes. -/
structure Built (k v : Nat) (B : Builder) : Prop where
  shift : B.shift = 7 * k
  result : B.result = v
  lt : v < 2 ^ (7 * k)

theorem built_new : Built 0 0 .new := ⟨rfl, rfl, by decide⟩

theorem or_shift {a x i : Nat} (h : a < 2 ^ i) : a ||| x <<< i = a + x * 2 ^ i := by
  rw [Nat.or_comm, ← Nat.shiftLeft_add_eq_or_of_lt h, Nat.shiftLeft_eq, Nat.add_comm]

theorem built_add {k v b : Nat} {B : Builder} (h : Built k v B) (hb : 128 ≤ b) (hb' : b < 256)
    (hk : k ≤ 3 ∨ k = 4 ∧ b % 128 < 16) :
    ∃ B', B.addPrefix b = some B' ∧ Built (k + 1) (v + (b - 128) * 2 ^ (7 * k)) B' := by
  have hand : b &&& 127 = b - 128 := by
    have := Nat.and_two_pow_sub_one_eq_mod b 7
    rw [show (2 : Nat) ^ 7 - 1 = 127 from rfl] at this
    omega
  have hs : B.shift < 32 := by rw [h.shift]; omega
  have hlt : (b - 128) <<< (7 * k) < 2 ^ 32 := by
    rw [Nat.shiftLeft_eq]
    have hk' : k = 0 ∨ k = 1 ∨ k = 2 ∨ k = 3 ∨ k = 4 := by omega
    rcases hk' with rfl | rfl | rfl | rfl | rfl <;> omega
  have hp : (2 : Nat) ^ (7 * (k + 1)) = 128 * 2 ^ (7 * k) := by rw [Nat.mul_add, Nat.pow_add]; omega
  refine ⟨_, by rw [Builder.addPrefix, if_pos hs], ?_, ?_, ?_⟩
  · simp only [h.shift]; omega
  · simp only [h.shift, h.result, hand, Nat.mod_eq_of_lt hlt]
    exact or_shift h.lt
  · have h1 := h.lt
    have h2 : (b - 128) * 2 ^ (7 * k) ≤ 127 * 2 ^ (7 * k) := Nat.mul_le_mul_right _ (by omega)
    rw [hp]; omega

theorem built_finish {k v b : Nat} {B : Builder} (h : Built k v B) (hb : b < 128) (hk : k ≤ 8) :
    B.finish b = some (v + b * 2 ^ (7 * k)) := by
  have hs : B.shift < 64 := by rw [h.shift]; omega
  have hlt : b <<< (7 * k) < 2 ^ 64 := by
    rw [Nat.shiftLeft_eq]
    have h1 : b * 2 ^ (7 * k) < 128 * 2 ^ (7 * k) := Nat.mul_lt_mul_of_pos_right hb (Nat.two_pow_pos _)
    have h2 : (128 : Nat) * 2 ^ (7 * k) = 2 ^ (7 * (k + 1)) := by rw [Nat.mul_add, Nat.pow_add]; omega
    have h3 : (2 : Nat) ^ (7 * (k + 1)) ≤ 2 ^ 64 := Nat.pow_le_pow_right (by omega) (by omega)
    omega
  rw [Builder.finish, if_pos hs, h.shift, h.result, Nat.mod_eq_of_lt hlt, or_shift h.lt]

/-- The remaining bytes of a short number. -/
def ShortFrom (k : Nat) (bs : List Nat) : Prop :=
  k + bs.length ≤ 5 ∨ k + bs.length = 6 ∧ (k ≤ 4 → bs.getD (4 - k) 0 % 128 < 16)

theorem varintLoop_short {w : Nat} {bs : List Nat} (h : Varint w bs) : ∀ {k v : Nat} {B : Builder} {n : Nat} (s : List Nat),
    Built k v B → ShortFrom k bs → bs.length ≤ n → varintLoop n B (bs ++ s) = some (.ok (v + w * 2 ^ (7 * k)) s) := by
  induction h with
  | @last b hb =>
    intro k v B n s hB hs hn
    obtain ⟨n, rfl⟩ : ∃ m, n = m + 1 := ⟨n - 1, by simp at hn; omega⟩
    have hk : k ≤ 8 := by unfold ShortFrom at hs; simp only [List.length_singleton] at hs; omega
    rw [List.singleton_append, varintLoop_cons (by omega), if_pos hb, built_finish hB hb hk]
    rfl
  | @more b w bs h1 h2 hv ih =>
    intro k v B n s hB hs hn
    obtain ⟨n, rfl⟩ : ∃ m, n = m + 1 := ⟨n - 1, by simp at hn; omega⟩
    have hl : 1 ≤ bs.length := by cases hv <;> simp
    have hk : k ≤ 3 ∨ k = 4 ∧ b % 128 < 16 := by
      unfold ShortFrom at hs
      simp only [List.length_cons] at hs
      rcases hs with hs | ⟨h3, h4⟩
      · omega
      · by_cases hk4 : k = 4
        · subst hk4; right; exact ⟨rfl, by simpa using h4 (by omega)⟩
        · omega
    obtain ⟨B', e1, e2⟩ := built_add hB h1 h2 hk
    have hs' : ShortFrom (k + 1) bs := by
      unfold ShortFrom at hs ⊢
      simp only [List.length_cons] at hs
      rcases hs with hs | ⟨h3, h4⟩
      · left; omega
      · right
        refine ⟨by omega, fun h5 => ?_⟩
        have := h4 (by omega)
        rw [show 4 - k = (4 - (k + 1)) + 1 by omega, List.getD_cons_succ] at this
        exact this
    have hp : (2 : Nat) ^ (7 * (k + 1)) = 128 * 2 ^ (7 * k) := by rw [Nat.mul_add, Nat.pow_add]; omega
    rw [List.cons_append, varintLoop_cons h2, if_neg (by omega), e1, Option.bind_some,
      ih s e2 hs' (by simp at hn; omega), hp, Nat.add_mul, Nat.add_assoc]
    congr 4
    rw [Nat.mul_comm 128 w, Nat.mul_assoc]

theorem varint_bytes {v : Nat} {bs : List Nat} (h : Varint v bs) : ∀ b ∈ bs, b < 256 := by
  induction h with
  | last h => intro b hb; simp at hb; omega
  | more h1 h2 _ ih => intro b hb; simp at hb; rcases hb with rfl | hb; exact h2; exact ih b hb

theorem varint_short {v : Nat} {bs : List Nat} (h : Varint v bs) (hs : Short bs) (s : List Nat) (hb : ∀ b ∈ s, b < 256) :
    varint (bs ++ s) = some (.ok v s) := by
  rw [varint_eq _ (by intro b h'; rw [List.mem_append] at h'; exact h'.elim (varint_bytes h b) (hb b)),
    varintLoop_short h s built_new _ (by simp; omega)]
  · simp
  · unfold Short at hs; unfold ShortFrom; simpa using hs

theorem short_lt {v : Nat} {bs : List Nat} (h : Varint v bs) : v < 128 ^ bs.length := by
  induction h with
  | last h => simpa using h
  | more h1 h2 _ ih => rw [List.length_cons, Nat.pow_succ]; omega

theorem short_mod {v : Nat} {bs : List Nat} (h : Varint v bs) (hs : Short bs) : v % 2 ^ 64 = v := by
  apply Nat.mod_eq_of_lt
  have h1 := short_lt h
  have h2 : (128 : Nat) ^ bs.length ≤ 128 ^ 6 := Nat.pow_le_pow_right (by omega) (by unfold Short at hs; omega)
  omega

/-! ### Fields -/

theorem repeatByte_append (bs s : List Nat) : repeatByte bs.length (bs ++ s) = some s := by
  induction bs with
  | nil => rfl
  | cons b bs ih => simpa [repeatByte, byteTokenParse, bytesTok, anyByte] using ih

theorem fixed_append {n v : Nat} (hn : 0 < n) (hv : v < 256 ^ n) (mk : Nat → Value) (s : List Nat) :
    fixed n mk (leBytes n v ++ s) = some (.ok (mk v) s) := by
  have h := (C51_round_trip false hn hv [] s).1
  simp only [List.nil_append, List.length_nil, Nat.zero_add, bytesOf, Bool.false_eq_true, if_false] at h
  have hl : (leBytes n v).length = n := by simp [leBytes]
  simp only [fixed, h]
  rw [List.drop_left' hl]

theorem fieldBytes_append {n : Nat} {nb bs s : List Nat} (h : Varint n nb) (hs : Short nb) (hl : bs.length = n)
    (hb : ∀ b ∈ bs ++ s, b < 256) : fieldBytes (nb ++ (bs ++ s)) = some (.ok (.bytes bs) s) := by
  subst hl
  have : (bs ++ s).length - s.length = bs.length := by simp
  simp only [fieldBytes, varint_short h hs _ hb, andThen, repeatByte_append, this, List.take_left]

theorem and7 (k : Nat) : k &&& 7 = k % 8 := Nat.and_two_pow_sub_one_eq_mod k 3

theorem leBytes_lt {n v : Nat} : ∀ b ∈ leBytes n v, b < 256 := bytesOf_lt false n v

theorem field_append {f : Nat × Value} {b : List Nat} (h : Field Short f b) (s : List Nat) (hb : ∀ c ∈ b ++ s, c < 256) :
    field (b ++ s) = some (.ok f s) := by
  cases h with
  | varint hk hks hk8 hv hvs =>
    rw [List.append_assoc] at hb ⊢
    have hb2 := fun c hc => hb c (List.mem_append_right _ hc)
    have hb3 := fun c hc => hb2 c (List.mem_append_right _ hc)
    simp only [field, varint_short hk hks _ hb2, andThen, fieldValue, and7, hk8, if_true, varint_short hv hvs _ hb3,
      Nat.shiftRight_eq_div_pow, short_mod hk hks, short_mod hv hvs]
  | fixed64 hk hks hk8 hv =>
    rw [List.append_assoc] at hb ⊢
    have hb2 := fun c hc => hb c (List.mem_append_right _ hc)
    simp only [field, varint_short hk hks _ hb2, andThen, fieldValue, and7, hk8, if_true,
      fixed_append (by omega : 0 < 8) hv, Nat.shiftRight_eq_div_pow, short_mod hk hks]
    rfl
  | bytes hk hks hk8 hn hns hl =>
    rw [List.append_assoc, List.append_assoc] at hb ⊢
    have hb2 := fun c hc => hb c (List.mem_append_right _ hc)
    have hb3 := fun c hc => hb2 c (List.mem_append_right _ hc)
    rw [short_mod hn hns] at hl
    simp only [field, varint_short hk hks _ hb2, andThen, fieldValue, and7, hk8, if_true,
      fieldBytes_append hn hns hl hb3, Nat.shiftRight_eq_div_pow, short_mod hk hks]
    rfl
  | fixed32 hk hks hk8 hv =>
    rw [List.append_assoc] at hb ⊢
    have hb2 := fun c hc => hb c (List.mem_append_right _ hc)
    simp only [field, varint_short hk hks _ hb2, andThen, fieldValue, and7, hk8, if_true,
      fixed_append (by omega : 0 < 4) hv, Nat.shiftRight_eq_div_pow, short_mod hk hks]
    rfl

theorem varint_ne {v : Nat} {bs : List Nat} (h : Varint v bs) : 0 < bs.length := by cases h <;> simp

theorem field_ne {P : List Nat → Prop} {f : Nat × Value} {b : List Nat} (h : Field P f b) : 0 < b.length := by
  cases h with
  | varint hk _ _ _ _ => have := varint_ne hk; simp only [List.length_append]; omega
  | fixed64 hk _ _ _ => have := varint_ne hk; simp only [List.length_append]; omega
  | bytes hk _ _ _ _ _ => have := varint_ne hk; simp only [List.length_append]; omega
  | fixed32 hk _ _ _ => have := varint_ne hk; simp only [List.length_append]; omega

theorem messageGo_message {m : List (Nat × Value)} {s : List Nat} (h : Message Short m s) : ∀ n, (∀ c ∈ s, c < 256) →
    s.length < n → messageGo n s = some (some m) := by
  induction h with
  | nil => intro n _ hn; obtain ⟨n, rfl⟩ : ∃ m, n = m + 1 := ⟨n - 1, by omega⟩; rfl
  | @cons f fs b bs hf hm ih =>
    intro n hb hn
    obtain ⟨n, rfl⟩ : ∃ m, n = m + 1 := ⟨n - 1, by omega⟩
    have hl := field_ne hf
    have hfa := field_append hf bs hb
    rw [List.length_append] at hn
    have h2 := ih n (fun c hc => hb c (List.mem_append_right _ hc)) (by omega)
    cases b with
    | nil => simp at hl
    | cons c b =>
      rw [List.cons_append] at hfa ⊢
      simp [messageGo, hfa, h2]

/-! ### Inputs without long numbers -/

theorem _root_.Verif.Spec.Pb.NoRun.left {a b : List Nat} (h : NoRun (a ++ b)) : NoRun a := by
  intro pre mid post e hl
  exact h pre mid (post ++ b) (by rw [e]; simp) hl

theorem _root_.Verif.Spec.Pb.NoRun.right {a b : List Nat} (h : NoRun (a ++ b)) : NoRun b := by
  intro pre mid post e hl
  exact h (a ++ pre) mid post (by rw [e]; simp) hl

/-- All bytes but the last one have the highest bit set. -/
theorem varint_high {v : Nat} {bs : List Nat} (h : Varint v bs) : ∀ b ∈ bs.take (bs.length - 1), 128 ≤ b := by
  induction h with
  | last h => simp
  | @more b v bs h1 h2 hv ih =>
    have hl := varint_ne hv
    rw [List.length_cons, show bs.length + 1 - 1 = (bs.length - 1) + 1 by omega, List.take_succ_cons]
    intro c hc
    rw [List.mem_cons] at hc
    rcases hc with rfl | hc
    · exact h1
    · exact ih c hc

theorem short_of_noRun {v : Nat} {bs : List Nat} (h : Varint v bs) (hn : NoRun bs) : Short bs := by
  unfold Short
  by_cases hl : bs.length ≤ 5
  · exact .inl hl
  · obtain ⟨b, hb, hlt⟩ := hn [] (bs.take 5) (bs.drop 5) (by simp) (by simp; omega)
    have : b ∈ bs.take (bs.length - 1) := by
      have h5 : bs.take 5 = (bs.take (bs.length - 1)).take 5 := by
        rw [List.take_take]; congr 1; omega
      rw [h5] at hb
      exact List.mem_of_mem_take hb
    have := varint_high h b this
    omega

theorem field_short {f : Nat × Value} {b : List Nat} (h : Field Any f b) (hn : NoRun b) : Field Short f b := by
  cases h with
  | varint hk _ h8 hv _ => exact .varint hk (short_of_noRun hk hn.left) h8 hv (short_of_noRun hv hn.right)
  | fixed64 hk _ h8 hv => exact .fixed64 hk (short_of_noRun hk hn.left) h8 hv
  | bytes hk _ h8 hv _ hl =>
    exact .bytes hk (short_of_noRun hk hn.left.left) h8 hv (short_of_noRun hv hn.left.right) hl
  | fixed32 hk _ h8 hv => exact .fixed32 hk (short_of_noRun hk hn.left) h8 hv

theorem message_short {m : List (Nat × Value)} {s : List Nat} (h : Message Any m s) : NoRun s → Message Short m s := by
  induction h with
  | nil => intro _; exact .nil
  | cons hf _ ih => intro hn; exact .cons (field_short hf hn.left) (ih hn.right)

theorem field_any {P : List Nat → Prop} {f : Nat × Value} {b : List Nat} (h : Field P f b) : Field Any f b := by
  cases h with
  | varint hk _ h8 hv _ => exact .varint hk trivial h8 hv trivial
  | fixed64 hk _ h8 hv => exact .fixed64 hk trivial h8 hv
  | bytes hk _ h8 hv _ hl => exact .bytes hk trivial h8 hv trivial hl
  | fixed32 hk _ h8 hv => exact .fixed32 hk trivial h8 hv

/-- Bytes with the highest bit set at the end of the input. -/
theorem varintLoop_high : ∀ (s : List Nat) {k v : Nat} {B : Builder} {n : Nat}, Built k v B → (∀ b ∈ s, 128 ≤ b ∧ b < 256) →
    k + s.length ≤ 4 → s.length < n → varintLoop n B s = some .err
  | [], _, _, _, n, _, _, _, hn => by
    obtain ⟨n, rfl⟩ : ∃ m, n = m + 1 := ⟨n - 1, by simp at hn; omega⟩
    rfl
  | b :: s, k, v, B, n, hB, hb, hk, hn => by
    rw [List.length_cons] at hk hn
    obtain ⟨n, rfl⟩ : ∃ m, n = m + 1 := ⟨n - 1, by omega⟩
    have h1 := hb b (by simp)
    obtain ⟨B', e1, e2⟩ := built_add hB h1.1 h1.2 (by omega)
    rw [varintLoop_cons h1.2, if_neg (by omega), e1, Option.bind_some]
    exact varintLoop_high s e2 (fun c hc => hb c (by simp [hc])) (by omega) (by omega)

/-- Every input begins with a number, or it consists of bytes with the highest bit set. -/
theorem varint_or_high : ∀ (s : List Nat), (∀ b ∈ s, b < 256) →
    (∃ v bs r, s = bs ++ r ∧ Varint v bs) ∨ ∀ b ∈ s, 128 ≤ b ∧ b < 256
  | [], _ => .inr (by simp)
  | b :: s, hb => by
    have h1 := hb b (by simp)
    by_cases h : b < 128
    · exact .inl ⟨b, [b], s, by simp, .last h⟩
    · rcases varint_or_high s (fun c hc => hb c (by simp [hc])) with ⟨v, bs, r, e, hv⟩ | hh
      · exact .inl ⟨_, b :: bs, r, by simp [e], .more (by omega) h1 hv⟩
      · right
        intro c hc
        rw [List.mem_cons] at hc
        rcases hc with rfl | hc
        · omega
        · exact hh c hc

theorem varint_total (s : List Nat) (hb : ∀ b ∈ s, b < 256) (hn : NoRun s) :
    (∃ v bs r, s = bs ++ r ∧ Varint v bs ∧ Short bs ∧ varint s = some (.ok v r)) ∨ varint s = some .err := by
  rcases varint_or_high s hb with ⟨v, bs, r, rfl, hv⟩ | hh
  · have hs := short_of_noRun hv hn.left
    exact .inl ⟨v, bs, r, rfl, hv, hs, varint_short hv hs r fun c hc => hb c (List.mem_append_right _ hc)⟩
  · right
    rw [varint_eq s hb]
    apply varintLoop_high s built_new hh _ (by omega)
    by_cases h5 : s.length ≤ 4
    · omega
    · obtain ⟨b, hb, hlt⟩ := hn [] (s.take 5) (s.drop 5) (by simp) (by simp; omega)
      have := hh b (List.mem_of_mem_take hb)
      omega

theorem repeatByte_some : ∀ {n : Nat} {s r : List Nat}, repeatByte n s = some r → ∃ bs, s = bs ++ r ∧ bs.length = n
  | 0, s, r, h => by simp [repeatByte] at h; exact ⟨[], by simp [h], rfl⟩
  | n + 1, [], r, h => by simp [repeatByte, byteTokenParse, bytesTok] at h
  | n + 1, b :: s, r, h => by
    simp only [repeatByte, byteTokenParse, bytesTok, anyByte, List.drop_zero, if_true, Nat.zero_add, List.drop_succ_cons] at h
    obtain ⟨bs, rfl, hl⟩ := repeatByte_some h
    exact ⟨b :: bs, rfl, by simp [hl]⟩

theorem fixed_total {n : Nat} (hn : 0 < n) (mk : Nat → Value) (s : List Nat) (hb : ∀ b ∈ s, b < 256) :
    (∃ v r, s = leBytes n v ++ r ∧ v < 256 ^ n ∧ fixed n mk s = some (.ok (mk v) r)) ∨ fixed n mk s = some .err := by
  by_cases hl : n ≤ s.length
  · left
    have h1 : ∀ b ∈ s.take n, b < 256 := fun b h => hb b (List.mem_of_mem_take h)
    have h2 : (s.take n).length = n := by simp; omega
    have h3 := leBytes_leValue (s.take n) h1
    have h4 := leValue_lt h1
    rw [h2] at h3 h4
    refine ⟨leValue (s.take n), s.drop n, by rw [h3, List.take_append_drop], h4, ?_⟩
    have := fixed_append hn h4 mk (s.drop n)
    rwa [h3, List.take_append_drop] at this
  · right
    obtain ⟨h1, -⟩ := C51_bytes n anyByte s
    have h2 : (bytesTok n anyByte s).1 = false := by
      cases h : (bytesTok n anyByte s).1 with
      | false => rfl
      | true => exact absurd (h1.1 h).1 hl
    unfold fixed bintParse byteTokenParse
    rw [List.drop_zero]
    rcases hr : bytesTok n anyByte s with ⟨ok, k⟩
    rw [hr] at h2
    simp only at h2
    subst h2
    rfl

theorem field_total (s : List Nat) (hb : ∀ b ∈ s, b < 256) (hn : NoRun s) :
    (∃ f b r, s = b ++ r ∧ Field Short f b ∧ field s = some (.ok f r)) ∨ field s = some .err := by
  rcases varint_total s hb hn with ⟨k, kb, r, rfl, hk, hks, e⟩ | e
  case inr => right; simp [field, e, andThen]
  have hb2 : ∀ b ∈ r, b < 256 := fun c hc => hb c (List.mem_append_right _ hc)
  have key : (∃ f b r', kb ++ r = b ++ r' ∧ Field Short f b) ∨ fieldValue (k &&& 7) r = some .err := by
    rw [and7]
    have h8 : k % 8 = 0 ∨ k % 8 = 1 ∨ k % 8 = 2 ∨ k % 8 = 5 ∨ (k % 8 ≠ 0 ∧ k % 8 ≠ 1 ∧ k % 8 ≠ 2 ∧ k % 8 ≠ 5) := by omega
    rcases h8 with h | h | h | h | h
    · rcases varint_total r hb2 hn.right with ⟨v, vb, r', rfl, hv, hvs, e'⟩ | e'
      · exact .inl ⟨_, kb ++ vb, r', by simp, .varint hk hks h hv hvs⟩
      · right; simp [fieldValue, h, e', andThen]
    · rcases fixed_total (by omega : 0 < 8) .fixed64 r hb2 with ⟨v, r', rfl, hv, e'⟩ | e'
      · exact .inl ⟨_, kb ++ leBytes 8 v, r', by simp, .fixed64 hk hks h hv⟩
      · right; simp [fieldValue, h, e']
    · rcases varint_total r hb2 hn.right with ⟨v, vb, r', rfl, hv, hvs, e'⟩ | e'
      · cases hr : repeatByte v r' with
        | some q =>
          obtain ⟨bs, rfl, hl⟩ := repeatByte_some hr
          exact .inl ⟨_, kb ++ vb ++ bs, q, by simp, .bytes hk hks h hv hvs (by rw [short_mod hv hvs]; exact hl)⟩
        | none => right; simp [fieldValue, h, fieldBytes, e', andThen, hr]
      · right; simp [fieldValue, h, fieldBytes, e', andThen]
    · rcases fixed_total (by omega : 0 < 4) .fixed32 r hb2 with ⟨v, r', rfl, hv, e'⟩ | e'
      · exact .inl ⟨_, kb ++ leBytes 4 v, r', by simp, .fixed32 hk hks h hv⟩
      · right; simp [fieldValue, h, e']
    · right; simp [fieldValue, h]
  rcases key with ⟨f, b, r', e', hf⟩ | e'
  · rw [e'] at hb ⊢
    exact .inl ⟨f, b, r', rfl, hf, field_append hf r' hb⟩
  · right; simp [field, e, andThen, e']

theorem messageGo_total : ∀ (n : Nat) (s : List Nat), (∀ b ∈ s, b < 256) → NoRun s → s.length < n →
    (∃ m, messageGo n s = some (some m) ∧ Message Short m s) ∨ messageGo n s = some none
  | 0, _, _, _, h => by omega
  | n + 1, [], _, _, _ => .inl ⟨[], rfl, .nil⟩
  | n + 1, c :: s, hb, hn, hl => by
    rcases field_total (c :: s) hb hn with ⟨f, b, r, e, hf, ef⟩ | ef
    · have hl2 := field_ne hf
      have hlen : s.length + 1 = b.length + r.length := by rw [← List.length_append, ← e, List.length_cons]
      rw [e] at hb hn
      rw [List.length_cons] at hl
      rcases messageGo_total n r (fun c hc => hb c (List.mem_append_right _ hc)) hn.right (by omega) with ⟨m, e1, hm⟩ | e1
      · left
        refine ⟨f :: m, by simp [messageGo, ef, e1], ?_⟩
        rw [e]; exact .cons hf hm
      · right; simp [messageGo, ef, e1]
    · right; simp [messageGo, ef]

theorem message_any {P : List Nat → Prop} {m : List (Nat × Value)} {s : List Nat} (h : Message P m s) : Message Any m s := by
  induction h with
  | nil => exact .nil
  | cons hf _ ih => exact .cons (field_any hf) ih

/-! ### The properties -/

/-- **C104** (partial: for numbers of at most five bytes, or of six bytes if certain bits are zero, cf.
    `C104_number_refuted`) The fields of a message are printed. -/
theorem C104_message_partial {m : List (Nat × Value)} {s : List Nat} (hb : ∀ b ∈ s, b < 256) (h : Message Short m s) :
    program s = some (some m) :=
  messageGo_message h _ hb (by omega)

/-- **C104** (partial: for inputs without five bytes in a row with the highest bit set) Exactly the encodings of messages are
    accepted, and their fields are printed; there is an error for every other input. -/
theorem C104_exact_partial {s : List Nat} (hb : ∀ b ∈ s, b < 256) (hn : NoRun s) :
    (∀ m, program s = some (some m) ↔ Message Any m s) ∧ (program s = some none ↔ ∀ m, ¬ Message Any m s) := by
  have hc : ∀ {m}, Message Any m s → program s = some (some m) := fun h => C104_message_partial hb (message_short h hn)
  rcases messageGo_total (s.length + 1) s hb hn (by omega) with ⟨m, e, hm⟩ | e
  · have e' : program s = some (some m) := e
    refine ⟨fun m' => ⟨fun h => ?_, hc⟩, ⟨fun h => ?_, fun h => absurd (message_any hm) (h m)⟩⟩
    · rw [e'] at h; simp at h; subst h; exact message_any hm
    · rw [e'] at h; simp at h
  · have e' : program s = some none := e
    refine ⟨fun m' => ⟨fun h => ?_, hc⟩, ⟨fun _ m h => ?_, fun _ => e'⟩⟩
    · rw [e'] at h; simp at h
    · have := hc h; rw [e'] at this; simp at this

/-- Bytes with the highest bit set, when the shift has become too large. -/
theorem varintLoop_long {w : Nat} {bs : List Nat} (h : Varint w bs) : ∀ {B : Builder} {n k : Nat} (s : List Nat), B.shift = 7 * k →
    7 ≤ k + bs.length → k ≤ 5 → bs.length ≤ n → varintLoop n B (bs ++ s) = none := by
  induction h with
  | @last b hb => intro B n k s _ h1 h2; simp at h1; omega
  | @more b w bs h1 h2 hv ih =>
    intro B n k s hB hl hk hn
    rw [List.length_cons] at hl hn
    obtain ⟨n, rfl⟩ : ∃ m, n = m + 1 := ⟨n - 1, by omega⟩
    rw [List.cons_append, varintLoop_cons h2, if_neg (by omega)]
    by_cases h5 : k = 5
    · rw [Builder.addPrefix, if_neg (by omega)]; rfl
    · rw [Builder.addPrefix, if_pos (by omega), Option.bind_some]
      exact ih s (k := k + 1) (by simp only [hB]; omega) (by omega) (by omega) (by omega)

/-- **C104** (refuted) Numbers of more than 32 bits.  `varint_builder::add_prefix_byte` (l.109-114) shifts a value of type `unsigned`:
    the field 1 with the value `2 ^ 35 + 2 ^ 32` is printed as `2 ^ 35`, and every field whose value needs seven bytes or more is
    undefined behavior, e.g. `2 ^ 42` or the number -1 of the type `int32`, whatever follows. -/
theorem C104_number_refuted :
    Message Any [(1, .varint (2 ^ 35 + 2 ^ 32))] [8, 128, 128, 128, 128, 144, 1]
    ∧ program [8, 128, 128, 128, 128, 144, 1] = some (some [(1, .varint (2 ^ 35))])
    ∧ (∀ v bs s, Varint v bs → 7 ≤ bs.length → (∀ b ∈ s, b < 256) → program (8 :: bs ++ s) = none)
    ∧ Varint (2 ^ 42) [128, 128, 128, 128, 128, 128, 1]
    ∧ Varint (2 ^ 64 - 1) [255, 255, 255, 255, 255, 255, 255, 255, 255, 1] := by
  have more : ∀ {b v : Nat} {bs : List Nat} (w : Nat), 128 ≤ b → b < 256 → Varint v bs → w = b - 128 + 128 * v →
      Varint w (b :: bs) := by
    intro b v bs w h1 h2 h3 h4; subst h4; exact .more h1 h2 h3
  refine ⟨?_, by decide +kernel, ?_, ?_, ?_⟩
  · have hv : Varint (2 ^ 35 + 2 ^ 32) [128, 128, 128, 128, 144, 1] :=
      more _ (by omega) (by omega) (more (2 ^ 28 + 2 ^ 25) (by omega) (by omega) (more (2 ^ 21 + 2 ^ 18) (by omega) (by omega)
        (more (2 ^ 14 + 2 ^ 11) (by omega) (by omega) (more (2 ^ 7 + 2 ^ 4) (by omega) (by omega) (.last (by omega : 1 < 128))
          (by decide)) (by decide)) (by decide)) (by decide)) (by decide)
    have := Message.cons (Field.varint (P := Any) (k := 8) (.last (by omega)) trivial (by omega) hv trivial) .nil
    simpa using this
  · intro v bs s hv hl hb
    have hb2 : ∀ b ∈ bs ++ s, b < 256 := by
      intro b h'; rw [List.mem_append] at h'; exact h'.elim (varint_bytes hv b) (hb b)
    have h1 : varint (bs ++ s) = none := by
      rw [varint_eq _ hb2]
      exact varintLoop_long hv s (k := 0) rfl (by omega) (by omega) (by simp; omega)
    have h2 : varint (8 :: (bs ++ s)) = some (.ok 8 (bs ++ s)) :=
      varint_short (.last (by omega : 8 < 128)) (.inl (by simp)) _ hb2
    simp [program, messageGo, field, h2, andThen, fieldValue, h1]
  · exact more _ (by omega) (by omega) (more (2 ^ 35) (by omega) (by omega) (more (2 ^ 28) (by omega) (by omega)
      (more (2 ^ 21) (by omega) (by omega) (more (2 ^ 14) (by omega) (by omega) (more (2 ^ 7) (by omega) (by omega)
        (.last (by omega : 1 < 128)) (by decide)) (by decide)) (by decide)) (by decide)) (by decide)) (by decide)
  · exact more _ (by omega) (by omega) (more (2 ^ 57 - 1) (by omega) (by omega) (more (2 ^ 50 - 1) (by omega) (by omega)
      (more (2 ^ 43 - 1) (by omega) (by omega) (more (2 ^ 36 - 1) (by omega) (by omega) (more (2 ^ 29 - 1) (by omega) (by omega)
        (more (2 ^ 22 - 1) (by omega) (by omega) (more (2 ^ 15 - 1) (by omega) (by omega) (more (2 ^ 8 - 1) (by omega) (by omega)
          (.last (by omega : 1 < 128)) (by decide)) (by decide)) (by decide)) (by decide)) (by decide)) (by decide)) (by decide))
            (by decide)) (by decide)

/-- **C104** (refuted) The signed value that is printed for a field of 32 or 64 bits (l.42 and l.56) is neither the number with these
    bits nor the one whose zigzag encoding they are: for every positive number it is twice the number, and a negative one if this does
    not fit; e.g. 2 for 1. -/
theorem C104_signed_refuted :
    (∀ v, 0 < v → v < 2 ^ 31 → asSigned 32 v ≠ twosComplement 32 v ∧ asSigned 32 v ≠ zigzag v)
    ∧ (∀ v, 0 < v → v < 2 ^ 63 → asSigned 64 v ≠ twosComplement 64 v ∧ asSigned 64 v ≠ zigzag v)
    ∧ asSigned 32 1 = 2 ∧ twosComplement 32 1 = 1 ∧ zigzag 1 = -1 ∧ asSigned 32 (2 ^ 32 - 1) = -1 := by
  have key : ∀ n v, 1 ≤ n → 2 ^ (n - 1) % 5 ≠ 4 → 0 < v → v < 2 ^ (n - 1) → asSigned n v ≠ twosComplement n v ∧ asSigned n v ≠ zigzag v := by
    intro n v hn h5 h0 hv
    have hp : (2 : Nat) ^ n = 2 * 2 ^ (n - 1) := by
      rw [show n = (n - 1) + 1 by omega, Nat.pow_succ]; simp; omega
    have h1 : v >>> (n - 1) = 0 := by rw [Nat.shiftRight_eq_div_pow]; exact Nat.div_eq_of_lt hv
    have h2 : (v <<< 1) % 2 ^ n = 2 * v := by
      rw [Nat.shiftLeft_eq, Nat.pow_one, Nat.mul_comm]; exact Nat.mod_eq_of_lt (by omega)
    have hpi : (2 : Int) ^ n = ((2 ^ n : Nat) : Int) := by simp
    have e : asSigned n v = if 2 * v < 2 ^ (n - 1) then ((2 * v : Nat) : Int) else ((2 * v : Nat) : Int) - (2 ^ n : Nat) := by
      unfold asSigned; rw [h1, h2, Nat.xor_zero, hpi]
    have e2 : twosComplement n v = v := by unfold twosComplement; rw [if_pos hv]
    rw [e, e2]
    unfold zigzag
    generalize (2 : Nat) ^ (n - 1) = q at *
    rw [hp]
    constructor <;> (repeat' split) <;> omega
  exact ⟨fun v => key 32 v (by omega) (by decide), fun v => key 64 v (by omega) (by decide), by decide, by decide, by decide, by decide⟩

/-- A message with all kinds of fields; an unknown wire type and missing bytes are errors. -/
example : program [8, 150, 1, 18, 3, 97, 98, 99, 29, 1, 2, 0, 0, 33, 1, 0, 0, 0, 0, 0, 0, 0]
      = some (some [(1, .varint 150), (2, .bytes [97, 98, 99]), (3, .fixed32 513), (4, .fixed64 1)])
    ∧ program [] = some (some []) ∧ program [8, 255, 255, 255, 255, 15] = some (some [(1, .varint (2 ^ 32 - 1))])
    ∧ program [11] = some none ∧ program [8, 128] = some none ∧ program [18, 3, 97] = some none
    ∧ program [29, 1, 2, 0] = some none := by
  refine ⟨?_, ?_, ?_, ?_, ?_, ?_, ?_⟩ <;> decide +kernel

/-- The hypotheses are met by this message. -/
example : NoRun [8, 150, 1, 18, 3, 97, 98, 99]
    ∧ Message Short [(1, .varint 150), (2, .bytes [97, 98, 99])] [8, 150, 1, 18, 3, 97, 98, 99] := by
  refine ⟨?_, ?_⟩
  · intro pre mid post e hl
    cases Classical.em (∃ b ∈ mid, b < 128) with
    | inl h => exact h
    | inr h =>
      exfalso
      have h2 : ∀ b ∈ mid, ¬ b < 128 := fun b hb hlt => h ⟨b, hb, hlt⟩
      have h3 : ((([8, 150, 1, 18, 3, 97, 98, 99] : List Nat)).filter (128 ≤ ·)).length ≥ 5 := by
        rw [e, List.filter_append, List.filter_append, List.length_append, List.length_append,
          List.filter_eq_self (l := mid).2 (fun b hb => by have := h2 b hb; simp; omega)]
        omega
      exact absurd h3 (by decide)
  · have h150 : Varint 150 [150, 1] := .more (b := 150) (v := 1) (by omega) (by omega) (.last (by omega))
    have f1 : Field Short (1, .varint 150) ([8] ++ [150, 1]) :=
      .varint (k := 8) (.last (by omega)) (.inl (by simp)) (by omega) h150 (.inl (by simp))
    have f2 : Field Short (2, .bytes [97, 98, 99]) ([18] ++ [3] ++ [97, 98, 99]) :=
      .bytes (k := 18) (n := 3) (.last (by omega)) (.inl (by simp)) (by omega) (.last (by omega)) (.inl (by simp)) (by simp)
    exact .cons f1 (.cons f2 .nil)

end Verif.Pb
