/-!
# `lexy::_detail::basic_string_view` and `type_name`

Model of lexy/_detail/string_view.hpp and of the functions of lexy/_detail/type_name.hpp on strings.
A view points into an array; `none` is a violated precondition or a read outside of the array.
-/

namespace Verif.Sv

/-- `npos`, string_view.hpp l.108 (64 bit). -/
def npos : Nat := 2 ^ 64 - 1

/-- `basic_string_view`, l.187-190: the array `_ptr` points into, the index of `_ptr`, `_size` and
    `_null_terminated`. -/
structure View where
  mem : List Nat
  off : Nat
  size : Nat
  nt : Bool
  deriving DecidableEq

/-- `basic_string_view(const char_type* str)`, l.28-33. -/
def cstrLen : List Nat → Option Nat
  | [] => none
  | c :: cs => if c = 0 then some 0 else (cstrLen cs).map (· + 1)

def View.ofCstr (mem : List Nat) (off : Nat) : Option View :=
  (cstrLen (mem.drop off)).map fun n => ⟨mem, off, n, true⟩

/-- `basic_string_view()`, l.25-26. -/
def View.empty : View := ⟨[0], 0, 0, true⟩

/-- `basic_string_view(ptr, size)`, l.35-37. -/
def View.ofSize (mem : List Nat) (off size : Nat) : View := ⟨mem, off, size, false⟩

/-- `basic_string_view(null_terminated, ptr, size)`, l.38-42. -/
def View.ofTerminated (mem : List Nat) (off size : Nat) : Option View :=
  mem[off + size]?.bind fun c => if c = 0 then some ⟨mem, off, size, true⟩ else none

/-- `basic_string_view(begin, end)`, l.44-48. -/
def View.ofRange (mem : List Nat) (b e : Nat) : Option View :=
  if b ≤ e then some ⟨mem, b, e - b, false⟩ else none

/-- `operator[]`, l.75-79. -/
def View.get (v : View) (i : Nat) : Option Nat := if i ≤ v.size then v.mem[v.off + i]? else none

/-- `front`, l.80-84. -/
def View.front (v : View) : Option Nat := if v.size ≠ 0 then v.mem[v.off]? else none

/-- `back`, l.85-89. -/
def View.back (v : View) : Option Nat := if v.size ≠ 0 then v.mem[v.off + (v.size - 1)]? else none

/-- `c_str`, l.101-105, and what is read up to the null. -/
def View.cstr (v : View) : Option (List Nat) :=
  if v.nt then (cstrLen (v.mem.drop v.off)).map fun n => (v.mem.drop v.off).take n else none

/-- `remove_prefix`, l.110-115. -/
def View.removePrefix (v : View) (n : Nat) : Option View :=
  if n ≤ v.size then some { v with off := v.off + n, size := v.size - n } else none

/-- `remove_suffix`, l.116-121. -/
def View.removeSuffix (v : View) (n : Nat) : Option View :=
  if n ≤ v.size then some { v with size := v.size - n, nt := false } else none

/-- `substr`, l.123-137. -/
def View.substr (v : View) (pos : Nat) (length : Nat := npos) : Option View :=
  if pos < v.size then
    if length ≥ v.size - pos then some ⟨v.mem, v.off + pos, v.size - pos, v.nt⟩
    else some ⟨v.mem, v.off + pos, length, false⟩
  else none

/-- The loop of `operator==`, l.174-178, over `n` characters. -/
def eqLoop (m1 m2 : List Nat) : Nat → Nat → Nat → Option Bool
  | 0, _, _ => some true
  | n + 1, a, b => m1[a]?.bind fun c => m2[b]?.bind fun d =>
      if c ≠ d then some false else eqLoop m1 m2 n (a + 1) (b + 1)

/-- `operator==`, l.168-179. -/
def View.eq (l r : View) : Option Bool :=
  if l.size ≠ r.size then some false else eqLoop l.mem r.mem l.size l.off r.off

/-- `starts_with`, l.139-142. -/
def View.startsWith (v p : View) : Option Bool := (v.substr 0 p.size).bind fun s => s.eq p

/-- `try_remove_prefix`, l.143-150. -/
def View.tryRemovePrefix (v p : View) : Option (Bool × View) :=
  (v.startsWith p).bind fun b =>
    if b then (v.removePrefix p.size).map fun w => (true, w) else some (false, v)

/-- The loop of `find`, l.154-158, with `n` positions left. -/
def findLoop (v str : View) : Nat → Nat → Option Nat
  | 0, _ => some npos
  | n + 1, i => (v.substr i str.size).bind fun s => (s.eq str).bind fun b =>
      if b then some i else findLoop v str n (i + 1)

/-- `find(str, pos)`, l.152-161. -/
def View.find (v str : View) (pos : Nat := 0) : Option Nat := findLoop v str (v.size - pos) pos

/-- `find(c, pos)`, l.162-165. -/
def View.findChar (v : View) (c : Nat) (pos : Nat := 0) : Option Nat := v.find (.ofSize [c] 0 1) pos

/-- A string literal as view. -/
def lit (s : List Nat) : View := ⟨s ++ [0], 0, s.length, true⟩

/-- The values of a string. -/
def chars (s : String) : List Nat := s.toList.map Char.toNat

/-- `_string_view_holder::value`, l.204: the characters of the view and a null. -/
def makeCstr (v : View) : Option (List Nat) := (List.range v.size).foldr (fun i acc =>
  (v.get i).bind fun c => acc.map (c :: ·)) (some [0])

/-- The strings around the name of the type in `__PRETTY_FUNCTION__`, type_name.hpp l.26-27 and l.43-45,
    and the name of an anonymous namespace, l.32 and l.50. -/
structure Compiler where
  pre : List Nat
  suf : List Nat
  anon : List Nat

def clang : Compiler :=
  ⟨chars "auto lexy::_detail::_full_type_name() [T = ", chars "]", chars "(anonymous namespace)::"⟩

def gcc : Compiler :=
  ⟨chars "constexpr auto lexy::_detail::_full_type_name() [with T = ", chars "]", chars "{anonymous}::"⟩

/-- `_full_type_name`, type_name.hpp l.22-51, on the value of `__PRETTY_FUNCTION__`. -/
def fullTypeName (cc : Compiler) (pretty : List Nat) : Option View :=
  (View.ofCstr (pretty ++ [0]) 0).bind fun f =>
    (f.removePrefix cc.pre.length).bind fun f => (f.removeSuffix cc.suf.length).bind fun f =>
      (f.tryRemovePrefix (lit cc.anon)).map (·.2)

/-- The loop of `_type_name`, l.83-89. -/
def stripNs : Nat → View → Option View
  | 0, v => some v
  | n + 1, v => (v.find (lit [58, 58])).bind fun pos =>
      if pos = npos then some v else (v.removePrefix (pos + 2)).bind (stripNs n)

/-- `_type_name<T, NsCount>`, l.76-91. -/
def typeNameView (cc : Compiler) (pretty : List Nat) (nsCount : Nat) : Option View :=
  (fullTypeName cc pretty).bind fun name => (name.findChar 60).bind fun p =>
    if p ≠ npos ∧ nsCount ≠ 0 then some name else stripNs nsCount name

/-- `type_name<T, NsCount>` of a type without `name`, l.100-101: the array pointed to. -/
def typeName (cc : Compiler) (pretty : List Nat) (nsCount : Nat) : Option (List Nat) :=
  (typeNameView cc pretty nsCount).bind makeCstr

end Verif.Sv
