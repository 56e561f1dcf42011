import Verif.Swar

/-
Model of `lexy::buffer`, its sentinel reader, the range reader, `make_buffer_from_raw` and
`make_buffer_from_input`.

Source: /repo/include/lexy/input/buffer.hpp, /repo/include/lexy/input/base.hpp,
        /repo/include/lexy/_detail/swar.hpp, /repo/include/lexy/encoding.hpp

A block of memory is a list of cells, a cell is `none` until it is written.  A pointer into the
block is an offset.  Reading an unwritten cell, reading or moving outside of the block, and a
violated `LEXY_PRECONDITION` are all the outcome `none`.  The characters of a sentinel encoding are
compared as unsigned values (`int_type(-1)` of ascii_encoding is `0xFF`).

Memory resources are modelled in `BufferOwn.lean`.
-/

namespace Verif

/-- What the buffer needs to know about an encoding, encoding.hpp l.26-201: the size of `char_type`
    and, if `char_type` and `int_type` are the same type, the value `eof()` (buffer.hpp l.98-99,
    `_has_sentinel`). -/
structure BEnc where
  bytes : Nat
  sentinel : Option Nat
  deriving DecidableEq

namespace BEnc
/-- encoding.hpp l.27-55, l.180-200: `int_type` is `int`. -/
def default : BEnc := ⟨1, none⟩
def byte : BEnc := ⟨1, none⟩
/-- encoding.hpp l.58-81. -/
def ascii : BEnc := ⟨1, some 0xFF⟩
/-- encoding.hpp l.84-105. -/
def utf8 : BEnc := ⟨1, some 0xFF⟩
/-- encoding.hpp l.108-129. -/
def utf8char : BEnc := ⟨1, some 0xFF⟩
/-- encoding.hpp l.132-153: `int_type` is `std::int_least32_t`. -/
def utf16 : BEnc := ⟨2, none⟩
/-- encoding.hpp l.156-177. -/
def utf32 : BEnc := ⟨4, some 0xFFFFFFFF⟩

/-- The word layout of the encoding, swar.hpp l.22-30. -/
def swar (e : BEnc) : Swar := ⟨8 * e.bytes, 8 / e.bytes⟩
end BEnc

/-- `round_size_for_swar`, swar.hpp l.239-247.  `allocate` passes a number of characters. -/
def roundSizeForSwar (n : Nat) : Nat :=
  (if n % 8 > 0 then n + (8 - n % 8) else n) + 8

/-- `buffer`, buffer.hpp l.295-296: `_data` (`none` is the null pointer) and `_size`. -/
structure Buf where
  data : Option (List (Option Nat))
  size : Nat
  deriving DecidableEq

namespace Buf

/-- `buffer::allocate`, buffer.hpp l.274-292. -/
def allocate (e : BEnc) (size : Nat) : List (Option Nat) :=
  match e.sentinel with
  | some eof =>
    let memSize := roundSizeForSwar (size + 1)
    List.replicate size none ++ List.replicate (memSize - size) (some eof)
  | none => List.replicate size none

/-- `memcpy(dest, src, …)` / a loop of `*dest++ = …` from the beginning of a block;
    `none` = writes outside of the block. -/
def store : List (Option Nat) → List Nat → Option (List (Option Nat))
  | mem, [] => some mem
  | [], _ :: _ => none
  | _ :: mem, c :: cs => (store mem cs).map (some c :: ·)

/-- `buffer()`, buffer.hpp l.148-152. -/
def empty : Buf := ⟨none, 0⟩

/-- `buffer(data, size)`, buffer.hpp l.154-161. -/
def ofData (e : BEnc) (cs : List Nat) : Option Buf :=
  let mem := allocate e cs.length
  if cs.length > 0 then (store mem cs).map (⟨some ·, cs.length⟩) else some ⟨some mem, cs.length⟩

/-- `builder(size)`, buffer.hpp l.111-117. -/
def builder (e : BEnc) (size : Nat) : Buf := ⟨some (allocate e size), size⟩

/-- `builder.data()[i] = c`, allowed for `i < size()` (buffer.hpp l.119-126). -/
def poke (b : Buf) (i c : Nat) : Option Buf :=
  match b.data with
  | some mem => if i < b.size then some ⟨some (mem.set i (some c)), b.size⟩ else none
  | none => none

/-- A sequence of writes through `builder.data()`. -/
def pokes (b : Buf) : List (Nat × Nat) → Option Buf
  | [] => some b
  | (i, c) :: ws => (b.poke i c).bind (·.pokes ws)

/-- The characters `[data(), data() + size())`, all of them initialised. -/
def content (b : Buf) : Option (List Nat) :=
  match b.data with
  | some mem => if b.size ≤ mem.length then (mem.take b.size).mapM id else none
  | none => if b.size = 0 then some [] else none

/-- The copy constructor, buffer.hpp l.189-192. -/
def copy (e : BEnc) (b : Buf) : Option Buf := b.content.bind (ofData e)

end Buf

/-! ### Readers -/

/-- Operations a parser performs on a reader. `mark` is `current()`, `reset i` resets to the `i`-th
    marker taken so far. -/
inductive ROp
  | peek
  | bump
  | mark
  | reset (i : Nat)
  | peekSwar
  | bumpSwar
  | bumpSwarN (n : Nat)
  deriving DecidableEq

/-- What the parser observes: the value of `peek()` (`none` is an `eof()` that is not a character),
    the value of `peek_swar()`, or the position (as distance from the beginning). -/
inductive RObs
  | char (c : Option Nat)
  | word (w : Nat)
  | pos (p : Nat)
  deriving DecidableEq

/-- The state of a reader: the current position and the markers taken. -/
structure RSt where
  pos : Nat := 0
  marks : List Nat := []

/-- Reading one cell. -/
def cell (mem : List (Option Nat)) (p : Nat) : Option Nat := mem[p]?.join

/-- One operation on the sentinel reader `_br`, buffer.hpp l.18-63, and on its base class
    `swar_reader_base`, swar.hpp l.202-237 (on a little endian machine). -/
def brStep (e : BEnc) (mem : List (Option Nat)) (s : RSt) : ROp → Option (RSt × RObs)
  | .peek => (cell mem s.pos).map fun c => (s, .char (some c))
  | .bump => if s.pos + 1 ≤ mem.length then some ({s with pos := s.pos + 1}, .pos (s.pos + 1)) else none
  | .mark => some ({s with marks := s.marks ++ [s.pos]}, .pos s.pos)
  | .reset i => s.marks[i]?.map fun p => ({s with pos := p}, .pos p)
  | .peekSwar =>
    (((mem.drop s.pos).take e.swar.n).mapM id).bind fun w =>
      (e.swar.peekSwar w).map fun v => (s, .word v)
  | .bumpSwar =>
    if s.pos + e.swar.n ≤ mem.length then
      some ({s with pos := s.pos + e.swar.n}, .pos (s.pos + e.swar.n)) else none
  | .bumpSwarN n =>
    if s.pos + n ≤ mem.length then some ({s with pos := s.pos + n}, .pos (s.pos + n)) else none

/-- One operation on the range reader `_rr` over `[begin, end)`, base.hpp l.15-68.  It has no
    `peek_swar`. -/
def rrStep (e : BEnc) (mem : List (Option Nat)) (fin : Nat) (s : RSt) : ROp → Option (RSt × RObs)
  | .peek =>
    if s.pos = fin then some (s, .char e.sentinel)
    else (cell mem s.pos).map fun c => (s, .char (some c))
  | .bump => if s.pos = fin then none else some ({s with pos := s.pos + 1}, .pos (s.pos + 1))
  | .mark => some ({s with marks := s.marks ++ [s.pos]}, .pos s.pos)
  | .reset i =>
    s.marks[i]?.bind fun p => if p ≤ fin then some ({s with pos := p}, .pos p) else none
  | .peekSwar | .bumpSwar | .bumpSwarN _ => none

/-- One operation on the reader returned by `buffer::reader()`, buffer.hpp l.265-271. -/
def Buf.step (e : BEnc) (b : Buf) (s : RSt) (op : ROp) : Option (RSt × RObs) :=
  match e.sentinel, b.data with
  | some _, some mem => brStep e mem s op
  | some _, none => brStep e [] s op
  | none, some mem => rrStep e mem b.size s op
  | none, none => rrStep e [] b.size s op

/-- A sequence of operations and its observations. -/
def runOps (step : RSt → ROp → Option (RSt × RObs)) (s : RSt) : List ROp → Option (List RObs)
  | [] => some []
  | op :: ops => (step s op).bind fun (s', o) => (runOps step s' ops).map (o :: ·)

/-- Reading a buffer from its beginning. -/
def Buf.run (e : BEnc) (b : Buf) (ops : List ROp) : Option (List RObs) := runOps (b.step e) {} ops

/-! ### Raw memory -/

inductive Endian
  | little
  | big
  deriving DecidableEq

/-- Bytes as an object of the given size, with the endianness of the machine: what
    `reinterpret_cast<const char_type*>(memory)[i]` reads, buffer.hpp l.336. -/
def loadNative : Endian → List Nat → Nat
  | .little, bs => bs.foldr (fun b acc => b + 256 * acc) 0
  | .big, bs => bs.foldl (fun acc b => 256 * acc + b) 0

/-- Cuts memory into objects of `n` bytes. -/
def groups (n : Nat) (bs : List Nat) : List (List Nat) :=
  if _h : n = 0 ∨ bs = [] then []
  else bs.take n :: groups n (bs.drop n)
termination_by bs.length
decreasing_by
  have : bs.length ≠ 0 := by cases bs <;> simp_all
  simp only [List.length_drop]; omega

/-- The body of the loop for the other endianness, buffer.hpp l.351-362.  The shifts happen in
    `int`; the conversion to `char_type` keeps the low bits.  `none` = does not compile. -/
def convertUnit (bytes : Nat) (end_ : Endian) (m : List Nat) : Option Nat :=
  match bytes, end_, m with
  | 2, .little, [m0, m1] => some ((m0 <<< 0 ||| m1 <<< 8) % 2 ^ 16)
  | 4, .little, [m0, m1, m2, m3] =>
    some ((m0 <<< 0 ||| m1 <<< 8 ||| m2 <<< 16 ||| m3 <<< 24) % 2 ^ 32)
  | 2, .big, [m0, m1] => some ((m0 <<< 8 ||| m1 <<< 0) % 2 ^ 16)
  | 4, .big, [m0, m1, m2, m3] =>
    some ((m0 <<< 24 ||| m1 <<< 16 ||| m2 <<< 8 ||| m3 <<< 0) % 2 ^ 32)
  | _, _, _ => none

/-- `_make_buffer<Encoding, Endian>::operator()`, buffer.hpp l.318-368, on a machine with endianness
    `native`. -/
def makeBuffer (native : Endian) (e : BEnc) (end_ : Endian) (mem : List Nat) : Option Buf :=
  if mem.length % e.bytes = 0 then
    if e.bytes = 1 ∨ end_ = native then
      Buf.ofData e ((groups e.bytes mem).map (loadNative native))
    else
      let b := Buf.builder e (mem.length / e.bytes)
      ((groups e.bytes mem).mapM (convertUnit e.bytes end_)).bind fun cs =>
        (Buf.store (Buf.allocate e (mem.length / e.bytes)) cs).map fun m => ⟨some m, b.size⟩
  else none

/-- The encodings for which `_make_buffer` is specialised for `encoding_endianness::bom`. -/
inductive BomEnc
  | utf8
  | utf8char
  | utf16
  | utf32
  deriving DecidableEq

def BomEnc.enc : BomEnc → BEnc
  | .utf8 => BEnc.utf8
  | .utf8char => BEnc.utf8char
  | .utf16 => BEnc.utf16
  | .utf32 => BEnc.utf32

/-- `_make_buffer<…, encoding_endianness::bom>`, buffer.hpp l.369-449. -/
def makeBufferBom (native : Endian) (k : BomEnc) (mem : List Nat) : Option Buf :=
  match k with
  | .utf8 | .utf8char => -- l.369-406
    if mem.length ≥ 3 ∧ mem[0]? = some 0xEF ∧ mem[1]? = some 0xBB ∧ mem[2]? = some 0xBF then
      makeBuffer native k.enc .big (mem.drop 3)
    else makeBuffer native k.enc .big mem
  | .utf16 => -- l.407-427
    if mem.length < 2 then makeBuffer native k.enc .big mem
    else if mem[0]? = some 0xFF ∧ mem[1]? = some 0xFE then
      makeBuffer native k.enc .little (mem.drop 2)
    else if mem[0]? = some 0xFE ∧ mem[1]? = some 0xFF then
      makeBuffer native k.enc .big (mem.drop 2)
    else makeBuffer native k.enc .big mem
  | .utf32 => -- l.428-449
    if mem.length ≥ 4 then
      if mem[0]? = some 0xFF ∧ mem[1]? = some 0xFE ∧ mem[2]? = some 0x00 ∧ mem[3]? = some 0x00 then
        makeBuffer native k.enc .little (mem.drop 4)
      -- l.443: `… && memory[3]`
      else if mem[0]? = some 0x00 ∧ mem[1]? = some 0x00 ∧ mem[2]? = some 0xFE
          ∧ mem[3]?.all (· ≠ 0) then
        makeBuffer native k.enc .big (mem.drop 4)
      else makeBuffer native k.enc .big mem
    else makeBuffer native k.enc .big mem

/-! ### Copying another input -/

/-- `while (reader.peek() != eof()) reader.bump();` over the range reader of an input without
    `data()`, buffer.hpp l.472-476. -/
def scanEof (e : BEnc) : List Nat → Nat
  | [] => 0
  | c :: cs => if some c = e.sentinel then 0 else 1 + scanEof e cs

/-- `make_buffer_from_input`, buffer.hpp l.459-493; `contig` tells whether the input has `data()`. -/
def makeBufferFromInput (e : BEnc) (contig : Bool) (input : List Nat) : Option Buf :=
  if contig then Buf.ofData e input
  else
    let size := scanEof e input
    (Buf.store (Buf.allocate e size) (input.take size)).map fun m => ⟨some m, size⟩

/-! ### Word-wise reading on a big endian machine -/

/-- The loop of `peek_swar`, swar.hpp l.213-221: copies the `sizeof(char_type)` bytes of the
    characters, last one first, to `dst + i`.  `dst` starts uninitialised. -/
def swarCopy (bytes : Nat) (dst : List (Option Nat)) (i : Nat) : List (List Nat) → List (Option Nat)
  | [] => dst
  | c :: cs =>
    swarCopy bytes (dst.take i ++ (c.map some) ++ dst.drop (i + c.length)) (i + 1) cs

/-- `peek_swar`, swar.hpp l.206-223, on a big endian machine: `chars` are the next characters, each
    as its bytes in memory order. -/
def peekSwarBig (bytes : Nat) (chars : List (List Nat)) : Option Nat :=
  let length := 8 / bytes
  let dst := swarCopy bytes (List.replicate 8 none) 0 (chars.take length).reverse
  ((dst.take 8).mapM id).map (loadNative .big)

end Verif
