import Verif.Buffer

/-
Model of `buffer_builder`, `read_stdin`, `read_file` and of the interactive shell input.

Source: /repo/include/lexy/_detail/buffer_builder.hpp, /repo/src/input/file.cpp,
        /repo/include/lexy/input/file.hpp, /repo/include/lexy_ext/shell.hpp

Memory cells are `Option Nat` as in `Buffer.lean`; `none` as a result means a violated
`LEXY_PRECONDITION`/`LEXY_ASSERT` or an access outside of the allocation or to an unwritten cell.
The operating system is a parameter: what `fread`, `read`, `lseek`, `mmap` and the prompt answer.
-/

namespace Verif

/-! ### buffer_builder -/

/-- `buffer_builder<T>`, buffer_builder.hpp l.19-156: the memory `_data` points to, `_read_size` and
    `_write_size`. -/
structure BB where
  data : List (Option Nat)
  readSize : Nat
  writeSize : Nat

namespace BB

/-- `stack_buffer_size`, buffer_builder.hpp l.23-25, with 8 byte pointers; `sz` is `sizeof(T)`. -/
def stackSize (sz : Nat) : Nat := (1024 - 3 * 8) / sz

/-- The constructor, l.29-32. -/
def init (sz : Nat) : BB := ⟨List.replicate (stackSize sz) none, 0, stackSize sz⟩

/-- `capacity()`, l.45-48. -/
def capacity (b : BB) : Nat := b.readSize + b.writeSize

/-- The read area, l.51-58. -/
def readArea (b : BB) : List (Option Nat) := b.data.take b.readSize

/-- Writing characters to the beginning of the write area (l.61-68). -/
def write (b : BB) (cs : List Nat) : Option BB :=
  if cs.length ≤ b.writeSize ∧ b.readSize + b.writeSize ≤ b.data.length then
    some {b with data := b.data.take b.readSize ++ cs.map some
                          ++ b.data.drop (b.readSize + cs.length)}
  else none

/-- `clear()`, l.71-75. -/
def clear (b : BB) : BB := ⟨b.data, 0, b.writeSize + b.readSize⟩

/-- `commit(n)`, l.78-83. -/
def commit (b : BB) (n : Nat) : Option BB :=
  if n ≤ b.writeSize then some ⟨b.data, b.readSize + n, b.writeSize - n⟩ else none

/-- `std::memcpy(memory, _data, bytes)` into uninitialised memory of `cap` characters of `sz` bytes:
    a character of which not all bytes are copied has no defined value. -/
def memcpyBytes (sz cap bytes : Nat) (src : List (Option Nat)) : List (Option Nat) :=
  src.take (bytes / sz) ++ List.replicate (cap - bytes / sz) none

/-- `grow()`, l.86-104.  Line 94 copies `_read_size` bytes. -/
def grow (sz : Nat) (b : BB) : BB :=
  let newCap := 2 * b.capacity
  ⟨memcpyBytes sz newCap b.readSize b.data, b.readSize, newCap - b.readSize⟩

/-- `stable_iterator(buffer, idx).deref()`, l.118-122. -/
def deref (b : BB) (idx : Nat) : Option Nat :=
  if idx = b.readSize then none else (b.data[idx]?).join

/-- What a client does with a builder: write characters and commit them, clear, grow. -/
inductive Op
  | append (cs : List Nat)
  | clear
  | grow

def step (sz : Nat) (b : BB) : Op → Option BB
  | .append cs => (b.write cs).bind (·.commit cs.length)
  | .clear => some b.clear
  | .grow => some (b.grow sz)

def run (sz : Nat) (b : BB) : List Op → Option BB
  | [] => some b
  | op :: ops => (b.step sz op).bind (run sz · ops)

end BB

/-! ### read_stdin -/

/-- What reading a file gives: an error, or the bytes passed to the callback. -/
inductive FileRes
  | osError
  | notFound
  | permission
  | success (bytes : List Nat)
  deriving DecidableEq

/-- A stream: its bytes, and whether reading fails after them (instead of reaching the end). -/
structure Stream where
  bytes : List Nat
  fails : Bool

/-- The loop of `read_stdin`, file.cpp l.196-222.  `fread` reads as much as there is. -/
def readLoop (b : BB) (s : Stream) : Option FileRes :=
  let bufferSize := b.writeSize
  if _h : bufferSize = 0 then none -- LEXY_ASSERT, l.199
  else
    let got := s.bytes.take bufferSize
    ((b.write got).bind (·.commit got.length)).bind fun b' =>
      if _h2 : got.length < bufferSize then
        if s.fails then some .osError
        else (b'.readArea.mapM id).map .success
      else readLoop (b'.grow 1) ⟨s.bytes.drop bufferSize, s.fails⟩
termination_by s.bytes.length
decreasing_by
  simp only [got, List.length_take, bufferSize] at _h2 _h ⊢
  simp only [List.length_drop]
  omega

/-- `read_stdin`, file.cpp l.191-227. -/
def readStdin (s : Stream) : Option FileRes := readLoop (BB.init 1) s

/-! ### read_file -/

/-- The answers of the operating system while a file is read. -/
structure FileOs where
  /-- `open` fails with this error -/
  openError : Option FileRes
  /-- the contents of the file -/
  bytes : List Nat
  /-- `lseek(fd, 0, SEEK_END)` -/
  seekEnd : Option Nat
  /-- `lseek(fd, 0, SEEK_SET)` returns 0 -/
  seekSet : Bool
  /-- how many bytes `read` delivers when asked for all of them -/
  readCount : Nat
  /-- `mmap` succeeds -/
  mmap : Bool

/-- `small_file_size`, `medium_file_size`, file.cpp l.60-61. -/
def smallFile : Nat := 4 * 1024
def mediumFile : Nat := 32 * 1024

/-- `read(fd, buffer, size)` into a buffer of `cap` bytes, then the callback on the first `size`
    bytes. -/
def readInto (os : FileOs) (cap size : Nat) : Option FileRes :=
  if size ≤ cap then
    let got := os.bytes.take (min size os.readCount)
    if got.length ≠ size then some .osError
    else some (.success got)
  else none -- writes past the end of the buffer

/-- `read_file`, file.cpp l.64-109. -/
def readFile (os : FileOs) : Option FileRes :=
  match os.openError with
  | some e => some e
  | none =>
    match os.seekEnd with
    | none => some .osError
    | some size =>
      if size ≤ smallFile then
        if !os.seekSet then some .osError else readInto os smallFile size
      else if size ≤ mediumFile then
        if !os.seekSet then some .osError else readInto os size size
      else if !os.mmap then some .osError
      else if size ≤ os.bytes.length then some (.success (os.bytes.take size)) else none

/-! ### shell -/

/-- A prompt: what the user is going to type until closing the input, and whether the closing has
    been noticed. -/
structure Prompt where
  typed : List Nat
  closed : Bool
  deriving DecidableEq

/-- The characters of the current line, including its newline. -/
def lineOf : List Nat → List Nat
  | [] => []
  | c :: cs => if c = 10 then [c] else c :: lineOf cs

/-- The reader callback of a prompt: at most `n` characters, until and including a newline.  The
    end of the input is noticed when fewer characters arrive without a newline. -/
def Prompt.readLine (p : Prompt) (n : Nat) : List Nat × Prompt :=
  let got := (lineOf p.typed).take n
  (got, ⟨p.typed.drop got.length,
    p.closed || (decide (got.length < n) && !(got.getLast? == some 10))⟩)

/-- `default_prompt::read_line_callback::operator()`, shell.hpp l.102-111: `fgets(memory, size)`
    reads at most `size - 1` characters. (For lines without NUL.) -/
def Prompt.fgets (p : Prompt) (n : Nat) : List Nat × Prompt := p.readLine (n - 1)

/-- `shell`, shell.hpp l.406-407. -/
structure Shell where
  buf : BB
  prompt : Prompt

/-- How the prompt reads: `Prompt.readLine` or `Prompt.fgets`. -/
abbrev ReadFn := Prompt → Nat → List Nat × Prompt

/-- `_buffer.write_data()[-1]`, shell.hpp l.386. -/
def BB.lastWritten (b : BB) : Option Nat :=
  if b.readSize = 0 then none else (b.data[b.readSize - 1]?).join

/-- The loop of `append_next_line`, shell.hpp l.376-401.  `fuel` bounds the number of reads. -/
def appendLoop (rd : ReadFn) : Nat → Shell → Option (Bool × Shell)
  | 0, _ => none
  | fuel + 1, s =>
    let bufferSize := s.buf.writeSize
    let r := rd s.prompt bufferSize
    ((s.buf.write r.1).bind (·.commit r.1.length)).bind fun b =>
      (b.lastWritten).bind fun last =>
        if last = 10 then some (true, ⟨b, r.2⟩)
        else if r.1.length < bufferSize then
          -- LEXY_ASSERT(!_prompt.is_open()), l.393
          if r.2.closed then some (false, ⟨b, r.2⟩) else none
        else appendLoop rd fuel ⟨b.grow 1, r.2⟩

/-- `append_next_line`, shell.hpp l.369-404.  Every read but the last fills a non-empty buffer, so
    that one more read than characters left is enough. -/
def appendNextLine (rd : ReadFn) (s : Shell) : Option (Bool × Shell) :=
  let s := if s.buf.writeSize < 128 then ⟨s.buf.grow 1, s.prompt⟩ else s
  appendLoop rd (s.prompt.typed.length + 2) s

/-- `input(shell)`, shell.hpp l.214-220. -/
def promptForInput (rd : ReadFn) (s : Shell) : Option Shell :=
  (appendNextLine rd ⟨s.buf.clear, s.prompt⟩).map (·.2)

/-- `is_eof`, shell.hpp l.222-240. -/
def shellIsEof (rd : ReadFn) (s : Shell) (idx : Nat) : Option (Bool × Shell) :=
  if idx ≠ s.buf.readSize then some (false, s)
  else if s.prompt.closed then some (true, s)
  else (appendNextLine rd s).map fun (did, s) => (!did, s)

/-- `peek`, shell.hpp l.186-192: `none` inside is `eof()`. -/
def shellPeek (rd : ReadFn) (s : Shell) (idx : Nat) : Option (Option Nat × Shell) :=
  (shellIsEof rd s idx).bind fun (eof, s) =>
    if eof then some (none, s)
    else ((s.buf.data[idx]?).join).map fun c => (some c, s)

/-- Reader operations on the shell input: the reader state is `_idx`. -/
def shellStep (rd : ReadFn) (s : Shell) (r : RSt) : ROp → Option (Shell × RSt × RObs)
  | .peek => (shellPeek rd s r.pos).map fun (c, s) => (s, r, .char c)
  | .bump => some (s, {r with pos := r.pos + 1}, .pos (r.pos + 1))
  | .mark => some (s, {r with marks := r.marks ++ [r.pos]}, .pos r.pos)
  | .reset i => r.marks[i]?.map fun p => (s, {r with pos := p}, .pos p)
  | _ => none

def shellRun (rd : ReadFn) (s : Shell) (r : RSt) : List ROp → Option (List RObs)
  | [] => some []
  | op :: ops => (shellStep rd s r op).bind fun (s, r, o) => (shellRun rd s r ops).map (o :: ·)

/-- A new shell, asked for input, and read by a parser. -/
def shellSession (rd : ReadFn) (typed : List Nat) (ops : List ROp) : Option (List RObs) :=
  (promptForInput rd ⟨BB.init 1, ⟨typed, false⟩⟩).bind fun s => shellRun rd s {} ops

end Verif
