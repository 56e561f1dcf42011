import Verif.Buffer

/-
Model of the ownership side of `lexy::buffer`: which buffer owns which allocation, which resource it
came from, and with which size it is given back.

Source: /repo/include/lexy/input/buffer.hpp l.101-296, /repo/include/lexy/_detail/memory_resource.hpp

The heap maps addresses to allocated blocks.  `deallocate` of a block that is not allocated, of a
different size, or from a resource that does not compare equal to the one it was allocated from is
the outcome `none`.  The objects of a program live in slots; the slot `none` is used for the unnamed
temporary of the assignment operators.  A slot holds a buffer, or a pointer the client got from
`release()` together with the size and the resource the client has to remember.
-/

namespace Verif.Own

/-- An allocation: the resource it came from, its size in bytes, and the characters written. -/
structure Blk where
  res : Nat
  bytes : Nat
  chars : List Nat

/-- The members of a buffer, buffer.hpp l.294-296. -/
structure Obj where
  res : Nat
  data : Option Nat
  size : Nat

/-- A slot of the program: a buffer, or memory released to the client. -/
structure Own where
  obj : Obj
  raw : Bool

/-- Static parameters: the encoding, whether `MemoryResource` is an empty class, and equality of
    resources (`operator==`). -/
structure Par where
  enc : BEnc
  emptyRes : Bool
  eqv : Nat → Nat → Bool

/-- The state of the program. -/
structure W where
  slots : Option Nat → Option Own
  heap : Nat → Option Blk
  next : Nat

def W.init : W := ⟨fun _ => none, fun _ => none, 0⟩

def W.setSlot (w : W) (i : Option Nat) (o : Option Own) : W :=
  {w with slots := fun j => if j = i then o else w.slots j}

def W.setHeap (w : W) (p : Nat) (b : Option Blk) : W :=
  {w with heap := fun q => if q = p then b else w.heap q}

variable (P : Par)

/-- The number of bytes requested by `allocate(size)` (buffer.hpp l.274-292) and given back by the
    destructor (l.206-211). -/
def bytesFor (size : Nat) : Nat :=
  match P.enc.sentinel with
  | some _ => roundSizeForSwar (size + 1) * P.enc.bytes
  | none => size * P.enc.bytes

/-- The buffer in a slot. -/
def W.buf (w : W) (i : Option Nat) : Option Obj :=
  match w.slots i with
  | some o => if o.raw then none else some o.obj
  | none => none

/-- `[data(), data() + size())`. -/
def W.content (w : W) (o : Obj) : Option (List Nat) :=
  match o.data with
  | some p => (w.heap p).bind fun b => if o.size = b.chars.length then some b.chars else none
  | none => if o.size = 0 then some [] else none

/-- `buffer(data, size, resource)`, buffer.hpp l.154-161 (the builder, l.111-117, allocates in the
    same way), into an unused slot. -/
def construct (w : W) (i : Option Nat) (res : Nat) (cs : List Nat) : Option W :=
  match w.slots i with
  | some _ => none
  | none =>
    let w := {w with next := w.next + 1}.setHeap w.next (some ⟨res, bytesFor P cs.length, cs⟩)
    some (w.setSlot i (some ⟨⟨res, some (w.next - 1), cs.length⟩, false⟩))

/-- `buffer(resource)`, buffer.hpp l.148-152. -/
def constructEmpty (w : W) (i : Option Nat) (res : Nat) : Option W :=
  match w.slots i with
  | some _ => none
  | none => some (w.setSlot i (some ⟨⟨res, none, 0⟩, false⟩))

/-- `deallocate(_data, bytes, …)` through the given resource. -/
def deallocate (w : W) (res : Nat) (p bytes : Nat) : Option W :=
  match w.heap p with
  | some b => if P.eqv res b.res ∧ b.bytes = bytes then some (w.setHeap p none) else none
  | none => none

/-- `~buffer()`, buffer.hpp l.201-212. -/
def destroy (w : W) (i : Option Nat) : Option W :=
  (w.buf i).bind fun o =>
    match o.data with
    | none => some (w.setSlot i none)
    | some p => (deallocate P w o.res p (bytesFor P o.size)).map (·.setSlot i none)

/-- The copy constructor with a resource, buffer.hpp l.189-192. -/
def copyTo (w : W) (i j : Option Nat) (res : Nat) : Option W :=
  (w.buf j).bind fun o => (w.content o).bind (construct P w i res)

/-- The move constructor, buffer.hpp l.194-199. -/
def moveTo (w : W) (i j : Option Nat) : Option W :=
  match w.slots i with
  | some _ => none
  | none => (w.buf j).map fun o =>
    (w.setSlot i (some ⟨o, false⟩)).setSlot j (some ⟨{o with data := none, size := 0}, false⟩)

/-- `swap(_data, other._data); swap(_size, other._size);` -/
def swapData (w : W) (i j : Option Nat) : Option W :=
  (w.buf i).bind fun a => (w.buf j).map fun b =>
    if i = j then w
    else (w.setSlot i (some ⟨{a with data := b.data, size := b.size}, false⟩)).setSlot j
      (some ⟨{b with data := a.data, size := a.size}, false⟩)

/-- `operator=(buffer&&)`, buffer.hpp l.223-243; `t` is the slot of the local variable `copy`. -/
def moveAssign (w : W) (i j t : Option Nat) : Option W :=
  (w.buf i).bind fun a => (w.buf j).bind fun b =>
    if P.eqv a.res b.res then swapData w i j
    else if P.emptyRes then none
    else (copyTo P w t j a.res).bind fun w => (swapData w i t).bind fun w => destroy P w t

/-- `operator=(const buffer&)`, buffer.hpp l.214-220: move-assigns the temporary
    `buffer(other, _resource.get())`.  The temporary has our resource, so the move assignment
    swaps. -/
def copyAssign (w : W) (i j : Option Nat) : Option W :=
  (w.buf i).bind fun a => (copyTo P w none j a.res).bind fun w =>
    -- the nested local variable of `moveAssign` would need a second temporary slot
    (if P.eqv a.res a.res then swapData w i none else none).bind fun w => destroy P w none

/-- `release()`, buffer.hpp l.256-262; the client keeps the pointer in slot `j`. -/
def release (w : W) (i j : Option Nat) : Option W :=
  match w.slots j with
  | some _ => none
  | none => (w.buf i).map fun o =>
    (w.setSlot j (some ⟨o, true⟩)).setSlot i (some ⟨{o with data := none, size := 0}, false⟩)

/-- `adopt(data, size, resource)`, buffer.hpp l.137-146: data and size come from a released buffer
    whose resource compares equal. -/
def adopt (w : W) (i j : Option Nat) (res : Nat) : Option W :=
  match w.slots i, w.slots j with
  | none, some o =>
    if o.raw ∧ P.eqv res o.obj.res ∧ P.eqv o.obj.res res then
      some ((w.setSlot j none).setSlot i (some ⟨{o.obj with res := res}, false⟩))
    else none
  | _, _ => none

/-- What a program does with buffers. -/
inductive Op
  | construct (i res : Nat) (cs : List Nat)
  | empty (i res : Nat)
  | copy (i j res : Nat)
  | move (i j : Nat)
  | copyAssign (i j : Nat)
  | moveAssign (i j : Nat)
  | release (i j : Nat)
  | adopt (i j res : Nat)
  | destroy (i : Nat)

def step (w : W) : Op → Option W
  | .construct i res cs => construct P w (some i) res cs
  | .empty i res => constructEmpty w (some i) res
  | .copy i j res => copyTo P w (some i) (some j) res
  | .move i j => moveTo w (some i) (some j)
  | .copyAssign i j => copyAssign P w (some i) (some j)
  | .moveAssign i j => moveAssign P w (some i) (some j) none
  | .release i j => release w (some i) (some j)
  | .adopt i j res => adopt P w (some i) (some j) res
  | .destroy i => destroy P w (some i)

def run (w : W) : List Op → Option W
  | [] => some w
  | op :: ops => (step P w op).bind (run · ops)

end Verif.Own
