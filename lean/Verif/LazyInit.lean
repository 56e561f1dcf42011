/-!
# `lexy::_detail::lazy_init`: objects created later

Model of lexy/_detail/lazy_init.hpp for types with and without a destructor. Storage is a set of slots; a
slot holds the flag `_init` and the object in the union, if there is one. Constructing over a living object,
and using or destroying one that does not live, is undefined (`none`). Counted: objects that live outside of
any slot (none, if nothing leaks).

Simplified: a value is a number, a moved-from object the value `moved`. `lazy_init<T&>` is a pointer and
`lazy_init<void>` a flag; both are the same with nothing to destroy.
-/

namespace Verif.Lz

/-- The value of an object: given, or moved from. -/
inductive V
  | val (n : Nat)
  | moved
  deriving DecidableEq

/-- `_lazy_init_storage_…`: `_init` and the object living in `_value`. -/
structure Slot where
  init : Bool
  obj : Option V
  deriving DecidableEq

/-- `construct_at(&_value, …)`: ends no lifetime, so there must be none. -/
def constructAt (s : Slot) (v : V) : Option Slot :=
  match s.obj with
  | none => some { s with obj := some v }
  | some _ => none

/-- `_value.~T()`. -/
def destroyAt (s : Slot) : Option Slot := s.obj.map fun _ => { s with obj := none }

/-- `_value = …`. -/
def assign (s : Slot) (v : V) : Option Slot := s.obj.map fun _ => { s with obj := some v }

/-- `LEXY_MOV(other._value)` used to construct or assign: the value, and the other after it. A copy for
    trivial types. -/
def moveFrom (trivial : Bool) (s : Slot) : Option (V × Slot) :=
  s.obj.map fun v => (v, if trivial then s else { s with obj := some .moved })

/-- The default constructor, l.23 and l.47. -/
def Slot.fresh : Slot := ⟨false, none⟩

/-- `_construct`: l.30-34 assigns a new storage (a trivial copy of all members), l.49-54 constructs and
    sets the flag. -/
def construct (trivial : Bool) (s : Slot) (v : V) : Option Slot :=
  if trivial then some ⟨true, some v⟩
  else (constructAt s v).map fun s' => { s' with init := true }

/-- `emplace`, l.116-125. -/
def emplace (trivial : Bool) (s : Slot) (v : V) : Option Slot :=
  if s.init then assign s v else construct trivial s v

/-- The destructor, l.57-61; that of trivial types does nothing, which ends the lifetime all the same. -/
def destroy (trivial : Bool) (s : Slot) : Option Slot :=
  if trivial then some { s with obj := none }
  else if s.init then destroyAt s else some s

/-- The move constructor, l.63-69 (the default one for trivial types). -/
def moveCtor (trivial : Bool) (other : Slot) : Option (Slot × Slot) :=
  if trivial then some (other, other)
  else if other.init then
    (moveFrom trivial other).bind fun p => (constructAt ⟨other.init, none⟩ p.1).map fun s => (s, p.2)
  else some (⟨other.init, none⟩, other)

/-- The move assignment, l.71-92 (the default one for trivial types), of different objects. -/
def moveAssign (trivial : Bool) (s other : Slot) : Option (Slot × Slot) :=
  if trivial then some (other, other)
  else if s.init ∧ other.init then
    (moveFrom trivial other).bind fun p => (assign s p.1).map fun s' => (s', p.2)
  else if s.init ∧ ¬ other.init then (destroyAt s).map fun s' => ({ s' with init := false }, other)
  else if ¬ s.init ∧ other.init then
    (moveFrom trivial other).bind fun p => (constructAt s p.1).map fun s' => ({ s' with init := true }, p.2)
  else some (s, other)

/-- `operator*`, l.138-157: the precondition, and the object read. -/
def deref (s : Slot) : Option V := if s.init then s.obj else none

/-- Memory: the storage in use, by address. -/
abbrev Mem := Nat → Option Slot

def Mem.set (m : Mem) (a : Nat) (s : Option Slot) : Mem := fun b => if b = a then s else m b

/-- What a program does with lazily initialized objects. -/
inductive Op
  | create (a : Nat)
  | emplace (a n : Nat)
  | read (a : Nat)
  | take (a : Nat)
  | moveCtor (a b : Nat)
  | moveAssign (a b : Nat)
  | destroy (a : Nat)
  deriving DecidableEq

/-- One operation; `read` and `take` (`*std::move(x)` used to construct something) also return the value,
    the destructor ends the use of the storage. -/
def step (trivial : Bool) (m : Mem) : Op → Option (Mem × Option V)
  | .create a => match m a with
    | none => some (m.set a (some .fresh), none)
    | some _ => none
  | .emplace a n => (m a).bind fun s => (emplace trivial s (.val n)).map fun s' => (m.set a (some s'), none)
  | .read a => (m a).bind fun s => (deref s).map fun v => (m, some v)
  | .take a => (m a).bind fun s => (deref s).bind fun _ => (moveFrom trivial s).map fun p =>
      (m.set a (some p.2), some p.1)
  | .moveCtor a b => match m a with
    | none => (m b).bind fun s => (moveCtor trivial s).map fun p => ((m.set b (some p.2)).set a (some p.1), none)
    | some _ => none
  | .moveAssign a b =>
    if a = b then
      (m a).bind fun s =>
        if s.init then (if trivial then some s else (moveFrom trivial s).bind fun p => assign p.2 .moved).map
          fun s' => (m.set a (some s'), none)
        else some (m, none)
    else (m a).bind fun s => (m b).bind fun o => (moveAssign trivial s o).map fun p =>
      ((m.set b (some p.2)).set a (some p.1), none)
  | .destroy a => (m a).bind fun s => (destroy trivial s).bind fun s' => match s'.obj with
    | none => some (m.set a none, none)
    | some _ => none

def run (trivial : Bool) (m : Mem) : List Op → Option (Mem × List (Option V))
  | [] => some (m, [])
  | op :: ops => (step trivial m op).bind fun p => (run trivial p.1 ops).map fun q => (q.1, p.2 :: q.2)

end Verif.Lz
