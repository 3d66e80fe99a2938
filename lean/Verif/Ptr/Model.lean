import Verif.Prelude
/-
Intrusive reference counting (C35). Source: mllm/utils/IntrusivePtr.hpp.

The pointers of a program (variables, members of objects, temporaries, of all threads) are slots. An operation of
the class is a sequence of the micro steps below; a program, with any number of threads, is an interleaving of such
sequences, i.e. a list of micro steps. A micro step reads a pointer and touches one counter with one atomic
operation; different threads do not write the same pointer concurrently (as for any C++ object).
The memory orders of the counter are not modelled (sequential consistency).
-/
namespace Verif.Ptr

inductive Cell where
  /-- no pointer object lives here -/
  | dead
  | null
  | ptr (o : Nat)
  deriving DecidableEq, Repr

inductive Life where
  | unborn
  | alive
  /-- `fetch_sub` returned 1; `delete this` is next -/
  | dying
  | deleted
  deriving DecidableEq, Repr

structure State where
  slot : Nat → Cell
  /-- `ref_count`, L32 -/
  count : Nat → Int
  life : Nat → Life
  /-- a counter of a deleted object was touched, or an object deleted twice -/
  bad : Bool

def State.init : State := ⟨fun _ => .dead, fun _ => 0, fun _ => .unborn, false⟩

/-- Touching the counter of `o` is only defined while `o` exists. -/
def State.touch (st : State) (o : Nat) : Bool := st.life o == .unborn || st.life o == .deleted

/-- `intrusive_ptr_add_ref`, L23. -/
def addRef (st : State) (o : Nat) : State :=
  { st with count := Function.update st.count o (st.count o + 1), bad := st.bad || st.touch o }

/-- `intrusive_ptr_release`, L25-27, up to the decision to delete. -/
def decRef (st : State) (o : Nat) : State :=
  { st with
    count := Function.update st.count o (st.count o - 1)
    life := if st.count o = 1 then Function.update st.life o .dying else st.life
    bad := st.bad || st.touch o || (st.count o == 1 && st.life o == .dying) }

inductive Micro where
  /-- `new T(...)`, counter 0 (L17) -/
  | new (o : Nat)
  /-- `IntrusivePtr()`, L41 -/
  | ctorNull (s : Nat)
  /-- `IntrusivePtr(T*)`, L43-45 -/
  | ctorRaw (s o : Nat)
  /-- `IntrusivePtr(const IntrusivePtr&)`, L47-49, and the converting one, L53-56 -/
  | ctorCopy (s t : Nat)
  /-- `IntrusivePtr(IntrusivePtr&&)`, L51 -/
  | ctorMove (s t : Nat)
  /-- `ptr(other.get())` of `IntrusivePtr(IntrusivePtr<U>&&)`, L59: no reference is added; `other.reset()` follows -/
  | ctorSteal (s t : Nat)
  /-- `swap`, L99 -/
  | swap (s t : Nat)
  /-- `~IntrusivePtr`, L63-65, up to the decision to delete -/
  | dtor (s : Nat)
  /-- `delete this`, L26 -/
  | finish (o : Nat)
  deriving DecidableEq, Repr

def setSlot (st : State) (s : Nat) (c : Cell) : State := { st with slot := Function.update st.slot s c }

def exec (st : State) : Micro → State
  | .new o => { st with life := Function.update st.life o .alive, count := Function.update st.count o 0 }
  | .ctorNull s => setSlot st s .null
  | .ctorRaw s o => setSlot (addRef st o) s (.ptr o)
  | .ctorCopy s t =>
    match st.slot t with
    | .ptr o => setSlot (addRef st o) s (.ptr o)
    | _ => setSlot st s .null
  | .ctorMove s t => setSlot (setSlot st s (st.slot t)) t .null
  | .ctorSteal s t => setSlot st s (st.slot t)
  | .swap s t => setSlot (setSlot st s (st.slot t)) t (st.slot s)
  | .dtor s =>
    match st.slot s with
    | .ptr o => setSlot (decRef st o) s .dead
    | _ => setSlot st s .dead
  | .finish o => { st with life := Function.update st.life o .deleted, bad := st.bad || st.life o != .dying }

/-- What C++ and the caller guarantee: constructors work on storage without an object, the other operations on
living pointers; `new` gives a new object; a raw pointer is passed only for a new object or one that has an owner;
`delete` runs once, right after its decision. -/
def Allowed (st : State) : Micro → Prop
  | .new o => st.life o = .unborn
  | .ctorNull s => st.slot s = .dead
  | .ctorRaw s o => st.slot s = .dead ∧ st.life o = .alive
  | .ctorCopy s t => st.slot s = .dead ∧ st.slot t ≠ .dead
  | .ctorMove s t => st.slot s = .dead ∧ st.slot t ≠ .dead
  | .ctorSteal s t => st.slot s = .dead ∧ st.slot t ≠ .dead
  | .swap s t => st.slot s ≠ .dead ∧ st.slot t ≠ .dead
  | .dtor s => st.slot s ≠ .dead
  | .finish o => st.life o = .dying

instance (st : State) (m : Micro) : Decidable (Allowed st m) := by
  cases m <;> unfold Allowed <;> infer_instance

/-- Histories. -/
inductive Run : State → List Micro → State → Prop where
  | nil (st) : Run st [] st
  | cons {st m ms st'} : Allowed st m → Run (exec st m) ms st' → Run st (m :: ms) st'

/-! ### The operations of the class -/

inductive Api where
  | makeIntrusive (s o : Nat)
  | copyCtor (s t : Nat)
  | moveCtor (s t : Nat)
  /-- `IntrusivePtr(IntrusivePtr<U>&&)`, L58-61 -/
  | convMoveCtor (s t : Nat)
  /-- `operator=(const IntrusivePtr&)`, L67-70 -/
  | copyAssign (s t : Nat)
  /-- `operator=(IntrusivePtr&&)`, L72-75 -/
  | moveAssign (s t : Nat)
  /-- `operator=(IntrusivePtr<U>&&)`, L83-87 -/
  | convMoveAssign (s t : Nat)
  /-- `operator=(T*)`, `reset(T*)`, L89-92, L97 -/
  | rawAssign (s o : Nat)
  /-- `reset()`, L95 -/
  | reset (s : Nat)
  | destroy (s : Nat)
  | swap (s t : Nat)

/-- The micro steps of an operation; `x`, `y` are the slots of its temporaries. The `finish` step of a release that
deletes the object is not listed, it may come at any time after. -/
def Api.micro (x y : Nat) : Api → List Micro
  | .makeIntrusive s o => [.new o, .ctorRaw s o]
  | .copyCtor s t => [.ctorCopy s t]
  | .moveCtor s t => [.ctorMove s t]
  | .convMoveCtor s t => [.ctorSteal s t, .ctorNull x, .swap x t, .dtor x]
  | .copyAssign s t => [.ctorCopy x t, .swap x s, .dtor x]
  | .moveAssign s t => [.ctorMove x t, .swap x s, .dtor x]
  | .convMoveAssign s t => [.ctorSteal x t, .ctorNull y, .swap y t, .dtor y, .swap x s, .dtor x]
  | .rawAssign s o => [.ctorRaw x o, .swap x s, .dtor x]
  | .reset s => [.ctorNull x, .swap x s, .dtor x]
  | .destroy s => [.dtor s]
  | .swap s t => [.swap s t]

end Verif.Ptr
