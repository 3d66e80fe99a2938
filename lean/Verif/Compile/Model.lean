import Verif.Prelude
/-
Tracing, lowering and interpretation of a module (C32, C33, C46-C48).
Sources: mllm/nn/Module.cpp (`__trace`), mllm/compile/ir/{Trace.cpp,Node.hpp,Node.cpp},
mllm/compile/passes/{EagerMemorySolverPass,ProgramLoweringPipeline,ProgramModeConfigPass,
ProgramIntrinsicIdIndexPass}.cpp, mllm/compile/jit/binary/IRSerialization.cpp,
mllm/compile/jit/interpreter/IRInterpreter.cpp.

A kernel is an arbitrary function of the kernel's identity, a world state (devices, caches, memory) and its input
tensors. Not modelled: shapes and options of the ops, JSON text, devices, the symbol table of parameters.
-/
namespace Verif.Compile

abbrev Name := List Char

/-- What kernels do. `nil` is the empty tensor that `uuid_2_tensor_[u]` creates for a missing key. -/
structure Sem (T W : Type) where
  nil : T
  exec : Nat → W → List T → W × List T

variable {T W : Type}

/-- `for (auto [_id, out] : enumerate(task->outputs)) uuid_2_tensor_[outputs_uuid[_id]] = out`,
IRInterpreter.cpp L283-287. -/
def assign (env : Nat → T) (outs : List Nat) (vs : List T) : Nat → T :=
  (outs.zip vs).foldl (fun e p => Function.update e p.1 p.2) env

/-! ### The module as the user wrote it -/

/-- The calls a `forward` makes: ops on tensors (variables), calls of sub-modules (a module object `m`, with the
body that its `forward` executes in this call), comments. -/
inductive Steps where
  | done
  | op (o : Nat) (ins outs : List Nat) (rest : Steps)
  | note (rest : Steps)
  | sub (m : Nat) (ins outs : List Nat) (body rest : Steps)
  deriving Repr

/-- Executing the module without compiling it: the ops in the order of the calls. -/
def Steps.eval (S : Sem T W) : Steps → W × (Nat → T) → W × (Nat → T)
  | .done, s => s
  | .op o ins outs rest, s =>
    rest.eval S ((S.exec o s.1 (ins.map s.2)).1, assign s.2 outs (S.exec o s.1 (ins.map s.2)).2)
  | .note rest, s => rest.eval S s
  | .sub _ _ _ body rest, s => rest.eval S (body.eval S s)

/-! ### IR -/

/-- The ops of a region. Tensors are named by the uuid of their storage (Tensor.cpp L536, TensorViewImpl.cpp
L18). -/
inductive Op where
  /-- linalg.*Op -/
  | linalg (o : Nat) (ins outs : List Nat)
  /-- graph.CallGraphOp -/
  | call (n : Name) (ins outs : List Nat)
  /-- tensor.FreeOp -/
  | tfree (u : Nat)
  /-- cf.ReturnOp -/
  | cfret
  /-- dbg.CommentOp -/
  | dbg
  /-- tensor.RegisterOp, linalg.RegisterOp -/
  | register (u : Nat)
  /-- program.* -/
  | launch (o : Nat) (ins outs : List Nat)
  | jump (l : Name)
  | pfree (u : Nat)
  | pret
  | label (l : Name)
  | bind (pos u : Nat) (input : Bool)
  | exit
  | mode
  deriving DecidableEq, Repr

/-- The ops of the top region of the module. -/
inductive Top where
  | op (o : Op)
  /-- graph.SubGraphOp -/
  | graph (n : Name) (body : List Op)
  /-- program.FragmentOp -/
  | frag (n : Name) (body : List Op)
  deriving DecidableEq, Repr

/-- `isa_<ProgramIROp>` (fragments are never inside a fragment). -/
def Op.isProgram : Op → Bool
  | .launch .. | .jump _ | .pfree _ | .pret | .label _ | .bind .. | .exit | .mode => true
  | _ => false

def initName : Name := "init".toList
def deinitName : Name := "deinit".toList
def symTabName : Name := "op_symbol_table".toList
def entry (n : Name) : Name := n ++ ".__entry".toList

/-! ### Tracing -/

structure Names where
  /-- `module_name_counters_` -/
  counter : Name → Nat
  /-- `getAbsoluteName()` of each module object -/
  abs : Nat → Name

/-- `IRContext::getUniqueModuleName`, Node.cpp L231-239. -/
def uniqueName (c : Name → Nat) (base : Name) : Name × (Name → Nat) :=
  if c base = 0 then (base, Function.update c base 1)
  else (base ++ '_' :: (Nat.repr (c base)).toList, Function.update c base (c base + 1))

/-- Module.cpp L147-150: a unique name, which becomes the name of the module object. -/
def Names.next (ns : Names) (m : Nat) : Name × Names :=
  let r := uniqueName ns.counter (ns.abs m)
  (r.1, ⟨r.2, Function.update ns.abs m r.1⟩)

/-- The trace of a body: the state of the names, the ops of the body and the subgraphs created in the module's top
region, in order of creation. Module.cpp L144-196. `st` is the storage uuid of a tensor. -/
def Steps.trace (st : Nat → Nat) : Steps → Names → Names × List Op × List (Name × List Op)
  | .done, ns => (ns, [], [])
  | .op o ins outs rest, ns =>
    let r := rest.trace st ns
    (r.1, .linalg o (ins.map st) (outs.map st) :: r.2.1, r.2.2)
  | .note rest, ns =>
    let r := rest.trace st ns
    (r.1, .dbg :: r.2.1, r.2.2)
  | .sub m ins outs body rest, ns =>
    let n := ns.next m
    let b := body.trace st n.2
    let r := rest.trace st b.1
    (r.1, .call n.1 (ins.map st) (outs.map st) :: r.2.1, (n.1, b.2.1 ++ [.cfret]) :: (b.2.2 ++ r.2.2))

/-- A fresh context. -/
def Names.init (abs : Nat → Name) : Names := ⟨fun _ => 0, abs⟩

/-- `trace_`, Trace.cpp L17-48, of module `m` called with `ins`, returning `outs`; `regs` are the constants and
parameters registered in the graph "init". -/
def traceModule (st : Nat → Nat) (abs : Nat → Name) (regs : List Nat) (m : Nat) (ins outs : List Nat) (body : Steps) :
    List Top :=
  let n := (Names.init abs).next m
  let b := body.trace st n.2
  [.graph initName (regs.map .register), .graph deinitName [], .op (.call n.1 (ins.map st) (outs.map st)),
    .graph n.1 (b.2.1 ++ [.cfret])] ++ b.2.2.map fun p => .graph p.1 p.2

/-! ### The eager memory solver -/

/-- `symbol_table_` restricted to the subgraphs: the one created last wins. -/
def lookStep (n : Name) (acc : Option (List Op)) : Top → Option (List Op)
  | .graph n' b => if n' = n then some b else acc
  | _ => acc

/-- `lookupSymbolTable(n)`, EagerMemorySolverPass.cpp L23, L48. -/
def lookupGraph (r : List Top) (n : Name) : Option (List Op) := r.foldl (lookStep n) none

/-- Counting of uses, EagerMemorySolverPass.cpp L27-36. -/
def countIns (c : Nat → Nat) (ins : List Nat) : Nat → Nat :=
  ins.foldl (fun c u => Function.update c u (c u + 1)) c

/-- `recursiveIndexTensorOp`, L18-41, on the ops of a graph; `call` is the recursive call. -/
def indexStep (r : List Top) (call : List Op → (Nat → Nat) → Option (Nat → Nat)) :
    List Op → (Nat → Nat) → Option (Nat → Nat)
  | [], c => some c
  | .call n _ _ :: rest, c =>
    match lookupGraph r n with
    | none => none
    | some b =>
      match call b c with
      | none => none
      | some c' => indexStep r call rest c'
  | .linalg _ ins _ :: rest, c => indexStep r call rest (countIns c ins)
  | _ :: rest, c => indexStep r call rest c

/-- With `fuel` nested calls; `none`: nested deeper than `fuel`, or an unknown graph (null dereference). -/
def indexOps (r : List Top) : (fuel : Nat) → List Op → (Nat → Nat) → Option (Nat → Nat)
  | 0 => indexStep r fun _ _ => none
  | fuel + 1 => indexStep r (indexOps r fuel)

/-- L53-63: decrement the count of each input; the frees are created one after the other right after the op, so
they end up in reverse order. -/
def freeIns (c : Nat → Nat) (ins : List Nat) : (Nat → Nat) × List Op :=
  ins.foldl (fun s u =>
    let c' := Function.update s.1 u (s.1 u - 1)
    (c', if s.1 u = 1 then .tfree u :: s.2 else s.2)) (c, [])

def setTop (n : Name) (b : List Op) : Top → Top
  | .graph n' b' => if n' = n then .graph n' b else .graph n' b'
  | t => t

/-- The graph `n` with its ops changed in place. -/
def setGraph (r : List Top) (n : Name) (b : List Op) : List Top := r.map (setTop n b)

/-- `recursiveInsertFreeTensorOp`, L43-69, on the ops of a graph: the new ops of this graph, and the module whose
other graphs have been changed by the recursion. -/
def insertStep (call : List Op → (Nat → Nat) → List Top → Option ((Nat → Nat) × List Op × List Top)) :
    List Op → (Nat → Nat) → List Top → Option ((Nat → Nat) × List Op × List Top)
  | [], c, r => some (c, [], r)
  | .call n i o :: rest, c, r =>
    match lookupGraph r n with
    | none => none
    | some b =>
      match call b c r with
      | none => none
      | some (c', b', r') =>
        match insertStep call rest c' (setGraph r' n b') with
        | none => none
        | some (c'', rest', r'') => some (c'', .call n i o :: rest', r'')
  | .linalg o ins outs :: rest, c, r =>
    match insertStep call rest (freeIns c ins).1 r with
    | none => none
    | some (c', rest', r') => some (c', .linalg o ins outs :: (freeIns c ins).2 ++ rest', r')
  | op :: rest, c, r =>
    match insertStep call rest c r with
    | none => none
    | some (c', rest', r') => some (c', op :: rest', r')

/-- With `fuel` nested calls. -/
def insertOps : (fuel : Nat) → List Op → (Nat → Nat) → List Top → Option ((Nat → Nat) × List Op × List Top)
  | 0 => insertStep fun _ _ _ => none
  | fuel + 1 => insertStep (insertOps fuel)

/-- The last call op of the top region, L77-83. -/
def lastCall (r : List Top) : Option Name :=
  r.foldl (fun acc t => match t with
    | .op (.call n _ _) => some n
    | _ => acc) none

/-- `EagerMemorySolverPass::run`, L73-93. -/
def solve (fuel : Nat) (r : List Top) : Option (List Top) :=
  match lastCall r with
  | none => none
  | some n =>
    match lookupGraph r n with
    | none => none
    | some b =>
      match indexOps r fuel b (fun _ => 0) with
      | none => none
      | some c =>
        match insertOps fuel b c r with
        | none => none
        | some (_, b', r') => some (setGraph r' n b')

/-! ### Lowering -/

/-- `LinalgIR2ProgramPattern`, ProgramLoweringPipeline.cpp L27-54. -/
def lowerLinalg : Op → Op
  | .linalg o ins outs => .launch o ins outs
  | o => o

/-- `TensorFreeOp2ProgramPattern`, L281-286. -/
def lowerFree : Op → Op
  | .tfree u => .pfree u
  | o => o

/-- `CFRet2ProgramPattern`, L239-244. -/
def lowerRet : Op → Op
  | .cfret => .pret
  | o => o

/-- `GraphCallGraph2ProgramPattern`, L133-142. -/
def lowerCall : Op → Op
  | .call n _ _ => .jump (entry n)
  | o => o

/-- A walk over the top region and over the bodies of its graphs, L60-92, L292-322. -/
def mapOps (f : Op → Op) (r : List Top) : List Top :=
  r.map fun t => match t with
    | .op o => .op (f o)
    | .graph n b => .graph n (b.map f)
    | .frag n b => .frag n b

/-- The walk of `CF2ProgramPass`, L252-275, which leaves the top region alone. -/
def mapGraphOps (f : Op → Op) (r : List Top) : List Top :=
  r.map fun t => match t with
    | .graph n b => .graph n (b.map f)
    | t => t

/-- The calls in the top region, L157-162. -/
def topCalls (r : List Top) : List (Name × List Nat × List Nat) :=
  r.filterMap fun t => match t with
    | .op (.call n i o) => some (n, i, o)
    | _ => none

/-- Bind ops, L168-181: the inputs in order before the call; after it the outputs, each created directly behind
the call, hence in reverse order, and the exit. -/
def bindCall (r : List Top) : List Top :=
  r.flatMap fun t => match t with
    | .op (.call n i o) =>
      (i.zipIdx.map fun p => .op (.bind p.2 p.1 true)) ++ [.op (.call n i o)] ++
        (o.zipIdx.reverse.map fun p => .op (.bind p.2 p.1 false)) ++ [.op .exit]
    | t => [t]

/-- The rewriting of calls and subgraphs, L183-209 and L100-127. (For a graph without ops the code takes the
`front()` of an empty list, L122; the label is inserted all the same here.) -/
def graphsToFragments (r : List Top) : List Top :=
  r.map fun t => match t with
    | .op o => .op (lowerCall o)
    | .graph n b => .frag n ((.label (entry n) :: b).map lowerCall)
    | .frag n b => .frag n (b.map lowerCall)

def reserved (n : Name) : Bool :=
  n = "__MLLM_JIT_PACKAGE_CODE_SEGMENT".toList || n = initName || n = deinitName || n = symTabName

/-- Flattening into the code segment, L211-240. -/
def flatten (r : List Top) : List Op :=
  r.flatMap fun t => match t with
    | .op o => if o.isProgram then [o] else []
    | .graph _ _ => []
    | .frag n b => if reserved n then [] else b

/-- Linalg2Program, Tensor2Program, CF2Program, Graph2Program; `none`: the assertion of L163. -/
def lower (r : List Top) : Option (List Op) :=
  let r1 := mapGraphOps lowerRet (mapOps lowerFree (mapOps lowerLinalg r))
  if (topCalls r1).length = 1 then some (flatten (graphsToFragments (bindCall r1))) else none

/-! ### Indexing -/

/-- The instructions of the interpreter, IRInterpreter.hpp L23-87. -/
inductive Instr where
  | launch (o : Nat) (ins outs : List Nat)
  | jump (off : Int)
  | free (u : Nat)
  | ret
  | label
  | bind (pos u : Nat) (input : Bool)
  | exit
  | mode
  deriving DecidableEq, Repr

/-- Program ids, ProgramIntrinsicIdIndexPass.cpp L22-25: consecutive over the program ops. -/
def withIds : List Op → Nat → List (Nat × Op)
  | [], _ => []
  | o :: rest, k => if o.isProgram then (k, o) :: withIds rest (k + 1) else withIds rest k

/-- `program_name_to_id`, L31-35; `none`: a label twice. -/
def labelIds : List (Nat × Op) → Option (List (Name × Nat))
  | [] => some []
  | (k, .label l) :: rest =>
    match labelIds rest with
    | none => none
    | some m => if l ∈ m.map Prod.fst then none else some ((l, k) :: m)
  | _ :: rest => labelIds rest

/-- L38-42 and `IntAttr::build(int)`: `uint64_t` subtraction, then conversion to `int`. -/
def offset (label jump : Nat) : Int := Int.bmod ((label : Int) - jump) (2 ^ 32)

/-- The serialized instruction (IRSerialization.cpp L118-265) as the interpreter loads it; `none`: the assertion of
L38, an unknown label. -/
def instr (m : List (Name × Nat)) (k : Nat) : Op → Option Instr
  | .launch o i u => some (.launch o i u)
  | .jump l =>
    match m.lookup l with
    | none => none
    | some t => some (.jump (offset t k))
  | .pfree u => some (.free u)
  | .pret => some .ret
  | .label _ => some .label
  | .bind p u b => some (.bind p u b)
  | .exit => some .exit
  | .mode => some .mode
  | _ => none

/-- `ProgramIntrinsicIdIndexPass::run` and serialization. -/
def index (code : List Op) : Option (List (Nat × Instr)) :=
  match labelIds (withIds code 0) with
  | none => none
  | some m => (withIds code 0).mapM fun p => (instr m p.1 p.2).map fun i => (p.1, i)

/-- The program lowering pipeline; `eager` inserts a mode op at the front, ProgramModeConfigPass.cpp L15-21. -/
def compile (eager : Bool) (r : List Top) : Option (List (Nat × Instr)) :=
  match lower r with
  | none => none
  | some code => index (if eager then .mode :: code else code)

/-! ### Interpreter -/

structure Machine (T W : Type) where
  pc : Nat
  stack : List Nat
  env : Nat → T
  world : W
  outs : List T
  halted : Bool
  /-- undefined behaviour: `ret` with an empty stack, or a missing input -/
  bad : Bool

/-- `program_[id]`, a map filled by `loadAndLinkPrograms`; a missing instruction is default constructed as an
exit, IRInterpreter.hpp L71. -/
def fetch (p : List (Nat × Instr)) (pc : Nat) : Instr :=
  p.foldl (fun acc e => if e.1 = pc then e.2 else acc) .exit

/-- `program_counter_ += offset` on `uint64_t`. -/
def pcAdd (pc : Nat) (off : Int) : Nat := (((pc : Int) + off) % 2 ^ 64).toNat

/-- `global_outputs_[pos] = t`, resized if needed, L247-250. -/
def setOut (nil : T) (outs : List T) (pos : Nat) (t : T) : List T :=
  (if outs.length ≤ pos then outs ++ List.replicate (pos + 1 - outs.length) nil else outs).set pos t

/-- `eager()` / `static_()` (the same code), L234-342. -/
def execInstr (S : Sem T W) (inputs : List T) (s : Machine T W) : Instr → Machine T W
  | .bind pos u true =>
    match inputs[pos]? with
    | none => { s with bad := true, halted := true }
    | some t => { s with env := Function.update s.env u t, pc := s.pc + 1 }
  | .bind pos u false => { s with outs := setOut S.nil s.outs pos (s.env u), pc := s.pc + 1 }
  | .launch o ins outs =>
    { s with
      world := (S.exec o s.world (ins.map s.env)).1
      env := assign s.env outs (S.exec o s.world (ins.map s.env)).2
      pc := s.pc + 1 }
  | .jump off => { s with stack := s.pc :: s.stack, pc := pcAdd s.pc off }
  | .free u => { s with env := Function.update s.env u S.nil, pc := s.pc + 1 }
  | .exit => { s with halted := true }
  | .label => { s with pc := s.pc + 1 }
  | .ret =>
    match s.stack with
    | [] => { s with bad := true, halted := true }
    | k :: st => { s with stack := st, pc := k + 1 }
  | .mode => { s with pc := s.pc + 1 }

/-- One iteration of the loop of `run`, L208-232. -/
def step (S : Sem T W) (p : List (Nat × Instr)) (inputs : List T) (s : Machine T W) : Machine T W :=
  if s.halted then s
  else
    let s' := execInstr S inputs s (fetch p s.pc)
    if s'.halted || decide (s'.pc < p.length) then s' else { s' with halted := true }

def steps (S : Sem T W) (p : List (Nat × Instr)) (inputs : List T) : Nat → Machine T W → Machine T W
  | 0, s => s
  | k + 1, s => steps S p inputs k (step S p inputs s)

/-- Start of `run`, L198-207: the tensors, outputs and stack of earlier runs are kept. -/
def start (s : Machine T W) : Machine T W := { s with pc := 0, halted := false }

/-- A freshly loaded program with the constants `consts` registered. -/
def loaded (S : Sem T W) (w : W) (consts : List (Nat × T)) : Machine T W where
  pc := 0
  stack := []
  env := assign (fun _ => S.nil) (consts.map Prod.fst) (consts.map Prod.snd)
  world := w
  outs := []
  halted := false
  bad := false

end Verif.Compile
