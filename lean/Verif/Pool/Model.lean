import Verif.Prelude
/-
The CPU thread pool (C29). Sources: mllm/engine/HpcThreadPool.{hpp,cpp}, mllm/core/Parallel.hpp L83-130.

Threads run concurrently: the state machine below has one label per thread, and a run is an arbitrary list of
labels, so all interleavings are covered. Each read or write of a flag, each call of the loop body and each
assignment of the slot's closure is one atomic step (sequential consistency; the flags are `std::atomic_bool`,
the assignment of the closure is published by the flags). The loop body is observed through the list of
iteration values it was called with.

Not modelled: the condition variable (a worker that sleeps is a worker that is not scheduled), destruction.
-/
namespace Verif.Pool

/-- `HpcThreadPoolTask`, HpcThreadPool.hpp L20-28. -/
structure Task where
  start : Int
  stop : Int
  step : Int
  deriving DecidableEq, Repr

/-- `for (i = start; i < end; i += step)`: the values of `i`; the first argument bounds the number of rounds
(`stop - start` rounds are enough for a positive step). -/
def forLoop : Nat → Int → Int → Int → List Int
  | 0, _, _, _ => []
  | n + 1, i, e, st => if i < e then i :: forLoop n (i + st) e st else []

/-- The iterations of a task, HpcThreadPool.cpp L13, L80, L87. -/
def Task.iters (t : Task) : List Int := forLoop (t.stop - t.start).toNat t.start t.stop t.step

/-- `tiles_num`, L9, L83 (division of `int`s). -/
def Task.tiles (t : Task) : Int := (t.stop - t.start).tdiv t.step

/-- `for (v = thread_idx; v < tiles_num; v += thread_cnt_)`, L99. -/
def stride : Nat → Nat → Nat → Nat → List Nat
  | 0, _, _, _ => []
  | f + 1, v, n, T => if v < n then v :: stride f (v + T) n T else []

/-- The iterations thread `i` runs: the closures of L96-112. `idx` is `true_idx`. -/
def share (T : Nat) (idx : List Int) (i : Nat) : List Int :=
  if idx.length > T then (stride idx.length i idx.length T).map (idx.getD · 0)
  else [idx.getD i 0]

/-- `tiles_num` after L94-113: the number of threads that take part. -/
def parts (T : Nat) (idx : List Int) : Nat := if idx.length > T then T else idx.length

/-- A worker thread, L154-168: `check` before reading `available_task_slots_`, `scan s` before reading the
flag of slot `s`, `run s c rest` inside the closure of slot `s`, which belongs to call `c`. -/
inductive WPc where
  | check
  | scan (s : Nat)
  | run (s c : Nat) (rest : List Int)
  deriving DecidableEq, Repr

/-- A calling thread in `push`: executing the loop itself, setting flag `i` (L115-117), running the closure
(L122), waiting and about to read flag `i` (L125-135). -/
inductive CPc where
  | idle
  | seq (rest : List Int)
  | setting (i : Nat)
  | main (c : Nat) (rest : List Int)
  | waiting (i : Nat)
  deriving DecidableEq, Repr

structure State where
  /-- program counters of the calling threads -/
  pc : Nat → CPc
  /-- the task being pushed by a calling thread -/
  task : Nat → Task
  /-- calls of the loop body of the thread's current task so far -/
  log : Nat → List Int
  /-- `tasks_[s].first`: whose task the closure refers to, and its `true_idx` -/
  fn : Nat → Nat × List Int
  /-- `*tasks_[s].second[i]` -/
  flag : Nat → Nat → Bool
  w : Nat → WPc
  /-- `available_task_slots_` -/
  avail : Nat
  /-- an index buffer was written out of bounds -/
  fault : Bool
  /-- completed `push` calls, with the calls of the loop body made for them -/
  done : List (Task × List Int)

def State.init : State where
  pc := fun _ => .idle
  task := fun _ => ⟨0, 0, 1⟩
  log := fun _ => []
  fn := fun _ => (0, [])
  flag := fun _ _ => false
  w := fun _ => .check
  avail := 0
  fault := false
  done := []

/-- Scheduling choices: thread `c` calls `push(t, slot)`; calling thread `c` makes a step; worker `i` makes a
step; `activate`/`deactivate`/`idle`/`wakeup` change the counter. -/
inductive Label where
  | push (c : Nat) (t : Task)
  | tick (c : Nat)
  | work (i : Nat)
  | avail (n : Nat)

/-- The pool: number of threads (`thread_cnt_`), of slots (`MLLM_HPC_THREAD_POOL_TASK_LIMITS`), and the slot
index each calling thread passes to `push` (`none`: negative). -/
structure Cfg where
  T : Nat
  S : Nat
  slot : Nat → Option Nat

/-- Start running the task on the calling thread, L13, L80. -/
def startSeq (st : State) (c : Nat) (t : Task) : State :=
  { st with
    pc := Function.update st.pc c (.seq t.iters)
    task := Function.update st.task c t
    log := Function.update st.log c [] }

/-- `splitTask` with free task slots, L83-113. `true_idx` has `tiles_num` entries, the loop of L87 writes one
per iteration. -/
def startPar (st : State) (c s : Nat) (t : Task) : State :=
  if (t.iters.length : Int) > t.tiles then { st with fault := true }
  else
    { st with
      pc := Function.update st.pc c (.setting 1)
      task := Function.update st.task c t
      log := Function.update st.log c []
      fn := Function.update st.fn s (c, t.iters) }

/-- `push`, L8-19 and L76-81. A step that is not positive is outside the contract (division by zero). -/
def push (cfg : Cfg) (st : State) (c : Nat) (t : Task) : State :=
  if st.pc c = .idle ∧ 0 < t.step then
    if t.tiles ≤ 1 then startSeq st c t
    else match cfg.slot c with
      | none => startSeq st c t
      | some s => if st.avail = 0 then startSeq st c t else startPar st c s t
  else st

/-- One step of a calling thread that uses slot `s`, L115-135. -/
def tickAt (cfg : Cfg) (st : State) (c s : Nat) : State :=
  match st.pc c with
  | .setting i =>
    if i < parts cfg.T (st.task c).iters then
      { st with
        flag := Function.update st.flag s (Function.update (st.flag s) i true)
        pc := Function.update st.pc c (.setting (i + 1)) }
    else { st with pc := Function.update st.pc c (.main (st.fn s).1 (share cfg.T (st.fn s).2 0)) }
  | .main c' (x :: rest) =>
    { st with
      pc := Function.update st.pc c (.main c' rest)
      log := Function.update st.log c' (st.log c' ++ [x]) }
  | .main _ [] => { st with pc := Function.update st.pc c (.waiting 1) }
  | .waiting i =>
    if i < parts cfg.T (st.task c).iters then
      if st.flag s i then { st with pc := Function.update st.pc c (.waiting 1) }
      else { st with pc := Function.update st.pc c (.waiting (i + 1)) }
    else
      { st with
        pc := Function.update st.pc c .idle
        done := st.done ++ [(st.task c, st.log c)] }
  | _ => st

/-- One step of a calling thread. -/
def tick (cfg : Cfg) (st : State) (c : Nat) : State :=
  match st.pc c with
  | .idle => st
  | .seq (x :: rest) =>
    { st with
      pc := Function.update st.pc c (.seq rest)
      log := Function.update st.log c (st.log c ++ [x]) }
  | .seq [] =>
    { st with
      pc := Function.update st.pc c .idle
      done := st.done ++ [(st.task c, st.log c)] }
  | _ =>
    match cfg.slot c with
    | some s => tickAt cfg st c s
    | none => st

/-- One step of worker `i`, L155-165. -/
def work (cfg : Cfg) (st : State) (i : Nat) : State :=
  match st.w i with
  | .check => if 0 < st.avail then { st with w := Function.update st.w i (.scan 0) } else st
  | .scan s =>
    if s < cfg.S then
      if st.flag s i then
        { st with w := Function.update st.w i (.run s (st.fn s).1 (share cfg.T (st.fn s).2 i)) }
      else { st with w := Function.update st.w i (.scan (s + 1)) }
    else { st with w := Function.update st.w i .check }
  | .run s c (x :: rest) =>
    { st with
      w := Function.update st.w i (.run s c rest)
      log := Function.update st.log c (st.log c ++ [x]) }
  | .run s _ [] =>
    { st with
      w := Function.update st.w i (.scan (s + 1))
      flag := Function.update st.flag s (Function.update (st.flag s) i false) }

/-- One step. Workers exist for the indices `1 .. T-1`, L152. Nothing is said about what happens after a
buffer overflow. -/
def step (cfg : Cfg) (st : State) (l : Label) : State :=
  if st.fault then st
  else match l with
    | .push c t => push cfg st c t
    | .tick c => tick cfg st c
    | .work i => if 1 ≤ i ∧ i < cfg.T then work cfg st i else st
    | .avail n => { st with avail := n }

def run (cfg : Cfg) (ls : List Label) (st : State) : State := ls.foldl (step cfg) st

def Reachable (cfg : Cfg) (st : State) : Prop := ∃ ls, st = run cfg ls .init

end Verif.Pool
