import Verif.Prelude

/-!
# Calling `Engine.generate` again (C96)

`pymllm/engine/launch.py` ("E L…"): `Engine.generate` runs each call on an event loop of its own, which it closes afterwards (E L405-409).
`pymllm/orchestrator/request_response_process.py` ("R L…"): the background task that sends requests and receives results is made
by the first call, on that call's loop (R L98-101), and kept as long as it is not done.

What is used of asyncio (CPython 3.10 and later): a task only runs while its loop runs; closing a loop neither runs nor ends its
tasks; `Queue.put` on an unbounded queue appends, then takes a waiting `get` off the list of waiters and wakes it, which is a
`RuntimeError` if the loop of the waiter is closed. Only one call of `generate` runs at a time.

Simplifications: a request is a number, used once; whether the tokenizer and the rest of the pipeline work is up to the environment (`deliver`).
-/

namespace Verif.Serve.Loop

/-- The background task (R L173-177): `sending` if it can take a request, `waiting` if it hangs in `queue.get()`. -/
inductive Task where
  | sending
  | waiting
  deriving DecidableEq

/-- `cur` is the loop of the running call and its request; `task` is `_loop_task`, with the number of its loop; `getter` is the
waiter in the queue, with the number of its loop. `loops` is the number of loops made; all but the current one are closed.
`returned` and `raised` are the requests of the calls that returned a result and of those that ended with an exception. -/
structure St where
  loops : Nat
  cur : Option (Nat × Nat)
  task : Option (Nat × Task)
  getter : Option Nat
  queue : List Nat
  sent : List Nat
  ready : List Nat
  returned : List Nat
  raised : List Nat

def St.init : St := ⟨0, none, none, none, [], [], [], [], []⟩

/-- `listen` (R L98-101): the task is made if there is none; it is never done. -/
def St.listen (s : St) (l : Nat) : St :=
  match s.task with
  | some _ => s
  | none => { s with task := some (l, .sending) }

inductive Ev where
  /-- a call of `generate` -/
  | call (rid : Nat)
  /-- the background task runs for a while -/
  | send
  /-- a result arrives from the pipeline, and is picked up by the background task -/
  | deliver (rid : Nat)
  /-- the call finds its result -/
  | ret

/-- `generate` up to the first suspension (E L388-406, R L124-134): a new loop; `listen`; the request is put into the queue, and
the waiter, if there is one, is woken. -/
def St.call (s : St) (rid : Nat) : St :=
  let l := s.loops
  let s := s.listen l
  let s := { s with loops := l + 1, queue := s.queue ++ [rid] }
  match s.getter with
  | none => { s with cur := some (l, rid) }
  | some g =>
    if g = l then { s with cur := some (l, rid), getter := none, task := some (g, .sending) }
    -- the loop of the waiter is closed: RuntimeError, and `finally: loop.close()`
    else { s with getter := none, cur := none, raised := s.raised ++ [rid] }

/-- `_send_loop` (R L179-183), one turn; only on the running loop. -/
def St.send (s : St) : St :=
  match s.cur, s.task with
  | some (l, _), some (m, .sending) =>
    if l = m then
      match s.queue with
      | [] => { s with task := some (m, .waiting), getter := some m }
      | r :: q => { s with queue := q, sent := s.sent ++ [r] }
    else s
  | _, _ => s

/-- `_recv_loop` (R L189-215): a result of a request that was sent; only on the running loop. -/
def St.deliver (s : St) (rid : Nat) : St :=
  match s.cur, s.task with
  | some (l, _), some (m, _) => if l = m ∧ rid ∈ s.sent then { s with ready := s.ready ++ [rid] } else s
  | _, _ => s

/-- `_wait_for_final_result` (E L516-523) and the end of the call. -/
def St.ret (s : St) : St :=
  match s.cur with
  | some (_, rid) => if rid ∈ s.ready then { s with cur := none, returned := s.returned ++ [rid] } else s
  | none => s

def St.step (s : St) : Ev → St
  | .call rid => s.call rid
  | .send => s.send
  | .deliver rid => s.deliver rid
  | .ret => s.ret

/-- A call is made when no other one runs, with a request that is new. -/
def Ev.ok (s : St) (calls : List Nat) : Ev → Prop
  | .call rid => s.cur = none ∧ rid ∉ calls
  | _ => True

/-- The requests of all the calls made. -/
def callsOf (evs : List Ev) : List Nat := evs.filterMap fun e => match e with
  | .call r => some r
  | _ => none

/-- Histories, newest event first. -/
inductive Reach : List Ev → St → Prop where
  | init : Reach [] .init
  | step {evs s} (e : Ev) : Reach evs s → e.ok s (callsOf evs) → Reach (e :: evs) (s.step e)

/-- The invariant: everything that was ever sent, is ready or was returned belongs to the first call, whose loop has number 0. -/
structure Inv (evs : List Ev) (s : St) : Prop where
  task : ∀ l t, s.task = some (l, t) → l = 0 ∧ 0 < s.loops
  started : 0 < s.loops → s.task ≠ none
  cur : ∀ l r, s.cur = some (l, r) → l + 1 = s.loops ∧ (callsOf evs).head? = some r
  getter : ∀ g, s.getter = some g → g = 0 ∧ 0 < s.loops
  sent : ∀ r, r ∈ s.sent ∨ r ∈ s.ready ∨ r ∈ s.returned → (callsOf evs).getLast? = some r
  queue : s.loops ≤ 1 → ∀ r ∈ s.queue, (callsOf evs).getLast? = some r
  loops : s.loops = (callsOf evs).length
  nodup : (callsOf evs).Nodup
  busy : ∀ r, s.cur = some (0, r) → s.returned = []
  late : s.loops = 0 → s.returned = []
  one : s.returned.length ≤ 1
  raised : s.raised.length ≤ 1 ∧ (s.raised ≠ [] → s.getter = none ∧ 2 ≤ s.loops)

theorem callsOf_call (r : Nat) (evs : List Ev) : callsOf (.call r :: evs) = r :: callsOf evs := rfl
theorem callsOf_send (evs : List Ev) : callsOf (.send :: evs) = callsOf evs := rfl
theorem callsOf_deliver (r : Nat) (evs : List Ev) : callsOf (.deliver r :: evs) = callsOf evs := rfl
theorem callsOf_ret (evs : List Ev) : callsOf (.ret :: evs) = callsOf evs := rfl

theorem inv_init : Inv [] .init := by
  constructor <;> simp [St.init, callsOf]

theorem inv_call {evs : List Ev} {s : St} (h : Inv evs s) {rid : Nat} (hc : s.cur = none) (hr : rid ∉ callsOf evs) :
    Inv (.call rid :: evs) (s.call rid) := by
  have hl : ∀ x, (callsOf evs).getLast? = some x → (rid :: callsOf evs).getLast? = some x := by
    intro x hx
    cases hcs : callsOf evs with
    | nil => rw [hcs] at hx; cases hx
    | cons a l => rw [hcs] at hx; rw [List.getLast?_cons_cons]; exact hx
  -- the state after `listen`
  have ht : (s.listen s.loops).task ≠ none ∧ (∀ l t, (s.listen s.loops).task = some (l, t) → l = 0) := by
    unfold St.listen
    cases hst : s.task with
    | some x => exact ⟨by simp [hst], fun l t e => (h.task l t e).1⟩
    | none =>
      refine ⟨by simp, fun l t e => ?_⟩
      simp only [Option.some.injEq, Prod.mk.injEq] at e
      have : ¬ 0 < s.loops := fun hp => h.started hp hst
      omega
  have hg : (s.listen s.loops).getter = s.getter := by unfold St.listen; cases s.task <;> rfl
  have hq : (s.listen s.loops).queue = s.queue := by unfold St.listen; cases s.task <;> rfl
  have hse : (s.listen s.loops).sent = s.sent := by unfold St.listen; cases s.task <;> rfl
  have hre : (s.listen s.loops).ready = s.ready := by unfold St.listen; cases s.task <;> rfl
  have hrt : (s.listen s.loops).returned = s.returned := by unfold St.listen; cases s.task <;> rfl
  have hra : (s.listen s.loops).raised = s.raised := by unfold St.listen; cases s.task <;> rfl
  have hqueue : s.loops + 1 ≤ 1 → ∀ r ∈ s.queue ++ [rid], (rid :: callsOf evs).getLast? = some r := by
    intro h1 r hr'
    have h0 : callsOf evs = [] := by
      have := h.loops; exact List.length_eq_zero_iff.1 (by omega)
    rcases List.mem_append.1 hr' with hr' | hr'
    · exact hl _ (h.queue (by omega) r hr')
    · rw [List.mem_singleton.1 hr', h0]; rfl
  have hloops : s.loops + 1 = (rid :: callsOf evs).length := by rw [List.length_cons, ← h.loops]
  have hnd : (rid :: callsOf evs).Nodup := List.nodup_cons.2 ⟨hr, h.nodup⟩
  unfold St.call
  simp only [hg, hq]
  cases hgt : s.getter with
  | none =>
    refine ⟨?_, ?_, ?_, ?_, ?_, ?_, ?_, ?_, ?_, ?_, ?_, ?_⟩
    · intro l t e; exact ⟨ht.2 l t e, Nat.succ_pos _⟩
    · intro _; exact ht.1
    · intro l r e
      simp only [Option.some.injEq, Prod.mk.injEq] at e
      exact ⟨by simp [← e.1], by rw [callsOf_call, ← e.2]; rfl⟩
    · intro g e; simp only [hg, hgt] at e; cases e
    · intro r e; simp only [hse, hre, hrt] at e; exact hl _ (h.sent r e)
    · exact hqueue
    · exact hloops
    · exact hnd
    · intro r e
      simp only [Option.some.injEq, Prod.mk.injEq] at e
      simp only [hrt]; exact h.late e.1
    · intro e; exact absurd e (Nat.succ_ne_zero _)
    · simp only [hrt]; exact h.one
    · simp only [hra, hg]
      refine ⟨h.raised.1, fun e => ?_⟩
      have := h.raised.2 e
      exact ⟨trivial, by omega⟩
  | some g =>
    obtain ⟨hg0, hpos⟩ := h.getter g hgt
    have hgl : g ≠ s.loops := by omega
    simp only [if_neg hgl]
    refine ⟨?_, ?_, ?_, ?_, ?_, ?_, ?_, ?_, ?_, ?_, ?_, ?_⟩
    · intro l t e; exact ⟨ht.2 l t e, Nat.succ_pos _⟩
    · intro _; exact ht.1
    · intro l r e; cases e
    · intro g e; cases e
    · intro r e; simp only [hse, hre, hrt] at e; exact hl _ (h.sent r e)
    · exact hqueue
    · exact hloops
    · exact hnd
    · intro r e; cases e
    · intro e; exact absurd e (Nat.succ_ne_zero _)
    · simp only [hrt]; exact h.one
    · simp only [hra]
      have h0 : s.raised = [] := by
        by_contra hne
        rw [(h.raised.2 hne).1] at hgt; cases hgt
      rw [h0]
      exact ⟨by simp, fun _ => ⟨trivial, by omega⟩⟩

theorem inv_send {evs : List Ev} {s : St} (h : Inv evs s) : Inv (.send :: evs) s.send := by
  have base : Inv (.send :: evs) s := ⟨h.task, h.started, h.cur, h.getter, h.sent, h.queue, h.loops, h.nodup, h.busy, h.late, h.one, h.raised⟩
  unfold St.send
  cases hc : s.cur with
  | none => exact base
  | some x =>
    obtain ⟨l, r⟩ := x
    cases ht : s.task with
    | none => exact base
    | some y =>
      obtain ⟨m, t⟩ := y
      cases t with
      | waiting => exact base
      | sending =>
        simp only
        split
        · next hlm =>
          obtain ⟨hm, hpos⟩ := h.task m _ ht
          obtain ⟨hl1, hh⟩ := h.cur l r hc
          have hone : s.loops = 1 := by omega
          split
          · refine ⟨?_, fun _ => by simp, fun a b e => h.cur a b (hc.trans e), ?_, h.sent, h.queue, h.loops, h.nodup,
              fun a e => h.busy a (hc.trans e), h.late, h.one, ?_⟩
            · intro l' t' e
              simp only [Option.some.injEq, Prod.mk.injEq] at e
              exact ⟨by omega, hpos⟩
            · intro g e
              simp only [Option.some.injEq] at e
              exact ⟨by omega, hpos⟩
            · refine ⟨h.raised.1, fun e => ?_⟩
              have := (h.raised.2 e).2
              omega
          · next r' q hq =>
            refine ⟨fun a b e => h.task a b (ht.trans e), fun _ => by simp, fun a b e => h.cur a b (hc.trans e), h.getter, ?_, ?_,
              h.loops, h.nodup, fun a e => h.busy a (hc.trans e), h.late, h.one, h.raised⟩
            · intro x hx
              rcases hx with hx | hx
              · rcases List.mem_append.1 hx with hx | hx
                · exact h.sent x (Or.inl hx)
                · rw [List.mem_singleton.1 hx]
                  exact h.queue (by omega) r' (by rw [hq]; exact List.mem_cons_self)
              · exact h.sent x (Or.inr hx)
            · intro h1 x hx
              exact h.queue h1 x (by rw [hq]; exact List.mem_cons_of_mem _ hx)
        · exact base

theorem inv_deliver {evs : List Ev} {s : St} (h : Inv evs s) (rid : Nat) : Inv (.deliver rid :: evs) (s.deliver rid) := by
  have base : Inv (.deliver rid :: evs) s :=
    ⟨h.task, h.started, h.cur, h.getter, h.sent, h.queue, h.loops, h.nodup, h.busy, h.late, h.one, h.raised⟩
  unfold St.deliver
  cases hc : s.cur with
  | none => exact base
  | some x =>
    cases ht : s.task with
    | none => exact base
    | some y =>
      simp only
      split
      · next hd =>
        refine ⟨fun a b e => h.task a b (ht.trans e), fun _ => by simp, fun a b e => h.cur a b (hc.trans e), h.getter, ?_, h.queue,
          h.loops, h.nodup, fun a e => h.busy a (hc.trans e), h.late, h.one, h.raised⟩
        intro x hx
        rcases hx with hx | hx | hx
        · exact h.sent x (Or.inl hx)
        · rcases List.mem_append.1 hx with hx | hx
          · exact h.sent x (Or.inr (Or.inl hx))
          · rw [List.mem_singleton.1 hx]; exact h.sent rid (Or.inl hd.2)
        · exact h.sent x (Or.inr (Or.inr hx))
      · exact base

theorem inv_ret {evs : List Ev} {s : St} (h : Inv evs s) : Inv (.ret :: evs) s.ret := by
  have base : Inv (.ret :: evs) s := ⟨h.task, h.started, h.cur, h.getter, h.sent, h.queue, h.loops, h.nodup, h.busy, h.late, h.one, h.raised⟩
  unfold St.ret
  cases hc : s.cur with
  | none => exact base
  | some x =>
    obtain ⟨l, r⟩ := x
    simp only
    split
    · next hr =>
      obtain ⟨hl1, hh⟩ := h.cur l r hc
      have hlast := h.sent r (Or.inr (Or.inl hr))
      -- the newest call is the first one
      have hlen : (callsOf evs).length = 1 := by
        have hnd := h.nodup
        revert hh hlast hnd
        cases hcs : callsOf evs with
        | nil => intro e; cases e
        | cons a l =>
          intro e1 e2 hnd
          cases l with
          | nil => rfl
          | cons b l =>
            exfalso
            simp only [List.head?_cons, Option.some.injEq] at e1
            rw [List.getLast?_cons_cons] at e2
            have := List.mem_of_getLast? e2
            rw [← e1] at this
            exact (List.nodup_cons.1 hnd).1 this
      have hl0 : l = 0 := by have := h.loops; omega
      have hret := h.busy r (by rw [hc, hl0])
      refine ⟨h.task, h.started, fun _ _ e => (by cases e), h.getter, ?_, h.queue, h.loops, h.nodup, fun _ e => (by cases e), ?_, ?_, h.raised⟩
      · intro x hx
        rcases hx with hx | hx | hx
        · exact h.sent x (Or.inl hx)
        · exact h.sent x (Or.inr (Or.inl hx))
        · rcases List.mem_append.1 hx with hx | hx
          · exact h.sent x (Or.inr (Or.inr hx))
          · rw [List.mem_singleton.1 hx]; exact hlast
      · intro e; exact absurd e (by simp only; omega)
      · simp [hret]
    · exact base

theorem Reach.inv {evs : List Ev} {s : St} (h : Reach evs s) : Inv evs s := by
  induction h with
  | init => exact inv_init
  | step e _ hok ih =>
    cases e with
    | call rid => exact inv_call ih hok.1 hok.2
    | send => exact inv_send ih
    | deliver rid => exact inv_deliver ih rid
    | ret => exact inv_ret ih

/-- C96: the first call returns once its request has gone through the pipeline. -/
theorem C96_first_call_partial (rid : Nat) : ∃ s, Reach [.ret, .deliver rid, .send, .send, .call rid] s ∧ s.returned = [rid] ∧ s.cur = none :=
  ⟨_, .step .ret (.step (.deliver rid) (.step .send (.step .send (.step (.call rid) .init (by simp [Ev.ok, St.init, callsOf])) trivial)
    trivial) trivial) trivial, by simp [St.step, St.call, St.listen, St.init, St.send, St.deliver, St.ret],
    by simp [St.step, St.call, St.listen, St.init, St.send, St.deliver, St.ret]⟩

/-- C96, violated: no call of `generate` but the first one made in the life of the engine ever returns a result. -/
theorem C96_only_first_returns_violated {evs : List Ev} {s : St} (h : Reach evs s) {rid : Nat} (hr : rid ∈ s.returned) :
    (callsOf evs).getLast? = some rid ∧ s.returned = [rid] := by
  refine ⟨h.inv.sent rid (Or.inr (Or.inr hr)), ?_⟩
  have h1 := h.inv.one
  match hl : s.returned with
  | [] => rw [hl] at hr; cases hr
  | [x] => rw [hl] at hr; rw [List.mem_singleton.1 hr]
  | _ :: _ :: _ => rw [hl] at h1; simp at h1

/-- C96, violated: at most one of the other calls ends at all, with an exception; the others wait for ever. -/
theorem C96_one_raises_violated {evs : List Ev} {s : St} (h : Reach evs s) : s.raised.length ≤ 1 := h.inv.raised.1

/-- C96, violated: what happens to the second call, after a first one that returned, and to the third. -/
theorem C96_second_call_violated (a b c : Nat) (hab : b ≠ a) (hac : c ≠ a) (hbc : c ≠ b) :
    ∃ s, Reach [.call c, .call b, .ret, .deliver a, .send, .send, .call a] s ∧ s.returned = [a] ∧ s.raised = [b] ∧
      s.cur = some (2, c) ∧ ∀ evs', ∀ s', Reach (evs' ++ [.call c, .call b, .ret, .deliver a, .send, .send, .call a]) s' → c ∉ s'.returned := by
  refine ⟨_, .step (.call c) (.step (.call b) (.step .ret (.step (.deliver a) (.step .send (.step .send (.step (.call a) .init
    (by simp [Ev.ok, St.init, callsOf])) trivial) trivial) trivial) trivial) ?_) ?_, ?_, ?_, ?_, ?_⟩
  · simp [Ev.ok, callsOf, St.step, St.call, St.listen, St.init, St.send, St.deliver, St.ret, hab]
  · simp [Ev.ok, callsOf, St.step, St.call, St.listen, St.init, St.send, St.deliver, St.ret, hac, hbc]
  · simp [St.step, St.call, St.listen, St.init, St.send, St.deliver, St.ret]
  · simp [St.step, St.call, St.listen, St.init, St.send, St.deliver, St.ret]
  · simp [St.step, St.call, St.listen, St.init, St.send, St.deliver, St.ret]
  · intro evs' s' h hc
    have := (C96_only_first_returns_violated h hc).1
    have e : callsOf (evs' ++ [.call c, .call b, .ret, .deliver a, .send, .send, .call a]) = callsOf evs' ++ [c, b, a] := by
      simp [callsOf]
    rw [e] at this
    simp at this
    exact hac this.symm

/-- Non-vacuity: three calls. -/
example : ∃ s, Reach [.call 2, .call 1, .ret, .deliver 0, .send, .send, .call 0] s ∧ s.returned = [0] ∧ s.raised = [1] ∧
    s.cur = some (2, 2) := by
  obtain ⟨s, h, h1, h2, h3, _⟩ := C96_second_call_violated 0 1 2 (by decide) (by decide) (by decide)
  exact ⟨s, h, h1, h2, h3⟩

end Verif.Serve.Loop
