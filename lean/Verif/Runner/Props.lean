import Verif.Runner.Finish
namespace Verif.Runner
open Verif.PyRadix Verif.PyPool

theorem rinv_step {m : Mode} {fix : Bool} {size maxReqs : Nat} {s s' : St} {lab : Lab} (h : RInv m size maxReqs s) (hs : Step m fix s lab s')
    (hf : fix = true ∨ lab ≠ .finish) : RInv m size maxReqs s' := by
  cases hs with
  | start now rid inp discard _ _ => exact rinv_start h now rid inp discard
  | rollback r rest hp hr => exact rinv_rollback (h.perm hp) rfl hr
  | extend r rest row rows xs pool hp hr h1 h2 => exact rinv_extend (h.perm hp) rfl hr h1 h2
  | noSlots n pool hx => exact rinv_noSlots h hx
  | commit now r rest row tok hp hr hd => exact rinv_commit (h.perm hp) rfl hr hd now tok
  | decode r rest row x pool tok hp hr hd hx => exact rinv_decode (h.perm hp) rfl hr hd hx tok
  | finish now r rest row hp hr hd =>
    rcases hf with rfl | hf
    · exact rinv_finish (h.perm hp) rfl hr hd now
    · exact absurd rfl hf
  | evict target freed c' he => exact rinv_evict h he

theorem rinv_reach {m : Mode} {fix : Bool} {size maxReqs : Nat} {b : Bool} {labs : List Lab} {s : St} (h : Reach m fix size maxReqs b labs s)
    (hf : fix = true ∨ .finish ∉ labs) : RInv m size maxReqs s := by
  induction h with
  | init => exact rinv_init m size maxReqs b
  | @step labs s lab s' _ hs ih =>
    refine rinv_step (ih ?_) hs ?_
    · exact hf.imp_right (fun hh hm => hh (List.mem_cons_of_mem _ hm))
    · exact hf.imp_right (fun hh hm => hh (hm ▸ List.mem_cons_self))

/-- C51: every position that a request reads holds the key and value of exactly its own tokens up to this position.
Holds until the first request is released, and for all histories once `total_len` leaves out the last sampled token
(`fix`); for the code see `C51_garbage_violated`. -/
theorem C51_kv_partial {m : Mode} {fix : Bool} {size maxReqs : Nat} {b : Bool} {labs : List Lab} {s : St} (h : Reach m fix size maxReqs b labs s)
    (hf : fix = true ∨ .finish ∉ labs) {r : Req} (hr : r ∈ s.reqs) {row : Nat} (hrow : r.row = some row) {i : Nat} (hi : i < r.filled.length) :
    s.kv (s.table row i) = r.filled.take (i + 1) :=
  (rinv_reach h hf).kvReq r hr row hrow i hi

/-- C51: two requests share a slot only at the same position after the same tokens. -/
theorem C51_share_partial {m : Mode} {fix : Bool} {size maxReqs : Nat} {b : Bool} {labs : List Lab} {s : St} (h : Reach m fix size maxReqs b labs s)
    (hf : fix = true ∨ .finish ∉ labs) {r q : Req} (hr : r ∈ s.reqs) (hq : q ∈ s.reqs) {row row' : Nat} (hrow : r.row = some row) (hrow' : q.row = some row')
    {i j : Nat} (hi : i < r.filled.length) (hj : j < q.filled.length) (he : s.table row i = s.table row' j) :
    i = j ∧ r.filled.take (i + 1) = q.filled.take (i + 1) := by
  have h1 := C51_kv_partial h hf hr hrow hi
  have h2 := C51_kv_partial h hf hq hrow' hj
  rw [he, h2] at h1
  have hl := congrArg List.length h1
  rw [List.length_take, List.length_take] at hl
  have : i = j := by omega
  subst this
  exact ⟨rfl, h1.symm⟩

/-- C51: the slots given to a request are different slots of the pool to which no request and nothing in the cache refers. -/
theorem C51_fresh_partial {m : Mode} {fix : Bool} {size maxReqs : Nat} {b : Bool} {labs : List Lab} {s : St} (h : Reach m fix size maxReqs b labs s)
    (hf : fix = true ∨ .finish ∉ labs) {n : Nat} {xs : Slots} {pool : Pool} (ha : s.pool.alloc n = (some xs, pool)) :
    xs.length = n ∧ xs.Nodup ∧ ∀ x ∈ xs, (1 ≤ x ∧ x ≤ size) ∧ (∀ k sl, Cached 1 s.cache.tree none k sl → x ∉ sl) ∧
      ∀ r ∈ s.reqs, ∀ row, r.row = some row → ∀ i, i < r.filled.length → s.table row i ≠ x := by
  have hi := rinv_reach h hf
  obtain ⟨p1, p2, p3, p4⟩ := pool_alloc hi.page ha
  simp only [Option.getD_some] at p3
  have hxs : ∀ x ∈ xs, x ∈ s.pool.free ++ s.pool.release := by
    intro x hxm
    have : x ∈ (s.pool.free : Multiset Nat) + s.pool.release := by rw [← p3]; simp [hxm]
    simpa using this
  have hp : (s.pool.free ++ s.pool.release ++ (slots s.cache.tree ++ s.reqs.flatMap (own s.table))).Perm (List.range' 1 size) := by
    rw [← Multiset.coe_eq_coe, ← hi.all]; simp [← Multiset.coe_add, add_assoc]
  refine ⟨p4 xs rfl, ?_, ?_⟩
  · have h1 := (List.nodup_append.1 (hp.nodup_iff.2 List.nodup_range')).1
    have h2 : (xs ++ (pool.free ++ pool.release)).Perm (s.pool.free ++ s.pool.release) := by
      rw [← Multiset.coe_eq_coe]; simpa [← Multiset.coe_add] using p3
    exact (List.nodup_append.1 (h2.nodup_iff.2 h1)).1
  · intro x hx
    refine ⟨?_, ?_, ?_⟩
    · have := hp.mem_iff.1 (List.mem_append_left _ (hxs x hx))
      rw [List.mem_range'_1] at this
      omega
    · intro k sl hc hm
      exact (hi.disjoint (hxs x hx)).1 (cached_slots hc x hm)
    · intro r hr row hrow i hil
      exact hi.disjointReq (hxs x hx) hr hrow hil

/-- C51: no slot is lost or doubled: when no request is active, every slot of the pool is either free or in the cache,
once; nothing is locked, so that everything can be evicted. -/
theorem C51_no_leak_partial {m : Mode} {fix : Bool} {size maxReqs : Nat} {b : Bool} {labs : List Lab} {s : St} (h : Reach m fix size maxReqs b labs s)
    (hf : fix = true ∨ .finish ∉ labs) (he : s.reqs = []) :
    (s.pool.free ++ s.pool.release ++ slots s.cache.tree).Perm (List.range' 1 size) ∧ s.cache.prot = 0 ∧ s.rows.Perm (List.range maxReqs) := by
  have hi := rinv_reach h hf
  refine ⟨?_, ?_, ?_⟩
  · rw [← Multiset.coe_eq_coe, ← hi.all, he]; simp
  · have h1 := hi.cinv.prot
    have h2 := hi.cinv.lock
    rw [he] at h2
    simp only [] at h1 h2
    rw [h1]
    have : ∀ f : Forest, LockOk [] f → lockedSize f = 0 := by
      intro f
      induction f with
      | nil => intro _; rfl
      | node i k x v l t kids rest ihk ihr =>
        rintro ⟨h1, h2, h3⟩
        have hl : l = 0 := by simpa using h1
        rw [lockedSize, if_neg (by simpa using hl), ihk h2, ihr h3]; rfl
    exact this _ h2
  · rw [← Multiset.coe_eq_coe, ← hi.rows, he]; simp

/-- C51: at least two tokens of a prompt of at least two tokens are computed by the prefill. -/
theorem C51_extend_len {m : Mode} {fix : Bool} {size maxReqs : Nat} {b : Bool} {labs : List Lab} {s : St} (h : Reach m fix size maxReqs b labs s)
    {r : Req} (hr : r ∈ s.reqs) (hrow : r.row = none) (hl : 2 ≤ r.inp.length) : 2 ≤ r.inp.length - r.idx.length := by
  have key : ∀ r ∈ s.reqs, r.row = none → 2 ≤ r.inp.length → 2 ≤ r.inp.length - r.idx.length := by
    clear hr hrow hl r
    induction h with
    | init => intro r hr; cases hr
    | @step labs s lab s' _ hs ih =>
      have hcons : ∀ {r0 : Req} {rest : List Req}, s.reqs.Perm (r0 :: rest) → ∀ q : Req, q.row ≠ none →
          ∀ r ∈ q :: rest, r.row = none → 2 ≤ r.inp.length → 2 ≤ r.inp.length - r.idx.length := by
        intro r0 rest hp q hq r hr hrow hl
        rcases List.mem_cons.1 hr with rfl | hr
        · exact absurd hrow hq
        · exact ih r (hp.mem_iff.2 (List.mem_cons_of_mem _ hr)) hrow hl
      have hrest : ∀ {r0 : Req} {rest : List Req}, s.reqs.Perm (r0 :: rest) →
          ∀ r ∈ rest, r.row = none → 2 ≤ r.inp.length → 2 ≤ r.inp.length - r.idx.length :=
        fun hp r hr => ih r (hp.mem_iff.2 (List.mem_cons_of_mem _ hr))
      cases hs with
      | start now rid inp discard _ _ =>
        intro r hr hrow hl
        rw [St.start] at hr
        split at hr
        · rcases List.mem_cons.1 hr with rfl | hr
          · simpa using hl
          · exact ih r hr hrow hl
        · rcases List.mem_cons.1 hr with rfl | hr
          · simp only [List.length_take] at hl ⊢
            rw [capped]
            split <;> split <;> omega
          · exact ih r hr hrow hl
      | rollback r rest hp hr => exact hrest hp
      | extend r rest row rows xs pool hp hr h1 h2 => exact hcons hp _ (by simp)
      | noSlots n pool hx => exact ih
      | commit now r rest row tok hp hr hd =>
        unfold St.commit
        split
        · exact hcons hp _ (by simp [hr])
        · exact hcons hp _ (by simp [hr])
      | decode r rest row x pool tok hp hr hd hx => exact hcons hp _ (by simp [hr])
      | finish now r rest row hp hr hd =>
        unfold St.finish
        cases m <;> exact hrest hp
      | evict target freed c' he => exact ih
  exact key r hr hrow hl

/-! ### The code -/

-- a request with prompt [1, 2, 3] ends after one token, 4; the next prompt starts with these four tokens
def a0 : St := .init 8 2 true
def a1 : St := a0.start .radix 0 0 [1, 2, 3] false
def a2 : St := a1.extend ⟨0, [1, 2, 3], [], none, [], 0, none, false⟩ [] 0 [1] [1, 2, 3] (a1.pool.alloc 3).2
def a3 : St := a2.commit .radix 1 ⟨0, [1, 2, 3], [], some 0, [], 0, none, false⟩ [] 0 4
def a4 : St := a3.finish false .radix 2 ⟨0, [1, 2, 3], [4], some 0, [], 3, some 1, true⟩ [] 0
def a5 : St := a4.start .radix 3 1 [1, 2, 3, 4, 5, 6] false
def b5 : Req := ⟨1, [1, 2, 3, 4, 5, 6], [], none, [1, 2, 3, 0], 4, some 2, false⟩
def a6 : St := a5.extend b5 [] 1 [0] [4, 5] (a5.pool.alloc 2).2

theorem a3_reach (fix : Bool) : Reach .radix fix 8 2 true [.commit, .extend, .start] a3 :=
  .step (.step (.step .init (.start 0 0 [1, 2, 3] false (by intro q hq; cases hq) (by simp)))
    (.extend _ [] 0 [1] [1, 2, 3] _ (List.Perm.refl _) rfl (by decide +kernel) (by decide +kernel)))
    (.commit 1 _ [] 0 4 (List.Perm.refl _) rfl rfl)

theorem a6_reach : Reach .radix false 8 2 true [.extend, .start, .finish, .commit, .extend, .start] a6 := by
  refine .step (s := a5) (.step (s := a4) (.step (a3_reach false) ?_) (.start 3 1 [1, 2, 3, 4, 5, 6] false ?_ (by simp))) ?_
  · exact .finish 2 _ [] 0 (by decide +kernel) rfl rfl
  · have : a4.reqs = [] := rfl
    intro q hq
    rw [this] at hq
    cases hq
  · exact .extend b5 [] 1 [0] [4, 5] _ (by decide +kernel) rfl (by decide +kernel) (by decide +kernel)

/-- C51, violated: when a request is released, the slot of its last token, for which nothing was computed, goes to the
cache as well: the table entry that was never written. A later request that continues the conversation reads slot 0,
the padding slot, as the key and value of the fourth token. -/
theorem C51_garbage_violated : ∃ labs s r, Reach .radix false 8 2 true labs s ∧ r ∈ s.reqs ∧ r.row = some 1 ∧
    3 < r.filled.length ∧ s.table 1 3 = 0 ∧ s.kv (s.table 1 3) = [] ∧ r.filled.take 4 = [1, 2, 3, 4] :=
  ⟨_, a6, { b5 with row := some 1 }, a6_reach, by decide +kernel, rfl, by decide +kernel, by decide +kernel, by decide +kernel, by decide +kernel⟩

/-- With the repair, the same history computes the fourth token again. -/
example : ∃ labs s, Reach .radix true 8 2 true labs s ∧ s.reqs.map (·.idx) = [[1, 2, 3]] := by
  refine ⟨[.start, .finish, .commit, .extend, .start], (a3.finish true .radix 2 ⟨0, [1, 2, 3], [4], some 0, [], 3, some 1, true⟩ [] 0).start .radix 3 1 [1, 2, 3, 4, 5, 6] false, ?_, by decide +kernel⟩
  refine .step (.step (a3_reach true) (.finish 2 _ [] 0 (by decide +kernel) rfl rfl)) (.start 3 1 [1, 2, 3, 4, 5, 6] false ?_ (by simp))
  intro q hq
  cases hq

-- without prefix cache: two requests end; then slot 0 is free twice
def q (rid : Nat) (inp : Key) (out : List Int) (row : Option Nat) (done : Bool) : Req := ⟨rid, inp, out, row, [], 0, none, done⟩
def c0 : St := .init 5 2 false
def c1 : St := c0.start .off 0 0 [1, 2, 3, 4] false
def c2 : St := c1.extend (q 0 [1, 2, 3, 4] [] none false) [] 0 [1] [1, 2, 3, 4] (c1.pool.alloc 4).2
def c3 : St := c2.commit .off 0 (q 0 [1, 2, 3, 4] [] (some 0) false) [] 0 8
def c4 : St := c3.finish false .off 0 (q 0 [1, 2, 3, 4] [8] (some 0) true) [] 0
def c5 : St := c4.start .off 0 1 [9] false
def c6 : St := c5.extend (q 1 [9] [] none false) [] 1 [0] [5] (c5.pool.alloc 1).2
def c7 : St := c6.commit .off 0 (q 1 [9] [] (some 1) false) [] 1 8
def c8 : St := c7.finish false .off 0 (q 1 [9] [8] (some 1) true) [] 1
def c9 : St := c8.start .off 0 2 [1, 2, 3, 4, 5] false
def c10 : St := c9.extend (q 2 [1, 2, 3, 4, 5] [] none false) [] 0 [1] [1, 2, 3, 4, 0] (c9.pool.alloc 5).2
def c11 : St := c10.start .off 0 3 [6, 7] false
def c12 : St := c11.extend (q 3 [6, 7] [] none false) [q 2 [1, 2, 3, 4, 5] [] (some 0) false] 1 [] [5, 0] (c11.pool.alloc 2).2

theorem c12_reach : Reach .off false 5 2 false
    [.extend, .start, .extend, .start, .finish, .commit, .extend, .start, .finish, .commit, .extend, .start] c12 := by
  refine .step (s := c11) (.step (s := c10) (.step (s := c9) (.step (s := c8) (.step (s := c7) (.step (s := c6) (.step (s := c5) (.step (s := c4)
    (.step (s := c3) (.step (s := c2) (.step (s := c1) (.step .init ?_) ?_) ?_) ?_) ?_) ?_) ?_) ?_) ?_) ?_) ?_) ?_
  · exact .start 0 0 [1, 2, 3, 4] false (by intro q hq; cases hq) (by simp)
  · exact .extend _ [] 0 [1] [1, 2, 3, 4] _ (by decide +kernel) rfl (by decide +kernel) (by decide +kernel)
  · exact .commit 0 _ [] 0 8 (by decide +kernel) rfl rfl
  · exact .finish 0 _ [] 0 (by decide +kernel) rfl rfl
  · exact .start 0 1 [9] false (by intro q hq; cases hq) (by simp)
  · exact .extend _ [] 1 [0] [5] _ (by decide +kernel) rfl (by decide +kernel) (by decide +kernel)
  · exact .commit 0 _ [] 1 8 (by decide +kernel) rfl rfl
  · exact .finish 0 _ [] 1 (by decide +kernel) rfl rfl
  · exact .start 0 2 [1, 2, 3, 4, 5] false (by intro q hq; cases hq) (by simp)
  · exact .extend _ [] 0 [1] [1, 2, 3, 4, 0] _ (by decide +kernel) rfl (by decide +kernel) (by decide +kernel)
  · refine .start 0 3 [6, 7] false ?_ (by simp)
    have : c10.reqs = [q 2 [1, 2, 3, 4, 5] [] (some 0) false] := rfl
    intro q hq
    rw [this] at hq
    rw [List.mem_singleton.1 hq]
    decide
  · exact .extend _ [q 2 [1, 2, 3, 4, 5] [] (some 0) false] 1 [] [5, 0] _ (by decide +kernel) rfl (by decide +kernel) (by decide +kernel)

/-- C51, violated, without prefix cache: every release frees a slot that was not allocated; after two of them two active
requests with different prompts write to the same slot, and the first one reads what the second has computed. -/
theorem C51_double_violated : ∃ labs s, Reach .off false 5 2 false labs s ∧ s.reqs.map (·.inp) = [[6, 7], [1, 2, 3, 4, 5]] ∧
    s.reqs.map (·.row) = [some 1, some 0] ∧ s.table 0 4 = s.table 1 1 ∧ s.kv (s.table 0 4) = [6, 7] :=
  ⟨_, c12, c12_reach, by decide +kernel, by decide +kernel, by decide +kernel, by decide +kernel⟩

-- the prompt [7] twice
def e1 : St := a0.start .radix 0 0 [7] false
def e2 : St := e1.extend ⟨0, [7], [], none, [], 0, none, false⟩ [] 0 [1] [1] (e1.pool.alloc 1).2
def e3 : St := e2.commit .radix 1 ⟨0, [7], [], some 0, [], 0, none, false⟩ [] 0 4
def e4 : St := e3.start .radix 2 1 [7] false

/-- C51, violated: for a prompt of one token that is cached, nothing is left to compute: the forward pass runs on an
empty input (which the comment at L718-720 says crashes). -/
theorem C51_empty_extend_violated : ∃ labs s r, Reach .radix false 8 2 true labs s ∧ r ∈ s.reqs ∧ r.row = none ∧ r.inp = [7] ∧
    r.inp.length - r.idx.length = 0 := by
  refine ⟨[.start, .commit, .extend, .start], e4, ⟨1, [7], [], none, [1], 1, some 1, false⟩, ?_, by decide +kernel, rfl, rfl, rfl⟩
  refine .step (s := e3) (.step (s := e2) (.step (s := e1) (.step .init ?_) ?_) ?_) ?_
  · exact .start 0 0 [7] false (by intro q hq; cases hq) (by simp)
  · exact .extend _ [] 0 [1] [1] _ (by decide +kernel) rfl (by decide +kernel) (by decide +kernel)
  · exact .commit 1 _ [] 0 4 (by decide +kernel) rfl rfl
  · refine .start 2 1 [7] false ?_ (by simp)
    have : e3.reqs.map (·.rid) = [0] := by decide +kernel
    intro q hq he
    have := this ▸ List.mem_map_of_mem (f := Req.rid) hq
    rw [he] at this
    simp at this

/-- Non-vacuity: a request in the middle of its decode shares its prompt with the cache and owns one slot. -/
example : ∃ labs s r, Reach .radix true 8 2 true labs s ∧ .finish ∉ labs ∧ r ∈ s.reqs ∧ r.filled = [1, 2, 3, 4] ∧ s.table 0 3 = 4 ∧
    s.kv 4 = [1, 2, 3, 4] ∧ s.cache.prot = 3 := by
  refine ⟨_, a3.decode ⟨0, [1, 2, 3], [4], some 0, [], 3, some 1, true⟩ [] 0 4 (a3.pool.alloc 1).2 5, _,
    .step (a3_reach true) (.decode _ [] 0 4 _ 5 (by decide +kernel) rfl rfl (by decide +kernel)), by decide,
    List.mem_cons_self, by decide +kernel, by decide +kernel, by decide +kernel, by decide +kernel⟩

end Verif.Runner
