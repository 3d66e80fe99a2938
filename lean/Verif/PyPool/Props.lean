import Verif.PyPool.Model
namespace Verif.PyPool

def pending (p : Pool) : List Nat := (p.group.getD []).flatten

theorem sort_perm (l : List Nat) : (sort l).Perm l := List.perm_insertionSort _ _

theorem merge_perm (p : Pool) : (p.merge.free ++ p.merge.release).Perm (p.free ++ p.release) ∧ p.merge.release = [] ∧
    p.merge.size = p.size ∧ p.merge.page = p.page ∧ p.merge.needSort = p.needSort ∧ p.merge.group = p.group := by
  rw [Pool.merge]
  by_cases h : p.release.length = 0
  · rw [if_pos h]; exact ⟨List.Perm.refl _, List.length_eq_zero_iff.1 h, rfl, rfl, rfl, rfl⟩
  · rw [if_neg h]
    refine ⟨?_, rfl, rfl, rfl, rfl, rfl⟩
    simp only [List.append_nil]
    split
    · exact sort_perm _
    · exact List.Perm.refl _

/-- Taking entries of the free list. -/
theorem take_spec (p : Pool) (k : Nat) : (p.take k).2.size = p.size ∧ (p.take k).2.page = p.page ∧ (p.take k).2.needSort = p.needSort ∧
    (p.take k).2.group = p.group ∧
    (∀ out, (p.take k).1 = some out → out.length = k ∧ (p.free ++ p.release).Perm (out ++ ((p.take k).2.free ++ (p.take k).2.release))) ∧
    ((p.take k).1 = none → p.free.length + p.release.length < k ∧ (p.free ++ p.release).Perm ((p.take k).2.free ++ (p.take k).2.release)) := by
  obtain ⟨m1, m2, m3, m4, m5, m6⟩ := merge_perm p
  rw [Pool.take]
  -- the pool after the optional merge
  have hp1 : ∃ p1 : Pool, (if k > p.free.length then p.merge else p) = p1 ∧ (p1.free ++ p1.release).Perm (p.free ++ p.release) ∧ p1.size = p.size ∧
      p1.page = p.page ∧ p1.needSort = p.needSort ∧ p1.group = p.group ∧ (k > p1.free.length → p.free.length + p.release.length < k) := by
    by_cases h : k > p.free.length
    · refine ⟨_, if_pos h, m1, m3, m4, m5, m6, ?_⟩
      intro hk
      have := m1.length_eq
      rw [m2, List.append_nil, List.length_append] at this
      omega
    · exact ⟨_, if_neg h, List.Perm.refl _, rfl, rfl, rfl, rfl, fun hk => absurd hk h⟩
  obtain ⟨p1, e1, q1, q2, q3, q4, q5, q6⟩ := hp1
  simp only [e1]
  by_cases h : k > p1.free.length
  · rw [if_pos h]
    exact ⟨q2, q3, q4, q5, fun _ hh => (by cases hh), fun _ => ⟨q6 h, q1.symm⟩⟩
  · rw [if_neg h]
    refine ⟨q2, q3, q4, q5, ?_, fun hh => (by cases hh)⟩
    intro out ho
    obtain rfl := Option.some.inj ho
    refine ⟨by rw [List.length_take]; omega, q1.symm.trans ?_⟩
    simp only []
    rw [← List.append_assoc, List.take_append_drop]

/-- The invariant for single slots. -/
structure Inv (size : Nat) (s : St) : Prop where
  hpage : s.pool.page = 1
  hsize : s.pool.size = size
  all : (s.pool.free ++ s.pool.release ++ pending s.pool ++ s.held).Perm (List.range' 1 size)

theorem release1_perm {p : Pool} (hp : p.page = 1) (idx : List Nat) : (p.release1 idx).page = 1 ∧ (p.release1 idx).size = p.size ∧
    ((p.release1 idx).free ++ (p.release1 idx).release ++ pending (p.release1 idx)).Perm (p.free ++ p.release ++ pending p ++ idx) := by
  rw [Pool.release1]
  by_cases h : idx = []
  · rw [if_pos h]; subst h; exact ⟨hp, rfl, by simp⟩
  · rw [if_neg h]
    cases hg : p.group with
    | some g =>
      refine ⟨hp, rfl, ?_⟩
      simp only [pending, hg, Option.getD_some, List.flatten_append, List.flatten_cons, List.flatten_nil, List.append_nil]
      rw [← List.append_assoc]
    | none =>
      have hpn : pending p = [] := by rw [pending, hg]; rfl
      rw [hpn, List.append_nil]
      simp only []
      rw [Pool.put]
      simp only [if_pos hp]
      by_cases hs : p.needSort
      · rw [if_pos hs]
        refine ⟨hp, rfl, ?_⟩
        simp only [pending, hg]
        simp
      · rw [if_neg hs]
        refine ⟨hp, rfl, ?_⟩
        simp only [pending, hg]
        simp only [Option.getD_none, List.flatten_nil, List.append_nil, List.append_assoc]
        exact List.Perm.append_left _ List.perm_append_comm

theorem inv_reach {size : Nat} {b : Bool} {s : St} (h : Reach size 1 b s) : Inv size s := by
  induction h with
  | init => exact ⟨rfl, rfl, by simp [init, pending]⟩
  | @step s op s' _ hs ih =>
    obtain ⟨i1, i2, i3⟩ := ih
    cases hs with
    | allocOk n out p' ha =>
      rw [Pool.alloc, if_pos i1] at ha
      obtain ⟨t1, t2, _, t4, t5, _⟩ := take_spec s.pool n
      rw [ha] at t1 t2 t4 t5
      obtain ⟨_, hp⟩ := t5 out rfl
      refine ⟨t2.trans i1, t1.trans i2, ?_⟩
      have hpe : pending p' = pending s.pool := by simp only [pending]; rw [t4]
      simp only [] at hp ⊢
      rw [hpe]
      refine List.Perm.trans ?_ i3
      refine List.Perm.trans ?_ ((hp.symm.append_right _).append_right _)
      simp only [List.append_assoc]
      have e1 : (p'.free ++ (p'.release ++ (pending s.pool ++ (out ++ s.held)))).Perm
          ((p'.free ++ (p'.release ++ pending s.pool)) ++ (out ++ s.held)) := by simp
      refine e1.trans ?_
      rw [← List.append_assoc]
      refine (List.perm_append_comm.append_right _).trans ?_
      simp
    | allocNo n p' ha =>
      rw [Pool.alloc, if_pos i1] at ha
      obtain ⟨t1, t2, _, t4, _, t6⟩ := take_spec s.pool n
      rw [ha] at t1 t2 t4 t6
      obtain ⟨_, hp⟩ := t6 rfl
      refine ⟨t2.trans i1, t1.trans i2, ?_⟩
      have hpe : pending p' = pending s.pool := by simp only [pending]; rw [t4]
      show (p'.free ++ p'.release ++ pending p' ++ s.held).Perm _
      rw [hpe]
      exact ((hp.symm.append_right _).append_right _).trans i3
    | free idx rest hr =>
      obtain ⟨r1, r2, r3⟩ := release1_perm i1 idx
      refine ⟨r1, r2.trans i2, ?_⟩
      refine (r3.append_right _).trans ?_
      refine List.Perm.trans ?_ i3
      rw [List.append_assoc _ idx rest]
      exact hr.symm.append_left _
    | groupBegin hg =>
      refine ⟨i1, i2, ?_⟩
      have : pending s.pool = [] := by rw [pending, hg]; rfl
      rw [this] at i3
      simpa [Pool.groupBegin, pending] using i3
    | groupEnd =>
      show Inv size ⟨s.pool.groupEnd, s.held⟩
      rw [Pool.groupEnd]
      cases hg : s.pool.group with
      | none => exact ⟨i1, i2, i3⟩
      | some g =>
        simp only []
        by_cases he : g = []
        · rw [if_pos he]
          refine ⟨i1, i2, ?_⟩
          have : pending s.pool = [] := by rw [pending, hg, he]; rfl
          rw [this] at i3
          simpa [pending] using i3
        · rw [if_neg he]
          obtain ⟨r1, r2, r3⟩ := release1_perm (p := { s.pool with group := none }) i1 g.flatten
          refine ⟨r1, r2.trans i2, ?_⟩
          refine (r3.append_right _).trans ?_
          refine List.Perm.trans ?_ i3
          have : pending s.pool = g.flatten := by rw [pending, hg]; rfl
          rw [this]
          simp [pending]

/-- C50: for single slots, after every history, the free slots, those waiting in an open free group and those handed out
are together exactly `1, …, size`, each once. -/
theorem C50_conserve {size : Nat} {b : Bool} {s : St} (h : Reach size 1 b s) :
    (s.pool.free ++ s.pool.release ++ pending s.pool ++ s.held).Perm (List.range' 1 size) := (inv_reach h).all

/-- C50: `alloc(n)` returns `n` different slots between 1 and `size`, none of which is handed out; it fails exactly when
fewer than `n` slots are available. -/
theorem C50_alloc {size : Nat} {b : Bool} {s : St} (h : Reach size 1 b s) (n : Nat) :
    (∀ out p', s.pool.alloc n = (some out, p') →
      out.length = n ∧ out.Nodup ∧ (∀ x ∈ out, 1 ≤ x ∧ x ≤ size ∧ x ∉ s.held)) ∧
    ((s.pool.alloc n).1 = none ↔ s.pool.available < n) ∧
    s.pool.available + (pending s.pool).length + s.held.length = size := by
  obtain ⟨i1, i2, i3⟩ := inv_reach h
  have hn : (s.pool.free ++ s.pool.release ++ pending s.pool ++ s.held).Nodup := i3.nodup_iff.2 List.nodup_range'
  have hav : s.pool.available = s.pool.free.length + s.pool.release.length := by rw [Pool.available, i1, Nat.mul_one]
  obtain ⟨_, _, _, _, t5, t6⟩ := take_spec s.pool n
  have ea : s.pool.alloc n = s.pool.take n := by rw [Pool.alloc, if_pos i1]
  refine ⟨?_, ?_, ?_⟩
  · intro out p' ha
    rw [ea] at ha
    rw [ha] at t5
    obtain ⟨t1, t2⟩ := t5 out rfl
    have hsub : ∀ x ∈ out, x ∈ s.pool.free ++ s.pool.release := fun x hx => t2.mem_iff.2 (List.mem_append_left _ hx)
    refine ⟨t1, ?_, ?_⟩
    · have hn1 : (s.pool.free ++ s.pool.release).Nodup := (List.nodup_append.1 (List.nodup_append.1 hn).1).1
      exact (List.nodup_append.1 (t2.nodup_iff.1 hn1)).1
    · intro x hx
      have hm := hsub x hx
      have hr := i3.mem_iff.1 (List.mem_append_left s.held (List.mem_append_left (pending s.pool) hm))
      rw [List.mem_range'_1] at hr
      refine ⟨hr.1, by omega, fun hh => ?_⟩
      exact (List.nodup_append.1 hn).2.2 x (List.mem_append_left _ hm) x hh rfl
  · rw [ea, hav]
    constructor
    · intro hh; exact (t6 hh).1
    · intro hlt
      cases hc : (s.pool.take n).1 with
      | none => rfl
      | some out =>
        obtain ⟨t1, t2⟩ := t5 out hc
        have := t2.length_eq
        rw [List.length_append, List.length_append] at this
        omega
  · have := i3.length_eq
    simp only [List.length_append, List.length_range'] at this
    omega

/-- Non-vacuity: a history with a free group. -/
example : ∃ s : St, Reach 4 1 true s ∧ s.held = [2] ∧ pending s.pool = [1] ∧ (s.pool.alloc 2).1 = some [3, 4] := by
  refine ⟨_, .step (.step (.step .init (.allocOk 2 [1, 2] _ rfl)) (.groupBegin rfl)) (.free [1] [2] (by simp)), rfl, rfl, by decide +kernel⟩

/-- C50, violated for nested free groups: opening a group inside another loses what the outer one has collected. -/
theorem C50_nested_group_violated : ∃ p : Pool, p = ((init 2 1 true).alloc 1).2 ∧
    ((((p.groupBegin.release1 [1]).groupBegin).groupEnd).groupEnd.alloc 2).1 = none ∧
    ((((p.groupBegin.release1 [1]).groupEnd).alloc 2).1 = some [1, 2]) :=
  ⟨_, rfl, by decide +kernel, by decide +kernel⟩

def v1 : Pool := ((init 4 2 true).alloc 2).2
def v2 : Pool := (v1.release1 [2]).release1 [3]
def v3 : Pool := (v2.alloc 2).2
def v4 : Pool := (v3.alloc 2).2
def v5 : Pool := (v4.alloc 2).2

/-- C50, violated for pages: the two slots of a page are given back one by one; then two allocations return the same
slots. -/
theorem C50_page_violated : ∃ s : St, Reach 4 2 true s ∧ s.held = [2, 3, 2, 3, 4, 5] := by
  refine ⟨⟨v5, [2, 3] ++ ([2, 3] ++ ([4, 5] ++ []))⟩, ?_, rfl⟩
  refine .step (s := ⟨v4, [2, 3] ++ ([4, 5] ++ [])⟩) ?_ (.allocOk 2 [2, 3] v5 (by decide +kernel))
  refine .step (s := ⟨v3, [4, 5] ++ []⟩) ?_ (.allocOk 2 [2, 3] v4 (by decide +kernel))
  refine .step (s := ⟨v2, []⟩) ?_ (.allocOk 2 [4, 5] v3 (by decide +kernel))
  refine .step (s := ⟨v1.release1 [2], [3]⟩) ?_ (.free [3] [] (by simp))
  refine .step (s := ⟨v1, [2, 3] ++ []⟩) ?_ (.free [2] [3] (by simp))
  exact .step .init (.allocOk 2 [2, 3] v1 (by decide +kernel))

/-- C50, violated for pages: one slot of a page is given back, the other is still held and is handed out again. -/
theorem C50_page_part_violated : ∃ (s : St) (out : List Nat) (p' : Pool), Reach 2 2 true s ∧ s.pool.alloc 2 = (some out, p') ∧ 3 ∈ out ∧ 3 ∈ s.held := by
  refine ⟨⟨((init 2 2 true).alloc 2).2.release1 [2], [3]⟩, [2, 3], ⟨2, 2, true, [], [], none⟩, ?_, by decide +kernel, by decide, by decide⟩
  refine .step (s := ⟨((init 2 2 true).alloc 2).2, [2, 3] ++ []⟩) ?_ (.free [2] [3] (by simp))
  exact .step .init (.allocOk 2 [2, 3] _ (by decide +kernel))

/-- C50, violated for pages: a slot beyond the rows of the `KVPool` of this size is handed out. -/
theorem C50_page_rows_violated : ∃ (out : List Nat) (p' : Pool), (init 15 5 true).alloc 15 = (some out, p') ∧ rows 15 = 16 ∧ 19 ∈ out :=
  ⟨_, _, rfl, by decide +kernel, by decide +kernel⟩

/-! ### Whole allocations of pages -/

theorem mem_expand {page : Nat} {pages : List Nat} {x : Nat} (hp : 0 < page) : x ∈ expand page pages ↔ x / page ∈ pages := by
  rw [expand, List.mem_flatMap]
  constructor
  · rintro ⟨q, hq, hx⟩
    rw [List.mem_map] at hx
    obtain ⟨o, ho, rfl⟩ := hx
    rw [List.mem_range] at ho
    rw [Nat.mul_comm, Nat.mul_add_div hp, Nat.div_eq_of_lt ho, Nat.add_zero]
    exact hq
  · intro h
    refine ⟨_, h, ?_⟩
    rw [List.mem_map]
    exact ⟨x % page, List.mem_range.2 (Nat.mod_lt _ hp), by rw [Nat.mul_comm]; exact Nat.div_add_mod x page⟩

theorem length_expand (page : Nat) (pages : List Nat) : (expand page pages).length = pages.length * page := by
  induction pages with
  | nil => simp [expand]
  | cons a l ih =>
    rw [expand, List.flatMap_cons, List.length_append, ← expand, ih]
    simp
    ring

/-- The pages of the first `n` slots of `⌈n / page⌉` different pages are these pages. -/
theorem pages_of_take {page n : Nat} (hp : 0 < page) : ∀ {pages : List Nat}, pages.Nodup → pages.length = (n + page - 1) / page →
    ((((expand page pages).take n).map (· / page)).dedup).Perm pages := by
  intro pages hn hl
  refine (List.perm_ext_iff_of_nodup (List.nodup_dedup _) hn).2 fun q => ?_
  rw [List.mem_dedup, List.mem_map]
  constructor
  · rintro ⟨x, hx, rfl⟩
    exact (mem_expand hp).1 (List.mem_of_mem_take hx)
  · intro hq
    obtain ⟨i, hi, rfl⟩ := List.mem_iff_getElem.1 hq
    -- the first slot of this page
    have hin : i * page < n := by
      rw [hl] at hi
      have h1 : i + 1 ≤ (n + page - 1) / page := hi
      rw [Nat.le_div_iff_mul_le hp] at h1
      have : (i + 1) * page = i * page + page := by ring
      omega
    have hget : ∀ (pages : List Nat) (i : Nat) (hi : i < pages.length), (expand page pages)[i * page]? = some (pages[i] * page) := by
      intro pages
      induction pages with
      | nil => intro i hi; simp at hi
      | cons a l ih =>
        intro i hi
        rw [expand, List.flatMap_cons, ← expand]
        cases i with
        | zero =>
          rw [Nat.zero_mul, List.getElem?_append_left (by simpa using hp)]
          simp [hp]
        | succ i =>
          have e1 : (i + 1) * page = page + i * page := by ring
          rw [List.getElem?_append_right (by simp; rw [e1]; omega)]
          simp only [List.length_map, List.length_range, List.getElem_cons_succ]
          rw [e1, Nat.add_sub_cancel_left]
          exact ih i (by simpa using hi)
    refine ⟨pages[i] * page, ?_, Nat.mul_div_cancel _ hp⟩
    rw [List.mem_iff_getElem?]
    refine ⟨i * page, ?_⟩
    rw [List.getElem?_take, if_pos hin, hget pages i hi]

def pagesOf (page : Nat) (out : List Nat) : List Nat := (out.map (· / page)).dedup

structure PInv (size page : Nat) (s : PSt) : Prop where
  hpage : s.pool.page = page
  hgroup : s.pool.group = none
  all : (s.pool.free ++ s.pool.release ++ s.held.flatMap (pagesOf page)).Perm (List.range' 1 (size / page))

theorem preach_inv {size page : Nat} {b : Bool} (hp : 1 < page) {s : PSt} (h : PReach size page b s) : PInv size page s := by
  have hp0 : 0 < page := by omega
  have hp1 : ¬ page = 1 := by omega
  induction h with
  | init => exact ⟨rfl, rfl, by simp [init, hp1]⟩
  | @step s s' _ hs ih =>
    obtain ⟨i1, i2, i3⟩ := ih
    cases hs with
    | allocOk n out p' ha =>
      rw [Pool.alloc, if_neg (by rw [i1]; exact hp1)] at ha
      obtain ⟨_, t2, _, t4, t5, _⟩ := take_spec s.pool ((n + s.pool.page - 1) / s.pool.page)
      rcases hr : s.pool.take ((n + s.pool.page - 1) / s.pool.page) with ⟨_ | pages, p1⟩
      · rw [hr] at ha; simp at ha
      · rw [hr] at ha t2 t4 t5
        simp only [Prod.mk.injEq, Option.some.injEq] at ha
        obtain ⟨rfl, rfl⟩ := ha
        obtain ⟨t1, t3⟩ := t5 pages rfl
        refine ⟨t2.trans i1, t4.trans i2, ?_⟩
        have hn : (s.pool.free ++ s.pool.release).Nodup := (List.nodup_append.1 (i3.nodup_iff.2 List.nodup_range')).1
        have hpn : pages.Nodup := (List.nodup_append.1 (t3.nodup_iff.1 hn)).1
        have hpo := pages_of_take hp0 (n := n) hpn (by rw [t1, i1])
        simp only [List.flatMap_cons, i1]
        refine List.Perm.trans ?_ i3
        refine List.Perm.trans ?_ (t3.symm.append_right _)
        simp only []
        rw [← List.append_assoc]
        refine List.Perm.append_right _ ?_
        refine ((hpo).append_left _).trans List.perm_append_comm
    | allocNo n p' ha =>
      rw [Pool.alloc, if_neg (by rw [i1]; exact hp1)] at ha
      obtain ⟨_, t2, _, t4, _, t6⟩ := take_spec s.pool ((n + s.pool.page - 1) / s.pool.page)
      rcases hr : s.pool.take ((n + s.pool.page - 1) / s.pool.page) with ⟨_ | pages, p1⟩
      · rw [hr] at ha t2 t4 t6
        simp only [Prod.mk.injEq, true_and] at ha
        subst ha
        obtain ⟨_, t3⟩ := t6 rfl
        exact ⟨t2.trans i1, t4.trans i2, (t3.symm.append_right _).trans i3⟩
      · rw [hr] at ha; simp at ha
    | free out ho =>
      have hfl : (s.held.flatMap (pagesOf page)).Perm (pagesOf page out ++ (s.held.erase out).flatMap (pagesOf page)) := by
        have := (List.perm_cons_erase ho).flatMap_right (pagesOf page)
        rwa [List.flatMap_cons] at this
      have h3 := ((hfl.symm.append_left (s.pool.free ++ s.pool.release))).trans i3
      show PInv size page ⟨s.pool.release1 out, s.held.erase out⟩
      rw [Pool.release1]
      by_cases he : out = []
      · rw [if_pos he]
        refine ⟨i1, i2, ?_⟩
        rw [he] at h3 ⊢
        simpa [pagesOf] using h3
      · rw [if_neg he]
        simp only [i2]
        rw [Pool.put]
        simp only [i1, if_neg hp1]
        have hs := sort_perm ((out.map (· / page)).dedup)
        by_cases hb : s.pool.needSort
        · rw [if_pos hb]
          refine ⟨rfl, i2, ?_⟩
          refine List.Perm.trans ?_ h3
          simp only []
          rw [← List.append_assoc (s.pool.free ++ s.pool.release)]
          refine List.Perm.append_right _ ?_
          simp only [List.append_assoc]
          exact (hs.append_left _).append_left _
        · rw [if_neg hb]
          refine ⟨rfl, i2, ?_⟩
          refine List.Perm.trans ?_ h3
          simp only []
          rw [← List.append_assoc (s.pool.free ++ s.pool.release)]
          refine List.Perm.append_right _ ?_
          simp only [List.append_assoc]
          exact List.Perm.append_left _ (List.perm_append_comm.trans (hs.append_left _))

/-- C50 for pages, in histories where every allocation is given back whole and in one call: an allocation returns `n`
different slots, none of which is part of an allocation that is still held. Missing: partial frees, which break it
(`C50_page_violated`, `C50_page_part_violated`), free groups, and the bound on the slots (`C50_page_rows_violated`). -/
theorem C50_page_partial {size page : Nat} {b : Bool} (hp : 1 < page) {s : PSt} (h : PReach size page b s) (n : Nat) (out : List Nat) (p' : Pool)
    (ha : s.pool.alloc n = (some out, p')) : out.length = n ∧ out.Nodup ∧ (∀ x ∈ out, page ≤ x ∧ x < (size / page + 1) * page) ∧
      ∀ a ∈ s.held, ∀ x ∈ out, x ∉ a := by
  obtain ⟨i1, i2, i3⟩ := preach_inv hp h
  have hp0 : 0 < page := by omega
  rw [Pool.alloc, if_neg (by rw [i1]; omega)] at ha
  obtain ⟨_, _, _, _, t5, _⟩ := take_spec s.pool ((n + s.pool.page - 1) / s.pool.page)
  rcases hr : s.pool.take ((n + s.pool.page - 1) / s.pool.page) with ⟨_ | pages, p1⟩
  · rw [hr] at ha; simp at ha
  · rw [hr] at ha t5
    simp only [Prod.mk.injEq, Option.some.injEq] at ha
    obtain ⟨rfl, rfl⟩ := ha
    obtain ⟨t1, t3⟩ := t5 pages rfl
    rw [i1] at t1 ⊢
    have hall := i3.nodup_iff.2 List.nodup_range'
    have hn : (s.pool.free ++ s.pool.release).Nodup := (List.nodup_append.1 hall).1
    have hpn : pages.Nodup := (List.nodup_append.1 (t3.nodup_iff.1 hn)).1
    refine ⟨?_, ?_, ?_, ?_⟩
    · rw [List.length_take, length_expand, t1]
      refine Nat.min_eq_left ?_
      have h1 := Nat.div_add_mod (n + page - 1) page
      have h2 := Nat.mod_lt (n + page - 1) hp0
      rw [Nat.mul_comm] at h1
      omega
    · refine List.Nodup.sublist (List.take_sublist _ _) ?_
      rw [expand, List.nodup_flatMap]
      refine ⟨fun q _ => ?_, ?_⟩
      · refine List.Nodup.map ?_ List.nodup_range
        intro a b hab
        exact Nat.add_left_cancel hab
      · refine List.Pairwise.imp ?_ hpn
        intro a c hac
        rw [Function.onFun, List.disjoint_left]
        intro x hx hy
        rw [List.mem_map] at hx hy
        obtain ⟨o1, ho1, rfl⟩ := hx
        obtain ⟨o2, ho2, e2⟩ := hy
        rw [List.mem_range] at ho1 ho2
        apply hac
        have h1 : (a * page + o1) / page = a := by rw [Nat.mul_comm, Nat.mul_add_div hp0, Nat.div_eq_of_lt ho1, Nat.add_zero]
        have h2 : (c * page + o2) / page = c := by rw [Nat.mul_comm, Nat.mul_add_div hp0, Nat.div_eq_of_lt ho2, Nat.add_zero]
        rw [← h1, ← h2, e2]
    · intro x hx
      have hm := (mem_expand hp0).1 (List.mem_of_mem_take hx)
      have hr' := i3.mem_iff.1 (List.mem_append_left _ (t3.mem_iff.2 (List.mem_append_left _ hm)))
      rw [List.mem_range'_1] at hr'
      constructor
      · have := (Nat.le_div_iff_mul_le hp0).1 hr'.1
        omega
      · rw [← Nat.div_lt_iff_lt_mul hp0]
        omega
    · intro a hah x hx hxa
      have hm := (mem_expand hp0).1 (List.mem_of_mem_take hx)
      have h1 : x / page ∈ s.held.flatMap (pagesOf page) := by
        rw [List.mem_flatMap]
        exact ⟨a, hah, by rw [pagesOf, List.mem_dedup, List.mem_map]; exact ⟨x, hxa, rfl⟩⟩
      exact (List.nodup_append.1 hall).2.2 _ (t3.mem_iff.2 (List.mem_append_left _ hm)) _ h1 rfl

/-- Non-vacuity: after allocating 3 and 2 slots and giving back the first allocation. -/
example : ∃ (s : PSt) (out : List Nat) (p' : Pool), PReach 8 2 true s ∧ s.held = [[6, 7]] ∧ s.pool.alloc 5 = (some out, p') ∧ out = [2, 3, 4, 5, 8] := by
  refine ⟨⟨(((init 8 2 true).alloc 3).2.alloc 2).2.release1 [2, 3, 4], [[6, 7]]⟩, [2, 3, 4, 5, 8], ⟨8, 2, true, [], [], none⟩, ?_, rfl, by decide +kernel, rfl⟩
  refine .step (s := ⟨(((init 8 2 true).alloc 3).2.alloc 2).2, [[6, 7], [2, 3, 4]]⟩) ?_ (.free [2, 3, 4] (by simp))
  exact .step (s := ⟨((init 8 2 true).alloc 3).2, [[2, 3, 4]]⟩) (.step .init (.allocOk 3 [2, 3, 4] _ (by decide +kernel))) (.allocOk 2 [6, 7] _ (by decide +kernel))

/-! ### Rows of the request table -/

theorem rows_all {m : Nat} {r : Rows} {held : List Nat} (h : RReach m r held) : (r ++ held).Perm (List.range m) := by
  induction h with
  | init => simp [rowsInit]
  | @alloc r held n out r' _ ha ih =>
    rw [rowsAlloc] at ha
    split at ha
    · simp at ha
    · simp only [Prod.mk.injEq, Option.some.injEq] at ha
      obtain ⟨rfl, rfl⟩ := ha
      refine List.Perm.trans ?_ ih
      rw [← List.append_assoc]
      refine List.Perm.append_right _ ?_
      exact List.perm_append_comm.trans (by rw [List.take_append_drop])
  | @free r held x _ hx ih =>
    refine List.Perm.trans ?_ ih
    rw [rowsFree, List.append_assoc]
    exact List.Perm.append_left _ (List.perm_cons_erase hx).symm

/-- C50: rows of the request table are handed out once at a time and come back. -/
theorem C50_rows {m : Nat} {r : Rows} {held : List Nat} (h : RReach m r held) (n : Nat) :
    (∀ out r', rowsAlloc r n = (some out, r') → out.length = n ∧ out.Nodup ∧ ∀ x ∈ out, x < m ∧ x ∉ held) ∧
    ((rowsAlloc r n).1 = none ↔ m < n + held.length) := by
  have ha := rows_all h
  have hn := ha.nodup_iff.2 List.nodup_range
  have hl := ha.length_eq
  rw [List.length_append, List.length_range] at hl
  rw [rowsAlloc]
  split
  · refine ⟨fun _ _ hh => (by simp at hh), ?_⟩
    simp only [true_iff]
    omega
  · refine ⟨?_, ?_⟩
    · intro out r' hh
      simp only [Prod.mk.injEq, Option.some.injEq] at hh
      obtain ⟨rfl, rfl⟩ := hh
      refine ⟨by rw [List.length_take]; omega, List.Nodup.sublist (List.take_sublist _ _) (List.nodup_append.1 hn).1, ?_⟩
      intro x hx
      have hxr := List.mem_of_mem_take hx
      have := ha.mem_iff.1 (List.mem_append_left _ hxr)
      exact ⟨by simpa using this, fun hh => (List.nodup_append.1 hn).2.2 x hxr x hh rfl⟩
    · simp only [reduceCtorEq, false_iff]
      omega

example : ∃ r held, RReach 3 r held ∧ held = [1] ∧ (rowsAlloc r 2).1 = some [2, 0] :=
  ⟨_, _, .free (x := 0) (.alloc (n := 2) (out := [0, 1]) .init rfl) (by decide), by decide, by decide⟩

end Verif.PyPool
