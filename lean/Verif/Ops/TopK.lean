import Verif.Ops.Gather
import Mathlib.Data.List.Nodup
import Mathlib.Data.List.Perm.Subperm

/-!
# C74: top-k and argsort

Sources: `mllm/core/aops/TopKOp.cpp` L27-L49 (shapes), `mllm/backends/cpu/ops/TopKOp.cpp` L20-L71 (`topk_impl`);
`mllm/backends/cpu/ops/ArgsortOp.cpp` L19-L49 (`argsort_impl`).

Values form a linear order (no NaN).  `std::priority_queue` may have any element on top that is not
beaten by another, `std::sort` may return any sorted permutation; the theorems hold for every choice.
-/

namespace Verif.Ops

open Verif.Tensor

variable {α : Type} [LinearOrder α]

/-! ### Model -/

/-- `heap_compare` and `value_compare` (L30-L36) on pairs (value, index). -/
def cmp (largest : Bool) (a b : α × Nat) : Prop := if largest then a.1 > b.1 else a.1 < b.1

/-- One iteration of the selection loop (L43-L53).  The heap is a list in no particular order; `top()`
is an element no other element comes before in the heap's order.  With `k = 0` there is no top and the
behaviour is undefined (no outcome). -/
def pushItem (largest : Bool) (k : Nat) (heap : List (α × Nat)) (item : α × Nat)
    (heap' : List (α × Nat)) : Prop :=
  if heap.length < k then heap' = item :: heap
  else ∃ top ∈ heap, (∀ x ∈ heap, ¬ cmp largest top x) ∧
    ((cmp largest item top ∧ heap' = item :: heap.erase top) ∨ (¬ cmp largest item top ∧ heap' = heap))

/-- The loop over the axis (L43-L53), items `i, i+1, …`. -/
inductive Select (largest : Bool) (k : Nat) (x : Nat → α) : Nat → List (α × Nat) → Prop where
  | nil : Select largest k x 0 []
  | step {n h h'} : Select largest k x n h → pushItem largest k h (x n, n) h' →
      Select largest k x (n + 1) h'

/-- The rest of one column (L54-L63): `temp_data`, sorted by value or by index. -/
def topkColumn (largest sorted : Bool) (k n : Nat) (x : Nat → α) (temp : List (α × Nat)) : Prop :=
  ∃ heap, Select largest k x n heap ∧ temp.Perm heap ∧
    if sorted then temp.Pairwise (fun a b => ¬ cmp largest b a)
    else temp.Pairwise (fun a b => ¬ b.2 < a.2)

/-- The writes of `topk_impl` (L38-L69): `temp o i` is the `temp_data` of column `(o, i)`.  Reading
`temp_data[i]` past its end has no value. -/
def topkWrites {β : Type} (outer k inner : Nat) (temp : Nat → Nat → List (α × Nat)) (f : α × Nat → β) :
    List (Nat × Option β) :=
  (List.range outer).flatMap fun o => (List.range inner).flatMap fun i => (List.range k).map fun j =>
    ((o * k + j) * inner + i, ((temp o i)[j]?).map f)

/-- `CPUTopKOp` on a tensor all of whose elements have a value, `v` being the element in memory order:
possible pairs (values, indices). -/
def topk (largest sorted : Bool) (k : Nat) (pre : List Nat) (n : Nat) (post : List Nat) (v : Nat → α)
    (res : Tens α × Tens Nat) : Prop :=
  ∃ temp : Nat → Nat → List (α × Nat),
    (∀ o i, o < numel pre → i < numel post →
      topkColumn largest sorted k n (fun j => v ((o * n + j) * numel post + i)) (temp o i)) ∧
    res.1 = fresh (pre ++ k :: post) (bufV (topkWrites (numel pre) k (numel post) temp (·.1))) ∧
    res.2 = fresh (pre ++ k :: post) (bufV (topkWrites (numel pre) k (numel post) temp (·.2)))

/-- One column of `argsort_impl` (L22-L43): the pairs sorted by value. -/
def argsortColumn (descending : Bool) (n : Nat) (x : Nat → α) (data : List (α × Nat)) : Prop :=
  data.Perm ((List.range n).map fun j => (x j, j)) ∧ data.Pairwise (fun a b => ¬ cmp descending b a)

/-- `CPUArgsortOp`. -/
def argsort (descending : Bool) (pre : List Nat) (n : Nat) (post : List Nat) (v : Nat → α)
    (res : Tens Nat) : Prop :=
  ∃ data : Nat → Nat → List (α × Nat),
    (∀ o i, o < numel pre → i < numel post →
      argsortColumn descending n (fun j => v ((o * n + j) * numel post + i)) (data o i)) ∧
    res = fresh (pre ++ n :: post) (bufV (topkWrites (numel pre) n (numel post) data (·.2)))

/-! ### Selection -/

/-- `a` is at least as good as `b`. -/
def Ge (largest : Bool) (a b : α) : Prop := if largest then b ≤ a else a ≤ b

theorem not_cmp {largest : Bool} {a b : α × Nat} : ¬ cmp largest a b ↔ Ge largest b.1 a.1 := by
  unfold cmp Ge; cases largest <;> simp

theorem cmp_ge {largest : Bool} {a b : α × Nat} (h : cmp largest a b) : Ge largest a.1 b.1 := by
  unfold cmp at h; unfold Ge; cases largest <;> simp_all [le_of_lt]

theorem Ge.trans {largest : Bool} {a b c : α} (h : Ge largest a b) (h' : Ge largest b c) :
    Ge largest a c := by
  unfold Ge at *; cases largest <;> simp_all
  · exact h.trans h'
  · exact h'.trans h

/-- Invariant of the selection loop. -/
theorem select_inv {largest : Bool} {k : Nat} (hk : 0 < k) {x : Nat → α} {n : Nat}
    {h : List (α × Nat)} (hs : Select largest k x n h) :
    h.length = min k n ∧ (∀ p ∈ h, p.2 < n ∧ p.1 = x p.2) ∧ (h.map (·.2)).Nodup ∧
      ∀ i, i < n → i ∉ h.map (·.2) → ∀ p ∈ h, Ge largest p.1 (x i) := by
  induction hs with
  | nil => simp
  | @step n h h' hs hp ih =>
    obtain ⟨i1, i2, i3, i4⟩ := ih
    have hfresh : n ∉ h.map (·.2) := by
      intro hm
      obtain ⟨p, hp, e⟩ := List.mem_map.mp hm
      have := (i2 p hp).1; omega
    unfold pushItem at hp
    by_cases hlt : h.length < k
    · rw [if_pos hlt] at hp
      subst hp
      refine ⟨by simp; omega, ?_, ?_, ?_⟩
      · intro p hp
        rcases List.mem_cons.mp hp with rfl | hp
        · exact ⟨by simp, rfl⟩
        · exact ⟨by have := (i2 p hp).1; omega, (i2 p hp).2⟩
      · simp only [List.map_cons, List.nodup_cons]
        exact ⟨hfresh, i3⟩
      · intro i hi hni
        -- the heap still holds every index
        exfalso
        have hall : ∀ j, j < n → j ∈ h.map (·.2) := by
          intro j hj
          by_contra hnj
          have hsub : (j :: h.map (·.2)) ⊆ List.range n := by
            intro a ha
            rcases List.mem_cons.mp ha with rfl | ha
            · exact List.mem_range.mpr hj
            · obtain ⟨p, hp, rfl⟩ := List.mem_map.mp ha
              exact List.mem_range.mpr (i2 p hp).1
          have := (List.subperm_of_subset (List.nodup_cons.mpr ⟨hnj, i3⟩) hsub).length_le
          simp at this
          omega
        simp only [List.map_cons, List.mem_cons, not_or] at hni
        exact hni.2 (hall i (by omega))
    · rw [if_neg hlt] at hp
      obtain ⟨top, htop, hmin, hcase⟩ := hp
      rcases hcase with ⟨hc, rfl⟩ | ⟨hc, rfl⟩
      · have hlen := List.length_erase_of_mem htop
        have hmem : ∀ p ∈ h.erase top, p ∈ h := fun p hp => List.mem_of_mem_erase hp
        have hnd : h.Nodup := List.Nodup.of_map _ i3
        refine ⟨by simp only [List.length_cons, hlen]; omega, ?_, ?_, ?_⟩
        · intro p hp
          rcases List.mem_cons.mp hp with rfl | hp
          · exact ⟨by simp, rfl⟩
          · exact ⟨by have := (i2 p (hmem p hp)).1; omega, (i2 p (hmem p hp)).2⟩
        · simp only [List.map_cons, List.nodup_cons]
          refine ⟨fun hm => hfresh ?_, ?_⟩
          · obtain ⟨p, hp, e⟩ := List.mem_map.mp hm
            exact List.mem_map.mpr ⟨p, hmem p hp, e⟩
          · exact (List.erase_sublist.map _).nodup i3
        · intro i hi hni p hp
          simp only [List.map_cons, List.mem_cons, not_or] at hni
          -- every element of the new heap is at least as good as the removed one
          have hge : Ge largest p.1 top.1 := by
            rcases List.mem_cons.mp hp with rfl | hp
            · exact cmp_ge hc
            · exact not_cmp.mp (hmin p (hmem p hp))
          by_cases hit : i ∈ h.map (·.2)
          · -- then i is the removed index
            obtain ⟨q, hq, e⟩ := List.mem_map.mp hit
            have hqt : q = top := by
              by_contra hne
              exact hni.2 (List.mem_map.mpr ⟨q, (List.mem_erase_of_ne hne).mpr hq, e⟩)
            subst hqt
            rw [← e, ← (i2 q hq).2]
            exact hge
          · exact hge.trans (i4 i (by omega) hit top htop)
      · refine ⟨by omega, fun p hp => ⟨by have := (i2 p hp).1; omega, (i2 p hp).2⟩, i3, ?_⟩
        intro i hi hni p hp
        by_cases hin : i = n
        · subst hin
          have h1 := not_cmp.mp hc
          exact (not_cmp.mp (hmin p hp)).trans h1
        · exact i4 i (by omega) hni p hp

/-- What one column returns. -/
theorem column_spec {largest sorted : Bool} {k n : Nat} (hk : 0 < k) {x : Nat → α}
    {temp : List (α × Nat)} (h : topkColumn largest sorted k n x temp) :
    temp.length = min k n ∧ (∀ p ∈ temp, p.2 < n ∧ p.1 = x p.2) ∧ (temp.map (·.2)).Nodup ∧
      (∀ i, i < n → i ∉ temp.map (·.2) → ∀ p ∈ temp, Ge largest p.1 (x i)) ∧
      (sorted = true → temp.Pairwise fun a b => Ge largest a.1 b.1) ∧
      (sorted = false → temp.Pairwise fun a b => a.2 < b.2) := by
  obtain ⟨heap, hs, hp, hord⟩ := h
  obtain ⟨i1, i2, i3, i4⟩ := select_inv hk hs
  have hnd : (temp.map (·.2)).Nodup := (hp.map _).nodup_iff.mpr i3
  refine ⟨by rw [hp.length_eq, i1], fun p h => i2 p (hp.mem_iff.mp h), hnd, ?_, ?_, ?_⟩
  · intro i hi hni p h
    exact i4 i hi (fun hm => hni ((hp.map _).mem_iff.mpr hm)) p (hp.mem_iff.mp h)
  · intro e
    rw [e] at hord
    simp only [if_true] at hord
    exact hord.imp fun h => not_cmp.mp h
  · intro e
    rw [e] at hord
    simp only [Bool.false_eq_true, if_false] at hord
    have h2 : temp.Pairwise (fun a b => a.2 ≠ b.2) := by
      have := List.pairwise_map.mp hnd
      exact this
    exact (hord.and h2).imp fun h => by have := h.1; have := h.2; omega

theorem topkWrites_get {β : Type} (pre post : List Nat) (k : Nat) (temp : Nat → Nat → List (α × Nat))
    (f : α × Nat → β) (p q : List Nat) (j : Nat) (hp : InB pre p) (hj : j < k) (hq : InB post q) :
    (fresh (pre ++ k :: post) (bufV (topkWrites (numel pre) k (numel post) temp f))).elem (p ++ j :: q) =
      ((temp (lin pre p) (lin post q))[j]?).map f := by
  have hin : InB (pre ++ k :: post) (p ++ j :: q) := by
    rw [inB_append _ _ _ _ hp.length]; exact ⟨hp, hj, hq⟩
  have hlin : lin (pre ++ k :: post) (p ++ j :: q) = (lin pre p * k + j) * numel post + lin post q := by
    rw [lin_append _ _ _ _ hp.length]; simp only [lin, numel]; ring
  rw [fresh_elem _ _ hin, hlin]
  apply bufV_eq
  · intro w hw hk
    simp only [topkWrites, List.mem_flatMap, List.mem_map, List.mem_range] at hw
    obtain ⟨o, ho, i, hi, j', hj', rfl⟩ := hw
    have a := split3 (o := o) hj' hi
    have c := split3 (o := lin pre p) hj (lin_lt hq)
    dsimp only at hk
    rw [hk] at a
    obtain ⟨rfl, rfl, rfl⟩ : o = lin pre p ∧ j' = j ∧ i = lin post q :=
      ⟨a.1.symm.trans c.1, a.2.1.symm.trans c.2.1, a.2.2.symm.trans c.2.2⟩
    rfl
  · simp only [topkWrites, List.mem_flatMap, List.mem_map, List.mem_range]
    exact ⟨_, lin_lt hp, _, lin_lt hq, j, hj, rfl⟩

/-- **C74, top-k.** For every tensor, dimension and `1 ≤ k ≤ n`, and for every behaviour of the heap and
the sort: along the dimension the results at `p`, `q` are `k` pairs of distinct positions and their
values, no position left out has a better value than one returned, and the pairs are ordered by value
(`sorted`) or by position. -/
theorem topk_correct (largest sorted : Bool) (k n : Nat) (hk : 0 < k) (hkn : k ≤ n) (pre post : List Nat)
    (v : Nat → α) (vals : Tens α) (idxs : Tens Nat) (h : topk largest sorted k pre n post v (vals, idxs))
    (p q : List Nat) (hp : InB pre p) (hq : InB post q) :
    ∃ pos : Nat → Nat,
      (∀ j, j < k → pos j < n ∧ idxs.elem (p ++ j :: q) = some (pos j) ∧
        vals.elem (p ++ j :: q) = some (v (lin (pre ++ n :: post) (p ++ pos j :: q)))) ∧
      (∀ i j, i < k → j < k → pos i = pos j → i = j) ∧
      (∀ i, i < n → (∀ j, j < k → pos j ≠ i) → ∀ j, j < k →
        Ge largest (v (lin (pre ++ n :: post) (p ++ pos j :: q))) (v (lin (pre ++ n :: post) (p ++ i :: q)))) ∧
      (∀ i j, i < j → j < k →
        if sorted then Ge largest (v (lin (pre ++ n :: post) (p ++ pos i :: q)))
          (v (lin (pre ++ n :: post) (p ++ pos j :: q)))
        else pos i < pos j) := by
  obtain ⟨temp, hcol, e1, e2⟩ := h
  dsimp only at e1 e2
  subst e1 e2
  have hl : ∀ i, lin (pre ++ n :: post) (p ++ i :: q) = (lin pre p * n + i) * numel post + lin post q := by
    intro i; rw [lin_append _ _ _ _ hp.length]; simp only [lin, numel]; ring
  obtain ⟨c1, c2, c3, c4, c5, c6⟩ := column_spec hk (hcol _ _ (lin_lt hp) (lin_lt hq))
  set T := temp (lin pre p) (lin post q) with hT
  have hlen : T.length = k := by rw [c1]; omega
  have hat : ∀ j (hj : j < k), T[j]? = some (T[j]'(by omega)) := fun j hj => List.getElem?_eq_getElem _
  have hpos : ∀ j (hj : j < k), (T.map (·.2)).getD j 0 = (T[j]'(by omega)).2 := by
    intro j hj
    rw [List.getD_eq_getElem _ _ (by simp; omega)]; simp
  refine ⟨fun j => (T.map (·.2)).getD j 0, ?_, ?_, ?_, ?_⟩ <;> beta_reduce
  · intro j hj
    have hm := c2 _ (List.getElem_mem (l := T) (by omega : j < T.length))
    refine ⟨by rw [hpos j hj]; exact hm.1, ?_, ?_⟩
    · rw [topkWrites_get pre post k temp _ p q j hp hj hq, ← hT, hat j hj, hpos j hj]; rfl
    · rw [topkWrites_get pre post k temp _ p q j hp hj hq, ← hT, hat j hj, hpos j hj, hl]
      simp only [Option.map_some, hm.2]
  · intro i j hi hj e
    rw [List.getD_eq_getElem _ _ (by simp; omega), List.getD_eq_getElem _ _ (by simp; omega)] at e
    exact (List.Nodup.getElem_inj_iff c3).mp e
  · intro i hi hne j hj
    have hm := List.getElem_mem (l := T) (by omega : j < T.length)
    have := c4 i hi ?_ _ hm
    · rw [hl, hl, hpos j hj, ← (c2 _ hm).2]; exact this
    · intro hmem
      obtain ⟨j', hj', e⟩ := List.mem_iff_getElem.mp hmem
      have hj'' : j' < k := by simpa [hlen] using hj'
      apply hne j' hj''
      rw [List.getD_eq_getElem _ _ (by simp; omega)]; exact e
  · intro i j hij hj
    have hmi := List.getElem_mem (l := T) (by omega : i < T.length)
    have hmj := List.getElem_mem (l := T) (by omega : j < T.length)
    cases hs : sorted with
    | true =>
      rw [if_pos rfl, hl, hl, hpos i (by omega), hpos j hj, ← (c2 _ hmi).2, ← (c2 _ hmj).2]
      exact List.pairwise_iff_getElem.mp (c5 hs) i j (by omega) (by omega) hij
    | false =>
      rw [if_neg (by simp), hpos i (by omega), hpos j hj]
      exact List.pairwise_iff_getElem.mp (c6 hs) i j (by omega) (by omega) hij

/-- **C74 is violated for `k` above the size of the dimension:** no error is raised; the missing entries
are read past the end of a vector. -/
theorem topk_short_violated (largest sorted : Bool) (k n : Nat) (hkn : n < k) (pre post : List Nat)
    (v : Nat → α) (vals : Tens α) (idxs : Tens Nat) (h : topk largest sorted k pre n post v (vals, idxs))
    (p q : List Nat) (hp : InB pre p) (hq : InB post q) :
    InB idxs.shape (p ++ n :: q) ∧ idxs.elem (p ++ n :: q) = none ∧ vals.elem (p ++ n :: q) = none := by
  obtain ⟨temp, hcol, e1, e2⟩ := h
  dsimp only at e1 e2
  subst e1 e2
  obtain ⟨c1, _⟩ := column_spec (by omega) (hcol _ _ (lin_lt hp) (lin_lt hq))
  have hnone : (temp (lin pre p) (lin post q))[n]? = none := List.getElem?_eq_none (by omega)
  refine ⟨?_, ?_, ?_⟩
  · change InB (pre ++ k :: post) _
    rw [inB_append _ _ _ _ hp.length]; exact ⟨hp, hkn, hq⟩
  · rw [topkWrites_get pre post k temp _ p q n hp hkn hq, hnone]; rfl
  · rw [topkWrites_get pre post k temp _ p q n hp hkn hq, hnone]; rfl

/-- **C74, argsort.** Along the dimension the result is a permutation of the positions that puts the
values in order, for every behaviour of `std::sort`. -/
theorem argsort_correct (descending : Bool) (n : Nat) (pre post : List Nat) (v : Nat → α) (r : Tens Nat)
    (h : argsort descending pre n post v r) (p q : List Nat) (hp : InB pre p) (hq : InB post q) :
    ∃ pos : Nat → Nat, (∀ j, j < n → pos j < n ∧ r.elem (p ++ j :: q) = some (pos j)) ∧
      (∀ i, i < n → ∃ j, j < n ∧ pos j = i) ∧ (∀ i j, i < n → j < n → pos i = pos j → i = j) ∧
      ∀ i j, i < j → j < n → Ge descending (v (lin (pre ++ n :: post) (p ++ pos i :: q)))
          (v (lin (pre ++ n :: post) (p ++ pos j :: q))) := by
  obtain ⟨data, hcol, e1⟩ := h
  subst e1
  have hl : ∀ i, lin (pre ++ n :: post) (p ++ i :: q) = (lin pre p * n + i) * numel post + lin post q := by
    intro i; rw [lin_append _ _ _ _ hp.length]; simp only [lin, numel]; ring
  obtain ⟨c1, c2⟩ := hcol _ _ (lin_lt hp) (lin_lt hq)
  set T := data (lin pre p) (lin post q) with hT
  have hlen : T.length = n := by rw [c1.length_eq]; simp
  have hval : ∀ x ∈ T, x.2 < n ∧ x.1 = v ((lin pre p * n + x.2) * numel post + lin post q) := by
    intro x hx
    have := c1.mem_iff.mp hx
    simp only [List.mem_map, List.mem_range] at this
    obtain ⟨j, hj, rfl⟩ := this
    exact ⟨hj, rfl⟩
  have hidx : (T.map (·.2)).Perm (List.range n) := by
    have := c1.map (·.2)
    simpa [List.map_map, Function.comp_def] using this
  have hpos : ∀ j (hj : j < n), (T.map (·.2)).getD j 0 = (T[j]'(by omega)).2 := by
    intro j hj
    rw [List.getD_eq_getElem _ _ (by simp; omega)]; simp
  refine ⟨fun j => (T.map (·.2)).getD j 0, ?_, ?_, ?_, ?_⟩ <;> beta_reduce
  · intro j hj
    have hm := List.getElem_mem (l := T) (by omega : j < T.length)
    refine ⟨by rw [hpos j hj]; exact (hval _ hm).1, ?_⟩
    rw [topkWrites_get pre post n data _ p q j hp hj hq, ← hT,
      List.getElem?_eq_getElem (by omega : j < T.length), hpos j hj]; rfl
  · intro i hi
    have := hidx.mem_iff.mpr (List.mem_range.mpr hi)
    obtain ⟨j, hj, e⟩ := List.mem_iff_getElem.mp this
    refine ⟨j, by simpa [hlen] using hj, ?_⟩
    rw [List.getD_eq_getElem _ _ hj]; exact e
  · intro i j hi hj e
    rw [List.getD_eq_getElem _ _ (by simp; omega), List.getD_eq_getElem _ _ (by simp; omega)] at e
    exact (List.Nodup.getElem_inj_iff (hidx.nodup_iff.mpr List.nodup_range)).mp e
  · intro i j hij hj
    have hmi := List.getElem_mem (l := T) (by omega : i < T.length)
    have hmj := List.getElem_mem (l := T) (by omega : j < T.length)
    rw [hl, hl, hpos i (by omega), hpos j hj, ← (hval _ hmi).2, ← (hval _ hmj).2]
    exact not_cmp.mp (List.pairwise_iff_getElem.mp c2 i j (by omega) (by omega) hij)

/-- An outcome exists: the two largest of `3, 1, 2`. -/
theorem topk_example : ∃ r, topk true true 2 [] 3 [] (fun j => [3, 1, 2].getD j 0) r ∧
    r.2.elem [1] = some 2 ∧ r.1.elem [1] = some 2 := by
  refine ⟨(fresh [2] (bufV (topkWrites 1 2 1 (fun _ _ => [(3, 0), (2, 2)]) (·.1))),
    fresh [2] (bufV (topkWrites 1 2 1 (fun _ _ => [(3, 0), (2, 2)]) (·.2)))),
    ⟨fun _ _ => [(3, 0), (2, 2)], ?_, rfl, rfl⟩, by decide +kernel, by decide +kernel⟩
  intro o i ho hi
  simp only [numel] at ho hi
  have ho : o = 0 := by omega
  have hi : i = 0 := by omega
  subst ho hi
  refine ⟨[(2, 2), (3, 0)], ?_, List.Perm.swap _ _ _, by simp [cmp]⟩
  refine Select.step (h := [(1, 1), (3, 0)]) (Select.step (h := [(3, 0)]) (Select.step Select.nil ?_) ?_) ?_
  · simp [pushItem]
  · simp [pushItem, numel]
  · unfold pushItem
    rw [if_neg (by simp)]
    exact ⟨(1, 1), by simp, by simp [cmp], Or.inl ⟨by simp [cmp, numel], by simp [numel]⟩⟩

/-- And one of an argsort: ascending order of `3, 1, 2`. -/
theorem argsort_example : ∃ r, argsort false [] 3 [] (fun j => [3, 1, 2].getD j 0) r ∧
    r.elem [0] = some 1 ∧ r.elem [2] = some 0 := by
  refine ⟨fresh [3] (bufV (topkWrites 1 3 1 (fun _ _ => [(1, 1), (2, 2), (3, 0)]) (·.2))),
    ⟨fun _ _ => [(1, 1), (2, 2), (3, 0)], ?_, rfl⟩, by decide +kernel, by decide +kernel⟩
  intro o i ho hi
  simp only [numel] at ho hi
  have ho : o = 0 := by omega
  have hi : i = 0 := by omega
  subst ho hi
  exact ⟨by decide +kernel, by simp [cmp]⟩

end Verif.Ops
