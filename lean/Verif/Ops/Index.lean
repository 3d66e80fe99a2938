import Verif.Ops.Elewise
/-
C77: indexing a tensor with slices, vectors and index tensors (`x[{...}]`).  Models
mllm/core/aops/IndexOp.cpp: `reshape` (L180-L211), `calculateOutputShape` (L215-L238), `forward` (L24-L178;
the CPU backend inherits it).  The input must be row-major (asserted, L40).
-/
namespace Verif.Ops
open Verif.Tensor

variable {α : Type}

/-! ### Model -/

/-- `ComplexIndexingBlob`: exactly one of the three (core/TensorViewImpl.hpp / Tensor.hpp). -/
inductive Ix where
  | slice (start stop step : Int)
  | vec (l : List Int)
  | tens (t : Tens Int)

/-- `slice.start_ == kAll ? 0 : slice.start_`. -/
def ixStart (a : Int) : Int := if a = kAll then 0 else a

/-- `slice.end_ == kAll ? shape[i] : slice.end_`. -/
def ixStop (n : Nat) (b : Int) : Int := if b = kAll then n else b

/-- Output dimensions one index contributes (L219-L237); C++ division truncates.  `none`: division by
zero or a negative size. -/
def ixDims (n : Nat) : Ix → Option (List Nat)
  | .slice a b s =>
    if s = 0 then none
    else
      let m := (ixStop n b - ixStart a + s - 1).tdiv s
      if m < 0 then none else some [m.toNat]
  | .vec l => some [l.length]
  | .tens t => some t.shape

/-- The number of dimensions `reshape` counts for one index (L193-L205). -/
def ixRank : Ix → Nat
  | .slice .. => 1
  | .vec _ => 1
  | .tens t => t.shape.length

def ixIsSlice : Ix → Bool
  | .slice .. => true
  | _ => false

/-- `calculateOutputShape`. Reading `shape[i]` past the rank is undefined (`none`). -/
def ixShape : List Nat → List Ix → Option (List Nat)
  | _, [] => some []
  | [], _ :: _ => none
  | n :: ns, ix :: ixs =>
    match ixDims n ix, ixShape ns ixs with
    | some d, some ds => some (d ++ ds)
    | _, _ => none

/-- The loop L120-L128: the first consumed coordinate gets stride 1, and the stride grows by the sizes
from the last to the first. `rs` are the sizes in reverse. -/
def ixLinear : List Nat → List Nat → Nat → Nat
  | d :: rs, o :: os, stride => o * stride + ixLinear rs os (stride * d)
  | _, _, _ => 0

/-- The value an index yields for the remaining output coordinates (L79-L143) and how many of them it
consumes; `none`: `valid_index = false`, or the read of an index element that has no value. -/
def ixValue (os : List Nat) : Ix → Option (Int × Nat)
  | .slice a _ s => some (ixStart a + (os.headD 0 : Int) * s, 1)
  | .vec l => match os with
    | [] => none
    | o :: _ => match l[o]? with
      | some v => some (v, 1)
      | none => none
  | .tens t =>
    if os.length < t.shape.length then none
    else match t.elem (coords t.shape (ixLinear t.shape.reverse (os.take t.shape.length) 1)) with
      | some v => some (v, t.shape.length)
      | none => none

/-- The mapping loop (L75-L151); dimensions without an index keep coordinate 0. -/
def ixCoords : List Nat → List Ix → List Nat → Option (List Nat)
  | [], _, _ => some []
  | _ :: ns, [], os => match ixCoords ns [] os with
    | some r => some (0 :: r)
    | none => none
  | n :: ns, ix :: ixs, os =>
    match ixValue os ix with
    | none => none
    | some (v, c) =>
      if v < 0 ∨ (n : Int) ≤ v then none
      else match ixCoords ns ixs (os.drop c) with
        | some r => some (v.toNat :: r)
        | none => none

/-- The element copies of `forward` (L63-L177). -/
def ixWrites (t : Tens α) (ixs : List Ix) (out : List Nat) : List (Nat × Option α) :=
  (List.range (numel out)).flatMap fun i =>
    match ixCoords t.shape ixs (coords out i) with
    | none => []
    | some c => [(lin out (coords out i), t.raw (lin t.shape c))]

/-- `x[indices]`.  `none`: all indices are slices, the number of dimensions does not match, or the output
shape cannot be formed. -/
def indexOp (t : Tens α) (ixs : List Ix) : Option (Tens α) :=
  if ixs.all ixIsSlice then none
  else if (ixs.map ixRank).sum ≠ t.shape.length then none
  else match ixShape t.shape ixs with
    | none => none
    | some out => some (fresh out (bufV (ixWrites t ixs out)))

/-! ### Specification -/

/-- Index `ix` names position `v` as its `k`-th. -/
def Picks (ix : Ix) (k : Nat) (v : Int) : Prop :=
  match ix with
  | .slice a _ s => v = (if a = kAll then 0 else a) + k * s
  | .vec l => l[k]? = some v
  | .tens t => t.elem [k] = some v

/-- The index names `m` positions in a dimension of size `n`: a slice the positions from its start, in
steps, as long as they lie before its end; a list or one-dimensional tensor its entries.  Slices count
from the front (no negative bounds). -/
def Names (n : Nat) (ix : Ix) (m : Nat) : Prop :=
  match ix with
  | .slice a b s => 0 < s ∧ 0 ≤ ixStart a ∧ ixStart a ≤ ixStop n b ∧
      ∀ k : Nat, k < m ↔ ixStart a + k * s < ixStop n b
  | .vec l => l.length = m
  | .tens t => t.shape = [m] ∧ ∀ k, k < m → (t.elem [k]).isSome

/-! ### Proofs -/

theorem ixDims_names {n m : Nat} {ix : Ix} (h : Names n ix m) : ixDims n ix = some [m] := by
  cases ix with
  | slice a b s =>
    obtain ⟨hs, ha, hab, hk⟩ := h
    show (if s = 0 then none else
        if (ixStop n b - ixStart a + s - 1).tdiv s < 0 then none
        else some [((ixStop n b - ixStart a + s - 1).tdiv s).toNat]) = some [m]
    rw [if_neg (by omega)]
    have h0 : 0 ≤ ixStop n b - ixStart a + s - 1 := by omega
    have hnn : 0 ≤ (ixStop n b - ixStart a + s - 1).tdiv s := Int.tdiv_nonneg h0 (by omega)
    rw [if_neg (by omega)]
    congr 2
    rw [Int.tdiv_eq_ediv_of_nonneg h0] at hnn ⊢
    have hq := Int.mul_ediv_add_emod (ixStop n b - ixStart a + s - 1) s
    have hr := Int.emod_lt_of_pos (ixStop n b - ixStart a + s - 1) hs
    have hr0 := Int.emod_nonneg (ixStop n b - ixStart a + s - 1) (by omega : s ≠ 0)
    generalize hQ : (ixStop n b - ixStart a + s - 1) / s = Q at *
    generalize (ixStop n b - ixStart a + s - 1) % s = r at *
    have hiff : ∀ k : Nat, k < m ↔ (k : Int) < Q := by
      intro k
      rw [hk]
      constructor
      · intro hlt
        by_contra hge
        have : Q * s ≤ (k : Int) * s := Int.mul_le_mul_of_nonneg_right (by omega) (by omega)
        rw [Int.mul_comm s Q] at hq
        omega
      · intro hlt
        have : ((k : Int) + 1) * s ≤ Q * s := Int.mul_le_mul_of_nonneg_right (by omega) (by omega)
        rw [Int.mul_comm s Q] at hq
        rw [Int.add_mul] at this
        omega
    have h1 := hiff m
    have h2 := hiff Q.toNat
    omega
  | vec l =>
    have h : l.length = m := h
    simp [ixDims, h]
  | tens t => simp [ixDims, h.1]

theorem names_rank {n m : Nat} {ix : Ix} (h : Names n ix m) : ixRank ix = 1 := by
  cases ix with
  | slice => rfl
  | vec => rfl
  | tens t => simp [ixRank, h.1]

theorem ixValue_names {n m : Nat} {ix : Ix} (h : Names n ix m) {o : Nat} {os : List Nat} (ho : o < m) :
    ∃ v, ixValue (o :: os) ix = some (v, 1) ∧ ∀ w, Picks ix o w ↔ w = v := by
  cases ix with
  | slice a b s => exact ⟨_, rfl, fun w => Iff.rfl⟩
  | vec l =>
    have h : l.length = m := h
    have hl : l[o]? = some l[o] := List.getElem?_eq_getElem (by omega)
    refine ⟨l[o], ?_, fun w => ?_⟩
    · simp only [ixValue, hl]
    · simp only [Picks, hl, Option.some.injEq]; exact eq_comm
  | tens t =>
    obtain ⟨hs, hv⟩ := h
    obtain ⟨v, hv⟩ := Option.isSome_iff_exists.mp (hv o ho)
    refine ⟨v, ?_, fun w => ?_⟩
    · have hc : coords t.shape (ixLinear t.shape.reverse ((o :: os).take t.shape.length) 1) = [o] := by
        rw [hs]
        simp [coords, decode, ixLinear, Nat.mod_eq_of_lt ho]
      show (if (o :: os).length < t.shape.length then none
        else match t.elem (coords t.shape (ixLinear t.shape.reverse ((o :: os).take t.shape.length) 1)) with
          | some v => some (v, t.shape.length)
          | none => none) = _
      rw [if_neg (by rw [hs]; simp), hc, hv, hs]
      rfl
    · simp only [Picks, hv, Option.some.injEq]; exact eq_comm

/-- All indices name some number of positions. -/
inductive AllNames : List Nat → List Ix → List Nat → Prop where
  | nil : AllNames [] [] []
  | cons {n ns ix ixs m ms} : Names n ix m → AllNames ns ixs ms → AllNames (n :: ns) (ix :: ixs) (m :: ms)

theorem ixShape_names : ∀ {ns ixs ms}, AllNames ns ixs ms → ixShape ns ixs = some ms
  | _, _, _, .nil => rfl
  | _, _, _, .cons h t => by
    unfold ixShape
    rw [ixDims_names h, ixShape_names t]; rfl

theorem ixRank_names : ∀ {ns ixs ms}, AllNames ns ixs ms → (ixs.map ixRank).sum = ns.length
  | _, _, _, .nil => rfl
  | _, _, _, .cons h t => by
    simp [names_rank h, ixRank_names t]; omega

theorem ixCoords_names : ∀ {ns ixs ms}, AllNames ns ixs ms → ∀ o, InB ms o →
    (∀ v, InB ns v → (∀ k ix, ixs[k]? = some ix → Picks ix (o.getD k 0) (v.getD k 0)) →
      ixCoords ns ixs o = some v) ∧
    (∀ k ix x, ixs[k]? = some ix → Picks ix (o.getD k 0) x → (x < 0 ∨ (ns.getD k 0 : Int) ≤ x) →
      ixCoords ns ixs o = none)
  | _, _, _, .nil, [], _ => by
    refine ⟨fun v hv _ => ?_, fun k ix x h => by simp at h⟩
    cases v with
    | nil => rfl
    | cons _ _ => exact hv.elim
  | _, _, _, .cons (n := n) (ns := ns) (ix := ix) (ixs := ixs) h t, o :: os, ho => by
    obtain ⟨x, hx, hp⟩ := ixValue_names h (os := os) ho.1
    have ih := ixCoords_names t os ho.2
    constructor
    · intro v hv hall
      cases v with
      | nil => exact hv.elim
      | cons v vs =>
        have h0 := (hp v).mp (by simpa using hall 0 ix (by simp))
        have hv1 : v < n := hv.1
        unfold ixCoords
        rw [hx]
        dsimp only
        rw [if_neg (by omega), List.drop_succ_cons, List.drop_zero,
          ih.1 vs hv.2 (fun k i hk => by simpa using hall (k + 1) i (by simpa using hk))]
        dsimp only
        congr 2; omega
    · intro k i y hk hy hout
      unfold ixCoords
      rw [hx]
      dsimp only
      split
      · rfl
      · next hin =>
        cases k with
        | zero =>
          simp only [List.getElem?_cons_zero, Option.some.injEq] at hk
          subst hk
          have := (hp y).mp (by simpa using hy)
          simp only [List.getD_cons_zero] at hout
          omega
        | succ k =>
          rw [List.drop_succ_cons, List.drop_zero, ih.2 k i y (by simpa using hk) (by simpa using hy)
            (by simpa using hout)]

/-- **C77.** For every row-major tensor and one index per dimension, each a forward slice, a list of
positions or a one-dimensional index tensor, not all of them slices: the result has, per dimension, as
many positions as its index names, and holds the element whose coordinate in each dimension is the one
the index names.  Missing: out-of-range positions (`index_range_violated`), index tensors of higher rank
(`index_rank2_violated`), negative positions and bounds. -/
theorem index_elements_partial (t : Tens α) (hc : t.Contig) (ixs : List Ix) (ms : List Nat)
    (h : AllNames t.shape ixs ms) (hns : ixs.all ixIsSlice = false) :
    ∃ r, indexOp t ixs = some r ∧ r.shape = ms ∧
      ∀ o v, InB ms o → InB t.shape v →
        (∀ k ix, ixs[k]? = some ix → Picks ix (o.getD k 0) (v.getD k 0)) → r.elem o = t.elem v := by
  refine ⟨fresh ms (bufV (ixWrites t ixs ms)), ?_, ?_, ?_⟩
  · unfold indexOp
    rw [if_neg (by rw [hns]; simp), if_neg (by rw [ixRank_names h]; simp), ixShape_names h]
  · rfl
  · intro o v ho hv hall
    have hco := (ixCoords_names h o ho).1 v hv hall
    rw [fresh_elem _ _ ho]
    apply bufV_eq
    · intro w hw he
      obtain ⟨i, hi, hw⟩ := List.mem_flatMap.mp hw
      have hci := coords_spec (List.mem_range.mp hi)
      split at hw
      · cases hw
      · next c hcc =>
        simp only [List.mem_singleton] at hw
        subst hw
        have : coords ms i = o := lin_inj hci.1 ho he
        rw [this, hco] at hcc
        injection hcc with hcc
        subst hcc
        exact hc.raw hv
    · refine List.mem_flatMap.mpr ⟨lin ms o, List.mem_range.mpr (lin_lt ho), ?_⟩
      rw [coords_lin ho, hco]
      simp only [List.mem_singleton, Prod.mk.injEq, true_and]
      exact (hc.raw hv).symm

/-- **C77 fails silently out of range.** Under the same conditions, wherever an index names a position
outside its dimension (a negative one included), no error is raised and the result element is never
written. -/
theorem index_range_violated (t : Tens α) (ixs : List Ix) (ms : List Nat)
    (h : AllNames t.shape ixs ms) (hns : ixs.all ixIsSlice = false) :
    ∃ r, indexOp t ixs = some r ∧ ∀ o k ix x, InB ms o → ixs[k]? = some ix → Picks ix (o.getD k 0) x →
      (x < 0 ∨ (t.shape.getD k 0 : Int) ≤ x) → r.elem o = none := by
  refine ⟨fresh ms (bufV (ixWrites t ixs ms)), ?_, ?_⟩
  · unfold indexOp
    rw [if_neg (by rw [hns]; simp), if_neg (by rw [ixRank_names h]; simp), ixShape_names h]
  · intro o k ix x ho hix hp hx
    have hco := (ixCoords_names h o ho).2 k ix x hix hp hx
    rw [fresh_elem _ _ ho]
    apply bufV_none_or
    intro w hw he
    obtain ⟨i, hi, hw⟩ := List.mem_flatMap.mp hw
    have hci := coords_spec (List.mem_range.mp hi)
    split at hw
    · cases hw
    · next c hcc =>
      simp only [List.mem_singleton] at hw
      subst hw
      have : coords ms i = o := lin_inj hci.1 ho he
      rw [this, hco] at hcc
      cases hcc

/-- A 3×4 matrix indexed by rows `[2, 0]` and columns `1:4:2`; and an index with an entry `-1`. -/
example : AllNames [3, 4] [.vec [2, 0], .slice 1 4 2] [2, 2] ∧
    (∃ r, indexOp (exact [3, 4] id) [.vec [2, 0], .slice 1 4 2] = some r ∧
      [[0, 0], [0, 1], [1, 0], [1, 1]].map r.elem = [9, 11, 1, 3].map some) ∧
    (∃ r, indexOp (exact [3, 4] id) [.vec [-1], .slice 1 4 2] = some r ∧ r.elem [0, 0] = none) := by
  refine ⟨.cons rfl (.cons ⟨by decide, by decide, by decide, ?_⟩ .nil), ⟨_, rfl, by decide⟩, ⟨_, rfl, by decide⟩⟩
  intro k
  simp only [ixStart, ixStop, kAll]
  simp
  omega

/-- **C77 fails for index tensors of rank 2.** A 5×1 matrix indexed by the 2×2 index tensor
`[[0, 1], [2, 3]]` is accepted; the result has the index tensor's shape, but its entries are those of the
transposed index tensor. -/
theorem index_rank2_violated : ∃ (ix : Tens Int) (r : Tens Nat), ix.shape = [2, 2] ∧ ix.Contig ∧
    [[0, 0], [0, 1], [1, 0], [1, 1]].map ix.elem = [0, 1, 2, 3].map some ∧
    indexOp (exact [5, 1] id) [.tens ix] = some r ∧ r.shape = [2, 2] ∧
    [[0, 0], [0, 1], [1, 0], [1, 1]].map r.elem = [0, 2, 1, 3].map some :=
  ⟨exact [2, 2] fun k => (k : Int), _, rfl, rfl, by decide, rfl, rfl, by decide⟩

end Verif.Ops
