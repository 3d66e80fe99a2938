import Verif.Kern.Rows
import Verif.Kern.Exp

/-!
`softmax`: `backends/cpu/ops/SoftmaxOp.cpp` and `softmax_v1_fp32` of `backends/cpu/kernels/arm/softmax.cpp` L17-149 and
`backends/cpu/kernels/x86/softmax.cpp` L18-67.  Real arithmetic, see `Exp.lean`; `std::exp` and `expf` are the exponential.
-/

namespace Verif.Kern

open Verif.Tensor (numel)

/-- The build: NEON has four lanes, Highway's `Lanes(d)` depends on the compiler flags. -/
inductive Simd where
  | arm
  | x86 (lanes : Nat)
deriving DecidableEq, Repr

noncomputable def Simd.exp : Simd → ExpConst
  | .arm => armExp
  | .x86 _ => x86Exp

/-- `std::numeric_limits<float>::lowest()`. -/
noncomputable def floatLowest : ℝ := -(2 ^ 128 - 2 ^ 104)

/-- `for (l = 0; l < k; ++l) s = max(s, f(l));` -/
noncomputable def maxOver (s : ℝ) (k : Nat) (f : Nat → ℝ) : ℝ := (List.range k).foldl (fun s l => max s (f l)) s

/-- Lane `v` of `max_vec_k` after the blocks of 16, arm `softmax.cpp` L41-59. -/
noncomputable def armVecMax (len : Nat) (X : Nat → ℝ) (k v : Nat) : ℝ :=
  maxOver (X (4 * k + v)) (len / 16 - 1) fun t => X (16 * (t + 1) + 4 * k + v)

/-- Lane `v` after combining the four vectors and the blocks of 4, arm `softmax.cpp` L60-67. -/
noncomputable def armLaneMax (len : Nat) (X : Nat → ℝ) (v : Nat) : ℝ :=
  maxOver (max (max (armVecMax len X 0 v) (armVecMax len X 1 v)) (max (armVecMax len X 2 v) (armVecMax len X 3 v)))
    (len / 4 - 4 * (len / 16)) fun t => X (16 * (len / 16) + 4 * t + v)

/-- arm `softmax.cpp` L41-69: across the lanes, then the rest. -/
noncomputable def armMax (len : Nat) (X : Nat → ℝ) : ℝ :=
  maxOver (maxOver (armLaneMax len X 0) 3 fun v => armLaneMax len X (v + 1)) (len - 4 * (len / 4))
    fun i => X (4 * (len / 4) + i)

/-- One lane of `max_vec`, x86 `softmax.cpp` L36-40. -/
noncomputable def x86LaneMax (lanes len : Nat) (X : Nat → ℝ) (v : Nat) : ℝ :=
  maxOver floatLowest (len / lanes) fun t => X (t * lanes + v)

/-- x86 `softmax.cpp` L36-42. -/
noncomputable def x86Max (lanes len : Nat) (X : Nat → ℝ) : ℝ :=
  maxOver (maxOver (x86LaneMax lanes len X 0) (lanes - 1) fun v => x86LaneMax lanes len X (v + 1))
    (len - len / lanes * lanes) fun i => X (len / lanes * lanes + i)

/-- arm `softmax.cpp` L73-121: the sum of the values stored. -/
noncomputable def armSum (len : Nat) (E : Nat → ℝ) : ℝ :=
  let vec (k v : Nat) := accum 0 (len / 16) fun t => E (16 * t + 4 * k + v)
  let lane (v : Nat) := accum ((vec 0 v + vec 1 v) + (vec 2 v + vec 3 v)) (len / 4 - 4 * (len / 16))
    fun t => E (16 * (len / 16) + 4 * t + v)
  accum (accum 0 4 lane) (len - 4 * (len / 4)) fun i => E (4 * (len / 4) + i)

/-- x86 `softmax.cpp` L43-58. -/
noncomputable def laneSum (lanes len : Nat) (E : Nat → ℝ) : ℝ :=
  accum (accum 0 lanes fun v => accum 0 (len / lanes) fun t => E (t * lanes + v)) (len - len / lanes * lanes)
    fun i => E (len / lanes * lanes + i)

/-- Elements handled by whole vectors. -/
def Simd.vecEnd : Simd → Nat → Nat
  | .arm, len => 4 * (len / 4)
  | .x86 lanes, len => len / lanes * lanes

/-- `softmax_v1_fp32` with `stride = 1`: store the exponentials, then scale them.  `c` is the first output cell; the loops
of each pass go over the row once, in order. -/
noncomputable def softmaxRow (s : Simd) (len : Nat) (X : Nat → ℝ) (c : Nat) : List (Upd ℝ) :=
  let passes (E : Nat → ℝ) (sum : ℝ) :=
    ((List.range len).map fun i => (⟨c + i, fun _ => E i⟩ : Upd ℝ)) ++
    (List.range len).map fun i => (⟨c + i, fun y => y * (1 / sum)⟩ : Upd ℝ)
  if len ≤ 16 then
    let m := maxOver floatLowest len X
    let E (i : Nat) := Real.exp (X i - m)
    passes E (accum 0 len E)
  else
    let m := match s with
      | .arm => armMax len X
      | .x86 lanes => x86Max lanes len X
    let E (i : Nat) := if i < s.vecEnd len then fastExp s.exp (X i - m) else Real.exp (X i - m)
    passes E (match s with
      | .arm => armSum len E
      | .x86 lanes => laneSum lanes len E)

/-- `CPUSoftmaxOp::forward` for `float32`, `SoftmaxOp.cpp` L13-110.  The pointer arithmetic of the first case has no
strides.  What follows the asserts of the second case cannot be reached (`C121_axis_refused`). -/
noncomputable def softmaxForward (s : Simd) (axis : Int) (x : Ten ℝ) : Except Fail (List (List (List (Upd ℝ)))) :=
  let dim := if axis < 0 then axis + x.shape.length else axis
  if dim = (x.shape.length : Int) - 1 then
    let D := back x.shape 1
    let rows := numel (x.shape.take (x.shape.length - 1))
    .ok [(List.range rows).map fun r => softmaxRow s D (fun i => x.data (r * D + i)) (r * D)]
  else if x.shape.length ≠ 4 then .error .assertion
  else if ¬ (axis = -1 ∨ axis = 3) then .error .assertion
  else .ok []

/-! ### Proofs -/

theorem maxOver_succ (s : ℝ) (k : Nat) (f : Nat → ℝ) : maxOver s (k + 1) f = max (maxOver s k f) (f k) := by
  simp [maxOver, List.range_succ]

theorem le_maxOver (s : ℝ) (k : Nat) (f : Nat → ℝ) : s ≤ maxOver s k f := by
  induction k with
  | zero => exact le_refl _
  | succ k ih => rw [maxOver_succ]; exact ih.trans (le_max_left _ _)

theorem le_maxOver_of {s : ℝ} {k : Nat} {f : Nat → ℝ} {i : Nat} (h : i < k) : f i ≤ maxOver s k f := by
  induction k with
  | zero => omega
  | succ k ih =>
    rw [maxOver_succ]
    by_cases e : i = k
    · rw [e]; exact le_max_right _ _
    · exact (ih (by omega)).trans (le_max_left _ _)

theorem maxOver_mem (s : ℝ) (k : Nat) (f : Nat → ℝ) : maxOver s k f = s ∨ ∃ i < k, maxOver s k f = f i := by
  induction k with
  | zero => exact Or.inl rfl
  | succ k ih =>
    rw [maxOver_succ]
    rcases max_choice (maxOver s k f) (f k) with h | h
    · rw [h]
      rcases ih with e | ⟨i, hi, e⟩
      · exact Or.inl e
      · exact Or.inr ⟨i, by omega, e⟩
    · exact Or.inr ⟨k, by omega, h⟩

/-- The largest of `X 0, …, X (len - 1)`. -/
def IsMax (len : Nat) (X : Nat → ℝ) (m : ℝ) : Prop := (∀ i < len, X i ≤ m) ∧ ∃ i < len, m = X i

theorem scalarMax_isMax {len : Nat} (h : 0 < len) {X : Nat → ℝ} (hX : ∀ i < len, floatLowest ≤ X i) :
    IsMax len X (maxOver floatLowest len X) := by
  refine ⟨fun i hi => le_maxOver_of hi, ?_⟩
  rcases maxOver_mem floatLowest len X with e | ⟨i, hi, e⟩
  · refine ⟨0, h, ?_⟩
    have h1 := le_maxOver_of (s := floatLowest) (f := X) h
    have h2 := hX 0 h
    linarith
  · exact ⟨i, hi, e⟩

/-- A bound for `maxOver` from bounds of its parts. -/
theorem maxOver_sat {P : ℝ → Prop} {s : ℝ} {k : Nat} {f : Nat → ℝ} (hs : P s) (hf : ∀ i < k, P (f i)) : P (maxOver s k f) := by
  rcases maxOver_mem s k f with e | ⟨i, hi, e⟩
  · rw [e]; exact hs
  · rw [e]; exact hf i hi

theorem max_sat {P : ℝ → Prop} {a b : ℝ} (ha : P a) (hb : P b) : P (max a b) := by
  rcases max_choice a b with h | h <;> rw [h] <;> assumption

theorem armMax_isMax {len : Nat} (h : 16 < len) (X : Nat → ℝ) : IsMax len X (armMax len X) := by
  constructor
  · intro i hi
    unfold armMax
    by_cases h4 : 4 * (len / 4) ≤ i
    · have : X i = (fun j => X (4 * (len / 4) + j)) (i - 4 * (len / 4)) := by
        show X i = X _; congr 1; omega
      rw [this]
      exact le_maxOver_of (f := fun j => X (4 * (len / 4) + j)) (by omega)
    · refine le_trans ?_ (le_maxOver _ _ _)
      -- the lane of `i`
      have key : ∀ (lane : Nat → ℝ) (v : Nat), v < 4 → lane v ≤ maxOver (lane 0) 3 fun v => lane (v + 1) := by
        intro lane v hv
        cases v with
        | zero => exact le_maxOver _ _ _
        | succ v => exact le_maxOver_of (f := fun v => lane (v + 1)) (by omega)
      refine le_trans ?_ (key (armLaneMax len X) (i % 4) (by omega))
      unfold armLaneMax
      by_cases h16 : 16 * (len / 16) ≤ i
      · have : X i = (fun t => X (16 * (len / 16) + 4 * t + i % 4)) ((i - 16 * (len / 16)) / 4) := by
          show X i = X _; congr 1; omega
        rw [this]
        exact le_maxOver_of (f := fun t => X (16 * (len / 16) + 4 * t + i % 4)) (by omega)
      · refine le_trans ?_ (le_maxOver _ _ _)
        have vk : X i ≤ armVecMax len X (i % 16 / 4) (i % 4) := by
          unfold armVecMax
          by_cases h0 : i < 16
          · have : i = 4 * (i % 16 / 4) + i % 4 := by omega
            rw [← this]
            exact le_maxOver _ _ _
          · have : X i = (fun t => X (16 * (t + 1) + 4 * (i % 16 / 4) + i % 4)) (i / 16 - 1) := by
              show X i = X _; congr 1; omega
            rw [this]
            exact le_maxOver_of (f := fun t => X (16 * (t + 1) + 4 * (i % 16 / 4) + i % 4)) (by omega)
        have hk : i % 16 / 4 = 0 ∨ i % 16 / 4 = 1 ∨ i % 16 / 4 = 2 ∨ i % 16 / 4 = 3 := by omega
        rcases hk with e | e | e | e <;> rw [e] at vk
        · exact vk.trans ((le_max_left _ _).trans (le_max_left _ _))
        · exact vk.trans ((le_max_right _ _).trans (le_max_left _ _))
        · exact vk.trans ((le_max_left _ _).trans (le_max_right _ _))
        · exact vk.trans ((le_max_right _ _).trans (le_max_right _ _))
  · have hx : ∀ i < len, ∃ j < len, X i = X j := fun i hi => ⟨i, hi, rfl⟩
    unfold armMax
    have hvec : ∀ k < 4, ∀ v < 4, ∃ j < len, armVecMax len X k v = X j := fun k hk v hv =>
      maxOver_sat (P := fun r => ∃ j < len, r = X j) (hx _ (by omega)) fun i hi => hx _ (by omega)
    have hlane : ∀ v < 4, ∃ j < len, armLaneMax len X v = X j := fun v hv =>
      maxOver_sat (P := fun r => ∃ j < len, r = X j)
        (max_sat (P := fun r => ∃ j < len, r = X j) (max_sat (P := fun r => ∃ j < len, r = X j) (hvec 0 (by omega) v hv) (hvec 1 (by omega) v hv))
          (max_sat (P := fun r => ∃ j < len, r = X j) (hvec 2 (by omega) v hv) (hvec 3 (by omega) v hv)))
        fun i hi => hx _ (by omega)
    refine maxOver_sat (P := fun r => ∃ j < len, r = X j) (maxOver_sat (P := fun r => ∃ j < len, r = X j) ?_ ?_) ?_
    · exact hlane 0 (by omega)
    · intro v hv; exact hlane (v + 1) (by omega)
    · intro i hi; exact hx _ (by omega)

theorem x86Max_isMax {lanes len : Nat} (hl : 0 < lanes) (h : 0 < len) {X : Nat → ℝ} (hX : ∀ i < len, floatLowest ≤ X i) :
    IsMax len X (x86Max lanes len X) := by
  have hq := Nat.div_mul_le_self len lanes
  have hup : ∀ i < len, X i ≤ x86Max lanes len X := by
    intro i hi
    unfold x86Max
    by_cases ht : len / lanes * lanes ≤ i
    · have : X i = (fun j => X (len / lanes * lanes + j)) (i - len / lanes * lanes) := by
        show X i = X _; congr 1; omega
      rw [this]
      exact le_maxOver_of (f := fun j => X (len / lanes * lanes + j)) (by omega)
    · refine le_trans ?_ (le_maxOver _ _ _)
      have key : ∀ (lane : Nat → ℝ) (v : Nat), v < lanes → lane v ≤ maxOver (lane 0) (lanes - 1) fun v => lane (v + 1) := by
        intro lane v hv
        cases v with
        | zero => exact le_maxOver _ _ _
        | succ v => exact le_maxOver_of (f := fun v => lane (v + 1)) (by omega)
      refine le_trans ?_ (key (x86LaneMax lanes len X) (i % lanes) (Nat.mod_lt _ hl))
      unfold x86LaneMax
      have : X i = (fun t => X (t * lanes + i % lanes)) (i / lanes) := by
        show X i = X _; congr 1
        rw [Nat.mul_comm]; exact (Nat.div_add_mod i lanes).symm
      rw [this]
      refine le_maxOver_of (f := fun t => X (t * lanes + i % lanes)) ?_
      exact (Nat.div_lt_iff_lt_mul hl).mpr (by omega)
  refine ⟨hup, ?_⟩
  have hmem : x86Max lanes len X = floatLowest ∨ ∃ j < len, x86Max lanes len X = X j := by
    unfold x86Max
    have hlane : ∀ v < lanes, (fun r => r = floatLowest ∨ ∃ j < len, r = X j)
        (x86LaneMax lanes len X v) := by
      intro v hv
      unfold x86LaneMax
      refine maxOver_sat (P := fun r => r = floatLowest ∨ ∃ j < len, r = X j) (Or.inl rfl) fun t ht => Or.inr ⟨_, ?_, rfl⟩
      have : (t + 1) * lanes ≤ len / lanes * lanes := Nat.mul_le_mul_right _ ht
      rw [Nat.add_mul] at this
      omega
    refine maxOver_sat (P := fun r => r = floatLowest ∨ ∃ j < len, r = X j)
      (maxOver_sat (P := fun r => r = floatLowest ∨ ∃ j < len, r = X j) ?_ ?_) ?_
    · exact hlane 0 hl
    · intro v hv; exact hlane (v + 1) (by omega)
    · intro i hi; exact Or.inr ⟨_, by omega, rfl⟩
  rcases hmem with e | h'
  · refine ⟨0, h, ?_⟩
    have h1 := hup 0 h
    have h2 := hX 0 h
    linarith
  · exact h'

theorem laneSum_eq (lanes len : Nat) (E : Nat → ℝ) :
    laneSum lanes len E = ∑ i ∈ Finset.range len, E i := by
  unfold laneSum
  rw [accum_eq, accum_eq, zero_add]
  have h1 : ∑ l ∈ Finset.range lanes, accum 0 (len / lanes) (fun t => E (t * lanes + l)) =
      ∑ l ∈ Finset.range (len / lanes * lanes), E l := by
    rw [← lanes_sum]
    refine Finset.sum_congr rfl fun r _ => ?_
    rw [accum_eq, zero_add]
  rw [h1, ← Finset.sum_range_add_sum_Ico _ (Nat.div_mul_le_self len lanes), Finset.sum_Ico_eq_sum_range]

theorem armSum_eq (len : Nat) (E : Nat → ℝ) : armSum len E = ∑ i ∈ Finset.range len, E i := by
  unfold armSum
  simp only [accum_eq, zero_add]
  have h16 : ∑ v ∈ Finset.range 4, ((∑ t ∈ Finset.range (len / 16), E (16 * t + 4 * 0 + v) +
      ∑ t ∈ Finset.range (len / 16), E (16 * t + 4 * 1 + v)) + (∑ t ∈ Finset.range (len / 16), E (16 * t + 4 * 2 + v) +
      ∑ t ∈ Finset.range (len / 16), E (16 * t + 4 * 3 + v))) = ∑ i ∈ Finset.range (16 * (len / 16)), E i := by
    rw [Nat.mul_comm 16 (len / 16), ← lanes_sum (len / 16) 16 E]
    simp only [Finset.sum_range_succ (n := 15), Finset.sum_range_succ (n := 14), Finset.sum_range_succ (n := 13),
      Finset.sum_range_succ (n := 12), Finset.sum_range_succ (n := 11), Finset.sum_range_succ (n := 10),
      Finset.sum_range_succ (n := 9), Finset.sum_range_succ (n := 8), Finset.sum_range_succ (n := 7),
      Finset.sum_range_succ (n := 6), Finset.sum_range_succ (n := 5), Finset.sum_range_succ (n := 4),
      Finset.sum_range_succ (n := 3), Finset.sum_range_succ (n := 2), Finset.sum_range_succ (n := 1),
      Finset.sum_range_succ (n := 0), Finset.sum_range_zero (f := fun v => ∑ d ∈ Finset.range (len / 16), E (d * 16 + v))]
    simp only [Finset.sum_range_zero, zero_add, Nat.mul_comm 16, Nat.add_zero, Nat.mul_zero, Nat.mul_one, Nat.add_assoc,
      Nat.reduceMul, Nat.reduceAdd]
    ring
  have h4 : ∑ v ∈ Finset.range 4, ∑ t ∈ Finset.range (len / 4 - 4 * (len / 16)), E (16 * (len / 16) + 4 * t + v) =
      ∑ i ∈ Finset.range (4 * (len / 4) - 16 * (len / 16)), E (16 * (len / 16) + i) := by
    have e : 4 * (len / 4) - 16 * (len / 16) = (len / 4 - 4 * (len / 16)) * 4 := by omega
    rw [e, ← lanes_sum (len / 4 - 4 * (len / 16)) 4 fun i => E (16 * (len / 16) + i)]
    refine Finset.sum_congr rfl fun v _ => Finset.sum_congr rfl fun t _ => ?_
    congr 1; omega
  rw [Finset.sum_add_distrib, h16, h4]
  have e1 : 16 * (len / 16) ≤ 4 * (len / 4) := by omega
  have e2 : 4 * (len / 4) ≤ len := by omega
  rw [← Finset.sum_range_add_sum_Ico _ e2, ← Finset.sum_range_add_sum_Ico _ e1, Finset.sum_Ico_eq_sum_range,
    Finset.sum_Ico_eq_sum_range]

end Verif.Kern
