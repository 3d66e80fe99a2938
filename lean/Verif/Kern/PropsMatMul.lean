import Verif.Kern.MatMulLemmas

/-!
C119 and C120: matrix products and linear layers.
-/

namespace Verif.Kern

open Verif.Tensor (numel InB lin lin_lt)

variable {α : Type} [CommRing α]

/-- The output tensor: `Tensor::empty(shape)` with the final contents of its storage. -/
def outTen {α : Type} (shape : List Nat) (m : Nat → α) : Ten α := ⟨shape, rowStr shape, m⟩

/-- Specification: entry `(i, j)` of the product of the matrices at batch index `ix`. -/
def matProd (K : Nat) (tb : Bool) (x y : Ten α) (ix : List Nat) (i j : Nat) : α :=
  ∑ l ∈ Finset.range K, x.get (ix ++ [i, l]) * y.get (ix ++ if tb then [j, l] else [l, j])

/-- Every schedule of the stores leaves `val ix i j` at every index of the output and writes nowhere else. -/
def Computes (ss : List (List (List (Upd α)))) (lead : List Nat) (M N : Nat) (val : List Nat → Nat → Nat → α) : Prop :=
  ∀ m m' : Nat → α, Exec ss m m' →
    (∀ ix, InB lead ix → ∀ i < M, ∀ j < N, (outTen (lead ++ [M, N]) m').get (ix ++ [i, j]) = val ix i j) ∧
    ∀ x, numel (lead ++ [M, N]) ≤ x → m' x = m x

theorem Fills.computes {ss : List (List (List (Upd α)))} {lead : List Nat} {M N ds : Nat} {f : Nat → Nat → Nat → α}
    {val : List Nat → Nat → Nat → α} (h : Fills ss (numel lead) M N ds f) (hds : numel lead ≤ 1 ∨ ds = M * N)
    (hv : ∀ ix, InB lead ix → ∀ i < M, ∀ j < N, f (lin lead ix) i j = val ix i j) : Computes ss lead M N val := by
  intro m m' hex
  obtain ⟨h1, h2⟩ := h m m' hex
  have hb : ∀ b < numel lead, b * ds = b * (M * N) := by
    intro b hb
    rcases hds with hh | hh
    · obtain rfl : b = 0 := by omega
      simp
    · rw [hh]
  constructor
  · intro ix hix i hi j hj
    have hM : (outTen (lead ++ [M, N]) m').Mats lead M N := ⟨rfl, rfl⟩
    rw [hM.get hix hi hj, ← hv ix hix i hi j hj, ← h1 _ (lin_lt hix) i hi j hj, hb _ (lin_lt hix)]
    rfl
  · intro x hx
    refine h2 x ?_
    intro b hb' i hi j hj he
    rw [numel_append2] at hx
    rw [hb b hb'] at he
    have c1 : (b + 1) * (M * N) ≤ numel lead * (M * N) := Nat.mul_le_mul_right _ hb'
    have c2 : (i + 1) * N ≤ M * N := Nat.mul_le_mul_right _ hi
    rw [Nat.add_mul] at c1 c2
    omega

/-- The llamafile kernel is chosen. -/
theorem check_of_lanes {a : Arch} {M K N KN : Nat} (h : a.lanes = some KN) (hd : KN ∣ K) (hM : 4 ≤ M) :
    checkLlama a N M K K K N = true := by
  unfold checkLlama
  simp only [Nat.lt_irrefl, if_false]
  cases a <;> simp [Arch.lanes] at h <;> subst h <;> simp [hM] <;> omega

theorem not_check {a : Arch} {M K N : Nat} (h : ∀ KN, a.lanes = some KN → ¬ KN ∣ K) : checkLlama a N M K K K N = false := by
  cases hc : checkLlama a N M K K K N with
  | false => rfl
  | true =>
    obtain ⟨KN, h1, _, h3⟩ := lanes_of_check hc
    exact absurd h3 (h KN h1)

/-- `C119`, the part that holds: contiguous operands, `transpose_a = false`, no empty dimension; and when the right operand
is transposed and the left one has at least four rows, either the inner dimension is a multiple of the vector width or there
is one matrix only. -/
theorem C119_matmul_partial (a : Arch) (tb : Bool) (lhs rhs : Ten α) (lead : List Nat) (M K N threads : Nat)
    (hl : lhs.Mats lead M K) (hr : rhs.Mats lead (if tb then N else K) (if tb then K else N))
    (hM : 0 < M) (hK : 0 < K) (hN : 0 < N) (ht : 0 < threads)
    (hc : tb = false ∨ M < 4 ∨ (∃ KN, a.lanes = some KN ∧ KN ∣ K) ∨ (numel lead ≤ 1 ∧ a.dots = true)) :
    matMulShape tb lhs.shape rhs.shape = .ok (lead ++ [M, N]) ∧
    ∃ ss, matMulForward a tb lhs rhs (rowStr (lead ++ [M, N])) threads = .ok ss ∧
      Computes ss lead M N (matProd K tb lhs rhs) := by
  constructor
  · unfold matMulShape
    rw [hl.1, hr.1]
    cases tb <;> simp [back]
  have e1 : back lhs.shape 1 = K := by rw [hl.1, back_shape1]
  have e2 : back lhs.shape 2 = M := by rw [hl.1, back_shape2]
  have e3 : (if tb then back rhs.shape 2 else back rhs.shape 1) = N := by
    rw [hr.1, back_shape1, back_shape2]; cases tb <;> rfl
  have e4 : (if tb then back rhs.shape 1 else back rhs.shape 2) = K := by
    rw [hr.1, back_shape1, back_shape2]; cases tb <;> rfl
  have e5 : batchOf lhs.shape = numel lead := by rw [hl.1, batchOf_shape]
  have e6 : batchOf rhs.shape = numel lead := by rw [hr.1, batchOf_shape]
  have e7 : ¬ (lhs.shape.length < 2 ∨ rhs.shape.length < 2) := by rw [hl.1, hr.1]; simp
  unfold matMulForward
  rw [if_neg e7]
  simp only [e1, e2, e3, e4, e5, e6]
  rw [if_neg (by simp), if_neg (by simp)]
  have hval : ∀ ix, InB lead ix → ∀ i < M, ∀ j < N,
      prodAt K N tb (fun x => lhs.data (lin lead ix * (M * K) + x))
        (fun x => rhs.data (lin lead ix * (if tb then N * K else K * N) + x)) i j = matProd K tb lhs rhs ix i j := by
    intro ix hix i hi j hj
    unfold prodAt matProd
    refine Finset.sum_congr rfl fun l hlK => ?_
    have hlK := Finset.mem_range.mp hlK
    rw [hl.get hix hi hlK]
    cases tb with
    | false =>
      simp only [Bool.false_eq_true, if_false] at hr ⊢
      rw [hr.get hix hlK hj]
      simp only [Nat.add_assoc]
    | true =>
      simp only [if_true] at hr ⊢
      rw [hr.get hix hj hlK]
      simp only [Nat.add_assoc]
  by_cases hg : tb = true ∧ 4 ≤ M
  · rw [if_pos hg]
    obtain ⟨rfl, hM4⟩ := hg
    simp only [if_true] at hr
    refine ⟨_, rfl, (ggml_fills a lhs rhs lead lead M K N none threads hl hr (Or.inl rfl) ht hM hK hN).computes (Or.inr rfl) ?_⟩
    intro ix hix i hi j hj
    simp only [Option.elim, add_zero]
    have hbz : (if lead = [] then 0 else lin lead ix * (N * K)) = lin lead ix * (N * K) := by
      split
      · rename_i h
        subst h
        cases ix with
        | nil => simp [lin]
        | cons _ _ => cases hix
      · rfl
    rcases hc with h | h | ⟨KN, h1, h2⟩ | ⟨hn, hd⟩
    · cases h
    · omega
    · rw [if_pos (check_of_lanes h1 h2 hM4), hbz, ← hval ix hix i hi j hj]
      unfold prodAt
      simp only [if_true, Nat.add_assoc]
    · have hz : lin lead ix = 0 := by have := lin_lt hix; omega
      rw [hbz]
      rw [← hval ix hix i hi j hj, hz]
      unfold prodAt
      split
      · simp
      · rw [vecDot_eq hd]
        refine Finset.sum_congr rfl fun l _ => ?_
        simp [mul_comm]
  · rw [if_neg hg]
    by_cases hb : numel lead = 1
    · rw [if_pos hb]
      have hf := blasMatmul_fills a.blas 1 M K N 0 0 0 lhs.data rhs.data none tb threads hM hK hN ht
        (Or.inl (Nat.le_refl _)) (Or.inr (Or.inl rfl))
      rw [← hb] at hf
      refine ⟨_, rfl, ?_⟩
      rw [← hb]
      refine hf.computes (Or.inl (by omega)) ?_
      intro ix hix i hi j hj
      have hz : lin lead ix = 0 := by have := lin_lt hix; omega
      rw [← hval ix hix i hi j hj, hz]
      simp
    · rw [if_neg hb]
      have hne := lead_batch hb
      have f1 : back (rowStr (lead ++ [M, N])) 3 = M * N := rowStr_back3 hne _ _
      have f2 : back lhs.stride 3 = M * K := by rw [hl.2, hl.1, rowStr_back3 hne]
      have f3 : back rhs.stride 3 = if tb then N * K else K * N := by
        rw [hr.2, hr.1, rowStr_back3 hne]; cases tb <;> rfl
      rw [f1, f2, f3]
      refine ⟨_, rfl, (blasMatmul_fills a.blas (numel lead) M K N (M * N) (M * K) _ lhs.data rhs.data none tb threads hM hK hN
        ht (Or.inr (Nat.le_refl _)) (Or.inr (Or.inl rfl))).computes (Or.inr rfl) ?_⟩
      intro ix hix i hi j hj
      rw [← hval ix hix i hi j hj]
      simp

/-- `C119` fails: a batch of products against transposed matrices, at least four rows, an inner dimension that is not a
multiple of the vector width: every product of the batch uses the first right-hand matrix. -/
theorem C119_first_rhs_violated (a : Arch) (ha : a.dots = true) (lhs rhs : Ten α) (lead : List Nat) (M K N threads : Nat)
    (hl : lhs.Mats lead M K) (hr : rhs.Mats lead N K) (hM : 4 ≤ M) (hK : 0 < K) (hN : 0 < N) (ht : 0 < threads)
    (hw : ∀ KN, a.lanes = some KN → ¬ KN ∣ K) :
    ∃ ss, matMulForward a true lhs rhs (rowStr (lead ++ [M, N])) threads = .ok ss ∧
      Computes ss lead M N fun ix i j =>
        ∑ l ∈ Finset.range K, lhs.get (ix ++ [i, l]) * rhs.get (lead.map (fun _ => 0) ++ [j, l]) := by
  have e7 : ¬ (lhs.shape.length < 2 ∨ rhs.shape.length < 2) := by rw [hl.1, hr.1]; simp
  unfold matMulForward
  rw [if_neg e7]
  rw [hl.1, hr.1]
  simp only [back_shape1, back_shape2, batchOf_shape, if_true]
  rw [if_neg (by simp), if_neg (by simp), if_pos ⟨trivial, hM⟩]
  refine ⟨_, rfl, (ggml_fills a lhs rhs lead lead M K N none threads hl hr (Or.inl rfl) ht (by omega) hK hN).computes
    (Or.inr rfl) ?_⟩
  intro ix hix i hi j hj
  simp only [Option.elim, add_zero]
  rw [if_neg (by rw [not_check hw]; simp), vecDot_eq ha]
  have hz : InB lead (lead.map fun _ => 0) ∧ lin lead (lead.map fun _ => 0) = 0 := by
    clear hl hr
    induction lead generalizing ix with
    | nil => exact ⟨trivial, rfl⟩
    | cons d lead ih =>
      cases ix with
      | nil => cases hix
      | cons x ix =>
        obtain ⟨h1, h2⟩ := ih ix hix.2
        exact ⟨⟨Nat.lt_of_le_of_lt (Nat.zero_le _) hix.1, h1⟩, by simp only [List.map_cons, lin, h2]; omega⟩
  refine Finset.sum_congr rfl fun l hlK => ?_
  have hlK := Finset.mem_range.mp hlK
  rw [hl.get hix hi hlK, hr.get hz.1 hj hlK, hz.2, mul_comm]
  simp

/-- The call of the counterexample: two products of a `4 × 3` matrix with a transposed `1 × 3` matrix. -/
def batchLhs : Ten ℤ := ⟨[2, 4, 3], [12, 3, 1], fun _ => 1⟩

def batchRhs : Ten ℤ := ⟨[2, 1, 3], [3, 3, 1], fun k => if k < 3 then 1 else 2⟩

/-- `C119` fails on every build with a dot product, whatever the number of threads and the schedule. -/
theorem C119_matmul_violated (a : Arch) (ha : a.dots = true) (threads : Nat) (ht : 0 < threads) :
    ∃ ss, matMulForward a true batchLhs batchRhs (rowStr [2, 4, 1]) threads = .ok ss ∧
      ¬ Computes ss [2] 4 1 (matProd 3 true batchLhs batchRhs) := by
  obtain ⟨ss, h1, h2⟩ := C119_first_rhs_violated a ha batchLhs batchRhs [2] 4 3 1 threads ⟨rfl, rfl⟩ ⟨rfl, rfl⟩ (by omega)
    (by omega) (by omega) ht (by intro KN h; cases a <;> simp [Arch.lanes] at h <;> subst h <;> omega)
  refine ⟨ss, h1, fun hc => ?_⟩
  obtain ⟨m', hex⟩ := Exec.exists ss (fun _ => (0 : ℤ))
  have e1 := (h2 _ m' hex).1 [1] ⟨by omega, trivial⟩ 0 (by omega) 0 (by omega)
  have e2 := (hc _ m' hex).1 [1] ⟨by omega, trivial⟩ 0 (by omega) 0 (by omega)
  rw [e1] at e2
  revert e2
  simp [matProd, Ten.get, batchLhs, batchRhs, pos, Finset.sum_range_succ]

example : batchLhs.Mats [2] 4 3 ∧ batchRhs.Mats [2] 1 3 := ⟨⟨rfl, rfl⟩, ⟨rfl, rfl⟩⟩

/-- The hypotheses of `C119_matmul_partial` are met by a batched product with a partial tile in both directions. -/
example : ∃ lhs rhs : Ten ℤ, lhs.Mats [2, 3] 9 5 ∧ rhs.Mats [2, 3] 5 17 := ⟨⟨[2, 3, 9, 5], rowStr [2, 3, 9, 5], fun k => k⟩,
  ⟨[2, 3, 5, 17], rowStr [2, 3, 5, 17], fun k => k⟩, ⟨rfl, rfl⟩, ⟨rfl, rfl⟩⟩

/-- And what it then says of one cell: `[[1, 2], [3, 4]] · [[5, 6], [7, 8]]`. -/
example (a : Arch) : ∃ ss, matMulForward a false ⟨[2, 2], [2, 1], fun k => ([1, 2, 3, 4] : List ℤ).getD k 0⟩
    ⟨[2, 2], [2, 1], fun k => [5, 6, 7, 8].getD k 0⟩ [2, 1] 2 = .ok ss ∧
    ∀ m m' : Nat → ℤ, Exec ss m m' → m' 0 = 19 ∧ m' 1 = 22 ∧ m' 2 = 43 ∧ m' 3 = 50 := by
  obtain ⟨-, ss, h, hc⟩ := C119_matmul_partial a false ⟨[2, 2], [2, 1], fun k => ([1, 2, 3, 4] : List ℤ).getD k 0⟩
    ⟨[2, 2], [2, 1], fun k => [5, 6, 7, 8].getD k 0⟩ [] 2 2 2 2 ⟨rfl, rfl⟩ ⟨rfl, rfl⟩ (by omega) (by omega) (by omega)
    (by omega) (Or.inl rfl)
  refine ⟨ss, h, fun m m' hex => ?_⟩
  have hh := (hc m m' hex).1 [] trivial
  have h00 := hh 0 (by omega) 0 (by omega)
  have h01 := hh 0 (by omega) 1 (by omega)
  have h10 := hh 1 (by omega) 0 (by omega)
  have h11 := hh 1 (by omega) 1 (by omega)
  simp [matProd, Ten.get, outTen, pos, rowStr, numel, Finset.sum_range_succ] at h00 h01 h10 h11
  exact ⟨h00, h01, h10, h11⟩

/-- `C119` fails: on a build without AVX2 or NEON the same call (even with one matrix) returns zeros. -/
theorem C119_no_dot_violated (a : Arch) (ha : a.dots = false) (lhs rhs : Ten α) (lead : List Nat) (M K N threads : Nat)
    (hl : lhs.Mats lead M K) (hr : rhs.Mats lead N K) (hM : 4 ≤ M) (hK : 0 < K) (hN : 0 < N) (ht : 0 < threads)
    (hw : ∀ KN, a.lanes = some KN → ¬ KN ∣ K) :
    ∃ ss, matMulForward a true lhs rhs (rowStr (lead ++ [M, N])) threads = .ok ss ∧
      Computes ss lead M N fun _ _ _ => 0 := by
  have e7 : ¬ (lhs.shape.length < 2 ∨ rhs.shape.length < 2) := by rw [hl.1, hr.1]; simp
  unfold matMulForward
  rw [if_neg e7]
  rw [hl.1, hr.1]
  simp only [back_shape1, back_shape2, batchOf_shape, if_true]
  rw [if_neg (by simp), if_neg (by simp), if_pos ⟨trivial, hM⟩]
  refine ⟨_, rfl, (ggml_fills a lhs rhs lead lead M K N none threads hl hr (Or.inl rfl) ht (by omega) hK hN).computes
    (Or.inr rfl) ?_⟩
  intro ix hix i hi j hj
  simp only [Option.elim, add_zero]
  rw [if_neg (by rw [not_check hw]; simp), vecDot_zero ha]

/-- `C119` fails: an empty inner dimension with several rows leaves the output as it was allocated, instead of zero. -/
theorem C119_empty_violated (a : Arch) (lhs rhs : Ten α) (lead : List Nat) (M N threads : Nat)
    (hl : lhs.Mats lead M 0) (hr : rhs.Mats lead 0 N) (hM : 1 < M) :
    ∃ ss, matMulForward a false lhs rhs (rowStr (lead ++ [M, N])) threads = .ok ss ∧
      ∀ m m' : Nat → α, Exec ss m m' → m' = m := by
  have e7 : ¬ (lhs.shape.length < 2 ∨ rhs.shape.length < 2) := by rw [hl.1, hr.1]; simp
  unfold matMulForward
  rw [if_neg e7]
  rw [hl.1, hr.1]
  simp only [back_shape1, back_shape2, batchOf_shape, Bool.false_eq_true, if_false, false_and]
  rw [if_neg (by simp), if_neg (by simp)]
  split
  · exact ⟨_, rfl, fun m m' h => blasMatmul_empty a.blas 1 M N 0 0 0 lhs.data rhs.data false threads hM m m' h⟩
  · exact ⟨_, rfl, fun m m' h => blasMatmul_empty a.blas _ M N _ _ _ lhs.data rhs.data false threads hM m m' h⟩

/-- `C119` fails for views: the strides of a matrix operand are never read, so a transposed view is multiplied as if it were
the storage behind it. -/
theorem C119_strides_ignored_violated (a : Arch) (tb : Bool) (lhs rhs : Ten α) (s s' dst : List Nat) (threads : Nat)
    (hb : batchOf lhs.shape = 1) (hg : tb = false ∨ back lhs.shape 2 < 4 ∨
      ∃ KN, a.lanes = some KN ∧ KN ∣ back lhs.shape 1) :
    matMulForward a tb { lhs with stride := s } { rhs with stride := s' } dst threads =
      matMulForward a tb lhs rhs dst threads := by
  unfold matMulForward
  dsimp only
  by_cases hgg : tb = true ∧ 4 ≤ back lhs.shape 2
  · simp only [if_pos hgg]
    have : ggmlMatMul a { lhs with stride := s } { rhs with stride := s' } dst none true threads =
        ggmlMatMul a lhs rhs dst none true threads := by
      obtain ⟨KN, h1, h2⟩ : ∃ KN, a.lanes = some KN ∧ KN ∣ back lhs.shape 1 := by
        rcases hg with h | h | h
        · rw [h] at hgg; exact absurd hgg.1 (by simp)
        · omega
        · exact h
      unfold ggmlMatMul
      dsimp only
      simp only [if_true]
      rw [check_of_lanes h1 h2 hgg.2, if_pos rfl, if_pos rfl, if_pos hb, if_pos hb]
    rw [this]
  · simp only [if_neg hgg, if_pos hb]

/-- Concretely: the transpose of `[[1, 2], [3, 4]]` times the identity gives `[[1, 2], [3, 4]]`. -/
theorem C119_transposed_view_violated (a : Arch) (threads : Nat) (ht : 0 < threads) :
    ∃ (lhs rhs : Ten ℤ) (ss : _), lhs.shape = [2, 2] ∧ lhs.stride = [1, 2] ∧ rhs.Mats [] 2 2 ∧
      matMulForward a false lhs rhs (rowStr [2, 2]) threads = .ok ss ∧ ¬ Computes ss [] 2 2 (matProd 2 false lhs rhs) := by
  obtain ⟨lhs, hlhs⟩ : ∃ lhs : Ten ℤ, lhs = ⟨[2, 2], [2, 1], fun k => ([1, 2, 3, 4] : List ℤ).getD k 0⟩ := ⟨_, rfl⟩
  obtain ⟨rhs, hrhs⟩ : ∃ rhs : Ten ℤ, rhs = ⟨[2, 2], [2, 1], fun k => ([1, 0, 0, 1] : List ℤ).getD k 0⟩ := ⟨_, rfl⟩
  obtain ⟨-, ss, h1, h2⟩ := C119_matmul_partial a false lhs rhs [] 2 2 2 threads (by subst hlhs; exact ⟨rfl, rfl⟩)
    (by subst hrhs; exact ⟨rfl, rfl⟩) (by omega) (by omega) (by omega) ht (Or.inl rfl)
  refine ⟨{ lhs with stride := [1, 2] }, rhs, ss, by subst hlhs; rfl, rfl, by subst hrhs; exact ⟨rfl, rfl⟩, ?_, ?_⟩
  · rw [← h1]
    exact C119_strides_ignored_violated a false lhs rhs [1, 2] rhs.stride (rowStr [2, 2]) threads (by subst hlhs; rfl)
      (Or.inl rfl)
  · intro hc
    obtain ⟨m', hex⟩ := Exec.exists ss (fun _ => (0 : ℤ))
    have e1 := (h2 _ m' hex).1 [] trivial 0 (by omega) 1 (by omega)
    have e2 := (hc _ m' hex).1 [] trivial 0 (by omega) 1 (by omega)
    rw [e1] at e2
    revert e2
    subst hlhs hrhs
    simp [matProd, Ten.get, pos, Finset.sum_range_succ]

/-- `C120`, the part that holds: every contiguous input with at least four input channels (any number with NEON), for every
batch shape, thread count and schedule, as long as the vector width divides the channels or the build has a dot product. -/
theorem C120_linear_partial (a : Arch) (x w : Ten α) (bias : Option (Nat → α)) (lead : List Nat) (M inC outC threads : Nat)
    (hx : x.Mats lead M inC) (hw : w.Mats [] outC inC) (hM : 0 < M) (hK : 0 < inC) (hN : 0 < outC) (ht : 0 < threads)
    (hc : a = .neon ∨ 4 ≤ inC ∧ (a.dots = true ∨ ∃ KN, a.lanes = some KN ∧ KN ∣ inC)) :
    linearShape inC outC x.shape = .ok (lead ++ [M, outC]) ∧
    ∃ ss, linearForward a inC outC x w bias (rowStr (lead ++ [M, outC])) threads = .ok ss ∧
      Computes ss lead M outC fun ix i j =>
        (∑ l ∈ Finset.range inC, x.get (ix ++ [i, l]) * w.get [j, l]) + bias.elim 0 fun β => β j := by
  constructor
  · unfold linearShape
    rw [hx.1, back_shape1]
    simp [List.take_append]
  have hwg : ∀ j < outC, ∀ l < inC, w.get [j, l] = w.data (j * inC + l) := by
    intro j hj l hl
    have := hw.get (ix := []) trivial hj hl
    simpa [lin] using this
  unfold linearForward
  rw [if_neg (by rw [hx.1]; simp), hx.1]
  simp only [back_shape1, back_shape2, batchOf_shape]
  rw [if_neg (by simp)]
  by_cases h4 : 4 ≤ inC
  · rw [if_pos h4]
    refine ⟨_, rfl, (ggml_fills a x w lead [] M inC outC bias threads hx hw (Or.inr rfl) ht hM hK hN).computes (Or.inr rfl) ?_⟩
    intro ix hix i hi j hj
    beta_reduce
    congr 1
    split
    · refine Finset.sum_congr rfl fun l hl => ?_
      have hl := Finset.mem_range.mp hl
      rw [hx.get hix hi hl, hwg j hj l hl]
      simp
    · rename_i hck
      have hd : a.dots = true := by
        rcases hc with h | ⟨_, h | ⟨KN, h1, h2⟩⟩
        · rw [h]; rfl
        · exact h
        · cases a <;> first | rfl | skip
          all_goals
            exfalso
            apply hck
            unfold checkLlama
            simp only [Nat.lt_irrefl, if_false]
            simp [Arch.lanes] at h1
            try (subst h1; simp; omega)
      rw [vecDot_eq hd]
      refine Finset.sum_congr rfl fun l hl => ?_
      have hl := Finset.mem_range.mp hl
      rw [hx.get hix hi hl, hwg j hj l hl, mul_comm]
  · rw [if_neg h4]
    obtain rfl : a = .neon := by
      rcases hc with h | h
      · exact h
      · omega
    simp only [Arch.blas]
    by_cases hb : numel lead = 1
    · rw [if_pos hb]
      have hf := blasMatmul_fills .arm 1 M inC outC 0 0 0 x.data w.data bias true threads hM hK hN ht
        (Or.inl (Nat.le_refl _)) (Or.inl rfl)
      refine ⟨_, rfl, ?_⟩
      rw [← hb] at hf ⊢
      refine hf.computes (Or.inl (by omega)) ?_
      intro ix hix i hi j hj
      have hz : lin lead ix = 0 := by have := lin_lt hix; omega
      beta_reduce
      congr 1
      unfold prodAt
      refine Finset.sum_congr rfl fun l hl => ?_
      have hl := Finset.mem_range.mp hl
      rw [hx.get hix hi hl, hwg j hj l hl, hz]
      simp
    · rw [if_neg hb]
      have hne := lead_batch hb
      have f1 : back (rowStr (lead ++ [M, outC])) 3 = M * outC := rowStr_back3 hne _ _
      have f2 : back x.stride 3 = M * inC := by rw [hx.2, hx.1, rowStr_back3 hne]
      rw [f1, f2]
      refine ⟨_, rfl, (blasMatmul_fills .arm (numel lead) M inC outC (M * outC) (M * inC) 0 x.data w.data bias true threads hM
        hK hN ht (Or.inr (Nat.le_refl _)) (Or.inl rfl)).computes (Or.inr rfl) ?_⟩
      intro ix hix i hi j hj
      beta_reduce
      congr 1
      unfold prodAt
      refine Finset.sum_congr rfl fun l hl => ?_
      have hl := Finset.mem_range.mp hl
      rw [hx.get hix hi hl, hwg j hj l hl]
      simp [Nat.add_assoc]

/-- The hypotheses are met by a batch of three sequences, five channels in and three out, with AVX2 (the dot-product path). -/
example : ∃ x w : Ten ℤ, x.Mats [3] 2 5 ∧ w.Mats [] 3 5 ∧ Arch.dots .avx2 = true :=
  ⟨⟨[3, 2, 5], rowStr [3, 2, 5], fun k => k⟩, ⟨[3, 5], rowStr [3, 5], fun k => k⟩, ⟨rfl, rfl⟩, ⟨rfl, rfl⟩, rfl⟩

/-- `C120` fails: on x86 a layer with fewer than four input channels returns its output as it was allocated. -/
theorem C120_few_channels_violated (a : Arch) (ha : a ≠ .neon) (x w : Ten α) (bias : Option (Nat → α)) (lead : List Nat)
    (M inC outC threads : Nat) (dst : List Nat) (hx : x.Mats lead M inC) (h4 : inC < 4) :
    ∃ ss, linearForward a inC outC x w bias dst threads = .ok ss ∧ ∀ m m' : Nat → α, Exec ss m m' → m' = m := by
  refine ⟨[], ?_, ?_⟩
  · unfold linearForward
    rw [if_neg (by rw [hx.1]; simp), hx.1]
    simp only [back_shape1]
    rw [if_neg (by simp), if_neg (by omega)]
    cases a <;> first | rfl | exact absurd rfl ha
  · intro m m' h
    cases h
    rfl

example : ∃ x : Ten ℤ, x.Mats [] 1 3 := ⟨⟨[1, 3], [3, 1], fun _ => 1⟩, rfl, rfl⟩

end Verif.Kern
