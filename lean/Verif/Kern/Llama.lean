import Verif.Kern.Gemm
import Mathlib.Algebra.BigOperators.Group.Finset.Piecewise
import Mathlib.Data.List.Count

/-!
The tinyBLAS kernels of llamafile: `backends/cpu/kernels/common/llamafile/llamafile_sgemm.cpp`.
Every thread walks the same recursive tiling and computes its share of each block.
-/

namespace Verif.Kern

/-- The `switch` of `mnpack`, `llamafile_sgemm.cpp` L245-377: the tile for a block with `a = min(m - m0, 5)` rows and
`b = min(n - n0, 5)` columns left.  `wide` is `VECTOR_REGISTERS == 32` (NEON, AVX-512). -/
def pickTile (wide : Bool) (a b : Nat) : Option (Nat × Nat) :=
  match a, b with
  | 5, 5 => if wide then some (5, 5) else some (4, 3)
  | 4, 5 => if wide then some (4, 5) else some (4, 3)
  | 5, 4 => if wide then some (5, 4) else some (4, 3)
  | 4, 4 => if wide then some (4, 4) else some (4, 3)
  | 5, 3 => if wide then some (5, 3) else some (4, 3)
  | 3, 5 => if wide then some (3, 5) else some (3, 4)
  | 4, 3 => some (4, 3)
  | 3, 4 => some (3, 4)
  | 5, 2 => some (5, 2)
  | 3, 3 => some (3, 3)
  | 2, 5 => some (2, 5)
  | 4, 2 => some (4, 2)
  | 2, 4 => some (2, 4)
  | 3, 2 => some (3, 2)
  | 2, 3 => some (2, 3)
  | 5, 1 => some (5, 1)
  | 4, 1 => some (4, 1)
  | 2, 2 => some (2, 2)
  | 1, 5 => some (1, 5)
  | 1, 4 => some (1, 4)
  | 3, 1 => some (3, 1)
  | 1, 3 => some (1, 3)
  | 2, 1 => some (2, 1)
  | 1, 2 => some (1, 2)
  | 1, 1 => some (1, 1)
  | _, _ => none

/-- The tile chosen is never larger than the block, and some tile is chosen unless the block is empty. -/
theorem pickTile_some {wide : Bool} {a b : Nat} {t : Nat × Nat} (h : pickTile wide a b = some t) :
    0 < t.1 ∧ t.1 ≤ a ∧ 0 < t.2 ∧ t.2 ≤ b := by
  unfold pickTile at h
  split at h <;> first | (split at h <;> cases h <;> simp) | (cases h; try simp)

theorem pickTile_none {wide : Bool} {a b : Nat} (ha : a ≤ 5) (hb : b ≤ 5) (h : pickTile wide a b = none) : a = 0 ∨ b = 0 := by
  interval_cases a <;> interval_cases b <;> first | omega | (exfalso; cases wide <;> simp [pickTile] at h)

/-- `gemm<RM, RN>` `llamafile_sgemm.cpp` L403-434: the cells thread `ith` of `nth` computes, in order, as
`(row in the first operand, row in the second operand)`. -/
def gemmCells (RM RN m0 m n0 n ith nth : Nat) : List (Nat × Nat) :=
  let ytiles := (m - m0) / RM
  let xtiles := (n - n0) / RN
  let tiles := xtiles * ytiles
  let duty := (tiles + nth - 1) / nth
  let start := duty * ith
  let stop := if start + duty > tiles then tiles else start + duty
  (List.range' start (stop - start)).flatMap fun job =>
    let ii := m0 + job / xtiles * RM
    let jj := n0 + job % xtiles * RN
    (List.range RN).flatMap fun j => (List.range RM).map fun i => (ii + i, jj + j)

/-- `mnpack` `llamafile_sgemm.cpp` L244-401: the cells thread `ith` computes in the block `[m0,m) × [n0,n)`. -/
def mnpack (wide : Bool) (ith nth m0 m n0 n : Nat) : List (Nat × Nat) :=
  match h : pickTile wide (min (m - m0) 5) (min (n - n0) 5) with
  | none => []
  | some (mc, nc) =>
    let mp := m0 + (m - m0) / mc * mc
    let np := n0 + (n - n0) / nc * nc
    gemmCells mc nc m0 m n0 n ith nth ++ mnpack wide ith nth mp m n0 np ++ mnpack wide ith nth m0 m np n
termination_by (m - m0) + (n - n0)
decreasing_by
  all_goals
    have hb := pickTile_some h
    dsimp only at hb
    have h1 : mc ≤ (m - m0) / mc * mc := by
      have : 1 ≤ (m - m0) / mc := (Nat.one_le_div_iff (by omega)).mpr (by omega)
      calc mc = 1 * mc := by omega
        _ ≤ _ := Nat.mul_le_mul_right _ this
    have h2 : nc ≤ (n - n0) / nc * nc := by
      have : 1 ≤ (n - n0) / nc := (Nat.one_le_div_iff (by omega)).mpr (by omega)
      calc nc = 1 * nc := by omega
        _ ≤ _ := Nat.mul_le_mul_right _ this
    have h3 := Nat.div_mul_le_self (m - m0) mc
    have h4 := Nat.div_mul_le_self (n - n0) nc
    omega

variable {α : Type} [CommRing α]

/-- The inner loop `llamafile_sgemm.cpp` L416-422 followed by `hsum` (L147-184): `KN` running sums over `l`, `l + KN`, …,
added up at the end. -/
def dotLanes (KN k : Nat) (f : Nat → α) : α := accum 0 KN fun v => accum 0 ((k + KN - 1) / KN) fun t => f (t * KN + v)

/-- The store adds the bias when there is one, `llamafile_sgemm.cpp` L424-432. -/
def startBias (bias : Option (Nat → α)) (i : Nat) (v : α) : α :=
  match bias with
  | some β => β i + v
  | none => v

/-- `tinyBLAS::matmul` for one thread, `llamafile_sgemm.cpp` L235-448: `C[ldc * j + i] = bias[i] + A[i] · B[j]`.
`c` is the first output cell. -/
def tinyBLAS (wide : Bool) (KN m n k : Nat) (A : Nat → α) (lda : Nat) (B : Nat → α) (ldb c ldc ith nth : Nat)
    (bias : Option (Nat → α)) : List (Upd α) :=
  (mnpack wide ith nth 0 m 0 n).map fun p =>
    Upd.put (c + (ldc * p.2 + p.1)) (startBias bias p.1 (dotLanes KN k fun l => A (lda * p.1 + l) * B (ldb * p.2 + l)))

/-! ### Proofs -/

theorem shares_range (d t : Nat) : ∀ nth, (List.range nth).flatMap (fun ith =>
    List.range' (d * ith) ((if d * ith + d > t then t else d * ith + d) - d * ith)) = List.range (min (d * nth) t) := by
  intro nth
  induction nth with
  | zero => simp
  | succ nth ih =>
    rw [List.range_succ, List.flatMap_append, ih]
    simp only [List.flatMap_cons, List.flatMap_nil, List.append_nil]
    rw [List.range_eq_range', List.range_eq_range']
    by_cases h : d * nth ≤ t
    · rw [Nat.min_eq_left h]
      have e : min (d * (nth + 1)) t = d * nth + ((if d * nth + d > t then t else d * nth + d) - d * nth) := by
        rw [Nat.mul_add, Nat.mul_one]
        split_ifs <;> omega
      rw [e]
      have := List.range'_append_1 (s := 0) (m := d * nth)
        (n := (if d * nth + d > t then t else d * nth + d) - d * nth)
      rw [Nat.zero_add] at this
      exact this
    · rw [Nat.min_eq_right (by omega), if_pos (by omega), Nat.mul_add, Nat.min_eq_right (by omega),
        Nat.sub_eq_zero_of_le (by omega)]
      simp

theorem duty_covers {t nth : Nat} (h : 0 < nth) : t ≤ (t + nth - 1) / nth * nth := by
  have e := Nat.div_add_mod (t + nth - 1) nth
  have := Nat.mod_lt (t + nth - 1) h
  rw [Nat.mul_comm] at e
  omega

theorem count_flatMap_sum {ι κ : Type} [BEq κ] [LawfulBEq κ] (l : List ι) (f : ι → List κ) (x : κ) :
    (l.flatMap f).count x = (l.map fun a => (f a).count x).sum := by
  induction l with
  | nil => simp
  | cons a l ih => simp [ih]

theorem count_range_flatMap {κ : Type} [BEq κ] [LawfulBEq κ] (n : Nat) (f : Nat → List κ) (x : κ) :
    ((List.range n).flatMap f).count x = ∑ a ∈ Finset.range n, (f a).count x := by
  induction n with
  | zero => simp
  | succ n ih => rw [List.range_succ, List.flatMap_append, List.count_append, ih, Finset.sum_range_succ]; simp

/-- All tiles of a block together hold each of its cells once. -/
theorem tiles_count (RM RN m0 n0 Y X : Nat) (hRM : 0 < RM) (hRN : 0 < RN) (x : Nat × Nat) :
    ((List.range (X * Y)).flatMap fun job => (List.range RN).flatMap fun j => (List.range RM).map fun i =>
      (m0 + job / X * RM + i, n0 + job % X * RN + j)).count x =
    if m0 ≤ x.1 ∧ x.1 < m0 + Y * RM ∧ n0 ≤ x.2 ∧ x.2 < n0 + X * RN then 1 else 0 := by
  have hnd : ((List.range (X * Y)).flatMap fun job => (List.range RN).flatMap fun j => (List.range RM).map fun i =>
      (m0 + job / X * RM + i, n0 + job % X * RN + j)).Nodup := by
    rw [List.nodup_flatMap]
    refine ⟨?_, ?_⟩
    · intro job _
      rw [List.nodup_flatMap]
      refine ⟨?_, ?_⟩
      · intro j _
        refine List.Nodup.map ?_ List.nodup_range
        intro a b h
        simpa using h
      · refine List.Pairwise.imp_of_mem ?_ List.nodup_range
        intro a b _ _ hne
        rw [Function.onFun, List.disjoint_left]
        intro y hy hy'
        obtain ⟨_, -, rfl⟩ := List.mem_map.mp hy
        obtain ⟨_, -, he⟩ := List.mem_map.mp hy'
        injection he with h1 h2
        omega
    · refine List.Pairwise.imp_of_mem ?_ List.nodup_range
      intro a b ha hb hne
      rw [Function.onFun, List.disjoint_left]
      intro y hy hy'
      obtain ⟨j, hj, hy⟩ := List.mem_flatMap.mp hy
      obtain ⟨i, hi, rfl⟩ := List.mem_map.mp hy
      obtain ⟨j', hj', hy'⟩ := List.mem_flatMap.mp hy'
      obtain ⟨i', hi', he⟩ := List.mem_map.mp hy'
      rw [List.mem_range] at hj hi hj' hi' ha hb
      injection he with h1 h2
      have div_eq : ∀ {q q' r r' R : Nat}, r < R → r' < R → q * R + r = q' * R + r' → q = q' := by
        intro q q' r r' R hr hr' e
        have d1 : (q * R + r) / R = q := by
          rw [Nat.mul_comm, Nat.mul_add_div (by omega), Nat.div_eq_of_lt hr, Nat.add_zero]
        have d2 : (q' * R + r') / R = q' := by
          rw [Nat.mul_comm, Nat.mul_add_div (by omega), Nat.div_eq_of_lt hr', Nat.add_zero]
        rw [← d1, ← d2, e]
      have e1 : b / X = a / X := div_eq hi' hi (by omega)
      have e2 : b % X = a % X := div_eq hj' hj (by omega)
      apply hne
      rw [← Nat.div_add_mod a X, ← Nat.div_add_mod b X, e1, e2]
  have hmem : (x ∈ (List.range (X * Y)).flatMap fun job => (List.range RN).flatMap fun j => (List.range RM).map fun i =>
      (m0 + job / X * RM + i, n0 + job % X * RN + j)) ↔
      m0 ≤ x.1 ∧ x.1 < m0 + Y * RM ∧ n0 ≤ x.2 ∧ x.2 < n0 + X * RN := by
    constructor
    · intro h
      obtain ⟨job, hjob, h⟩ := List.mem_flatMap.mp h
      obtain ⟨j, hj, h⟩ := List.mem_flatMap.mp h
      obtain ⟨i, hi, rfl⟩ := List.mem_map.mp h
      rw [List.mem_range] at hj hi hjob
      have hXp : 0 < X := Nat.pos_of_ne_zero (fun h => by subst h; simp at hjob)
      have d1 : job / X < Y := Nat.div_lt_of_lt_mul hjob
      have d2 : job % X < X := Nat.mod_lt _ hXp
      have c1 : (job / X + 1) * RM ≤ Y * RM := Nat.mul_le_mul_right _ d1
      have c2 : (job % X + 1) * RN ≤ X * RN := Nat.mul_le_mul_right _ d2
      rw [Nat.add_mul] at c1 c2
      dsimp only
      omega
    · rintro ⟨h1, h2, h3, h4⟩
      obtain ⟨r, s⟩ := x
      dsimp only at h1 h2 h3 h4
      have d1 : (r - m0) / RM < Y := (Nat.div_lt_iff_lt_mul hRM).mpr (by omega)
      have d2 : (s - n0) / RN < X := (Nat.div_lt_iff_lt_mul hRN).mpr (by omega)
      have hXp : 0 < X := Nat.lt_of_le_of_lt (Nat.zero_le _) d2
      have e1 := Nat.div_add_mod (r - m0) RM
      have e2 := Nat.div_add_mod (s - n0) RN
      rw [Nat.mul_comm] at e1 e2
      refine List.mem_flatMap.mpr ⟨(r - m0) / RM * X + (s - n0) / RN, ?_, ?_⟩
      · rw [List.mem_range]
        have : ((r - m0) / RM + 1) * X ≤ Y * X := Nat.mul_le_mul_right _ d1
        rw [Nat.add_mul] at this
        rw [Nat.mul_comm X Y]
        omega
      · have q1 : ((r - m0) / RM * X + (s - n0) / RN) / X = (r - m0) / RM := by
          rw [Nat.mul_comm, Nat.mul_add_div hXp, Nat.div_eq_of_lt d2, Nat.add_zero]
        have q2 : ((r - m0) / RM * X + (s - n0) / RN) % X = (s - n0) / RN := by
          rw [Nat.mul_comm, Nat.mul_add_mod, Nat.mod_eq_of_lt d2]
        refine List.mem_flatMap.mpr ⟨(s - n0) % RN, List.mem_range.mpr (Nat.mod_lt _ hRN), ?_⟩
        refine List.mem_map.mpr ⟨(r - m0) % RM, List.mem_range.mpr (Nat.mod_lt _ hRM), ?_⟩
        rw [q1, q2]
        exact Prod.ext (by dsimp only; omega) (by dsimp only; omega)
  by_cases h : m0 ≤ x.1 ∧ x.1 < m0 + Y * RM ∧ n0 ≤ x.2 ∧ x.2 < n0 + X * RN
  · rw [if_pos h]
    exact List.count_eq_one_of_mem hnd (hmem.mpr h)
  · rw [if_neg h]
    exact List.count_eq_zero_of_not_mem (fun hc => h (hmem.mp hc))

theorem gemmCells_count (RM RN m0 m n0 n nth : Nat) (hRM : 0 < RM) (hRN : 0 < RN) (hn : 0 < nth) (x : Nat × Nat) :
    ∑ ith ∈ Finset.range nth, (gemmCells RM RN m0 m n0 n ith nth).count x =
    if m0 ≤ x.1 ∧ x.1 < m0 + (m - m0) / RM * RM ∧ n0 ≤ x.2 ∧ x.2 < n0 + (n - n0) / RN * RN then 1 else 0 := by
  rw [← count_range_flatMap, ← tiles_count RM RN m0 n0 _ _ hRM hRN]
  congr 1
  unfold gemmCells
  dsimp only
  rw [← List.flatMap_assoc, shares_range, Nat.min_eq_right (duty_covers hn)]

/-- Every cell of the block is computed by exactly one thread, exactly once, and no other cell is. -/
theorem mnpack_count (wide : Bool) (nth : Nat) (hn : 0 < nth) (x : Nat × Nat) (m0 m n0 n : Nat) :
    ∑ ith ∈ Finset.range nth, (mnpack wide ith nth m0 m n0 n).count x =
    if m0 ≤ x.1 ∧ x.1 < m ∧ n0 ≤ x.2 ∧ x.2 < n then 1 else 0 := by
  induction hN : (m - m0) + (n - n0) using Nat.strong_induction_on generalizing m0 m n0 n with
  | _ N ih =>
  cases hp : pickTile wide (min (m - m0) 5) (min (n - n0) 5) with
  | none =>
    have h0 := pickTile_none (by omega) (by omega) hp
    have he : ∀ ith, mnpack wide ith nth m0 m n0 n = [] := by
      intro ith
      unfold mnpack
      split
      · rfl
      · rename_i h; rw [hp] at h; cases h
    simp only [he, List.count_nil, Finset.sum_const_zero]
    rw [if_neg (by omega)]
  | some t =>
    obtain ⟨mc, nc⟩ := t
    have hb := pickTile_some hp
    dsimp only at hb
    have h1 : mc ≤ (m - m0) / mc * mc := by
      have : 1 ≤ (m - m0) / mc := (Nat.one_le_div_iff (by omega)).mpr (by omega)
      calc mc = 1 * mc := by omega
        _ ≤ _ := Nat.mul_le_mul_right _ this
    have h2 : nc ≤ (n - n0) / nc * nc := by
      have : 1 ≤ (n - n0) / nc := (Nat.one_le_div_iff (by omega)).mpr (by omega)
      calc nc = 1 * nc := by omega
        _ ≤ _ := Nat.mul_le_mul_right _ this
    have h3 := Nat.div_mul_le_self (m - m0) mc
    have h4 := Nat.div_mul_le_self (n - n0) nc
    have he : ∀ ith, mnpack wide ith nth m0 m n0 n = gemmCells mc nc m0 m n0 n ith nth ++
        mnpack wide ith nth (m0 + (m - m0) / mc * mc) m n0 (n0 + (n - n0) / nc * nc) ++
        mnpack wide ith nth m0 m (n0 + (n - n0) / nc * nc) n := by
      intro ith
      conv_lhs => unfold mnpack
      split
      · rename_i h; rw [hp] at h; cases h
      · rename_i h; rw [hp] at h; cases h; rfl
    simp only [he, List.count_append, Finset.sum_add_distrib]
    rw [gemmCells_count mc nc m0 m n0 n nth hb.1 hb.2.2.1 hn,
      ih _ (by omega) (m0 + (m - m0) / mc * mc) m n0 (n0 + (n - n0) / nc * nc) rfl,
      ih _ (by omega) m0 m (n0 + (n - n0) / nc * nc) n rfl]
    split_ifs <;> omega

/-- Full vectors: the running sums add up to the dot product. -/
theorem dotLanes_eq (KN k : Nat) (hK : 0 < KN) (hd : KN ∣ k) (f : Nat → α) :
    dotLanes KN k f = ∑ l ∈ Finset.range k, f l := by
  obtain ⟨q, rfl⟩ := hd
  unfold dotLanes
  have e : (KN * q + KN - 1) / KN = q := by
    rw [show KN * q + KN - 1 = KN * q + (KN - 1) by omega, Nat.mul_add_div hK, Nat.div_eq_of_lt (by omega), Nat.add_zero]
  rw [e, accum_eq, zero_add, Nat.mul_comm KN q, ← lanes_sum]
  refine Finset.sum_congr rfl fun r _ => ?_
  rw [accum_eq, zero_add]

theorem count_le_one_nodup {κ : Type} [BEq κ] [LawfulBEq κ] {l : List κ} (h : ∀ x, l.count x ≤ 1) : l.Nodup :=
  List.nodup_iff_count_le_one.mpr h

theorem mnpack_nodup (wide : Bool) (nth ith m n : Nat) (hi : ith < nth) : (mnpack wide ith nth 0 m 0 n).Nodup := by
  refine count_le_one_nodup fun x => ?_
  have hs := mnpack_count wide nth (by omega) x 0 m 0 n
  have hle : (mnpack wide ith nth 0 m 0 n).count x ≤ ∑ ith ∈ Finset.range nth, (mnpack wide ith nth 0 m 0 n).count x :=
    Finset.single_le_sum (f := fun ith => (mnpack wide ith nth 0 m 0 n).count x) (fun _ _ => Nat.zero_le _)
      (Finset.mem_range.mpr hi)
  split_ifs at hs <;> omega

theorem mnpack_mem (wide : Bool) (nth ith m n : Nat) (hi : ith < nth) {x : Nat × Nat}
    (hx : x ∈ mnpack wide ith nth 0 m 0 n) : x.1 < m ∧ x.2 < n := by
  have hs := mnpack_count wide nth (by omega) x 0 m 0 n
  have hle : (mnpack wide ith nth 0 m 0 n).count x ≤ ∑ ith ∈ Finset.range nth, (mnpack wide ith nth 0 m 0 n).count x :=
    Finset.single_le_sum (f := fun ith => (mnpack wide ith nth 0 m 0 n).count x) (fun _ _ => Nat.zero_le _)
      (Finset.mem_range.mpr hi)
  have : 0 < (mnpack wide ith nth 0 m 0 n).count x := List.count_pos_iff.mpr hx
  split_ifs at hs with h
  · exact ⟨h.2.1, h.2.2.2⟩
  · omega

theorem mnpack_owner (wide : Bool) (nth m n : Nat) (hn : 0 < nth) {x : Nat × Nat} (h1 : x.1 < m) (h2 : x.2 < n) :
    ∃ ith < nth, x ∈ mnpack wide ith nth 0 m 0 n ∧ ∀ k < nth, k ≠ ith → x ∉ mnpack wide k nth 0 m 0 n := by
  have hs := mnpack_count wide nth hn x 0 m 0 n
  rw [if_pos ⟨by omega, h1, by omega, h2⟩] at hs
  have hex : ∃ ith ∈ Finset.range nth, (mnpack wide ith nth 0 m 0 n).count x ≠ 0 := by
    by_contra hc
    push Not at hc
    rw [Finset.sum_eq_zero hc] at hs
    omega
  obtain ⟨ith, hi, hc⟩ := hex
  refine ⟨ith, Finset.mem_range.mp hi, List.count_pos_iff.mp (by omega), ?_⟩
  intro k hk hne hmem
  have hpos : 0 < (mnpack wide k nth 0 m 0 n).count x := List.count_pos_iff.mpr hmem
  have hsub : ({ith, k} : Finset Nat) ⊆ Finset.range nth := by
    intro y hy
    rcases Finset.mem_insert.mp hy with rfl | hy
    · exact hi
    · rw [Finset.mem_singleton.mp hy]; exact Finset.mem_range.mpr hk
  have hle := Finset.sum_le_sum_of_subset (f := fun ith => (mnpack wide ith nth 0 m 0 n).count x) hsub
  rw [Finset.sum_pair (Ne.symm hne)] at hle
  omega

/-- The thread bodies of a batch of tinyBLAS products fill the output. -/
theorem tinyBLAS_fills (wide : Bool) (KN batch M K N ds : Nat) (hKN : 0 < KN) (hd : KN ∣ K)
    (W X : Nat → Nat → α) (bias : Option (Nat → α)) (threads : Nat) (ht : 0 < threads) (hds : batch ≤ 1 ∨ M * N ≤ ds) :
    Fills ((List.range batch).map fun b => (List.range threads).map fun id =>
      tinyBLAS wide KN N M K (W b) K (X b) K (b * ds) N id threads bias) batch M N ds fun b i j =>
        (∑ l ∈ Finset.range K, X b (i * K + l) * W b (j * K + l)) + bias.elim 0 fun β => β j := by
  intro m m' hex
  have haddr : ∀ b id, id < threads → ∀ u ∈ tinyBLAS wide KN N M K (W b) K (X b) K (b * ds) N id threads bias,
      ∃ p ∈ mnpack wide id threads 0 N 0 M, p.1 < N ∧ p.2 < M ∧ u.addr = b * ds + p.2 * N + p.1 := by
    intro b id hid u hu
    obtain ⟨p, hp, rfl⟩ := List.mem_map.mp hu
    have := mnpack_mem wide threads id N M hid hp
    refine ⟨p, hp, this.1, this.2, ?_⟩
    show b * ds + (N * p.2 + p.1) = _
    rw [Nat.mul_comm N]; omega
  constructor
  · intro b hb i hi j hj
    obtain ⟨ith, hith, hmem, hoth⟩ := mnpack_owner wide threads N M ht (x := (j, i)) hj hi
    have hcell : ∀ b' < batch, ∀ p : Nat × Nat, p.1 < N → p.2 < M → b' * ds + p.2 * N + p.1 = b * ds + i * N + j →
        b' = b ∧ p = (j, i) := by
      intro b' hb' p h1 h2 he
      rcases hds with h | h
      · obtain rfl : b' = b := by omega
        have := cell_inj (M := M) (N := N) (ds := M * N) (b := 0) (i := p.2) (j := p.1) (b' := 0) (i' := i) (j' := j)
          (Nat.le_refl _) h2 h1 hi hj (by omega)
        exact ⟨rfl, Prod.ext this.2.2 this.2.1⟩
      · have := cell_inj (M := M) (N := N) (ds := ds) (b := b') (i := p.2) (j := p.1) (b' := b) (i' := i) (j' := j)
          h h2 h1 hi hj he
        exact ⟨this.1, Prod.ext this.2.2 this.2.1⟩
    have hrun := hex.grid (job := fun b id => tinyBLAS wide KN N M K (W b) K (X b) K (b * ds) N id threads bias)
      (b * ds + i * N + j) b ith hb hith (by
        intro b' hb' t' ht' hne u hu he
        obtain ⟨p, hp, h1, h2, ha⟩ := haddr b' t' ht' u hu
        obtain ⟨rfl, rfl⟩ := hcell b' hb' p h1 h2 (by rw [← ha, he])
        rcases hne with h | h
        · exact h rfl
        · exact hoth t' ht' h hp)
    rw [hrun]
    have hnd : ((tinyBLAS wide KN N M K (W b) K (X b) K (b * ds) N ith threads bias).map Upd.addr).Nodup := by
      unfold tinyBLAS
      rw [List.map_map]
      refine List.Nodup.map_on ?_ (mnpack_nodup wide threads ith N M hith)
      intro p hp q hq he
      have hp := mnpack_mem wide threads ith N M hith hp
      have hq := mnpack_mem wide threads ith N M hith hq
      simp only [Function.comp, Upd.put] at he
      have := cell_inj (M := M) (N := N) (ds := M * N) (b := 0) (i := p.2) (j := p.1) (b' := 0) (i' := q.2) (j' := q.1)
          (Nat.le_refl _) hp.2 hp.1 hq.2 hq.1 (by rw [Nat.mul_comm N, Nat.mul_comm N] at he; omega)
      exact Prod.ext this.2.2 this.2.1
    have hput : Upd.put (b * ds + (N * i + j)) (startBias bias j
        (dotLanes KN K fun l => W b (K * j + l) * X b (K * i + l))) ∈
        tinyBLAS wide KN N M K (W b) K (X b) K (b * ds) N ith threads bias := List.mem_map.mpr ⟨(j, i), hmem, rfl⟩
    have hone := run_once hnd hput m
    have hadd : (b * ds + i * N + j) = b * ds + (N * i + j) := by rw [Nat.mul_comm N]; omega
    rw [hadd]
    refine hone.trans ?_
    show startBias bias j (dotLanes KN K fun l => W b (K * j + l) * X b (K * i + l)) = _
    unfold startBias
    cases bias with
    | none =>
      dsimp only [Option.elim]
      rw [dotLanes_eq KN K hKN hd, add_zero]
      refine Finset.sum_congr rfl fun l _ => ?_
      rw [mul_comm, Nat.mul_comm K i, Nat.mul_comm K j]
    | some β =>
      dsimp only [Option.elim]
      rw [dotLanes_eq KN K hKN hd, add_comm]
      congr 1
      refine Finset.sum_congr rfl fun l _ => ?_
      rw [mul_comm, Nat.mul_comm K i, Nat.mul_comm K j]
  · intro x hx
    refine hex.grid_other (job := fun b id => tinyBLAS wide KN N M K (W b) K (X b) K (b * ds) N id threads bias) x ?_
    intro b hb t ht' u hu he
    obtain ⟨p, hp, h1, h2, ha⟩ := haddr b t ht' u hu
    exact hx b hb p.2 h2 p.1 h1 (by rw [← ha, he])

end Verif.Kern
