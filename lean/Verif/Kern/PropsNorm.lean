import Verif.Kern.Norm

/-!
C122 (`RMSNorm`) and C123 (`LayerNorm`).
-/

namespace Verif.Kern

open Verif.Tensor (numel InB lin lin_lt coords coords_spec coords_lin)

/-! ### Specification -/

/-- `x / sqrt(mean(x²) + eps) * w`, with `w + 1` for the unit-offset variant. -/
noncomputable def rmsNormAt (off : Bool) (eps : ℝ) (D : Nat) (f w : Nat → ℝ) (j : Nat) : ℝ :=
  f j / Real.sqrt ((∑ l ∈ Finset.range D, f l ^ 2) / D + eps) * (if off then w j + 1 else w j)

/-- The mean of `f 0, …, f (N - 1)`. -/
noncomputable def meanOf (N : Nat) (f : Nat → ℝ) : ℝ := (∑ l ∈ Finset.range N, f l) / N

/-- `(x - mean) / sqrt(var + eps) * γ + β`. -/
noncomputable def layerNormAt (eps : ℝ) (N : Nat) (f : Nat → ℝ) (γ β : Option (Nat → ℝ)) (j : Nat) : ℝ :=
  (f j - meanOf N f) / Real.sqrt (meanOf N (fun l => (f l - meanOf N f) ^ 2) + eps) * γ.elim 1 (fun g => g j) +
    β.elim 0 fun b => b j

/-! ### RMSNorm -/

theorem rmsNormAt_congr {off : Bool} {eps : ℝ} {D : Nat} {f g w : Nat → ℝ} (h : ∀ l < D, f l = g l) {j : Nat} (hj : j < D) :
    rmsNormAt off eps D f w j = rmsNormAt off eps D g w j := by
  unfold rmsNormAt
  rw [h j hj, Finset.sum_congr rfl fun l hl => by rw [h l (Finset.mem_range.mp hl)]]

theorem mapM_ok {ι β ε : Type} {l : List ι} {f : ι → Except ε β} {g : ι → β} (h : ∀ a ∈ l, f a = .ok (g a)) :
    l.mapM f = .ok (l.map g) := by
  induction l with
  | nil => rfl
  | cons a l ih =>
    rw [List.mapM_cons, h a List.mem_cons_self, ih fun b hb => h b (List.mem_cons_of_mem _ hb)]
    rfl

theorem mapM_error {ι β ε : Type} {l : List ι} {f : ι → Except ε β} {e : ε} (h : ∀ a ∈ l, f a = .error e ∨ ∃ b, f a = .ok b)
    (he : ∃ a ∈ l, f a = .error e) : l.mapM f = .error e := by
  induction l with
  | nil => obtain ⟨a, ha, _⟩ := he; cases ha
  | cons a l ih =>
    rw [List.mapM_cons]
    rcases h a List.mem_cons_self with h1 | ⟨b, h1⟩
    · rw [h1]; rfl
    · rw [h1]
      obtain ⟨c, hc, hce⟩ := he
      rcases List.mem_cons.mp hc with rfl | hc
      · rw [h1] at hce; cases hce
      · rw [ih (fun b hb => h b (List.mem_cons_of_mem _ hb)) ⟨c, hc, hce⟩]; rfl

theorem rmsOf_eq {D : Nat} {f : Nat → ℝ} {eps s : ℝ} (hs : s = ∑ i ∈ Finset.range D, f i * f i) :
    rmsOf s D eps = 1 / Real.sqrt ((∑ l ∈ Finset.range D, f l ^ 2) / D + eps) := by
  unfold rmsOf
  rw [hs]
  congr 3
  congr 1
  exact Finset.sum_congr rfl fun i _ => by ring

theorem armRmsRow_ok (off : Bool) (eps : ℝ) (D : Nat) (X W : Nat → ℝ) (c : Nat) :
    (∀ u ∈ armRmsRow off eps D X W c, c ≤ u.addr ∧ u.addr < c + D) ∧
    ∀ j < D, ∀ m, run (armRmsRow off eps D X W c) m (c + j) = rmsNormAt off eps D X W j := by
  have hr := rmsOf_eq (eps := eps) (laneSum_eq 4 D fun i => X i * X i)
  constructor
  · intro u hu
    unfold armRmsRow at hu
    rcases List.mem_append.mp hu with h | h
    · obtain ⟨d, hd, h⟩ := List.mem_flatMap.mp h
      obtain ⟨v, hv, rfl⟩ := List.mem_map.mp h
      have := List.mem_range.mp hd
      have := List.mem_range.mp hv
      exact ⟨by simp [Upd.put], by simp [Upd.put]; omega⟩
    · obtain ⟨d, hd, rfl⟩ := List.mem_map.mp h
      have := List.mem_range'_1.mp hd
      exact ⟨by simp [Upd.put], by simp [Upd.put]; omega⟩
  · intro j hj m
    refine run_agree ?_ ?_ m
    · intro u hu he y
      unfold armRmsRow at hu
      simp only [hr] at hu
      rcases List.mem_append.mp hu with h | h
      · obtain ⟨d, hd, h⟩ := List.mem_flatMap.mp h
        obtain ⟨v, hv, rfl⟩ := List.mem_map.mp h
        have e : d + v = j := by simp only [Upd.put] at he; omega
        subst e
        simp only [Upd.put, rmsNormAt, unit]
        ring
      · obtain ⟨d, hd, rfl⟩ := List.mem_map.mp h
        have e : d = j := by simp only [Upd.put] at he; omega
        subst e
        simp only [Upd.put, rmsNormAt, unit]
        ring
    · unfold armRmsRow
      by_cases h3 : j < D - 3
      · refine ⟨_, List.mem_append_left _ (List.mem_flatMap.mpr ⟨j, List.mem_range.mpr h3,
          List.mem_map.mpr ⟨0, List.mem_range.mpr (by omega), rfl⟩⟩), ?_⟩
        simp [Upd.put]
      · refine ⟨_, List.mem_append_right _ (List.mem_map.mpr ⟨j, List.mem_range'_1.mpr ⟨by omega, by omega⟩, rfl⟩), ?_⟩
        simp [Upd.put]

/-- The vectors of every row are aligned. -/
def Simd.Aligned : Simd → (base D rows : Nat) → Prop
  | .arm, _, _, _ => True
  | .x86 lanes, base, D, rows => 0 < D / lanes → ∀ r < rows, (base + r * D) % lanes = 0

theorem rms_shape {x : List Nat} {lead : List Nat} {D : Nat} (h : x = lead ++ [D]) :
    back x 1 = D ∧ x.take (x.length - 1) = lead := by
  subst h
  simp [back]

/-- C122, the part that holds: contiguous input, and on x86 every row aligned to the vector width. -/
theorem C122_rmsnorm_partial (s : Simd) (off : Bool) (eps : ℝ) (x : Ten ℝ) (W : Nat → ℝ) (lead : List Nat)
    (D base : Nat) (hx : x.Rows lead D) (hal : s.Aligned base D (numel lead)) :
    ∃ ss, rmsForward s off eps x W base = .ok ss ∧
      RowsAre ss lead D fun ix j => rmsNormAt off eps D (fun l => x.get (ix ++ [l])) W j := by
  obtain ⟨e1, e2⟩ := rms_shape hx.1
  have hspec : ∀ ix, InB lead ix → ∀ j < D, rmsNormAt off eps D (fun i => x.data (lin lead ix * D + i)) W j =
      rmsNormAt off eps D (fun l => x.get (ix ++ [l])) W j := by
    intro ix hix j hj
    exact rmsNormAt_congr (fun l hl => (hx.get hix hl).symm) hj
  unfold rmsForward
  simp only [e1, e2]
  cases s with
  | arm =>
    refine ⟨_, rfl, rows_are (fun r _ u hu => (armRmsRow_ok off eps D _ W (r * D)).1 u hu) fun ix hix j hj m => ?_⟩
    rw [(armRmsRow_ok off eps D _ W _).2 j hj m]
    exact hspec ix hix j hj
  | x86 lanes =>
    dsimp only
    have hrow : ∀ r ∈ List.range (numel lead), x86RmsRow lanes off eps D (fun i => x.data (r * D + i)) W (base + r * D) (r * D) =
        .ok ((List.range D).map fun i => (⟨r * D + i, fun _ => rmsNormAt off eps D (fun i => x.data (r * D + i)) W i⟩ : Upd ℝ)) := by
      intro r hr
      unfold x86RmsRow x86Squares
      rw [if_neg (by
        rintro ⟨h1, h2⟩
        exact h2 (hal h1 r (List.mem_range.mp hr)))]
      have hq := rmsOf_eq (eps := eps) (laneSum_eq lanes D fun i => x.data (r * D + i) * x.data (r * D + i))
      simp only [bind, Except.bind, hq]
      congr 1
      refine List.map_congr_left fun i _ => ?_
      congr 1
      funext y
      unfold rmsNormAt unit
      split <;> ring
    rw [mapM_ok hrow]
    refine ⟨_, rfl, rows_are (fun r _ u hu => mem_pass hu) fun ix hix j hj m => ?_⟩
    rw [run_pass (fn := fun i _ => rmsNormAt off eps D (fun i => x.data (lin lead ix * D + i)) W i) hj]
    exact hspec ix hix j hj

/-- C122 for the in-place option: every row of the tensor is replaced by its normalisation. -/
theorem C122_rmsnorm_inplace_partial (s : Simd) (off : Bool) (eps : ℝ) (W : Nat → ℝ) (lead : List Nat) (D base : Nat)
    (m : Nat → ℝ) (hal : s.Aligned base D (numel lead)) :
    ∃ ss, rmsForwardInplace s off eps (lead ++ [D]) W base m = .ok ss ∧ ∀ m', Exec ss m m' →
      (∀ ix, InB lead ix → ∀ j < D, (outRows (lead ++ [D]) m').get (ix ++ [j]) =
        rmsNormAt off eps D (fun l => (outRows (lead ++ [D]) m).get (ix ++ [l])) W j) ∧
      ∀ a, numel (lead ++ [D]) ≤ a → m' a = m a := by
  obtain ⟨e1, e2⟩ := rms_shape (rfl : lead ++ [D] = lead ++ [D])
  -- enough: the storage of every row
  have fin : ∀ (ss : List (List (List (Upd ℝ)))) (body : Nat → List (Upd ℝ)), ss = [(List.range (numel lead)).map body] →
      (∀ r < numel lead, ∀ u ∈ body r, r * D ≤ u.addr ∧ u.addr < r * D + D) →
      (∀ r < numel lead, ∀ j < D, run (body r) m (r * D + j) = rmsNormAt off eps D (fun i => m (r * D + i)) W j) →
      ∀ m', Exec ss m m' →
      (∀ ix, InB lead ix → ∀ j < D, (outRows (lead ++ [D]) m').get (ix ++ [j]) =
        rmsNormAt off eps D (fun l => (outRows (lead ++ [D]) m).get (ix ++ [l])) W j) ∧
      ∀ a, numel (lead ++ [D]) ≤ a → m' a = m a := by
    intro ss body hss hin hrun m' hex
    subst hss
    obtain ⟨h1, h2⟩ := hex.row hin
    refine ⟨fun ix hix j hj => ?_, fun a ha => h2 a (by rw [numel_append1] at ha; exact ha)⟩
    have hR : ∀ m, (outRows (lead ++ [D]) m : Ten ℝ).Rows lead D := fun m => ⟨rfl, rfl⟩
    rw [(hR m').get hix hj]
    show m' _ = _
    rw [h1 _ (lin_lt hix) j hj, hrun _ (lin_lt hix) j hj]
    exact rmsNormAt_congr (fun l hl => ((hR m).get hix hl).symm) hj
  unfold rmsForwardInplace
  simp only [e1, e2]
  cases s with
  | arm =>
    refine ⟨_, rfl, fin _ _ rfl ?_ ?_⟩
    · intro r _ u hu
      unfold armRmsInplace at hu
      rcases List.mem_append.mp hu with h | h
      · exact mem_pass h
      · exact mem_pass (fn := fun i y => y * unit off (W i)) h
    · intro r _ j hj
      have hsum : accum (accum 0 (D / 4) fun t => accum 0 4 fun v => m (r * D + (4 * t + v)) * m (r * D + (4 * t + v)))
          (D - 4 * (D / 4)) (fun i => m (r * D + (4 * (D / 4) + i)) * m (r * D + (4 * (D / 4) + i))) =
          ∑ i ∈ Finset.range D, m (r * D + i) * m (r * D + i) := by
        simp only [accum_eq, zero_add]
        have h4 := lanes_sum (D / 4) 4 fun i => m (r * D + i) * m (r * D + i)
        rw [Finset.sum_comm] at h4
        have h4' : ∑ t ∈ Finset.range (D / 4), ∑ v ∈ Finset.range 4, m (r * D + (4 * t + v)) * m (r * D + (4 * t + v)) =
            ∑ l ∈ Finset.range (4 * (D / 4)), m (r * D + l) * m (r * D + l) := by
          rw [Nat.mul_comm 4 (D / 4), ← h4]
          refine Finset.sum_congr rfl fun t _ => Finset.sum_congr rfl fun v _ => ?_
          rw [Nat.mul_comm 4 t]
        rw [h4', ← Finset.sum_range_add_sum_Ico _ (by omega : 4 * (D / 4) ≤ D), Finset.sum_Ico_eq_sum_range]
      unfold armRmsInplace
      simp only [hsum]
      rw [run_append, run_pass (fn := fun i y => y * unit off (W i)) hj,
        run_pass (fn := fun _ y => y * _) hj, rmsOf_eq (eps := eps) (f := fun i => m (r * D + i)) rfl]
      unfold rmsNormAt unit
      ring
  | x86 lanes =>
    dsimp only
    have hrow : ∀ r ∈ List.range (numel lead), x86RmsInplace lanes off eps D W (base + r * D) (r * D) m =
        .ok ((List.range D).map fun i => (⟨r * D + i, fun y => y * (1 / Real.sqrt ((∑ l ∈ Finset.range D,
          m (r * D + l) ^ 2) / D + eps)) * (if off then W i + 1 else W i)⟩ : Upd ℝ)) := by
      intro r hr
      unfold x86RmsInplace x86Squares
      rw [if_neg (by
        rintro ⟨h1, h2⟩
        exact h2 (hal h1 r (List.mem_range.mp hr)))]
      have hq := rmsOf_eq (eps := eps) (laneSum_eq lanes D fun i => m (r * D + i) * m (r * D + i))
      simp only [bind, Except.bind, hq]
      congr 1
      refine List.map_congr_left fun i _ => ?_
      congr 1
      funext y
      unfold unit
      split <;> ring
    rw [mapM_ok hrow]
    refine ⟨_, rfl, fin _ _ rfl (fun r _ u hu => mem_pass hu) ?_⟩
    intro r _ j hj
    rw [run_pass (fn := fun i y => y * (1 / Real.sqrt ((∑ l ∈ Finset.range D, m (r * D + l) ^ 2) / D + eps)) *
      (if off then W i + 1 else W i)) hj]
    unfold rmsNormAt
    ring

/-- The hypotheses are met: a batch of rows on arm with a tail, and on x86 with rows that are whole vectors. -/
example : (∃ x : Ten ℝ, x.Rows [2, 3] 37) ∧ Simd.Aligned .arm 1 37 6 ∧ Simd.Aligned (.x86 8) 0 64 6 :=
  ⟨⟨⟨[2, 3, 37], rowStr [2, 3, 37], fun _ => 1⟩, rfl, rfl⟩, trivial, fun _ r _ => by omega⟩

/-- C122 fails on x86: more than one row, at least one vector long and not a whole number of vectors, from an aligned
address: the sum of squares loads from an address that is not aligned to the vector. -/
theorem C122_rmsnorm_x86_violated (lanes : Nat) (hl : 0 < lanes) (off : Bool) (eps : ℝ) (x : Ten ℝ) (W : Nat → ℝ)
    (lead : List Nat) (D base : Nat) (hs : x.shape = lead ++ [D]) (hb : base % lanes = 0) (hR : 1 < numel lead) (hD : lanes ≤ D)
    (hn : D % lanes ≠ 0) : rmsForward (.x86 lanes) off eps x W base = .error .misaligned := by
  obtain ⟨e1, e2⟩ := rms_shape hs
  have h0 : 0 < D / lanes := Nat.div_pos hD hl
  unfold rmsForward
  simp only [e1, e2]
  rw [mapM_error (e := .misaligned)]
  · rfl
  · intro r _
    unfold x86RmsRow x86Squares
    split
    · exact Or.inl rfl
    · exact Or.inr ⟨_, rfl⟩
  · refine ⟨1, List.mem_range.mpr hR, ?_⟩
    unfold x86RmsRow x86Squares
    rw [if_pos ⟨h0, by rw [Nat.one_mul, Nat.add_mod, hb, Nat.zero_add, Nat.mod_mod]; exact hn⟩]
    rfl

/-- In place the same happens. -/
theorem C122_rmsnorm_inplace_x86_violated (lanes : Nat) (hl : 0 < lanes) (off : Bool) (eps : ℝ) (W : Nat → ℝ)
    (lead : List Nat) (D base : Nat) (m : Nat → ℝ) (hb : base % lanes = 0) (hR : 1 < numel lead) (hD : lanes ≤ D)
    (hn : D % lanes ≠ 0) : rmsForwardInplace (.x86 lanes) off eps (lead ++ [D]) W base m = .error .misaligned := by
  obtain ⟨e1, e2⟩ := rms_shape (rfl : lead ++ [D] = lead ++ [D])
  have h0 : 0 < D / lanes := Nat.div_pos hD hl
  unfold rmsForwardInplace
  simp only [e1, e2]
  rw [mapM_error (e := .misaligned)]
  · rfl
  · intro r _
    unfold x86RmsInplace x86Squares
    split
    · exact Or.inl rfl
    · exact Or.inr ⟨_, rfl⟩
  · refine ⟨1, List.mem_range.mpr hR, ?_⟩
    unfold x86RmsInplace x86Squares
    rw [if_pos ⟨h0, by rw [Nat.one_mul, Nat.add_mod, hb, Nat.zero_add, Nat.mod_mod]; exact hn⟩]
    rfl

/-- C122 fails for views: strides are ignored (the contiguity assert is commented out). -/
theorem C122_strides_ignored_violated (s : Simd) (off : Bool) (eps : ℝ) (x : Ten ℝ) (W : Nat → ℝ) (base : Nat) (st : List Nat) :
    rmsForward s off eps { x with stride := st } W base = rmsForward s off eps x W base := rfl

/-- Concretely: the transpose of `[[1, 0], [0, 0]]`-like storage `1, 1, 0, 0`: its first row is `(1, 0)`, but the storage
row `(1, 1)` is normalised. -/
theorem C122_transposed_view_violated (s : Simd) (hs : s.Aligned 0 2 2) : ∃ (x : Ten ℝ) (W : Nat → ℝ) (ss : _), x.shape = [2, 2] ∧
    x.stride = [1, 2] ∧ rmsForward s false 1 x W 0 = .ok ss ∧
    ¬ RowsAre ss [2] 2 fun ix j => rmsNormAt false 1 2 (fun l => x.get (ix ++ [l])) W j := by
  obtain ⟨x, hx⟩ : ∃ x : Ten ℝ, x = ⟨[2, 2], [2, 1], fun k => if k < 2 then 1 else 0⟩ := ⟨_, rfl⟩
  obtain ⟨ss, h1, h2⟩ := C122_rmsnorm_partial s false 1 x (fun _ => 1) [2] 2 0 (by subst hx; exact ⟨rfl, rfl⟩) hs
  refine ⟨{ x with stride := [1, 2] }, fun _ => 1, ss, by subst hx; rfl, rfl, h1, ?_⟩
  intro hc
  obtain ⟨m', hex⟩ := Exec.exists ss (fun _ => (0 : ℝ))
  have e1 := (h2 _ m' hex).1 [0] ⟨by omega, trivial⟩ 1 (by omega)
  have e2 := (hc _ m' hex).1 [0] ⟨by omega, trivial⟩ 1 (by omega)
  rw [e1] at e2
  subst hx
  simp [rmsNormAt, Ten.get, pos] at e2
  rw [Real.sqrt_eq_zero'] at e2
  have h0 : (0 : ℝ) ≤ (((Finset.range 2).filter fun x => x ≤ 1).card : ℝ) := Nat.cast_nonneg _
  linarith

/-! ### LayerNorm -/

theorem layerNormAt_congr {eps : ℝ} {N : Nat} {f g : Nat → ℝ} {γ β : Option (Nat → ℝ)} (h : ∀ l < N, f l = g l) {j : Nat}
    (hj : j < N) : layerNormAt eps N f γ β j = layerNormAt eps N g γ β j := by
  have hm : meanOf N f = meanOf N g := by
    unfold meanOf
    rw [Finset.sum_congr rfl fun l hl => h l (Finset.mem_range.mp hl)]
  have hv : meanOf N (fun l => (f l - meanOf N f) ^ 2) = meanOf N (fun l => (g l - meanOf N g) ^ 2) := by
    rw [hm]
    have hs : ∀ c : ℝ, ∑ l ∈ Finset.range N, (f l - c) ^ 2 = ∑ l ∈ Finset.range N, (g l - c) ^ 2 := fun c =>
      Finset.sum_congr rfl fun l hl => by rw [h l (Finset.mem_range.mp hl)]
    show (∑ l ∈ Finset.range N, (f l - meanOf N g) ^ 2) / (N : ℝ) = _
    rw [hs]
    rfl
  unfold layerNormAt
  rw [hv, hm, h j hj]

theorem layerNormRow_ok (eps : ℝ) (N : Nat) (X : Nat → ℝ) (γ β : Option (Nat → ℝ)) (c : Nat) :
    layerNormRow eps N X γ β c = (List.range N).map fun i => (⟨c + i, fun _ => layerNormAt eps N X γ β i⟩ : Upd ℝ) := by
  unfold layerNormRow
  simp only [laneSum_eq]
  refine List.map_congr_left fun i _ => ?_
  unfold Upd.put
  congr 1
  funext _
  have hv : (∑ i ∈ Finset.range N, (X i - (∑ i ∈ Finset.range N, X i) / N) * (X i - (∑ i ∈ Finset.range N, X i) / N)) / N =
      meanOf N fun l => (X l - meanOf N X) ^ 2 := by
    unfold meanOf
    congr 1
    exact Finset.sum_congr rfl fun l _ => by ring
  rw [hv]
  unfold layerNormAt
  show _ = (X i - (∑ i ∈ Finset.range N, X i) / N) / _ * _ + _
  generalize (meanOf N fun l => (X l - meanOf N X) ^ 2) = v
  generalize (∑ i ∈ Finset.range N, X i) / (N : ℝ) = mu
  generalize Real.sqrt (v + eps) = r
  cases γ <;> cases β <;> simp only [Option.elim] <;> ring

theorem numel_append' (a b : List Nat) : numel (a ++ b) = numel a * numel b := by
  induction a with
  | nil => simp [numel]
  | cons d a ih => simp only [List.cons_append, numel, ih]; ring

theorem lin_append' : ∀ {a i : List Nat} (b j : List Nat) (_ : InB a i), lin (a ++ b) (i ++ j) = lin a i * numel b + lin b j
  | [], [], b, j, _ => by simp [lin]
  | d :: a, x :: i, b, j, h => by
    simp only [List.cons_append, lin, lin_append' b j h.2, numel_append']
    ring

theorem inB_append' : ∀ {a i b j : List Nat} (_ : InB a i) (_ : InB b j), InB (a ++ b) (i ++ j)
  | [], [], _, _, _, hj => hj
  | _ :: _, _ :: _, _, _, h, hj => ⟨h.1, inB_append' h.2 hj⟩

/-- C123, the part that holds (arm): for an input of shape `lead ++ ns`, where `ns` is the normalised shape, mean and variance
are taken over the trailing `ns` dimensions. -/
theorem C123_layernorm_partial (ns lead : List Nat) (eps : ℝ) (x : Ten ℝ) (γ β : Option (Nat → ℝ))
    (hs : x.shape = lead ++ ns) (hst : x.stride = rowStr x.shape) (hN : 0 < numel ns) :
    ∃ ss, layerNormForward .arm ns eps x γ β = .ok ss ∧ ∀ m m' : Nat → ℝ, Exec ss m m' →
      (∀ ix jx, InB lead ix → InB ns jx → (outRows (lead ++ ns) m').get (ix ++ jx) =
        layerNormAt eps (numel ns) (fun l => x.get (ix ++ coords ns l)) γ β (lin ns jx)) ∧
      ∀ a, numel (lead ++ ns) ≤ a → m' a = m a := by
  unfold layerNormForward
  rw [if_neg (by simpa using hst)]
  simp only [hs, numel_append']
  rw [if_neg (by omega), if_neg (by simp), Nat.mul_div_cancel _ hN]
  refine ⟨_, rfl, ?_⟩
  intro m m' hex
  simp only [layerNormRow_ok] at hex
  obtain ⟨h1, h2⟩ := hex.row (fun r _ u hu => mem_pass hu)
  refine ⟨fun ix jx hix hjx => ?_, fun a ha => h2 a ha⟩
  have hj := lin_lt hjx
  have hg : ∀ {t : Ten ℝ}, t.shape = lead ++ ns → t.stride = rowStr t.shape → ∀ {jx}, InB ns jx →
      t.get (ix ++ jx) = t.data (lin lead ix * numel ns + lin ns jx) := by
    intro t h h' jx hjx
    rw [Ten.get, h', h, pos_rowStr (inB_append' hix hjx), lin_append' _ _ hix]
  rw [hg (t := outRows (lead ++ ns) m') rfl rfl hjx]
  show m' _ = _
  rw [h1 _ (lin_lt hix) _ hj, run_pass (fn := fun i _ => layerNormAt eps (numel ns) _ γ β i) hj]
  refine layerNormAt_congr (fun l hl => ?_) hj
  obtain ⟨c1, c2⟩ := coords_spec hl
  rw [hg hs hst c1, c2]

/-- The hypotheses are met: `LayerNorm([3, 5])` on a batch. -/
example : ∃ x : Ten ℝ, x.shape = [2, 4] ++ [3, 5] ∧ x.stride = rowStr x.shape ∧ 0 < numel [3, 5] :=
  ⟨⟨[2, 4, 3, 5], rowStr [2, 4, 3, 5], fun k => k⟩, rfl, rfl, by decide⟩

/-- C123 fails on x86: the output stays as it was allocated. -/
theorem C123_x86_violated (lanes : Nat) (ns lead : List Nat) (eps : ℝ) (x : Ten ℝ) (γ β : Option (Nat → ℝ))
    (hs : x.shape = lead ++ ns) (hst : x.stride = rowStr x.shape) (hN : 0 < numel ns) :
    ∃ ss, layerNormForward (.x86 lanes) ns eps x γ β = .ok ss ∧ ∀ m m' : Nat → ℝ, Exec ss m m' → m' = m := by
  unfold layerNormForward
  rw [if_neg (by simpa using hst)]
  simp only [hs, numel_append']
  rw [if_neg (by omega), if_neg (by simp)]
  refine ⟨_, rfl, fun m m' hex => ?_⟩
  funext a
  refine hex.other a ?_
  intro js hjs j hj u hu
  rw [List.mem_singleton.mp hjs] at hj
  obtain ⟨_, _, rfl⟩ := List.mem_map.mp hj
  cases hu

/-- Views are refused, not computed wrongly. -/
theorem C123_view_refused (s : Simd) (ns : List Nat) (eps : ℝ) (x : Ten ℝ) (γ β : Option (Nat → ℝ))
    (h : x.stride ≠ rowStr x.shape) : layerNormForward s ns eps x γ β = .error .assertion := by
  unfold layerNormForward
  rw [if_pos h]

/-- C123 fails: a normalised shape that is not the trailing shape of the input is accepted whenever the sizes divide, and
groups are then cut across its dimensions. -/
theorem C123_shape_unchecked_violated : ∃ (x : Ten ℝ) (ss : _), x.shape = [2, 3] ∧ x.stride = rowStr x.shape ∧
    layerNormForward .arm [2] 0 x none none = .ok ss ∧ ∀ m m' : Nat → ℝ, Exec ss m m' →
      (outRows [2, 3] m').get [0, 2] = layerNormAt 0 2 (fun l => if l = 0 then x.get [0, 2] else x.get [1, 0]) none none 0 := by
  refine ⟨⟨[2, 3], [3, 1], fun k => k⟩, _, rfl, rfl, rfl, ?_⟩
  intro m m' hex
  simp only [layerNormRow_ok] at hex
  have h1 := (hex.row (D := 2) (fun r _ u hu => mem_pass hu)).1 1 (by decide) 0 (by decide)
  rw [run_pass (fn := fun i _ => layerNormAt 0 (numel [2]) _ none none i) (by decide)] at h1
  have e : (outRows [2, 3] m').get [0, 2] = m' (1 * 2 + 0) := rfl
  rw [e, h1]
  refine layerNormAt_congr (N := 2) (fun l hl => ?_) (by decide)
  interval_cases l <;> norm_num [Ten.get, pos, numel]

end Verif.Kern
