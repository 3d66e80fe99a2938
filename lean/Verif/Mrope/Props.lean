import Verif.Mrope.Lemmas

namespace Verif.Mrope

variable {R : Type} [CommRing R]

/-- **C184**, the definition: `apply_mrope` turns pair `j` of every head by row `pos (axis j)` of the cache and keeps the numbers past the
rotary part; it raises exactly when the consecutive sections do not add up to the number of pairs. -/
theorem C184_reference (inter : Bool) (sec : Nat × Nat × Nat) (half : Nat) (cache : Nat → List R) (pos : Nat → Nat) (x : List R)
    (hc : ∀ i, (cache (pos i)).length = 2 * half) (hx : 2 * half ≤ x.length) :
    ((inter = false ∧ sec.1 + sec.2.1 + sec.2.2 ≠ half) → applyMrope inter sec (2 * half) cache pos x = none) ∧
    (¬ (inter = false ∧ sec.1 + sec.2.1 + sec.2.2 ≠ half) →
      ∃ y, applyMrope inter sec (2 * half) cache pos x = some y ∧ y.length = x.length ∧
        ∀ d < x.length, y.getD d 0 = rotated half (fun j => (cache (pos (axis inter sec j))).getD j 0)
          (fun j => (cache (pos (axis inter sec j))).getD (half + j) 0) (fun d => x.getD d 0) d) := by
  constructor
  · rintro ⟨rfl, h⟩
    have hl : ((cache (pos 0)).take (2 * half / 2)).length = half := by simp [hc]; omega
    have hn : merge false sec (fun i => (cache (pos i)).take (2 * half / 2)) = none := by
      simp only [merge, Bool.false_eq_true, if_false, hl, if_neg h]
    simp only [applyMrope, hn, Option.bind_eq_bind, Option.bind_none]
  · intro h
    refine reference inter sec half cache pos x hc hx fun hi => ?_
    by_contra g
    exact h ⟨hi, g⟩

/-- **C184**, the fused kernel: whatever the number of tokens and heads, the head size, the layout, the sections and the order in which
the programs run, every number ends up turned the same way; nothing outside the tensor changes. -/
theorem C184_fused (n hd half T : Nat) (sec : Nat × Nat × Nat) (inter : Bool) (cache : Nat → R) (P : Nat → Nat) (ps : Nat) (m : Nat → R)
    (pids : List Nat) (hp : pids.Perm (List.range T)) (hr : 2 * half ≤ hd) :
    (∀ t < T, ∀ h < n, ∀ d < hd, launch (cfgOf n hd (2 * half) sec inter) cache P ps m pids (t * (n * hd) + h * hd + d) =
      rotated half (fun j => cache (P (axis inter sec j * ps + t) * (2 * half) + j))
        (fun j => cache (P (axis inter sec j * ps + t) * (2 * half) + (half + j))) (fun d => m (t * (n * hd) + h * hd + d)) d) ∧
    ∀ a, T * (n * hd) ≤ a → launch (cfgOf n hd (2 * half) sec inter) cache P ps m pids a = m a := by
  have h1 : (cfgOf n hd (2 * half) sec inter).n ≤ (cfgOf n hd (2 * half) sec inter).padN := le_nextPow2 n
  have h2 : (cfgOf n hd (2 * half) sec inter).rd ≤ (cfgOf n hd (2 * half) sec inter).padHd := hr.trans (le_nextPow2 hd)
  constructor
  · intro t ht h hh d hd'
    refine (launch_get _ cache P ps half rfl h1 h2 hr pids (hp.nodup_iff.2 List.nodup_range) m t (hp.mem_iff.2 (List.mem_range.2 ht)) h d hh hd').trans ?_
    exact rotated_congr half _ _ _ _ _ _ d hd hd' hr (fun _ _ => rfl) fun j hj => ⟨cosRow_eq _ _ _ _ _ half j rfl hj, sinRow_eq _ _ _ _ _ half j rfl hj⟩
  · intro a ha
    refine launch_out _ cache P ps half rfl h1 h2 hr pids m a fun p hp' => Or.inr ?_
    have hp' : p < T := List.mem_range.1 (hp.mem_iff.1 hp')
    have : (p + 1) * (n * hd) ≤ T * (n * hd) := Nat.mul_le_mul_right _ hp'
    rw [Nat.succ_mul] at this
    exact this.trans ha

/-- **C184**: the in-place kernel and `apply_mrope` give the same numbers, head by head and token by token. -/
theorem C184_fused_eq (n hd half T : Nat) (sec : Nat × Nat × Nat) (inter : Bool) (cache : Nat → R) (P : Nat → Nat) (ps : Nat) (m : Nat → R)
    (pids : List Nat) (hp : pids.Perm (List.range T)) (hr : 2 * half ≤ hd) (hs : ¬ (inter = false ∧ sec.1 + sec.2.1 + sec.2.2 ≠ half))
    (t : Nat) (ht : t < T) (h : Nat) (hh : h < n) :
    applyMrope inter sec (2 * half) (fun p => (List.range (2 * half)).map fun j => cache (p * (2 * half) + j)) (fun c => P (c * ps + t))
        ((List.range hd).map fun d => m (t * (n * hd) + h * hd + d)) =
      some ((List.range hd).map fun d => launch (cfgOf n hd (2 * half) sec inter) cache P ps m pids (t * (n * hd) + h * hd + d)) := by
  obtain ⟨y, h1, h2, h3⟩ := (C184_reference inter sec half (fun p => (List.range (2 * half)).map fun j => cache (p * (2 * half) + j))
    (fun c => P (c * ps + t)) ((List.range hd).map fun d => m (t * (n * hd) + h * hd + d)) (by simp) (by simpa using hr)).2 hs
  rw [h1]
  congr 1
  simp only [List.length_map, List.length_range] at h2 h3
  apply List.ext_getElem (by simp [h2])
  intro d g1 g2
  have hd' : d < hd := by simpa using g2
  rw [← List.getD_eq_getElem y 0 g1, h3 d hd', List.getElem_map, List.getElem_range,
    (C184_fused n hd half T sec inter cache P ps m pids hp hr).1 t ht h hh d hd']
  refine rotated_congr half _ _ _ _ _ _ d hd hd' hr (fun e he => ?_) fun j hj => ⟨?_, ?_⟩
  · rw [getD_map_range, if_pos he]
  · rw [getD_map_range, if_pos (by omega)]
  · rw [getD_map_range, if_pos (by omega)]

/-- **C184**: a token whose three positions agree is turned like text, whatever the sections and the layout; so are all tokens when the
positions are one-dimensional (stride 0). -/
theorem C184_text (n hd half T : Nat) (sec : Nat × Nat × Nat) (inter : Bool) (cache : Nat → R) (P : Nat → Nat) (ps : Nat) (m : Nat → R)
    (pids : List Nat) (hp : pids.Perm (List.range T)) (hr : 2 * half ≤ hd) (t : Nat) (ht : t < T)
    (h3 : ps = 0 ∨ P (ps + t) = P t ∧ P (2 * ps + t) = P t) (h : Nat) (hh : h < n) (d : Nat) (hd' : d < hd) :
    launch (cfgOf n hd (2 * half) sec inter) cache P ps m pids (t * (n * hd) + h * hd + d) =
      rotated half (fun j => cache (P t * (2 * half) + j)) (fun j => cache (P t * (2 * half) + (half + j)))
        (fun d => m (t * (n * hd) + h * hd + d)) d := by
  have e : ∀ j, P (axis inter sec j * ps + t) = P t := by
    intro j
    rcases h3 with rfl | ⟨h1, h2⟩
    · simp
    · have : axis inter sec j = 0 ∨ axis inter sec j = 1 ∨ axis inter sec j = 2 := by
        unfold axis; split_ifs <;> simp
      rcases this with g | g | g <;> rw [g] <;> simp [h1, h2]
  rw [(C184_fused n hd half T sec inter cache P ps m pids hp hr).1 t ht h hh d hd']
  simp only [e]

theorem buildRow_cos (half : Nat) (freq : Nat → ℝ) (p j : Nat) (hj : j < half) : (buildRow half freq p).getD j 0 = Real.cos (p * freq j) := by
  rw [buildRow, getD_append, if_pos (by simpa using hj), getD_map_range, if_pos hj]

theorem buildRow_sin (half : Nat) (freq : Nat → ℝ) (p j : Nat) (hj : j < half) : (buildRow half freq p).getD (half + j) 0 = Real.sin (p * freq j) := by
  rw [buildRow, getD_append, if_neg (by simp), getD_map_range]
  simp [hj]

theorem sum_pairs (half n : Nat) (hn : 2 * half ≤ n) (f : Nat → ℝ) :
    ∑ d ∈ Finset.range n, f d = ∑ j ∈ Finset.range half, (f j + f (j + half)) + ∑ r ∈ Finset.range (n - 2 * half), f (2 * half + r) := by
  obtain ⟨r, rfl⟩ := Nat.exists_eq_add_of_le hn
  rw [Finset.sum_range_add, show 2 * half = half + half by omega, Finset.sum_range_add, Finset.sum_add_distrib, show half + half + r - (half + half) = r by omega]
  congr 2
  exact Finset.sum_congr rfl fun j _ => by rw [Nat.add_comm]

/-- **C184**: with the cache the model builds, the dot product of a query and a key depends only on how far apart their positions are in
each of the three dimensions: moving both by the same amounts changes nothing.  (In particular, with `x = x'` and equal positions,
the length of a vector is kept.) -/
theorem C184_relative (inter : Bool) (sec : Nat × Nat × Nat) (half : Nat) (freq : Nat → ℝ) (p p' Δ : Nat → Nat) (x x' : List ℝ)
    (hx : 2 * half ≤ x.length) (hx' : x'.length = x.length) (hs : ¬ (inter = false ∧ sec.1 + sec.2.1 + sec.2.2 ≠ half)) :
    ∃ y y' z z', applyMrope inter sec (2 * half) (buildRow half freq) p x = some y
      ∧ applyMrope inter sec (2 * half) (buildRow half freq) p' x' = some y'
      ∧ applyMrope inter sec (2 * half) (buildRow half freq) (fun c => p c + Δ c) x = some z
      ∧ applyMrope inter sec (2 * half) (buildRow half freq) (fun c => p' c + Δ c) x' = some z'
      ∧ ∑ d ∈ Finset.range x.length, z.getD d 0 * z'.getD d 0 = ∑ d ∈ Finset.range x.length, y.getD d 0 * y'.getD d 0 := by
  have hl : ∀ p, (buildRow half freq p).length = 2 * half := by intro p; simp [buildRow]; omega
  obtain ⟨y, a1, -, a3⟩ := (C184_reference inter sec half (buildRow half freq) p x (fun _ => hl _) hx).2 hs
  obtain ⟨y', b1, -, b3⟩ := (C184_reference inter sec half (buildRow half freq) p' x' (fun _ => hl _) (by omega)).2 hs
  obtain ⟨z, c1, -, c3⟩ := (C184_reference inter sec half (buildRow half freq) (fun c => p c + Δ c) x (fun _ => hl _) hx).2 hs
  obtain ⟨z', d1, -, d3⟩ := (C184_reference inter sec half (buildRow half freq) (fun c => p' c + Δ c) x' (fun _ => hl _) (by omega)).2 hs
  refine ⟨y, y', z, z', a1, b1, c1, d1, ?_⟩
  rw [sum_pairs half _ hx, sum_pairs half _ hx]
  congr 1
  · refine Finset.sum_congr rfl fun j hj => ?_
    have hj := Finset.mem_range.1 hj
    rw [a3 j (by omega), b3 j (by omega), c3 j (by omega), d3 j (by omega), a3 (j + half) (by omega), b3 (j + half) (by omega),
      c3 (j + half) (by omega), d3 (j + half) (by omega)]
    simp only [rotated, if_pos hj, if_neg (show ¬ j + half < half by omega), if_pos (show j + half < 2 * half by omega), Nat.add_sub_cancel,
      buildRow_cos half freq _ j hj, buildRow_sin half freq _ j hj]
    push_cast
    generalize axis inter sec j = a
    have e1 := Real.cos_sub ((p a + Δ a) * freq j) ((p' a + Δ a) * freq j)
    have e2 := Real.cos_sub (p a * freq j) (p' a * freq j)
    have e3 := Real.sin_sub ((p a + Δ a) * freq j) ((p' a + Δ a) * freq j)
    have e4 := Real.sin_sub (p a * freq j) (p' a * freq j)
    rw [show ((p a : ℝ) + Δ a) * freq j - (p' a + Δ a) * freq j = p a * freq j - p' a * freq j by ring] at e1 e3
    rw [e1] at e2
    rw [e3] at e4
    linear_combination (x.getD j 0 * x'.getD j 0 + x.getD (j + half) 0 * x'.getD (j + half) 0) * e2
      + (x.getD j 0 * x'.getD (j + half) 0 - x.getD (j + half) 0 * x'.getD j 0) * e4
  · refine Finset.sum_congr rfl fun r hr => ?_
    have hr := Finset.mem_range.1 hr
    rw [a3 _ (by omega), b3 _ (by omega), c3 _ (by omega), d3 _ (by omega)]
    simp only [rotated, if_neg (show ¬ 2 * half + r < half by omega), if_neg (show ¬ 2 * half + r < 2 * half by omega)]

/-- **C184**: turning keeps the length of every pair. -/
theorem C184_norm (inter : Bool) (sec : Nat × Nat × Nat) (half : Nat) (freq : Nat → ℝ) (p : Nat → Nat) (x : List ℝ)
    (hx : 2 * half ≤ x.length) (hs : ¬ (inter = false ∧ sec.1 + sec.2.1 + sec.2.2 ≠ half)) :
    ∃ y, applyMrope inter sec (2 * half) (buildRow half freq) p x = some y ∧
      (∀ j < half, y.getD j 0 ^ 2 + y.getD (j + half) 0 ^ 2 = x.getD j 0 ^ 2 + x.getD (j + half) 0 ^ 2) ∧
      ∀ d, 2 * half ≤ d → d < x.length → y.getD d 0 = x.getD d 0 := by
  have hl : ∀ p, (buildRow half freq p).length = 2 * half := by intro p; simp [buildRow]; omega
  obtain ⟨y, a1, -, a3⟩ := (C184_reference inter sec half (buildRow half freq) p x (fun _ => hl _) hx).2 hs
  refine ⟨y, a1, fun j hj => ?_, fun d h1 h2 => ?_⟩
  · rw [a3 j (by omega), a3 (j + half) (by omega)]
    simp only [rotated, if_pos hj, if_neg (show ¬ j + half < half by omega), if_pos (show j + half < 2 * half by omega), Nat.add_sub_cancel,
      buildRow_cos half freq _ j hj, buildRow_sin half freq _ j hj]
    have := Real.sin_sq_add_cos_sq (p (axis inter sec j) * freq j)
    linear_combination (x.getD j 0 ^ 2 + x.getD (j + half) 0 ^ 2) * this
  · rw [a3 d h2, rotated, if_neg (by omega), if_neg (by omega)]

/-- **C184**: all reads of the cache stay inside its `maxPos` rows when the padded head size is the rotary size (a power of two, the whole
head turned), or the layout is not interleaved and the first two sections fit. -/
theorem C184_reads_partial (n hd half : Nat) (sec : Nat × Nat × Nat) (inter : Bool) (P : Nat → Nat) (ps maxPos pid : Nat)
    (hP : ∀ c < 3, P (c * ps + pid) < maxPos) (h : nextPow2 hd = 2 * half ∨ inter = false ∧ sec.1 + sec.2.1 ≤ half) :
    ∀ a ∈ cacheReads (cfgOf n hd (2 * half) sec inter) P ps pid, a < maxPos * (2 * half) := by
  have key : ∀ c < 3, ∀ j < half, P (c * ps + pid) * (2 * half) + half + j < maxPos * (2 * half) := by
    intro c hc j hj
    have : (P (c * ps + pid) + 1) * (2 * half) ≤ maxPos * (2 * half) := Nat.mul_le_mul_right _ (hP c hc)
    rw [Nat.succ_mul] at this; omega
  have hm : ∀ j < nextPow2 hd / 2, tMask (cfgOf n hd (2 * half) sec inter) j = true ∨ hMask (cfgOf n hd (2 * half) sec inter) j = true
      ∨ wMask (cfgOf n hd (2 * half) sec inter) j = true → j < half := by
    intro j hj hm
    rcases h with h | ⟨rfl, h⟩
    · omega
    · have : j < sec.1 ∨ j < sec.1 + sec.2.1 ∨ j < 2 * half / 2 := masks_flat _ j rfl hm
      omega
  intro a ha
  simp only [cacheReads, List.mem_flatMap, List.mem_range, List.mem_append] at ha
  obtain ⟨j, hj, ha⟩ := ha
  have hj2 := hm j hj
  have hh : (cfgOf n hd (2 * half) sec inter).rd / 2 = half := by simp only [cfgOf]; omega
  rw [hh] at ha
  rcases ha with (ha | ha) | ha
  · split_ifs at ha with g
    · have hj3 := hj2 (Or.inl g)
      have := key 0 (by omega) j hj3
      simp only [posAt, cfgOf, List.mem_cons, List.not_mem_nil, or_false] at ha
      omega
    · cases ha
  · split_ifs at ha with g
    · have hj3 := hj2 (Or.inr (Or.inl g))
      have := key 1 (by omega) j hj3
      simp only [posAt, cfgOf, List.mem_cons, List.not_mem_nil, or_false] at ha
      omega
    · cases ha
  · split_ifs at ha with g
    · have hj3 := hj2 (Or.inr (Or.inr g))
      have := key 2 (by omega) j hj3
      simp only [posAt, cfgOf, List.mem_cons, List.not_mem_nil, or_false] at ha
      omega
    · cases ha

/-- **C184 is violated** otherwise: in the interleaved layout, whenever the padded head has more pairs than are turned (a head size
that is no power of two, or a partial rotary factor), a token at the last position makes the kernel read past the end of the cache. -/
theorem C184_reads_violated (n hd half : Nat) (sec : Nat × Nat × Nat) (P : Nat → Nat) (ps maxPos pid : Nat) (h : half < nextPow2 hd / 2)
    (hP : P pid + 1 = maxPos) (hs : 3 * sec.2.1 ≤ half ∧ 3 * sec.2.2 ≤ half) :
    ∃ a ∈ cacheReads (cfgOf n hd (2 * half) sec true) P ps pid, maxPos * (2 * half) ≤ a := by
  refine ⟨P pid * (2 * half) + half + half, ?_, ?_⟩
  · simp only [cacheReads, List.mem_flatMap, List.mem_range, List.mem_append]
    refine ⟨half, h, Or.inl (Or.inl ?_)⟩
    have g : tMask (cfgOf n hd (2 * half) sec true) half = true := tMask_past _ half rfl hs
    rw [if_pos g]
    simp [posAt, cfgOf]
  · rw [← hP, Nat.succ_mul]; omega

/-- The hypotheses are met: three tokens, two heads of eight numbers, six of them turned, programs in the order 2, 0, 1. -/
example : [2, 0, 1].Perm (List.range 3) ∧ 2 * 3 ≤ 8 ∧
    launch (R := ℤ) (cfgOf 2 8 6 (1, 1, 1) true) (fun a => a) (fun a => a % 4) 3 (fun a => a) [2, 0, 1] (1 * 16 + 1 * 8 + 1) =
      25 * 1 - 28 * 4 := by decide

/-- A head of 80 numbers, all turned: the padding to 128 makes the last position read past the cache. -/
example : (40 : Nat) < nextPow2 80 / 2 := by
  have : nextPow2 80 = 2 ^ 7 := by
    unfold nextPow2
    exact congrArg _ <| le_antisymm (Nat.clog_le_of_le_pow (by norm_num)) ((Nat.lt_clog_iff_pow_lt (by norm_num)).2 (by norm_num))
  rw [this]; norm_num

end Verif.Mrope
