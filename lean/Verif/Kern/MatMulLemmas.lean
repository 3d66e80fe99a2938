import Verif.Kern.MatMul

namespace Verif.Kern

open Verif.Tensor (numel InB lin lin_lt)

variable {α : Type} [CommRing α]

/-- The builds whose `float32` dot product is compiled. -/
def Arch.dots : Arch → Bool
  | .avx512 => true
  | .avx2 => true
  | .neon => true
  | .avx => false
  | .sse => false

theorem blocked_sum (step n : Nat) (hs : 0 < step) (f : Nat → α) :
    accum (accum 0 step fun r => accum 0 (n / step) fun t => f (t * step + r)) (n - n / step * step)
      (fun d => f (n / step * step + d)) = ∑ l ∈ Finset.range n, f l := by
  rw [accum_eq, accum_eq, zero_add]
  have h1 : ∑ l ∈ Finset.range step, accum 0 (n / step) (fun t => f (t * step + l)) =
      ∑ l ∈ Finset.range (n / step * step), f l := by
    rw [← lanes_sum]
    refine Finset.sum_congr rfl fun r _ => ?_
    rw [accum_eq, zero_add]
  rw [h1, ← Finset.sum_range_add_sum_Ico _ (Nat.div_mul_le_self n step), Finset.sum_Ico_eq_sum_range]

theorem vecDot_eq {a : Arch} (ha : a.dots = true) (n : Nat) (x y : Nat → α) :
    vecDot a n x y = ∑ l ∈ Finset.range n, x l * y l := by
  cases a <;> simp [Arch.dots] at ha
  all_goals exact blocked_sum _ _ (by omega) fun l => x l * y l

theorem vecDot_zero {a : Arch} (ha : a.dots = false) (n : Nat) (x y : Nat → α) : vecDot a n x y = 0 := by
  cases a <;> simp [Arch.dots] at ha <;> rfl

/-- Batches and columns written by the last loop of `ggml::mat_mul`. -/
theorem vecDotBody_fills (a : Arch) (s0 s1 : Ten α) (M K N batch ds : Nat) (dstStride : List Nat) (t1 : Bool)
    (bias : Option (Nat → α)) (hM : 0 < M) (hds : batch ≤ 1 ∨ M * N ≤ ds)
    (hd : batch ≤ 1 ∨ dstStride.length > 2 ∧ back dstStride 3 = ds) :
    Fills [(List.range (batch * M * (N / 16 + 1))).map (vecDotBody a s0 s1 M K N batch dstStride t1 bias)] batch M N ds
      fun b i j => vecDot a K (fun l => s1.data ((if t1 then j * back s1.stride 2 else j) + l))
        (fun l => s0.data ((if batch > 1 then b * back s0.stride 3 else 0) + i * back s0.stride 2 + l))
        + bias.elim 0 fun β => β j := by
  intro m m' hex
  obtain ⟨B, hB⟩ : ∃ B, N / 16 + 1 = B := ⟨_, rfl⟩
  have hBp : 0 < B := by omega
  have hMB : 0 < M * B := Nat.mul_pos hM hBp
  rw [hB] at hex
  have hex' : Exec ((List.range 1).map fun _ => (List.range (batch * M * B)).map
      (vecDotBody a s0 s1 M K N batch dstStride t1 bias)) m m' := hex
  have hbt : ∀ t < batch * M * B, t / (M * B) < batch ∧ t % (M * B) / B < M := by
    intro t ht
    refine ⟨Nat.div_lt_of_lt_mul (by rw [Nat.mul_assoc, Nat.mul_comm] at ht; exact ht), ?_⟩
    exact Nat.div_lt_of_lt_mul (by rw [Nat.mul_comm B M]; exact Nat.mod_lt _ hMB)
  have hoff : ∀ b, b < batch → (if dstStride.length > 2 then b * back dstStride 3 else 0) = b * ds := by
    intro b hb
    rcases hd with h | h
    · obtain rfl : b = 0 := by omega
      simp
    · rw [if_pos h.1, h.2]
  have haddr : ∀ t < batch * M * B, ∀ u ∈ vecDotBody a s0 s1 M K N batch dstStride t1 bias t,
      ∃ n < N, n / 16 = t % (M * B) % B ∧ u.addr = t / (M * B) * ds + t % (M * B) / B * N + n := by
    intro t ht u hu
    unfold vecDotBody at hu
    rw [hB] at hu
    obtain ⟨n, hn, rfl⟩ := List.mem_map.mp hu
    rw [List.mem_range'] at hn
    obtain ⟨k, hk, rfl⟩ := hn
    refine ⟨t % (M * B) % B * 16 + 1 * k, by omega, by omega, ?_⟩
    simp only [Upd.put]
    rw [hoff _ (hbt t ht).1]
    omega
  constructor
  · intro b hb i hi j hj
    have hj16 : j / 16 < B := by omega
    obtain ⟨t, hte⟩ : ∃ t, t = b * (M * B) + (i * B + j / 16) := ⟨_, rfl⟩
    have hlt : i * B + j / 16 < M * B := by
      have : (i + 1) * B ≤ M * B := Nat.mul_le_mul_right _ hi
      rw [Nat.add_mul] at this; omega
    have ht : t < batch * M * B := by
      have : (b + 1) * (M * B) ≤ batch * (M * B) := Nat.mul_le_mul_right _ hb
      rw [Nat.add_mul] at this
      rw [Nat.mul_assoc]; omega
    have e1 : t / (M * B) = b := by
      rw [hte, Nat.mul_comm, Nat.mul_add_div hMB, Nat.div_eq_of_lt hlt, Nat.add_zero]
    have e2 : t % (M * B) = i * B + j / 16 := by
      rw [hte, Nat.mul_comm, Nat.mul_add_mod, Nat.mod_eq_of_lt hlt]
    have e3 : t % (M * B) / B = i := by
      rw [e2, Nat.mul_comm, Nat.mul_add_div hBp, Nat.div_eq_of_lt hj16, Nat.add_zero]
    have e4 : t % (M * B) % B = j / 16 := by
      rw [e2, Nat.mul_comm, Nat.mul_add_mod, Nat.mod_eq_of_lt hj16]
    have hrun := hex'.grid (job := fun _ => vecDotBody a s0 s1 M K N batch dstStride t1 bias)
      (b * ds + i * N + j) 0 t (by omega) ht (by
        intro _ _ t' ht' hne u hu he
        obtain ⟨n, hn, hnb, ha⟩ := haddr t' ht' u hu
        have hcell : t' / (M * B) = b ∧ t' % (M * B) / B = i ∧ n = j := by
          rcases hds with h | h
          · have hb' := (hbt t' ht').1
            have e : t' / (M * B) = b := by
              generalize t' / (M * B) = q at hb'
              omega
            rw [e] at ha
            have := cell_inj (M := M) (N := N) (ds := M * N) (b := 0) (i := t' % (M * B) / B) (j := n) (b' := 0) (i' := i)
              (j' := j) (Nat.le_refl _) (hbt t' ht').2 hn hi hj (by omega)
            exact ⟨e, this.2.1, this.2.2⟩
          · exact cell_inj (M := M) (N := N) (ds := ds) (b := t' / (M * B)) (i := t' % (M * B) / B) (j := n) (b' := b)
              (i' := i) (j' := j) h (hbt t' ht').2 hn hi hj (by rw [← ha, he])
        obtain ⟨c1, c2, rfl⟩ := hcell
        have : t' = t := by
          rw [hte, ← Nat.div_add_mod t' (M * B), ← Nat.div_add_mod (t' % (M * B)) B, c1, c2, ← hnb,
            Nat.mul_comm (M * B) b, Nat.mul_comm B i]
        omega)
    rw [hrun]
    have hnd : ((vecDotBody a s0 s1 M K N batch dstStride t1 bias t).map Upd.addr).Nodup := by
      unfold vecDotBody
      rw [List.map_map]
      refine List.Nodup.map ?_ List.nodup_range'
      intro x y hxy
      simp only [Function.comp, Upd.put] at hxy
      omega
    have hmem : Upd.put (b * ds + i * N + j) (vecDot a K (fun l => s1.data ((if t1 then j * back s1.stride 2 else j) + l))
        (fun l => s0.data ((if batch > 1 then b * back s0.stride 3 else 0) + i * back s0.stride 2 + l))
        + bias.elim 0 fun β => β j) ∈ vecDotBody a s0 s1 M K N batch dstStride t1 bias t := by
      unfold vecDotBody
      simp only [hB, e1, e3, e4]
      refine List.mem_map.mpr ⟨j, ?_, ?_⟩
      · rw [List.mem_range']
        exact ⟨j - j / 16 * 16, by omega, by omega⟩
      · rw [hoff b hb, Nat.add_assoc (b * ds)]
    exact run_once hnd hmem m
  · intro x hx
    refine hex'.grid_other (job := fun _ => vecDotBody a s0 s1 M K N batch dstStride t1 bias) x ?_
    intro _ _ t ht u hu he
    obtain ⟨n, hn, -, ha⟩ := haddr t ht u hu
    exact hx _ (hbt t ht).1 _ (hbt t ht).2 n hn (by rw [← ha, he])

theorem lanes_of_check {a : Arch} {n m k : Nat} (h : checkLlama a n m k k k n = true) :
    ∃ KN, a.lanes = some KN ∧ 0 < KN ∧ KN ∣ k := by
  unfold checkLlama at h
  simp only [Nat.lt_irrefl, if_false] at h
  cases a <;> simp at h <;> first | exact ⟨_, rfl, by omega, by omega⟩

/-- What `ggml::mat_mul` stores for contiguous operands. -/
theorem ggml_fills (a : Arch) (s0 s1 : Ten α) (lead lead1 : List Nat) (M K N : Nat) (bias : Option (Nat → α)) (threads : Nat)
    (h0 : s0.Mats lead M K) (h1 : s1.Mats lead1 N K) (hl : lead1 = lead ∨ lead1 = []) (ht : 0 < threads) (hM : 0 < M)
    (hK : 0 < K) (hN : 0 < N) :
    Fills (ggmlMatMul a s0 s1 (rowStr (lead ++ [M, N])) bias true threads) (numel lead) M N (M * N) fun b i j =>
      (if checkLlama a N M K K K N = true then
        ∑ l ∈ Finset.range K, s0.data (b * (M * K) + i * K + l) *
          s1.data ((if lead1 = [] then 0 else b * (N * K)) + j * K + l)
      else vecDot a K (fun l => s1.data (j * K + l)) (fun l => s0.data (b * (M * K) + i * K + l)))
      + bias.elim 0 fun β => β j := by
  unfold ggmlMatMul
  rw [h0.1, h1.1, h0.2, h1.2, h0.1, h1.1]
  simp only [back_shape1, back_shape2, batchOf_shape, if_pos]
  have bat0 : ∀ b, b < numel lead → (if numel lead > 1 then b * back (rowStr (lead ++ [M, K])) 3 else 0) = b * (M * K) := by
    intro b hb
    split
    · rw [rowStr_back3 (lead_batch (by omega))]
    · obtain rfl : b = 0 := by omega
      simp
  by_cases hc : checkLlama a N M K K K N = true
  · simp only [hc, if_true]
    obtain ⟨KN, hKN, hp, hd⟩ := lanes_of_check hc
    rw [hKN]
    dsimp only [Option.getD]
    by_cases hb : numel lead = 1
    · rw [if_pos hb, hb]
      have := tinyBLAS_fills a.wide KN 1 M K N (M * N) hp hd (fun _ => s1.data) (fun _ => s0.data) bias threads ht
        (Or.inl (Nat.le_refl _))
      intro m m' hex
      have hf := this m m' (by simpa using hex)
      refine ⟨?_, hf.2⟩
      intro b hb' i hi j hj
      rw [hf.1 b hb' i hi j hj]
      obtain rfl : b = 0 := by omega
      simp
    · rw [if_neg hb]
      have hne := lead_batch hb
      have e : ∀ b, (if (rowStr (lead1 ++ [N, K])).length > 2 ∧ back (rowStr (lead1 ++ [N, K])) 3 > 0 then
          b * back (rowStr (lead1 ++ [N, K])) 3 else 0) = if lead1 = [] then 0 else b * (N * K) := by
        intro b
        rcases hl with rfl | rfl
        · rw [rowStr_back3 hne, if_neg hne, if_pos]
          refine ⟨?_, Nat.mul_pos hN hK⟩
          rw [rowStr_length]
          have := List.length_pos_of_ne_nil hne
          simp; omega
        · rw [if_pos rfl, if_neg]
          rw [rowStr_length]; simp
      simp only [e]
      rw [rowStr_back3 hne, rowStr_back3 hne]
      have := tinyBLAS_fills a.wide KN (numel lead) M K N (M * N) hp hd
        (fun b x => s1.data ((if lead1 = [] then 0 else b * (N * K)) + x)) (fun b x => s0.data (b * (M * K) + x)) bias threads
        ht (Or.inr (Nat.le_refl _))
      intro m m' hex
      have hf := this m m' hex
      refine ⟨?_, hf.2⟩
      intro b hb' i hi j hj
      rw [hf.1 b hb' i hi j hj]
      simp only [Nat.add_assoc]
  · rw [if_neg hc]
    have := vecDotBody_fills a s0 s1 M K N (numel lead) (M * N) (rowStr (lead ++ [M, N])) true bias hM
      (Or.inr (Nat.le_refl _)) (by
        by_cases hb : numel lead ≤ 1
        · exact Or.inl hb
        · have hne := lead_batch (lead := lead) (by omega)
          refine Or.inr ⟨?_, rowStr_back3 hne _ _⟩
          rw [rowStr_length]
          have := List.length_pos_of_ne_nil hne
          simp; omega)
    intro m m' hex
    have hf := this m m' hex
    refine ⟨?_, hf.2⟩
    intro b hb' i hi j hj
    rw [hf.1 b hb' i hi j hj, h0.2, h1.2, h0.1, h1.1]
    beta_reduce
    rw [bat0 b hb', rowStr_back2, rowStr_back2, if_neg hc]
    simp

end Verif.Kern
