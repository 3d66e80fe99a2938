import Verif.Codec.Audio

/-!
# C176: audio files are read, mixed and resampled to the asked rate
-/

namespace Verif.Codec

open Finset

/-! ## Stores -/

theorem scatter_other {α κ : Type} [DecidableEq κ] (key : α → κ) (val : α → ℝ) (q : κ) : ∀ (l : List α) (m : κ → ℝ), q ∉ l.map key →
    scatter l key val m q = m q := by
  intro l
  induction l with
  | nil => intro m _; rfl
  | cons a l ih =>
    intro m h
    rw [List.map_cons, List.mem_cons, not_or] at h
    show scatter l key val (Function.update m (key a) (val a)) q = m q
    rw [ih _ h.2, Function.update_apply, if_neg h.1]

theorem scatter_get {α κ : Type} [DecidableEq κ] (key : α → κ) (val : α → ℝ) {a : α} : ∀ (l : List α) (m : κ → ℝ), (l.map key).Nodup → a ∈ l →
    scatter l key val m (key a) = val a := by
  intro l
  induction l with
  | nil => intro m _ h; simp at h
  | cons b l ih =>
    intro m hn ha
    rw [List.map_cons, List.nodup_cons] at hn
    show scatter l key val (Function.update m (key b) (val b)) (key a) = val a
    rcases List.mem_cons.mp ha with rfl | ha
    · rw [scatter_other key val _ l _ hn.1, Function.update_self]
    · exact ih _ hn.2 ha

theorem planar_eq (data : Nat → ℝ) {size C c n : Nat} (hc : c < C) (h : n * C + c < size) : planar data size C (c, n) = data (n * C + c) := by
  have hC : 0 < C := by omega
  have hinj : Function.Injective fun i : Nat => (i % C, i / C) := by
    intro i j hij
    simp only [Prod.mk.injEq] at hij
    rw [← Nat.div_add_mod i C, ← Nat.div_add_mod j C, hij.1, hij.2]
  have hk : (fun i : Nat => (i % C, i / C)) (n * C + c) = (c, n) := by
    simp only [Prod.mk.injEq]
    constructor
    · rw [Nat.add_comm, Nat.add_mul_mod_self_right, Nat.mod_eq_of_lt hc]
    · rw [Nat.add_comm, Nat.add_mul_div_right _ _ hC, Nat.div_eq_of_lt hc, Nat.zero_add]
  unfold planar
  rw [← hk]
  exact scatter_get _ _ _ _ (List.Nodup.map hinj List.nodup_range) (List.mem_range.mpr h)

theorem fold_sum (f : Nat → ℝ) : ∀ n, (List.range n).foldl (fun s c => s + f c) 0 = ∑ c ∈ range n, f c := by
  intro n
  induction n with
  | zero => rfl
  | succ n ih => rw [List.range_succ, List.foldl_append, List.foldl_cons, List.foldl_nil, ih, sum_range_succ]

theorem toMono_eq (wav : Nat × Nat → ℝ) (C n : Nat) : toMono wav C n = (∑ c ∈ range C, wav (c, n)) / C := by
  unfold toMono
  split_ifs with h
  · rw [h]
    simp
  · rw [fold_sum fun c => wav (c, n)]

theorem convView_eq (x : Nat → ℝ) (inputDim ksize stride : Nat) {phases : Nat} (k : Nat → Nat → ℝ) {q : Nat} (hp : 0 < phases)
    (hq : q < outDim inputDim ksize stride * phases) :
    convView x inputDim ksize stride phases k q = ∑ j ∈ range ksize, x (q / phases * stride + j) * k (q % phases) j := by
  have hk : (fun a : Nat × Nat => a.2 * phases + a.1) (q % phases, q / phases) = q := by
    simp only
    rw [Nat.mul_comm, Nat.div_add_mod]
  unfold convView
  conv_lhs => rw [← hk]
  rw [scatter_get (fun a : Nat × Nat => a.2 * phases + a.1) (a := (q % phases, q / phases))]
  · dsimp only
    rw [fold_sum fun j => x (q / phases * stride + j) * k (q % phases) j]
  · rw [List.map_flatMap, List.nodup_flatMap]
    constructor
    · intro oc _
      rw [List.map_map]
      apply List.Nodup.map _ List.nodup_range
      intro i j hij
      simp only [Function.comp_apply, Nat.add_right_cancel_iff] at hij
      exact Nat.eq_of_mul_eq_mul_right hp hij
    · apply List.Pairwise.imp_of_mem (R := fun a b => a ≠ b) _ List.nodup_range
      intro a b ha hb hab
      have ha' := List.mem_range.mp ha
      have hb' := List.mem_range.mp hb
      simp only [Function.onFun, List.disjoint_left, List.map_map, List.mem_map, Function.comp_apply]
      rintro z ⟨i, _, rfl⟩ ⟨j, _, h⟩
      apply hab
      have := congrArg (· % phases) h
      simp only [Nat.mul_comm _ phases, Nat.mul_add_mod, Nat.mod_eq_of_lt ha', Nat.mod_eq_of_lt hb'] at this
      exact this.symm
  · rw [List.mem_flatMap]
    refine ⟨q % phases, List.mem_range.mpr (Nat.mod_lt _ hp), List.mem_map.mpr ⟨q / phases, List.mem_range.mpr ?_, rfl⟩⟩
    rw [Nat.div_lt_iff_lt_mul hp]
    exact hq

/-! ## Resampling -/

/-- The windowed sinc of cut-off `base` at a time `τ` (in units of the common period of the rates). -/
noncomputable def sincHann (orig new : Nat) (τ : ℝ) : ℝ :=
  let base : ℝ := (min orig new : ℕ) * (99 / 100)
  let t := max (-6) (min (τ * base) 6)
  (if t * Real.pi = 0 then 1 else Real.sin (t * Real.pi) / (t * Real.pi)) * Real.cos (t * Real.pi / 12) ^ 2 * (base / orig)

theorem kernelAt_eq (orig new i j : Nat) : kernelAt orig new i j = sincHann orig new ((-(width orig new : ℝ) + j) / orig - i / new) := by
  unfold kernelAt sincHann
  dsimp only
  rw [show (-(i : ℝ) / new + (-(width orig new : ℝ) + j) / orig) = (-(width orig new : ℝ) + j) / orig - i / new by ring]
  simp only [baseFreq]
  congr 3
  congr 1
  ring

theorem sincHann_zero {orig new : Nat} {τ : ℝ} (h : 6 ≤ |τ * ((min orig new : ℕ) * (99 / 100))|) : sincHann orig new τ = 0 := by
  unfold sincHann
  dsimp only
  rcases le_abs.mp h with h | h
  · rw [min_eq_right h, max_eq_right (by norm_num), show (6 : ℝ) * Real.pi / 12 = Real.pi / 2 by ring, Real.cos_pi_div_two]
    ring
  · rw [min_eq_left (by linarith), max_eq_left (by linarith), show (-6 : ℝ) * Real.pi / 12 = -(Real.pi / 2) by ring, Real.cos_neg, Real.cos_pi_div_two]
    ring

theorem width_spec {orig new : Nat} (ho : 0 < orig) (hn : 0 < new) : 6 ≤ (width orig new : ℝ) / orig * ((min orig new : ℕ) * (99 / 100)) := by
  have hmin : (0 : ℝ) < ((min orig new : ℕ) : ℝ) := by exact_mod_cast lt_min ho hn
  have hb : 0 < baseFreq orig new := by unfold baseFreq; positivity
  have hor : (0 : ℝ) < orig := by exact_mod_cast ho
  have hc := Nat.le_ceil (6 * (orig : ℝ) / baseFreq orig new)
  rw [div_le_iff₀ hb] at hc
  have e : (width orig new : ℝ) / orig * ((min orig new : ℕ) * (99 / 100)) = width orig new * baseFreq orig new / orig := by
    unfold baseFreq
    ring
  rw [e, le_div_iff₀ hor]
  exact hc

theorem targetLen_lt {orig new len t : Nat} (ho : 0 < orig) (h : t < targetLen orig new len) : t * orig < new * len := by
  unfold targetLen at h
  have : t + 1 ≤ (new * len + orig - 1) / orig := h
  rw [Nat.le_div_iff_mul_le ho, Nat.add_mul] at this
  omega

theorem phase_bounds {orig new len t : Nat} (ho : 0 < orig) (hn : 0 < new) (h : t < targetLen orig new len) (W : Nat) :
    t / new * orig < len ∧ t < outDim (len + W + (W + orig)) (orig + 2 * W) orig * new := by
  have h1 := targetLen_lt ho h
  have h2 : t / new * orig < len := by
    have : t / new * new ≤ t := Nat.div_mul_le_self t new
    have h3 : t / new * new * orig ≤ t * orig := Nat.mul_le_mul_right _ this
    have h4 : new * (t / new * orig) < new * len := by
      calc new * (t / new * orig) = t / new * new * orig := by ring
        _ ≤ t * orig := h3
        _ < new * len := h1
    exact Nat.lt_of_mul_lt_mul_left h4
  refine ⟨h2, ?_⟩
  have e : outDim (len + W + (W + orig)) (orig + 2 * W) orig = len / orig + 1 := by
    unfold outDim
    congr 2
    omega
  rw [e]
  have h5 : t / new ≤ len / orig := by
    rw [Nat.le_div_iff_mul_le ho]
    omega
  have h6 : t < (t / new + 1) * new := by
    have := Nat.lt_div_mul_add hn (a := t)
    rw [Nat.add_mul, Nat.one_mul]
    exact this
  exact lt_of_lt_of_le h6 (Nat.mul_le_mul_right _ (by omega))

/-- A resampled sample is the sum over the whole signal of sample times windowed sinc at the distance in time. -/
theorem resampled_eq (wav : Nat × Nat → ℝ) {C len orig new c t : Nat} (ho : 0 < orig) (hn : 0 < new) (hc : c < C) (ht : t < targetLen orig new len) :
    resampled wav C len orig new (t * C + c) = ∑ n ∈ range len, wav (c, n) * sincHann orig new ((n : ℝ) / orig - (t : ℝ) / new) := by
  have hC : 0 < C := by omega
  have hmod : (t * C + c) % C = c := by rw [Nat.add_comm, Nat.add_mul_mod_self_right, Nat.mod_eq_of_lt hc]
  have hdiv : (t * C + c) / C = t := by rw [Nat.add_comm, Nat.add_mul_div_right _ _ hC, Nat.div_eq_of_lt hc, Nat.zero_add]
  unfold resampled
  simp only [hmod, hdiv]
  obtain ⟨hp, hlt⟩ := phase_bounds ho hn ht (width orig new)
  rw [convView_eq _ _ _ _ _ hn hlt]
  have hw := width_spec ho hn
  obtain ⟨W, hW⟩ : ∃ W, W = width orig new := ⟨_, rfl⟩
  obtain ⟨p, hpd⟩ : ∃ p, p = t / new := ⟨_, rfl⟩
  obtain ⟨r, hr⟩ : ∃ r, r = t % new := ⟨_, rfl⟩
  have htr : t = new * p + r := by rw [hpd, hr, Nat.div_add_mod]
  have hrn : r < new := by rw [hr]; exact Nat.mod_lt _ hn
  rw [← hW] at hw hlt ⊢
  rw [← hpd] at hp
  rw [← hpd, ← hr]
  have hor : (0 : ℝ) < orig := by exact_mod_cast ho
  have hnr : (0 : ℝ) < new := by exact_mod_cast hn
  have htime : (t : ℝ) / new = p + (r : ℝ) / new := by
    rw [htr]
    push_cast
    field_simp
  have hr1 : (r : ℝ) / new < 1 := by
    rw [div_lt_one hnr]
    exact_mod_cast hrn
  have hr0 : (0 : ℝ) ≤ (r : ℝ) / new := by positivity
  obtain ⟨B, hB⟩ : ∃ B : ℝ, B = (min orig new : ℕ) * (99 / 100) := ⟨_, rfl⟩
  have hB0 : 0 < B := by
    rw [hB]
    have : (0 : ℝ) < ((min orig new : ℕ) : ℝ) := by exact_mod_cast lt_min ho hn
    positivity
  rw [← hB] at hw
  obtain ⟨G, hG⟩ : ∃ G : Nat → ℝ, G = fun q => wavPad (fun n => wav (c, n)) len W q * sincHann orig new (((q : ℝ) - W) / orig - (t : ℝ) / new) := ⟨_, rfl⟩
  have hleft : ∑ j ∈ range (orig + 2 * W), wavPad (fun n => wav (c, n)) len W (p * orig + j) * kernelAt orig new r j =
      ∑ q ∈ range (len + W + (W + orig)), G q := by
    have e1 : ∑ j ∈ range (orig + 2 * W), wavPad (fun n => wav (c, n)) len W (p * orig + j) * kernelAt orig new r j =
        ∑ q ∈ Ico (p * orig) (p * orig + (orig + 2 * W)), G q := by
      rw [sum_Ico_eq_sum_range, Nat.add_sub_cancel_left]
      apply sum_congr rfl
      intro j _
      rw [hG, kernelAt_eq, ← hW]
      dsimp only
      congr 2
      rw [htime]
      push_cast
      field_simp
      ring
    rw [e1]
    apply sum_subset
    · intro q hq
      rw [mem_Ico] at hq
      rw [mem_range]
      omega
    · intro q _ hq
      rw [mem_Ico, not_and_or, not_le, not_lt] at hq
      rw [hG]
      dsimp only
      rw [sincHann_zero, mul_zero]
      rw [← hB, htime]
      rcases hq with hq | hq
      · have hq' : (q : ℝ) ≤ p * orig := by exact_mod_cast hq.le
        have h1 : ((q : ℝ) - W) / orig - (p + (r : ℝ) / new) ≤ -((W : ℝ) / orig) := by
          have : ((q : ℝ) - W) / orig ≤ p - W / orig := by
            rw [sub_div]
            have : (q : ℝ) / orig ≤ p := by rw [div_le_iff₀ hor]; exact hq'
            linarith
          linarith
        have h2 := mul_le_mul_of_nonneg_right h1 hB0.le
        rw [le_abs]
        right
        linarith
      · have hq' : (p : ℝ) * orig + (orig + 2 * W) ≤ q := by exact_mod_cast hq
        have h1 : (W : ℝ) / orig ≤ ((q : ℝ) - W) / orig - (p + (r : ℝ) / new) := by
          have : (p : ℝ) + 1 + W / orig ≤ ((q : ℝ) - W) / orig := by
            rw [le_div_iff₀ hor]
            have : ((p : ℝ) + 1 + W / orig) * orig = p * orig + orig + W := by field_simp
            linarith
          linarith
        have h2 := mul_le_mul_of_nonneg_right h1 hB0.le
        rw [le_abs]
        left
        linarith
  have hright : ∑ n ∈ range len, wav (c, n) * sincHann orig new ((n : ℝ) / orig - (t : ℝ) / new) = ∑ q ∈ range (len + W + (W + orig)), G q := by
    have e1 : ∑ n ∈ range len, wav (c, n) * sincHann orig new ((n : ℝ) / orig - (t : ℝ) / new) = ∑ q ∈ Ico W (W + len), G q := by
      rw [sum_Ico_eq_sum_range, Nat.add_sub_cancel_left]
      apply sum_congr rfl
      intro n hn'
      have := mem_range.mp hn'
      rw [hG]
      dsimp only
      rw [wavPad, if_neg (by omega), if_pos (by omega), Nat.add_sub_cancel_left]
      congr 3
      push_cast
      ring
    rw [e1]
    apply sum_subset
    · intro q hq
      rw [mem_Ico] at hq
      rw [mem_range]
      omega
    · intro q _ hq
      rw [mem_Ico, not_and_or, not_le, not_lt] at hq
      rw [hG]
      dsimp only
      rcases hq with hq | hq
      · rw [wavPad, if_pos hq, zero_mul]
      · rw [wavPad, if_neg (by omega), if_neg (by omega), zero_mul]
  rw [hright, ← hleft]

/-- At the asked rate already: the mean of the channels. -/
theorem C176_same_rate (data : Nat → ℝ) (samples rate : Nat) {C : Nat} :
    (readWav data samples C rate rate).1 = samples ∧
    ∀ n, n < samples → (readWav data samples C rate rate).2 n = (∑ c ∈ range C, data (n * C + c)) / C := by
  have h : readWav data samples C rate rate = (samples, toMono (planar data (samples * C) C) C) := by
    unfold readWav
    simp
  rw [h]
  refine ⟨rfl, fun n hn => ?_⟩
  dsimp only
  rw [toMono_eq]
  congr 1
  apply sum_congr rfl
  intro c hc
  have hc' := mem_range.mp hc
  apply planar_eq data hc'
  have : (n + 1) * C ≤ samples * C := Nat.mul_le_mul_right _ hn
  rw [Nat.add_mul, Nat.one_mul] at this
  omega

/-- Otherwise: `ceil(rate * samples / fileRate)` samples, each the mean over the channels of the band-limited
interpolation of that channel at the time of the sample. -/
theorem C176_resample (data : Nat → ℝ) {samples rate fileRate C o w : Nat} (hC : 0 < C) (hr : 0 < rate) (hf : 0 < fileRate) (hne : fileRate ≠ rate)
    (hs : 0 < samples) (ho : o = fileRate / Nat.gcd rate fileRate) (hw : w = rate / Nat.gcd rate fileRate) :
    (readWav data samples C rate fileRate).1 = (w * samples + o - 1) / o ∧
    ∀ t, t < (w * samples + o - 1) / o → (readWav data samples C rate fileRate).2 t =
      (∑ c ∈ range C, ∑ n ∈ range samples, data (n * C + c) * sincHann o w ((n : ℝ) / o - (t : ℝ) / w)) / C := by
  have hg : 0 < Nat.gcd rate fileRate := Nat.gcd_pos_of_pos_left _ hr
  have ho0 : 0 < o := by rw [ho]; exact Nat.div_pos (Nat.le_of_dvd hf (Nat.gcd_dvd_right _ _)) hg
  have hw0 : 0 < w := by rw [hw]; exact Nat.div_pos (Nat.le_of_dvd hr (Nat.gcd_dvd_left _ _)) hg
  have hT : 0 < targetLen o w samples := by
    unfold targetLen
    rw [Nat.div_pos_iff]
    have : 0 < w * samples := Nat.mul_pos hw0 hs
    omega
  have hsize : targetLen o w samples * C ≠ 0 := by
    have := Nat.mul_pos hT hC
    omega
  have h : readWav data samples C rate fileRate =
      (targetLen o w samples * C / C,
        toMono (planar (resampled (planar data (samples * C) C) C samples o w) (targetLen o w samples * C) C) C) := by
    unfold readWav
    simp only [if_neg hne, ← ho, ← hw, if_neg hsize]
  rw [h]
  refine ⟨by dsimp only; rw [Nat.mul_div_cancel _ hC]; rfl, fun t ht => ?_⟩
  dsimp only
  rw [toMono_eq]
  congr 1
  apply sum_congr rfl
  intro c hc
  have hc' := mem_range.mp hc
  have hb : t * C + c < targetLen o w samples * C := by
    have : (t + 1) * C ≤ targetLen o w samples * C := Nat.mul_le_mul_right _ ht
    rw [Nat.add_mul, Nat.one_mul] at this
    omega
  rw [planar_eq _ hc' hb, resampled_eq _ ho0 hw0 hc' ht]
  apply sum_congr rfl
  intro n hn
  rw [planar_eq data hc']
  have : (n + 1) * C ≤ samples * C := Nat.mul_le_mul_right _ (mem_range.mp hn)
  rw [Nat.add_mul, Nat.one_mul] at this
  omega

/-- Every read of the convolution is inside the padded channel, every read of the result inside what it wrote. -/
theorem C176_reads {orig new len : Nat} (ho : 0 < orig) (hn : 0 < new) (W : Nat) :
    (∀ i j, i < outDim (len + W + (W + orig)) (orig + 2 * W) orig → j < orig + 2 * W → i * orig + j < len + W + (W + orig)) ∧
    ∀ t, t < targetLen orig new len → t < outDim (len + W + (W + orig)) (orig + 2 * W) orig * new := by
  refine ⟨fun i j hi hj => ?_, fun t ht => (phase_bounds ho hn ht W).2⟩
  have e : outDim (len + W + (W + orig)) (orig + 2 * W) orig = len / orig + 1 := by
    unfold outDim
    congr 2
    omega
  rw [e] at hi
  have : i * orig ≤ len / orig * orig := Nat.mul_le_mul_right _ (by omega)
  have := Nat.div_mul_le_self len orig
  omega

/-! ## Instances -/

example : targetLen 441 160 44100 = 16000 ∧ targetLen 1 2 3 = 6 ∧ targetLen 3 1 4 = 2 := by decide

/-- Stereo at the asked rate. -/
example (data : Nat → ℝ) : (readWav data 10 2 16000 16000).2 3 = (data 6 + data 7) / 2 := by
  rw [C176_same_rate data 10 16000 |>.2 3 (by decide)]
  simp [sum_range_succ]

/-- 44.1 kHz to 16 kHz, one second. -/
example (data : Nat → ℝ) : (readWav data 44100 1 16000 44100).1 = 16000 :=
  (C176_resample data (o := 441) (w := 160) (by decide) (by decide) (by decide) (by decide) (by decide) (by decide) (by decide)).1

end Verif.Codec
