import Verif.Fft.Mel
import Verif.Fft.PropsStft

/-!
# C174: mel features
-/

namespace Verif.Fft

open Finset

theorem log64 : 0 < Real.log (64 / 10) := Real.log_pos (by norm_num)

/-- The two scales are inverse to each other. -/
theorem C174_scale (f m : ℝ) : melToHertz (hertzToMel f) = f ∧ hertzToMel (melToHertz m) = m := by
  have hl := log64
  constructor
  · unfold hertzToMel
    split_ifs with h
    · rw [melToHertz, if_pos (by linarith)]
      ring
    · have hf : 1 ≤ f / 1000 := by rw [le_div_iff₀ (by norm_num)]; linarith
      have h0 : 0 ≤ Real.log (f / 1000) * (27 / Real.log (64 / 10)) :=
        mul_nonneg (Real.log_nonneg hf) (by positivity)
      rw [melToHertz, if_neg (by linarith)]
      have : Real.log (64 / 10) / 27 * (15 + Real.log (f / 1000) * (27 / Real.log (64 / 10)) - 15) = Real.log (f / 1000) := by
        field_simp
        ring
      rw [this, Real.exp_log (by linarith)]
      ring
  · unfold melToHertz
    split_ifs with h
    · rw [hertzToMel, if_pos (by linarith)]
      ring
    · have h0 : 0 ≤ Real.log (64 / 10) / 27 * (m - 15) := mul_nonneg (by positivity) (by linarith)
      have h1 := Real.one_le_exp h0
      rw [hertzToMel, if_neg (by linarith)]
      have : 1000 * Real.exp (Real.log (64 / 10) / 27 * (m - 15)) / 1000 = Real.exp (Real.log (64 / 10) / 27 * (m - 15)) := by ring
      rw [this, Real.log_exp]
      field_simp
      ring

/-- Both are strictly increasing. -/
theorem C174_monotone : StrictMono melToHertz ∧ StrictMono hertzToMel := by
  have hl := log64
  have h1 : StrictMono melToHertz := by
    intro a b hab
    unfold melToHertz
    split_ifs with h1 h2 h2
    · linarith
    · have h0 : 0 ≤ Real.log (64 / 10) / 27 * (b - 15) := mul_nonneg (by positivity) (by linarith)
      have := Real.one_le_exp h0
      linarith
    · linarith
    · have : Real.log (64 / 10) / 27 * (a - 15) < Real.log (64 / 10) / 27 * (b - 15) :=
        mul_lt_mul_of_pos_left (by linarith) (by positivity)
      have := Real.exp_lt_exp.mpr this
      linarith
  refine ⟨h1, fun a b hab => ?_⟩
  by_contra hn
  have := h1.monotone (not_lt.mp hn)
  rw [(C174_scale a 0).1, (C174_scale b 0).1] at this
  linarith

/-- The corners of the filters: they start and end at the given frequencies, and increase. -/
theorem C174_corners (mels : Nat) {lo hi : ℝ} (h : lo < hi) :
    filterFreq mels lo hi 0 = lo ∧ filterFreq mels lo hi (mels + 1) = hi ∧ StrictMono (filterFreq mels lo hi) := by
  have hm : (0 : ℝ) < (mels : ℝ) + 1 := by positivity
  refine ⟨?_, ?_, ?_⟩
  · unfold filterFreq
    rw [Nat.cast_zero, zero_mul, zero_div, add_zero, (C174_scale lo 0).1]
  · unfold filterFreq
    push_cast
    rw [mul_div_assoc, mul_div_cancel₀ _ hm.ne', add_sub_cancel, (C174_scale hi 0).1]
  · intro a b hab
    unfold filterFreq
    apply C174_monotone.1
    have h2 := C174_monotone.2 h
    have h3 : (a : ℝ) < b := by exact_mod_cast hab
    have h4 : (a : ℝ) * (hertzToMel hi - hertzToMel lo) < b * (hertzToMel hi - hertzToMel lo) :=
      mul_lt_mul_of_pos_right h3 (by linarith)
    have := div_lt_div_of_pos_right h4 hm
    linarith

/-- A filter is zero outside its corners, is not negative, and rises and falls linearly to its centre, where (before
normalisation) it is one. -/
theorem C174_triangle {l c r : ℝ} (h1 : l < c) (h2 : c < r) (f : ℝ) :
    0 ≤ triangle l c r f ∧ triangle l c r f ≤ 1 ∧ (f ≤ l ∨ r ≤ f → triangle l c r f = 0) ∧ triangle l c r c = 1 ∧
    (l ≤ f → f ≤ c → triangle l c r f = (f - l) / (c - l)) ∧ (c ≤ f → f ≤ r → triangle l c r f = (r - f) / (r - c)) := by
  have hc : 0 < c - l := by linarith
  have hr : 0 < r - c := by linarith
  have key : ∀ f, (l ≤ f → f ≤ c → triangle l c r f = (f - l) / (c - l)) ∧ (c ≤ f → f ≤ r → triangle l c r f = (r - f) / (r - c)) ∧
      (f < l ∨ r < f → triangle l c r f = 0) := by
    intro f
    refine ⟨fun a b => ?_, fun a b => ?_, fun a => ?_⟩
    · rw [triangle, if_pos ⟨a, b, h1.ne'⟩]
    · unfold triangle
      split_ifs with h h
      · have : f = c := le_antisymm h.2.1 a
        rw [this, div_self hc.ne', div_self hr.ne']
      · rfl
      · exact absurd ⟨a, b, h2.ne'⟩ h
    · rw [triangle, if_neg, if_neg]
      · rintro ⟨x, y, _⟩
        rcases a with a | a <;> linarith
      · rintro ⟨x, y, _⟩
        rcases a with a | a <;> linarith
  have hz : f ≤ l ∨ r ≤ f → triangle l c r f = 0 := by
    intro a
    rcases a with a | a
    · rcases a.lt_or_eq with a | rfl
      · exact (key f).2.2 (Or.inl a)
      · rw [(key f).1 le_rfl h1.le, sub_self, zero_div]
    · rcases a.lt_or_eq with a | rfl
      · exact (key f).2.2 (Or.inr a)
      · rw [(key r).2.1 h2.le le_rfl, sub_self, zero_div]
  refine ⟨?_, ?_, hz, ?_, (key f).1, (key f).2.1⟩
  · rcases lt_or_ge f l with a | a
    · rw [hz (Or.inl a.le)]
    · rcases lt_or_ge r f with b | b
      · rw [hz (Or.inr b.le)]
      · rcases le_total f c with d | d
        · rw [(key f).1 a d]
          exact div_nonneg (by linarith) hc.le
        · rw [(key f).2.1 d b]
          exact div_nonneg (by linarith) hr.le
  · rcases lt_or_ge f l with a | a
    · rw [hz (Or.inl a.le)]
      norm_num
    · rcases lt_or_ge r f with b | b
      · rw [hz (Or.inr b.le)]
        norm_num
      · rcases le_total f c with d | d
        · rw [(key f).1 a d, div_le_one hc]
          linarith
        · rw [(key f).2.1 d b, div_le_one hr]
          linarith
  · rw [(key c).1 h1.le le_rfl, div_self hc.ne']

/-- Neighbouring filters share every frequency between their centres completely. -/
theorem C174_partition {a b c d : ℝ} (h1 : a < b) (h2 : b < c) (h3 : c < d) {f : ℝ} (hb : b ≤ f) (hc : f ≤ c) :
    triangle a b c f + triangle b c d f = 1 := by
  rw [(C174_triangle h1 h2 f).2.2.2.2.2 hb hc, (C174_triangle h2 h3 f).2.2.2.2.1 hb hc]
  have : c - b ≠ 0 := by linarith
  field_simp
  ring

/-- The matrix: not negative, and zero at the frequencies outside the corners of the filter. -/
theorem C174_filterbank (bins mels : Nat) {lo hi : ℝ} (rate : ℝ) (h : lo < hi) (k m : Nat) :
    0 ≤ filterbank bins mels lo hi rate k m ∧
    (fftFreq bins rate k ≤ filterFreq mels lo hi m ∨ filterFreq mels lo hi (m + 2) ≤ fftFreq bins rate k → filterbank bins mels lo hi rate k m = 0) ∧
    (filterFreq mels lo hi m < fftFreq bins rate k ∧ fftFreq bins rate k < filterFreq mels lo hi (m + 2) → 0 < filterbank bins mels lo hi rate k m) := by
  have hmono := (C174_corners mels h).2.2
  have h1 := hmono (show m < m + 1 by omega)
  have h2 := hmono (show m + 1 < m + 2 by omega)
  have hpos : 0 < 2 / (filterFreq mels lo hi (m + 2) - filterFreq mels lo hi m) := by
    apply div_pos (by norm_num)
    linarith
  have t := C174_triangle h1 h2 (fftFreq bins rate k)
  refine ⟨mul_nonneg t.1 hpos.le, fun hh => ?_, fun hh => mul_pos ?_ hpos⟩
  · rw [filterbank, t.2.2.1 hh, zero_mul]
  · rcases le_total (fftFreq bins rate k) (filterFreq mels lo hi (m + 1)) with d | d
    · rw [t.2.2.2.2.1 hh.1.le d]
      exact div_pos (by linarith) (by linarith)
    · rw [t.2.2.2.2.2 d hh.2.le]
      exact div_pos (by linarith) (by linarith)

/-- Normalisation: every filter encloses the same area, one. -/
theorem C174_area {l c r : ℝ} (h1 : l < c) (h2 : c < r) : (r - l) * (triangle l c r c * (2 / (r - l))) / 2 = 1 := by
  rw [(C174_triangle h1 h2 c).2.2.2.1]
  have : r - l ≠ 0 := by linarith
  field_simp

/-- The bins go from zero to half the sampling rate in equal steps. -/
theorem C174_bins {bins : Nat} (h : 2 ≤ bins) (rate : ℝ) :
    fftFreq bins rate 0 = 0 ∧ fftFreq bins rate (bins - 1) = rate / 2 ∧ ∀ n : Nat, 0 < n → bins = n / 2 + 1 → n % 2 = 0 → ∀ k, fftFreq bins rate k = k * rate / n := by
  refine ⟨by simp [fftFreq], ?_, ?_⟩
  · unfold fftFreq
    rw [Nat.cast_sub (by omega), Nat.cast_one, mul_comm, mul_div_assoc, div_self, mul_one]
    have : (2 : ℝ) ≤ bins := by exact_mod_cast h
    linarith
  · intro n hn hb he k
    unfold fftFreq
    obtain ⟨a, rfl⟩ := Nat.dvd_of_mod_eq_zero he
    have hb' : bins = a + 1 := by omega
    have ha : (a : ℝ) ≠ 0 := by
      have : 0 < a := by omega
      exact_mod_cast this.ne'
    rw [hb']
    push_cast
    rw [add_sub_cancel_right]
    field_simp

/-- The window asked for as periodic has period `n + 1`, not `n`: from two samples on it differs from the window the
comment and the training code name. -/
theorem C174_window_violated {n : Nat} (h : 2 ≤ n) :
    hannWindow n true 1 ≠ 1 / 2 - 1 / 2 * Real.cos (2 * Real.pi * 1 / n) := by
  have hn : (2 : ℝ) ≤ n := by exact_mod_cast h
  have hpi := Real.pi_pos
  unfold hannWindow
  simp only [if_true]
  intro he
  have hc : Real.cos (2 * Real.pi * (1 : Nat) / ((n : ℝ) + 1)) = Real.cos (2 * Real.pi * 1 / n) := by linarith
  rw [Nat.cast_one, mul_one] at hc
  have h1 : 2 * Real.pi / ((n : ℝ) + 1) < 2 * Real.pi / n := div_lt_div_of_pos_left (by positivity) (by linarith) (by linarith)
  have h2 : 2 * Real.pi / (n : ℝ) ≤ Real.pi := by rw [div_le_iff₀ (by linarith)]; nlinarith
  have := Real.cos_lt_cos_of_nonneg_of_le_pi (by positivity) h2 h1
  linarith

/-- The other form is the symmetric window. -/
theorem C174_window_symmetric (n i : Nat) (h : i < n) : hannWindow n false i = hannWindow n false (n - 1 - i) ∧ hannWindow n false 0 = 0 := by
  constructor
  · unfold hannWindow
    simp only [Bool.false_eq_true, if_false]
    congr 2
    rcases Nat.lt_or_ge 1 n with hn | hn
    · have hd : (n : ℝ) - 1 ≠ 0 := by
        have : (1 : ℝ) < n := by exact_mod_cast hn
        linarith
      have : 2 * Real.pi * ((n - 1 - i : Nat) : ℝ) / ((n : ℝ) - 1) = 2 * Real.pi - 2 * Real.pi * (i : ℝ) / ((n : ℝ) - 1) := by
        rw [Nat.cast_sub (by omega), Nat.cast_sub (by omega)]
        push_cast
        field_simp
      rw [this, Real.cos_two_pi_sub]
    · have : n = 1 := by omega
      subst this
      have : i = 0 := by omega
      subst this
      simp
  · simp [hannWindow]

/-! ## The features -/

theorem largest_spec {xs : List ℝ} (h : xs ≠ []) : largest xs ∈ xs ∧ ∀ x ∈ xs, x ≤ largest xs := by
  obtain ⟨a, t, rfl⟩ := List.exists_cons_of_ne_nil h
  unfold largest
  simp only [List.tail_cons, List.headD_cons]
  clear h
  induction t using List.reverseRecOn with
  | nil => simp
  | append_singleton t b ih =>
    rw [List.foldl_append, List.foldl_cons, List.foldl_nil]
    obtain ⟨h1, h2⟩ := ih
    constructor
    · rcases max_choice (t.foldl max a) b with h | h
      · rw [h]
        rcases List.mem_cons.mp h1 with h1 | h1
        · rw [h1]; simp
        · exact List.mem_cons_of_mem _ (List.mem_append_left _ h1)
      · rw [h]
        simp
    · intro x hx
      rw [← List.cons_append, List.mem_append, List.mem_singleton] at hx
      rcases hx with hx | rfl
      · exact (h2 x hx).trans (le_max_left _ _)
      · exact le_max_right _ _

/-- Compression: the features keep the order of the energies, the largest is mapped to `(log10 e + 4) / 4`, none is
more than two below it, and exactly the energies more than eight decades below the largest are raised. -/
theorem C174_compress {big : ℝ} (hbig : 100 ≤ big) {xs : List ℝ} (hne : xs ≠ []) (hx : ∀ x ∈ xs, x ≤ big)
    (hlog : Real.log big / Real.log 10 ≤ big) :
    ∃ e, e ∈ xs ∧ (∀ x ∈ xs, x ≤ e) ∧
      compress big xs = xs.map fun x =>
        (max (Real.log (max x (1 / 10 ^ 10)) / Real.log 10) (Real.log (max e (1 / 10 ^ 10)) / Real.log 10 - 8) + 4) / 4 := by
  have hl10 : 0 < Real.log 10 := Real.log_pos (by norm_num)
  have hsmall : (0 : ℝ) < 1 / 10 ^ 10 := by positivity
  have hclip : ∀ x ∈ xs, clip (1 / 10 ^ 10) big x = max x (1 / 10 ^ 10) := by
    intro x hxm
    unfold clip
    rw [min_eq_left]
    apply max_le (hx x hxm)
    have : (1 : ℝ) / 10 ^ 10 ≤ 1 := by norm_num
    linarith
  obtain ⟨lf, hlf⟩ : ∃ lf : ℝ → ℝ, lf = fun x => Real.log (max x (1 / 10 ^ 10)) / Real.log 10 := ⟨_, rfl⟩
  have hmono : ∀ x y, x ≤ y → lf x ≤ lf y := by
    intro x y hxy
    rw [hlf]
    apply div_le_div_of_nonneg_right _ hl10.le
    apply Real.log_le_log
    · exact lt_of_lt_of_le hsmall (le_max_right _ _)
    · exact max_le_max hxy le_rfl
  have hlogs : xs.map (fun x => Real.log (clip (1 / 10 ^ 10) big x) / Real.log 10) = xs.map lf := by
    apply List.map_congr_left
    intro x hxm
    rw [hclip x hxm, hlf]
  have hne' : xs.map lf ≠ [] := by simpa using hne
  obtain ⟨h1, h2⟩ := largest_spec hne'
  obtain ⟨e0, _, he0l⟩ := List.mem_map.mp h1
  obtain ⟨hm1, hm2⟩ := largest_spec hne
  have hmax : largest (xs.map lf) = lf (largest xs) := by
    apply le_antisymm
    · rw [← he0l]
      exact hmono _ _ (hm2 _ (by assumption))
    · exact h2 _ (List.mem_map.mpr ⟨_, hm1, rfl⟩)
  refine ⟨largest xs, hm1, hm2, ?_⟩
  unfold compress
  simp only [hlogs, hmax, List.map_map]
  apply List.map_congr_left
  intro x hxm
  have hbound : ∀ y ∈ xs, lf y ≤ big := by
    intro y hy
    have : lf y ≤ lf big := hmono _ _ (hx y hy)
    have hb : lf big = Real.log big / Real.log 10 := by
      rw [hlf]
      dsimp only
      rw [max_eq_left]
      have : (1 : ℝ) / 10 ^ 10 ≤ 1 := by norm_num
      linarith
    linarith
  have hcl : clip (lf (largest xs) - 8) big (lf x) = max (lf x) (lf (largest xs) - 8) := by
    unfold clip
    rw [min_eq_left]
    apply max_le (hbound x hxm)
    have := hbound _ hm1
    linarith
  rw [Function.comp_apply, hcl, hlf]

/-- The mel spectrogram is the filterbank applied to the power spectrum of each frame. -/
theorem C174_mel (s : Nat → ℂ) (fb : Nat → Nat → ℝ) (bins m : Nat) :
    melValue s fb bins 2 m = ∑ k ∈ range bins, ((s k).re ^ 2 + (s k).im ^ 2) * fb k m ∧
    ((∀ k, 0 ≤ fb k m) → 0 ≤ melValue s fb bins 2 m) := by
  have h : melValue s fb bins 2 m = ∑ k ∈ range bins, ((s k).re ^ 2 + (s k).im ^ 2) * fb k m := by
    unfold melValue
    simp only [if_true]
    induction bins with
    | zero => simp
    | succ n ih =>
      rw [List.range_succ, List.map_append, List.sum_append, ih, sum_range_succ]
      simp only [List.map_cons, List.map_nil, List.sum_cons, List.sum_nil, add_zero]
      congr 2
      rw [← pow_two, ← Complex.normSq_eq_norm_sq, Complex.normSq_apply]
      ring
  refine ⟨h, fun hfb => ?_⟩
  rw [h]
  exact sum_nonneg fun k _ => mul_nonneg (by positivity) (hfb k)

/-- The extractor always gets the configured number of samples: the audio, cut or followed by silence. -/
theorem C174_fit (n : Nat) (audio buf : Nat → ℝ) (len : Nat) {i : Nat} (h : i < n) :
    fit n audio buf len i = if i < len then audio i else 0 := by
  unfold fit
  by_cases hl : len ≤ n
  · rw [if_pos hl]
    rw [if_pos h]
  · rw [if_neg hl]
    rw [if_pos h, if_pos (by omega)]

/-- The processor's transform: the row is always long enough for the mirrored padding, there are `n / hop + 1`
frames. -/
theorem C174_frames {n hop : Nat} (hn : 201 ≤ n) :
    (∀ r ∈ padReads { nfft := 400, hop := hop, win := 400, center := true, mode := "reflect" } n, 0 ≤ r ∧ r < n) ∧
    frames { nfft := 400, hop := hop, win := 400, center := true, mode := "reflect" } n = n / hop + 1 := by
  constructor
  · rw [C173_padding_reads]
    intro _ _
    right
    show 400 / 2 < n
    omega
  · unfold frames
    simp only [if_true]
    have : (n : Int) + 2 * ((400 / 2 : Nat) : Int) - ((400 : Nat) : Int) = (n : Int) := by omega
    rw [this, Int.tdiv_eq_ediv_of_nonneg (by omega), add_comm]

/-! ## Instances -/

example : hertzToMel 500 = 7.5 ∧ hertzToMel 6400 = 42 := by
  have hl := log64
  constructor
  · rw [hertzToMel, if_pos (by norm_num)]
    norm_num
  · rw [hertzToMel, if_neg (by norm_num)]
    have : (6400 : ℝ) / 1000 = 64 / 10 := by norm_num
    rw [this]
    field_simp
    norm_num

/-- MiniCPM-o's features: 30 seconds at 16 kHz, 10 ms frames. -/
example : frames { nfft := 400, hop := 160, win := 400, center := true, mode := "reflect" } 480000 = 3001 :=
  (C174_frames (n := 480000) (hop := 160) (by decide)).2

example : StrictMono (filterFreq 80 0 8000) := (C174_corners 80 (by norm_num)).2.2

/-- Two energies ten decades apart: two features exactly two apart. -/
example : compress (10 ^ 38) [1, 1 / 10 ^ 10] = [1, -1] := by
  have h10 : Real.log 10 ≠ 0 := (Real.log_pos (by norm_num)).ne'
  obtain ⟨e, he, hmax, h⟩ := C174_compress (big := 10 ^ 38) (by norm_num) (xs := [1, 1 / 10 ^ 10]) (by simp)
    (by intro x hx; rcases List.mem_cons.mp hx with rfl | hx; · norm_num
        · rw [List.mem_singleton] at hx; rw [hx]; norm_num)
    (by rw [Real.log_pow]; rw [mul_div_assoc, div_self h10]; norm_num)
  have he1 : e = 1 := by
    have := hmax 1 (by simp)
    rcases List.mem_cons.mp he with rfl | he
    · rfl
    · rw [List.mem_singleton] at he
      rw [he] at this
      norm_num at this
  rw [h, he1]
  have m1 : max (1 : ℝ) (1 / 10 ^ 10) = 1 := max_eq_left (by norm_num)
  have m2 : Real.log ((1 : ℝ) / 10 ^ 10) / Real.log 10 = -10 := by
    rw [one_div, Real.log_inv, Real.log_pow]
    field_simp
    norm_num
  simp only [List.map_cons, List.map_nil, m1, max_self, Real.log_one, zero_div, m2]
  norm_num

end Verif.Fft
