import Verif.Kern.ConvLemmas

/-! C127 (convolutions) and C128 (average pooling). -/

namespace Verif.Kern

open Verif.Tensor (numel InB lin lin_lt)

variable {α : Type} [CommRing α]

/-! # C127, one dimension -/

theorem padAt_int (len p : Nat) (f : Nat → α) (i : Nat) :
    padAt len p f i = if 0 ≤ (i : Int) - p ∧ (i : Int) - p < len then f ((i : Int) - p).toNat else 0 := by
  unfold padAt
  by_cases h : p ≤ i ∧ i - p < len
  · rw [if_pos h, if_pos (by omega)]; congr 1; omega
  · rw [if_neg h, if_neg (by omega)]

theorem conv1Cell_run {o : Conv1Opts} {B L T : Nat} {x w : Ten α} {bias : Option (Nat → α)} (hx : x.Is [B, o.cin, L])
    (hw : w.Is [o.cout, o.cin / o.groups, o.k]) (hg : 0 < o.groups) (hci : o.cin % o.groups = 0) (hco : o.cout % o.groups = 0)
    {b oc t : Nat} (hb : b < B) (hoc : oc < o.cout) (ht : t < T) :
    conv1Cell o o.cin o.cout L T x.data w.data bias (b * (o.cout * T) + (oc * T + t)) =
      [Upd.put (b * (o.cout * T) + (oc * T + t)) (conv1At x w bias (o.cin / o.groups) (o.cout / o.groups) L o.k o.stride o.padding
        o.dilation b oc t)] := by
  unfold conv1Cell
  obtain ⟨d1, d2, d3⟩ := decode3 (b := b) hoc ht
  simp only [d1, d2, d3]
  have hog : 0 < o.cout / o.groups := by
    rcases Nat.eq_zero_or_pos (o.cout / o.groups) with h | h
    · have := Nat.div_add_mod o.cout o.groups
      rw [h, hco] at this; omega
    · exact h
  have hgr : oc / (o.cout / o.groups) < o.groups := by
    rw [Nat.div_lt_iff_lt_mul hog]
    have := Nat.div_add_mod o.cout o.groups
    rw [hco] at this
    omega
  have key : each (o.cin / o.groups) (fun c => each o.k fun k s =>
      if 0 ≤ (t : Int) * o.stride - o.padding + k * o.dilation ∧ (t : Int) * o.stride - o.padding + k * o.dilation < L then
        s + x.data (b * (o.cin * L) + (oc / (o.cout / o.groups) * (o.cin / o.groups) + c) * L +
              ((t : Int) * o.stride - o.padding + k * o.dilation).toNat) *
          w.data (oc / (o.cout / o.groups) * (o.cout / o.groups * (o.cin / o.groups) * o.k) +
              oc % (o.cout / o.groups) * (o.cin / o.groups * o.k) + c * o.k + k)
      else s) (0 : α) = ∑ c ∈ Finset.range (o.cin / o.groups), ∑ j ∈ Finset.range o.k,
        padAt L o.padding (fun q => x.get [b, oc / (o.cout / o.groups) * (o.cin / o.groups) + c, q]) (t * o.stride + j * o.dilation) *
          w.get [oc, c, j] := by
    rw [each_add (g := fun c => ∑ j ∈ Finset.range o.k,
        padAt L o.padding (fun q => x.get [b, oc / (o.cout / o.groups) * (o.cin / o.groups) + c, q]) (t * o.stride + j * o.dilation) *
          w.get [oc, c, j]), zero_add]
    intro c hc s
    refine each_add ?_ s
    intro j hj s
    have hch : oc / (o.cout / o.groups) * (o.cin / o.groups) + c < o.cin := by
      have h1 : (oc / (o.cout / o.groups) + 1) * (o.cin / o.groups) ≤ o.groups * (o.cin / o.groups) := Nat.mul_le_mul_right _ hgr
      have := Nat.div_add_mod o.cin o.groups
      rw [hci] at this
      rw [Nat.add_mul] at h1
      omega
    have hwg : w.get [oc, c, j] = w.data (oc / (o.cout / o.groups) * (o.cout / o.groups * (o.cin / o.groups) * o.k) +
        oc % (o.cout / o.groups) * (o.cin / o.groups * o.k) + c * o.k + j) := by
      rw [hw.get (by exact ⟨hoc, hc, hj, trivial⟩), lin3]
      congr 1
      have := Nat.div_add_mod oc (o.cout / o.groups)
      generalize oc / (o.cout / o.groups) = q at *
      generalize oc % (o.cout / o.groups) = r at *
      rw [← this]
      ring
    rw [padAt_int, hwg]
    have hpos : ((t * o.stride + j * o.dilation : Nat) : Int) - o.padding = (t : Int) * o.stride - o.padding + j * o.dilation := by
      push_cast; ring
    rw [hpos]
    by_cases hin : 0 ≤ (t : Int) * o.stride - o.padding + j * o.dilation ∧ (t : Int) * o.stride - o.padding + j * o.dilation < L
    · rw [if_pos hin, if_pos hin, hx.get (by exact ⟨hb, hch, by omega, trivial⟩), lin3]
      simp only [Nat.add_assoc]
    · rw [if_neg hin, if_neg hin, zero_mul, add_zero]
  rw [key]
  unfold conv1At
  rw [Nat.add_assoc (b * (o.cout * T))]
  cases bias <;> simp

/-- `C127`, one dimension: with contiguous input and weight and a kernel that fits into the padded input, the output has one
entry per window position and each is the grouped, dilated, padded convolution, for all sizes and schedules. -/
theorem C127_conv1d_partial (o : Conv1Opts) (x w : Ten α) (bias : Option (Nat → α)) (B L : Nat) (hx : x.Is [B, o.cin, L])
    (hw : w.Is [o.cout, o.cin / o.groups, o.k]) (hg : 0 < o.groups) (hci : o.cin % o.groups = 0) (hco : o.cout % o.groups = 0)
    (hk : 0 < o.k) (hs : 0 < o.stride) (hf : o.dilation * (o.k - 1) < L + 2 * o.padding) :
    ∃ T ss, conv1 o x w bias = .ok ([B, o.cout, T], ss) ∧ OutLen T L o.k o.stride o.padding o.dilation ∧
      Yields ss [B, o.cout, T] fun ix => conv1At x w bias (o.cin / o.groups) (o.cout / o.groups) L o.k o.stride o.padding
        o.dilation (ix.getD 0 0) (ix.getD 1 0) (ix.getD 2 0) := by
  obtain ⟨T, hT⟩ : ∃ T, T = (L + 2 * o.padding - o.dilation * (o.k - 1) - 1) / o.stride + 1 := ⟨_, rfl⟩
  have hc : conv1 o x w bias = .ok ([B, o.cout, T], conv1Forward o B o.cin o.cout L T x.data w.data bias) := by
    unfold conv1
    rw [hx.1]
    simp only [ne_eq, not_true_eq_false, if_false, hci, hco]
    rw [if_neg (by omega), convLen_fits hk hf, ← hT, asSize_ok hs]
    rfl
  refine ⟨T, _, hc, hT ▸ outLen_fits hs hf, ?_⟩
  intro m m' hex
  have hin : ∀ i < B * o.cout * T, ∀ u ∈ conv1Cell o o.cin o.cout L T x.data w.data bias i, u.addr = i := by
    intro i hi u hu
    have hT0 : 0 < T := by rcases Nat.eq_zero_or_pos T with h | h; (· rw [h] at hi; omega); exact h
    unfold conv1Cell at hu
    simp only [List.mem_singleton] at hu
    subst hu
    simp only [Upd.put]
    have h1 := Nat.div_add_mod i (o.cout * T)
    have h2 := Nat.div_add_mod (i % (o.cout * T)) T
    rw [Nat.mod_mul_left_mod] at h2
    rw [Nat.mul_comm (i / (o.cout * T)), Nat.mul_comm (i % (o.cout * T) / T)]
    omega
  obtain ⟨h1, h2⟩ := Exec.cells hin hex
  refine ⟨?_, fun y hy => h2 y (by simpa [numel, Nat.mul_assoc] using hy)⟩
  intro ix hix
  obtain ⟨b, c, t, rfl, hb, hcc, ht⟩ := inB3 hix
  rw [out_get hix]
  have hlt := lin_lt hix
  rw [lin3] at hlt ⊢
  obtain ⟨m1, -, hm⟩ := h1 _ (by simpa [numel, Nat.mul_assoc] using hlt)
  rw [hm, conv1Cell_run hx hw hg hci hco hb hcc ht]
  simp [run, Upd.put]

/-- Refused: a wrong rank, a wrong number of channels, groups that do not divide the channels. -/
theorem C127_conv1d_refuses (o : Conv1Opts) (x w : Ten α) (bias : Option (Nat → α))
    (h : x.shape.length ≠ 3 ∨ x.shape.getD 1 0 ≠ o.cin ∨ o.cin % o.groups ≠ 0 ∨ o.cout % o.groups ≠ 0) :
    ∃ e, conv1 o x w bias = .error e := by
  unfold conv1
  split
  · rename_i batch cin seq he
    rw [he] at h
    simp only [List.length_cons, List.length_nil, Nat.reduceAdd, not_true_eq_false, false_or, ne_eq, List.getD_eq_getElem?_getD,
      List.getElem?_cons_succ, List.getElem?_cons_zero, Option.getD_some] at h
    by_cases h1 : cin = o.cin
    · rw [if_neg (by simpa using h1)]
      by_cases h2 : o.groups = 0
      · exact ⟨_, if_pos h2⟩
      · rw [if_neg h2]
        by_cases h3 : cin % o.groups = 0
        · rw [if_neg (by simpa using h3)]
          have h4 : o.cout % o.groups ≠ 0 := by
            subst h1
            rcases h with h | h | h
            · exact absurd rfl h
            · exact absurd h3 h
            · exact h
          exact ⟨_, if_pos h4⟩
        · exact ⟨_, if_pos h3⟩
    · exact ⟨_, if_pos h1⟩
  · exact ⟨_, rfl⟩

/-- `C127` fails: a kernel that is larger than the padded input, by less than the stride, is accepted and gives one output,
although it fits nowhere. -/
theorem C127_conv1d_no_window_violated (o : Conv1Opts) (x w : Ten α) (bias : Option (Nat → α)) (B L : Nat)
    (hx : x.shape = [B, o.cin, L]) (hg : 0 < o.groups) (hci : o.cin % o.groups = 0) (hco : o.cout % o.groups = 0)
    (hk : 0 < o.k) (hf : L + 2 * o.padding ≤ o.dilation * (o.k - 1))
    (hs : o.dilation * (o.k - 1) + 1 < L + 2 * o.padding + o.stride) :
    (∃ ss, conv1 o x w bias = .ok ([B, o.cout, 1], ss)) ∧ ¬ OutLen 1 L o.k o.stride o.padding o.dilation := by
  constructor
  · unfold conv1
    rw [hx]
    simp only [ne_eq, not_true_eq_false, if_false, hci, hco]
    rw [if_neg (by omega), convLen_short hk hf hs]
    have := asSize_ok (stride := o.stride) (n := 1) (by omega)
    rw [show ((1 : Nat) : Int) = 1 from rfl] at this
    rw [this]
    exact ⟨_, rfl⟩
  · intro h
    have := (h 0).mp (by omega)
    omega

/-- `C127` fails for views: the strides of the input are never read. -/
theorem C127_conv1d_strides_ignored_violated (o : Conv1Opts) (x w : Ten α) (bias : Option (Nat → α)) (s : List Nat) :
    conv1 o { x with stride := s } w bias = conv1 o x w bias := rfl

/-! ## Concrete cases -/

/-- A strided, padded, dilated convolution with two groups. -/
def c1Opts : Conv1Opts where
  cin := 2
  cout := 2
  k := 2
  stride := 2
  padding := 1
  groups := 2
  dilation := 2

def c1In : Ten ℤ := ⟨[1, 2, 4], [8, 4, 1], fun i => i + 1⟩
def c1W : Ten ℤ := ⟨[2, 1, 2], [2, 2, 1], fun i => i + 1⟩

/-- The hypotheses of `C127_conv1d_partial` are met: outputs `[4, 10], [24, 52]` plus the bias. -/
example : ∃ ss, conv1 c1Opts c1In c1W (some fun i => 100 * i) = .ok ([1, 2, 2], ss) ∧ ∀ m m', Exec ss m m' →
    (outRows [1, 2, 2] m').get [0, 0, 0] = 4 ∧ (outRows [1, 2, 2] m').get [0, 1, 1] = 150 := by
  obtain ⟨T, ss, h, hT, hc⟩ := C127_conv1d_partial c1Opts c1In c1W (some fun i => 100 * i) 1 4 ⟨rfl, rfl⟩ ⟨rfl, rfl⟩
    (by decide) (by decide) (by decide) (by decide) (by decide) (by decide)
  have hT2 : T = 2 := by
    have h1 := (hT 1).mpr (by decide)
    have h2 := (hT 2).not.mpr (by decide)
    omega
  subst hT2
  refine ⟨ss, h, fun m m' hex => ?_⟩
  obtain ⟨hv, -⟩ := hc m m' hex
  exact ⟨(hv [0, 0, 0] (by simp [InB, c1Opts])).trans (by decide +kernel),
    (hv [0, 1, 1] (by simp [InB, c1Opts])).trans (by decide +kernel)⟩

/-- One channel pair, kernel of size one: the output is the input. -/
def c1Id : Conv1Opts where
  cin := 2
  cout := 2
  k := 1
  stride := 1
  padding := 0
  groups := 2
  dilation := 1

/-- `C127` fails on a transposed view `[[1, 3], [2, 4]]` of `[[1, 2], [3, 4]]`: entry `(0, 1)` should be `3` and is `2`. -/
theorem C127_conv1d_view_violated :
    let x : Ten ℤ := ⟨[1, 2, 2], [4, 1, 2], fun i => i + 1⟩
    let w : Ten ℤ := ⟨[2, 1, 1], [1, 1, 1], fun _ => 1⟩
    conv1At x w none 1 1 2 1 1 0 1 0 0 1 = 3 ∧
      ∃ ss, conv1 c1Id x w none = .ok ([1, 2, 2], ss) ∧ ∀ m m', Exec ss m m' → (outRows [1, 2, 2] m').get [0, 0, 1] = 2 := by
  refine ⟨by decide +kernel, ?_⟩
  obtain ⟨T, ss, h, hT, hc⟩ := C127_conv1d_partial c1Id ⟨[1, 2, 2], [4, 2, 1], fun i => (i : ℤ) + 1⟩
    ⟨[2, 1, 1], [1, 1, 1], fun _ => 1⟩ none 1 2 ⟨rfl, rfl⟩ ⟨rfl, rfl⟩ (by decide) (by decide) (by decide) (by decide) (by decide)
    (by decide)
  have hT2 : T = 2 := by
    have h1 := (hT 1).mpr (by decide)
    have h2 := (hT 2).not.mpr (by decide)
    omega
  subst hT2
  refine ⟨ss, h, fun m m' hex => ?_⟩
  exact ((hc m m' hex).1 [0, 0, 1] (by simp [InB, c1Id])).trans (by decide +kernel)

/-- The hypotheses of `C127_conv1d_no_window_violated` are met: a kernel of three on an input of two, stride three. -/
example (w : Ten ℤ) : (∃ ss, conv1 { c1Id with k := 3, stride := 3 } ⟨[1, 2, 2], [4, 2, 1], fun i => (i : ℤ)⟩ w none
    = .ok ([1, 2, 1], ss)) ∧ ¬ OutLen 1 2 3 3 0 1 :=
  C127_conv1d_no_window_violated { c1Id with k := 3, stride := 3 } _ w none 1 2 rfl (by decide) (by decide) (by decide) (by decide)
    (by decide) (by decide)

end Verif.Kern
