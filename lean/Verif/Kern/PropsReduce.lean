import Verif.Kern.Reduce
import Verif.Kern.PropsNorm

/-!
C124: reductions.
-/

namespace Verif.Kern

open Verif.Tensor (numel InB lin lin_lt coords coords_spec)

/-! ### Specification -/

/-- The shape and the index of the reduced axis in the result. -/
def keepDim (keep : Bool) : List Nat := if keep then [1] else []
def keepIdx (keep : Bool) : List Nat := if keep then [0] else []

/-- Reducing one axis (given from the front or from the back) or everything: every element of the result stands in relation
`R n` to the `n > 0` elements it is taken from, whatever the result's storage held before. -/
structure Reduces {α : Type} (k : RedKernel α) (s : Simd) (R : Nat → (Nat → α) → α → Prop) : Prop where
  axis : ∀ (x : Ten α) (pre : List Nat) (n : Nat) (post : List Nat) (dim : Int) (keep : Bool) (m : Nat → α),
    x.shape = pre ++ n :: post → x.stride = rowStr x.shape → pre.length < 2 ^ 31 - 1 → 0 < n →
    (dim = pre.length ∨ dim = -(post.length + 1 : Int)) →
    ∃ out, reduce k s x dim keep m = some out ∧ out.shape = pre ++ keepDim keep ++ post ∧
      ∀ ix jx, InB pre ix → InB post jx → R n (fun i => x.get (ix ++ i :: jx)) (out.get (ix ++ keepIdx keep ++ jx))
  all : ∀ (x : Ten α) (keep : Bool) (m : Nat → α), x.stride = rowStr x.shape → 0 < numel x.shape →
    ∃ out, reduce k s x 0x7fffffff keep m = some out ∧ numel out.shape = 1 ∧
      R (numel x.shape) (fun a => x.get (coords x.shape a)) (out.get (List.replicate out.shape.length 0))

/-! ### Proofs -/

section
variable {α : Type}

theorem pos_pre : ∀ {pre ix : List Nat} (_ : InB pre ix) (q rest : List Nat),
    pos (ix ++ rest) (rowStr (pre ++ q)) = lin pre ix * numel q + pos rest (rowStr q)
  | [], [], _, q, rest => by simp [lin]
  | d :: pre, i :: ix, h, q, rest => by
    simp only [List.cons_append, rowStr, pos, lin]
    rw [pos_pre h.2, numel_append']
    ring

theorem pos_axis {pre ix post jx : List Nat} (hi : InB pre ix) (hj : InB post jx) (n i : Nat) :
    pos (ix ++ i :: jx) (rowStr (pre ++ n :: post)) = lin pre ix * n * numel post + lin post jx + i * numel post := by
  rw [pos_pre hi, rowStr, pos, pos_rowStr hj, numel]
  ring

theorem rep_pos (k : Nat) (sh : List Nat) : pos (List.replicate k 0) (rowStr sh) = 0 := by
  induction k generalizing sh with
  | zero => cases sh <;> rfl
  | succ k ih =>
    cases sh with
    | nil => rfl
    | cons d sh => simp [List.replicate_succ, rowStr, pos, ih]

theorem numel_ones (k : Nat) : numel (List.replicate k 1) = 1 := by
  induction k with
  | zero => rfl
  | succ k ih => simp [List.replicate_succ, numel, ih]

theorem inB_len : ∀ {sh ix : List Nat} (_ : InB sh ix), ix.length = sh.length
  | [], [], _ => rfl
  | _ :: _, _ :: _, h => by simp [inB_len h.2]

theorem reduce_axis {k : RedKernel α} {s : Simd} {r : Nat → Nat → (Nat → α) → α} (hk : k.on s = some r) (x : Ten α)
    (pre : List Nat) (n : Nat) (post : List Nat) (dim : Int) (keep : Bool) (m : Nat → α) (hs : x.shape = pre ++ n :: post)
    (hst : x.stride = rowStr x.shape) (hp : pre.length < 2 ^ 31 - 1) (hd : dim = pre.length ∨ dim = -(post.length + 1 : Int)) :
    ∃ out, reduce k s x dim keep m = some out ∧ out.shape = pre ++ keepDim keep ++ post ∧
      ∀ ix jx, InB pre ix → InB post jx →
        out.get (ix ++ keepIdx keep ++ jx) = r (numel post) n fun i => x.get (ix ++ i :: jx) := by
  have hdim : dimOf x.shape dim = pre.length := by
    unfold dimOf
    rw [hs]
    rcases hd with e | e <;> subst e
    · rw [if_neg (by omega)]
    · rw [if_pos (by omega)]
      simp only [List.length_append, List.length_cons]
      push_cast
      omega
  have hne : dim ≠ dimAll := by
    unfold dimAll
    rcases hd with e | e <;> subst e <;> omega
  have hne' : dimOf x.shape dim ≠ dimAll := by
    rw [hdim]
    unfold dimAll
    omega
  have hrng : 0 ≤ dimOf x.shape dim ∧ dimOf x.shape dim < x.shape.length := by
    rw [hdim, hs]
    simp only [List.length_append, List.length_cons]
    push_cast
    omega
  have hsh : redShape x.shape dim keep = some (pre ++ keepDim keep ++ post) := by
    unfold redShape
    rw [if_neg hne]
    dsimp only
    rw [if_pos hrng, hdim, hs]
    cases keep
    · simp [keepDim, List.eraseIdx_append_of_length_le]
    · simp [keepDim]
  have htake : x.shape.take pre.length = pre := by rw [hs]; simp
  have hdrop : x.shape.drop (pre.length + 1) = post := by rw [hs]; simp
  have hget : x.shape.getD pre.length 0 = n := by rw [hs]; simp
  obtain ⟨us, hus⟩ : ∃ us, us = ((List.range (numel pre)).flatMap fun o => (List.range (numel post)).map fun i =>
      Upd.put (o * numel post + i) (r (numel post) n fun j => x.data (o * n * numel post + i + j * numel post))) := ⟨_, rfl⟩
  have hfw : redForward k s x dim = some us := by
    unfold redForward
    dsimp only
    rw [if_neg hne', if_pos hrng, hdim, Int.toNat_natCast, htake, hdrop, hget, hk, hus]
  refine ⟨outRows (pre ++ keepDim keep ++ post) (run us m), ?_, rfl, ?_⟩
  · unfold reduce
    rw [hsh, hfw]
    rfl
  · intro ix jx hix hjx
    have hpos : pos (ix ++ keepIdx keep ++ jx) (rowStr (pre ++ keepDim keep ++ post)) = lin pre ix * numel post + lin post jx := by
      cases keep
      · simp only [keepIdx, keepDim, Bool.false_eq_true, if_false, List.append_nil]
        rw [pos_pre hix, pos_rowStr hjx]
      · simp only [keepIdx, keepDim, if_true, List.append_assoc, List.singleton_append]
        rw [pos_axis hix hjx]
        ring
    show run us m (pos _ _) = _
    show run us m (pos (ix ++ keepIdx keep ++ jx) (rowStr (pre ++ keepDim keep ++ post))) = _
    rw [hpos]
    have hv : (r (numel post) n fun i => x.get (ix ++ i :: jx)) =
        r (numel post) n fun j => x.data (lin pre ix * n * numel post + lin post jx + j * numel post) := by
      congr 1
      funext i
      rw [Ten.get, hst, hs, pos_axis hix hjx]
    rw [hv, hus]
    have ho := lin_lt hix
    have hi := lin_lt hjx
    refine run_agree ?_ ?_ m
    · intro u hu hau y
      obtain ⟨o, ho', hu⟩ := List.mem_flatMap.mp hu
      obtain ⟨i, hi', rfl⟩ := List.mem_map.mp hu
      have hi'' := List.mem_range.mp hi'
      have e := hau
      dsimp only [Upd.put] at e
      have eo : o = lin pre ix := by
        rcases Nat.lt_trichotomy o (lin pre ix) with h | h | h
        · have c : (o + 1) * numel post ≤ lin pre ix * numel post := Nat.mul_le_mul_right _ h
          rw [Nat.add_mul] at c; omega
        · exact h
        · have c : (lin pre ix + 1) * numel post ≤ o * numel post := Nat.mul_le_mul_right _ h
          rw [Nat.add_mul] at c; omega
      subst eo
      have ei : i = lin post jx := by omega
      subst ei
      rfl
    · exact ⟨_, List.mem_flatMap.mpr ⟨_, List.mem_range.mpr ho, List.mem_map.mpr ⟨_, List.mem_range.mpr hi, rfl⟩⟩, rfl⟩

theorem reduce_all {k : RedKernel α} {s : Simd} {r : Nat → Nat → (Nat → α) → α} (hk : k.on s = some r) (x : Ten α)
    (keep : Bool) (m : Nat → α) :
    ∃ out, reduce k s x 0x7fffffff keep m = some out ∧ numel out.shape = 1 ∧
      out.get (List.replicate out.shape.length 0) = r 1 (numel x.shape) x.data := by
  have hd : dimOf x.shape 0x7fffffff = dimAll := by unfold dimOf dimAll; rw [if_neg (by omega)]
  have hfw : redForward k s x 0x7fffffff = some [Upd.put 0 (r 1 (numel x.shape) x.data)] := by
    unfold redForward
    dsimp only
    rw [if_pos hd, hk]
  refine ⟨outRows (if keep then List.replicate x.shape.length 1 else [1]) (run [Upd.put 0 (r 1 (numel x.shape) x.data)] m),
    ?_, ?_, ?_⟩
  · unfold reduce redShape
    rw [hfw, if_pos (by rfl)]
    rfl
  · cases keep
    · rfl
    · exact numel_ones _
  · show run _ m (pos _ (rowStr _)) = _
    rw [rep_pos]
    exact run_agree (fun u hu _ y => by rw [List.mem_singleton.mp hu]; rfl) ⟨_, List.mem_singleton.mpr rfl, rfl⟩ m

/-- From a kernel that computes `R`. -/
theorem reduces_of {k : RedKernel α} {s : Simd} {R : Nat → (Nat → α) → α → Prop} {r : Nat → Nat → (Nat → α) → α}
    (hk : k.on s = some r) (hr : ∀ stride n f, 0 < n → R n f (r stride n f))
    (hc : ∀ n f g a, (∀ i < n, f i = g i) → R n f a → R n g a) : Reduces k s R := by
  constructor
  · intro x pre n post dim keep m hs hst hp hn hd
    obtain ⟨out, h1, h2, h3⟩ := reduce_axis hk x pre n post dim keep m hs hst hp hd
    exact ⟨out, h1, h2, fun ix jx hix hjx => by rw [h3 ix jx hix hjx]; exact hr _ _ _ hn⟩
  · intro x keep m hst hn
    obtain ⟨out, h1, h2, h3⟩ := reduce_all hk x keep m
    refine ⟨out, h1, h2, ?_⟩
    rw [h3]
    refine hc _ x.data _ _ (fun a ha => ?_) (hr _ _ _ hn)
    obtain ⟨c1, c2⟩ := coords_spec ha
    rw [Ten.get, hst, pos_rowStr c1, c2]

end

/-! ### Theorems -/

/-- C124, sums of floats, on both builds. -/
theorem C124_sum_partial (lanes : Nat) (hl : 0 < lanes) (s : Simd) :
    Reduces (sumF32 lanes) s fun n f a => a = ∑ i ∈ Finset.range n, f i := by
  have hc : ∀ (n : Nat) (f g : Nat → ℝ) (a : ℝ), (∀ i < n, f i = g i) → a = ∑ i ∈ Finset.range n, f i →
      a = ∑ i ∈ Finset.range n, g i := by
    intro n f g a h e
    rw [e]
    exact Finset.sum_congr rfl fun i hi => h i (Finset.mem_range.mp hi)
  cases s with
  | arm =>
    refine reduces_of (r := armReduce (· + ·) 0 4) rfl (fun stride n f hn => ?_) hc
    exact armReduce_hom (h := id) (fun _ _ => rfl) 0 (by omega) stride hn f
  | x86 _ =>
    refine reduces_of (r := x86Reduce (· + ·) 0 lanes) rfl (fun stride n f hn => ?_) hc
    exact x86Reduce_sum hl stride hn f

theorem foldFrom_sat {α : Type} {op : α → α → α} {P : α → Prop} (hop : ∀ a b, P a → P b → P (op a b)) {s : α} (hs : P s) {k : Nat}
    {f : Nat → α} (hf : ∀ i < k, P (f i)) : P (foldFrom op s k f) := by
  induction k with
  | zero => exact hs
  | succ k ih =>
    rw [foldFrom_succ]
    exact hop _ _ (ih fun i hi => hf i (by omega)) (hf k (by omega))

/-- A choice that never lies below either operand picks a greatest element. -/
theorem armReduce_top {α : Type} {op : α → α → α} {le : α → α → Prop} (hch : ∀ a b, op a b = a ∨ op a b = b)
    (hrefl : ∀ a, le a a) (htr : ∀ a b c, le a b → le b c → le a c) (hl1 : ∀ a b, le a (op a b)) (hl2 : ∀ a b, le b (op a b))
    (ha : ∀ a b c, op (op a b) c = op a (op b c)) (hc : ∀ a b, op a b = op b a) (zero : α) {lanes : Nat} (hl : 0 < lanes)
    (stride : Nat) {n : Nat} (hn : 0 < n) (f : Nat → α) :
    (∀ i < n, le (f i) (armReduce op zero lanes stride n f)) ∧ ∃ i < n, armReduce op zero lanes stride n f = f i := by
  rw [armReduce_seq ha hc zero hl stride hn]
  unfold foldSeq
  constructor
  · have key : ∀ k i, i < k + 1 → le (f i) (foldFrom op (f 0) k fun i => f (i + 1)) := by
      intro k
      induction k with
      | zero => intro i hi; obtain rfl : i = 0 := by omega
                exact hrefl _
      | succ k ih =>
        intro i hi
        rw [foldFrom_succ]
        by_cases e : i = k + 1
        · rw [e]; exact hl2 _ _
        · exact htr _ _ _ (ih i (by omega)) (hl1 _ _)
    intro i hi
    exact key (n - 1) i (by omega)
  · refine foldFrom_sat (P := fun a => ∃ i < n, a = f i) ?_ ⟨0, hn, rfl⟩ (fun i hi => ⟨i + 1, by omega, rfl⟩)
    rintro a b ⟨i, hi, ei⟩ ⟨j, hj, ej⟩
    rcases hch a b with e | e <;> rw [e]
    · exact ⟨i, hi, ei⟩
    · exact ⟨j, hj, ej⟩

/-- C124, maxima of floats, arm only. -/
theorem C124_max_partial : Reduces maxF32 .arm fun n f a => (∀ i < n, f i ≤ a) ∧ ∃ i < n, a = f i := by
  refine reduces_of (r := armReduce max 0 4) rfl (fun stride n f hn => ?_) ?_
  · exact armReduce_top (le := (· ≤ ·)) max_choice (fun _ => le_refl _) (fun _ _ _ => le_trans) le_max_left le_max_right
      max_assoc max_comm 0 (by omega) stride hn f
  · rintro n f g a h ⟨h1, i, hi, e⟩
    exact ⟨fun i hi => by rw [← h i hi]; exact h1 i hi, i, hi, by rw [← h i hi]; exact e⟩

/-- C124, minima of floats, arm only. -/
theorem C124_min_partial : Reduces minF32 .arm fun n f a => (∀ i < n, a ≤ f i) ∧ ∃ i < n, a = f i := by
  refine reduces_of (r := armReduce min 0 4) rfl (fun stride n f hn => ?_) ?_
  · exact armReduce_top (le := fun a b => b ≤ a) min_choice (fun _ => le_refl _) (fun _ _ _ h1 h2 => le_trans h2 h1)
      min_le_left min_le_right min_assoc min_comm 0 (by omega) stride hn f
  · rintro n f g a h ⟨h1, i, hi, e⟩
    exact ⟨fun i hi => by rw [← h i hi]; exact h1 i hi, i, hi, by rw [← h i hi]; exact e⟩

/-- C124, means of floats, arm only. -/
theorem C124_mean_partial : Reduces meanF32 .arm fun n f a => a * n = ∑ i ∈ Finset.range n, f i := by
  refine reduces_of (r := fun stride n f => armReduce (· + ·) 0 4 stride n f / n) rfl (fun stride n f hn => ?_) ?_
  · have := armReduce_hom (op := (· + ·)) (h := id) (fun _ _ => rfl) 0 (by omega : 0 < 4) stride hn f
    have hn' : (n : ℝ) ≠ 0 := by positivity
    show armReduce (· + ·) 0 4 stride n f / n * n = _
    rw [div_mul_cancel₀ _ hn']
    exact this
  · intro n f g a h e
    rw [e]
    exact Finset.sum_congr rfl fun i hi => h i (Finset.mem_range.mp hi)

/-- The wrapped sum. -/
theorem sumInt_val (w lanes : Nat) (hl : 0 < lanes) (stride : Nat) {n : Nat} (hn : 0 < n) (f : Nat → BitVec w) :
    armReduce (· + ·) 0 lanes stride n f = BitVec.ofInt w (∑ i ∈ Finset.range n, (f i).toInt) := by
  rw [armReduce_seq (fun a b c => BitVec.add_assoc a b c) (fun a b => BitVec.add_comm a b) 0 hl stride hn]
  unfold foldSeq
  have key : ∀ k, foldFrom (· + ·) (f 0) k (fun i => f (i + 1)) = BitVec.ofInt w (∑ i ∈ Finset.range (k + 1), (f i).toInt) := by
    intro k
    induction k with
    | zero => simp [foldFrom]
    | succ k ih => rw [foldFrom_succ, ih, Finset.sum_range_succ _ (k + 1), BitVec.ofInt_add, BitVec.ofInt_toInt]
  have := key (n - 1)
  rwa [Nat.sub_add_cancel hn] at this

/-- C124, integer sums on arm: exact modulo `2^w`, as the type of the result demands. -/
theorem C124_sum_int_partial (w lanes : Nat) (hl : 0 < lanes) :
    Reduces (sumInt w lanes) .arm fun n f a => a = BitVec.ofInt w (∑ i ∈ Finset.range n, (f i).toInt) := by
  refine reduces_of (r := armReduce (· + ·) 0 lanes) rfl (fun stride n f hn => sumInt_val w lanes hl stride hn f) ?_
  intro n f g a h e
  rw [e]
  congr 1
  exact Finset.sum_congr rfl fun i hi => by rw [h i (Finset.mem_range.mp hi)]

theorem toInt_inj' {w : Nat} {a b : BitVec w} (h : a.toInt = b.toInt) : a = b := BitVec.eq_of_toInt_eq h

theorem smax_toInt {w : Nat} (a b : BitVec w) : (smax a b).toInt = max a.toInt b.toInt := by
  unfold smax; split <;> omega

theorem smin_toInt {w : Nat} (a b : BitVec w) : (smin a b).toInt = min a.toInt b.toInt := by
  unfold smin; split <;> omega

/-- C124, integer maxima on arm, as signed numbers. -/
theorem C124_max_int_partial (w lanes : Nat) (hl : 0 < lanes) : Reduces (maxInt w lanes) .arm
    fun n f a => (∀ i < n, (f i).toInt ≤ a.toInt) ∧ ∃ i < n, a = f i := by
  refine reduces_of (r := armReduce smax 0 lanes) rfl (fun stride n f hn => ?_) ?_
  · refine armReduce_top (le := fun a b => a.toInt ≤ b.toInt) ?_ (fun _ => le_refl _) (fun _ _ _ => le_trans) ?_ ?_ ?_ ?_ 0 hl
      stride hn f
    · intro a b; unfold smax; split <;> simp
    · intro a b; rw [smax_toInt]; omega
    · intro a b; rw [smax_toInt]; omega
    · intro a b c; apply toInt_inj'; simp only [smax_toInt]; omega
    · intro a b; apply toInt_inj'; simp only [smax_toInt]; omega
  · rintro n f g a h ⟨h1, i, hi, e⟩
    exact ⟨fun i hi => by rw [← h i hi]; exact h1 i hi, i, hi, by rw [← h i hi]; exact e⟩

/-- C124, integer minima on arm, as signed numbers. -/
theorem C124_min_int_partial (w lanes : Nat) (hl : 0 < lanes) : Reduces (minInt w lanes) .arm
    fun n f a => (∀ i < n, a.toInt ≤ (f i).toInt) ∧ ∃ i < n, a = f i := by
  refine reduces_of (r := armReduce smin 0 lanes) rfl (fun stride n f hn => ?_) ?_
  · refine armReduce_top (le := fun a b => b.toInt ≤ a.toInt) ?_ (fun _ => le_refl _) (fun _ _ _ h1 h2 => le_trans h2 h1) ?_ ?_ ?_ ?_
      0 hl stride hn f
    · intro a b; unfold smin; split <;> simp
    · intro a b; rw [smin_toInt]; omega
    · intro a b; rw [smin_toInt]; omega
    · intro a b c; apply toInt_inj'; simp only [smin_toInt]; omega
    · intro a b; apply toInt_inj'; simp only [smin_toInt]; omega
  · rintro n f g a h ⟨h1, i, hi, e⟩
    exact ⟨fun i hi => by rw [← h i hi]; exact h1 i hi, i, hi, by rw [← h i hi]; exact e⟩

theorem toInt_ofInt_fits {w : Nat} (hw : 0 < w) {z : Int} (h1 : -(2 ^ (w - 1) : Nat) ≤ z) (h2 : z < (2 ^ (w - 1) : Nat)) :
    (BitVec.ofInt w z).toInt = z := by
  rw [BitVec.toInt_ofInt]
  have h2w : (2 ^ w : Nat) = 2 * 2 ^ (w - 1) := by
    conv_lhs => rw [← Nat.sub_add_cancel hw, Nat.pow_succ, Nat.mul_comm]
  rw [Int.bmod_def]
  rw [h2w]
  generalize 2 ^ (w - 1) = p at *
  push_cast at *
  by_cases hz : 0 ≤ z
  · rw [Int.emod_eq_of_lt hz (by omega), if_pos (by omega)]
  · have : z % (2 * (p : Int)) = z + 2 * p := by
      rw [← Int.add_emod_right]
      exact Int.emod_eq_of_lt (by omega) (by omega)
    rw [this, if_neg (by omega)]
    omega

theorem tdiv_fits {z : Int} {n p : Nat} (hn : 0 < n) (h1 : -(p : Int) ≤ z) (h2 : z < p) :
    -(p : Int) ≤ z.tdiv n ∧ z.tdiv n < p := by
  have hb : (z.tdiv n).natAbs ≤ z.natAbs := by
    rw [Int.natAbs_tdiv]
    exact Nat.div_le_self _ _
  by_cases hz : 0 ≤ z
  · have : 0 ≤ z.tdiv n := Int.tdiv_nonneg hz (by omega)
    omega
  · have : 0 ≤ (-z).tdiv n := Int.tdiv_nonneg (by omega) (by omega)
    rw [Int.neg_tdiv] at this
    omega

/-- C124, integer means on arm, as long as the sum itself fits the element type (8 or 16 bits). -/
theorem C124_mean_int_partial (w lanes : Nat) (hw : 0 < w) (_ : w ≤ 16) (hl : 0 < lanes) : Reduces (meanInt w lanes) .arm
    fun n f a => n < 2 ^ 24 → -(2 ^ (w - 1) : Nat) ≤ ∑ i ∈ Finset.range n, (f i).toInt →
      ∑ i ∈ Finset.range n, (f i).toInt < (2 ^ (w - 1) : Nat) → a.toInt = (∑ i ∈ Finset.range n, (f i).toInt).tdiv n := by
  refine reduces_of (r := fun stride n f => BitVec.ofInt w ((armReduce (· + ·) 0 lanes stride n f).toInt.tdiv n)) rfl
    (fun stride n f hn _ h1 h2 => ?_) ?_
  · rw [sumInt_val w lanes hl stride hn, toInt_ofInt_fits hw h1 h2]
    obtain ⟨b1, b2⟩ := tdiv_fits hn h1 h2
    exact toInt_ofInt_fits hw b1 b2
  · intro n f g a h e
    have hs : ∑ i ∈ Finset.range n, (f i).toInt = ∑ i ∈ Finset.range n, (g i).toInt :=
      Finset.sum_congr rfl fun i hi => by rw [h i (Finset.mem_range.mp hi)]
    rwa [hs] at e

/-- C124 fails for integer means: equal elements whose sum does not fit the element type have some other mean. -/
theorem C124_mean_int_violated (w lanes : Nat) (hw : 0 < w) (_ : w ≤ 16) (hl : 0 < lanes) : Reduces (meanInt w lanes) .arm
    fun n f a => n < 2 ^ 24 → ∀ c, (∀ i < n, f i = c) → ¬ (-(2 ^ (w - 1) : Nat) ≤ n * c.toInt ∧ n * c.toInt < (2 ^ (w - 1) : Nat)) →
      a ≠ c := by
  refine reduces_of (r := fun stride n f => BitVec.ofInt w ((armReduce (· + ·) 0 lanes stride n f).toInt.tdiv n)) rfl
    (fun stride n f hn _ c hc hr he => ?_) ?_
  · have hsum : ∑ i ∈ Finset.range n, (f i).toInt = n * c.toInt := by
      rw [Finset.sum_congr rfl fun i hi => by rw [hc i (Finset.mem_range.mp hi)]]
      simp
    rw [sumInt_val w lanes hl stride hn, hsum] at he
    have hv := congrArg BitVec.toInt he
    have l1 := BitVec.le_toInt (BitVec.ofInt w (n * c.toInt))
    have l2 := BitVec.toInt_lt (x := BitVec.ofInt w (n * c.toInt))
    have c1 := BitVec.le_toInt c
    have c2 := BitVec.toInt_lt (x := c)
    have hw2 : (BitVec.ofInt w (n * c.toInt)).toInt = Int.bmod (n * c.toInt) (2 ^ w) := BitVec.toInt_ofInt _
    have hp : ((2 ^ (w - 1) : Nat) : Int) = (2 : Int) ^ (w - 1) := by push_cast; rfl
    have hpp : (2 ^ w : Nat) = 2 * 2 ^ (w - 1) := by
      conv_lhs => rw [← Nat.sub_add_cancel hw, Nat.pow_succ, Nat.mul_comm]
    rw [hp] at hr
    have f1 := tdiv_fits (z := (BitVec.ofInt w (n * c.toInt)).toInt) (p := 2 ^ (w - 1)) hn (by rw [hp]; exact l1)
      (by rw [hp]; exact l2)
    rw [toInt_ofInt_fits hw f1.1 f1.2] at hv
    generalize hW : (BitVec.ofInt w (n * c.toInt)).toInt = W at *
    generalize c.toInt = C at *
    have habs : (W.tdiv n).natAbs = W.natAbs / n := Int.natAbs_tdiv _ _
    rw [hv] at habs
    have hP : 0 < (2 : Int) ^ (w - 1) := by positivity
    have hle : C.natAbs * n ≤ W.natAbs := by rw [habs]; exact Nat.div_mul_le_self _ _
    have hle' : |C| * n ≤ |W| := by
      have : ((C.natAbs * n : Nat) : Int) ≤ (W.natAbs : Nat) := by exact_mod_cast hle
      push_cast at this
      exact this
    have hWP : |W| ≤ 2 ^ (w - 1) := abs_le.mpr ⟨l1, l2.le⟩
    have hn1 : (1 : Int) ≤ n := by exact_mod_cast hn
    -- the magnitudes agree, so the product is exactly `2^(w-1)` and its wrapped value is negative
    have e1 : (n : Int) * C = 2 ^ (w - 1) := by
      have hab : |(n : Int) * C| ≤ 2 ^ (w - 1) := by
        rw [abs_mul, Nat.abs_cast, mul_comm]
        exact hle'.trans hWP
      obtain ⟨q1, q2⟩ := abs_le.mp hab
      by_contra hne
      exact hr ⟨q1, lt_of_le_of_ne q2 hne⟩
    have hWv : W = -2 ^ (w - 1) := by
      rw [hw2, e1, Int.bmod_def, hpp]
      push_cast
      rw [Int.emod_eq_of_lt hP.le (by linarith), if_neg (by omega)]
      ring
    have hCpos : 0 < C := by
      by_contra hc0
      have : (n : Int) * C ≤ 0 := mul_nonpos_of_nonneg_of_nonpos (by omega) (by omega)
      omega
    have hneg : W.tdiv n ≤ 0 := by
      have h0 : 0 ≤ (-W).tdiv n := Int.tdiv_nonneg (by rw [hWv]; simpa using hP.le) (by omega)
      rw [Int.neg_tdiv] at h0
      omega
    omega
  · intro n f g a h e hn c hc
    exact e hn c fun i hi => by rw [h i hi]; exact hc i hi

/-- The hypotheses of the violation are met, and the value: the mean of two `int8` elements of 100 comes out as -28. -/
example : ∃ (x : Ten (BitVec 8)) (m : Nat → BitVec 8), x.shape = [] ++ 2 :: [] ∧ x.stride = rowStr x.shape ∧
    (∀ i, x.data i = 100) ∧ ¬ (2 : Int) * (100 : BitVec 8).toInt < (2 ^ 7 : Nat) ∧
    (reduce (meanInt 8 16) .arm x 0 false m).map (fun t => (t.get []).toInt) = some (-28) :=
  ⟨⟨[2], [1], fun _ => 100⟩, fun _ => 0, rfl, rfl, fun _ => rfl, by decide, by decide +kernel⟩

/-- The hypotheses of the positive theorems are met: the middle axis of a batch, longer than a vector, from both ends. -/
example : ∃ (x : Ten ℝ), x.shape = [2] ++ 37 :: [3] ∧ x.stride = rowStr x.shape ∧ ([2] : List Nat).length < 2 ^ 31 - 1 ∧
    ((1 : Int) = ([2] : List Nat).length ∨ (1 : Int) = -(([3] : List Nat).length + 1 : Int)) ∧
    ((-2 : Int) = ([2] : List Nat).length ∨ (-2 : Int) = -(([3] : List Nat).length + 1 : Int)) :=
  ⟨⟨[2, 37, 3], rowStr [2, 37, 3], fun k => k⟩, rfl, rfl, by decide, by decide, by decide⟩

/-- C124 fails on x86 for everything but `float` sums: nothing is stored, the result is whatever its memory held. -/
theorem C124_x86_violated {α : Type} (k : RedKernel α) (hk : k.x86 = none) (lanes : Nat) (x : Ten α) (pre : List Nat) (n : Nat)
    (post : List Nat) (keep : Bool) (m : Nat → α) (hs : x.shape = pre ++ n :: post) (hp : pre.length < 2 ^ 31 - 1) :
    reduce k (.x86 lanes) x pre.length keep m = some (outRows (pre ++ keepDim keep ++ post) m) := by
  have hd : dimOf x.shape pre.length = pre.length := by unfold dimOf; rw [if_neg (by omega)]
  have hne : (pre.length : Int) ≠ dimAll := by unfold dimAll; omega
  have hr : (0 : Int) ≤ pre.length ∧ (pre.length : Int) < (pre ++ n :: post).length := by
    simp only [List.length_append, List.length_cons]
    push_cast
    omega
  unfold reduce redShape redForward
  dsimp only
  rw [hd, if_neg hne, if_neg hne, hs, if_pos hr, if_pos hr]
  show (some _ >>= fun sh => _) = _
  simp only [RedKernel.on, hk, Option.bind_eq_bind, Option.bind_some, run]
  cases keep
  · simp [keepDim, List.eraseIdx_append_of_length_le]
  · simp [keepDim]

/-- Which kernels that concerns. -/
example (w lanes : Nat) : maxF32.x86 = none ∧ minF32.x86 = none ∧ meanF32.x86 = none ∧ (sumInt w lanes).x86 = none ∧
    (maxInt w lanes).x86 = none ∧ (minInt w lanes).x86 = none ∧ (meanInt w lanes).x86 = none := ⟨rfl, rfl, rfl, rfl, rfl, rfl, rfl⟩

/-- C124 fails for views: strides are ignored. -/
theorem C124_strides_ignored_violated {α : Type} (k : RedKernel α) (s : Simd) (x : Ten α) (dim : Int) (keep : Bool) (m : Nat → α)
    (st : List Nat) : reduce k s { x with stride := st } dim keep m = reduce k s x dim keep m := rfl

/-- Concretely: the row sums of the transpose of `[[1, 2], [3, 4]]` come out as 3 and 7, not 4 and 6. -/
theorem C124_transposed_view_violated (lanes : Nat) (hl : 0 < lanes) (s : Simd) (m : Nat → ℝ) :
    ∃ (x : Ten ℝ) (out : Ten ℝ), x.shape = [2, 2] ∧ x.stride = [1, 2] ∧ reduce (sumF32 lanes) s x 1 false m = some out ∧
      x.get [0, 0] + x.get [0, 1] = 4 ∧ out.get [0] = 3 := by
  obtain ⟨out, h1, -, h2⟩ := (C124_sum_partial lanes hl s).axis ⟨[2, 2], [2, 1], fun k => (k : ℝ) + 1⟩ [2] 2 [] 1 false m rfl rfl
    (by decide) (by decide) (Or.inl rfl)
  refine ⟨⟨[2, 2], [1, 2], fun k => (k : ℝ) + 1⟩, out, rfl, rfl, h1, by norm_num [Ten.get, pos], ?_⟩
  have := h2 [0] [] ⟨by omega, trivial⟩ trivial
  simp only [keepIdx, Bool.false_eq_true, if_false, List.append_nil] at this
  rw [this]
  norm_num [Finset.sum_range_succ, Ten.get, pos]

/-- C124 fails: an axis outside the tensor is not refused, the shape is indexed out of bounds. -/
theorem C124_axis_unchecked_violated {α : Type} (k : RedKernel α) (s : Simd) (x : Ten α) (dim : Int) (keep : Bool) (m : Nat → α)
    (h1 : dim ≠ 0x7fffffff) (h2 : (x.shape.length : Int) ≤ dim ∨ dim < -(x.shape.length : Int)) : reduce k s x dim keep m = none := by
  have : ¬ (0 ≤ dimOf x.shape dim ∧ dimOf x.shape dim < x.shape.length) := by
    unfold dimOf
    split <;> omega
  have h1' : dim ≠ dimAll := h1
  unfold reduce redShape
  rw [if_neg h1']
  dsimp only
  rw [if_neg this]
  rfl

end Verif.Kern
