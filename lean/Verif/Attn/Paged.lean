import Verif.Attn.Swa
import Mathlib.Algebra.BigOperators.Field
/-
Paged attention (C82): mllm/core/aops/PagedAttnOp.cpp L25-L68, mllm/backends/cpu/ops/PagedAttnOp.cpp,
mllm/backends/cpu/kernels/common/paged_attn/fwd_bshd.hpp, paged_attn/arch.hpp (ARM build).

Rounding is not modelled, and `vexpq_fast_f32` is the exponential.  The score of a masked key is the lowest
finite number: the model has it as a separate value below every score, whose exponential relative to any score
is 0 (in float32 it underflows).
-/
namespace Verif.Attn
open Verif.Tensor Verif.Ops

/-! ### Model -/

/-- `std::max` on scores; `none` is the lowest number. -/
noncomputable def maxS (a b : Option ℝ) : Option ℝ :=
  match a, b with
  | none, x => x
  | x, none => x
  | some x, some y => some (max x y)

/-- `exp(x - max_val)`. -/
noncomputable def expS (m x : Option ℝ) : ℝ :=
  match m, x with
  | none, none => 1
  | some m, some x => Real.exp (x - m)
  | some _, none => 0
  | none, some _ => 0

/-- `Softmax::run` (arch.hpp L112-L163): maximum, exponentials, sum, multiplication by the inverse. -/
noncomputable def softmaxRow (n : Nat) (x : Nat → Option ℝ) (j : Nat) : ℝ :=
  let m := (List.range n).foldl (fun m j => maxS m (x j)) none
  let sum := (List.range n).foldl (fun acc j => acc + expS m (x j)) 0
  expS m (x j) * (1 / sum)

/-- Options and sizes: `H_KV = H_Q / head_repeat_times`. -/
structure PagedOpt where
  rep : Nat
  needW : Bool

/-- Pass 1: one entry of the score matrix.  Outer `none`: a read of memory that holds no value. -/
noncomputable def pagedScore (W : Nat) (Q K : Tens ℝ) (index : Nat → Nat) (mask : Nat → Option ℝ)
    (SQ SKV HQ HK D b h s j : Nat) : Option (Option ℝ) :=
  let dot := (dotO W D (fun x => qAt Q SQ HQ D b s h x)
    (fun x => K.raw (b * HK * SKV * D + index j * HK * D + h / (HQ / HK) * D + x))).map
      fun a => some (a * (1 / Real.sqrt D))
  if SQ = 1 then dot
  else match mask (s * SKV + j) with
    | none => none
    | some m => if m > -1 then dot else some none

/-- Passes 1 and 2: the weights of one row, `none` if some entry of the row could not be read. -/
noncomputable def pagedWeight (W : Nat) (Q K : Tens ℝ) (index : Nat → Nat) (mask : Nat → Option ℝ)
    (SQ SKV HQ HK D b h s j : Nat) : Option ℝ :=
  if (∀ j, j < SKV → (pagedScore W Q K index mask SQ SKV HQ HK D b h s j).isSome) then
    some (softmaxRow SKV (fun j => (pagedScore W Q K index mask SQ SKV HQ HK D b h s j).getD none) j)
  else none

/-- Pass 3: `acc += weight * v` over all keys. -/
noncomputable def pagedAcc (V : Tens ℝ) (index : Nat → Nat) (w : Nat → Option ℝ) (SKV HK D b hk d : Nat) :
    Option ℝ :=
  (List.range SKV).foldl (fun acc j =>
    match acc, w j, V.raw (b * HK * SKV * D + index j * HK * D + hk * D + d) with
    | some a, some w, some v => some (a + w * v)
    | _, _, _ => none) (some 0)

/-- The kernel refuses these and returns `false`; the operator ignores the result. -/
def pagedRefuses (HQ HK D : Nat) : Prop := D % 4 ≠ 0 ∨ HK > HQ ∨ HQ % HK ≠ 0

instance (HQ HK D : Nat) : Decidable (pagedRefuses HQ HK D) := by unfold pagedRefuses; infer_instance

/-- The stores of the kernel: to the output and to the weights.  Without `need_attn_weights` the kernel is a
`TODO`.  The intermediate values of the weight buffer (scores, exponentials) are not listed. -/
noncomputable def pagedOut (W : Nat) (ord : Nat → List Nat) (o : PagedOpt) (Q K V : Tens ℝ) (index : Nat → Nat)
    (mask : Nat → Option ℝ) (B SQ SKV HQ HK D : Nat) : List (Nat × Option ℝ) :=
  if pagedRefuses HQ HK D then []
  else if o.needW = true then
    attnWrites B SQ HQ D ord fun b h s d =>
      pagedAcc V index (pagedWeight W Q K index mask SQ SKV HQ HK D b h s) SKV HK D b (h / (HQ / HK)) d
  else []

noncomputable def pagedW (W : Nat) (o : PagedOpt) (Q K : Tens ℝ) (index : Nat → Nat)
    (mask : Nat → Option ℝ) (B SQ SKV HQ HK D : Nat) : List (Nat × Option ℝ) :=
  if pagedRefuses HQ HK D then []
  else if o.needW = true then
    (List.range B).flatMap fun b => (List.range HQ).flatMap fun h => (List.range SQ).flatMap fun s =>
      (List.range SKV).map fun j => (b * HQ * SQ * SKV + h * SQ * SKV + s * SKV + j,
        pagedWeight W Q K index mask SQ SKV HQ HK D b h s j)
  else []

/-- The operator: output and attention weights.  `SKV` is the length of the index tensor.  `none`: division by
zero. -/
noncomputable def paged (W : Nat) (ord : Nat → List Nat) (o : PagedOpt) (Q K V : Tens ℝ) (index : Nat → Nat)
    (SKV : Nat) (mask : Nat → Option ℝ) : Option (Tens ℝ × Tens ℝ) :=
  match Q.shape with
  | [B, SQ, HQ, D] =>
    if o.rep = 0 ∨ HQ / o.rep = 0 then none
    else
      some (fresh [B, SQ, HQ, D] (bufV (pagedOut W ord o Q K V index mask B SQ SKV HQ (HQ / o.rep) D)),
        fresh [B, HQ, SQ, SKV] (bufV (pagedW W o Q K index mask B SQ SKV HQ (HQ / o.rep) D)))
  | _ => none

/-! ### Specification -/

/-- The keys a row may see: all for a single row, else those whose mask entry is above -1. -/
noncomputable def seen (SQ SKV : Nat) (mask : Nat → Option ℝ) (s : Nat) : Finset Nat :=
  (Finset.range SKV).filter fun j => SQ = 1 ∨ ∃ m, mask (s * SKV + j) = some m ∧ m > -1

/-! ### Proofs -/

theorem foldl_maxS_some (x : Nat → Option ℝ) : ∀ n, (∃ j, j < n ∧ (x j).isSome) →
    ∃ m, (List.range n).foldl (fun m j => maxS m (x j)) none = some m
  | 0, h => by obtain ⟨j, hj, _⟩ := h; omega
  | n + 1, h => by
    rw [List.range_succ, List.foldl_append]
    simp only [List.foldl_cons, List.foldl_nil]
    by_cases h' : ∃ j, j < n ∧ (x j).isSome
    · obtain ⟨m, hm⟩ := foldl_maxS_some x n h'
      rw [hm]
      cases x n <;> exact ⟨_, rfl⟩
    · obtain ⟨j, hj, hs⟩ := h
      have : j = n := by
        by_contra hne
        exact h' ⟨j, by omega, hs⟩
      subst this
      obtain ⟨r, hr⟩ := Option.isSome_iff_exists.mp hs
      rw [hr]
      cases (List.range j).foldl (fun m j => maxS m (x j)) none <;> exact ⟨_, rfl⟩

theorem foldl_maxS_none (x : Nat → Option ℝ) : ∀ n, (∀ j, j < n → x j = none) →
    (List.range n).foldl (fun m j => maxS m (x j)) none = none
  | 0, _ => rfl
  | n + 1, h => by
    rw [List.range_succ, List.foldl_append, foldl_maxS_none x n (fun j hj => h j (by omega))]
    simp only [List.foldl_cons, List.foldl_nil, h n (by omega)]
    rfl

/-- The row softmax is the softmax over the entries that are not masked, and zero elsewhere. -/
theorem softmaxRow_eq {n : Nat} {x : Nat → Option ℝ} {J : Finset Nat} {s : Nat → ℝ} (hJ : J.Nonempty)
    (hJn : ∀ j ∈ J, j < n) (hx : ∀ j, j < n → x j = if j ∈ J then some (s j) else none) {j : Nat} (hj : j < n) :
    softmaxRow n x j = if j ∈ J then Real.exp (s j) / ∑ i ∈ J, Real.exp (s i) else 0 := by
  obtain ⟨j0, hj0⟩ := hJ
  obtain ⟨m, hm⟩ := foldl_maxS_some x n ⟨j0, hJn j0 hj0, by rw [hx j0 (hJn j0 hj0), if_pos hj0]; rfl⟩
  unfold softmaxRow
  simp only [hm]
  rw [foldl_sum (fun j => expS (some m) (x j)), zero_add]
  have he : ∀ i, i < n → expS (some m) (x i) = if i ∈ J then Real.exp (s i - m) else 0 := by
    intro i hi
    rw [hx i hi]
    by_cases h : i ∈ J
    · rw [if_pos h, if_pos h]; rfl
    · rw [if_neg h, if_neg h]; rfl
  have hsum : ∑ i ∈ Finset.range n, expS (some m) (x i) = (∑ i ∈ J, Real.exp (s i)) * Real.exp (-m) := by
    rw [Finset.sum_congr rfl (fun i hi => he i (Finset.mem_range.mp hi)), Finset.sum_ite, Finset.sum_const_zero,
      add_zero]
    have : (Finset.range n).filter (fun i => i ∈ J) = J := by
      ext i; simp only [Finset.mem_filter, Finset.mem_range]
      exact ⟨fun h => h.2, fun h => ⟨hJn i h, h⟩⟩
    rw [this, Finset.sum_mul]
    apply Finset.sum_congr rfl
    intro i _
    rw [sub_eq_add_neg, Real.exp_add]
  rw [he j hj, hsum]
  have hpos := sum_exp_pos ⟨j0, hj0⟩ s
  have hm0 := (Real.exp_pos (-m)).ne'
  by_cases h : j ∈ J
  · rw [if_pos h, if_pos h, sub_eq_add_neg, Real.exp_add]
    field_simp
  · rw [if_neg h, if_neg h, zero_mul]

theorem pagedAcc_eq {V : Tens ℝ} {index : Nat → Nat} {w : Nat → Option ℝ} {SKV HK D b hk d : Nat}
    {wf vf : Nat → ℝ} (hw : ∀ j, j < SKV → w j = some (wf j))
    (hv : ∀ j, j < SKV → V.raw (b * HK * SKV * D + index j * HK * D + hk * D + d) = some (vf j)) :
    pagedAcc V index w SKV HK D b hk d = some (∑ j ∈ Finset.range SKV, wf j * vf j) := by
  have key : ∀ n, n ≤ SKV → (List.range n).foldl (fun acc j =>
      match acc, w j, V.raw (b * HK * SKV * D + index j * HK * D + hk * D + d) with
      | some a, some w, some v => some (a + w * v)
      | _, _, _ => none) (some 0) = some (∑ j ∈ Finset.range n, wf j * vf j) := by
    intro n
    induction n with
    | zero => intro _; simp
    | succ n ih =>
      intro hn
      rw [List.range_succ, List.foldl_append, ih (by omega)]
      simp only [List.foldl_cons, List.foldl_nil, hw n (by omega), hv n (by omega), Finset.sum_range_succ]
  exact key SKV (le_refl _)

/-- Key and value caches of `cap` tokens. -/
structure PagedIn (Q K V : Tens ℝ) (index : Nat → Nat) (SKV : Nat) (mask : Nat → Option ℝ) (B SQ HQ HK D cap : Nat)
    (q k v : Nat → Nat → Nat → Nat → ℝ) : Prop where
  q : Holds Q B SQ HQ D q
  k : Holds K B cap HK D k
  v : Holds V B cap HK D v
  qp : Packed Q
  kp : Packed K
  vp : Packed V
  index : ∀ j, j < SKV → index j < cap
  mask : SQ ≠ 1 → ∀ s j, s < SQ → j < SKV → (mask (s * SKV + j)).isSome

theorem paged_read {K : Tens ℝ} {B cap HK D SKV b i h x : Nat} {k : Nat → Nat → Nat → Nat → ℝ}
    (hK : Holds K B cap HK D k) (hKp : Packed K) (hcap : B ≤ 1 ∨ cap = SKV) (hb : b < B) (hi : i < cap) (hh : h < HK)
    (hx : x < D) : K.raw (b * HK * SKV * D + i * HK * D + h * D + x) = some (k b i h x) := by
  rw [← hK.val b i h x hb hi hh hx, ← packed_raw hKp (by rw [hK.shape]; exact inB4.mpr ⟨hb, hi, hh, hx⟩), hK.shape, lin4']
  congr 1
  rcases hcap with hB | rfl
  · obtain rfl : b = 0 := by omega
    simp
  · rfl

theorem pagedScore_eq {W : Nat} {Q K V : Tens ℝ} {index : Nat → Nat} {SKV : Nat} {mask : Nat → Option ℝ}
    {B SQ HQ HK D cap : Nat} {q k v : Nat → Nat → Nat → Nat → ℝ}
    (hin : PagedIn Q K V index SKV mask B SQ HQ HK D cap q k v) (hcap : B ≤ 1 ∨ cap = SKV) (hH : HK ∣ HQ)
    {b h s j : Nat} (hb : b < B) (hh : h < HQ) (hs : s < SQ) (hj : j < SKV) :
    pagedScore W Q K index mask SQ SKV HQ HK D b h s j = some (if j ∈ seen SQ SKV mask s then
      some (score D (q b s h) (k b (index j) (h / (HQ / HK)))) else none) := by
  have hg := group_lt hH hh
  have hdot : dotO W D (fun x => qAt Q SQ HQ D b s h x)
      (fun x => K.raw (b * HK * SKV * D + index j * HK * D + h / (HQ / HK) * D + x)) =
      some (∑ x ∈ Finset.range D, q b s h x * k b (index j) (h / (HQ / HK)) x) := by
    apply dotO_some
    · intro x hx
      rw [qAt_elem hin.q.shape hin.qp hb hs hh hx, hin.q.val b s h x hb hs hh hx]
    · intro x hx
      exact paged_read hin.k hin.kp hcap hb (hin.index j hj) hg hx
  have hsc : (∑ x ∈ Finset.range D, q b s h x * k b (index j) (h / (HQ / HK)) x) * (1 / Real.sqrt D) =
      score D (q b s h) (k b (index j) (h / (HQ / HK))) := by
    unfold score; rw [mul_one_div]
  unfold pagedScore
  simp only [hdot, Option.map_some, hsc]
  by_cases h1 : SQ = 1
  · rw [if_pos h1, if_pos]
    simp only [seen, Finset.mem_filter, Finset.mem_range]
    exact ⟨hj, Or.inl h1⟩
  · rw [if_neg h1]
    obtain ⟨m, hm⟩ := Option.isSome_iff_exists.mp (hin.mask h1 s j hs hj)
    rw [hm]
    simp only
    by_cases hm1 : m > -1
    · rw [if_pos hm1, if_pos]
      simp only [seen, Finset.mem_filter, Finset.mem_range]
      exact ⟨hj, Or.inr ⟨m, hm, hm1⟩⟩
    · rw [if_neg hm1, if_neg]
      simp only [seen, Finset.mem_filter, Finset.mem_range, not_and, not_or, not_exists]
      refine fun _ => ⟨h1, fun m' hm' => ?_⟩
      rw [hm] at hm'
      cases hm'
      exact hm1

theorem pagedWeight_eq {W : Nat} {Q K V : Tens ℝ} {index : Nat → Nat} {SKV : Nat} {mask : Nat → Option ℝ}
    {B SQ HQ HK D cap : Nat} {q k v : Nat → Nat → Nat → Nat → ℝ}
    (hin : PagedIn Q K V index SKV mask B SQ HQ HK D cap q k v) (hcap : B ≤ 1 ∨ cap = SKV) (hH : HK ∣ HQ)
    {b h s : Nat} (hb : b < B) (hh : h < HQ) (hs : s < SQ) (j : Nat) :
    pagedWeight W Q K index mask SQ SKV HQ HK D b h s j =
      some (softmaxRow SKV (fun j => (pagedScore W Q K index mask SQ SKV HQ HK D b h s j).getD none) j) := by
  unfold pagedWeight
  rw [if_pos]
  intro j hj
  rw [pagedScore_eq hin hcap hH hb hh hs hj]
  rfl

/-- The weight that softmax gives to key `j` of a row. -/
noncomputable def softWeight (J : Finset Nat) (s : Nat → ℝ) (j : Nat) : ℝ :=
  if j ∈ J then Real.exp (s j) / ∑ i ∈ J, Real.exp (s i) else 0

/-- C82: asked for attention weights, with a head size that is a multiple of 4, evenly grouped heads, and one
batch row (or an index as long as the cache), paged attention returns the softmax weights of the visible keys,
zero for the others, and the weighted average of the values at the indexed cache slots. -/
theorem paged_attention_partial (W : Nat) (ord : Nat → List Nat) (o : PagedOpt) (Q K V : Tens ℝ)
    (index : Nat → Nat) (SKV : Nat) (mask : Nat → Option ℝ) (B SQ HQ HK D cap : Nat)
    (q k v : Nat → Nat → Nat → Nat → ℝ) (ho : HeadOrder B HQ ord) (hneed : o.needW = true)
    (hin : PagedIn Q K V index SKV mask B SQ HQ HK D cap q k v) (hcap : B ≤ 1 ∨ cap = SKV)
    (hrep : HQ = o.rep * HK) (hHQ : 0 < HQ) (hD : D % 4 = 0)
    (hvis : ∀ s, s < SQ → (seen SQ SKV mask s).Nonempty) :
    ∃ O A, paged W ord o Q K V index SKV mask = some (O, A) ∧
      Holds O B SQ HQ D (fun b s h d => attend (seen SQ SKV mask s)
        (fun j => score D (q b s h) (k b (index j) (h / o.rep))) (fun j => v b (index j) (h / o.rep) d)) ∧
      Holds A B HQ SQ SKV (fun b h s j => softWeight (seen SQ SKV mask s)
        (fun j => score D (q b s h) (k b (index j) (h / o.rep))) j) := by
  have hH : HK ∣ HQ := ⟨o.rep, by rw [hrep, mul_comm]⟩
  have hHK : 0 < HK := Nat.pos_of_dvd_of_pos hH hHQ
  have hr : 0 < o.rep := by
    rcases Nat.eq_zero_or_pos o.rep with h | h
    · rw [h, zero_mul] at hrep; omega
    · exact h
  have e1 : HQ / o.rep = HK := by rw [hrep]; exact Nat.mul_div_cancel_left _ hr
  have e2 : HQ / HK = o.rep := by rw [hrep]; exact Nat.mul_div_cancel _ hHK
  have hle : ¬ pagedRefuses HQ HK D := by
    unfold pagedRefuses
    have := Nat.le_of_dvd hHQ hH
    have := Nat.mod_eq_zero_of_dvd hH
    omega
  have hJn : ∀ s, ∀ j ∈ seen SQ SKV mask s, j < SKV := fun s j hj => by
    simp only [seen, Finset.mem_filter, Finset.mem_range] at hj; exact hj.1
  have hwt : ∀ b h s j, b < B → h < HQ → s < SQ → j < SKV →
      pagedWeight W Q K index mask SQ SKV HQ HK D b h s j = some (softWeight (seen SQ SKV mask s)
        (fun j => score D (q b s h) (k b (index j) (h / o.rep))) j) := by
    intro b h s j hb hh hs hj
    rw [pagedWeight_eq hin hcap hH hb hh hs]
    congr 1
    rw [softmaxRow_eq (s := fun j => score D (q b s h) (k b (index j) (h / o.rep))) (hvis s hs) (hJn s) ?_ hj]
    · rfl
    · intro i hi
      rw [pagedScore_eq hin hcap hH hb hh hs hi, e2]
      rfl
  refine ⟨fresh [B, SQ, HQ, D] (bufV (pagedOut W ord o Q K V index mask B SQ SKV HQ HK D)),
    fresh [B, HQ, SQ, SKV] (bufV (pagedW W o Q K index mask B SQ SKV HQ HK D)), ?_, ⟨rfl, ?_⟩, ⟨rfl, ?_⟩⟩
  · unfold paged
    rw [hin.q.shape]
    simp only
    rw [if_neg (by omega), e1]
  · intro b s h d hb hs hh hd
    rw [pagedOut, if_neg hle, if_pos hneed, attn_elem ho _ hb hs hh hd, e2]
    have hg : h / o.rep < HK := by rw [← e2]; exact group_lt hH hh
    rw [pagedAcc_eq (fun j hj => hwt b h s j hb hh hs hj)
      (fun j hj => paged_read hin.v hin.vp hcap hb (hin.index j hj) hg hd)]
    congr 1
    unfold attend softWeight
    simp only [ite_mul, zero_mul]
    rw [Finset.sum_ite, Finset.sum_const_zero, add_zero]
    have : (Finset.range SKV).filter (fun i => i ∈ seen SQ SKV mask s) = seen SQ SKV mask s := by
      ext i; simp only [Finset.mem_filter, Finset.mem_range]
      exact ⟨fun h => h.2, fun h => ⟨hJn s i h, h⟩⟩
    rw [this, Finset.sum_div]
    apply Finset.sum_congr rfl
    intro j _
    ring
  · intro b h s j hb hh hs hj
    have hi : InB [B, HQ, SQ, SKV] [b, h, s, j] := inB4.mpr ⟨hb, hh, hs, hj⟩
    rw [fresh_elem _ _ hi, pagedW, if_neg hle, if_pos hneed, ← hwt b h s j hb hh hs hj]
    have eaddr : ∀ b h s j : Nat, b * HQ * SQ * SKV + h * SQ * SKV + s * SKV + j = lin [B, HQ, SQ, SKV] [b, h, s, j] := by
      intro b h s j; rw [lin4]; ring
    apply bufV_eq
    · intro w hw hk
      simp only [List.mem_flatMap, List.mem_range, List.mem_map] at hw
      obtain ⟨b', hb', h', hh', s', hs', j', hj', rfl⟩ := hw
      dsimp only at hk ⊢
      rw [eaddr] at hk
      have := lin_inj (inB4.mpr ⟨hb', hh', hs', hj'⟩) hi hk
      simp only [List.cons.injEq, and_true] at this
      obtain ⟨rfl, rfl, rfl, rfl⟩ := this
      rfl
    · simp only [List.mem_flatMap, List.mem_range, List.mem_map]
      refine ⟨b, hb, h, hh, s, hs, j, hj, ?_⟩
      rw [eaddr]

/-- C82: the weights of a row are non-negative and sum to one. -/
theorem softWeight_distribution {J : Finset Nat} (hJ : J.Nonempty) (s : Nat → ℝ) :
    (∀ j, 0 ≤ softWeight J s j) ∧ ∑ j ∈ J, softWeight J s j = 1 := by
  have hp := sum_exp_pos hJ s
  refine ⟨fun j => ?_, ?_⟩
  · unfold softWeight
    split
    · exact div_nonneg (Real.exp_pos _).le hp.le
    · exact le_refl _
  · rw [Finset.sum_congr rfl (fun j hj => by rw [softWeight, if_pos hj]), ← Finset.sum_div, div_self hp.ne']

/-- C82 violated without attention weights, and for head sizes or groupings the kernel refuses: the operator
returns, and no element of the output has been written. -/
theorem paged_unwritten_violated (W : Nat) (ord : Nat → List Nat) (o : PagedOpt) (Q K V : Tens ℝ)
    (index : Nat → Nat) (SKV : Nat) (mask : Nat → Option ℝ) (B SQ HQ D : Nat) (hQ : Q.shape = [B, SQ, HQ, D])
    (hr : 0 < o.rep) (hk : 0 < HQ / o.rep)
    (hbad : o.needW = false ∨ D % 4 ≠ 0 ∨ HQ % (HQ / o.rep) ≠ 0) :
    ∃ O A, paged W ord o Q K V index SKV mask = some (O, A) ∧ O.shape = [B, SQ, HQ, D] ∧
      ∀ i, InB [B, SQ, HQ, D] i → O.elem i = none := by
  have hnil : pagedOut W ord o Q K V index mask B SQ SKV HQ (HQ / o.rep) D = [] := by
    unfold pagedOut
    rcases hbad with h | h | h
    · rw [h]; split <;> rfl
    · rw [if_pos (show pagedRefuses HQ (HQ / o.rep) D from Or.inl h)]
    · rw [if_pos (show pagedRefuses HQ (HQ / o.rep) D from Or.inr (Or.inr h))]
  refine ⟨fresh [B, SQ, HQ, D] (bufV (pagedOut W ord o Q K V index mask B SQ SKV HQ (HQ / o.rep) D)),
        fresh [B, HQ, SQ, SKV] (bufV (pagedW W o Q K index mask B SQ SKV HQ (HQ / o.rep) D)), ?_, rfl, ?_⟩
  · unfold paged
    rw [hQ]
    simp only
    rw [if_neg (by omega)]
  · intro i hi
    rw [fresh_elem _ _ hi, hnil]
    rfl

/-- C82 violated for batches over a cache longer than the index: batch row 1 reads the cache of batch row 0 (one
indexed token: slot 1 of row 0 instead of slot 0 of row 1). -/
theorem paged_batch_violated (W : Nat) (ord : Nat → List Nat) (o : PagedOpt) (Q K V : Tens ℝ) (mask : Nat → Option ℝ)
    (B HQ HK D cap : Nat) (q k v : Nat → Nat → Nat → Nat → ℝ) (ho : HeadOrder B HQ ord) (hneed : o.needW = true)
    (hin : PagedIn Q K V (fun _ => 0) 1 mask B 1 HQ HK D cap q k v) (hcap : 1 < cap) (hB : 1 < B)
    (hrep : HQ = o.rep * HK) (hHQ : 0 < HQ) (hD : D % 4 = 0) :
    ∃ O A, paged W ord o Q K V (fun _ => 0) 1 mask = some (O, A) ∧
      ∀ h d, h < HQ → d < D → O.elem [1, 0, h, d] = some (v 0 1 (h / o.rep) d) := by
  have hH : HK ∣ HQ := ⟨o.rep, by rw [hrep, mul_comm]⟩
  have hHK : 0 < HK := Nat.pos_of_dvd_of_pos hH hHQ
  have hr : 0 < o.rep := by
    rcases Nat.eq_zero_or_pos o.rep with h | h
    · rw [h, zero_mul] at hrep; omega
    · exact h
  have e1 : HQ / o.rep = HK := by rw [hrep]; exact Nat.mul_div_cancel_left _ hr
  have e2 : HQ / HK = o.rep := by rw [hrep]; exact Nat.mul_div_cancel _ hHK
  have hle : ¬ pagedRefuses HQ HK D := by
    unfold pagedRefuses
    have := Nat.le_of_dvd hHQ hH
    have := Nat.mod_eq_zero_of_dvd hH
    omega
  refine ⟨fresh [B, 1, HQ, D] (bufV (pagedOut W ord o Q K V (fun _ => 0) mask B 1 1 HQ HK D)),
    fresh [B, HQ, 1, 1] (bufV (pagedW W o Q K (fun _ => 0) mask B 1 1 HQ HK D)), ?_, ?_⟩
  · unfold paged
    rw [hin.q.shape]
    simp only
    rw [if_neg (by omega), e1]
  · intro h d hh hd
    rw [pagedOut, if_neg hle, if_pos hneed, attn_elem ho _ hB (by omega) hh hd, e2]
    have hg : h / o.rep < HK := by rw [← e2]; exact group_lt hH hh
    have hraw : ∀ (t : Tens ℝ) (f : Nat → Nat → Nat → Nat → ℝ), Holds t B cap HK D f → Packed t → ∀ x, x < D →
        t.raw (1 * HK * 1 * D + 0 * HK * D + h / o.rep * D + x) = some (f 0 1 (h / o.rep) x) := by
      intro t f ht htp x hx
      rw [← ht.val 0 1 _ x (by omega) hcap hg hx,
        ← packed_raw htp (by rw [ht.shape]; exact inB4.mpr ⟨by omega, hcap, hg, hx⟩), ht.shape, lin4']
      congr 1
      ring
    have hsc : pagedScore W Q K (fun _ => 0) mask 1 1 HQ HK D 1 h 0 0 =
        some (some (score D (q 1 0 h) (k 0 1 (h / o.rep)))) := by
      unfold pagedScore
      simp only [if_pos]
      rw [e2, dotO_some (f := q 1 0 h) (g := k 0 1 (h / o.rep))]
      · simp only [Option.map_some, score, mul_one_div]
      · intro x hx
        rw [qAt_elem hin.q.shape hin.qp hB (by omega) hh hx, hin.q.val 1 0 h x hB (by omega) hh hx]
      · intro x hx
        exact hraw K k hin.k hin.kp x hx
    have hw : pagedWeight W Q K (fun _ => 0) mask 1 1 HQ HK D 1 h 0 0 = some 1 := by
      unfold pagedWeight
      rw [if_pos (fun j hj => by obtain rfl : j = 0 := by omega
                                 rw [hsc]; rfl)]
      congr 1
      rw [softmaxRow_eq (J := {0}) (s := fun _ => score D (q 1 0 h) (k 0 1 (h / o.rep))) ⟨0, by simp⟩ (by simp) ?_ (by omega)]
      · simp
      · intro j hj
        obtain rfl : j = 0 := by omega
        rw [hsc]; simp
    rw [pagedAcc_eq (wf := fun _ => 1) (vf := fun _ => v 0 1 (h / o.rep) d)]
    · simp
    · intro j hj
      obtain rfl : j = 0 := by omega
      exact hw
    · intro j hj
      exact hraw V v hin.v hin.vp d hd

/-- C82 violated for rows whose mask hides every key: they are not refused, each hidden key gets an equal share. -/
theorem paged_masked_violated (W : Nat) (ord : Nat → List Nat) (o : PagedOpt) (Q K V : Tens ℝ)
    (index : Nat → Nat) (SKV : Nat) (mask : Nat → Option ℝ) (B SQ HQ HK D cap : Nat)
    (q k v : Nat → Nat → Nat → Nat → ℝ) (ho : HeadOrder B HQ ord) (hneed : o.needW = true)
    (hin : PagedIn Q K V index SKV mask B SQ HQ HK D cap q k v) (hcap : B ≤ 1 ∨ cap = SKV)
    (hrep : HQ = o.rep * HK) (hHQ : 0 < HQ) (hD : D % 4 = 0) (b s h d : Nat) (hb : b < B) (hs : s < SQ)
    (hh : h < HQ) (hd : d < D) (hvis : seen SQ SKV mask s = ∅) :
    ∃ O A, paged W ord o Q K V index SKV mask = some (O, A) ∧
      O.elem [b, s, h, d] = some ((∑ j ∈ Finset.range SKV, v b (index j) (h / o.rep) d) / SKV) := by
  have hH : HK ∣ HQ := ⟨o.rep, by rw [hrep, mul_comm]⟩
  have hHK : 0 < HK := Nat.pos_of_dvd_of_pos hH hHQ
  have hr : 0 < o.rep := by
    rcases Nat.eq_zero_or_pos o.rep with h | h
    · rw [h, zero_mul] at hrep; omega
    · exact h
  have e1 : HQ / o.rep = HK := by rw [hrep]; exact Nat.mul_div_cancel_left _ hr
  have e2 : HQ / HK = o.rep := by rw [hrep]; exact Nat.mul_div_cancel _ hHK
  have hle : ¬ pagedRefuses HQ HK D := by
    unfold pagedRefuses
    have := Nat.le_of_dvd hHQ hH
    have := Nat.mod_eq_zero_of_dvd hH
    omega
  refine ⟨fresh [B, SQ, HQ, D] (bufV (pagedOut W ord o Q K V index mask B SQ SKV HQ HK D)),
    fresh [B, HQ, SQ, SKV] (bufV (pagedW W o Q K index mask B SQ SKV HQ HK D)), ?_, ?_⟩
  · unfold paged
    rw [hin.q.shape]
    simp only
    rw [if_neg (by omega), e1]
  · rw [pagedOut, if_neg hle, if_pos hneed, attn_elem ho _ hb hs hh hd, e2]
    have hg : h / o.rep < HK := by rw [← e2]; exact group_lt hH hh
    have hw : ∀ j, j < SKV → pagedWeight W Q K index mask SQ SKV HQ HK D b h s j = some (1 / (SKV : ℝ)) := by
      intro j hj
      rw [pagedWeight_eq hin hcap hH hb hh hs]
      congr 1
      have hnone : ∀ i, i < SKV → (pagedScore W Q K index mask SQ SKV HQ HK D b h s i).getD none = none := by
        intro i hi
        rw [pagedScore_eq hin hcap hH hb hh hs hi, hvis]
        simp
      unfold softmaxRow
      simp only []
      rw [foldl_maxS_none _ SKV hnone,
        foldl_sum (fun j => expS none ((pagedScore W Q K index mask SQ SKV HQ HK D b h s j).getD none)), zero_add,
        hnone j hj, Finset.sum_congr rfl (fun i hi => by rw [hnone i (Finset.mem_range.mp hi)])]
      simp [expS]
    rw [pagedAcc_eq hw (fun j hj => paged_read hin.v hin.vp hcap hb (hin.index j hj) hg hd), Finset.sum_div]
    congr 1
    apply Finset.sum_congr rfl
    intro j _
    ring

/-! ### The hypotheses can be met -/

/-- Two query rows over three indexed slots of a cache of five, a lower-triangular mask, four heads on two. -/
example (q k v : Nat → Nat → Nat → Nat → ℝ) : ∃ (Q K V : Tens ℝ) (mask : Nat → Option ℝ),
    PagedIn Q K V (fun j => [4, 0, 2].getD j 0) 3 mask 1 2 4 2 8 5 q k v ∧
    ∀ s, s < 2 → (seen 2 3 mask s).Nonempty := by
  refine ⟨_, _, _, fun i => some (if i = 2 then -10 else 0), ⟨holds_exact 1 2 4 8 q, holds_exact 1 5 2 8 k,
    holds_exact 1 5 2 8 v, contig_packed rfl, contig_packed rfl, contig_packed rfl, ?_, fun _ _ _ _ _ => rfl⟩, ?_⟩
  · intro j hj
    have : j = 0 ∨ j = 1 ∨ j = 2 := by omega
    rcases this with rfl | rfl | rfl <;> decide
  · intro s hs
    refine ⟨0, ?_⟩
    simp only [seen, Finset.mem_filter, Finset.mem_range]
    refine ⟨by decide, Or.inr ⟨0, ?_, by norm_num⟩⟩
    rw [if_neg (by omega)]

end Verif.Attn
