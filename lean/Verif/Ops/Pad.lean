import Verif.Ops.Elewise
/-
C75: the padding operator.  Models mllm/core/aops/PadOp.cpp (`reshape` L27-L44) and
mllm/backends/cpu/ops/PadOp.cpp (helpers L27-L51, `forward` L53-L130), fp32.  Integers are unbounded.
-/
namespace Verif.Ops
open Verif.Tensor

variable {α : Type}

/-! ### Model -/

/-- aops/PadOp.hpp `PadMode`. -/
inductive PadMode where
  | constant | reflect | replicate | circular
  deriving DecidableEq

/-- `pad[base]` or 0 with `base = 2 * (D - 1 - i)` (cpu L69-L73, aops L35-L37). -/
def padBefore (pad : List Int) (D i : Nat) : Int := pad.getD (2 * (D - 1 - i)) 0

/-- `pad[base + 1]` or 0. -/
def padAfter (pad : List Int) (D i : Nat) : Int := pad.getD (2 * (D - 1 - i) + 1) 0

/-- `out_shape[d] += low + high` (aops L34-L39); `none`: a negative size, for which no tensor exists. -/
def padDims (pad : List Int) (D : Nat) : Nat → List Nat → Option (List Nat)
  | _, [] => some []
  | i, n :: ns =>
    let o : Int := n + padBefore pad D i + padAfter pad D i
    if o < 0 then none
    else match padDims pad D (i + 1) ns with
      | some os => some (o.toNat :: os)
      | none => none

/-- The decoding loop of `forward` (L92-L99), from the first coordinate to the last; `out_stride[i]` is
the number of elements of the dimensions after `i`. -/
def decodeL : List Nat → Nat → List Nat
  | [], _ => []
  | [_], t => [t]
  | _ :: d :: ds, t => t / numel (d :: ds) :: decodeL (d :: ds) (t % numel (d :: ds))

/-- `reflect_index` (L27-L36). -/
def reflectIndex (x : Int) (size : Nat) : Nat :=
  if size ≤ 1 then 0
  else
    let period := 2 * (size - 1)
    let r := x.natAbs % period
    if r ≥ size then period - r else r

/-- `replicate_index` (L39-L42). -/
def replicateIndex (x : Int) (size : Nat) : Nat :=
  if size ≤ 1 then 0 else (max 0 (min x ((size : Int) - 1))).toNat

/-- `circular_index` (L45-L50); `%` truncates. -/
def circularIndex (x : Int) (size : Nat) : Nat :=
  if size ≤ 1 then 0
  else
    let r := x.tmod size
    if r < 0 then (r + size).toNat else r.toNat

/-- One dimension of the coordinate map (L105-L119); `none` marks `oob`. -/
def padIndex (mode : PadMode) (x : Int) (n : Nat) : Option Nat :=
  match mode with
  | .constant => if x < 0 ∨ (n : Int) ≤ x then none else some x.toNat
  | .reflect => some (reflectIndex x n)
  | .replicate => some (replicateIndex x n)
  | .circular => some (circularIndex x n)

/-- The coordinate map over all dimensions (L103-L120), from dimension `i` on. -/
def padCoords (mode : PadMode) (pad : List Int) (D : Nat) : Nat → List Nat → List Nat → Option (List Nat)
  | i, n :: ns, c :: cs =>
    match padIndex mode (c - padBefore pad D i) n, padCoords mode pad D (i + 1) ns cs with
    | some y, some ys => some (y :: ys)
    | _, _ => none
  | _, _, _ => some []

/-- `reshape` and `forward`: output element `idx` for `idx = 0, 1, …` (L89-L128).  The input is read at
its row-major position, whatever its strides. -/
def padOp (mode : PadMode) (value : α) (pad : List Int) (t : Tens α) : Option (Tens α) :=
  match padDims pad t.shape.length 0 t.shape with
  | none => none
  | some out =>
    some (fresh out (bufV ((List.range (numel out)).map fun idx =>
      (idx, match padCoords mode pad t.shape.length 0 t.shape (decodeL out idx) with
        | none => some value
        | some ic => t.raw (lin t.shape ic)))))

/-! ### Specification -/

/-- Position `y` of a row of `n` elements is the one that padding shows at position `x` (positions before
the row are negative): the same position for constant padding; a reflection at the two border elements,
which are not repeated; the nearest element; or the row repeated. -/
def Source (mode : PadMode) (n : Nat) (x : Int) (y : Nat) : Prop :=
  match mode with
  | .constant => (y : Int) = x
  | .reflect => n = 1 ∨ ((2 * (n - 1) : Nat) : Int) ∣ x - y ∨ ((2 * (n - 1) : Nat) : Int) ∣ x + y
  | .replicate => (x ≤ 0 ∧ y = 0) ∨ (n ≤ x ∧ y = n - 1) ∨ (0 ≤ x ∧ x < n ∧ (y : Int) = x)
  | .circular => (n : Int) ∣ x - y

/-! ### Proofs -/

theorem decodeL_eq : ∀ {s : List Nat} {i : List Nat}, InB s i → decodeL s (lin s i) = i
  | [], [], _ => rfl
  | [d], [a], h => by simp [decodeL, lin, numel]
  | _ :: d :: ds, a :: b :: bs, h => by
    have hl := lin_lt h.2
    have hp : 0 < numel (d :: ds) := by omega
    have h1 : (a * numel (d :: ds) + lin (d :: ds) (b :: bs)) / numel (d :: ds) = a := by
      rw [Nat.add_comm, Nat.add_mul_div_right _ _ hp, Nat.div_eq_of_lt hl, Nat.zero_add]
    have h2 : (a * numel (d :: ds) + lin (d :: ds) (b :: bs)) % numel (d :: ds) = lin (d :: ds) (b :: bs) := by
      rw [Nat.add_comm, Nat.add_mul_mod_self_right, Nat.mod_eq_of_lt hl]
    show (a * numel (d :: ds) + lin (d :: ds) (b :: bs)) / numel (d :: ds) ::
      decodeL (d :: ds) ((a * numel (d :: ds) + lin (d :: ds) (b :: bs)) % numel (d :: ds)) = _
    rw [h1, h2, decodeL_eq h.2]

theorem padDims_some (pad : List Int) (D : Nat) : ∀ (ns os : List Nat) (i : Nat),
    padDims pad D i ns = some os ↔ os.length = ns.length ∧ ∀ k, k < ns.length →
      (os.getD k 0 : Int) = ns.getD k 0 + padBefore pad D (i + k) + padAfter pad D (i + k)
  | [], os, i => by
    simp only [padDims, Option.some.injEq, List.length_nil, Nat.not_lt_zero, false_imp_iff, implies_true,
      and_true, List.length_eq_zero_iff]
    exact eq_comm
  | n :: ns, os, i => by
    unfold padDims
    dsimp only
    constructor
    · intro h
      split at h
      · cases h
      · next hn =>
        cases hp : padDims pad D (i + 1) ns with
        | none => rw [hp] at h; cases h
        | some os' =>
          rw [hp] at h
          injection h with h
          subst h
          obtain ⟨h1, h2⟩ := (padDims_some pad D ns os' (i + 1)).mp hp
          refine ⟨by simp [h1], ?_⟩
          rintro (_ | k) hk
          · simp only [List.getD_cons_zero, Nat.add_zero]; omega
          · have := h2 k (by simpa using hk)
            simp only [List.getD_cons_succ]
            rw [this, Nat.add_assoc, Nat.add_comm 1 k]
    · rintro ⟨h1, h2⟩
      obtain ⟨o, os, rfl⟩ : ∃ o os', os = o :: os' := by
        cases os with
        | nil => simp at h1
        | cons o os => exact ⟨o, os, rfl⟩
      have h0 := h2 0 (by simp)
      simp only [List.getD_cons_zero, Nat.add_zero] at h0
      rw [if_neg (by omega)]
      have : padDims pad D (i + 1) ns = some os := by
        rw [padDims_some]
        refine ⟨by simpa using h1, fun k hk => ?_⟩
        have := h2 (k + 1) (by simpa using hk)
        simp only [List.getD_cons_succ] at this
        rw [this, Nat.add_assoc, Nat.add_comm 1 k]
      rw [this, ← h0]
      simp

theorem padDims_isSome (pad : List Int) (D : Nat) : ∀ (ns : List Nat) (i : Nat),
    (padDims pad D i ns).isSome ↔ ∀ k, k < ns.length →
      0 ≤ (ns.getD k 0 : Int) + padBefore pad D (i + k) + padAfter pad D (i + k)
  | [], i => by simp [padDims]
  | n :: ns, i => by
    unfold padDims
    dsimp only
    have ih := padDims_isSome pad D ns (i + 1)
    constructor
    · intro h
      split at h
      · cases h
      · next hn =>
        have hs : (padDims pad D (i + 1) ns).isSome := by
          cases hp : padDims pad D (i + 1) ns with
          | none => rw [hp] at h; cases h
          | some _ => rfl
        rintro (_ | k) hk
        · simp only [List.getD_cons_zero, Nat.add_zero]; omega
        · have := ih.mp hs k (by simpa using hk)
          simp only [List.getD_cons_succ]
          rw [Nat.add_assoc, Nat.add_comm 1 k] at this; exact this
    · intro h
      have h0 := h 0 (by simp)
      simp only [List.getD_cons_zero, Nat.add_zero] at h0
      rw [if_neg (by omega)]
      have : (padDims pad D (i + 1) ns).isSome := ih.mpr fun k hk => by
        have := h (k + 1) (by simpa using hk)
        simp only [List.getD_cons_succ] at this
        rw [Nat.add_assoc, Nat.add_comm 1 k]; exact this
      obtain ⟨os, hos⟩ := Option.isSome_iff_exists.mp this
      rw [hos]; rfl

theorem dvd_unique {m : Nat} {a b : Nat} (ha : a < m) (hb : b < m) (h : (m : Int) ∣ (a : Int) - b) : a = b := by
  obtain ⟨c, hc⟩ := h
  have : c = 0 := by
    by_contra hne
    rcases Int.lt_or_gt_of_ne hne with h' | h'
    · have : (m : Int) * c ≤ m * (-1) := Int.mul_le_mul_of_nonneg_left (by omega) (by omega)
      omega
    · have : (m : Int) * 1 ≤ m * c := Int.mul_le_mul_of_nonneg_left (by omega) (by omega)
      omega
  subst this
  omega

theorem natAbs_cong (m : Int) (x : Int) (y : Int) : (m ∣ (x.natAbs : Int) - y ∨ m ∣ (x.natAbs : Int) + y) →
    (m ∣ x - y ∨ m ∣ x + y) := by
  rcases Int.natAbs_eq x with h | h
  · rw [← h]; exact id
  · have hx : (x.natAbs : Int) = -x := by omega
    rw [hx]
    rintro (h1 | h1)
    · right; have := (Int.dvd_neg).mpr h1; rwa [show -(-x - y) = x + y by ring] at this
    · left; have := (Int.dvd_neg).mpr h1; rwa [show -(-x + y) = x - y by ring] at this

theorem reflect_source {x : Int} {n : Nat} (hn : 0 < n) :
    reflectIndex x n < n ∧ Source .reflect n x (reflectIndex x n) := by
  unfold reflectIndex
  split
  · exact ⟨by omega, Or.inl (by omega)⟩
  · next h =>
    have hp : 0 < 2 * (n - 1) := by omega
    have hlt := Nat.mod_lt x.natAbs hp
    have hd : ((2 * (n - 1) : Nat) : Int) ∣ (x.natAbs : Int) - ((x.natAbs % (2 * (n - 1)) : Nat) : Int) := by
      rw [Int.natCast_mod]; exact Int.dvd_self_sub_emod
    dsimp only
    split
    · next hr =>
      refine ⟨by omega, Or.inr (natAbs_cong _ _ _ (Or.inr ?_))⟩
      rw [Nat.cast_sub (by omega)]
      have := Int.dvd_add hd (Int.dvd_refl ((2 * (n - 1) : Nat) : Int))
      rwa [show ∀ a b c : Int, a - b + c = a + (c - b) from fun a b c => by ring] at this
    · exact ⟨by omega, Or.inr (natAbs_cong _ _ _ (Or.inl hd))⟩

theorem reflect_unique {x : Int} {n a b : Nat} (ha : a < n) (hb : b < n) (h1 : Source .reflect n x a)
    (h2 : Source .reflect n x b) : a = b := by
  rcases h1 with h1 | h1
  · omega
  rcases h2 with h2 | h2
  · omega
  have key : ((2 * (n - 1) : Nat) : Int) ∣ (a : Int) - b ∨ ((2 * (n - 1) : Nat) : Int) ∣ (a : Int) + b := by
    rcases h1 with h1 | h1 <;> rcases h2 with h2 | h2
    · left; have := Int.dvd_sub h2 h1; rwa [show x - (b : Int) - (x - a) = a - b by ring] at this
    · right; have := Int.dvd_sub h2 h1; rwa [show x + (b : Int) - (x - a) = a + b by ring] at this
    · right; have := Int.dvd_sub h1 h2; rwa [show x + (a : Int) - (x - b) = a + b by ring] at this
    · left; have := Int.dvd_sub h1 h2; rwa [show x + (a : Int) - (x + b) = a - b by ring] at this
  rcases key with h | h
  · by_cases hn : n = 1
    · omega
    · exact dvd_unique (m := 2 * (n - 1)) (by omega) (by omega) h
  · obtain ⟨c, hc⟩ := h
    by_cases h0 : c ≤ 0
    · have : ((2 * (n - 1) : Nat) : Int) * c ≤ 0 := Int.mul_nonpos_of_nonneg_of_nonpos (by omega) h0
      omega
    · have : ((2 * (n - 1) : Nat) : Int) * 1 ≤ ((2 * (n - 1) : Nat) : Int) * c :=
        Int.mul_le_mul_of_nonneg_left (by omega) (by omega)
      omega

theorem circular_source {x : Int} {n : Nat} (hn : 0 < n) :
    circularIndex x n < n ∧ Source .circular n x (circularIndex x n) := by
  unfold circularIndex Source
  split
  · have : n = 1 := by omega
    subst this
    exact ⟨by omega, by simp⟩
  · next h =>
    have h1 := Int.tmod_lt_of_pos x (b := (n : Int)) (by omega)
    have h2 : -(n : Int) < x.tmod n := Int.lt_tmod_of_pos x (b := (n : Int)) (by omega)
    have hd : (n : Int) ∣ x - x.tmod n := Int.dvd_self_sub_tmod
    dsimp only
    split
    · refine ⟨by omega, ?_⟩
      rw [Int.toNat_of_nonneg (by omega)]
      have := Int.dvd_sub hd (Int.dvd_refl (n : Int))
      rwa [show x - x.tmod n - (n : Int) = x - (x.tmod n + n) by ring] at this
    · refine ⟨by omega, ?_⟩
      rw [Int.toNat_of_nonneg (by omega)]
      exact hd

theorem padIndex_source {mode : PadMode} {x : Int} {n y : Nat} (hy : y < n) (h : Source mode n x y) :
    padIndex mode x n = some y := by
  cases mode with
  | constant =>
    have h : (y : Int) = x := h
    simp only [padIndex]
    rw [if_neg (by omega)]
    congr 1; omega
  | reflect =>
    simp only [padIndex]
    have := reflect_source (x := x) (n := n) (by omega)
    rw [reflect_unique this.1 hy this.2 h]
  | replicate =>
    simp only [padIndex, replicateIndex]
    unfold Source at h
    congr 1
    split <;> omega
  | circular =>
    simp only [padIndex]
    have := circular_source (x := x) (n := n) (by omega)
    congr 1
    apply dvd_unique this.1 hy
    have h1 : (n : Int) ∣ x - (circularIndex x n : Int) := this.2
    have h2 : (n : Int) ∣ x - (y : Int) := h
    have := Int.dvd_sub h2 h1
    rwa [show x - (y : Int) - (x - circularIndex x n) = circularIndex x n - y by ring] at this

/-- Every position has exactly one source, so `Source` names one element of a non-empty row; for constant
padding only the positions inside the row have one. -/
theorem pad_source_unique (mode : PadMode) (n : Nat) (x : Int)
    (h : (mode ≠ .constant ∧ 0 < n) ∨ (0 ≤ x ∧ x < n)) : ∃! y, y < n ∧ Source mode n x y := by
  have hn : 0 < n := by omega
  have hex : ∃ y, y < n ∧ Source mode n x y := by
    cases mode with
    | constant => exact ⟨x.toNat, by simp at h; omega, by simp at h; simp only [Source]; omega⟩
    | reflect => exact ⟨_, reflect_source hn⟩
    | replicate =>
      by_cases h0 : x ≤ 0
      · exact ⟨0, hn, Or.inl ⟨h0, rfl⟩⟩
      · by_cases h1 : (n : Int) ≤ x
        · exact ⟨n - 1, by omega, Or.inr (Or.inl ⟨h1, rfl⟩)⟩
        · exact ⟨x.toNat, by omega, Or.inr (Or.inr ⟨by omega, by omega, by omega⟩)⟩
    | circular => exact ⟨_, circular_source hn⟩
  obtain ⟨y, hy⟩ := hex
  refine ⟨y, hy, fun z hz => ?_⟩
  have := (padIndex_source hy.1 hy.2).symm.trans (padIndex_source hz.1 hz.2)
  injection this with this
  exact this.symm

theorem padCoords_some (mode : PadMode) (pad : List Int) (D : Nat) : ∀ (ns cs ys : List Nat) (i : Nat),
    cs.length = ns.length → InB ns ys →
    (∀ k, k < ns.length → Source mode (ns.getD k 0) ((cs.getD k 0 : Int) - padBefore pad D (i + k)) (ys.getD k 0)) →
    padCoords mode pad D i ns cs = some ys
  | [], [], [], _, _, _, _ => rfl
  | n :: ns, c :: cs, y :: ys, i, hl, hi, h => by
    unfold padCoords
    have h0 := h 0 (by simp)
    simp only [List.getD_cons_zero, Nat.add_zero] at h0
    rw [padIndex_source hi.1 h0, padCoords_some mode pad D ns cs ys (i + 1) (by simpa using hl) hi.2]
    intro k hk
    have := h (k + 1) (by simpa using hk)
    simp only [List.getD_cons_succ] at this
    rwa [Nat.add_assoc, Nat.add_comm 1 k]

theorem padCoords_none (pad : List Int) (D : Nat) : ∀ (ns cs : List Nat) (i k : Nat),
    cs.length = ns.length → k < ns.length →
    ((cs.getD k 0 : Int) < padBefore pad D (i + k) ∨
      (ns.getD k 0 : Int) ≤ (cs.getD k 0 : Int) - padBefore pad D (i + k)) →
    padCoords .constant pad D i ns cs = none
  | n :: ns, c :: cs, i, 0, _, _, h => by
    unfold padCoords padIndex
    simp only [List.getD_cons_zero, Nat.add_zero] at h
    dsimp only
    rw [if_pos (by omega)]
  | n :: ns, c :: cs, i, k + 1, hl, hk, h => by
    unfold padCoords
    rw [padCoords_none pad D ns cs (i + 1) k (by simpa using hl) (by simpa using hk)]
    · cases padIndex .constant ((c : Int) - padBefore pad D i) n <;> rfl
    · simp only [List.getD_cons_succ] at h
      rwa [Nat.add_assoc, Nat.add_comm 1 k]

/-- **C75, success.** Padding succeeds exactly when no dimension would get a negative size (negative
padding crops). -/
theorem pad_returns_iff (mode : PadMode) (value : α) (pad : List Int) (t : Tens α) :
    (padOp mode value pad t).isSome ↔ ∀ k, k < t.shape.length →
      0 ≤ (t.shape.getD k 0 : Int) + padBefore pad t.shape.length k + padAfter pad t.shape.length k := by
  have := padDims_isSome pad t.shape.length t.shape 0
  simp only [Nat.zero_add] at this
  rw [← this]
  unfold padOp
  cases padDims pad t.shape.length 0 t.shape <;> rfl

/-- **C75.** For every row-major tensor, padding list (last dimension first, two numbers per dimension,
missing numbers being 0, negative numbers cropping) and mode: every dimension grows by its two numbers, an
output element shows the input element that the mode assigns to its position, and constant padding shows
the constant wherever some coordinate lies outside the input.  Missing: inputs that are views with other
strides (`pad_view_violated`). -/
theorem pad_elements_partial (mode : PadMode) (value : α) (pad : List Int) (t r : Tens α) (hc : t.Contig)
    (h : padOp mode value pad t = some r) :
    r.shape.length = t.shape.length ∧
    (∀ k, k < t.shape.length → (r.shape.getD k 0 : Int) =
      t.shape.getD k 0 + padBefore pad t.shape.length k + padAfter pad t.shape.length k) ∧
    ∀ i, InB r.shape i →
      (∀ y, InB t.shape y → (∀ k, k < t.shape.length →
          Source mode (t.shape.getD k 0) ((i.getD k 0 : Int) - padBefore pad t.shape.length k) (y.getD k 0)) →
        r.elem i = t.elem y) ∧
      (mode = .constant → (∃ k, k < t.shape.length ∧
          ((i.getD k 0 : Int) < padBefore pad t.shape.length k ∨
            (t.shape.getD k 0 : Int) ≤ (i.getD k 0 : Int) - padBefore pad t.shape.length k)) →
        r.elem i = some value) := by
  unfold padOp at h
  cases ho : padDims pad t.shape.length 0 t.shape with
  | none => rw [ho] at h; cases h
  | some out =>
    rw [ho] at h
    injection h with h
    have hd := (padDims_some pad t.shape.length t.shape out 0).mp ho
    simp only [Nat.zero_add] at hd
    have hshape : r.shape = out := by rw [← h]; rfl
    refine ⟨by rw [hshape]; exact hd.1, by rw [hshape]; exact hd.2, ?_⟩
    intro i hi
    rw [hshape] at hi
    have hval : r.elem i = match padCoords mode pad t.shape.length 0 t.shape i with
        | none => some value
        | some ic => t.raw (lin t.shape ic) := by
      rw [← h, fresh_elem _ _ hi]
      rw [bufV_fun (g := fun idx => match padCoords mode pad t.shape.length 0 t.shape (decodeL out idx) with
        | none => some value
        | some ic => t.raw (lin t.shape ic))]
      · beta_reduce
        rw [decodeL_eq hi]
      · intro w hw
        simp only [List.mem_map, List.mem_range] at hw
        obtain ⟨k, _, rfl⟩ := hw
        rfl
      · simp only [List.map_map, List.mem_map, List.mem_range, Function.comp]
        exact ⟨_, lin_lt hi, rfl⟩
    have hil : i.length = t.shape.length := hi.length.trans hd.1
    constructor
    · intro y hy hsrc
      rw [hval, padCoords_some mode pad t.shape.length t.shape i y 0 hil hy (by simpa using hsrc)]
      exact hc.raw hy
    · rintro rfl ⟨k, hk, hout⟩
      rw [hval, padCoords_none pad t.shape.length t.shape i 0 k hil hk (by simpa using hout)]

/-- Replicate, reflect and circular padding of the row 10 20 30 by 2 on both sides. -/
example : (∃ r, padOp .reflect 0 [2, 2] (exact [3] fun k => 10 * (k + 1)) = some r ∧
      (List.range 7).map (fun i => r.elem [i]) = [30, 20, 10, 20, 30, 20, 10].map some) ∧
    (∃ r, padOp .circular 0 [2, 2] (exact [3] fun k => 10 * (k + 1)) = some r ∧
      (List.range 7).map (fun i => r.elem [i]) = [20, 30, 10, 20, 30, 10, 20].map some) ∧
    (∃ r, padOp .constant 0 [1, -1, 0, 1] (exact [2, 2] fun k => k + 1) = some r ∧
      [[0, 0], [0, 1], [1, 0], [1, 1], [2, 1]].map r.elem = [0, 1, 0, 3, 0].map some) :=
  ⟨⟨_, rfl, by decide⟩, ⟨_, rfl, by decide⟩, ⟨_, rfl, by decide⟩⟩

/-- **C75 fails for views.** A transposed view of a 2×3 matrix, padded by nothing, comes out with its
elements in the wrong places: the operator reads the memory in row-major order. -/
theorem pad_view_violated : ∃ (t r : Tens Nat), t.shape = [3, 2] ∧
    (∀ i, InB t.shape i → t.elem i = some (3 * i.getD 1 0 + i.getD 0 0)) ∧
    padOp .replicate 0 [] t = some r ∧ r.shape = [3, 2] ∧ InB r.shape [0, 1] ∧
    t.elem [0, 1] = some 3 ∧ r.elem [0, 1] = some 1 := by
  refine ⟨⟨0, [3, 2], [1, 3], fun a => if 0 ≤ a ∧ a < 6 then some a.toNat else none⟩,
    _, rfl, ?_, rfl, rfl, ⟨by decide, by decide, trivial⟩, by decide, by decide⟩
  rintro (_ | ⟨a, _ | ⟨b, _ | ⟨c, l⟩⟩⟩) h
  · exact h.elim
  · exact h.2.elim
  · have h1 : a < 3 := h.1
    have h2 : b < 2 := h.2.1
    have e : (0 : Int) + ((a : Int) * 1 + ((b : Int) * 3 + 0)) = ((3 * b + a : Nat) : Int) := by push_cast; ring
    show (fun a : Int => if 0 ≤ a ∧ a < 6 then some a.toNat else none)
      ((0 : Int) + ((a : Int) * 1 + ((b : Int) * 3 + 0))) = some (3 * b + a)
    rw [e]
    beta_reduce
    rw [if_pos (by omega), Int.toNat_natCast]
  · exact h.2.2.elim

end Verif.Ops
