import Verif.Ops.Gather
import Verif.Tensor.JoinProps
/-
C118: `clone` and `copy2`, and the insertion of image embeddings into the prompt.
Sources: mllm/backends/cpu/ops/{CloneOp,CopyOp}.cpp, mllm/core/aops/{CloneOp,CopyOp}.cpp, mllm/core/Tensor.cpp L661-669,
mllm/core/TensorViewImpl.cpp L27, mllm/core/TensorStorage.cpp L37-58, mllm/models/qwen2vl/modeling_qwen2vl.hpp L736-755
(qwen2_5vl L873-892: the same).

Assumptions as in `Tensor/Model.lean`. Source and destination of a copy are different allocations.
-/
namespace Verif.Ops
open Verif.Tensor
variable {α : Type}

/-- A tensor with the size of the storage it is a view of, in elements. -/
structure Held (α : Type) where
  t : Tens α
  cap : Nat

/-- `Tensor::bytes()` in elements: Tensor.cpp L669 → `TensorViewImpl::size`, TensorViewImpl.cpp L27: the size of the
whole storage, not of the view. -/
def Held.bytes (h : Held α) : Nat := h.cap

/-- `std::memcpy(d + dOff, s + sOff, n)` between two allocations; `none`: reads or writes outside one of them
(undefined behaviour). -/
def memcpy (dst : Int → Option α) (dCap : Nat) (dOff : Int) (src : Int → Option α) (sCap : Nat) (sOff : Int) (n : Nat) :
    Option (Int → Option α) :=
  if 0 ≤ sOff ∧ sOff + n ≤ sCap ∧ 0 ≤ dOff ∧ dOff + n ≤ dCap then
    some fun a => if dOff ≤ a ∧ a < dOff + n then src (sOff + (a - dOff)) else dst a
  else none

/-- `Tensor::clone()`: aops/CloneOp.cpp L28-33 (a fresh tensor of the same shape), cpu/ops/CloneOp.cpp L12-20. `none`:
the contiguity assert, or undefined behaviour. -/
def clone (i : Held α) : Option (Held α) :=
  if (isContiguous i.t.shape i.t.stride).isSome then
    (memcpy (fun _ => none) (numel i.t.shape) 0 i.t.mem i.cap i.t.off i.bytes).map fun m =>
      ⟨⟨0, i.t.shape, rowStrides i.t.shape, m⟩, numel i.t.shape⟩
  else none

/-- `src.copy2(dst)`: Tensor.cpp L661-663, cpu/ops/CopyOp.cpp L12-20 (the argument is the destination). Gives the
contents of the destination's storage afterwards. -/
def copy2 (src dst : Held α) : Option (Int → Option α) :=
  memcpy dst.t.mem dst.cap dst.t.off src.t.mem src.cap src.t.off src.bytes

/-- The slice `[{kAll, {P, P + n}, kAll}]`. -/
def rowsFrom (P n : Nat) : List SlicePair := [{}, ⟨P, (P : Int) + n, 1⟩, {}]

/-- The insertion of the visual embeddings, modeling_qwen2vl.hpp L736-755: the embeddings after it. `none`: no image
token (the assert) or undefined behaviour. -/
def insertVisual (tok : Int) (ids : List Int) (vis emb : Held α) : Option (Held α) :=
  if tok ∈ ids then do
    let s ← slice emb.t (rowsFrom (ids.idxOf tok) (vis.t.shape.getD 0 0))
    let m ← copy2 vis ⟨s, emb.cap⟩
    some ⟨{ emb.t with mem := m }, emb.cap⟩
  else none

/-! ### Specification -/

/-- The view lies inside its storage. -/
def Held.Valid (h : Held α) : Prop := 0 ≤ h.t.off ∧ h.t.off + numel h.t.shape ≤ h.cap

/-- The tensor is the whole of its storage, as every operator result is. -/
def Held.Whole (h : Held α) : Prop := h.t.Contig ∧ h.t.off = 0 ∧ h.cap = numel h.t.shape

/-- A faithful copy: same shape, same elements, storage of its own. -/
def IsCopy (a b : Held α) : Prop :=
  b.t.shape = a.t.shape ∧ b.Whole ∧ ∀ i, InB a.t.shape i → b.t.elem i = a.t.elem i

/-! ### Theorems -/

theorem contig_isContiguous : ∀ (sh : List Nat), isContiguous sh (rowStrides sh) = some (numel sh)
  | [] => rfl
  | d :: ds => by
    show (isContiguous ds (rowStrides ds)).bind _ = _
    rw [contig_isContiguous ds]
    simp [numel, Nat.mul_comm]

/-- C118, clone: a tensor that is the whole of its storage is copied faithfully. -/
theorem C118_clone_partial (i : Held α) (h : i.Whole) : ∃ r, clone i = some r ∧ IsCopy i r := by
  obtain ⟨h1, h2, h3⟩ := h
  unfold clone
  rw [show i.t.stride = rowStrides i.t.shape from h1, contig_isContiguous, if_pos (by rfl)]
  unfold memcpy Held.bytes
  rw [if_pos ⟨by omega, by omega, by omega, by omega⟩]
  refine ⟨_, rfl, rfl, ⟨rfl, rfl, rfl⟩, ?_⟩
  intro j hj
  have hlt := lin_lt hj
  unfold Tens.elem
  rw [h1.addr hj, Tens.Contig.addr (t := ⟨0, i.t.shape, rowStrides i.t.shape, _⟩) rfl hj]
  show (if _ then _ else _) = _
  rw [if_pos ⟨by simp only; omega, by simp only; omega⟩]
  congr 1
  simp only
  omega

/-- C118 is violated by every view that is not the whole of its storage: for a contiguous view inside its storage, `clone`
stays inside both allocations only if the view is the whole storage. -/
theorem C118_clone_iff (i : Held α) (hc : i.t.Contig) (hv : i.Valid) :
    (clone i).isSome ↔ i.t.off = 0 ∧ i.cap = numel i.t.shape := by
  obtain ⟨h1, h2⟩ := hv
  unfold clone
  rw [show i.t.stride = rowStrides i.t.shape from hc, contig_isContiguous, if_pos (by rfl)]
  unfold memcpy Held.bytes
  split_ifs with h
  · simp only [Option.map_some, Option.isSome_some, true_iff]
    omega
  · simp only [Option.map_none, Option.isSome_none, Bool.false_eq_true, false_iff]
    intro h'
    apply h
    omega

theorem C118_clone_view_violated (i : Held α) (hc : i.t.Contig) (hv : i.Valid) (hp : numel i.t.shape < i.cap) :
    clone i = none := by
  have := (C118_clone_iff i hc hv).not.mpr (by omega)
  simpa using this

/-- C118, copy2: a whole tensor copied into a contiguous view of the same number of elements: the elements of the view
are those of the source in row-major order, everything else in the storage stays. -/
theorem C118_copy2_partial (src dst : Held α) (hs : src.Whole) (hd : dst.t.Contig) (hv : dst.Valid)
    (hn : numel src.t.shape = numel dst.t.shape) :
    ∃ m, copy2 src dst = some m ∧
      (∀ i j, InB src.t.shape i → InB dst.t.shape j → lin src.t.shape i = lin dst.t.shape j →
        m (dst.t.addr j) = src.t.elem i) ∧
      ∀ a, (∀ j, InB dst.t.shape j → dst.t.addr j ≠ a) → m a = dst.t.mem a := by
  obtain ⟨h1, h2, h3⟩ := hs
  obtain ⟨h4, h5⟩ := hv
  refine ⟨_, by unfold copy2 memcpy Held.bytes; rw [if_pos ⟨by omega, by omega, by omega, by omega⟩], ?_, ?_⟩
  · intro i j hi hj hij
    have := lin_lt hj
    unfold Tens.elem
    rw [h1.addr hi, hd.addr hj, if_pos ⟨by omega, by omega⟩]
    congr 1
    omega
  · intro a ha
    rw [if_neg]
    rintro ⟨c1, c2⟩
    obtain ⟨k, hk⟩ : ∃ k : Nat, a = dst.t.off + k := ⟨(a - dst.t.off).toNat, by omega⟩
    have hlt : k < numel dst.t.shape := by omega
    obtain ⟨e1, e2⟩ := coords_spec hlt
    apply ha _ e1
    rw [hd.addr e1, e2, hk]

/-- C118 is violated by `copy2` from a view that is smaller than its storage: the copy runs past the view, outside
the source's storage (offset > 0) or into the destination behind the place meant (offset 0), outside the destination's
storage if there is not enough room. -/
theorem C118_copy2_view_violated (src dst : Held α) (hsv : src.Valid) (hdv : dst.Valid)
    (_hp : numel src.t.shape < src.cap) (_hn : numel src.t.shape = numel dst.t.shape) :
    (0 < src.t.off ∨ (dst.cap : Int) < dst.t.off + src.cap → copy2 src dst = none) ∧
    (src.t.off = 0 → dst.t.off + src.cap ≤ dst.cap → ∃ m, copy2 src dst = some m ∧
      ∀ k : Nat, numel dst.t.shape ≤ k → k < src.cap → m (dst.t.off + k) = src.t.mem k) := by
  obtain ⟨h1, h2⟩ := hsv
  obtain ⟨h3, h4⟩ := hdv
  unfold copy2 memcpy Held.bytes
  constructor
  · intro h
    rw [if_neg (by omega)]
  · intro h5 h6
    rw [if_pos (by omega)]
    refine ⟨_, rfl, fun k hk1 hk2 => ?_⟩
    rw [if_pos ⟨by omega, by omega⟩, h5]
    congr 1
    omega

/-- A destination that is not contiguous is filled wrongly even from a whole source: copying a 2 × 2 tensor into the
first two columns of a 2 × 3 tensor. The call `src.transpose(1, 0).copy2(batch_result[{i, kAll, {0, len}}])` in
mllm/models/minicpm_o2_6/modeling_chattts.hpp L468 does this for every row shorter than the longest. -/
theorem C118_copy2_strided_violated :
    let src : Held Nat := ⟨fresh [2, 2] some, 4⟩
    let base : Tens Nat := fresh [2, 3] fun k => if k < 6 then some (100 + k) else none
    ∃ d m, slice base [{}, ⟨0, 2, 1⟩] = some d ∧ d.shape = [2, 2] ∧ copy2 src ⟨d, 6⟩ = some m ∧
      src.t.elem [1, 0] = some 2 ∧ m (d.addr [1, 0]) = some 3 ∧ base.elem [0, 2] = some 102 ∧ m (base.addr [0, 2]) = some 2 := by
  refine ⟨_, _, rfl, by decide, rfl, by decide, by decide, by decide, by decide⟩

theorem slice_rows (t : Tens α) (S D P n : Nat) (hes : t.shape = [1, S, D]) (hec : t.Contig) (hn : 0 < n)
    (hbig : ((P + n : Nat) : Int) < kAll) (hDbig : (D : Int) < kAll) :
    slice t (rowsFrom P n) = some ⟨t.off + (P * D : Nat), [1, n, D], [((S * D : Nat) : Int) * 1, (D : Int) * 1, 1 * 1], t.mem⟩ := by
  have hst : t.stride = [((S * D : Nat) : Int), (D : Int), 1] := by
    rw [hec, hes]
    simp [rowStrides, numel]
  unfold slice
  rw [hes, hst]
  have d0 : sliceDim 1 {} = some (0, 1, 1) := by decide
  have d1 : sliceDim S ⟨P, (P : Int) + n, 1⟩ = some ((P : Int), n, 1) := by
    have c1 : ((P : Nat) : Int) ≠ kAll := by omega
    have c2 : ((P : Nat) : Int) + n ≠ kAll := by omega
    have hs : shiftBoth S (P : Int) ((P : Int) + n) = ((P : Int), (P : Int) + n) := by
      unfold shiftBoth; rw [if_neg (by omega)]
    have hb : sliceBounds S ⟨P, (P : Int) + n, 1⟩ = ((P : Int), (P : Int) + n) := by
      unfold sliceBounds fixNeg
      simp only [if_neg c1, if_neg c2, hs]
      rw [if_neg (by omega), if_neg (by omega)]
    unfold sliceDim
    rw [hb]
    simp only
    rw [if_neg (by omega)]
    unfold sliceCount
    rw [if_pos (by omega)]
    congr 3
    omega
  have d2 : sliceDim D {} = some (0, D, 1) := by
    have hs : shiftBoth D 0 (D : Int) = (0, (D : Int)) := by
      unfold shiftBoth; rw [if_neg (by omega)]
    have hb : sliceBounds D {} = (0, (D : Int)) := by
      unfold sliceBounds fixNeg
      simp only [if_true, hs]
      rw [if_neg (by omega), if_neg (by omega)]
    unfold sliceDim
    rw [hb]
    simp only
    rw [if_neg (by omega)]
    unfold sliceCount
    split_ifs with h
    · congr 3
      omega
    · congr 3
      omega
  show (do let (o, sh, sd) ← sliceDims [1, S, D] _ [{}, ⟨P, (P : Int) + n, 1⟩, {}]; pure _) = _
  simp only [sliceDims, d0, d1, d2, Option.bind_eq_bind, Option.bind_some, Option.pure_def]
  congr 2
  push_cast
  ring

/-- C118, image embeddings: in a prompt of one sequence with room for the image, after the insertion row `P + k` of
the embeddings is row `k` of the image, `P` the first image token, and every other row is the text embedding. -/
theorem C118_insert_partial (tok : Int) (ids : List Int) (vis emb : Held α) (n D : Nat) (hm : tok ∈ ids)
    (hvs : vis.t.shape = [n, D]) (hvw : vis.Whole) (hes : emb.t.shape = [1, ids.length, D]) (hew : emb.Whole)
    (hn : 0 < n) (hroom : ids.idxOf tok + n ≤ ids.length) (hbig : (ids.length : Int) < kAll) (hDbig : (D : Int) < kAll) :
    ∃ r, insertVisual tok ids vis emb = some r ∧ r.t.shape = [1, ids.length, D] ∧ r.Whole ∧
      ∀ i e, i < ids.length → e < D → r.t.elem [0, i, e] =
        if ids.idxOf tok ≤ i ∧ i < ids.idxOf tok + n then vis.t.elem [i - ids.idxOf tok, e] else emb.t.elem [0, i, e] := by
  set P := ids.idxOf tok with hP
  set S := ids.length with hS
  obtain ⟨hvc, hvo, hvcap⟩ := hvw
  obtain ⟨hec, heo, hecap⟩ := hew
  have hsl := slice_rows emb.t S D P n hes hec hn (by omega) hDbig
  have hcapE : emb.cap = S * D := by rw [hecap, hes]; simp [numel]
  have hcapV : vis.cap = n * D := by rw [hvcap, hvs]; simp [numel]
  have hle : P * D + n * D ≤ S * D := by rw [← Nat.add_mul]; exact Nat.mul_le_mul_right _ hroom
  have hcp : copy2 vis ⟨⟨emb.t.off + (P * D : Nat), [1, n, D], [((S * D : Nat) : Int) * 1, (D : Int) * 1, 1 * 1], emb.t.mem⟩, emb.cap⟩ =
      some fun a => if ((P * D : Nat) : Int) ≤ a ∧ a < (P * D : Nat) + (n * D : Nat) then vis.t.mem (a - (P * D : Nat)) else emb.t.mem a := by
    unfold copy2 memcpy Held.bytes
    simp only
    rw [heo, hvo, hcapE, hcapV, if_pos ⟨by omega, by omega, by omega, by push_cast at *; omega⟩]
    congr 1
    funext a
    rw [zero_add, zero_add]
  have hins : insertVisual tok ids vis emb = some ⟨⟨emb.t.off, emb.t.shape, emb.t.stride, fun a =>
      if ((P * D : Nat) : Int) ≤ a ∧ a < (P * D : Nat) + (n * D : Nat) then vis.t.mem (a - (P * D : Nat)) else emb.t.mem a⟩, emb.cap⟩ := by
    unfold insertVisual
    rw [if_pos hm, ← hP, hvs]
    simp only [List.getD_cons_zero]
    rw [hsl]
    simp only [Option.bind_eq_bind, Option.bind_some]
    rw [hcp]
    rfl
  refine ⟨_, hins, hes, ⟨hec, heo, hecap⟩, ?_⟩
  intro i e hi he
  have hin : InB [1, S, D] [0, i, e] := ⟨by omega, hi, he, trivial⟩
  have haddr : emb.t.addr [0, i, e] = ((i * D + e : Nat) : Int) := by
    have := hec.addr (idx := [0, i, e]) (by rw [hes]; exact hin)
    rw [this, heo, hes]
    simp [lin, numel]
  have h' : ∀ m : Int → Option α, Tens.elem (Tens.mk emb.t.off emb.t.shape emb.t.stride m) [0, i, e] = m ((i * D + e : Nat) : Int) := fun m =>
    congrArg m haddr
  rw [h']
  have key : ((P * D : Nat) : Int) ≤ ((i * D + e : Nat) : Int) ∧ ((i * D + e : Nat) : Int) < (P * D : Nat) + (n * D : Nat) ↔ P ≤ i ∧ i < P + n := by
    rw [← Nat.cast_add, ← Nat.add_mul, Nat.cast_le, Nat.cast_lt]
    constructor
    · rintro ⟨a1, a2⟩
      constructor
      · by_contra hc
        have : (i + 1) * D ≤ P * D := Nat.mul_le_mul_right _ (by omega)
        rw [Nat.add_mul] at this
        omega
      · by_contra hc
        have : (P + n) * D ≤ i * D := Nat.mul_le_mul_right _ (by omega)
        omega
    · rintro ⟨a1, a2⟩
      have b1 : P * D ≤ i * D := Nat.mul_le_mul_right _ a1
      have b2 : (i + 1) * D ≤ (P + n) * D := Nat.mul_le_mul_right _ (by omega)
      rw [Nat.add_mul i] at b2
      omega
  by_cases hc : P ≤ i ∧ i < P + n
  · rw [if_pos (key.mpr hc), if_pos hc]
    have hin2 : InB [n, D] [i - P, e] := ⟨by omega, he, trivial⟩
    unfold Tens.elem
    rw [hvc.addr (by rw [hvs]; exact hin2), hvo, hvs]
    congr 1
    obtain ⟨k, rfl⟩ := Nat.exists_eq_add_of_le hc.1
    simp only [lin, numel, Nat.add_sub_cancel_left, Nat.mul_one, Nat.add_mul]
    push_cast
    ring
  · rw [if_neg (fun h => hc (key.mp h)), if_neg hc]
    unfold Tens.elem
    rw [haddr]

/-- C118 is violated when the prompt has fewer positions from the first image token on than the image has
rows: the copy writes outside the embeddings; nothing checks it. -/
theorem C118_insert_short_violated (tok : Int) (ids : List Int) (vis emb : Held α) (n D : Nat)
    (hvs : vis.t.shape = [n, D]) (hvw : vis.Whole) (hes : emb.t.shape = [1, ids.length, D]) (hew : emb.Whole)
    (hD : 0 < D) (hbig : ((ids.idxOf tok + n : Nat) : Int) < kAll) (hDbig : (D : Int) < kAll)
    (hn : 0 < n) (hshort : ids.length < ids.idxOf tok + n) : insertVisual tok ids vis emb = none := by
  obtain ⟨-, h2, h3⟩ := hvw
  obtain ⟨g1, g2, g3⟩ := hew
  unfold insertVisual
  split_ifs with hm
  · rw [hvs]
    simp only [List.getD_cons_zero]
    rw [slice_rows emb.t ids.length D _ n hes g1 hn hbig hDbig]
    simp only [Option.bind_eq_bind, Option.bind_some]
    have : copy2 vis ⟨⟨emb.t.off + (ids.idxOf tok * D : Nat), [1, n, D], [((ids.length * D : Nat) : Int) * 1, (D : Int) * 1, 1 * 1], emb.t.mem⟩, emb.cap⟩ = none := by
      unfold copy2 memcpy Held.bytes
      rw [if_neg]
      rintro ⟨-, -, -, h⟩
      have hc : vis.cap = n * D := by rw [h3, hvs]; simp [numel]
      have hc2 : emb.cap = ids.length * D := by rw [g3, hes]; simp [numel]
      simp only [hc, hc2, g2, zero_add] at h
      have h' : ids.idxOf tok * D + n * D ≤ ids.length * D := by exact_mod_cast h
      rw [← Nat.add_mul] at h'
      have := Nat.le_of_mul_le_mul_right h' hD
      omega
    rw [this]
    rfl
  · rfl

/-- Hypotheses are met: a prompt `t t v v t` with two image rows of size 2. -/
example : ((insertVisual 9 [1, 1, 9, 9, 1] ⟨fresh [2, 2] fun k => if k < 4 then some (100 + k) else none, 4⟩
    ⟨fresh [1, 5, 2] fun k => if k < 10 then some k else none, 10⟩).map fun r =>
      (List.range 5).map fun i => [r.t.elem [0, i, 0], r.t.elem [0, i, 1]]) =
    some ([[0, 1], [2, 3], [100, 101], [102, 103], [8, 9]].map fun l => l.map some) := by decide +kernel

example : ((clone ⟨fresh [2, 2] some, 4⟩ : Option (Held Nat)).isSome) = true ∧
    ((clone ⟨{ fresh [2] some with off := 2 }, 4⟩ : Option (Held Nat)).isSome) = false := by decide +kernel

end Verif.Ops
