import Verif.Tensor.PermuteLemmas
/-
C20: `permute` and `transpose` on the CPU.
-/
namespace Verif.Tensor
variable {α : Type}

/-- C20. For every row-major tensor of rank ≥ 1, every permutation of its axes and every data type's
kernel choice (`thr`): the result has shape `out[k] = in[perm[k]]`, is row-major, and holds element `j`
of the input at index `i` with `i[k] = j[perm[k]]`. -/
theorem permute_elements_partial (thr : Option Nat) (t : Tens α) (perm : List Nat)
    (hc : t.Contig) (hn : 0 < t.shape.length) (hp : perm.Perm (List.range t.shape.length)) :
    (permute thr t perm).shape = perm.map (fun a => t.shape.getD a 0) ∧
    (permute thr t perm).Contig ∧
    numel (permute thr t perm).shape = numel t.shape ∧
    ∀ j, InB t.shape j → InB (permute thr t perm).shape (perm.map fun a => j.getD a 0) ∧
      (permute thr t perm).elem (perm.map fun a => j.getD a 0) = t.elem j := by
  refine ⟨rfl, fresh_contig _ _, numel_gather hp, fun j hj => ?_⟩
  have hin : InB (gather perm t.shape) (gather perm j) := gather_inB (fun a ha => IsPerm.lt hp ha) hj
  refine ⟨hin, ?_⟩
  have := fresh_elem (gather perm t.shape) (bufOf (permuteCopies thr t.shape perm) t.raw) hin
  unfold permute
  refine this.trans ?_
  rw [copies_buf thr t.raw hp hj hn, Tens.raw, Tens.elem, hc.addr hj]

/-- C20. Every index of the result comes from exactly one index of the input: each element is read
exactly once. -/
theorem permute_bijective (thr : Option Nat) (t : Tens α) (perm : List Nat)
    (hp : perm.Perm (List.range t.shape.length)) (i : List Nat)
    (hi : InB (permute thr t perm).shape i) :
    ∃! j, InB t.shape j ∧ (perm.map fun a => j.getD a 0) = i := by
  have hp' : IsPerm t.shape.length perm := hp
  have hi' : InB (gather perm t.shape) i := hi
  have hl : i.length = perm.length := by rw [hi'.length]; simp [gather]
  have hpl : perm.length = t.shape.length := by simpa using hp.length_eq
  have hnd : perm.Nodup := hp.nodup_iff.mpr List.nodup_range
  -- the index that `scatter` builds
  let j := (List.range t.shape.length).map fun a => i.getD (perm.idxOf a) 0
  have hjget : ∀ a, a < t.shape.length → j.getD a 0 = i.getD (perm.idxOf a) 0 := by
    intro a ha
    rw [List.getD_eq_getElem _ _ (by simpa [j] using ha)]
    simp [j]
  have hg : (perm.map fun a => j.getD a 0) = i := by
    apply ext_getD
    · simp [hl]
    · intro k hk
      have hk' : k < perm.length := by simpa using hk
      rw [List.getD_eq_getElem _ _ hk, List.getElem_map, hjget _ (hp'.lt (List.getElem_mem _)),
        hnd.idxOf_getElem k hk']
  refine ⟨j, ⟨?_, hg⟩, ?_⟩
  · apply inB_of_get
    · simp [j]
    · intro k hk
      rw [hjget k hk]
      have hm := hp'.mem hk
      have hx : perm.idxOf k < perm.length := List.idxOf_lt_length_iff.mpr hm
      have := hi'.get (perm.idxOf k) (by simpa [gather] using hx)
      simp only [gather] at this
      rw [List.getD_eq_getElem (perm.map _) _ (by simpa using hx), List.getElem_map,
        List.getElem_idxOf] at this
      exact this
  · rintro j' ⟨h1, h2⟩
    have e1 : gather perm j' = gather perm j := by
      show (perm.map fun a => j'.getD a 0) = (perm.map fun a => j.getD a 0)
      rw [h2, hg]
    have l1 := h1.length
    have l2 : j.length = t.shape.length := by simp [j]
    rw [← scatter_gather (perm := perm) (j := j') (by rw [l1]; exact hp'), e1, l1, ← l2,
      scatter_gather (by rw [l2]; exact hp')]

/-- Hypotheses are met, both branches. -/
example : (permute (some 4) (fresh [2, 3, 4] (fun k => some k)) [1, 0, 2]).elem [2, 1, 3] = some 23 ∧
    (permute (some 4) (fresh [2, 3, 4] (fun k => some k)) [2, 0, 1]).elem [3, 1, 2] = some 23 ∧
    [2, 0, 1].Perm (List.range 3) := by
  refine ⟨rfl, rfl, by decide⟩

/-- C20 for `transpose(dim0, dim1)`: on a row-major tensor, unless the rank differs from 2 and the
dimensions are 0 and 1 (see `transpose_zero_one_violated`), the result swaps the two dimensions of the
shape, and element `j` of the input is found at `j` with the two coordinates swapped. Negative
dimensions count from the end. -/
theorem transpose_elements_partial (b : Nat) (hb : 0 < b) (thr : Option Nat) (t : Tens α)
    (dim0 dim1 : Int) (d0 d1 : Nat) (hc : t.Contig)
    (h0 : d0 < t.shape.length) (h1 : d1 < t.shape.length)
    (e0 : dim0 = d0 ∨ dim0 = (d0 : Int) - t.shape.length)
    (e1 : dim1 = d1 ∨ dim1 = (d1 : Int) - t.shape.length)
    (hcase : t.shape.length = 2 ∨ d0 + d1 ≠ 1) :
    ∃ r, transpose b thr t dim0 dim1 = some r ∧ r.shape = swapAt d0 d1 t.shape ∧ r.Contig ∧
      ∀ j, InB t.shape j → InB r.shape (swapAt d0 d1 j) ∧ r.elem (swapAt d0 d1 j) = t.elem j := by
  have n0 : (if dim0 < 0 then dim0 + (t.shape.length : Int) else dim0) = d0 := by
    split_ifs <;> omega
  have n1 : (if dim1 < 0 then dim1 + (t.shape.length : Int) else dim1) = d1 := by
    split_ifs <;> omega
  refine ⟨fresh (swapAt d0 d1 t.shape) (bufOf (transposeCopies b thr t.shape d0 d1) t.raw), ?_, rfl,
    fresh_contig _ _, ?_⟩
  · unfold transpose
    simp only [n0, n1, Int.toNat_natCast]
    rw [if_pos (by omega)]
  · intro j hj
    have hjl := hj.length
    have hperm := swapAt_isPerm h0 h1
    have gs : gather (swapAt d0 d1 (List.range t.shape.length)) t.shape = swapAt d0 d1 t.shape :=
      gather_swap rfl h0 h1
    have gj : gather (swapAt d0 d1 (List.range t.shape.length)) j = swapAt d0 d1 j :=
      gather_swap hjl h0 h1
    have hin : InB (swapAt d0 d1 t.shape) (swapAt d0 d1 j) := by
      rw [← gs, ← gj]; exact gather_inB (fun a ha => hperm.lt ha) hj
    refine ⟨hin, ?_⟩
    refine (fresh_elem _ _ hin).trans ?_
    rw [Tens.elem, hc.addr hj]
    show _ = t.raw (lin t.shape j)
    generalize t.raw = input
    clear n0 n1 e0 e1 hc
    generalize t.shape = s at *
    unfold transposeCopies
    split_ifs with c1 c2 c3
    · -- rank 2
      match s, j, hj, c1 with
      | [h, w], [x, y], hj, _ =>
        have hx := hj.1
        have hy := hj.2.1
        have : (d0 = 0 ∧ d1 = 1) ∨ (d0 = 1 ∧ d1 = 0) := by omega
        have e : swapAt d0 d1 [h, w] = [w, h] ∧ swapAt d0 d1 [x, y] = [y, x] := by
          rcases this with ⟨rfl, rfl⟩ | ⟨rfl, rfl⟩ <;> simp [swapAt]
        rw [e.1, e.2]
        have := hw_buf hb input hx hy
        simpa [lin, numel] using this
    · match s, j, hj, c2 with
      | [nb, ns, nh, nd], [b', s', h', d'], hj, c2 =>
        obtain ⟨q1, q2, q3, q4, _⟩ := hj
        have e : swapAt d0 d1 [nb, ns, nh, nd] = [nb, nh, ns, nd] ∧
            swapAt d0 d1 [b', s', h', d'] = [b', h', s', d'] := by
          rcases c2.2 with ⟨rfl, rfl⟩ | ⟨rfl, rfl⟩ <;> simp [swapAt]
        rw [e.1, e.2]
        exact bshd_buf input q1 q2 q3 q4
    · omega
    · have := copies_buf thr input hperm hj (by omega)
      rwa [gs, gj] at this

/-- C20. Transposing twice gives back every element (same exclusions). -/
theorem transpose_transpose_partial (b : Nat) (hb : 0 < b) (thr : Option Nat) (t : Tens α) (d0 d1 : Nat)
    (hc : t.Contig) (h0 : d0 < t.shape.length) (h1 : d1 < t.shape.length)
    (hcase : t.shape.length = 2 ∨ d0 + d1 ≠ 1) :
    ∃ r, (transpose b thr t d0 d1 >>= fun r => transpose b thr r d0 d1) = some r ∧
      r.shape = t.shape ∧ ∀ j, InB t.shape j → r.elem j = t.elem j := by
  obtain ⟨r, g1, g2, g3, g4⟩ := transpose_elements_partial b hb thr t d0 d1 d0 d1 hc h0 h1 (.inl rfl)
    (.inl rfl) hcase
  have hl : r.shape.length = t.shape.length := by rw [g2, swapAt_length]
  obtain ⟨r', k1, k2, k3, k4⟩ := transpose_elements_partial b hb thr r d0 d1 d0 d1 g3 (by omega)
    (by omega) (.inl rfl) (.inl rfl) (by omega)
  refine ⟨r', by simp [g1, k1], by rw [k2, g2, swapAt_swapAt h0 h1], fun j hj => ?_⟩
  obtain ⟨a1, a2⟩ := g4 j hj
  obtain ⟨b1, b2⟩ := k4 _ a1
  have hjl := hj.length
  rw [swapAt_swapAt (by omega) (by omega)] at b2
  rw [b2, a2]

/-- Out-of-range dimensions are refused. -/
theorem transpose_refuses (b : Nat) (thr : Option Nat) (t : Tens α) (dim0 dim1 : Int)
    (h : dim0 < -(t.shape.length : Int) ∨ (t.shape.length : Int) ≤ dim0 ∨
      dim1 < -(t.shape.length : Int) ∨ (t.shape.length : Int) ≤ dim1) :
    transpose b thr t dim0 dim1 = none := by
  unfold transpose
  simp only
  rw [if_neg]
  split_ifs <;> omega

example : ∃ r, transpose 4 (some 4) (fresh [5, 6] (fun k => some k)) (-1) 0 = some r ∧
    r.elem [5, 4] = some 29 := ⟨_, rfl, by decide +kernel⟩

/-- C20 is violated by `transpose(0, 1)` on every tensor of rank other than 2: the batch count is
computed as a product starting at 0, so nothing is copied. -/
theorem transpose_zero_one_violated (b : Nat) (thr : Option Nat) (t : Tens α)
    (hr : 2 < t.shape.length) :
    ∃ r, transpose b thr t 0 1 = some r ∧ ∀ i, r.elem i = none := by
  refine ⟨fresh (swapAt 0 1 t.shape) (bufOf (transposeCopies b thr t.shape 0 1) t.raw), ?_, ?_⟩
  · unfold transpose
    simp only
    rw [if_pos (by simp; omega)]
    rfl
  · intro i
    have e : transposeCopies b thr t.shape 0 1 = [] := by
      unfold transposeCopies
      rw [if_neg (by omega), if_neg (by omega), if_pos (by omega)]
      rfl
    rw [e]
    simp [fresh, Tens.elem, bufOf]

/-- C20 is violated for a view that is not row-major: the kernels read the memory behind the view's
pointer consecutively and ignore its strides. Here: the right half (2 columns) of a 2×4 matrix. -/
theorem permute_view_violated :
    ∃ (t : Tens Nat) (j : List Nat),
      slice (fresh [2, 4] (fun k => some k)) [{}, ⟨2, 4, 1⟩] = some t ∧ InB t.shape j ∧
      (permute (some 4) t [1, 0]).elem ([1, 0].map fun a => j.getD a 0) ≠ t.elem j := by
  refine ⟨_, [1, 0], rfl, ⟨by decide, by decide, trivial⟩, by decide +kernel⟩

end Verif.Tensor
