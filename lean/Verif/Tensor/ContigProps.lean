import Verif.Tensor.SliceProps
/-
C40: `contiguous()`.
-/
namespace Verif.Tensor
variable {α : Type}

def zeros (s : List Nat) : List Nat := List.replicate s.length 0

theorem zeros_inB : ∀ {s : List Nat}, 0 < numel s → InB s (zeros s)
  | [], _ => trivial
  | d :: ds, h => by
    simp only [numel] at h
    exact ⟨Nat.pos_of_mul_pos_right h, zeros_inB (Nat.pos_of_mul_pos_left h)⟩

theorem lin_zeros : ∀ s : List Nat, lin s (zeros s) = 0
  | [] => rfl
  | d :: ds => by
    have : zeros (d :: ds) = 0 :: zeros ds := rfl
    simp [this, lin, lin_zeros ds]

/-- One odometer step: either the next index in row-major order, or wrap-around after the last. -/
theorem odoStep_spec : ∀ {s i : List Nat}, InB s i →
    (lin s i + 1 < numel s → (odoStep s i).2 = false ∧ InB s (odoStep s i).1 ∧
      lin s (odoStep s i).1 = lin s i + 1) ∧
    (lin s i + 1 = numel s → odoStep s i = (zeros s, true))
  | [], [], _ => by simp [lin, numel, odoStep, zeros]
  | d :: ds, a :: as, h => by
    obtain ⟨h1, h2⟩ := odoStep_spec h.2
    have hlt := lin_lt h.2
    have ha := h.1
    have hmul : (a + 1) * numel ds = a * numel ds + numel ds := Nat.succ_mul _ _
    by_cases hlast : lin ds as + 1 = numel ds
    · have hr := h2 hlast
      have hz := zeros_inB (s := ds) (by omega)
      by_cases hc : a + 1 < d
      · have e : odoStep (d :: ds) (a :: as) = ((a + 1) :: zeros ds, false) := by
          simp [odoStep, hr, hc]
        have hle : (a + 2) * numel ds ≤ d * numel ds := Nat.mul_le_mul_right _ hc
        have h3 : (a + 2) * numel ds = a * numel ds + numel ds + numel ds := by ring
        refine ⟨fun _ => ?_, fun hx => ?_⟩
        · rw [e]
          refine ⟨rfl, ⟨hc, hz⟩, ?_⟩
          simp only [lin, lin_zeros]
          omega
        · simp only [lin, numel] at hx
          omega
      · have hd : d = a + 1 := by omega
        have e : odoStep (d :: ds) (a :: as) = (zeros (d :: ds), true) := by
          simp [odoStep, hr, hc, zeros]
          rfl
        refine ⟨fun hx => ?_, fun _ => e⟩
        simp only [lin, numel, hd] at hx
        omega
    · obtain ⟨k1, k2, k3⟩ := h1 (by omega)
      have e : odoStep (d :: ds) (a :: as) = (a :: (odoStep ds as).1, false) := by
        simp [odoStep, k1]
      refine ⟨fun _ => ?_, fun hx => ?_⟩
      · rw [e]
        refine ⟨rfl, ⟨ha, k2⟩, ?_⟩
        simp only [lin, k3]
        omega
      · have hle : (a + 1) * numel ds ≤ d * numel ds := Nat.mul_le_mul_right _ ha
        simp only [lin, numel] at hx
        omega

theorem odoRun_get (s : List Nat) (st : List Int) : ∀ (n : Nat) (i : List Nat) (m : Nat), InB s i →
    lin s i + n = numel s → m < n →
    (odoRun s st n i)[m]? = some (dot (coords s (lin s i + m)) st)
  | 0, _, _, _, _, h => by omega
  | n + 1, i, 0, hi, _, _ => by simp [odoRun, coords_lin hi]
  | n + 1, i, m + 1, hi, hl, hm => by
    obtain ⟨_, h2, h3⟩ := (odoStep_spec hi).1 (by omega)
    have := odoRun_get s st n _ m h2 (by omega) (by omega)
    simp only [odoRun, List.getElem?_cons_succ, this, h3]
    congr 3
    omega

/-- A square-stride row-major shape of rank ≥ 2 has all trailing dimensions equal to 1. -/
theorem square_row : ∀ {d : Nat} {ds : List Nat}, ds ≠ [] → squareStrides (rowStrides (d :: ds)) = true →
    ∀ x ∈ ds, x = 1
  | d, [e], _, h => by
    simp [rowStrides, numel, squareStrides] at h
    simp; omega
  | d, e :: f :: ds, _, h => by
    have h1 : squareStrides (rowStrides (e :: f :: ds)) = true ∧
        ((e * numel (f :: ds) : Nat) : Int) = (numel (f :: ds) : Int) * (numel (f :: ds) : Int) := by
      have : rowStrides (d :: e :: f :: ds) =
        ((e * numel (f :: ds) : Nat) : Int) :: (numel (f :: ds) : Int) :: rowStrides (f :: ds) := rfl
      rw [this] at h
      have e2 : rowStrides (e :: f :: ds) = (numel (f :: ds) : Int) :: rowStrides (f :: ds) := rfl
      simp only [squareStrides, Bool.and_eq_true, beq_iff_eq] at h
      exact ⟨e2 ▸ h.2, h.1⟩
    have ih := square_row (d := e) (ds := f :: ds) (by simp) h1.1
    have hone : ∀ l : List Nat, (∀ x ∈ l, x = 1) → numel l = 1 := by
      intro l hl
      induction l with
      | nil => rfl
      | cons a l ihl => simp [numel, hl a (by simp), ihl (fun x hx => hl x (by simp [hx]))]
    have h2 := h1.2
    rw [hone _ ih] at h2
    intro x hx
    rcases List.mem_cons.mp hx with rfl | hx
    · simp at h2; omega
    · exact ih x hx

theorem numel_ones : ∀ l : List Nat, (∀ x ∈ l, x = 1) → numel l = 1 := by
  intro l hl
  induction l with
  | nil => rfl
  | cons a l ihl => simp [numel, hl a (by simp), ihl (fun x hx => hl x (by simp [hx]))]

theorem outer_ones : ∀ (d : Nat) (ds : List Nat), (∀ x ∈ ds, x = 1) →
    outerStrides (d :: ds) (rowStrides (d :: ds)) = (List.replicate ds.length 1, 1)
  | d, [], _ => by simp [outerStrides]
  | d, e :: ds, h => by
    have he := h e (by simp)
    have ih := outer_ones e ds (fun x hx => h x (by simp [hx]))
    have e1 : rowStrides (d :: e :: ds) = (numel (e :: ds) : Int) :: rowStrides (e :: ds) := rfl
    rw [e1]
    rw [outerStrides, ih, numel_ones _ h]
    simp [List.replicate_succ, he]

theorem rowOffset_ones : ∀ (l : List Nat) (n t : Nat), (∀ x ∈ l, x = 1) →
    rowOffset l (List.replicate n 1) t = 0
  | [], n, t, _ => by cases n <;> simp [rowOffset]
  | a :: l, 0, t, _ => by simp [rowOffset]
  | a :: l, n + 1, t, h => by
    have ha := h a (by simp)
    simp only [List.replicate_succ, rowOffset, ha, Nat.mod_one]
    simp [rowOffset_ones l n _ (fun x hx => h x (by simp [hx]))]

theorem contiguousSrc_get {s : List Nat} {st : List Int} (hr : 0 < s.length)
    (hl : st.length = s.length) (hcase : s.length = 1 ∨ squareStrides st = false ∨ st = rowStrides s)
    {i : List Nat} (hi : InB s i) : (contiguousSrc s st)[lin s i]? = some (dot i st) := by
  have hpos := numel_pos_of_inB hi
  unfold contiguousSrc
  rw [if_neg (by omega)]
  split_ifs with h1 h2
  · match s, st, i, h1, hl, hi with
    | [d], [a], [x], _, _, hi =>
      have hx : x < d := hi.1
      have e : lin [d] [x] = x := by simp [lin, numel]
      rw [e, List.getElem?_map, List.getElem?_range (by simpa using hx)]
      simp [dot]
  · have hrow : st = rowStrides s := by
      rcases hcase with h | h | h
      · exact absurd h h1
      · rw [h] at h2; cases h2
      · exact h
    subst hrow
    match s, i, hi, h1 with
    | d :: e :: ds, x :: xs, hi, _ =>
      have hones := square_row (by simp) h2
      have hnum : numel (e :: ds) = 1 := numel_ones _ hones
      have hlast : (d :: e :: ds).getLastD 0 = 1 := by
        have : (d :: e :: ds).getLastD 0 = (e :: ds).getLast (by simp) := by
          rw [List.getLastD_cons, List.getLastD_cons, ← List.getLast_eq_getLastD]
        rw [this]
        exact hones _ (List.getLast_mem _)
      have hx := hi.1
      have hlin : lin (d :: e :: ds) (x :: xs) = x := by
        have := lin_lt hi.2
        rw [hnum] at this
        simp only [lin, hnum]; omega
      rw [outer_ones d (e :: ds) hones, hlast, hlin]
      have hfm : ∀ (n : Nat) (f : Nat → Int), ((List.range n).flatMap fun o =>
          (List.range 1).map fun (m : Nat) => f o + (m : Int)) = (List.range n).map f := by
        intro n f
        have : (fun o => (List.range 1).map fun (m : Nat) => f o + (m : Int)) = fun o => [f o] := by
          funext o; simp
        rw [this]
        induction (List.range n) with
        | nil => rfl
        | cons a l ih => simp [ih]
      rw [hfm, List.getElem?_map, List.getElem?_range (by simp [numel]; have := hnum; simp [numel] at this; simp [this]; exact hx)]
      have hdrop : (d :: e :: ds).dropLast = d :: (e :: ds).dropLast := rfl
      have hrep : (List.replicate (e :: ds).length (1 : Int)) = 1 :: List.replicate ds.length 1 := by
        simp [List.replicate_succ]
      simp only [Option.map_some, hdrop, hrep, rowOffset, Nat.mod_eq_of_lt hx]
      rw [rowOffset_ones _ _ _ (fun y hy => hones y (List.mem_of_mem_dropLast hy))]
      rw [dot_rowStrides (by simpa using hi.length), hlin]
      simp
  · have := odoRun_get s st (numel s) (zeros s) (lin s i) (zeros_inB hpos) (by rw [lin_zeros]; omega)
      (lin_lt hi)
    rw [lin_zeros, Nat.zero_add, coords_lin hi] at this
    exact this

/-- C40 (partial). `contiguous()` keeps the shape, produces a row-major tensor, and keeps every
element at its index — for every rank-1 tensor, every row-major tensor, and every other strided view
(slices, nested slices, broadcast strides of 0, ...) unless its strides happen to satisfy
`stride[d] = stride[d+1]²` for all `d`, which selects a wrong fast path
(`contiguous_square_violated`). -/
theorem contiguous_elements_partial (t : Tens α) (hr : 0 < t.shape.length)
    (hl : t.stride.length = t.shape.length)
    (hcase : t.shape.length = 1 ∨ t.Contig ∨
      ∃ d, d + 1 < t.stride.length ∧
        t.stride.getD d 0 ≠ t.stride.getD (d + 1) 0 * t.stride.getD (d + 1) 0) :
    (contiguous t).shape = t.shape ∧ (contiguous t).Contig ∧
      ∀ i, InB t.shape i → (contiguous t).elem i = t.elem i := by
  refine ⟨rfl, fresh_contig _ _, fun i hi => ?_⟩
  have hsq : ∀ (st : List Int), (∃ d, d + 1 < st.length ∧
      st.getD d 0 ≠ st.getD (d + 1) 0 * st.getD (d + 1) 0) → squareStrides st = false := by
    intro st
    induction st with
    | nil => rintro ⟨d, h, _⟩; simp at h
    | cons a st ih =>
      rintro ⟨d, h, hne⟩
      cases st with
      | nil => simp at h
      | cons b st =>
        cases d with
        | zero =>
          simp only [squareStrides, Bool.and_eq_false_iff]
          left
          simpa using hne
        | succ d =>
          simp only [squareStrides, Bool.and_eq_false_iff]
          right
          exact ih ⟨d, by simpa using h, by simpa using hne⟩
  have hcase' : t.shape.length = 1 ∨ squareStrides t.stride = false ∨ t.stride = rowStrides t.shape := by
    rcases hcase with h | h | h
    · exact .inl h
    · exact .inr (.inr h)
    · exact .inr (.inl (hsq _ h))
  unfold contiguous
  refine (fresh_elem _ _ hi).trans ?_
  simp only [contiguousSrc_get hr hl hcase' hi, Tens.elem, Tens.addr]

/-- Hypotheses are met by a strided view: every second column, shape 3×3 of 3×6. -/
example : ∃ t, slice (fresh [3, 6] (fun k => some k)) [{}, ⟨0, 6, 2⟩] = some t ∧
    t.stride = [6, 2] ∧ (contiguous t).elem [2, 1] = some 14 := ⟨_, rfl, rfl, by decide +kernel⟩

/-- C40 is violated: for every second column of a 2×4 matrix the strides are [4, 2], 4 = 2², and the
copy returns elements of the wrong rows and columns. -/
theorem contiguous_square_violated :
    ∃ (t : Tens Nat) (i : List Nat),
      slice (fresh [2, 4] (fun k => some k)) [{}, ⟨0, 4, 2⟩] = some t ∧ InB t.shape i ∧
      t.elem i ≠ none ∧ (contiguous t).elem i ≠ t.elem i := by
  refine ⟨_, [0, 1], rfl, ⟨by decide, by decide, trivial⟩, by decide +kernel, by decide +kernel⟩

end Verif.Tensor
