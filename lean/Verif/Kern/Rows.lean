import Verif.Kern.MatMul

/-!
Operators that work on one row (the last axis) at a time, one body of a parallel loop per row.
-/

namespace Verif.Kern

open Verif.Tensor (numel InB lin lin_lt)

variable {α : Type}

/-- A contiguous batch of rows. -/
def Ten.Rows (t : Ten α) (lead : List Nat) (D : Nat) : Prop := t.shape = lead ++ [D] ∧ t.stride = rowStr t.shape

theorem numel_append1 (l : List Nat) (a : Nat) : numel (l ++ [a]) = numel l * a := by
  induction l with
  | nil => simp [numel]
  | cons d l ih => simp only [List.cons_append, numel, ih]; ring

theorem lin_append1 : ∀ {l ix : List Nat} (_ : InB l ix) (a j : Nat), lin (l ++ [a]) (ix ++ [j]) = lin l ix * a + j
  | [], [], _, a, j => by simp [lin, numel]
  | d :: l, x :: ix, h, a, j => by
    simp only [List.cons_append, lin, lin_append1 h.2 a j, numel_append1]
    ring

theorem inB_append1 : ∀ {l ix : List Nat} (_ : InB l ix) {a j : Nat} (_ : j < a), InB (l ++ [a]) (ix ++ [j])
  | [], [], _, a, j, hj => ⟨hj, trivial⟩
  | d :: l, x :: ix, h, a, j, hj => ⟨h.1, inB_append1 h.2 hj⟩

theorem Ten.Rows.get {t : Ten α} {lead : List Nat} {D : Nat} (h : t.Rows lead D) {ix : List Nat} (hix : InB lead ix) {j : Nat}
    (hj : j < D) : t.get (ix ++ [j]) = t.data (lin lead ix * D + j) := by
  rw [Ten.get, h.2, h.1, pos_rowStr (inB_append1 hix hj), lin_append1 hix]

/-- The output tensor: `Tensor::empty(shape)` with the final contents of its storage. -/
def outRows (shape : List Nat) (m : Nat → α) : Ten α := ⟨shape, rowStr shape, m⟩

/-- Every schedule leaves `val ix j` at every index of the output and writes nowhere else. -/
def RowsAre (ss : List (List (List (Upd α)))) (lead : List Nat) (D : Nat) (val : List Nat → Nat → α) : Prop :=
  ∀ m m' : Nat → α, Exec ss m m' →
    (∀ ix, InB lead ix → ∀ j < D, (outRows (lead ++ [D]) m').get (ix ++ [j]) = val ix j) ∧
    ∀ x, numel (lead ++ [D]) ≤ x → m' x = m x

/-- The same for the storage: row `r`, element `j` is at `r * D + j`. -/
def FlatRows (ss : List (List (List (Upd α)))) (R D : Nat) (val : Nat → Nat → α) : Prop :=
  ∀ m m' : Nat → α, Exec ss m m' → (∀ r < R, ∀ j < D, m' (r * D + j) = val r j) ∧ ∀ x, R * D ≤ x → m' x = m x

theorem Exec.row {R D : Nat} {body : Nat → List (Upd α)} (hin : ∀ r < R, ∀ u ∈ body r, r * D ≤ u.addr ∧ u.addr < r * D + D)
    {m m' : Nat → α} (hex : Exec [(List.range R).map body] m m') :
    (∀ r < R, ∀ j < D, m' (r * D + j) = run (body r) m (r * D + j)) ∧ ∀ x, R * D ≤ x → m' x = m x := by
  have hex' : Exec ((List.range 1).map fun b => (List.range R).map ((fun _ r => body r) b)) m m' := by
    simpa using hex
  constructor
  · intro r hr j hj
    rw [hex'.grid _ 0 r (by omega) hr]
    intro b' hb' q hq hne u hu he
    have hr' : q ≠ r := by omega
    have := hin q hq u hu
    rcases Nat.lt_or_gt_of_ne hr' with h | h
    · have c : (q + 1) * D ≤ r * D := Nat.mul_le_mul_right _ h
      rw [Nat.add_mul] at c; omega
    · have c : (r + 1) * D ≤ q * D := Nat.mul_le_mul_right _ h
      rw [Nat.add_mul] at c; omega
  · intro x hx
    refine hex'.grid_other x ?_
    intro b _ r hr u hu he
    have := hin r hr u hu
    have c : (r + 1) * D ≤ R * D := Nat.mul_le_mul_right _ hr
    rw [Nat.add_mul] at c
    omega

theorem flat_rows {R D : Nat} {body : Nat → List (Upd α)} {val : Nat → Nat → α}
    (hin : ∀ r < R, ∀ u ∈ body r, r * D ≤ u.addr ∧ u.addr < r * D + D)
    (hv : ∀ r < R, ∀ j < D, ∀ m, run (body r) m (r * D + j) = val r j) : FlatRows [(List.range R).map body] R D val := by
  intro m m' hex
  obtain ⟨h1, h2⟩ := hex.row hin
  exact ⟨fun r hr j hj => by rw [h1 r hr j hj, hv r hr j hj], h2⟩

theorem FlatRows.rows {ss : List (List (List (Upd α)))} {lead : List Nat} {D : Nat} {val : Nat → Nat → α}
    {val' : List Nat → Nat → α} (h : FlatRows ss (numel lead) D val)
    (hv : ∀ ix, InB lead ix → ∀ j < D, val (lin lead ix) j = val' ix j) : RowsAre ss lead D val' := by
  intro m m' hex
  obtain ⟨h1, h2⟩ := h m m' hex
  refine ⟨fun ix hix j hj => ?_, fun x hx => h2 x (by rw [numel_append1] at hx; exact hx)⟩
  have hR : (outRows (lead ++ [D]) m').Rows lead D := ⟨rfl, rfl⟩
  rw [hR.get hix hj, ← hv ix hix j hj]
  exact h1 _ (lin_lt hix) j hj

theorem rows_are {lead : List Nat} {D : Nat} {body : Nat → List (Upd α)} {val : List Nat → Nat → α}
    (hin : ∀ r < numel lead, ∀ u ∈ body r, r * D ≤ u.addr ∧ u.addr < r * D + D)
    (hv : ∀ ix, InB lead ix → ∀ j < D, ∀ m, run (body (lin lead ix)) m (lin lead ix * D + j) = val ix j) :
    RowsAre [(List.range (numel lead)).map body] lead D val := by
  intro m m' hex
  obtain ⟨h1, h2⟩ := hex.row hin
  refine ⟨fun ix hix j hj => ?_, fun x hx => h2 x (by rw [numel_append1] at hx; exact hx)⟩
  have hR : (outRows (lead ++ [D]) m').Rows lead D := ⟨rfl, rfl⟩
  rw [hR.get hix hj, ← hv ix hix j hj m]
  exact h1 _ (lin_lt hix) j hj

/-- Stores that agree: the order does not matter. -/
theorem run_agree {us : List (Upd α)} {x : Nat} {v : α} (h : ∀ u ∈ us, u.addr = x → ∀ y, u.fn y = v)
    (he : ∃ u ∈ us, u.addr = x) (m : Nat → α) : run us m x = v := by
  induction us generalizing m with
  | nil => obtain ⟨u, hu, _⟩ := he; cases hu
  | cons u us ih =>
    by_cases hl : ∃ w ∈ us, w.addr = x
    · exact ih (fun w hw => h w (List.mem_cons_of_mem _ hw)) hl _
    · rw [run, run_other (fun w hw e => hl ⟨w, hw, e⟩)]
      obtain ⟨w, hw, hwx⟩ := he
      rcases List.mem_cons.mp hw with rfl | hw
      · rw [← hwx, Function.update_self]; exact h w List.mem_cons_self hwx _
      · exact absurd ⟨w, hw, hwx⟩ hl

/-- A pass over a row: one update per cell. -/
theorem run_pass {c n : Nat} {fn : Nat → α → α} {m : Nat → α} {j : Nat} (hj : j < n) :
    run ((List.range n).map fun i => (⟨c + i, fn i⟩ : Upd α)) m (c + j) = fn j (m (c + j)) := by
  have hn : (((List.range n).map fun i => (⟨c + i, fn i⟩ : Upd α)).map Upd.addr).Nodup := by
    rw [List.map_map]
    refine List.Nodup.map ?_ List.nodup_range
    intro a b hab
    simpa using hab
  have hm : (⟨c + j, fn j⟩ : Upd α) ∈ (List.range n).map fun i => (⟨c + i, fn i⟩ : Upd α) :=
    List.mem_map.mpr ⟨j, List.mem_range.mpr hj, rfl⟩
  exact run_once hn hm m

theorem mem_pass {c n : Nat} {fn : Nat → α → α} {u : Upd α} (h : u ∈ (List.range n).map fun i => (⟨c + i, fn i⟩ : Upd α)) :
    c ≤ u.addr ∧ u.addr < c + n := by
  obtain ⟨i, hi, rfl⟩ := List.mem_map.mp h
  have := List.mem_range.mp hi
  exact ⟨by simp, by simpa using this⟩

end Verif.Kern
