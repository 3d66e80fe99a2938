import Verif.Tensor.Lemmas
/-
C18: `view` and `reshape`.
-/
namespace Verif.Tensor
variable {α : Type}

/-- C18. Whenever `view` succeeds: the result shares the storage (same memory, same offset), has the
same number of elements and the requested rank, every requested dimension other than `-1` is kept,
and the elements are the same in row-major order: positions with equal row-major rank hold the same
element. -/
theorem view_keeps_elements (t r : Tens α) (sh : List Int) (h : view t sh = some r) :
    r.mem = t.mem ∧ r.off = t.off ∧ numel r.shape = numel t.shape ∧ r.shape.length = sh.length ∧
    (∀ k, k < sh.length → sh.getD k 0 ≠ -1 → ((r.shape.getD k 0 : Nat) : Int) = sh.getD k 0) ∧
    (∀ i j, InB r.shape i → InB t.shape j → lin r.shape i = lin t.shape j → r.elem i = t.elem j) := by
  obtain ⟨q, hv, hneg⟩ := view_some h
  obtain ⟨h1, h2, h3, h4, h5⟩ := viewTo_some hv
  refine ⟨h2, h1, by rw [h3, h4], by simp [h3, viewActual], ?_, ?_⟩
  · intro k hk hne
    rw [h3, viewActual_get q sh k hk hne]
    have := hneg (sh.getD k 0) (by rw [List.getD_eq_getElem _ _ hk]; exact List.getElem_mem hk)
    omega
  · intro i j hi hj hl
    rcases h5 with ⟨h6, h7⟩ | ⟨h6, h7⟩
    · rw [h3, h6] at hi hl
      have := lin_inj hi hj hl
      subst this
      simp [Tens.elem, Tens.addr, h1, h2, h7]
    · rw [Tens.elem, Tens.elem, h7.addr hi, h6.addr hj, hl, h1, h2]

/-- C18. The row-major sequence of the elements is preserved by `view` (the previous theorem, as a
sequence). -/
theorem view_same_sequence (t r : Tens α) (sh : List Int) (h : view t sh = some r) :
    (List.range (numel r.shape)).map (fun k => r.elem (coords r.shape k)) =
    (List.range (numel t.shape)).map (fun k => t.elem (coords t.shape k)) := by
  obtain ⟨-, -, hn, -, -, he⟩ := view_keeps_elements t r sh h
  rw [hn]
  apply List.map_congr_left
  intro k hk
  have hk := List.mem_range.mp hk
  have a := coords_spec (s := t.shape) hk
  have b := coords_spec (s := r.shape) (hn ▸ hk)
  exact he _ _ b.1 a.1 (by rw [a.2, b.2])

/-- C18. On a row-major tensor `view` accepts every shape with the same number of elements. -/
theorem view_accepts (t : Tens α) (sh : List Nat) (hc : t.Contig)
    (hn : numel sh = numel t.shape) : ∃ r, view t (asInts sh) = some r ∧ r.shape = sh := by
  obtain ⟨r, hr⟩ := viewTo_ok hc hn
  refine ⟨r, ?_, (viewTo_some hr).2.2.1⟩
  simp only [view, viewProduct_asInts, Option.bind_eq_bind, Option.bind_some]
  rw [if_neg (by simp)]
  simp only [viewActual_asInts, Option.bind_some]
  exact hr

/-- C18. On a row-major tensor a single `-1` is inferred as the quotient, whenever the other
dimensions divide the number of elements. -/
theorem view_infers (t : Tens α) (a b : List Nat) (hc : t.Contig) (h0 : numel (a ++ b) ≠ 0)
    (hd : numel (a ++ b) ∣ numel t.shape) :
    ∃ r, view t (asInts a ++ -1 :: asInts b) = some r ∧
      r.shape = a ++ (numel t.shape / numel (a ++ b)) :: b := by
  have hn : numel (a ++ (numel t.shape / numel (a ++ b)) :: b) = numel t.shape := by
    obtain ⟨q, hq⟩ := hd
    rw [hq, Nat.mul_div_cancel_left _ (by omega)]
    simp only [numel_append, numel]
    ring
  obtain ⟨r, hr⟩ := viewTo_ok hc hn
  refine ⟨r, ?_, (viewTo_some hr).2.2.1⟩
  simp only [view, viewProduct_infer, Option.bind_eq_bind, Option.bind_some]
  rw [if_pos (by simp), if_neg h0, if_neg (by simpa using Nat.mod_eq_zero_of_dvd hd)]
  simp only [viewActual_infer, Option.bind_some]
  exact hr

/-- C18. `view` never changes the shape of a tensor that is not row-major, nor the number of
elements: such requests are refused. -/
theorem view_refuses (t : Tens α) (sh : List Nat)
    (h : numel sh ≠ numel t.shape ∨ (¬ t.Contig ∧ sh ≠ t.shape)) : view t (asInts sh) = none := by
  cases hv : view t (asInts sh) with
  | none => rfl
  | some r =>
    exfalso
    obtain ⟨q, hv', -⟩ := view_some hv
    rw [viewActual_asInts] at hv'
    obtain ⟨-, -, -, h4, h5⟩ := viewTo_some hv'
    rcases h with h | ⟨h, h'⟩
    · exact h h4
    · rcases h5 with h5 | h5
      · exact h' h5.1
      · exact h h5.1

/-- C18. At most one dimension may be `-1`, and no other negative dimension is accepted. -/
theorem view_refuses_bad_dims (t : Tens α) (sh : List Int)
    (h : 2 ≤ sh.count (-1) ∨ ∃ d ∈ sh, d < -1) : view t sh = none := by
  have key : ∀ (l : List Int) (pc : Nat × Nat), viewProduct l = some pc →
      l.count (-1) = pc.2 ∧ l.count (-1) ≤ 1 ∧ ∀ d ∈ l, -1 ≤ d := by
    intro l
    induction l with
    | nil => intro pc h; simp [viewProduct] at h; simp [← h]
    | cons d ds ih =>
      intro pc h
      have hneg := viewProduct_nonneg h
      simp only [viewProduct] at h
      cases hp : viewProduct ds with
      | none => simp [hp] at h
      | some q =>
        obtain ⟨i1, i2, i3⟩ := ih q hp
        rw [hp] at h
        simp only [Option.bind_eq_bind, Option.bind_some] at h
        split_ifs at h with h1 h2 h3
        · simp only [Option.some.injEq] at h
          subst h1; subst h
          refine ⟨?_, ?_, hneg⟩ <;> simp [i1, h2]
        · simp only [Option.some.injEq] at h
          subst h
          have : (d :: ds).count (-1) = ds.count (-1) := by
            rw [List.count_cons_of_ne h1]
          exact ⟨by rw [this, i1], by rw [this]; exact i2, hneg⟩
  cases hv : viewProduct sh with
  | none => simp [view, hv]
  | some pc =>
    obtain ⟨h1, h2, h3⟩ := key sh pc hv
    rcases h with h | ⟨d, hd, hlt⟩
    · omega
    · have := h3 d hd; omega

/-- C18. A `-1` that cannot be inferred (the other dimensions multiply to zero or do not divide the
number of elements) is refused. -/
theorem view_refuses_inference (t : Tens α) (a b : List Nat)
    (h : numel (a ++ b) = 0 ∨ ¬ numel (a ++ b) ∣ numel t.shape) :
    view t (asInts a ++ -1 :: asInts b) = none := by
  simp only [view, viewProduct_infer, Option.bind_eq_bind, Option.bind_some]
  rw [if_pos (by simp)]
  by_cases h0 : numel (a ++ b) = 0
  · rw [if_pos h0]; rfl
  · rw [if_neg h0, if_pos]
    · rfl
    · intro hm
      rcases h with h | h
      · exact h0 h
      · exact h (Nat.dvd_of_mod_eq_zero hm)

/-- C18. `unsqueeze`, `squeeze` and `flatten` keep storage and row-major order, and have the
documented shapes. -/
theorem unsqueeze_keeps (t r : Tens α) (d : Int) (h : unsqueeze t d = some r) :
    r.mem = t.mem ∧ r.shape = t.shape.insertIdx
      (if d < 0 then (t.shape.length : Int) + d + 1 else d).toNat 1 ∧
    (∀ i j, InB r.shape i → InB t.shape j → lin r.shape i = lin t.shape j → r.elem i = t.elem j) := by
  unfold unsqueeze at h
  simp only at h
  generalize hd : (if d < 0 then (t.shape.length : Int) + d + 1 else d) = e at h
  split_ifs at h with h1
  have hs := view_keeps_elements _ _ _ h
  refine ⟨hs.1, ?_, hs.2.2.2.2.2⟩
  obtain ⟨q, hv, -⟩ := view_some h
  have h3 := (viewTo_some hv).2.2.1
  have : (t.shape.map fun (x : Nat) => (x : Int)).insertIdx e.toNat 1 =
      asInts (t.shape.insertIdx e.toNat 1) := by
    have hlen : e.toNat ≤ t.shape.length := by omega
    simp only [asInts]
    generalize e.toNat = m at hlen
    clear h h1 hs hv h3 hd
    generalize t.shape = l at *
    induction l generalizing m with
    | nil => have : m = 0 := by simpa using hlen
             subst this; simp
    | cons a l ih =>
      cases m with
      | zero => simp
      | succ m => simp [ih m (by simpa using hlen)]
  rw [this, viewActual_asInts] at h3
  exact h3

theorem flatten_keeps (t r : Tens α) (h : flattenAll t = some r) :
    r.mem = t.mem ∧ r.shape = [numel t.shape] ∧
    (∀ k j, k < numel t.shape → InB t.shape j → lin t.shape j = k → r.elem [k] = t.elem j) := by
  have hs := view_keeps_elements _ _ _ h
  obtain ⟨q, hv, -⟩ := view_some h
  have h3 := (viewTo_some hv).2.2.1
  have : ([(numel t.shape : Int)] : List Int) = asInts [numel t.shape] := rfl
  rw [this, viewActual_asInts] at h3
  refine ⟨hs.1, h3, ?_⟩
  intro k j hk hj hl
  refine hs.2.2.2.2.2 _ _ (by rw [h3]; exact ⟨hk, trivial⟩) hj ?_
  rw [h3, hl]; simp [lin, numel]

theorem squeeze_keeps (t r : Tens α) (d : Int) (h : squeeze t d = some r) :
    r.mem = t.mem ∧ numel r.shape = numel t.shape ∧
    (∀ i j, InB r.shape i → InB t.shape j → lin r.shape i = lin t.shape j → r.elem i = t.elem j) := by
  have same : ∀ i j, InB t.shape i → InB t.shape j → lin t.shape i = lin t.shape j →
      t.elem i = t.elem j := fun i j hi hj hl => by rw [lin_inj hi hj hl]
  unfold squeeze at h
  simp only at h
  generalize (if d < 0 then d + (t.shape.length : Int) else d) = e at h
  split_ifs at h with h1 h2
  · cases h; exact ⟨rfl, rfl, same⟩
  · have hs := view_keeps_elements _ _ _ h
    exact ⟨hs.1, hs.2.2.1, hs.2.2.2.2.2⟩
  · cases h; exact ⟨rfl, rfl, same⟩

/-- Hypotheses are met: a 2×6 tensor viewed as 3×(-1). -/
example : ∃ r, view (fresh [2, 6] (fun k => some k)) [3, -1] = some r ∧ r.shape = [3, 4] ∧
    r.elem [1, 2] = some 6 := ⟨_, rfl, rfl, rfl⟩

/-- C18 does not hold for `reshape` on the CPU: the element count and the inferred shape are right,
but no element of the input ever reaches the result — the CPU operator only prints a message. -/
theorem reshape_violated :
    (∀ (t r : Tens α) (sh : List Int), reshape t sh = some r →
      numel r.shape = numel t.shape ∧ ∀ i, r.elem i = none) ∧
    (∃ r : Tens Nat, reshape (fresh [2, 3] (fun k => some k)) [3, 2] = some r ∧
      (fresh [2, 3] (fun k => some k)).elem [0, 0] = some 0 ∧ r.elem [0, 0] ≠ some 0) := by
  constructor
  · intro t r sh h
    unfold reshape at h
    cases hp : viewProduct sh with
    | none => simp [hp] at h
    | some pc =>
      obtain ⟨p, c⟩ := pc
      simp only [hp, Option.bind_eq_bind, Option.bind_some] at h
      split_ifs at h with h1 h2 h3
      all_goals simp only [Option.bind_none, Option.bind_some, reduceCtorEq] at h
      all_goals split_ifs at h with h4
      all_goals
        simp only [Option.some.injEq] at h
        subst h
        exact ⟨not_not.mp h4, fun i => by simp [fresh, Tens.elem]⟩
  · refine ⟨_, rfl, rfl, by decide⟩

end Verif.Tensor
