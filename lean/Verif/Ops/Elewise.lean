import Verif.Tensor.JoinProps

/-!
# C71: element-wise binary operators with broadcasting

Sources: `mllm/core/aops/ElewiseOps.cpp` L9-L32 (`broadcastShapes`), L58-L76 (`reshape`);
`mllm/backends/cpu/ops/ElewiseOps.cpp` L11-L123 (`calculateBroadcastInfo`), L127-L196 (`CPUAddOp::forward`);
Sub, Mul and Div (L329-, L532-, L735-) are the same code with another kernel, the integer and fp16
cases lack the third branch (`naive := false` below).

Simplifications: the scalar kernel is a function `f` (SIMD blocks and threads are not modelled, every
element is computed once); `int32_t` products do not overflow; the in-place variant is not modelled.
-/

namespace Verif.Ops

open Verif.Tensor

variable {α β γ : Type}

/-! ### Model -/

/-- Padding the shorter shape with 1s (cpu/ops/ElewiseOps.cpp L19-L26; aops L18-L19). -/
def padTo (m : Nat) (s : List Nat) : List Nat := List.replicate (m - s.length) 1 ++ s

/-- One dimension of `broadcastShapes` for two inputs (aops/ElewiseOps.cpp L16-L27): `output_shape[i]`
starts at 1. -/
def bdim (a b : Nat) : Option Nat :=
  let o := if a ≠ 1 then a else 1
  if b ≠ 1 then (if o = 1 then some b else if o ≠ b then none else some o) else some o

/-- `broadcastShapes` on padded shapes. -/
def bshape : List Nat → List Nat → Option (List Nat)
  | a :: as, b :: bs => do
    let d ← bdim a b
    let ds ← bshape as bs
    return d :: ds
  | _, _ => some []

/-- `batch_dims`, the length of the common prefix (L33-L40). -/
def common : List Nat → List Nat → Nat
  | a :: as, b :: bs => if a = b then common as bs + 1 else 0
  | _, _ => 0

/-- `first_diff` (L64-L70). -/
def firstDiff : Nat → List Nat → List Nat → Option Nat
  | i, x :: xs, r :: rs => if x ≠ r then some i else firstDiff (i + 1) xs rs
  | _, _, _ => none

/-- `a_can_be_naive` (L72-L81) with the dimension it was found at. -/
def canNaive (x r : List Nat) : Option Nat :=
  match firstDiff 0 x r with
  | some d => if x.getD d 0 = 1 ∧ x.drop (d + 1) = r.drop (d + 1) then some d else none
  | none => none

/-- The part of `BroadcastInfo` the forward functions use: `batch_dims` (a product), loops, size. -/
structure Info where
  batch : Nat
  loops : Nat
  size : Nat

/-- `calculateBroadcastInfo` (L11-L123): `some` when `can_be_broadcast_naive`. -/
def broadcastInfo (a b : List Nat) : Option Info :=
  let m := max a.length b.length
  let A := padTo m a
  let B := padTo m b
  let R := List.zipWith max A B
  let bd := common A B
  let batch := numel (R.take bd)
  if bd = m then none
  else
    let R' := R.drop bd
    match canNaive (A.drop bd) R', canNaive (B.drop bd) R' with
    | some d, none => some ⟨batch, R'.getD d 0, numel R' / R'.getD d 0⟩
    | none, some d => some ⟨batch, R'.getD d 0, numel R' / R'.getD d 0⟩
    | _, _ => none

/-- One kernel call on one pair of elements; a read outside the buffer has no value. -/
def lift2 (f : α → β → γ) (x : Option α) (y : Option β) : Option γ := do
  let u ← x
  let v ← y
  return f u v

/-- The writes of the third branch (L163-L189). -/
def naiveWrites (f : α → β → γ) (a : Tens α) (b : Tens β) (i : Info) : List (Nat × Option γ) :=
  (List.range i.batch).flatMap fun bt => (List.range i.loops).flatMap fun l =>
    (List.range i.size).map fun v =>
      (bt * i.loops * i.size + l * i.size + v,
        lift2 f (a.raw (bt * i.loops * i.size + l * i.size + v)) (b.raw (bt * i.size + v)))

/-- `reshape` followed by `forward` of Add, Sub, Mul, Div.  `none`: the program ends with an error
(`MLLM_ERROR_EXIT` or `NYI`). -/
def elewise (naive : Bool) (f : α → β → γ) (a : Tens α) (b : Tens β) : Option (Tens γ) :=
  let m := max a.shape.length b.shape.length
  match bshape (padTo m a.shape) (padTo m b.shape) with
  | none => none
  | some R =>
    if numel a.shape = numel b.shape then
      some (fresh R fun k => if k < numel R then lift2 f (a.raw k) (b.raw k) else none)
    else if numel b.shape = 1 then
      some (fresh R fun k => if k < numel R then lift2 f (a.raw k) (b.raw 0) else none)
    else match naive, broadcastInfo a.shape b.shape with
      | true, some i => some (fresh R (bufV (naiveWrites f a b i)))
      | _, _ => none

/-! ### Specification -/

/-- The index of an operand of shape `s` that broadcasting pairs with the result index `i`: align to
the right, and use 0 in the dimensions of size 1. -/
def bidx (s i : List Nat) : List Nat :=
  List.zipWith (fun d x => if d = 1 then 0 else x) s (i.drop (i.length - s.length))

/-! ### Shapes -/

theorem padTo_length {m : Nat} {s : List Nat} (h : s.length ≤ m) : (padTo m s).length = m := by
  simp [padTo]; omega

theorem numel_replicate_one (m : Nat) : numel (List.replicate m 1) = 1 := by
  induction m with
  | zero => rfl
  | succ m ih => simp [List.replicate_succ, numel, ih]

theorem numel_padTo (m : Nat) (s : List Nat) : numel (padTo m s) = numel s := by
  rw [padTo, numel_append, numel_replicate_one, one_mul]

theorem bdim_le {a b d : Nat} (h : bdim a b = some d) : (a ≠ 0 → b ≠ 0 → a ≤ d ∧ b ≤ d) ∧
    (a = d ∨ a = 1) ∧ (b = d ∨ b = 1) ∧ (d = a ∨ d = b) := by
  unfold bdim at h
  split_ifs at h <;> simp_all <;> omega

theorem pos_of_numel : ∀ {s : List Nat}, 0 < numel s → ∀ d ∈ s, d ≠ 0 := by
  intro s h d hd
  induction s with
  | nil => simp at hd
  | cons a s ih =>
    simp only [numel] at h
    rcases List.mem_cons.mp hd with rfl | hd
    · exact (Nat.pos_of_mul_pos_right h).ne'
    · exact ih (Nat.pos_of_mul_pos_left h) hd

/-- The result shape dominates both operands; with equal sizes the operand has the result shape. -/
theorem bshape_le : ∀ {A B R : List Nat}, A.length = B.length → bshape A B = some R →
    0 < numel A → 0 < numel B →
    R.length = A.length ∧ numel A ≤ numel R ∧ numel B ≤ numel R ∧ (numel A = numel R → A = R) ∧
      (numel B = numel R → B = R) := by
  intro A
  induction A with
  | nil =>
    intro B R hl h _ _
    cases B with
    | nil => simp [bshape] at h; subst h; simp
    | cons _ _ => simp at hl
  | cons a A ih =>
    intro B R hl h ha hb
    cases B with
    | nil => simp at hl
    | cons b B =>
      simp only [bshape, Option.bind_eq_bind, Option.bind_eq_some_iff] at h
      obtain ⟨d, hd, ds, hds, hr⟩ := h
      simp only [Option.pure_def, Option.some.injEq] at hr
      subst hr
      simp only [numel] at ha hb ⊢
      have pa := Nat.pos_of_mul_pos_right ha
      have pb := Nat.pos_of_mul_pos_right hb
      have pA := Nat.pos_of_mul_pos_left ha
      have pB := Nat.pos_of_mul_pos_left hb
      obtain ⟨h1, h2, h3, h4, h5⟩ := ih (by simpa using hl) hds pA pB
      obtain ⟨g1, g2⟩ := (bdim_le hd).1 pa.ne' pb.ne'
      refine ⟨by simp [h1], Nat.mul_le_mul g1 h2, Nat.mul_le_mul g2 h3, ?_, ?_⟩
      · intro he
        have e1 : a = d := by
          by_contra hne
          have : a * numel A < d * numel ds := Nat.mul_lt_mul_of_lt_of_le (by omega) h2 (by omega)
          omega
        subst e1
        rw [h4 (Nat.eq_of_mul_eq_mul_left pa he)]
      · intro he
        have e1 : b = d := by
          by_contra hne
          have : b * numel B < d * numel ds := Nat.mul_lt_mul_of_lt_of_le (by omega) h3 (by omega)
          omega
        subst e1
        rw [h5 (Nat.eq_of_mul_eq_mul_left pb he)]

theorem zipWith_self_one : ∀ {s i : List Nat}, InB s i →
    List.zipWith (fun d x => if d = 1 then 0 else x) s i = i
  | [], [], _ => rfl
  | d :: ds, x :: xs, h => by
    simp only [List.zipWith_cons_cons, zipWith_self_one h.2, List.cons.injEq, and_true]
    split_ifs with hd
    · have := h.1; omega
    · rfl

/-- An operand that has the result shape (up to leading 1s) is read at the result position. -/
theorem lin_bidx_full {m : Nat} {s R i : List Nat} (hm : s.length ≤ m) (hR : padTo m s = R)
    (hi : InB R i) : InB s (bidx s i) ∧ lin s (bidx s i) = lin R i := by
  subst hR
  unfold padTo at hi ⊢
  obtain ⟨p, q, rfl, hp, h1, h2⟩ := inB_split hi
  have hlen : (p ++ q).length - s.length = p.length := by
    have := h2.length; simp; omega
  unfold bidx
  rw [hlen, List.drop_left, zipWith_self_one h2, lin_append _ _ _ _ hp]
  refine ⟨h2, ?_⟩
  have : lin (List.replicate (m - s.length) 1) p = 0 := by
    have := lin_lt h1; rw [numel_replicate_one] at this; omega
  rw [this]; omega

/-- A scalar operand is read at position 0. -/
theorem lin_bidx_scalar {s i : List Nat} (hs : numel s = 1) (hl : s.length ≤ i.length) :
    InB s (bidx s i) ∧ lin s (bidx s i) = 0 := by
  have key : ∀ (s j : List Nat), numel s = 1 → j.length = s.length →
      InB s (List.zipWith (fun d x => if d = 1 then 0 else x) s j) := by
    intro s
    induction s with
    | nil => intro j _ hj; have : j = [] := by simpa using hj
             subst this; trivial
    | cons d ds ih =>
      intro j h hj
      cases j with
      | nil => simp at hj
      | cons x xs =>
        simp only [numel] at h
        have hd : d = 1 := Nat.eq_one_of_mul_eq_one_right h
        refine ⟨?_, ih xs (Nat.eq_one_of_mul_eq_one_left h) (by simpa using hj)⟩
        simp [hd]
  have h1 := key s (i.drop (i.length - s.length)) hs (by simp; omega)
  refine ⟨h1, ?_⟩
  have := lin_lt h1
  unfold bidx
  omega

theorem common_self : ∀ l : List Nat, common l l = l.length
  | [] => rfl
  | a :: l => by simp [common, common_self l]

theorem common_le : ∀ A B : List Nat, common A B ≤ A.length
  | [], _ => by simp [common]
  | _ :: _, [] => by simp [common]
  | a :: A, b :: B => by
    simp only [common]; split_ifs
    · simpa using common_le A B
    · simp

/-- Splitting at the first difference. -/
theorem common_split : ∀ {A B : List Nat}, A.length = B.length → common A B ≠ A.length →
    ∃ pre x y A' B', A = pre ++ x :: A' ∧ B = pre ++ y :: B' ∧ x ≠ y ∧ common A B = pre.length := by
  intro A
  induction A with
  | nil => intro B h1 h2; cases B <;> simp_all [common]
  | cons a A ih =>
    intro B h1 h2
    cases B with
    | nil => simp at h1
    | cons b B =>
      by_cases h : a = b
      · subst h
        simp only [common, if_true, List.length_cons, ne_eq, Nat.add_right_cancel_iff] at h2
        obtain ⟨pre, x, y, A', B', e1, e2, e3, e4⟩ := ih (by simpa using h1) h2
        exact ⟨a :: pre, x, y, A', B', by simp [e1], by simp [e2], e3, by simp [common, e4]⟩
      · exact ⟨[], a, b, A, B, rfl, rfl, h, by simp [common, h]⟩

theorem common_append (pre : List Nat) (x y : Nat) (A B : List Nat) (h : x ≠ y) :
    common (pre ++ x :: A) (pre ++ y :: B) = pre.length := by
  induction pre with
  | nil => simp [common, h]
  | cons a pre ih => simp [common, ih]

theorem firstDiff_none : ∀ (l : List Nat) (i : Nat), firstDiff i l l = none
  | [], _ => rfl
  | a :: l, i => by simp [firstDiff, firstDiff_none l (i + 1)]

/-- The result shape of the code's own computation. -/
theorem zipWith_max : ∀ {A B R : List Nat}, A.length = B.length → bshape A B = some R →
    0 < numel A → 0 < numel B → List.zipWith max A B = R := by
  intro A
  induction A with
  | nil => intro B R hl h _ _
           cases B with
           | nil => simp [bshape] at h; subst h; rfl
           | cons _ _ => simp at hl
  | cons a A ih =>
    intro B R hl h ha hb
    cases B with
    | nil => simp at hl
    | cons b B =>
      simp only [bshape, Option.bind_eq_bind, Option.bind_eq_some_iff] at h
      obtain ⟨d, hd, ds, hds, hr⟩ := h
      simp only [Option.pure_def, Option.some.injEq] at hr
      subst hr
      simp only [numel] at ha hb
      have pa := Nat.pos_of_mul_pos_right ha
      have pb := Nat.pos_of_mul_pos_right hb
      rw [List.zipWith_cons_cons, ih (by simpa using hl) hds (Nat.pos_of_mul_pos_left ha)
        (Nat.pos_of_mul_pos_left hb)]
      obtain ⟨g1, g2⟩ := (bdim_le hd).1 pa.ne' pb.ne'
      obtain ⟨_, g3, g4, g5⟩ := bdim_le hd
      congr 1
      rcases g5 with g5 | g5 <;> omega

/-- `b` repeats along exactly one dimension of `a` (after padding). -/
def OneDim (A B : List Nat) : Prop :=
  ∃ pre n post, A = pre ++ n :: post ∧ B = pre ++ 1 :: post ∧ n ≠ 1

/-- When the first operand has the result shape, the third branch is taken exactly for one-dimensional
repetition, with these parameters. -/
theorem broadcastInfo_full {a b R : List Nat}
    (h : bshape (padTo (max a.length b.length) a) (padTo (max a.length b.length) b) = some R)
    (ha : 0 < numel a) (hb : 0 < numel b) (hfull : padTo (max a.length b.length) a = R) :
    (∀ i, broadcastInfo a b = some i → ∃ pre n post, R = pre ++ n :: post ∧
      padTo (max a.length b.length) b = pre ++ 1 :: post ∧ n ≠ 1 ∧
      i = ⟨numel pre, n, numel post⟩) ∧
    (OneDim R (padTo (max a.length b.length) b) → (broadcastInfo a b).isSome) := by
  have hla := padTo_length (m := max a.length b.length) (s := a) (by omega)
  have hlb := padTo_length (m := max a.length b.length) (s := b) (by omega)
  have hz := zipWith_max (by rw [hla, hlb]) h (by rwa [numel_padTo]) (by rwa [numel_padTo])
  have pR : 0 < numel R := by rw [← hfull, numel_padTo]; exact ha
  -- evaluation at a one-dimensional repetition
  have heval : ∀ pre n post, R = pre ++ n :: post →
      padTo (max a.length b.length) b = pre ++ 1 :: post → n ≠ 1 →
      broadcastInfo a b = some ⟨numel pre, n, numel post⟩ := by
    intro pre n post e1 e2 hn
    have hn0 : 0 < n := by
      rw [e1, numel_append] at pR
      simp only [numel] at pR
      exact Nat.pos_of_mul_pos_right (Nat.pos_of_mul_pos_left pR)
    unfold broadcastInfo
    simp only
    rw [hz, hfull, e2, e1, common_append _ _ _ _ _ hn]
    have hm : max a.length b.length = pre.length + 1 + post.length := by
      rw [← hlb, e2]; simp; omega
    rw [if_neg (by omega), List.drop_left, List.drop_left, List.take_left]
    have c1 : canNaive (n :: post) (n :: post) = none := by
      unfold canNaive; rw [firstDiff_none]
    have c2 : canNaive (1 :: post) (n :: post) = some 0 := by
      unfold canNaive
      have : firstDiff 0 (1 :: post) (n :: post) = some 0 := by
        simp [firstDiff, Ne.symm hn]
      rw [this]; simp
    rw [c1, c2]
    simp only [List.getD_cons_zero, numel]
    rw [Nat.mul_div_cancel_left _ hn0]
  constructor
  · intro i hi
    by_cases hc : common R (padTo (max a.length b.length) b) = R.length
    · exfalso
      unfold broadcastInfo at hi
      simp only at hi
      rw [hz, hfull, if_pos (by rw [hc, ← hfull, hla])] at hi
      cases hi
    · obtain ⟨pre, x, y, A', B', e1, e2, e3, e4⟩ := common_split (by rw [← hfull, hla, hlb]) hc
      have hi0 := hi
      unfold broadcastInfo at hi
      simp only at hi
      rw [hz, hfull, e4] at hi
      have hm : max a.length b.length = pre.length + 1 + A'.length := by
        rw [← hla, hfull, e1]; simp; omega
      rw [if_neg (by omega), e2, e1, List.drop_left, List.drop_left] at hi
      have c1 : canNaive (x :: A') (x :: A') = none := by
        unfold canNaive; rw [firstDiff_none]
      rw [c1] at hi
      have c2 : canNaive (y :: B') (x :: A') = if y = 1 ∧ B' = A' then some 0 else none := by
        unfold canNaive
        have : firstDiff 0 (y :: B') (x :: A') = some 0 := by simp [firstDiff, Ne.symm e3]
        rw [this]; simp
      rw [c2] at hi
      by_cases hy : y = 1 ∧ B' = A'
      · obtain ⟨rfl, rfl⟩ := hy
        refine ⟨pre, x, B', e1, e2, e3, ?_⟩
        rw [heval pre x B' e1 e2 e3] at hi0
        exact (Option.some.inj hi0).symm
      · rw [if_neg hy] at hi
        cases hi
  · rintro ⟨pre, n, post, e1, e2, hn⟩
    rw [heval pre n post e1 e2 hn]; rfl

/-! ### Contents -/

theorem bufV_fun {ws : List (Nat × Option γ)} {g : Nat → Option γ} (h : ∀ w ∈ ws, w.2 = g w.1)
    (k : Nat) (hk : k ∈ ws.map (·.1)) : bufV ws k = g k := by
  obtain ⟨w, hw, rfl⟩ := List.mem_map.mp hk
  apply bufV_eq
  · intro w' hw' e; rw [h w' hw', e]
  · rw [← h w hw]; exact hw

theorem bufV_none_or {ws : List (Nat × Option γ)} {k : Nat} (h : ∀ w ∈ ws, w.1 = k → w.2 = none) :
    bufV ws k = none := by
  unfold bufV
  cases hf : ws.reverse.find? (fun w => w.1 = k) with
  | none => rfl
  | some w =>
    have hm := List.mem_of_find?_eq_some hf
    have hp := List.find?_some hf
    exact h w (by simpa using hm) (by simpa using hp)

/-- What the third branch computes, as a function of the position. -/
theorem naive_value (f : α → β → γ) (a : Tens α) (b : Tens β) (p n s k : Nat)
    (hk : k < p * (n * s)) :
    bufV (naiveWrites f a b ⟨p, n, s⟩) k =
      lift2 f (a.raw k) (b.raw (k / (n * s) * s + k % s)) := by
  have hs : 0 < s := by
    rcases Nat.eq_zero_or_pos s with h | h
    · subst h; simp at hk
    · exact h
  have hn : 0 < n := by
    rcases Nat.eq_zero_or_pos n with h | h
    · subst h; simp at hk
    · exact h
  have hns : 0 < n * s := Nat.mul_pos hn hs
  apply bufV_fun (g := fun k => lift2 f (a.raw k) (b.raw (k / (n * s) * s + k % s)))
  · intro w hw
    simp only [naiveWrites, List.mem_flatMap, List.mem_map, List.mem_range] at hw
    obtain ⟨bt, hbt, l, hl, v, hv, rfl⟩ := hw
    dsimp only
    have e : bt * n * s + l * s + v = v + s * l + (n * s) * bt := by ring
    have hlt : v + s * l < n * s := by
      have : (l + 1) * s ≤ n * s := Nat.mul_le_mul_right _ hl
      have e2 : (l + 1) * s = s * l + s := by ring
      omega
    have e1 : (bt * n * s + l * s + v) / (n * s) = bt := by
      rw [e, Nat.add_mul_div_left _ _ hns, Nat.div_eq_of_lt hlt]; omega
    have e2 : (bt * n * s + l * s + v) % s = v := by
      have : bt * n * s + l * s + v = v + s * (bt * n + l) := by ring
      rw [this, Nat.add_mul_mod_self_left, Nat.mod_eq_of_lt hv]
    rw [e1, e2]
  · simp only [naiveWrites, List.mem_map, List.mem_flatMap, List.mem_range]
    refine ⟨_, ⟨k / (n * s), ?_, k % (n * s) / s, ?_, k % s, Nat.mod_lt _ hs, rfl⟩, ?_⟩
    · exact Nat.div_lt_of_lt_mul (by rw [Nat.mul_comm]; exact hk)
    · exact Nat.div_lt_of_lt_mul (by rw [Nat.mul_comm s n]; exact Nat.mod_lt _ hns)
    · dsimp only
      have h1 := Nat.div_add_mod k (n * s)
      have h2 := Nat.div_add_mod (k % (n * s)) s
      have h3 : k % (n * s) % s = k % s := Nat.mod_mod_of_dvd _ (Dvd.intro_left n rfl)
      rw [h3] at h2
      have e : k / (n * s) * n * s = n * s * (k / (n * s)) := by ring
      have e' : k % (n * s) / s * s = s * (k % (n * s) / s) := by ring
      rw [e, e']
      omega

/-- All writes of the third branch read the first operand at the position they write. -/
theorem naive_reads (f : α → β → γ) (a : Tens α) (b : Tens β) (i : Info) (k : Nat)
    (h : a.raw k = none) : bufV (naiveWrites f a b i) k = none := by
  apply bufV_none_or
  intro w hw e
  simp only [naiveWrites, List.mem_flatMap, List.mem_map, List.mem_range] at hw
  obtain ⟨bt, _, l, _, v, _, rfl⟩ := hw
  dsimp only at e ⊢
  rw [e, h]; rfl

/-! ### C71 -/

/-- **C71, the part that holds.** Row-major operands with positive dimensions.  Whenever the operator
returns (does not end the program) and the first operand needs no repetition, every element of the
result is the operator applied to the two elements that broadcasting pairs with it. -/
theorem elewise_correct_partial (naive : Bool) (f : α → β → γ) (a : Tens α) (b : Tens β) (r : Tens γ)
    (hca : a.Contig) (hcb : b.Contig) (ha : 0 < numel a.shape) (hb : 0 < numel b.shape)
    (h : elewise naive f a b = some r) (hfit : numel r.shape = numel a.shape) :
    r.shape.length = max a.shape.length b.shape.length ∧
    ∀ i, InB r.shape i → InB a.shape (bidx a.shape i) ∧ InB b.shape (bidx b.shape i) ∧
      r.elem i = lift2 f (a.elem (bidx a.shape i)) (b.elem (bidx b.shape i)) := by
  unfold elewise at h
  dsimp only at h
  cases hR : bshape (padTo (max a.shape.length b.shape.length) a.shape)
      (padTo (max a.shape.length b.shape.length) b.shape) with
  | none => rw [hR] at h; cases h
  | some R =>
    rw [hR] at h
    dsimp only at h
    have hla := padTo_length (m := max a.shape.length b.shape.length) (s := a.shape) (by omega)
    have hlb := padTo_length (m := max a.shape.length b.shape.length) (s := b.shape) (by omega)
    obtain ⟨g1, g2, g3, g4, g5⟩ := bshape_le (by rw [hla, hlb]) hR (by rwa [numel_padTo])
      (by rwa [numel_padTo])
    rw [numel_padTo] at g2 g4
    rw [numel_padTo] at g3 g5
    have hlen : R.length = max a.shape.length b.shape.length := by rw [g1, hla]
    split_ifs at h with hn h1
    · simp only [Option.some.injEq] at h
      subst h
      change numel R = numel a.shape at hfit
      refine ⟨hlen, fun i hi => ?_⟩
      change InB R i at hi
      obtain ⟨q1, q2⟩ := lin_bidx_full (by omega) (g4 hfit.symm) hi
      obtain ⟨q3, q4⟩ := lin_bidx_full (by omega) (g5 (by omega)) hi
      refine ⟨q1, q3, ?_⟩
      rw [fresh_elem _ _ hi, if_pos (lin_lt hi), ← hca.raw q1, ← hcb.raw q3, q2, q4]
    · simp only [Option.some.injEq] at h
      subst h
      change numel R = numel a.shape at hfit
      refine ⟨hlen, fun i hi => ?_⟩
      change InB R i at hi
      obtain ⟨q1, q2⟩ := lin_bidx_full (by omega) (g4 hfit.symm) hi
      obtain ⟨q3, q4⟩ := lin_bidx_scalar h1 (i := i) (by rw [hi.length, hlen]; omega)
      refine ⟨q1, q3, ?_⟩
      rw [fresh_elem _ _ hi, if_pos (lin_lt hi), ← hca.raw q1, ← hcb.raw q3, q2, q4]
    · cases naive with
      | false => cases h
      | true =>
        cases hinfo : broadcastInfo a.shape b.shape with
        | none => rw [hinfo] at h; cases h
        | some info =>
          rw [hinfo] at h
          simp only [Option.some.injEq] at h
          subst h
          change numel R = numel a.shape at hfit
          refine ⟨hlen, fun i hi => ?_⟩
          change InB R i at hi
          have hA := g4 hfit.symm
          obtain ⟨pre, n, post, e1, e2, hn1, e3⟩ := (broadcastInfo_full hR ha hb hA).1 info hinfo
          obtain ⟨q1, q2⟩ := lin_bidx_full (by omega) hA hi
          -- the index of b
          have hi' := hi
          rw [e1] at hi'
          obtain ⟨p, xq, rfl, hp, hip, hiq⟩ := inB_split hi'
          cases xq with
          | nil => simp [InB] at hiq
          | cons x q =>
            have hin : InB (pre ++ 1 :: post) (p ++ 0 :: q) := by
              rw [inB_append _ _ _ _ hp]; exact ⟨hip, by omega, hiq.2⟩
            have hpad := lin_bidx_full (m := max a.shape.length b.shape.length) (s := b.shape)
              (by omega) e2 hin
            have hsame : bidx b.shape (p ++ x :: q) = bidx b.shape (p ++ 0 :: q) := by
              -- the changed coordinate lies at a dimension of size 1 or before the shape of b
              unfold bidx
              have hL : (p ++ x :: q).length = (p ++ 0 :: q).length := by simp
              rw [hL]
              set D := (p ++ 0 :: q).length - b.shape.length with hD
              have hbl : b.shape.length ≤ (p ++ 0 :: q).length := by
                rw [hin.length, ← e2, hlb]; omega
              have hpadlen : (List.replicate (max a.shape.length b.shape.length - b.shape.length) 1).length
                  = D := by
                rw [hD, hin.length, ← e2, hlb]; simp
              apply List.ext_getElem
              · simp
              · intro j hj1 hj2
                simp only [List.length_zipWith, List.length_drop] at hj1
                simp only [List.getElem_zipWith, List.getElem_drop]
                by_cases hjp : D + j = p.length
                · have hb1 : b.shape[j] = 1 := by
                    have hpj : (padTo (max a.shape.length b.shape.length) b.shape)[D + j]'(by
                        rw [hlb]; rw [hin.length, ← e2, hlb] at hD; omega) = b.shape[j] := by
                      unfold padTo
                      rw [List.getElem_append_right (by omega)]
                      congr 1; omega
                    rw [← hpj]
                    simp only [e2]
                    rw [List.getElem_append_right (by omega)]
                    simp [hjp, hp]
                  rw [if_pos hb1, if_pos hb1]
                · congr 1
                  by_cases hlt : D + j < p.length
                  · rw [List.getElem_append_left hlt, List.getElem_append_left hlt]
                  · rw [List.getElem_append_right (by omega), List.getElem_append_right (by omega)]
                    rw [List.getElem_cons, List.getElem_cons, dif_neg (by omega), dif_neg (by omega)]
            rw [hsame]
            refine ⟨q1, hpad.1, ?_⟩
            rw [fresh_elem _ _ hi, e3]
            have hk : lin R (p ++ x :: q) < numel pre * (n * numel post) := by
              have := lin_lt hi
              rw [e1, numel_append] at this
              rw [e1]; simpa [numel] using this
            rw [naive_value f a b _ _ _ _ hk, ← hca.raw q1, ← hcb.raw hpad.1, q2, hpad.2]
            congr 2
            rw [e1, lin_append _ _ _ _ hp, lin_append _ _ _ _ hp]
            simp only [lin, numel]
            have hxq := lin_lt hiq.2
            have hx := hiq.1
            have hlt : x * numel post + lin post q < n * numel post := by
              have : (x + 1) * numel post ≤ n * numel post := Nat.mul_le_mul_right _ hx
              rw [Nat.succ_mul] at this; omega
            have hpos : 0 < n * numel post := by omega
            have d1 : (lin pre p * (n * numel post) + (x * numel post + lin post q)) / (n * numel post)
                = lin pre p := by
              rw [Nat.add_comm, Nat.add_mul_div_right _ _ hpos, Nat.div_eq_of_lt hlt]; omega
            have d2 : (lin pre p * (n * numel post) + (x * numel post + lin post q)) % numel post
                = lin post q := by
              have : lin pre p * (n * numel post) + (x * numel post + lin post q) =
                  lin post q + numel post * (lin pre p * n + x) := by ring
              rw [this, Nat.add_mul_mod_self_left, Nat.mod_eq_of_lt hxq]
            rw [d1, d2]; ring

/-- **C71, when the operator returns.** Two shapes that broadcast to the (padded) shape of the first
operand: the operator returns exactly when the shapes are equal up to leading 1s, or the second operand
has one element, or — only where the third branch exists — it repeats along exactly one dimension. -/
theorem elewise_returns_iff (naive : Bool) (f : α → β → γ) (a : Tens α) (b : Tens β)
    (ha : 0 < numel a.shape) (hb : 0 < numel b.shape)
    (hfit : bshape (padTo (max a.shape.length b.shape.length) a.shape)
      (padTo (max a.shape.length b.shape.length) b.shape) =
        some (padTo (max a.shape.length b.shape.length) a.shape)) :
    (elewise naive f a b).isSome ↔
      padTo (max a.shape.length b.shape.length) a.shape =
        padTo (max a.shape.length b.shape.length) b.shape ∨
      numel b.shape = 1 ∨
      (naive = true ∧ OneDim (padTo (max a.shape.length b.shape.length) a.shape)
        (padTo (max a.shape.length b.shape.length) b.shape)) := by
  have hla := padTo_length (m := max a.shape.length b.shape.length) (s := a.shape) (by omega)
  have hlb := padTo_length (m := max a.shape.length b.shape.length) (s := b.shape) (by omega)
  obtain ⟨g1, g2, g3, g4, g5⟩ := bshape_le (by rw [hla, hlb]) hfit (by rwa [numel_padTo])
    (by rwa [numel_padTo])
  rw [numel_padTo, numel_padTo] at g5 g3
  unfold elewise
  dsimp only
  rw [hfit]
  dsimp only
  by_cases hn : numel a.shape = numel b.shape
  · rw [if_pos hn]
    simp [(g5 hn.symm).symm]
  · rw [if_neg hn]
    have hne : padTo (max a.shape.length b.shape.length) a.shape ≠
        padTo (max a.shape.length b.shape.length) b.shape := by
      intro e
      apply hn
      rw [← numel_padTo (max a.shape.length b.shape.length) a.shape, e, numel_padTo]
    by_cases h1 : numel b.shape = 1
    · rw [if_pos h1]; simp [h1]
    · rw [if_neg h1]
      have hinfo := broadcastInfo_full hfit ha hb rfl
      cases naive with
      | false => simp [hne, h1]
      | true =>
        simp only [hne, h1, false_or, true_and]
        cases hi : broadcastInfo a.shape b.shape with
        | none =>
          simp only [Option.isSome_none, Bool.false_eq_true, false_iff]
          intro ho
          have := hinfo.2 ho
          rw [hi] at this; cases this
        | some i =>
          simp only [Option.isSome_some, true_iff]
          obtain ⟨pre, n, post, e1, e2, e3, _⟩ := hinfo.1 i hi
          exact ⟨pre, n, post, e1, e2, e3⟩

/-- **C71 is violated whenever the first operand would have to be repeated** and the operator does not
stop: some element of the result is computed from memory behind the first operand.  (`hbuf`: the buffer
of the first operand ends where its elements end.) -/
theorem elewise_reads_outside_violated (naive : Bool) (f : α → β → γ) (a : Tens α) (b : Tens β)
    (r : Tens γ) (ha : 0 < numel a.shape) (hb : 0 < numel b.shape)
    (hbuf : ∀ k, numel a.shape ≤ k → a.raw k = none)
    (h : elewise naive f a b = some r) (hfit : numel r.shape ≠ numel a.shape) :
    ∃ i, InB r.shape i ∧ r.elem i = none := by
  unfold elewise at h
  dsimp only at h
  cases hR : bshape (padTo (max a.shape.length b.shape.length) a.shape)
      (padTo (max a.shape.length b.shape.length) b.shape) with
  | none => rw [hR] at h; cases h
  | some R =>
    rw [hR] at h
    dsimp only at h
    have hla := padTo_length (m := max a.shape.length b.shape.length) (s := a.shape) (by omega)
    have hlb := padTo_length (m := max a.shape.length b.shape.length) (s := b.shape) (by omega)
    obtain ⟨g1, g2, g3, g4, g5⟩ := bshape_le (by rw [hla, hlb]) hR (by rwa [numel_padTo])
      (by rwa [numel_padTo])
    rw [numel_padTo] at g2
    have key : ∀ buf : Nat → Option γ, (∀ k, a.raw k = none → buf k = none) → numel R ≠ numel a.shape →
        ∃ i, InB R i ∧ (fresh R buf).elem i = none := by
      intro buf hk hne
      have hlt : numel R - 1 < numel R := by omega
      obtain ⟨c1, c2⟩ := coords_spec hlt
      refine ⟨coords R (numel R - 1), c1, ?_⟩
      rw [fresh_elem _ _ c1, c2]
      exact hk _ (hbuf _ (by omega))
    split_ifs at h with hn h1
    · simp only [Option.some.injEq] at h
      subst h
      exact key _ (fun k hk => by split_ifs; · rw [hk]; rfl
                                  · rfl) hfit
    · simp only [Option.some.injEq] at h
      subst h
      exact key _ (fun k hk => by split_ifs; · rw [hk]; rfl
                                  · rfl) hfit
    · cases naive with
      | false => cases h
      | true =>
        cases hinfo : broadcastInfo a.shape b.shape with
        | none => rw [hinfo] at h; cases h
        | some info =>
          rw [hinfo] at h
          simp only [Option.some.injEq] at h
          subst h
          exact key _ (fun k hk => naive_reads f a b info k hk) hfit

/-- A row-major tensor of the given shape whose buffer ends with its elements. -/
def exact (s : List Nat) (v : Nat → α) : Tens α := fresh s fun k => if k < numel s then some (v k) else none

/-- The correct cases are met: `[2,3,2] + [2,1,2]`. -/
example : ∃ r, elewise true (fun x y : Nat => x + y) (exact [2, 3, 2] id) (exact [2, 1, 2] (· * 100)) = some r ∧
    numel r.shape = numel [2, 3, 2] ∧ r.elem [1, 2, 1] = some (11 + 300) :=
  ⟨_, rfl, rfl, by decide +kernel⟩

/-- So are the violating ones: a column plus a row, and a vector plus a matrix. -/
example : (∃ r, elewise true (fun x y : Nat => x + y) (exact [2, 1] id) (exact [1, 2] id) = some r ∧
      r.shape = [2, 2] ∧ r.elem [0, 1] = some 2 ∧ r.elem [1, 1] = none) ∧
    (∃ r, elewise true (fun x y : Nat => x + y) (exact [2] id) (exact [3, 2] (· * 10)) = some r ∧
      r.shape = [3, 2] ∧ r.elem [0, 0] = some 0 ∧ r.elem [2, 1] = none) :=
  ⟨⟨_, rfl, rfl, by decide +kernel, by decide +kernel⟩, ⟨_, rfl, rfl, by decide +kernel, by decide +kernel⟩⟩

end Verif.Ops
