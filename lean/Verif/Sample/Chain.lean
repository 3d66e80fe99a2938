import Verif.Prelude
import Mathlib.Algebra.BigOperators.Ring.Finset
import Mathlib.Algebra.BigOperators.Field
import Mathlib.Algebra.Order.BigOperators.Group.Finset
import Mathlib.Algebra.Order.Ring.Rat

/-!
# C69, C70: chain speculative sampling

Source: `pymllm/layers/sampling.py` L693-L770 (`_torch_chain_speculative_sampling`).

A call with random choices is a *program tree* `Prog`: `torch.rand(1) < θ` is a coin, and
`torch.multinomial` is a draw.  `Prog.ev` is the expectation of a function of the result (the
draws being independent, as `torch`'s are), `Prog.can` says which results are possible.
Probabilities are rationals; one batch row is modelled, the rows do not interact.
-/

namespace Verif.Sample

open Finset

/-- A program making random choices. -/
inductive Prog (α : Type) where
  | ret (a : α)
  /-- `torch.rand(1).item() < θ`. -/
  | coin (θ : ℚ) (k : Bool → Prog α)
  /-- `torch.multinomial(w, 1)` over `n` weights. -/
  | draw (n : Nat) (w : Nat → ℚ) (k : Nat → Prog α)

namespace Prog

variable {α β : Type}

/-- Sequencing. -/
def bind : Prog α → (α → Prog β) → Prog β
  | ret a, g => g a
  | coin θ k, g => coin θ fun b => (k b).bind g
  | draw n w k, g => draw n w fun t => (k t).bind g

/-- Expectation: `rand` is uniform on `[0,1)`, so the coin shows `true` with probability `θ`
clipped to `[0,1]`; the draw takes `t` with probability `w t / Σ w`. -/
def ev : Prog α → (α → ℚ) → ℚ
  | ret a, f => f a
  | coin θ k, f => max 0 (min 1 θ) * (k true).ev f + (1 - max 0 (min 1 θ)) * (k false).ev f
  | draw n w k, f => ∑ t ∈ range n, w t / (∑ j ∈ range n, w j) * (k t).ev f

/-- The possible results. -/
def can : Prog α → α → Prop
  | ret a, x => x = a
  | coin θ k, x => (0 < θ ∧ (k true).can x) ∨ (θ < 1 ∧ (k false).can x)
  | draw n w k, x => ∃ t, t < n ∧ 0 < w t ∧ (k t).can x

end Prog

/-! ### Model -/

/-- The per-row state of the loop: `output_ids[b]`, `accepted_count[b]`, `emitted_count[b]` and
`all_accepted` (L709-L717). -/
structure RowSt where
  out : List Int
  accepted : Nat
  emitted : Nat
  all : Bool

/-- The constant `1e-10`. -/
def tiny : ℚ := 1 / 10 ^ 10

/-- The constant `1e-8`. -/
def small : ℚ := 1 / 10 ^ 8

/-- `diff = clamp(target - draft, min=0)` (L740-L741). -/
def diff (tp dp : Nat → ℚ) (j : Nat) : ℚ := max 0 (tp j - dp j)

/-- The weights of the replacement token (L740-L747). -/
def residual (n : Nat) (tp dp : Nat → ℚ) : Nat → ℚ :=
  let dsum := ∑ j ∈ range n, diff tp dp j
  if dsum > small then fun j => diff tp dp j / dsum
  else fun j => tp j / max (∑ j ∈ range n, tp j) small

/-- The acceptance metric (L724-L729). -/
def metric (pt pd : ℚ) (st : RowSt) (k : RowSt → Prog RowSt) : Prog RowSt :=
  if pt ≥ pd then k { st with accepted := st.accepted + 1 }
  else .coin (pt / max pd tiny) fun b =>
    k (if b then { st with accepted := st.accepted + 1 } else st)

/-- The accept/reject part of one iteration (L732-L753). -/
def decideTok (n : Nat) (tp dp : Nat → ℚ) (t x : Nat) (st : RowSt) : Prog RowSt :=
  if st.all then
    .coin (min 1 (tp x / max (dp x) tiny)) fun b =>
      if b then .ret { st with out := st.out.set t x, emitted := st.emitted + 1 }
      else .draw n (residual n tp dp) fun y =>
        .ret { st with out := st.out.set t y, emitted := st.emitted + 1, all := false }
  else .ret st

/-- The loop over the draft tokens `xs`, the first one at position `t` (L718-L753).
`dps s`, `tps s` are the draft and target probabilities of position `s`. -/
def rowLoop (n : Nat) (dps tps : Nat → Nat → ℚ) : Nat → List Nat → RowSt → Prog RowSt
  | _, [], st => .ret st
  | t, x :: xs, st =>
    (metric (tps t x) (dps t x) st fun st' => decideTok n (tps t) (dps t) t x st').bind
      (rowLoop n dps tps (t + 1) xs)

/-- The bonus token (L756-L763). -/
def bonus (n : Nat) (tp : Nat → ℚ) (numSpec : Nat) (st : RowSt) : Prog RowSt :=
  if st.all then
    .draw n (fun j => tp j / max (∑ j ∈ range n, tp j) small) fun y =>
      .ret { st with out := st.out.set numSpec y }
  else .ret st

/-- One row of `_torch_chain_speculative_sampling` (L708-L763). -/
def chainRow (n : Nat) (dps tps : Nat → Nat → ℚ) (xs : List Nat) : Prog RowSt :=
  (rowLoop n dps tps 0 xs ⟨List.replicate (xs.length + 1) (-1), 0, 0, true⟩).bind
    (bonus n (tps xs.length) xs.length)

/-! ### Specification -/

/-- The tokens of an output row: everything before the `-1` padding. -/
def toks (out : List Int) : List Nat := (out.takeWhile fun i => decide (0 ≤ i)).map Int.toNat

/-- Ordinary sampling: `j` more tokens, each from the model's distribution given all before. -/
def extend (n : Nat) (M : List Nat → Nat → ℚ) : Nat → List Nat → Prog (List Nat)
  | 0, ys => .ret ys
  | j + 1, ys => .draw n (M ys) fun x => extend n M j (ys ++ [x])

/-- `M ys` is a probability distribution on the vocabulary, for every prefix. -/
structure IsModel (n : Nat) (M : List Nat → Nat → ℚ) : Prop where
  nonneg : ∀ ys j, 0 ≤ M ys j
  total : ∀ ys, ∑ j ∈ range n, M ys j = 1

/-- The thresholds of the code (1e-10, 1e-8) play no role: a draft probability is 0 or at least
1e-10, and the two distributions are equal or differ by more than 1e-8. -/
def Ordinary (n : Nat) (tp dp : Nat → ℚ) : Prop :=
  (∀ j, j < n → dp j = 0 ∨ tiny ≤ dp j) ∧
    ((∀ j, j < n → tp j = dp j) ∨ small < ∑ j ∈ range n, diff tp dp j)

/-- The experiment: the draft model proposes `g` tokens after `ys`, the chain sampler decides, and
the answer is completed to `m` tokens by ordinary sampling from the target model. -/
def speculative (n : Nat) (T Q : List Nat → Nat → ℚ) (g m : Nat) : Prog (List Nat) :=
  (extend n Q g []).bind fun xs =>
    (chainRow n (fun s => Q (xs.take s)) (fun s => T (xs.take s)) xs).bind fun st =>
      extend n T (m - (toks st.out).length) (toks st.out)

/-! ### Expectations -/

namespace Prog

variable {α β : Type}

theorem ev_bind (p : Prog α) (g : α → Prog β) (f : β → ℚ) :
    (p.bind g).ev f = p.ev fun a => (g a).ev f := by
  induction p with
  | ret a => rfl
  | coin θ k ih => simp only [bind, ev, ih]
  | draw n w k ih => simp only [bind, ev, ih]

theorem ev_add (p : Prog α) (f g : α → ℚ) : p.ev (fun a => f a + g a) = p.ev f + p.ev g := by
  induction p with
  | ret a => rfl
  | coin θ k ih => simp only [ev, ih]; ring
  | draw n w k ih => simp only [ev, ih, mul_add, sum_add_distrib]

theorem ev_mul (p : Prog α) (c : ℚ) (f : α → ℚ) : p.ev (fun a => c * f a) = c * p.ev f := by
  induction p with
  | ret a => rfl
  | coin θ k ih => simp only [ev, ih]; ring
  | draw n w k ih =>
    simp only [ev, ih, mul_sum]
    apply sum_congr rfl
    intro t _
    ring

theorem ev_sum (p : Prog α) (n : Nat) (f : Nat → α → ℚ) :
    p.ev (fun a => ∑ j ∈ range n, f j a) = ∑ j ∈ range n, p.ev (f j) := by
  induction n with
  | zero =>
    simp only [range_zero, sum_empty]
    have := p.ev_mul 0 (fun _ => 0)
    simpa using this
  | succ n ih => simp only [sum_range_succ, ev_add, ih]

end Prog

theorem ev_extend_const {n : Nat} {M : List Nat → Nat → ℚ} (hM : IsModel n M) (c : ℚ) :
    ∀ (j : Nat) (ys : List Nat), (extend n M j ys).ev (fun _ => c) = c := by
  intro j
  induction j with
  | zero => intro ys; rfl
  | succ j ih =>
    intro ys
    simp only [extend, Prog.ev, ih, hM.total, div_one]
    rw [← sum_mul, hM.total, one_mul]

/-- The acceptance identity behind speculative sampling. -/
theorem accept_identity {n : Nat} {tp dp : Nat → ℚ} (ht : ∀ j, 0 ≤ tp j) (hd : ∀ j, 0 ≤ dp j)
    (ht1 : ∑ j ∈ range n, tp j = 1) (hd1 : ∑ j ∈ range n, dp j = 1) (ho : Ordinary n tp dp)
    (F : Nat → ℚ) :
    ∑ x ∈ range n, dp x * (max 0 (min 1 (min 1 (tp x / max (dp x) tiny))) * F x +
        (1 - max 0 (min 1 (min 1 (tp x / max (dp x) tiny)))) *
          ∑ y ∈ range n, residual n tp dp y / (∑ j ∈ range n, residual n tp dp j) * F y) =
      ∑ x ∈ range n, tp x * F x := by
  have htiny : (0 : ℚ) < tiny := by norm_num [tiny]
  have hsmall : (0 : ℚ) < small := by norm_num [small]
  -- acceptance probability times draft probability
  have hmin : ∀ x, x < n →
      dp x * max 0 (min 1 (min 1 (tp x / max (dp x) tiny))) = min (tp x) (dp x) := by
    intro x hx
    rcases ho.1 x hx with h0 | h0
    · rw [h0, zero_mul, min_eq_right (ht x)]
    · have hpos : 0 < dp x := lt_of_lt_of_le htiny h0
      rw [max_eq_left h0, min_eq_right (min_le_left _ _)]
      rw [max_eq_right (le_min zero_le_one (div_nonneg (ht x) hpos.le))]
      rcases le_total (tp x) (dp x) with h | h
      · rw [min_eq_right ((div_le_one hpos).mpr h), min_eq_left h, mul_comm, div_mul_cancel₀ _ hpos.ne']
      · rw [min_eq_left ((one_le_div hpos).mpr h), min_eq_right h, mul_one]
  have hsplit : ∀ x, min (tp x) (dp x) + diff tp dp x = tp x := by
    intro x
    unfold diff
    rcases le_total (tp x) (dp x) with h | h
    · rw [min_eq_left h, max_eq_left (by linarith)]; ring
    · rw [min_eq_right h, max_eq_right (by linarith)]; ring
  have hsum : ∑ x ∈ range n, min (tp x) (dp x) = 1 - ∑ x ∈ range n, diff tp dp x := by
    have := ht1
    rw [← sum_congr rfl (fun x _ => hsplit x), sum_add_distrib] at this
    linarith
  set R := ∑ y ∈ range n, residual n tp dp y / (∑ j ∈ range n, residual n tp dp j) * F y with hR
  have hlhs : ∀ x ∈ range n, dp x * (max 0 (min 1 (min 1 (tp x / max (dp x) tiny))) * F x +
        (1 - max 0 (min 1 (min 1 (tp x / max (dp x) tiny)))) * R) =
      min (tp x) (dp x) * F x + (dp x - min (tp x) (dp x)) * R := by
    intro x hx
    have := hmin x (mem_range.mp hx)
    rw [← this]; ring
  rw [sum_congr rfl hlhs, sum_add_distrib, ← sum_mul, sum_sub_distrib, hd1, hsum]
  -- the replacement draw
  have hres : (1 - (1 - ∑ x ∈ range n, diff tp dp x)) * R = ∑ x ∈ range n, diff tp dp x * F x := by
    rcases ho.2 with heq | hbig
    · have hz : ∀ x ∈ range n, diff tp dp x = 0 := by
        intro x hx; unfold diff; rw [heq x (mem_range.mp hx)]; simp
      rw [sum_congr rfl hz]
      have : ∑ x ∈ range n, diff tp dp x * F x = 0 := by
        apply sum_eq_zero; intro x hx; rw [hz x hx, zero_mul]
      rw [this]; simp
    · have hD : 0 < ∑ x ∈ range n, diff tp dp x := lt_trans hsmall hbig
      have hr : residual n tp dp = fun j => diff tp dp j / ∑ j ∈ range n, diff tp dp j := by
        unfold residual; simp only; rw [if_pos hbig]
      have hrs : ∑ j ∈ range n, residual n tp dp j = 1 := by
        rw [hr, ← sum_div, div_self hD.ne']
      rw [hR, hrs]
      simp only [div_one]
      rw [sub_sub_cancel, mul_sum]
      apply sum_congr rfl
      intro y _
      rw [hr, ← mul_assoc, mul_comm (∑ x ∈ range n, diff tp dp x), div_mul_cancel₀ _ hD.ne']
  rw [hres, ← sum_add_distrib]
  apply sum_congr rfl
  intro x _
  rw [← add_mul, hsplit]

/-! ### Rejected rows do not change -/

/-- A function of the row state that looks only at the output and the flag. -/
def OutOnly (h : RowSt → ℚ) : Prop := ∀ a b : RowSt, a.out = b.out → a.all = b.all → h a = h b

theorem ev_metric (pt pd : ℚ) (st : RowSt) (k : RowSt → Prog RowSt) (h : RowSt → ℚ) (c : ℚ)
    (hk : ∀ a : RowSt, a.out = st.out → a.all = st.all → (k a).ev h = c) :
    (metric pt pd st k).ev h = c := by
  unfold metric
  split_ifs with hp
  · exact hk _ rfl rfl
  · simp only [Prog.ev, if_true, Bool.false_eq_true, if_false]
    rw [hk { st with accepted := st.accepted + 1 } rfl rfl, hk st rfl rfl]
    ring

theorem ev_rejected (n : Nat) (dps tps : Nat → Nat → ℚ) (h : RowSt → ℚ) (hh : OutOnly h) :
    ∀ (xs : List Nat) (t : Nat) (st : RowSt), st.all = false →
      (rowLoop n dps tps t xs st).ev h = h st := by
  intro xs
  induction xs with
  | nil => intro t st _; rfl
  | cons x xs ih =>
    intro t st hst
    rw [rowLoop, Prog.ev_bind]
    apply ev_metric
    intro a ha hall
    have ha' : a.all = false := by rw [hall, hst]
    have : decideTok n (tps t) (dps t) t x a = .ret a := by
      unfold decideTok; rw [ha']; simp
    rw [this]
    simp only [Prog.ev]
    rw [ih (t + 1) a ha']
    exact hh a st ha hall

/-! ### The output row -/

/-- A row holding the tokens `ys` and `j` padding entries. -/
def rowOf (ys : List Nat) (j : Nat) : List Int := ys.map (fun y : Nat => (y : Int)) ++ List.replicate j (-1)

theorem rowOf_set (ys : List Nat) (j x : Nat) :
    (rowOf ys (j + 1)).set ys.length (x : Int) = rowOf (ys ++ [x]) j := by
  unfold rowOf
  rw [List.set_append_right _ _ (by simp)]
  simp [List.replicate_succ]

theorem toks_rowOf (ys : List Nat) (j : Nat) : toks (rowOf ys j) = ys := by
  unfold toks rowOf
  rw [List.takeWhile_append_of_pos (by
    intro a ha; obtain ⟨y, _, rfl⟩ := List.mem_map.mp ha; simp)]
  have : List.takeWhile (fun i => decide ((0 : Int) ≤ i)) (List.replicate j (-1)) = [] := by
    cases j <;> simp [List.replicate_succ]
  rw [this, List.append_nil, List.map_map]
  conv_rhs => rw [← List.map_id ys]
  apply List.map_congr_left
  intro y _; simp

/-- What happens to the state after the loop: bonus token, completion, evaluation of `f`. -/
def after (n : Nat) (T : List Nat → Nat → ℚ) (tp : Nat → ℚ) (g m : Nat) (f : List Nat → ℚ)
    (st : RowSt) : ℚ :=
  (bonus n tp g st).ev fun s => (extend n T (m - (toks s.out).length) (toks s.out)).ev f

theorem after_outOnly (n : Nat) (T : List Nat → Nat → ℚ) (tp : Nat → ℚ) (g m : Nat)
    (f : List Nat → ℚ) : OutOnly (after n T tp g m f) := by
  intro a b h1 h2
  unfold after bonus
  rw [h1, h2]
  by_cases h : b.all = true
  · simp only [if_pos h, Prog.ev, h1]
  · simp only [if_neg h, Prog.ev, h1]

theorem after_rejected (n : Nat) (T : List Nat → Nat → ℚ) (tp : Nat → ℚ) (g m : Nat)
    (f : List Nat → ℚ) (st : RowSt) (h : st.all = false) :
    after n T tp g m f st = (extend n T (m - (toks st.out).length) (toks st.out)).ev f := by
  unfold after bonus
  rw [h]; simp [Prog.ev]

/-- The invariant: with `ys` accepted so far and `k` draft tokens to come, the experiment has the
expectation of ordinary sampling continued from `ys`. -/
theorem chain_law (n : Nat) (T Q : List Nat → Nat → ℚ) (hT : IsModel n T) (hQ : IsModel n Q)
    (ho : ∀ ys, Ordinary n (T ys) (Q ys)) (m : Nat) (f : List Nat → ℚ) (k : Nat) :
    ∀ (ys : List Nat), ys.length + k + 1 ≤ m → ∀ (st : RowSt), st.all = true →
      st.out = rowOf ys (k + 1) →
    (extend n Q k ys).ev (fun full =>
      (rowLoop n (fun s => Q (full.take s)) (fun s => T (full.take s)) ys.length
        (full.drop ys.length) st).ev
          (after n T (T (full.take (ys.length + k))) (ys.length + k) m f)) =
    (extend n T (m - ys.length) ys).ev f := by
  induction k with
  | zero =>
    intro ys hm st hall hout
    simp only [extend, Prog.ev, List.drop_length, rowLoop, Nat.add_zero, List.take_length]
    unfold after bonus
    rw [if_pos hall]
    obtain ⟨j, hj⟩ : ∃ j, m - ys.length = j + 1 := ⟨m - ys.length - 1, by omega⟩
    rw [hj]
    simp only [extend, Prog.ev]
    have hmax : max (∑ j ∈ range n, T ys j) small = 1 := by
      rw [hT.total]; norm_num [small]
    rw [hmax]
    simp only [div_one]
    apply sum_congr rfl
    intro y _
    have hlen : m - (ys ++ [y]).length = j := by
      simp only [List.length_append, List.length_singleton]; omega
    rw [hout, rowOf_set, toks_rowOf, hlen, hT.total, div_one]
  | succ k ih =>
    intro ys hm st hall hout
    -- one more draft token `x`; the rest is drawn after it
    simp only [extend, Prog.ev, hQ.total, div_one]
    obtain ⟨j, hj⟩ : ∃ j, m - ys.length = j + 1 := ⟨m - ys.length - 1, by omega⟩
    rw [hj]
    simp only [extend, Prog.ev, hT.total, div_one]
    -- value after accepting or replacing by `z`
    set F : Nat → ℚ := fun z => (extend n T j (ys ++ [z])).ev f with hF
    rw [← accept_identity (hT.nonneg ys) (hQ.nonneg ys) (hT.total ys) (hQ.total ys) (ho ys) F]
    apply sum_congr rfl
    intro x hx
    congr 1
    -- every full draft continues `ys ++ [x]`
    have hpre : ∀ (k : Nat) (zs : List Nat) (u v : List Nat → ℚ),
        (∀ w, u (zs ++ w) = v (zs ++ w)) → (extend n Q k zs).ev u = (extend n Q k zs).ev v := by
      intro k
      induction k with
      | zero => intro zs u v h; simp only [extend, Prog.ev]; simpa using h []
      | succ k ihk =>
        intro zs u v h
        simp only [extend, Prog.ev]
        apply sum_congr rfl
        intro z _
        congr 1
        apply ihk
        intro w
        simpa using h (z :: w)
    set a := max 0 (min 1 (min 1 (T ys x / max (Q ys x) tiny))) with ha
    have hstep : (extend n Q k (ys ++ [x])).ev (fun full =>
        (rowLoop n (fun s => Q (full.take s)) (fun s => T (full.take s)) ys.length
          (full.drop ys.length) st).ev
            (after n T (T (full.take (ys.length + (k + 1)))) (ys.length + (k + 1)) m f)) =
      (extend n Q k (ys ++ [x])).ev (fun full =>
        a * (rowLoop n (fun s => Q (full.take s)) (fun s => T (full.take s)) (ys.length + 1)
          (full.drop (ys.length + 1)) ⟨rowOf (ys ++ [x]) (k + 1), 0, 0, true⟩).ev
            (after n T (T (full.take (ys.length + (k + 1)))) (ys.length + (k + 1)) m f) +
        (1 - a) * ∑ y ∈ range n, residual n (T ys) (Q ys) y /
          (∑ j ∈ range n, residual n (T ys) (Q ys) j) * F y) := by
      apply hpre
      intro w
      set full := ys ++ [x] ++ w with hfull
      have htake : full.take ys.length = ys := by simp [hfull]
      have hdrop : full.drop ys.length = x :: w := by simp [hfull]
      have hdrop1 : full.drop (ys.length + 1) = w := by
        rw [hfull, List.drop_left' (by simp)]
      rw [hdrop, hdrop1, rowLoop, Prog.ev_bind]
      simp only [htake]
      apply ev_metric
      intro s hs1 hs2
      have hsall : s.all = true := by rw [hs2, hall]
      have hsout : s.out = rowOf ys (k + 1 + 1) := by rw [hs1, hout]
      unfold decideTok
      rw [if_pos hsall]
      simp only [Prog.ev, if_true, Bool.false_eq_true, if_false]
      have hA : (rowLoop n (fun s => Q (full.take s)) (fun s => T (full.take s)) (ys.length + 1) w
          { s with out := s.out.set ys.length (x : Int), emitted := s.emitted + 1 }).ev
            (after n T (T (full.take (ys.length + (k + 1)))) (ys.length + (k + 1)) m f) =
          (rowLoop n (fun s => Q (full.take s)) (fun s => T (full.take s)) (ys.length + 1) w
            ⟨rowOf (ys ++ [x]) (k + 1), 0, 0, true⟩).ev
            (after n T (T (full.take (ys.length + (k + 1)))) (ys.length + (k + 1)) m f) := by
        -- the counters play no role
        have gen : ∀ (xs : List Nat) (t : Nat) (s1 s2 : RowSt) (h : RowSt → ℚ), OutOnly h →
            s1.out = s2.out → s1.all = s2.all →
            (rowLoop n (fun s => Q (full.take s)) (fun s => T (full.take s)) t xs s1).ev h =
            (rowLoop n (fun s => Q (full.take s)) (fun s => T (full.take s)) t xs s2).ev h := by
          intro xs
          induction xs with
          | nil => intro t s1 s2 h hh h1 h2; exact hh _ _ h1 h2
          | cons z xs ihx =>
            intro t s1 s2 h hh h1 h2
            rw [rowLoop, rowLoop, Prog.ev_bind, Prog.ev_bind]
            have hd : ∀ a : RowSt, a.out = s2.out → a.all = s2.all →
                (decideTok n (T (full.take t)) (Q (full.take t)) t z a).ev (fun b =>
                  (rowLoop n (fun s => Q (full.take s)) (fun s => T (full.take s)) (t + 1) xs b).ev h) =
                (decideTok n (T (full.take t)) (Q (full.take t)) t z s2).ev (fun b =>
                  (rowLoop n (fun s => Q (full.take s)) (fun s => T (full.take s)) (t + 1) xs b).ev h) := by
              intro a h3 h4
              unfold decideTok
              rw [h4]
              split_ifs with hc
              · simp only [Prog.ev, if_true, Bool.false_eq_true, if_false]
                congr 1
                · congr 1
                  exact ihx _ _ _ h hh (by simp only [h3]) (by simp only [h4])
                · congr 1
                  apply sum_congr rfl
                  intro y _
                  congr 1
                  exact ihx _ _ _ h hh (by simp only [h3]) (by simp only)
              · simp only [Prog.ev]
                exact ihx _ _ _ h hh h3 h4
            rw [ev_metric _ _ s1 _ _ _ (fun a h3 h4 => hd a (by rw [h3, h1]) (by rw [h4, h2])),
              ev_metric _ _ s2 _ _ _ hd]
        refine gen _ _ _ _ _ (after_outOnly _ _ _ _ _ _) ?_ hsall
        simp only [hsout]
        exact rowOf_set ys (k + 1) x
      rw [hA]
      congr 1
      congr 1
      apply sum_congr rfl
      intro y _
      congr 1
      rw [ev_rejected n _ _ _ (after_outOnly _ _ _ _ _ _) _ _ _ rfl, after_rejected _ _ _ _ _ _ _ rfl]
      simp only [hsout]
      rw [rowOf_set, toks_rowOf, hF]
      simp only [List.length_append, List.length_singleton]
      congr 2
      omega
    rw [hstep, Prog.ev_add, Prog.ev_mul, ev_extend_const hQ]
    have hacc := ih (ys ++ [x]) (by simp; omega) ⟨rowOf (ys ++ [x]) (k + 1), 0, 0, true⟩ rfl rfl
    simp only [List.length_append, List.length_singleton] at hacc
    rw [show ys.length + (k + 1) = ys.length + 1 + k by omega]
    rw [hacc, show m - (ys.length + 1) = j by omega]

/-- **C69.** Speculative decoding does not change the distribution of the answer: for every target
model, every draft model, every number of proposed tokens, every answer length and every
observable `f` of the answer, the expectation of `f` under speculative decoding equals the one
under ordinary sampling from the target model.  (Whenever the code's thresholds 1e-10 and 1e-8 play
no role for the two models.) -/
theorem speculative_preserves_law_partial (n : Nat) (T Q : List Nat → Nat → ℚ) (hT : IsModel n T)
    (hQ : IsModel n Q) (ho : ∀ ys, Ordinary n (T ys) (Q ys)) (g m : Nat) (hm : g + 1 ≤ m)
    (f : List Nat → ℚ) :
    (speculative n T Q g m).ev f = (extend n T m []).ev f := by
  have h := chain_law n T Q hT hQ ho m f g [] (by simpa using hm)
    ⟨List.replicate (g + 1) (-1), 0, 0, true⟩ rfl rfl
  simp only [List.length_nil, Nat.zero_add, List.drop_zero, Nat.sub_zero] at h
  rw [← h]
  unfold speculative
  rw [Prog.ev_bind]
  -- drafts have length `g`
  have hlen : ∀ (k : Nat) (zs : List Nat) (u v : List Nat → ℚ),
      (∀ w, w.length = zs.length + k → u w = v w) → (extend n Q k zs).ev u = (extend n Q k zs).ev v := by
    intro k
    induction k with
    | zero => intro zs u v h; simp only [extend, Prog.ev]; exact h zs (by simp)
    | succ k ihk =>
      intro zs u v h
      simp only [extend, Prog.ev]
      apply sum_congr rfl
      intro z _
      congr 1
      apply ihk
      intro w hw
      exact h w (by rw [hw]; simp; omega)
  apply hlen
  intro xs hxs
  have hxs' : xs.length = g := by simpa using hxs
  rw [Prog.ev_bind]
  unfold chainRow
  rw [Prog.ev_bind, hxs']
  rfl

end Verif.Sample
