import Verif.Shard.PropsLayout
/-! Lemmas: shards of a loaded layer, gathers and reductions over a tensor-parallel group. -/
namespace Verif.Shard
open Verif.Tensor
variable {α : Type}

theorem mapM_all {β γ : Type} {f : β → Option γ} {g : β → γ} :
    ∀ {l : List β}, (∀ x ∈ l, f x = some (g x)) → l.mapM f = some (l.map g)
  | [], _ => rfl
  | x :: l, h => by
    rw [List.mapM_cons, h x List.mem_cons_self,
      mapM_all (fun y hy => h y (List.mem_cons_of_mem _ hy))]
    rfl

theorem sum_blocks [AddCommMonoid α] (f : Nat → α) (n m : Nat) :
    (∑ k ∈ Finset.range n, ∑ t ∈ Finset.range m, f (k * m + t)) = ∑ j ∈ Finset.range (n * m), f j := by
  induction n with
  | zero => simp
  | succ n ih => rw [Finset.sum_range_succ, ih, Nat.succ_mul, Finset.sum_range_add]

theorem sum_map_range' [AddCommMonoid α] (f : Nat → α) (a n : Nat) :
    ((List.range' a n).map f).sum = ∑ k ∈ Finset.range n, f (a + k) := by
  induction n with
  | zero => simp
  | succ n ih =>
    rw [List.range'_concat, List.map_append, List.sum_append, ih, Finset.sum_range_succ]
    simp

theorem narrow_ok {t : Tn α} {d s n : Nat} (hd : d < t.shape.length)
    (hs : s + n ≤ t.shape.getD d 0) :
    t.narrow d (s : Int) n = some ⟨t.shape.set d n, fun ix => t.get (ix.set d (ix.getD d 0 + s))⟩ := by
  unfold Tn.narrow
  rw [if_pos hd]
  have h1 : ¬ ((s : Int) < 0) := by omega
  simp only [h1, if_false]
  rw [if_neg (by omega)]
  simp

/-- The bias a layer adds at output `j`. -/
def biasAt [Zero α] (b : Option (Tn α)) (j : Nat) : α :=
  match b with
  | none => 0
  | some v => v.get [j]

/-- A layer holding rows `[a*per, a*per+per)` of the checkpoint matrix and bias. -/
structure ColShard [Zero α] (l : Lin α) (a per inF : Nat) (W : Tn α) (B : Option (Tn α)) : Prop where
  perEq : l.per = per
  wShape : l.weight.shape = [per, inF]
  wGet : ∀ i j, l.weight.get [i, j] = W.get [a * per + i, j]
  bShape : ∀ v ∈ l.bias, v.shape = [per]
  bGet : ∀ i, biasAt l.bias i = biasAt B (a * per + i)

/-- A layer holding columns `[a*per, a*per+per)` of the checkpoint matrix and the whole bias. -/
structure RowShard [Zero α] (l : Lin α) (a per outF : Nat) (W : Tn α) (B : Option (Tn α)) : Prop where
  perEq : l.per = per
  wShape : l.weight.shape = [outF, per]
  wGet : ∀ i j, l.weight.get [i, j] = W.get [i, a * per + j]
  bShape : ∀ v ∈ l.bias, v.shape = [outF]
  bGet : ∀ i, biasAt l.bias i = biasAt B i

theorem col_loaded [Zero α] {q : PState} {inF outF : Nat} {W : Tn α} {B : Option (Tn α)} (junk : List Nat → α)
    (hpos : 0 < q.tpSize) (hr : q.tpRank < q.tpSize) (hd : q.tpSize ∣ outF)
    (hW : W.shape = [outF, inF]) (hB : ∀ v ∈ B, v.shape = [outF]) :
    ∃ l0 l, Col.new q inF outF B.isSome junk = some l0 ∧ Col.load l0 W B = some l ∧
      l.tpSize = q.tpSize ∧ ColShard l q.tpRank (outF / q.tpSize) inF W B := by
  obtain ⟨k, hk⟩ := hd
  have hper : outF / q.tpSize = k := by rw [hk]; exact Nat.mul_div_cancel_left k hpos
  have hmod : outF % q.tpSize = 0 := by rw [hk]; exact Nat.mul_mod_right _ _
  have hle : q.tpRank * k + k ≤ outF := by
    rw [hk]
    calc q.tpRank * k + k = (q.tpRank + 1) * k := by ring
      _ ≤ q.tpSize * k := Nat.mul_le_mul_right _ hr
  refine ⟨⟨q.tpRank, q.tpSize, k, ⟨[k, inF], junk⟩, if B.isSome then some ⟨[k], junk⟩ else none⟩, ?_⟩
  unfold Col.new
  simp only [hmod, ne_eq, not_true_eq_false, if_false, hper]
  by_cases h1 : q.tpSize = 1
  · have hr0 : q.tpRank = 0 := by omega
    have hko : k = outF := by rw [hk, h1, Nat.one_mul]
    cases B with
    | none =>
      refine ⟨⟨q.tpRank, q.tpSize, k, ⟨[k, inF], W.get⟩, none⟩, trivial, ?_, rfl, rfl, rfl, ?_, ?_, ?_⟩
      · simp [Col.load, shardLoad, loadBias, h1, hW, hko]
      · intro i j; simp [hr0]
      · intro v hv; cases hv
      · intro i; rfl
    | some b =>
      have hb := hB b rfl
      refine ⟨⟨q.tpRank, q.tpSize, k, ⟨[k, inF], W.get⟩, some ⟨[k], b.get⟩⟩, trivial, ?_, rfl, rfl, rfl, ?_, ?_, ?_⟩
      · simp [Col.load, shardLoad, loadBias, h1, hW, hko, hb]
      · intro i j; simp [hr0]
      · intro v hv; cases hv; rfl
      · intro i; simp [biasAt, hr0]
  · have hn := narrow_ok (t := W) (d := 0) (s := q.tpRank * k) (n := k) (by simp [hW]) (by simpa [hW] using hle)
    cases B with
    | none =>
      refine ⟨⟨q.tpRank, q.tpSize, k, ⟨[k, inF], fun ix => W.get (ix.set 0 (ix.getD 0 0 + q.tpRank * k))⟩, none⟩,
        trivial, ?_, rfl, rfl, rfl, ?_, ?_, ?_⟩
      · simp only [Col.load, shardLoad, loadBias, h1, if_false, hn]
        simp [hW]
      · intro i j; simp [Nat.add_comm]
      · intro v hv; cases hv
      · intro i; rfl
    | some b =>
      have hb := hB b rfl
      have hn' := narrow_ok (t := b) (d := 0) (s := q.tpRank * k) (n := k) (by simp [hb]) (by simpa [hb] using hle)
      refine ⟨⟨q.tpRank, q.tpSize, k, ⟨[k, inF], fun ix => W.get (ix.set 0 (ix.getD 0 0 + q.tpRank * k))⟩,
        some ⟨[k], fun ix => b.get (ix.set 0 (ix.getD 0 0 + q.tpRank * k))⟩⟩,
        trivial, ?_, rfl, rfl, rfl, ?_, ?_, ?_⟩
      · simp only [Col.load, shardLoad, loadBias, h1, if_false, hn, hn', Option.isSome_some, if_true]
        simp [hW, hb]
      · intro i j; simp [Nat.add_comm]
      · intro v hv; cases hv; rfl
      · intro i; simp [biasAt, Nat.add_comm]

theorem row_loaded [Zero α] {q : PState} {inF outF : Nat} {W : Tn α} {B : Option (Tn α)} (junk : List Nat → α)
    (hpos : 0 < q.tpSize) (hr : q.tpRank < q.tpSize) (hd : q.tpSize ∣ inF)
    (hW : W.shape = [outF, inF]) (hB : ∀ v ∈ B, v.shape = [outF]) :
    ∃ l0 l, Row.new q inF outF B.isSome junk = some l0 ∧ Row.load l0 W B = some l ∧
      l.tpSize = q.tpSize ∧ RowShard l q.tpRank (inF / q.tpSize) outF W B := by
  obtain ⟨k, hk⟩ := hd
  have hper : inF / q.tpSize = k := by rw [hk]; exact Nat.mul_div_cancel_left k hpos
  have hmod : inF % q.tpSize = 0 := by rw [hk]; exact Nat.mul_mod_right _ _
  have hle : q.tpRank * k + k ≤ inF := by
    rw [hk]
    calc q.tpRank * k + k = (q.tpRank + 1) * k := by ring
      _ ≤ q.tpSize * k := Nat.mul_le_mul_right _ hr
  have hlb : ∀ l : Lin α, l.bias = (if B.isSome then some (⟨[outF], junk⟩ : Tn α) else none) →
      loadBias l none B = some B := by
    intro l hl
    unfold loadBias
    rw [hl]
    cases B with
    | none => rfl
    | some b =>
      have hb := hB b rfl
      simp only [Option.isSome_some, if_true, shardLoad, hb]
      cases b with
      | mk sh g => cases hb; rfl
  refine ⟨⟨q.tpRank, q.tpSize, k, ⟨[outF, k], junk⟩, if B.isSome then some ⟨[outF], junk⟩ else none⟩, ?_⟩
  unfold Row.new
  simp only [hmod, ne_eq, not_true_eq_false, if_false, hper]
  by_cases h1 : q.tpSize = 1
  · have hr0 : q.tpRank = 0 := by omega
    have hko : k = inF := by rw [hk, h1, Nat.one_mul]
    refine ⟨⟨q.tpRank, q.tpSize, k, ⟨[outF, k], W.get⟩, B⟩, trivial, ?_, rfl, rfl, rfl, ?_, ?_, ?_⟩
    · unfold Row.load
      rw [hlb _ rfl]
      simp [shardLoad, h1, hW, hko]
    · intro i j; simp [hr0]
    · intro v hv; exact hB v hv
    · intro i; rfl
  · have hn := narrow_ok (t := W) (d := 1) (s := q.tpRank * k) (n := k) (by simp [hW]) (by simpa [hW] using hle)
    refine ⟨⟨q.tpRank, q.tpSize, k, ⟨[outF, k], fun ix => W.get (ix.set 1 (ix.getD 1 0 + q.tpRank * k))⟩, B⟩,
        trivial, ?_, rfl, rfl, rfl, ?_, ?_, ?_⟩
    · unfold Row.load
      rw [hlb _ rfl]
      simp only [shardLoad, h1, if_false, hn]
      simp [hW]
    · intro i j; simp [Nat.add_comm]
    · intro v hv; exact hB v hv
    · intro i; rfl

/-- `F.linear` on well-shaped operands. -/
theorem flinear_ok [CommRing α] {x w : Tn α} {b : Option (Tn α)} {n k o : Nat}
    (hx : x.shape = [n, k]) (hw : w.shape = [o, k]) (hb : ∀ v ∈ b, v.shape = [o]) :
    ∃ y, flinear x w b = some y ∧ y.shape = [n, o] ∧
      ∀ i j, y.get [i, j] = (∑ t ∈ Finset.range k, x.get [i, t] * w.get [j, t]) + biasAt b j := by
  unfold flinear
  rw [hx, hw]
  simp only [true_and]
  rw [if_pos hb]
  refine ⟨_, rfl, rfl, fun i j => ?_⟩
  cases b <;> rfl

theorem catGet_uniform [Inhabited α] {w : Nat} (hw : 0 < w) :
    ∀ (ts : List (Tn α)) (i j : Nat), (∀ t ∈ ts, t.shape.getD 1 0 = w) →
      ∀ t, ts[j / w]? = some t → catGet ts i j = t.get [i, j % w]
  | [], i, j, _, t, h => by simp at h
  | u :: us, i, j, hall, t, h => by
    have hu := hall u List.mem_cons_self
    unfold catGet
    rw [hu]
    by_cases hj : j < w
    · rw [if_pos hj, Nat.mod_eq_of_lt hj]
      rw [Nat.div_eq_of_lt hj] at h
      simp only [List.getElem?_cons_zero, Option.some.injEq] at h
      rw [h]
    · rw [if_neg hj]
      have hjw : w ≤ j := by omega
      have hdiv : j / w = (j - w) / w + 1 := by
        conv_lhs => rw [show j = (j - w) + w by omega]
        exact Nat.add_div_right _ hw
      rw [hdiv, List.getElem?_cons_succ] at h
      rw [catGet_uniform hw us i (j - w) (fun v hv => hall v (List.mem_cons_of_mem _ hv)) t h]
      rw [← Nat.mod_eq_sub_mod hjw]

theorem catLast_ok [Inhabited α] {t : Tn α} {ts : List (Tn α)} {n w : Nat}
    (hall : ∀ u ∈ t :: ts, u.shape = [n, w]) (hw : 0 < w) :
    ∃ y, catLast (t :: ts) = some y ∧ y.shape = [n, (ts.length + 1) * w] ∧
      ∀ i j u, (t :: ts)[j / w]? = some u → y.get [i, j] = u.get [i, j % w] := by
  have hn : t.shape.getD 0 0 = n := by rw [hall t List.mem_cons_self]; rfl
  have hcond : ∀ u ∈ t :: ts, u.shape = [t.shape.getD 0 0, u.shape.getD 1 0] := by
    intro u hu
    rw [hn, hall u hu]; rfl
  unfold catLast
  simp only
  rw [if_pos hcond, hn]
  refine ⟨_, rfl, ?_, fun i j u hu => ?_⟩
  · have : (t :: ts).map (fun u => u.shape.getD 1 0) = List.replicate (ts.length + 1) w := by
      apply List.eq_replicate_iff.2
      refine ⟨by simp, ?_⟩
      intro x hx
      obtain ⟨u, hu, rfl⟩ := List.mem_map.1 hx
      rw [hall u hu]; rfl
    show [n, ((t :: ts).map (fun u => u.shape.getD 1 0)).sum] = _
    rw [this, List.sum_replicate]
    rfl
  · exact catGet_uniform hw (t :: ts) i j (fun v hv => by rw [hall v hv]; rfl) u hu

theorem sumOver_ok [AddCommMonoid α] {g : List Nat} {f : Nat → Option (Tn α)} {h : Nat → Tn α} {sh : List Nat}
    (hg : g ≠ []) (hf : ∀ s ∈ g, f s = some (h s)) (hs : ∀ s ∈ g, (h s).shape = sh) :
    ∃ y, sumOver g f = some y ∧ y.shape = sh ∧ ∀ ix, y.get ix = (g.map (fun s => (h s).get ix)).sum := by
  unfold sumOver
  rw [mapM_all hf]
  cases g with
  | nil => exact absurd rfl hg
  | cons a g =>
    simp only [Option.bind_eq_bind, Option.bind_some, List.map_cons]
    have ha := hs a List.mem_cons_self
    rw [if_pos (by
      intro u hu
      obtain ⟨s, hs', rfl⟩ := List.mem_map.1 hu
      rw [ha, hs s (List.mem_cons_of_mem _ hs')])]
    refine ⟨_, rfl, ha, fun ix => ?_⟩
    simp [List.map_map, Function.comp_def]

end Verif.Shard
