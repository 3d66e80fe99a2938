import Verif.Shard.Tp
/-!
C137: tensor-parallel layers compute what the unsharded layer computes.
-/
namespace Verif.Shard
open Verif.Tensor
variable {α : Type}

/-- Specification: `y` is `x Wᵀ + b` for `x : [n, k]`, `W : [o, k]`, `b : [o]` (or none). -/
def IsDense [CommRing α] (n k o : Nat) (x W : Tn α) (b : Option (Tn α)) (y : Tn α) : Prop :=
  y.shape = [n, o] ∧ ∀ i, i < n → ∀ j, j < o →
    y.get [i, j] = (∑ t ∈ Finset.range k, x.get [i, t] * W.get [j, t]) + biasAt b j

/-- Every rank built a `ColumnParallelLinear(inF, outF)` and loaded the same full checkpoint tensors. -/
def ColLoaded (world : Nat) (p : Nat → PState) (inF outF : Nat) (W : Tn α) (B : Option (Tn α))
    (l : Nat → Lin α) : Prop :=
  ∀ r, r < world → ∃ junk l0, Col.new (p r) inF outF B.isSome junk = some l0 ∧
    Col.load l0 W B = some (l r)

/-- Every rank built a `RowParallelLinear(inF, outF)` and loaded the same full checkpoint tensors. -/
def RowLoaded (world : Nat) (p : Nat → PState) (inF outF : Nat) (W : Tn α) (B : Option (Tn α))
    (l : Nat → Lin α) : Prop :=
  ∀ r, r < world → ∃ junk l0, Row.new (p r) inF outF B.isSome junk = some l0 ∧
    Row.load l0 W B = some (l r)

/-- The ranks of one tensor-parallel group agree on `v`. -/
def Replicated {β : Type} (world : Nat) (p : Nat → PState) (v : Nat → β) : Prop :=
  ∀ r, r < world → ∀ g, (p r).tpGroup = some g → ∀ s ∈ g, v s = v r

section Aux
variable {world tp dp pp : Nat} {p : Nat → PState} {calls : Nat → List (List Nat)}

theorem boot_tp (hb : Boot world tp dp pp p calls) {r : Nat} (hr : r < world) :
    0 < tp ∧ (p r).tpSize = tp ∧ (p r).tpRank = r % tp ∧
    (p r).tpGroup = (if 1 < tp then some (List.range' (r / tp * tp) tp) else none) := by
  obtain ⟨h1, h2, _⟩ := boot_state hb hr
  refine ⟨?_, by rw [h2]; rfl, by rw [h2]; rfl, by rw [h2]; rfl⟩
  rcases Nat.eq_zero_or_pos tp with h | h
  · rw [h, Nat.zero_mul, Nat.zero_mul] at h1; omega
  · exact h

theorem boot_group (hb : Boot world tp dp pp p calls) {r k : Nat} (hr : r < world) (hk : k < tp) :
    r / tp * tp + k < world ∧ (r / tp * tp + k) % tp = k ∧ (r / tp * tp + k) / tp = r / tp := by
  obtain ⟨h1, _, _⟩ := boot_state hb hr
  have htp : 0 < tp := by omega
  refine ⟨?_, ?_, ?_⟩
  · have hd : tp ∣ world := ⟨dp * pp, by rw [← h1, Nat.mul_assoc]⟩
    have : r / tp < world / tp := by
      rw [Nat.div_lt_iff_lt_mul htp, Nat.div_mul_cancel hd]; exact hr
    have h2 : (r / tp + 1) * tp ≤ world / tp * tp := Nat.mul_le_mul_right _ this
    rw [Nat.div_mul_cancel hd, Nat.add_mul] at h2
    omega
  · rw [Nat.mul_comm, Nat.mul_add_mod]; exact Nat.mod_eq_of_lt hk
  · rw [Nat.mul_comm, Nat.mul_add_div htp, Nat.div_eq_of_lt hk, Nat.add_zero]

theorem colLoaded_shard [Zero α] (hb : Boot world tp dp pp p calls) {inF outF : Nat} {W : Tn α}
    {B : Option (Tn α)} {l : Nat → Lin α} (hd : tp ∣ outF) (hW : W.shape = [outF, inF])
    (hB : ∀ v ∈ B, v.shape = [outF]) (hl : ColLoaded world p inF outF W B l) {r : Nat} (hr : r < world) :
    (l r).tpSize = tp ∧ ColShard (l r) (r % tp) (outF / tp) inF W B := by
  obtain ⟨htp, e1, e2, _⟩ := boot_tp hb hr
  obtain ⟨junk, l0, h1, h2⟩ := hl r hr
  obtain ⟨a0, a, g1, g2, g3, g4⟩ := col_loaded (q := p r) (inF := inF) (outF := outF) (W := W) (B := B) junk
    (by rw [e1]; exact htp) (by rw [e1, e2]; exact Nat.mod_lt _ htp) (by rw [e1]; exact hd) hW hB
  rw [h1] at g1
  cases g1
  rw [h2] at g2
  cases g2
  rw [e1, e2] at g4
  exact ⟨by rw [g3, e1], g4⟩

theorem rowLoaded_shard [Zero α] (hb : Boot world tp dp pp p calls) {inF outF : Nat} {W : Tn α}
    {B : Option (Tn α)} {l : Nat → Lin α} (hd : tp ∣ inF) (hW : W.shape = [outF, inF])
    (hB : ∀ v ∈ B, v.shape = [outF]) (hl : RowLoaded world p inF outF W B l) {r : Nat} (hr : r < world) :
    (l r).tpSize = tp ∧ RowShard (l r) (r % tp) (inF / tp) outF W B := by
  obtain ⟨htp, e1, e2, _⟩ := boot_tp hb hr
  obtain ⟨junk, l0, h1, h2⟩ := hl r hr
  obtain ⟨a0, a, g1, g2, g3, g4⟩ := row_loaded (q := p r) (inF := inF) (outF := outF) (W := W) (B := B) junk
    (by rw [e1]; exact htp) (by rw [e1, e2]; exact Nat.mod_lt _ htp) (by rw [e1]; exact hd) hW hB
  rw [h1] at g1
  cases g1
  rw [h2] at g2
  cases g2
  rw [e1, e2] at g4
  exact ⟨by rw [g3, e1], g4⟩

end Aux

section Theorems
variable {world tp dp pp : Nat} {p : Nat → PState} {calls : Nat → List (List Nat)}

/-- **C137** (loading).  Whenever the sharded dimension divides, every rank of every booted world builds
the layer and accepts the full checkpoint tensors. -/
theorem C137_loads [Zero α] (hb : Boot world tp dp pp p calls) {inF outF : Nat} {W : Tn α}
    {B : Option (Tn α)} (hW : W.shape = [outF, inF]) (hB : ∀ v ∈ B, v.shape = [outF]) :
    (tp ∣ outF → ∃ l, ColLoaded world p inF outF W B l) ∧
    (tp ∣ inF → ∃ l, RowLoaded world p inF outF W B l) := by
  constructor
  · intro hd
    have : ∀ r, ∃ l : Lin α, r < world → ∃ junk l0, Col.new (p r) inF outF B.isSome junk = some l0 ∧
        Col.load l0 W B = some l := by
      intro r
      by_cases hr : r < world
      · obtain ⟨htp, e1, e2, _⟩ := boot_tp hb hr
        obtain ⟨a0, a, g1, g2, _⟩ := col_loaded (q := p r) (inF := inF) (outF := outF) (W := W) (B := B)
          (fun _ => 0) (by rw [e1]; exact htp) (by rw [e1, e2]; exact Nat.mod_lt _ htp)
          (by rw [e1]; exact hd) hW hB
        exact ⟨a, fun _ => ⟨_, _, g1, g2⟩⟩
      · exact ⟨⟨0, 0, 0, ⟨[], fun _ => 0⟩, none⟩, fun h => absurd h hr⟩
    exact ⟨fun r => (this r).choose, fun r hr => (this r).choose_spec hr⟩
  · intro hd
    have : ∀ r, ∃ l : Lin α, r < world → ∃ junk l0, Row.new (p r) inF outF B.isSome junk = some l0 ∧
        Row.load l0 W B = some l := by
      intro r
      by_cases hr : r < world
      · obtain ⟨htp, e1, e2, _⟩ := boot_tp hb hr
        obtain ⟨a0, a, g1, g2, _⟩ := row_loaded (q := p r) (inF := inF) (outF := outF) (W := W) (B := B)
          (fun _ => 0) (by rw [e1]; exact htp) (by rw [e1, e2]; exact Nat.mod_lt _ htp)
          (by rw [e1]; exact hd) hW hB
        exact ⟨a, fun _ => ⟨_, _, g1, g2⟩⟩
      · exact ⟨⟨0, 0, 0, ⟨[], fun _ => 0⟩, none⟩, fun h => absurd h hr⟩
    exact ⟨fun r => (this r).choose, fun r hr => (this r).choose_spec hr⟩

/-- **C137** (column-parallel, ungathered).  Rank `r` holds outputs
`[tpRank·outF/tp, (tpRank+1)·outF/tp)` of the unsharded layer. -/
theorem C137_column_shard [CommRing α] [Inhabited α] (hb : Boot world tp dp pp p calls) {n inF outF : Nat}
    {W : Tn α} {B : Option (Tn α)} {l : Nat → Lin α} (hd : tp ∣ outF) (hW : W.shape = [outF, inF])
    (hB : ∀ v ∈ B, v.shape = [outF]) (hl : ColLoaded world p inF outF W B l) {x : Nat → Tn α}
    {r : Nat} (hr : r < world) (hx : (x r).shape = [n, inF]) :
    ∃ y, Col.forward p false l x r = some y ∧ y.shape = [n, outF / tp] ∧
      ∀ i j, y.get [i, j] = (∑ t ∈ Finset.range inF, (x r).get [i, t] * W.get [(p r).tpRank * (outF / tp) + j, t])
        + biasAt B ((p r).tpRank * (outF / tp) + j) := by
  obtain ⟨h1, h2⟩ := colLoaded_shard hb hd hW hB hl hr
  obtain ⟨y, hy, hs, hg⟩ := flinear_ok hx h2.wShape h2.bShape
  refine ⟨y, ?_, hs, fun i j => ?_⟩
  · unfold Col.forward; simpa using hy
  · rw [hg i j, h2.bGet, (boot_tp hb hr).2.2.1]
    simp only [h2.wGet]

/-- **C137** (column-parallel, gathered).  For every number of ranks dividing `outF`, when the ranks of
a TP group feed the same input every rank ends up with exactly the unsharded layer's output. -/
theorem C137_column [CommRing α] [Inhabited α] (hb : Boot world tp dp pp p calls) {inF outF : Nat} {n : Nat → Nat}
    {W : Tn α} {B : Option (Tn α)} {l : Nat → Lin α} (hd : tp ∣ outF) (ho : 0 < outF)
    (hW : W.shape = [outF, inF]) (hB : ∀ v ∈ B, v.shape = [outF])
    (hl : ColLoaded world p inF outF W B l) {x : Nat → Tn α}
    (hx : ∀ r, r < world → (x r).shape = [n r, inF]) (hrep : Replicated world p x)
    {r : Nat} (hr : r < world) :
    ∃ y, Col.forward p true l x r = some y ∧ IsDense (n r) inF outF (x r) W B y := by
  obtain ⟨htp, e1, e2, e3⟩ := boot_tp hb hr
  obtain ⟨k, rfl⟩ := hd
  have hper : tp * k / tp = k := Nat.mul_div_cancel_left k htp
  have hk : 0 < k := Nat.pos_of_mul_pos_left ho
  obtain ⟨h1, h2⟩ := colLoaded_shard hb (Dvd.intro k rfl) hW hB hl hr
  by_cases ht : 1 < tp
  · -- every rank of the group contributes its block
    rw [if_pos ht] at e3
    have hblk : ∀ c, ∃ y, c < tp → flinear (x (r / tp * tp + c)) (l (r / tp * tp + c)).weight
        (l (r / tp * tp + c)).bias = some y ∧ y.shape = [n r, k] ∧
        ∀ i j, y.get [i, j] = (∑ t ∈ Finset.range inF, (x r).get [i, t] * W.get [c * k + j, t])
          + biasAt B (c * k + j) := by
      intro c
      by_cases hc : c < tp
      · obtain ⟨b1, b2, b3⟩ := boot_group hb hr hc
        obtain ⟨g1, g2⟩ := colLoaded_shard hb (Dvd.intro k rfl) hW hB hl b1
        have hxc : x (r / tp * tp + c) = x r := hrep r hr _ e3 _ (by rw [List.mem_range'_1]; omega)
        rw [hper, b2] at g2
        obtain ⟨y, hy, hs, hg⟩ := flinear_ok (x := x (r / tp * tp + c)) (n := n r)
          (by rw [hxc]; exact hx r hr) g2.wShape g2.bShape
        refine ⟨y, fun _ => ⟨hy, hs, fun i j => ?_⟩⟩
        rw [hg, g2.bGet, hxc]
        simp only [g2.wGet]
      · exact ⟨⟨[], fun _ => 0⟩, fun h => absurd h hc⟩
    choose Y hY using hblk
    have hmap : (List.range' (r / tp * tp) tp).mapM
        (fun s => flinear (x s) (l s).weight (l s).bias)
        = some ((List.range' (r / tp * tp) tp).map (fun s => Y (s - r / tp * tp))) := by
      apply mapM_all
      intro s hs
      rw [List.mem_range'_1] at hs
      have := (hY (s - r / tp * tp) (by omega)).1
      rwa [show r / tp * tp + (s - r / tp * tp) = s by omega] at this
    have hlist : (List.range' (r / tp * tp) tp).map (fun s => Y (s - r / tp * tp))
        = (List.range tp).map Y := by
      apply List.ext_getElem
      · simp
      · intro i a b
        simp
    have hown : flinear (x r) (l r).weight (l r).bias = some (Y (r % tp)) := by
      have := (hY (r % tp) (Nat.mod_lt _ htp)).1
      rwa [Nat.div_add_mod'] at this
    obtain ⟨m, hm⟩ : ∃ m, tp = m + 1 := ⟨tp - 1, by omega⟩
    have hsplit : (List.range tp).map Y = Y 0 :: ((List.range m).map (fun i => Y (i + 1))) := by
      rw [hm, List.range_succ_eq_map]; simp [Function.comp_def]
    have hshape : ∀ u ∈ (List.range tp).map Y, u.shape = [n r, k] := by
      intro u hu
      obtain ⟨c, hc, rfl⟩ := List.mem_map.1 hu
      exact (hY c (by simpa using hc)).2.1
    obtain ⟨y, hy, hys, hyg⟩ := catLast_ok (t := Y 0) (ts := (List.range m).map (fun i => Y (i + 1)))
      (n := n r) (w := k) (by rw [← hsplit]; exact hshape) hk
    refine ⟨y, ?_, ?_, ?_⟩
    · unfold Col.forward allGather
      rw [if_pos ⟨rfl, by rw [h1]; exact ht⟩, e3]
      simp only
      rw [hmap, hlist, hown]
      simp only [Option.bind_eq_bind, Option.bind_some]
      rw [if_pos (by
        intro u hu
        rw [hshape u hu, (hY _ (Nat.mod_lt _ htp)).2.1]), hsplit]
      exact hy
    · rw [hys]; simp [hm]
    · intro i _ j hj
      have hjk : j / k < tp := by
        rw [Nat.div_lt_iff_lt_mul hk]; exact hj
      rw [hyg i j (Y (j / k)) (by rw [← hsplit]; simp [hjk]), (hY _ hjk).2.2 i (j % k),
        Nat.div_add_mod']
  · have ht1 : tp = 1 := by omega
    obtain ⟨y, hy, hs, hg⟩ := flinear_ok (hx r hr) h2.wShape h2.bShape
    refine ⟨y, ?_, ?_, ?_⟩
    · unfold Col.forward
      rw [if_neg (by rw [h1]; omega)]
      exact hy
    · rw [hs, hper, ht1, Nat.one_mul]
    · intro i _ j _
      rw [hg, h2.bGet]
      simp only [h2.wGet, ht1, Nat.mod_one, Nat.zero_mul, Nat.zero_add]

/-- **C137** (row-parallel).  When rank `s` of a TP group feeds columns
`[tpRank·inF/tp, (tpRank+1)·inF/tp)` of a common input `X`, every rank ends up with exactly the
unsharded layer's output on `X`; in particular the bias is added once. -/
theorem C137_row [CommRing α] (hb : Boot world tp dp pp p calls) {inF outF : Nat} {n : Nat → Nat}
    {W : Tn α} {B : Option (Tn α)} {l : Nat → Lin α} (hd : tp ∣ inF)
    (hW : W.shape = [outF, inF]) (hB : ∀ v ∈ B, v.shape = [outF])
    (hl : RowLoaded world p inF outF W B l) {X : Nat → Tn α} {x : Nat → Option (Tn α)}
    (hn : Replicated world p n) (hrep : Replicated world p X)
    (hx : ∀ s, s < world → ∃ t, x s = some t ∧ t.shape = [n s, inF / tp] ∧
      ∀ i, i < n s → ∀ j, j < inF / tp → t.get [i, j] = (X s).get [i, (p s).tpRank * (inF / tp) + j])
    {r : Nat} (hr : r < world) :
    ∃ y, Row.forward p true l x r = some y ∧ IsDense (n r) inF outF (X r) W B y := by
  obtain ⟨htp, e1, e2, e3⟩ := boot_tp hb hr
  obtain ⟨k, rfl⟩ := hd
  have hper : tp * k / tp = k := Nat.mul_div_cancel_left k htp
  rw [hper] at hx
  obtain ⟨h1, h2⟩ := rowLoaded_shard hb (Dvd.intro k rfl) hW hB hl hr
  rw [hper] at h2
  -- the reduced product
  have hred : ∃ y, Row.product p true l x r = some y ∧ y.shape = [n r, outF] ∧
      ∀ i, i < n r → ∀ j, y.get [i, j] = ∑ t ∈ Finset.range (tp * k), (X r).get [i, t] * W.get [j, t] := by
    by_cases ht : 1 < tp
    · rw [if_pos ht] at e3
      have hblk : ∀ c, ∃ y : Tn α, c < tp → (x (r / tp * tp + c)).bind
          (fun t => flinear t (l (r / tp * tp + c)).weight none) = some y ∧ y.shape = [n r, outF] ∧
          ∀ i, i < n r → ∀ j, y.get [i, j] = ∑ t ∈ Finset.range k, (X r).get [i, c * k + t] * W.get [j, c * k + t] := by
        intro c
        by_cases hc : c < tp
        · obtain ⟨b1, b2, b3⟩ := boot_group hb hr hc
          have hmem : r / tp * tp + c ∈ List.range' (r / tp * tp) tp := by
            rw [List.mem_range'_1]; omega
          have hXc := hrep r hr _ e3 _ hmem
          have hnc := hn r hr _ e3 _ hmem
          obtain ⟨g1, g2⟩ := rowLoaded_shard hb (Dvd.intro k rfl) hW hB hl b1
          rw [hper, b2] at g2
          obtain ⟨t, ht1, ht2, ht3⟩ := hx _ b1
          rw [hnc] at ht2 ht3
          rw [(boot_tp hb b1).2.2.1, b2, hXc] at ht3
          obtain ⟨y, hy, hs, hg⟩ := flinear_ok (b := none) ht2 g2.wShape (by intro v hv; cases hv)
          refine ⟨y, fun _ => ⟨by rw [ht1]; exact hy, hs, fun i hi j => ?_⟩⟩
          rw [hg]
          simp only [biasAt, add_zero, g2.wGet]
          exact Finset.sum_congr rfl (fun u hu => by rw [ht3 i hi u (Finset.mem_range.1 hu)])
        · exact ⟨⟨[], fun _ => 0⟩, fun h => absurd h hc⟩
      choose Y hY using hblk
      obtain ⟨y, hy, hys, hyg⟩ := sumOver_ok (g := List.range' (r / tp * tp) tp)
        (f := fun s => (x s).bind (fun t => flinear t (l s).weight none))
        (h := fun s => Y (s - r / tp * tp)) (sh := [n r, outF])
        (by simp; omega)
        (by
          intro s hs
          rw [List.mem_range'_1] at hs
          have := (hY (s - r / tp * tp) (by omega)).1
          rwa [show r / tp * tp + (s - r / tp * tp) = s by omega] at this)
        (by
          intro s hs
          rw [List.mem_range'_1] at hs
          exact (hY (s - r / tp * tp) (by omega)).2.1)
      refine ⟨y, ?_, hys, fun i hi j => ?_⟩
      · unfold Row.product
        rw [if_pos ⟨rfl, by rw [h1]; exact ht⟩]
        unfold allReduce
        rw [e3]
        exact hy
      · rw [hyg, sum_map_range' (fun s => (Y (s - r / tp * tp)).get [i, j]), ← sum_blocks]
        refine Finset.sum_congr rfl (fun c hc => ?_)
        rw [Nat.add_sub_cancel_left]
        exact (hY c (Finset.mem_range.1 hc)).2.2 i hi j
    · have ht1 : tp = 1 := by omega
      obtain ⟨t, ht2, ht3, ht4⟩ := hx r hr
      obtain ⟨y, hy, hs, hg⟩ := flinear_ok (b := none) ht3 h2.wShape (by intro v hv; cases hv)
      refine ⟨y, ?_, hs, fun i hi j => ?_⟩
      · unfold Row.product
        rw [if_neg (by rw [h1]; omega), ht2]
        exact hy
      · rw [hg]
        simp only [biasAt, add_zero, h2.wGet]
        have hz : r % tp = 0 := by rw [ht1]; exact Nat.mod_one r
        rw [show tp * k = k by rw [ht1, Nat.one_mul]]
        refine Finset.sum_congr rfl (fun u hu => ?_)
        rw [ht4 i hi u (Finset.mem_range.1 hu), e2, hz, Nat.zero_mul, Nat.zero_add]
  obtain ⟨y, hy, hys, hyg⟩ := hred
  unfold Row.forward
  rw [hy]
  simp only [Option.bind_some]
  unfold addBias
  cases hbias : (l r).bias with
  | none =>
    have hb0 := h2.bGet
    rw [hbias] at hb0
    refine ⟨y, rfl, hys, fun i hi j hj => ?_⟩
    rw [hyg i hi j, ← hb0 j]
    simp [biasAt]
  | some v =>
    have hv := h2.bShape v (by rw [hbias]; rfl)
    have hb0 := h2.bGet
    rw [hbias] at hb0
    simp only [hys, hv, if_true]
    refine ⟨_, rfl, rfl, fun i hi j hj => ?_⟩
    show y.get [i, j] + v.get [j] = _
    rw [hyg i hi j, ← hb0 j]
    rfl

end Theorems
end Verif.Shard
