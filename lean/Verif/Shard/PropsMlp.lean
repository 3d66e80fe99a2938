import Verif.Shard.PropsTp
/-!
C137, continued: the tensor-parallel MLP and the vocabulary-parallel embedding; where sharding changes
what is accepted.
-/
namespace Verif.Shard
open Verif.Tensor
variable {α : Type}

/-- Entry `[i, j]` of `x Wᵀ + b`. -/
def denseAt [CommRing α] (x W : Tn α) (b : Option (Tn α)) (k i j : Nat) : α :=
  (∑ t ∈ Finset.range k, x.get [i, t] * W.get [j, t]) + biasAt b j

/-- Specification of the gated MLP: `down(act(gate x) * up x)`. -/
def IsMlp [CommRing α] (act : α → α) (n hidden inter : Nat) (x Wg Wu Wd : Tn α)
    (bg bu bd : Option (Tn α)) (y : Tn α) : Prop :=
  y.shape = [n, hidden] ∧ ∀ i, i < n → ∀ j, j < hidden →
    y.get [i, j] = (∑ t ∈ Finset.range inter,
      (act (denseAt x Wg bg hidden i t) * denseAt x Wu bu hidden i t) * Wd.get [j, t]) + biasAt bd j

section
variable {world tp dp pp : Nat} {p : Nat → PState} {calls : Nat → List (List Nat)}

/-- **C137** (MLP).  For every number of ranks dividing the intermediate size, and whatever the
activation function is, every rank of `ParallelMLP` ends up with exactly the unsharded gated MLP. -/
theorem C137_mlp [CommRing α] [Inhabited α] (hb : Boot world tp dp pp p calls) {hidden inter : Nat}
    {n : Nat → Nat} {act : α → α} {Wg Wu Wd : Tn α} {bg bu bd : Option (Tn α)}
    {gate up down : Nat → Lin α} (hd : tp ∣ inter) (hi : 0 < inter)
    (hWg : Wg.shape = [inter, hidden]) (hWu : Wu.shape = [inter, hidden]) (hWd : Wd.shape = [hidden, inter])
    (hbg : ∀ v ∈ bg, v.shape = [inter]) (hbu : ∀ v ∈ bu, v.shape = [inter]) (hbd : ∀ v ∈ bd, v.shape = [hidden])
    (hg : ColLoaded world p hidden inter Wg bg gate) (hu : ColLoaded world p hidden inter Wu bu up)
    (hdn : RowLoaded world p inter hidden Wd bd down) {x : Nat → Tn α}
    (hx : ∀ r, r < world → (x r).shape = [n r, hidden]) (hn : Replicated world p n)
    (hrep : Replicated world p x) {r : Nat} (hr : r < world) :
    ∃ y, Mlp.forward p act hidden gate up down x r = some y ∧
      IsMlp act (n r) hidden inter (x r) Wg Wu Wd bg bu bd y := by
  obtain ⟨htp, _⟩ := boot_tp hb hr
  have hk : 0 < inter / tp := Nat.div_pos (Nat.le_of_dvd hi hd) htp
  have := C137_row hb hd hWd hbd hdn (n := n)
    (X := fun s => ⟨[n s, inter], fun ix =>
      act (denseAt (x s) Wg bg hidden (ix.getD 0 0) (ix.getD 1 0)) *
        denseAt (x s) Wu bu hidden (ix.getD 0 0) (ix.getD 1 0)⟩)
    (x := Mlp.inner p act hidden gate up down x) hn
    (by
      intro r hr g hg s hs
      simp only [hrep r hr g hg s hs, hn r hr g hg s hs])
    (by
      intro s hs
      obtain ⟨a, ha1, ha2, ha3⟩ := C137_column_shard hb hd hWg hbg hg hs (hx s hs)
      obtain ⟨b, hb1, hb2, hb3⟩ := C137_column_shard hb hd hWu hbu hu hs (hx s hs)
      obtain ⟨gu, hc1, hc2, hc3⟩ := catLast_ok (t := a) (ts := [b]) (n := n s) (w := inter / tp)
        (by
          intro u hu
          rcases List.mem_cons.1 hu with rfl | hu
          · exact ha2
          · rw [List.mem_singleton.1 hu]; exact hb2) hk
      obtain ⟨d1, d2⟩ := rowLoaded_shard hb hd hWd hbd hdn hs
      unfold Mlp.inner
      rw [if_neg (by rw [hx s hs]; simp)]
      simp only [ha1, hb1, hc1, Option.bind_eq_bind, Option.bind_some]
      unfold actMul
      rw [hc2, d2.perEq]
      simp only [List.length_singleton]
      rw [if_neg (by simp)]
      refine ⟨_, rfl, rfl, fun i hi j hj => ?_⟩
      have e1 : gu.get [i, j] = a.get [i, j] := by
        rw [hc3 i j a (by rw [Nat.div_eq_of_lt hj]; rfl), Nat.mod_eq_of_lt hj]
      have e2 : gu.get [i, inter / tp + j] = b.get [i, j] := by
        rw [hc3 i (inter / tp + j) b (by
          rw [Nat.add_div_left _ hk, Nat.div_eq_of_lt hj]; rfl), Nat.add_mod_left, Nat.mod_eq_of_lt hj]
      show act (gu.get [i, j]) * gu.get [i, inter / tp + j] = _
      rw [e1, e2, ha3, hb3]
      rfl)
    hr
  obtain ⟨y, h1, h2, h3⟩ := this
  exact ⟨y, h1, h2, fun i hi j hj => h3 i hi j hj⟩

/-- Every rank built a `VocabParallelEmbedding(num, dim)` and loaded the full table. -/
def EmbLoaded (world : Nat) (p : Nat → PState) (num dim : Nat) (W : Tn α) (e : Nat → Emb α) : Prop :=
  ∀ r, r < world → ∃ junk e0, Emb.new (p r) num dim junk = some e0 ∧ Emb.load e0 W = some (e r)

theorem emb_shard {q : PState} {num dim : Nat} {W : Tn α} {junk : List Nat → α} {e0 e : Emb α}
    (hpos : 0 < q.tpSize) (hr : q.tpRank < q.tpSize) (hd : q.tpSize ∣ num) (hW : W.shape = [num, dim])
    (h0 : Emb.new q num dim junk = some e0) :
    ∃ e, Emb.load e0 W = some e ∧ e.tpSize = q.tpSize ∧ e.tpRank = q.tpRank ∧ e.per = num / q.tpSize ∧
      e.weight.shape = [num / q.tpSize, dim] ∧
      ∀ i j, e.weight.get [i, j] = W.get [q.tpRank * (num / q.tpSize) + i, j] := by
  obtain ⟨k, hk⟩ := hd
  have hper : num / q.tpSize = k := by rw [hk]; exact Nat.mul_div_cancel_left k hpos
  have hmod : num % q.tpSize = 0 := by rw [hk]; exact Nat.mul_mod_right _ _
  have hle : q.tpRank * k + k ≤ num := by
    rw [hk]
    calc q.tpRank * k + k = (q.tpRank + 1) * k := by ring
      _ ≤ q.tpSize * k := Nat.mul_le_mul_right _ hr
  unfold Emb.new at h0
  simp only [hmod, ne_eq, not_true_eq_false, if_false, hper, Option.some.injEq] at h0
  subst h0
  rw [hper]
  unfold Emb.load
  by_cases h1 : q.tpSize = 1
  · have hr0 : q.tpRank = 0 := by omega
    have hko : k = num := by rw [hk, h1, Nat.one_mul]
    simp only [h1, if_true, hW, hko]
    exact ⟨_, rfl, rfl, rfl, rfl, rfl, fun i j => by simp [hr0]⟩
  · have hn := narrow_ok (t := W) (d := 0) (s := q.tpRank * k) (n := k) (by simp [hW]) (by simpa [hW] using hle)
    simp only [h1, if_false, hn]
    simp only [hW, List.getD_cons_zero, ne_eq, not_true_eq_false, if_false, Option.bind_eq_bind,
      Option.bind_some, List.set_cons_zero, if_true]
    exact ⟨_, rfl, rfl, rfl, rfl, rfl, fun i j => by simp [Nat.add_comm]⟩

theorem embLoaded_shard (hb : Boot world tp dp pp p calls) {num dim : Nat} {W : Tn α} {e : Nat → Emb α}
    (hd : tp ∣ num) (hW : W.shape = [num, dim]) (he : EmbLoaded world p num dim W e) {r : Nat} (hr : r < world) :
    (e r).tpSize = tp ∧ (e r).tpRank = r % tp ∧ (e r).per = num / tp ∧
      (e r).weight.shape = [num / tp, dim] ∧
      ∀ i j, (e r).weight.get [i, j] = W.get [r % tp * (num / tp) + i, j] := by
  obtain ⟨htp, e1, e2, _⟩ := boot_tp hb hr
  obtain ⟨junk, e0, h1, h2⟩ := he r hr
  obtain ⟨a, g1, g2, g3, g4, g5, g6⟩ := emb_shard (q := p r) (W := W) (e := e0)
    (by rw [e1]; exact htp) (by rw [e1, e2]; exact Nat.mod_lt _ htp) (by rw [e1]; exact hd) hW h1
  rw [h2] at g1
  cases g1
  rw [e1] at g2 g4 g5 g6
  rw [e2] at g3 g6
  exact ⟨g2, g3, g4, g5, g6⟩

/-- What one rank contributes for ids of any kind (more than one rank). -/
theorem emb_local [AddCommMonoid α] {e : Emb α} {a per dim : Nat} {W : Tn α} (h1 : 1 < e.tpSize)
    (ha : e.tpRank = a) (hp : e.per = per) (hper : 0 < per) (hs : e.weight.shape = [per, dim])
    (hg : ∀ i j, e.weight.get [i, j] = W.get [a * per + i, j]) (ids : List Int) :
    ∃ y, e.local ids = some y ∧ y.shape = [ids.length, dim] ∧
      ∀ i j, i < ids.length → y.get [i, j] =
        if ((a * per : Nat) : Int) ≤ ids.getD i 0 ∧ ids.getD i 0 < ((a * per + per : Nat) : Int)
        then W.get [(ids.getD i 0).toNat, j] else 0 := by
  unfold Emb.local
  rw [if_pos h1]
  have hf : fembedding (ids.map e.masked) e.weight = some ⟨[(ids.map e.masked).length, dim],
      fun ix => e.weight.get [((ids.map e.masked).getD (ix.getD 0 0) 0).toNat, ix.getD 1 0]⟩ := by
    unfold fembedding
    rw [hs]
    simp only
    rw [if_pos]
    intro t ht
    obtain ⟨u, _, rfl⟩ := List.mem_map.1 ht
    unfold Emb.masked
    rw [ha, hp]
    split
    · omega
    · omega
  rw [hf]
  simp only [Option.bind_eq_bind, Option.bind_some]
  refine ⟨_, rfl, by simp, fun i j hi => ?_⟩
  simp only [List.getD_cons_zero, List.getD_cons_succ]
  unfold Emb.mine
  rw [ha, hp]
  have hm : (ids.map e.masked).getD i 0 = e.masked (ids.getD i 0) := by
    simp [List.getD, hi]
  by_cases hc : ((a * per : Nat) : Int) ≤ ids.getD i 0 ∧ ids.getD i 0 < ((a * per + per : Nat) : Int)
  · rw [if_pos hc, if_pos (by simpa using hc), hm, hg]
    unfold Emb.masked
    rw [ha, hp, if_pos hc]
    congr 2
    omega
  · rw [if_neg hc, if_neg (by simpa using hc)]

/-- The reduced embedding on any rank, for ids of any kind. -/
theorem emb_reduced [AddCommMonoid α] (hb : Boot world tp dp pp p calls) {num dim : Nat} {W : Tn α}
    {e : Nat → Emb α} (hd : tp ∣ num) (hnum : 0 < num) (hW : W.shape = [num, dim])
    (he : EmbLoaded world p num dim W e) {ids : Nat → List Int} (hrep : Replicated world p ids)
    {r : Nat} (hr : r < world) (ht : 1 < tp) :
    ∃ y, Emb.forward p e ids r = some y ∧ y.shape = [(ids r).length, dim] ∧
      ∀ i j, i < (ids r).length → y.get [i, j] =
        if 0 ≤ (ids r).getD i 0 ∧ (ids r).getD i 0 < (num : Int)
        then W.get [((ids r).getD i 0).toNat, j] else 0 := by
  obtain ⟨htp, e1, e2, e3⟩ := boot_tp hb hr
  rw [if_pos ht] at e3
  obtain ⟨k, rfl⟩ := hd
  have hper : tp * k / tp = k := Nat.mul_div_cancel_left k htp
  have hk : 0 < k := Nat.pos_of_mul_pos_left hnum
  have hblk : ∀ c, ∃ y : Tn α, c < tp → (e (r / tp * tp + c)).local (ids (r / tp * tp + c)) = some y ∧
      y.shape = [(ids r).length, dim] ∧
      ∀ i j, i < (ids r).length → y.get [i, j] =
        if ((c * k : Nat) : Int) ≤ (ids r).getD i 0 ∧ (ids r).getD i 0 < ((c * k + k : Nat) : Int)
        then W.get [((ids r).getD i 0).toNat, j] else 0 := by
    intro c
    by_cases hc : c < tp
    · obtain ⟨b1, b2, b3⟩ := boot_group hb hr hc
      obtain ⟨g1, g2, g3, g4, g5⟩ := embLoaded_shard hb (Dvd.intro k rfl) hW he b1
      rw [hper, b2] at g5
      rw [hper] at g3 g4
      rw [b2] at g2
      have hid : ids (r / tp * tp + c) = ids r := hrep r hr _ e3 _ (by rw [List.mem_range'_1]; omega)
      rw [hid]
      obtain ⟨y, hy⟩ := emb_local (W := W) (by rw [g1]; exact ht) g2 g3 hk g4 g5 (ids r)
      exact ⟨y, fun _ => hy⟩
    · exact ⟨⟨[], fun _ => 0⟩, fun h => absurd h hc⟩
  choose Y hY using hblk
  obtain ⟨y, hy, hys, hyg⟩ := sumOver_ok (g := List.range' (r / tp * tp) tp)
    (f := fun s => (e s).local (ids s))
    (h := fun s => Y (s - r / tp * tp)) (sh := [(ids r).length, dim])
    (by simp; omega)
    (by
      intro s hs
      rw [List.mem_range'_1] at hs
      have := (hY (s - r / tp * tp) (by omega)).1
      rwa [show r / tp * tp + (s - r / tp * tp) = s by omega] at this)
    (by
      intro s hs
      rw [List.mem_range'_1] at hs
      exact (hY (s - r / tp * tp) (by omega)).2.1)
  refine ⟨y, ?_, hys, fun i j hi => ?_⟩
  · unfold Emb.forward allReduce
    rw [if_pos (by rw [(embLoaded_shard hb (Dvd.intro k rfl) hW he hr).1]; exact ht), e3]
    exact hy
  · rw [hyg, sum_map_range' (fun s => (Y (s - r / tp * tp)).get [i, j])]
    obtain ⟨t, hte⟩ : ∃ t, t = (ids r).getD i 0 := ⟨_, rfl⟩
    rw [← hte]
    have hval : ∀ c ∈ Finset.range tp, (Y (r / tp * tp + c - r / tp * tp)).get [i, j] =
        if ((c * k : Nat) : Int) ≤ t ∧ t < ((c * k + k : Nat) : Int) then W.get [t.toNat, j] else 0 := by
      intro c hc
      rw [Nat.add_sub_cancel_left, (hY c (Finset.mem_range.1 hc)).2.2 i j hi, hte]
    rw [Finset.sum_congr rfl hval]
    by_cases hin : 0 ≤ t ∧ t < ((tp * k : Nat) : Int)
    · rw [if_pos hin]
      obtain ⟨m, rfl⟩ : ∃ m : Nat, t = (m : Int) := ⟨t.toNat, by omega⟩
      have hm : m < tp * k := by omega
      have hc : m / k < tp := by rw [Nat.div_lt_iff_lt_mul hk]; exact hm
      rw [Finset.sum_eq_single (m / k)]
      · rw [if_pos]
        have h1 := Nat.div_mul_le_self m k
        have h2 := Nat.lt_div_mul_add hk (a := m)
        omega
      · intro c _ hne
        rw [if_neg]
        rintro ⟨h1, h2⟩
        exact hne (Nat.div_eq_of_lt_le (by omega) (by rw [Nat.add_mul]; omega)).symm
      · intro h; exact absurd (Finset.mem_range.2 hc) h
    · rw [if_neg hin]
      refine Finset.sum_eq_zero (fun c hc => ?_)
      rw [if_neg]
      rintro ⟨h1, h2⟩
      have h3 : (c + 1) * k ≤ tp * k := Nat.mul_le_mul_right _ (Finset.mem_range.1 hc)
      rw [Nat.add_mul] at h3
      omega

/-- **C137** (embedding).  For every number of ranks dividing the vocabulary, every rank gets the table
row of each token id. -/
theorem C137_embedding [AddCommMonoid α] (hb : Boot world tp dp pp p calls) {num dim : Nat} {W : Tn α}
    {e : Nat → Emb α} (hd : tp ∣ num) (hnum : 0 < num) (hW : W.shape = [num, dim])
    (he : EmbLoaded world p num dim W e) {ids : Nat → List Int} (hrep : Replicated world p ids)
    {r : Nat} (hr : r < world) (hid : ∀ t ∈ ids r, 0 ≤ t ∧ t < (num : Int)) :
    ∃ y, Emb.forward p e ids r = some y ∧ y.shape = [(ids r).length, dim] ∧
      ∀ i j, i < (ids r).length → y.get [i, j] = W.get [((ids r).getD i 0).toNat, j] := by
  obtain ⟨htp, _⟩ := boot_tp hb hr
  have hmem : ∀ i, i < (ids r).length → (ids r).getD i 0 ∈ ids r := by
    intro i hi
    rw [List.getD_eq_getElem _ _ hi]; exact List.getElem_mem hi
  by_cases ht : 1 < tp
  · obtain ⟨y, h1, h2, h3⟩ := emb_reduced hb hd hnum hW he hrep hr ht
    refine ⟨y, h1, h2, fun i j hi => ?_⟩
    rw [h3 i j hi, if_pos (hid _ (hmem i hi))]
  · have ht1 : tp = 1 := by omega
    obtain ⟨g1, g2, g3, g4, g5⟩ := embLoaded_shard hb hd hW he hr
    rw [ht1, Nat.div_one] at g4 g5
    unfold Emb.forward Emb.local
    rw [if_neg (by omega), if_neg (by omega)]
    unfold fembedding
    rw [g4]
    simp only
    rw [if_pos hid]
    refine ⟨_, rfl, rfl, fun i j hi => ?_⟩
    simp only [List.getD_cons_zero, List.getD_cons_succ]
    rw [g5]
    simp [Nat.mod_one]

/-- **C137, violated** (bad token ids).  An id outside the vocabulary raises on one rank; with two or more
ranks it is silently embedded as the zero vector. -/
theorem C137_bad_token_violated [AddCommMonoid α] (hb : Boot world tp dp pp p calls) {num dim : Nat} {W : Tn α}
    {e : Nat → Emb α} (hd : tp ∣ num) (hnum : 0 < num) (hW : W.shape = [num, dim])
    (he : EmbLoaded world p num dim W e) {t : Int} (hbad : ¬ (0 ≤ t ∧ t < (num : Int))) {r : Nat} (hr : r < world) :
    (tp = 1 → Emb.forward p e (fun _ => [t]) r = none) ∧
    (1 < tp → ∃ y, Emb.forward p e (fun _ => [t]) r = some y ∧ y.shape = [1, dim] ∧ ∀ j, y.get [0, j] = 0) := by
  constructor
  · intro ht1
    obtain ⟨g1, g2, g3, g4, g5⟩ := embLoaded_shard hb hd hW he hr
    rw [ht1, Nat.div_one] at g4
    unfold Emb.forward Emb.local
    rw [if_neg (by omega), if_neg (by omega)]
    unfold fembedding
    rw [g4]
    simp only
    rw [if_neg (by simpa using hbad)]
  · intro ht
    obtain ⟨y, h1, h2, h3⟩ := emb_reduced hb hd hnum hW he (ids := fun _ => [t])
      (fun _ _ _ _ _ _ => rfl) hr ht
    refine ⟨y, h1, h2, fun j => ?_⟩
    rw [h3 0 j (by simp), if_neg (by simpa using hbad)]

end

/-- **C137, violated** (checkpoint too large).  With one rank a weight with the wrong number of output rows
is refused; with more ranks any weight with at least `outF` rows is accepted and the surplus dropped. -/
theorem C137_oversize_violated [Zero α] {q : PState} {inF outF m : Nat} {W : Tn α} (junk : List Nat → α)
    (hr : q.tpRank < q.tpSize) (hd : q.tpSize ∣ outF) (hW : W.shape = [m, inF]) (hm : outF < m) :
    ∃ l0, Col.new q inF outF false junk = some l0 ∧
      (q.tpSize = 1 → Col.load l0 W none = none) ∧
      (1 < q.tpSize → ∃ l, Col.load l0 W none = some l) := by
  obtain ⟨k, hk⟩ := hd
  have hpos : 0 < q.tpSize := by omega
  have hper : outF / q.tpSize = k := by rw [hk]; exact Nat.mul_div_cancel_left k hpos
  have hmod : outF % q.tpSize = 0 := by rw [hk]; exact Nat.mul_mod_right _ _
  have hle : q.tpRank * k + k ≤ outF := by
    rw [hk]
    calc q.tpRank * k + k = (q.tpRank + 1) * k := by ring
      _ ≤ q.tpSize * k := Nat.mul_le_mul_right _ hr
  refine ⟨⟨q.tpRank, q.tpSize, k, ⟨[k, inF], junk⟩, none⟩, ?_, ?_, ?_⟩
  · simp [Col.new, hmod, hper]
  · intro h1
    have hko : k = outF := by rw [hk, h1, Nat.one_mul]
    have : k ≠ m := by omega
    simp [Col.load, shardLoad, h1, hW, this]
  · intro h1
    have hn := narrow_ok (t := W) (d := 0) (s := q.tpRank * k) (n := k) (by simp [hW])
      (by rw [hW]; simp only [List.getD_cons_zero]; omega)
    have hne : ¬ q.tpSize = 1 := by omega
    simp only [Col.load, shardLoad, hne, if_false, hn, loadBias]
    simp [hW]

/-- **C137, violated** (no process group).  A process that asked for `tp > 1` without torch.distributed
builds a one-`tp`-th layer; `gather_output=True` then returns `outF/tp` outputs instead of `outF`. -/
theorem C137_no_dist_violated [CommRing α] [Inhabited α] {tp inF outF n : Nat} {W : Tn α} {x : Nat → Tn α}
    {q : PState} {c : List (List Nat)} (hq : initPar none tp 1 1 {} = some (q, c))
    (ht : 1 < tp) (hd : tp ∣ outF) (ho : 0 < outF) (hW : W.shape = [outF, inF]) (hx : (x 0).shape = [n, inF])
    (junk : List Nat → α) :
    ∃ l0 l y, Col.new q inF outF false junk = some l0 ∧ Col.load l0 W none = some l ∧
      Col.forward (fun _ => q) true (fun _ => l) x 0 = some y ∧ y.shape = [n, outF / tp] ∧
      y.shape ≠ [n, outF] := by
  cases hq
  obtain ⟨l0, l, h1, h2, h3, h4⟩ := col_loaded (q := { tpSize := tp }) (inF := inF) (outF := outF) (W := W)
    (B := none) junk (by show 0 < tp; omega) (by show 0 < tp; omega) hd hW (by intro v hv; cases hv)
  obtain ⟨y, hy, hs, hg⟩ := flinear_ok hx h4.wShape h4.bShape
  refine ⟨l0, l, y, h1, h2, ?_, hs, ?_⟩
  · unfold Col.forward allGather
    rw [if_pos ⟨rfl, by rw [h3]; exact ht⟩]
    exact hy
  · rw [hs]
    intro h
    have : outF / tp = outF := by simpa using h
    have := Nat.div_lt_self ho ht
    omega

/-! Non-vacuity: two DP replicas of two TP ranks; a `[4, 2]` matrix. -/
section Example
def exW : Tn Int := ⟨[4, 2], fun ix => (ix.getD 0 0 * 10 + ix.getD 1 0 : Nat)⟩
def exB : Option (Tn Int) := some ⟨[4], fun ix => (ix.getD 0 0 : Nat)⟩
def exX : Nat → Tn Int := fun r => ⟨[1, 2], fun ix => (r / 2 + ix.getD 1 0 : Nat)⟩

theorem ex_rep : Replicated 4 (afterInit 2 2 1) exX := by
  intro r hr g hg s hs
  simp only [afterInit, show (1 : Nat) < 2 by decide, if_true, Option.some.injEq] at hg
  subst hg
  rw [List.mem_range'_1] at hs
  unfold exX
  rw [show s / 2 = r / 2 by omega]

example : ∃ l, ColLoaded 4 (afterInit 2 2 1) 2 4 exW exB l ∧ ∀ r, r < 4 →
    ∃ y, Col.forward (afterInit 2 2 1) true l exX r = some y ∧ IsDense 1 2 4 (exX r) exW exB y := by
  obtain ⟨l, hl⟩ := (C137_loads (boot_exists 2 2 1) (inF := 2) (outF := 4) (W := exW) (B := exB) rfl
    (by intro v hv; cases hv; rfl)).1 (by decide)
  exact ⟨l, hl, fun r hr => C137_column (boot_exists 2 2 1) (n := fun _ => 1) (by decide) (by decide) rfl
    (by intro v hv; cases hv; rfl) hl (fun _ _ => rfl) ex_rep hr⟩

/-- A whole MLP on two ranks. -/
example (act : Int → Int) : ∃ gate up down : Nat → Lin Int, ∀ r, r < 2 →
    ∃ y, Mlp.forward (afterInit 2 1 1) act 2 gate up down (fun _ => ⟨[1, 2], fun ix => (ix.getD 1 0 : Nat)⟩) r
      = some y ∧
      IsMlp act 1 2 4 ⟨[1, 2], fun ix => (ix.getD 1 0 : Nat)⟩ exW exW ⟨[2, 4], fun _ => 3⟩ exB none none y := by
  obtain ⟨g, hg⟩ := (C137_loads (boot_exists 2 1 1) (inF := 2) (outF := 4) (W := exW) (B := exB) rfl
    (by intro v hv; cases hv; rfl)).1 (by decide)
  obtain ⟨u, hu⟩ := (C137_loads (boot_exists 2 1 1) (inF := 2) (outF := 4) (W := exW) (B := none) rfl
    (by intro v hv; cases hv)).1 (by decide)
  obtain ⟨d, hd⟩ := (C137_loads (boot_exists 2 1 1) (inF := 4) (outF := 2)
    (W := (⟨[2, 4], fun _ => 3⟩ : Tn Int)) (B := none) rfl (by intro v hv; cases hv)).2 (by decide)
  exact ⟨g, u, d, fun r hr => C137_mlp (boot_exists 2 1 1) (n := fun _ => 1) (by decide) (by decide) rfl rfl rfl
    (by intro v hv; cases hv; rfl) (by intro v hv; cases hv) (by intro v hv; cases hv) hg hu hd
    (fun _ _ => rfl) (fun _ _ _ _ _ _ => rfl) (fun _ _ _ _ _ _ => rfl) hr⟩

/-- The values of rank 1's gathered output are those of `x Wᵀ + b`. -/
example : ((Col.new (afterInit 2 1 1 0) 2 4 true (fun _ => (0 : Int))).bind (fun l => Col.load l exW exB)).bind
    (fun l0 => ((Col.new (afterInit 2 1 1 1) 2 4 true (fun _ => (0 : Int))).bind (fun l => Col.load l exW exB)).bind
      (fun l1 => (Col.forward (afterInit 2 1 1) true (fun r => if r = 0 then l0 else l1)
        (fun _ => ⟨[1, 2], fun ix => (1 + ix.getD 1 0 : Nat)⟩) 1).map
          (fun y => (y.shape, (List.range 4).map (fun j => y.get [0, j])))))
    = some ([1, 4], [2, 33, 64, 95]) := by decide +kernel

/-- Embedding over two ranks: tokens 3 and 0. -/
example : ((Emb.new (afterInit 2 1 1 0) 4 2 (fun _ => (0 : Int))).bind (fun l => Emb.load l exW)).bind
    (fun l0 => ((Emb.new (afterInit 2 1 1 1) 4 2 (fun _ => (0 : Int))).bind (fun l => Emb.load l exW)).bind
      (fun l1 => (Emb.forward (afterInit 2 1 1) (fun r => if r = 0 then l0 else l1) (fun _ => [3, 0, 9]) 1).map
          (fun y => (y.shape, (List.range 3).map (fun i => y.get [i, 1])))))
    = some ([3, 2], [31, 1, 0]) := by decide +kernel
end Example

end Verif.Shard
