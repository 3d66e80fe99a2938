import Verif.Shard.MergedLemmas
import Verif.Shard.PropsMlp
/-!
C138: fused projections (`MergedLinear`).
-/
namespace Verif.Shard
open Verif.Tensor
variable {α : Type}

/-- **C138** (q/k/v).  Loading the `q`, `k` and `v` tensors of a checkpoint into the fused parameter, in
any order and any number of times, along any output dimension and whether or not that dimension is packed:
every load is accepted and the parameter is exactly `[q | k | v]`. -/
theorem C138_qkv [NatCast α] {m : Merged} {d sq skv : Nat} {sh : List Nat} {Wq Wk Wv param : Tn α}
    (hd : d < sh.length) (htot : sh.getD d 0 = sq + 2 * skv)
    (hq : Wq.shape = sh.set d sq) (hk : Wk.shape = sh.set d skv) (hv : Wv.shape = sh.set d skv)
    (hp : param.shape = sh) {loads : List (ShardId × Tn α)}
    (hloads : ∀ e, e ∈ loads ↔ e = (.str "q", Wq) ∨ e = (.str "k", Wk) ∨ e = (.str "v", Wv)) :
    ∃ P, m.loadAll param (some d) loads = some P ∧ P.shape = sh ∧ IsConcat d [Wq, Wk, Wv] P := by
  have e1 : Wq.shape.getD d 0 = sq := by rw [hq]; simp [List.getD, hd]
  have e2 : Wk.shape.getD d 0 = skv := by rw [hk]; simp [List.getD, hd]
  have e3 : Wv.shape.getD d 0 = skv := by rw [hv]; simp [List.getD, hd]
  refine loadAll_concat (ids := [.str "q", .str "k", .str "v"]) hd ?_ ?_ rfl ?_ hp ?_ ?_
  · simp only [List.map_cons, List.map_nil, List.sum_cons, List.sum_nil, e1, e2, e3]; omega
  · intro t ht
    simp only [List.mem_cons, List.not_mem_nil, or_false] at ht
    rcases ht with rfl | rfl | rfl
    · rw [e1]; exact hq
    · rw [e2]; exact hk
    · rw [e3]; exact hv
  · intro j t id ht hid
    match j, ht, hid with
    | 0, ht, hid =>
      cases ht; cases hid
      simp [Merged.offset, startOf]
    | 1, ht, hid =>
      cases ht; cases hid
      rw [e2]
      simp only [Merged.offset, startOf, List.map_cons, List.take_succ_cons, List.take_zero, List.sum_cons,
        List.sum_nil, e1]
      simp only [show ("k" : String) ≠ "q" by decide, if_false, if_true, htot]
      congr 1; omega
    | 2, ht, hid =>
      cases ht; cases hid
      rw [e3]
      simp only [Merged.offset, startOf, List.map_cons, List.take_succ_cons, List.take_zero, List.sum_cons,
        List.sum_nil, e1, e2]
      simp only [show ("v" : String) ≠ "q" by decide, show ("v" : String) ≠ "k" by decide, if_false, if_true, htot]
      congr 1; omega
    | j + 3, ht, _ => simp at ht
  · intro e he
    rcases (hloads e).1 he with rfl | rfl | rfl <;> simp
  · intro e he
    rw [hloads]
    simpa using he

/-- **C138** (numbered shards).  For any partition list: when the stored tensors have, along the output
dimension, sizes in the proportion of the logical partition (equal to it, or all divided by the same packing
factor), loading them in any order and any number of times gives exactly their concatenation. -/
theorem C138_numbered [NatCast α] {m : Merged} {d : Nat} {sh : List Nat} {ts : List (Tn α)} {param : Tn α}
    (hd : d < sh.length) (hlen : ts.length = m.parts.length) (hpos : 0 < m.parts.sum)
    (hts : ∀ t ∈ ts, t.shape = sh.set d (t.shape.getD d 0))
    (hprop : ∀ (j : Nat) t, ts[j]? = some t → t.shape.getD d 0 * m.parts.sum = m.parts.getD j 0 * sh.getD d 0)
    (hp : param.shape = sh) {loads : List (ShardId × Tn α)}
    (hloads : ∀ e, e ∈ loads ↔ ∃ (j : Nat) (t : Tn α), ts[j]? = some t ∧ e = (.idx j, t)) :
    ∃ P, m.loadAll param (some d) loads = some P ∧ P.shape = sh ∧ IsConcat d ts P := by
  -- the prefix sums of the stored sizes
  have hpre : ∀ j, j ≤ ts.length → startOf (ts.map (fun t => t.shape.getD d 0)) j * m.parts.sum
      = startOf m.parts j * sh.getD d 0 := by
    intro j
    induction j with
    | zero => intro _; simp [startOf]
    | succ j ih =>
      intro hj
      rw [startOf_succ _ _ (by simpa using hj), startOf_succ _ _ (by omega), Nat.add_mul, Nat.add_mul, ih (by omega)]
      congr 1
      have ht : ts[j]? = some (ts[j]'(by omega)) := List.getElem?_eq_getElem (by omega)
      have := hprop j _ ht
      rw [← this]
      congr 1
      simp [List.getD, show j < ts.length by omega]
  have hfull : (ts.map (fun t => t.shape.getD d 0)).sum = sh.getD d 0 := by
    have h1 := hpre ts.length le_rfl
    have e1 : startOf (ts.map (fun t => t.shape.getD d 0)) ts.length = (ts.map (fun t => t.shape.getD d 0)).sum := by
      unfold startOf; rw [List.take_of_length_le (by simp)]
    have e2 : startOf m.parts ts.length = m.parts.sum := by
      unfold startOf; rw [List.take_of_length_le (by omega)]
    rw [e1, e2, Nat.mul_comm m.parts.sum] at h1
    exact Nat.eq_of_mul_eq_mul_right hpos h1
  refine loadAll_concat (ids := (List.range ts.length).map (fun (j : Nat) => ShardId.idx j)) hd hfull hts (by simp) ?_ hp ?_ ?_
  · intro j t id ht hid
    have hj : j < ts.length := (List.getElem?_eq_some_iff.1 ht).1
    have hidj : id = .idx j := by
      simp only [List.getElem?_map, List.getElem?_range hj, Option.map_some, Option.some.injEq] at hid
      exact hid.symm
    subst hidj
    unfold Merged.offset
    simp only
    rw [if_neg (by omega), Int.toNat_natCast]
    by_cases ht1 : sh.getD d 0 = m.parts.sum
    · rw [if_pos ht1]
      congr 2
      have := hpre j (by omega)
      rw [ht1] at this
      exact (Nat.eq_of_mul_eq_mul_right hpos this).symm
    · rw [if_neg ht1, if_pos (by rw [Nat.mul_comm (sh.getD d 0), ← hprop j t ht, Nat.mul_comm])]
      congr 2
      have hmap : ∀ k, k ≤ ts.length → ((m.parts.take k).map (fun part => part * sh.getD d 0 / m.parts.sum)).sum
          = startOf (ts.map (fun t => t.shape.getD d 0)) k := by
        intro k
        induction k with
        | zero => intro _; simp [startOf]
        | succ k ih =>
          intro hk
          rw [startOf_succ _ _ (by simpa using hk), List.take_add_one, List.map_append, List.sum_append, ih (by omega)]
          congr 1
          have hkt : ts[k]? = some (ts[k]'(by omega)) := List.getElem?_eq_getElem (by omega)
          have h1 := hprop k _ hkt
          have hkp : k < m.parts.length := by omega
          rw [List.getD_eq_getElem _ _ hkp] at h1
          rw [List.getElem?_eq_getElem hkp]
          simp only [Option.toList_some, List.map_cons, List.map_nil, List.sum_cons, List.sum_nil, Nat.add_zero]
          rw [← h1, Nat.mul_div_cancel _ hpos]
          simp [List.getD, show k < ts.length by omega]
      exact hmap j (by omega)
  · intro e he
    obtain ⟨j, t, ht, rfl⟩ := (hloads e).1 he
    have hj : j < ts.length := (List.getElem?_eq_some_iff.1 ht).1
    exact List.mem_iff_getElem?.2 ⟨j, by rw [List.getElem?_zip_eq_some]; exact ⟨by simp [hj], ht⟩⟩
  · intro e he
    obtain ⟨j, hj⟩ := List.mem_iff_getElem?.1 he
    rw [List.getElem?_zip_eq_some] at hj
    have hjl : j < ts.length := (List.getElem?_eq_some_iff.1 hj.2).1
    have h1 := hj.1
    simp only [List.getElem?_map, List.getElem?_range hjl, Option.map_some, Option.some.injEq] at h1
    exact (hloads e).2 ⟨j, e.2, hj.2, by rw [h1]⟩

/-- gate/up: two equal shards. -/
example {Wg Wu param : Tn Int} {i h : Nat} (hi : 0 < i) (hg : Wg.shape = [i, h]) (hu : Wu.shape = [i, h])
    (hp : param.shape = [2 * i, h]) :
    ∃ P, (⟨h, [i, i]⟩ : Merged).loadAll param (some 0) [(.idx 1, Wu), (.idx 0, Wg)] = some P ∧
      P.shape = [2 * i, h] ∧ IsConcat 0 [Wg, Wu] P := by
  refine C138_numbered (sh := [2 * i, h]) (by simp) (by simp) (by simp; omega) ?_ ?_ hp ?_
  · intro t ht
    simp only [List.mem_cons, List.not_mem_nil, or_false] at ht
    rcases ht with rfl | rfl
    · rw [hg]; rfl
    · rw [hu]; rfl
  · intro j t ht
    match j, ht with
    | 0, ht => cases ht; rw [hg]; simp only [List.sum_cons, List.sum_nil, List.getD_cons_zero]; ring
    | 1, ht => cases ht; rw [hu]; simp only [List.sum_cons, List.sum_nil, List.getD_cons_zero, List.getD_cons_succ]; ring
    | j + 2, ht => simp at ht
  · intro e
    constructor
    · intro he
      simp only [List.mem_cons, List.not_mem_nil, or_false] at he
      rcases he with rfl | rfl
      · exact ⟨1, Wu, rfl, rfl⟩
      · exact ⟨0, Wg, rfl, rfl⟩
    · rintro ⟨j, t, ht, rfl⟩
      match j, ht with
      | 0, ht => cases ht; simp
      | 1, ht => cases ht; simp
      | j + 2, ht => simp at ht

/-- GQA: 4 query rows, 2 key rows, 2 value rows, loaded as v, q, k. -/
example {Wq Wk Wv param : Tn Int} (hq : Wq.shape = [4, 3]) (hk : Wk.shape = [2, 3]) (hv : Wv.shape = [2, 3])
    (hp : param.shape = [8, 3]) :
    ∃ P, (⟨3, [4, 2, 2]⟩ : Merged).loadAll param (some 0) [(.str "v", Wv), (.str "q", Wq), (.str "k", Wk)] = some P ∧
      P.shape = [8, 3] ∧ IsConcat 0 [Wq, Wk, Wv] P :=
  C138_qkv (sh := [8, 3]) (sq := 4) (skv := 2) (by simp) rfl hq hk hv hp (by intro e; simp; tauto)

/-- **C138** (forward).  When the fused weight and bias are the concatenations of the separate ones, the
fused projection's output, split at the partition sizes, is the separate projections' outputs. -/
theorem C138_forward [CommRing α] {n k : Nat} {x P : Tn α} {Ws : List (Tn α)} {Pb : Option (Tn α)}
    {bs : List (Option (Tn α))} (hx : x.shape = [n, k]) {sizes : List Nat}
    (hsz : Ws.map (fun t => t.shape) = sizes.map (fun s => [s, k]))
    (hP : P.shape = [sizes.sum, k]) (hcat : IsConcat 0 Ws P)
    (hbs : bs.length = Ws.length)
    (hb : match Pb with
      | none => ∀ b ∈ bs, b = none
      | some v => ∃ vs : List (Tn α), bs = vs.map some ∧ vs.map (fun t => t.shape) = sizes.map (fun s => [s]) ∧
          v.shape = [sizes.sum] ∧ IsConcat 0 vs v) :
    ∃ y, flinear x P Pb = some y ∧ y.shape = [n, sizes.sum] ∧
      ∀ (j : Nat) W b s, Ws[j]? = some W → bs[j]? = some b → sizes[j]? = some s →
        ∃ z, flinear x W b = some z ∧ z.shape = [n, s] ∧
          ∀ i c, i < n → c < s → y.get [i, startOf sizes j + c] = z.get [i, c] := by
  have hPb : ∀ v ∈ Pb, v.shape = [sizes.sum] := by
    intro v hv
    cases Pb with
    | none => cases hv
    | some v' =>
      obtain ⟨vs, _, _, h3, _⟩ := hb
      cases hv; exact h3
  obtain ⟨y, hy, hys, hyg⟩ := flinear_ok hx hP hPb
  refine ⟨y, hy, hys, fun j W b s hW hbj hs => ?_⟩
  have hWsh : W.shape = [s, k] := by
    have := congrArg (fun l => l[j]?) hsz
    simp only [List.getElem?_map, hW, hs, Option.map_some, Option.some.injEq] at this
    exact this
  have hszW : Ws.map (fun t => t.shape.getD 0 0) = sizes := by
    have := congrArg (List.map (fun l : List Nat => l.getD 0 0)) hsz
    rw [List.map_map, List.map_map] at this
    calc Ws.map (fun t => t.shape.getD 0 0) = sizes.map ((fun l : List Nat => l.getD 0 0) ∘ fun s => [s, k]) := this
      _ = sizes := by simp [Function.comp_def]
  have hjl : j < sizes.length := (List.getElem?_eq_some_iff.1 hs).1
  have hsj : sizes.getD j 0 = s := by simp [List.getD, hs]
  have hend : startOf sizes j + s ≤ sizes.sum := by
    rw [← hsj, ← startOf_succ _ _ hjl]; exact startOf_le _ _
  -- rows of the fused weight
  have hrow : ∀ c t, c < s → t < k → P.get [startOf sizes j + c, t] = W.get [c, t] := by
    intro c t hc ht
    have h1 := hcat.2 [startOf sizes j + c, t] (by
      rw [hP]; exact ⟨by omega, ht, trivial⟩)
    rw [catAt_piece 0 Ws _ j W (by simp) hW (by rw [hszW]; simp) (by rw [hszW, hWsh]; simpa using hc)] at h1
    rw [hszW] at h1
    simpa using h1.symm
  have hbias : (∀ v ∈ b, v.shape = [s]) ∧ ∀ c, c < s → biasAt Pb (startOf sizes j + c) = biasAt b c := by
    cases Pb with
    | none =>
      have hbn : b = none := hb b (List.mem_of_getElem? hbj)
      subst hbn
      exact ⟨fun v hv => (by cases hv), fun _ _ => rfl⟩
    | some v =>
      obtain ⟨vs, h1, h2, h3, h4⟩ := hb
      rw [h1, List.getElem?_map] at hbj
      obtain ⟨u, hu, rfl⟩ : ∃ u, vs[j]? = some u ∧ b = some u := by
        cases hvj : vs[j]? with
        | none => rw [hvj] at hbj; cases hbj
        | some u => rw [hvj] at hbj; exact ⟨u, rfl, by simpa using hbj.symm⟩
      have hush : u.shape = [s] := by
        have := congrArg (fun l => l[j]?) h2
        simp only [List.getElem?_map, hu, hs, Option.map_some, Option.some.injEq] at this
        exact this
      have hszv : vs.map (fun t => t.shape.getD 0 0) = sizes := by
        have := congrArg (List.map (fun l : List Nat => l.getD 0 0)) h2
        rw [List.map_map, List.map_map] at this
        calc vs.map (fun t => t.shape.getD 0 0) = sizes.map ((fun l : List Nat => l.getD 0 0) ∘ fun s => [s]) := this
          _ = sizes := by simp [Function.comp_def]
      refine ⟨fun w hw => (by cases hw; exact hush), fun c hc => ?_⟩
      have g1 := h4.2 [startOf sizes j + c] (by rw [h3]; exact ⟨by omega, trivial⟩)
      rw [catAt_piece 0 vs _ j u (by simp) hu (by rw [hszv]; simp) (by rw [hszv, hush]; simpa using hc)] at g1
      rw [hszv] at g1
      simpa [biasAt] using g1.symm
  obtain ⟨z, hz, hzs, hzg⟩ := flinear_ok hx hWsh hbias.1
  refine ⟨z, hz, hzs, fun i c _ hc => ?_⟩
  rw [hyg, hzg, hbias.2 c hc]
  congr 1
  exact Finset.sum_congr rfl (fun t ht => by rw [hrow c t hc (Finset.mem_range.1 ht)])

/-- **C138, violated** (wrong-sized shard).  The loader does not compare a shard with the projection it is
for: a key tensor with *any* number of rows up to half the fused size is accepted, and is written so that
it ends where a value tensor of its own size would begin. -/
theorem C138_missized_violated [NatCast α] {m : Merged} {total h s : Nat} {Wk param : Tn α}
    (hp : param.shape = [total, h]) (hk : Wk.shape = [s, h]) (hs : 2 * s ≤ total) :
    ∃ P, m.load param (some 0) Wk (some (.str "k")) = some P ∧
      ∀ i j, P.get [i, j] = if total - 2 * s ≤ i ∧ i < total - 2 * s + s then Wk.get [i - (total - 2 * s), j]
        else param.get [i, j] := by
  obtain ⟨P, h1, h2, h3⟩ := load_piece (m := m) (param := param) (t := Wk) (d := 0) (off := total - 2 * s)
    (id := .str "k") (by rw [hp]; simp) (by rw [hp, hk]; rfl)
    (by
      rw [hp, hk]
      simp only [Merged.offset, List.getD_cons_zero, show ("k" : String) ≠ "q" by decide, if_false, if_true]
      congr 1; omega)
    (by rw [hp, hk]; simp; omega)
  refine ⟨P, h1, fun i j => ?_⟩
  rw [h3, hk]
  simp

/-- Witness: projections of 4, 2, 2 rows; a checkpoint whose key tensor has 4 rows (a model without GQA) is
accepted after `q` and overwrites the query rows. -/
example : ((⟨3, [4, 2, 2]⟩ : Merged).loadAll (⟨[8, 3], fun _ => (0 : Int)⟩) (some 0)
      [(.str "q", ⟨[4, 3], fun _ => 1⟩), (.str "k", ⟨[4, 3], fun _ => 2⟩)]).map
        (fun P => (List.range 8).map (fun i => P.get [i, 0])) = some [2, 2, 2, 2, 0, 0, 0, 0] := by decide +kernel

/-- **C138, violated** (numbered shards): any tensor short enough to fit after its start is accepted. -/
theorem C138_missized_numbered_violated [NatCast α] {m : Merged} {h s : Nat} {j : Nat} {W param : Tn α}
    (hj : j < m.parts.length) (hp : param.shape = [m.parts.sum, h]) (hW : W.shape = [s, h])
    (hs : startOf m.parts j + s ≤ m.parts.sum) :
    ∃ P, m.load param (some 0) W (some (.idx j)) = some P := by
  obtain ⟨P, h1, _⟩ := load_piece (m := m) (param := param) (t := W) (d := 0) (off := startOf m.parts j)
    (id := .idx j) (by rw [hp]; simp) (by rw [hp, hW]; rfl)
    (by
      rw [hp]
      unfold Merged.offset
      simp only [List.getD_cons_zero, if_true]
      rw [if_neg (by omega), Int.toNat_natCast]
      rfl)
    (by rw [hp, hW]; simpa using hs)
  exact ⟨P, h1⟩

/-- **C138** (metadata).  A two-element parameter without an output dimension (the logical weight shape of a
packed checkpoint) ends up as `[out_features, in_features]` of the fused layer, whichever shard is loaded. -/
theorem C138_metadata [NatCast α] {m : Merged} {param t : Tn α} {id : ShardId}
    (hp : param.shape = [2]) (ht : t.shape = [2]) :
    ∃ P, m.load param none t (some id) = some P ∧ P.shape = [2] ∧
      P.get [0] = ((m.parts.sum : Nat) : α) ∧ P.get [1] = ((m.inF : Nat) : α) := by
  unfold Merged.load Merged.metadata
  simp only [hp, ht, ne_eq, not_true_eq_false, if_false]
  rw [if_pos (by decide)]
  refine ⟨_, rfl, rfl, ?_, ?_⟩
  · simp [lin]
  · simp [lin, numel]

end Verif.Shard
