import Verif.Graph.Sizes
/- C105, C106, C107. -/
namespace Verif.Graph

variable {H V S O : Type}

/-- A decode batch as the runner makes it: without M-RoPE deltas these count as 0; the keys and values of different requests go to
different slots, none of them slot 0, and no position of a request is mapped to slot 0 (C50: slot 0 is never handed out). -/
structure Good (table : Nat → Nat → Nat) (x : Batch) : Prop where
  noDelta : x.deltas = false → ∀ l ∈ x.lanes, l.delta = 0
  locs : ∀ l ∈ x.lanes, l.loc ≠ 0
  distinct : (x.lanes.map (·.loc)).Nodup
  slots : ∀ l ∈ x.lanes, ∀ q < l.len, table l.row q ≠ 0

theorem lane_real {b : Buf} {x : Batch} {p i : Nat} (hd : x.deltas = false → ∀ l ∈ x.lanes, l.delta = 0) (hi : i < x.lanes.length) :
    (b.populate x p).lane i = x.lane i := by
  rw [populate_lane, dif_pos hi, Batch.lane, List.getD_eq_getElem?_getD, List.getElem?_eq_getElem hi, Option.getD_some]
  cases h : x.deltas with
  | true => rfl
  | false =>
    have := hd h x.lanes[i] (List.getElem_mem hi)
    rw [if_neg (by simp), ← this]

theorem lane_eq {x : Batch} {i : Nat} (hi : i < x.lanes.length) : x.lane i = x.lanes[i] := by
  rw [Batch.lane, List.getD_eq_getElem?_getD, List.getElem?_eq_getElem hi]; rfl

theorem nodup_inj {α : Type} {f : Lane → α} {x : Batch} (h : (x.lanes.map f).Nodup) : ∀ i < x.lanes.length, ∀ j < x.lanes.length,
    f (x.lane i) = f (x.lane j) → i = j := by
  intro i hi j hj e
  rw [lane_eq hi, lane_eq hj] at e
  have h1 : (x.lanes.map f)[i]'(by simpa using hi) = (x.lanes.map f)[j]'(by simpa using hj) := by simpa using e
  exact (List.Nodup.getElem_inj_iff h).1 h1

theorem side {table : Nat → Nat → Nat} {x : Batch} (g : Good table x) {b : Buf} {p : Nat} (hp : x.lanes.length ≤ p) {L : Nat → Prop} {gdn : Bool}
    (hr : gdn = true → (∀ l ∈ x.lanes, L l.row) ∧ (x.lanes.map (·.row)).Nodup ∧ ∀ i < p, x.lanes.length ≤ i → ¬ L (b.row i)) :
    Side table L gdn x.lane (b.populate x p).lane x.lanes.length p where
  le := hp
  lanes i hi := (lane_real g.noDelta hi).symm
  locs i hi := by rw [lane_eq hi]; exact g.locs _ (List.getElem_mem hi)
  locInj := nodup_inj (f := (·.loc)) g.distinct
  slots i hi := by rw [lane_eq hi]; exact g.slots _ (List.getElem_mem hi)
  padLoc i hi hni := by
    rw [populate_lane, dif_neg (by omega), if_pos (by omega)]
  rows hg := by
    obtain ⟨h1, h2, h3⟩ := hr hg
    refine ⟨fun i hi => by rw [lane_eq hi]; exact h1 _ (List.getElem_mem hi), nodup_inj (f := (·.row)) h2, ?_⟩
    intro i hi hni
    have := h3 i hi hni
    rwa [show ((b.populate x p).lane i).row = (b.populate x p).row i from rfl, populate_row, dif_neg (by omega)]

theorem replay_agree {table : Nat → Nat → Nat} {sizes : List Nat} {net : Net H V S O} {L : Nat → Prop} {gdn : Bool} {b b' : Buf} {x : Batch} {p : Nat}
    (hp : paddedSize sizes x.lanes.length = some p)
    (hs : Side table L gdn x.lane (b.populate x p).lane x.lanes.length p) (hg : gdn = false → ∀ l ∈ net.layers, l.isGdn = false)
    {m m' me me' : Mem V S} {out oute : List O} (ha : Agree L me m) (h : Replay sizes net table b x m m' out b') (he : Eager net table x me me' oute) :
    out = oute ∧ Agree L me' m' := by
  obtain ⟨p', out', hp', rfl, ⟨hs', hl, rfl⟩, rfl⟩ := h
  rw [hp] at hp'
  obtain rfl := Option.some.inj hp'
  obtain ⟨hse, hle, rfl⟩ := he
  obtain ⟨h1, h2⟩ := layers_agree hs hg ha (by intro i hi; rw [hs.lanes i hi]) hle hl
  refine ⟨?_, h1⟩
  apply List.ext_getElem?
  intro i
  by_cases hi : i < x.lanes.length
  · rw [List.getElem?_take, if_pos hi, List.getElem?_map, List.getElem?_map, List.getElem?_range (by have := hs.le; omega), List.getElem?_range hi]
    simp [h2 i hi]
  · rw [List.getElem?_eq_none (by simp; omega), List.getElem?_eq_none (by simp; omega)]

/-! # C105: replaying a graph -/

/-- C105: for a model without recurrent layers, replaying a captured graph gives the requests of the batch the same answers as
running the model, and leaves the same keys and values (in all slots but the padding slot 0), whatever was decoded before
with these buffers. -/
theorem C105_replay {maxBs : Nat} {net : Net H V S O} (hn : ∀ l ∈ net.layers, l.isGdn = false) {table : Nat → Nat → Nat} (history : List Batch) {x : Batch}
    (g : Good table x) (hr : canRun (captureSizes maxBs) x.lanes.length = true) {m m' me me' : Mem V S} {out oute : List O} {b' : Buf}
    (hm : ∀ k i, i ≠ 0 → me.kv k i = m.kv k i)
    (h : Replay (captureSizes maxBs) net table (.after (captureSizes maxBs) history) x m m' out b') (he : Eager net table x me me' oute) :
    out = oute ∧ (∀ k i, i ≠ 0 → me'.kv k i = m'.kv k i) ∧ b' = .after (captureSizes maxBs) (x :: history) := by
  obtain ⟨p, hp, _, hnp, _⟩ := canRun_padded hr
  obtain ⟨h1, h2⟩ := replay_agree (L := fun _ => False) (gdn := false) hp (side g hnp (by simp)) (fun _ => hn) ⟨hm, by simp⟩ h he
  refine ⟨h1, h2.1, ?_⟩
  obtain ⟨p', _, hp', hb, _⟩ := h
  rw [hb, Buf.after, hp']; rfl

/-- C105: there is a graph for every decode batch that `can_run` admits. -/
theorem C105_runs {maxBs : Nat} (net : Net H V S O) (table : Nat → Nat → Nat) (b : Buf) (x : Batch)
    (hr : canRun (captureSizes maxBs) x.lanes.length = true) (m : Mem V S) :
    ∃ m' out b', Replay (captureSizes maxBs) net table b x m m' out b' := by
  obtain ⟨p, hp, _⟩ := canRun_padded hr
  obtain ⟨m', hs', h⟩ := layers_exists table (b.populate x p).lane p net.layers 0 m (fun i => net.embed ((b.populate x p).lane i).tok)
  exact ⟨m', _, _, p, _, hp, rfl, ⟨hs', h, rfl⟩, rfl⟩

/-! # C106: recurrent states under replay -/

/-- C106: what a padding lane holds: the row, and the token, of the last batch that was large enough to use this lane; 0 if there
was none. -/
theorem C106_stale (sizes : List Nat) (history : List Batch) (i : Nat) :
    (Buf.after sizes history).row i = ((history.findSome? fun x => x.lanes[i]?).map (·.row)).getD 0 ∧
    (Buf.after sizes history).tok i = ((history.findSome? fun x => x.lanes[i]?).map (·.tok)).getD 0 := by
  induction history with
  | nil => exact ⟨rfl, rfl⟩
  | cons x xs ih =>
    rw [Buf.after, populate_row, populate_tok, List.findSome?_cons]
    by_cases h : i < x.lanes.length
    · rw [dif_pos h, dif_pos h, List.getElem?_eq_getElem h]
      exact ⟨rfl, rfl⟩
    · rw [dif_neg h, dif_neg h, List.getElem?_eq_none (by omega)]
      exact ih

/-- C106: with recurrent layers, replay agrees with running the model on the recurrent states of the rows `L` (which
contain those of the batch) if no padding lane points to one of them. -/
theorem C106_replay_partial {maxBs : Nat} {net : Net H V S O} {table : Nat → Nat → Nat} (history : List Batch) {x : Batch} (g : Good table x)
    (hr : canRun (captureSizes maxBs) x.lanes.length = true) {L : Nat → Prop} (hL : ∀ l ∈ x.lanes, L l.row) (hd : (x.lanes.map (·.row)).Nodup)
    (hpad : ∀ p, paddedSize (captureSizes maxBs) x.lanes.length = some p → ∀ i < p, x.lanes.length ≤ i →
      ¬ L (((history.findSome? fun x => x.lanes[i]?).map (·.row)).getD 0))
    {m m' me me' : Mem V S} {out oute : List O} {b' : Buf} (hm : Agree L me m)
    (h : Replay (captureSizes maxBs) net table (.after (captureSizes maxBs) history) x m m' out b') (he : Eager net table x me me' oute) :
    out = oute ∧ Agree L me' m' := by
  obtain ⟨p, hp, _, hnp, _⟩ := canRun_padded hr
  refine replay_agree (gdn := true) hp (side g hnp ?_) (by simp) hm h he
  intro _
  refine ⟨hL, hd, fun i hi hni => ?_⟩
  rw [(C106_stale _ history i).1]
  exact hpad p hp i hi hni

/-- C106: in particular, batches of a captured size are not affected: all recurrent states are those of the eager pass. -/
theorem C106_exact_partial {maxBs : Nat} {net : Net H V S O} {table : Nat → Nat → Nat} (history : List Batch) {x : Batch} (g : Good table x)
    (hx : x.lanes.length ∈ captureSizes maxBs) (hd : (x.lanes.map (·.row)).Nodup) {m m' me' : Mem V S} {out oute : List O} {b' : Buf}
    (h : Replay (captureSizes maxBs) net table (.after (captureSizes maxBs) history) x m m' out b') (he : Eager net table x m me' oute) :
    out = oute ∧ ∀ k i, me'.st k i = m'.st k i := by
  have hr : canRun (captureSizes maxBs) x.lanes.length = true := by simpa [canRun] using maxOf_ge hx
  obtain ⟨p, hp, _, hnp, hmin⟩ := canRun_padded hr
  have hpe : p ≤ x.lanes.length := hmin _ hx (le_refl _)
  obtain ⟨h1, h2⟩ := C106_replay_partial history g hr (L := fun _ => True) (by simp) hd (by
    intro p' hp' i hi hni
    rw [hp] at hp'
    obtain rfl := Option.some.inj hp'
    omega) ⟨fun _ _ _ => rfl, fun _ _ _ => rfl⟩ h he
  exact ⟨h1, fun k i => h2.2 k i trivial⟩

theorem inOrder_append {α : Type} (f : Nat → α) (a b : List (Nat × α)) : inOrder f (a ++ b) = inOrder (inOrder f a) b := by
  simp [inOrder, List.foldl_append]

theorem inOrder_other {α : Type} (f : Nat → α) (ws : List (Nat × α)) {i : Nat} (h : i ∉ ws.map (·.1)) : inOrder f ws i = f i :=
  (inOrder_scatter f ws i).1 h

/-- C106, violated: if a padding lane points to the row of a request of the batch (which by `C106_stale` it does whenever an earlier,
larger batch had this row in this lane, or the row is 0 and the lane is new), then replay can leave this request with the
recurrent state for the padding lane's old token, instead of the state for its own token, which the eager pass always
leaves. For every model that begins with a recurrent layer. -/
theorem C106_padding_violated {maxBs : Nat} {embed : Int → H} {step : S → H → S} {lout : S → H → H} {ls : List (Layer H V S)} {head : H → O} {table : Nat → Nat → Nat} (history : List Batch) {x : Batch}
    (hd : (x.lanes.map (·.row)).Nodup) {p : Nat} (hp : paddedSize (captureSizes maxBs) x.lanes.length = some p)
    {l : Lane} (hl : l ∈ x.lanes) {j : Nat} (hj : x.lanes.length ≤ j) (hjp : j < p)
    (hrow : ((history.findSome? fun x => x.lanes[j]?).map (·.row)).getD 0 = l.row)
    (hlast : ∀ i, j < i → i < p → ((history.findSome? fun x => x.lanes[i]?).map (·.row)).getD 0 ≠ l.row) (m : Mem V S) :
    (∃ m' out b', Replay (captureSizes maxBs) ⟨embed, .gdn step lout :: ls, head⟩ table (.after (captureSizes maxBs) history) x m m' out b' ∧
      m'.st 0 l.row = step (m.st 0 l.row) (embed (((history.findSome? fun x => x.lanes[j]?).map (·.tok)).getD 0))) ∧
    ∀ me' oute, Eager ⟨embed, .gdn step lout :: ls, head⟩ table x m me' oute → me'.st 0 l.row = step (m.st 0 l.row) (embed l.tok) := by
  constructor
  · set b := Buf.after (captureSizes maxBs) history with hb
    set lane := (b.populate x p).lane with hlane
    have hlr : ∀ i, x.lanes.length ≤ i → (lane i).row = ((history.findSome? fun x => x.lanes[i]?).map (·.row)).getD 0 ∧
        (lane i).tok = ((history.findSome? fun x => x.lanes[i]?).map (·.tok)).getD 0 := by
      intro i hi
      have h1 : (lane i).row = (b.populate x p).row i := rfl
      have h2 : (lane i).tok = (b.populate x p).tok i := rfl
      rw [h1, h2, populate_row, populate_tok, dif_neg (by omega), dif_neg (by omega)]
      exact C106_stale _ _ _
    obtain ⟨m', hs', h⟩ := layers_exists table lane p ls 1
      { m with st := Function.update m.st 0 (inOrder (m.st 0) ((List.range p).map fun i => ((lane i).row, step (m.st 0 (lane i).row) (embed (lane i).tok)))) }
      (fun i => lout (step (m.st 0 (lane i).row) (embed (lane i).tok)) (embed (lane i).tok))
    refine ⟨m', _, _, ⟨p, _, hp, rfl, ⟨hs', .gdn _ (inOrder_scatter _ _) h, rfl⟩, rfl⟩, ?_⟩
    rw [layers_st_keep h 0 (by omega)]
    simp only [Function.update_self]
    have hsplit : List.range p = List.range j ++ (j :: List.range' (j + 1) (p - (j + 1))) := by
      rw [List.range_eq_range', List.range_eq_range', ← List.range'_succ]
      have := List.range'_append (s := 0) (m := j) (n := p - (j + 1) + 1) (step := 1)
      rw [show 0 + 1 * j = j by omega, show j + (p - (j + 1) + 1) = p by omega] at this
      exact this.symm
    rw [hsplit, List.map_append, inOrder_append, List.map_cons, show ∀ (a : Nat × S) l, a :: l = [a] ++ l from fun _ _ => rfl, inOrder_append, inOrder_other]
    · simp only [inOrder, List.foldl_cons, List.foldl_nil]
      rw [(hlr j hj).1, (hlr j hj).2, hrow]
      simp
    · intro hm
      obtain ⟨w, hw, e⟩ := List.mem_map.1 hm
      obtain ⟨i, hi, e'⟩ := List.mem_map.1 hw
      rw [List.mem_range'_1] at hi
      refine hlast i (by omega) (by omega) ?_
      rw [← (hlr i (by omega)).1, ← e, ← e']
  · rintro me' oute ⟨hs, hl', _⟩
    cases hl' with
    | gdn st hsc h =>
      rw [layers_st_keep h 0 (by omega)]
      simp only [Function.update_self]
      obtain ⟨i, hi, rfl⟩ := List.mem_iff_getElem.1 hl
      refine scatter_val hsc (List.mem_map.2 ⟨i, by simpa using hi, ?_⟩) ?_
      · simp only [lane_eq hi]
      · intro w hw
        obtain ⟨k, hk, e⟩ := List.mem_map.1 hw
        simp only [Prod.mk.injEq] at e
        have hk' : k < x.lanes.length := by simpa using hk
        have : k = i := nodup_inj (f := (·.row)) hd k hk' i hi (by rw [e.1, lane_eq hi])
        subst this
        rw [← e.2]
        simp only [lane_eq hk']

/-! # C107: sizes and lengths -/

/-- C107: the captured sizes are increasing, not empty and within the limit of running requests. -/
theorem C107_sizes (maxBs : Nat) : (captureSizes maxBs).Pairwise (· < ·) ∧ captureSizes maxBs ≠ [] ∧ ∀ p ∈ captureSizes maxBs, 1 ≤ p ∧ p ≤ max 1 maxBs := by
  refine ⟨capture_sorted _, capture_ne _, fun p hp => ?_⟩
  rcases mem_capture.1 hp with ⟨h1, h2⟩ | ⟨h1, rfl⟩
  · refine ⟨?_, by omega⟩
    rcases h2 with h2 | ⟨i, h2⟩ | ⟨i, h2⟩ | ⟨i, h2⟩
    · simp only [List.mem_cons, List.not_mem_nil, or_false] at h2
      omega
    · omega
    · omega
    · omega
  · omega

/-- C107: an admitted batch is padded to the smallest captured size that fits; this is less than twice the batch, at most 31
lanes more, and at most 7 more up to 256. -/
theorem C107_padding {maxBs n : Nat} (hr : canRun (captureSizes maxBs) n = true) : ∃ p, paddedSize (captureSizes maxBs) n = some p ∧ n ≤ p ∧
    (∀ q ∈ captureSizes maxBs, n ≤ q → p ≤ q) ∧ (0 < n → p < 2 * n) ∧ p ≤ n + 31 ∧ (p ≤ 256 → p ≤ n + 7) ∧ p ≤ maxOf (captureSizes maxBs) := by
  obtain ⟨p, h1, h2, h3, h4⟩ := canRun_padded hr
  refine ⟨p, h1, h3, h4, ?_⟩
  have hm := maxOf_ge h2
  rcases mem_capture.1 h2 with h | ⟨_, rfl⟩
  · rcases size_pred h with rfl | ⟨q, g1, g2, g3, g4, g5⟩
    · exact ⟨by omega, by omega, by omega, hm⟩
    · have : q < n := by
        by_contra hc
        have := h4 q (mem_capture.2 (.inl g1)) (by omega)
        omega
      exact ⟨by omega, by omega, by omega, hm⟩
  · exact ⟨by omega, by omega, by omega, hm⟩

/-- C107: every batch of up to 8 requests, if so many may run, and every batch up to a captured size, can be replayed. -/
theorem C107_admitted {maxBs n : Nat} : canRun (captureSizes maxBs) n = true ↔ ∃ p ∈ captureSizes maxBs, n ≤ p := by
  constructor
  · intro h
    exact ⟨_, maxOf_mem (capture_ne maxBs), by simpa [canRun] using h⟩
  · rintro ⟨p, hp, h⟩
    have := maxOf_ge hp
    simp [canRun]
    omega

/-- C107: the lengths given to the attention backend are those of the lanes, on the device and on the
host; padding lanes have length 1. -/
theorem C107_lengths (b : Buf) (toks : List (Int × Nat × Nat × Nat)) (deltas : Option (List Int)) (p : Nat) :
    ∀ i < p, (b.populate (prepare toks deltas) p).len i = (b.populate (prepare toks deltas) p).cpu i ∧
      (b.populate (prepare toks deltas) p).len i = ((toks[i]?).map fun t => t.2.2.1).getD 1 := by
  intro i hi
  have hlen : (prepare toks deltas).lanes.length = toks.length := by simp [prepare]
  have h1 := congrArg Lane.len (populate_lane b (prepare toks deltas) p i)
  rw [show ((b.populate (prepare toks deltas) p).lane i).len = (b.populate (prepare toks deltas) p).len i from rfl] at h1
  have h2 := populate_cpu b (prepare toks deltas) p i (c := toks.map fun t => t.2.2.1) rfl
  rw [h1, h2]
  by_cases h : i < toks.length
  · rw [dif_pos (by omega), dif_pos (by simpa using h), List.getElem?_eq_getElem h]
    simp [prepare]
  · rw [dif_neg (by omega), dif_neg (by simpa using h), if_pos (by omega), if_pos (by omega), List.getElem?_eq_none (by omega)]
    exact ⟨rfl, rfl⟩

theorem sum_split (f : Nat → Nat) {n p : Nat} (h : n ≤ p) (hf : ∀ i < p, n ≤ i → f i = 1) :
    ((List.range p).map f).sum = ((List.range n).map f).sum + (p - n) := by
  obtain ⟨d, rfl⟩ := Nat.exists_eq_add_of_le h
  induction d with
  | zero => simp
  | succ d ih =>
    rw [show n + (d + 1) = (n + d) + 1 by omega, List.range_succ, List.map_append, List.sum_append, ih (by omega) (fun i hi => hf i (by omega))]
    simp only [List.map_cons, List.map_nil, List.sum_cons, List.sum_nil]
    rw [hf (n + d) (by omega) (by omega)]
    omega

/-- C107: the sum of the lengths that is passed along is the sum of the lengths of all lanes. -/
theorem C107_sum (b : Buf) (x : Batch) {p : Nat} (hle : x.lanes.length ≤ p) :
    ((List.range p).map fun i => (b.populate x p).len i).sum = lensSum x p := by
  have hlane : ∀ i, (b.populate x p).len i = ((b.populate x p).lane i).len := fun _ => rfl
  rw [sum_split _ hle]
  · rw [lensSum, fillLen, Nat.mul_one]
    congr 1
    congr 1
    apply List.ext_getElem
    · simp
    · intro i h1 h2
      simp only [List.getElem_map, List.getElem_range]
      rw [hlane, populate_lane, dif_pos (by simpa using h1)]
  · intro i hi hni
    rw [hlane, populate_lane, dif_neg (by omega), if_pos (by omega)]
    rfl

/-! ### Witnesses -/

/-- Three requests in the rows 0, 1 and 2, which the pool hands out first, with two, one and one tokens. -/
def three : Batch := prepare [(7, 0, 2, 12), (8, 1, 1, 13), (9, 2, 1, 14)] none
def tab : Nat → Nat → Nat := fun r q => if r = 0 then (if q = 0 then 11 else 12) else 12 + r

/-- A model with a recurrent layer that remembers what it read, and an attention layer that adds what it reads. -/
def toy : Net Int Int (List Int) Int := ⟨id, [.gdn (fun s h => s ++ [h]) (fun s _ => s.sum), .attn (fun h _ => h) (fun _ => 0) (fun _ _ vs => vs.sum)], id⟩

/-- Non-vacuity of `C105_replay` (for the model without its recurrent layer): the batch is padded and fulfills the conditions. -/
example : Good tab three ∧ canRun (captureSizes 8) three.lanes.length = true ∧ paddedSize (captureSizes 8) three.lanes.length = some 4 ∧
    captureSizes 8 = [1, 2, 4, 8] := by
  refine ⟨⟨?_, ?_, ?_, ?_⟩, ?_, ?_, ?_⟩
  · intro _; decide
  · decide
  · decide
  · intro l hl q _
    unfold tab
    split
    · split <;> decide
    · omega
  · decide +kernel
  · decide +kernel
  · decide +kernel

/-- C106, violated: the very first decode step of three requests: the padding lane is in row 0, with token 0. The request in
row 0 may be left as if it had read token 0 in place of its token 7. -/
theorem C106_first_violated (m : Mem Int (List Int)) : (∃ m' out b', Replay (captureSizes 8) toy tab (.after (captureSizes 8) []) three m m' out b' ∧
      m'.st 0 0 = m.st 0 0 ++ [0]) ∧ ∀ me' oute, Eager toy tab three m me' oute → me'.st 0 0 = m.st 0 0 ++ [7] := by
  have h := C106_padding_violated (maxBs := 8) (embed := id) (step := fun s h => s ++ [h]) (lout := fun s _ => s.sum)
    (ls := [.attn (fun h _ => h) (fun _ => 0) (fun _ _ vs => vs.sum)]) (head := id) (table := tab) [] (x := three) (p := 4) (by decide) (by decide +kernel)
    (l := ⟨7, 0, 2, 12, 1, 0⟩) (by decide) (j := 3) (by decide) (by decide) (by decide) (by intro i _ _; omega) m
  exact h

/-- Non-vacuity of `C106_replay_partial`: four requests, of which the one in row 3 ends, so that the padding lane of the next
batch is in row 3, which is free. -/
def four : Batch := prepare [(7, 0, 2, 12), (8, 1, 1, 13), (9, 2, 1, 14), (5, 3, 1, 15)] none
example : Good tab three ∧ ∀ p, paddedSize (captureSizes 8) three.lanes.length = some p → ∀ i < p, three.lanes.length ≤ i →
      ¬ (· < 3) ((([four].findSome? fun x => x.lanes[i]?).map (·.row)).getD 0) := by
  refine ⟨⟨fun _ => by decide, by decide, by decide, ?_⟩, ?_⟩
  · intro l hl q _
    unfold tab
    split
    · split <;> decide
    · omega
  · intro p hp i hi hni
    have : p = 4 := by
      have : paddedSize (captureSizes 8) three.lanes.length = some 4 := by decide +kernel
      rw [this] at hp
      exact (Option.some.inj hp).symm
    have hl : three.lanes.length = 3 := by decide
    have : i = 3 := by omega
    subst this
    decide

end Verif.Graph
