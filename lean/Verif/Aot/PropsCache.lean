import Verif.Aot.PropsRun

namespace Verif.Aot

variable {c : Cfg} {α Lg : Type}

/-! ### C144: masks -/

/-- The mask tensor after `prefill` from position 0 has executed chunks of the given sizes. -/
def maskAfter (ctx ar w : Nat) (junk : Mem Bool) : List Nat → Option (Nat × Mem Bool)
  | [] =>
    (initMask ctx ar (iota ar) 0 none junk).bind fun m0 =>
    (initMask ctx ar (iota ar) 0 (some (w, [])) m0).bind fun m1 => some (0, m1)
  | n :: ns =>
    (maskAfter ctx ar w junk ns).bind fun r =>
    (updMask ctx ar r.1 n none r.2).bind fun m1 =>
    (updMask ctx ar r.1 n (some (w, [])) m1).bind fun m2 => some (r.1 + n, m2)

/-- Position `p` may look at position `q` under a causal window of `w` tokens (itself included). -/
def Allowed (w p q : Nat) : Prop := q ≤ p ∧ p < q + w

/-- **C144.**  With a window of at least the chunk length: after any chunks (the sizes newest first) the row of the
`i`-th token of the next chunk attends to the cached position `q` exactly if the causal window allows it, likewise to
the tokens of its own chunk, and to no unused column. -/
theorem C144_window {ctx ar w : Nat} {junk : Mem Bool} (har : ar ≤ ctx) (hw : ar ≤ w) : ∀ (ns : List Nat), ns.sum ≤ ctx - ar →
    ∃ m, maskAfter ctx ar w junk ns = some (ns.sum, m) ∧
      (∀ i q, i < ar → q < ns.sum → (m (i * ctx + q) = true ↔ Allowed w (ns.sum + i) q)) ∧
      (∀ i k, i < ar → k < ar → (m (i * ctx + (ctx - ar + k)) = true ↔ Allowed w (ns.sum + i) (ns.sum + k))) ∧
      (∀ i x, i < ar → ns.sum ≤ x → x < ctx - ar → m (i * ctx + x) = false) := by
  intro ns
  suffices hmain : ns.sum ≤ ctx - ar → ∃ m, maskAfter ctx ar w junk ns = some (ns.sum, m) ∧ MaskOk ctx ar m (updCut (some w) ns.sum) ns.sum by
    intro hs
    obtain ⟨m, e, h⟩ := hmain hs
    refine ⟨m, e, ?_, ?_, ?_⟩
    · intro i q hi hq
      rw [h i hi q (by omega)]
      unfold Allowed
      show (ns.sum + i + 1 - w ≤ q ∧ _) ∨ _ ↔ _
      omega
    · intro i k hi hk
      rw [h i hi _ (by omega)]
      unfold Allowed
      omega
    · intro i x hi h1 h2
      rw [← Bool.not_eq_true, h i hi x (by omega)]
      omega
  induction ns with
  | nil =>
    intro _
    obtain ⟨m0, i1, _⟩ := initMask_spec (ctx := ctx) (ar := ar) (past := 0) (slide := none) (m := junk) har (by omega) (fun k _ => Nat.zero_le _)
    obtain ⟨m1, i3, i4⟩ := initMask_spec (ctx := ctx) (ar := ar) (past := 0) (slide := some w) (m := m0) har (by omega)
      (fun k hk => by show 2 * 0 + k + 1 - w ≤ _; omega)
    have i1' : initMask ctx ar (iota ar) 0 none junk = some m0 := i1
    have i3' : initMask ctx ar (iota ar) 0 (some ((w : Int), [])) m0 = some m1 := i3
    refine ⟨m1, ?_, ?_⟩
    · unfold maskAfter
      rw [i1', Option.bind_some, i3', Option.bind_some]
      rfl
    · intro i hi x hx
      rw [i4 i hi x hx]
      show (2 * 0 + i + 1 - w ≤ x ∧ _) ∨ _ ↔ (0 + i + 1 - w ≤ x ∧ _) ∨ _
      simp
  | cons n ns ih =>
    intro hs
    rw [List.sum_cons, Nat.add_comm] at hs
    obtain ⟨m, e, h⟩ := ih (by omega)
    obtain ⟨S, hS⟩ : ∃ S, S = ns.sum := ⟨_, rfl⟩
    rw [← hS] at hs e h
    obtain ⟨m1, w1, w2⟩ := updMask_cells (ctx := ctx) (ar := ar) (past := S) (n := n) (slide := none) (m := m) (by omega) (fun k _ => Nat.zero_le _)
    obtain ⟨m2, w3, w4⟩ := updMask_cells (ctx := ctx) (ar := ar) (past := S) (n := n) (slide := some w) (m := m1) (by omega)
      (fun k hk => by show S + n + k + 1 - w ≤ ctx; omega)
    have w1' : updMask ctx ar S n none m = some m1 := w1
    have w3' : updMask ctx ar S n (some ((w : Int), [])) m1 = some m2 := w3
    have hsum : (n :: ns).sum = S + n := by rw [List.sum_cons, ← hS, Nat.add_comm]
    rw [hsum]
    refine ⟨m2, ?_, ?_⟩
    · unfold maskAfter
      rw [e, Option.bind_some]
      simp only
      rw [w1', Option.bind_some, w3', Option.bind_some]
    · intro i hi x hx
      have h' := h i hi x hx
      rw [w4 i x hi hx, w2 i x hi hx]
      show ((if x < S + n + i + 1 - w then false else if S ≤ x ∧ x < S + n then true else
        if x < 0 then false else if S ≤ x ∧ x < S + n then true else m (i * ctx + x)) = true) ↔ (S + n + i + 1 - w ≤ x ∧ _) ∨ _
      have h'' : m (i * ctx + x) = true ↔ (S + i + 1 - w ≤ x ∧ x < S) ∨ (ctx - ar ≤ x ∧ x ≤ ctx - ar + i) := h'
      by_cases a1 : x < S + n + i + 1 - w
      · rw [if_pos a1]
        constructor
        · intro h; cases h
        · omega
      · rw [if_neg a1]
        by_cases a2 : S ≤ x ∧ x < S + n
        · rw [if_pos a2]
          exact ⟨fun _ => Or.inl (by omega), fun _ => rfl⟩
        · rw [if_neg a2, if_neg (Nat.not_lt_zero _), if_neg a2, h'']
          omega

/-- Two chunks of four tokens, a window of six, a context of twenty. -/
example : ∃ m, maskAfter 20 4 6 (fun _ => true) [4, 4] = some (8, m) ∧ m (0 * 20 + 2) = false ∧ m (0 * 20 + 3) = true := by
  obtain ⟨m, e, h, _, _⟩ := C144_window (ctx := 20) (ar := 4) (w := 6) (junk := fun _ => true) (by norm_num) (by norm_num) [4, 4] (by norm_num)
  refine ⟨m, e, ?_, ?_⟩
  · rw [← Bool.not_eq_true, h 0 2 (by norm_num) (by norm_num)]; unfold Allowed; norm_num
  · rw [h 0 3 (by norm_num) (by norm_num)]; unfold Allowed; norm_num

/-- **C144, violated** (continuing on a filled cache).  `initAttentionMask` subtracts the number of cached tokens
twice: with the window of the runner (the whole context) and more than half of the context cached, the very first row
is forbidden to look at position 0, although the window covers it. -/
theorem C144_start_violated {ctx ar start : Nat} {m : Mem Bool} (har : 1 ≤ ar) (h1 : start + ar ≤ ctx) (h2 : ctx ≤ 2 * start) :
    ∃ m', initMask ctx ar (iota ar) start (some (ctx, [])) m = some m' ∧ Allowed ctx start 0 ∧ 0 < start ∧ m' 0 = false := by
  obtain ⟨m', e, h⟩ := initMask_spec (ctx := ctx) (ar := ar) (past := start) (slide := some ctx) (m := m) (by omega) (by omega)
    (fun k hk => by show 2 * start + k + 1 - ctx ≤ ctx - ar; omega)
  refine ⟨m', e, ⟨by omega, by omega⟩, by omega, ?_⟩
  have := h 0 (by omega) 0 (by omega)
  rw [Nat.zero_mul, Nat.zero_add] at this
  rw [← Bool.not_eq_true, this]
  show ¬ ((2 * start + 0 + 1 - ctx ≤ 0 ∧ _) ∨ _)
  omega

example : (1 : Nat) ≤ 128 ∧ 3000 + 128 ≤ 4096 ∧ 4096 ≤ 2 * 3000 := by norm_num

/-! ### C145: the cache manager -/

/-- **C145** (rearranging).  Rearranging the cache for another graph keeps, for every layer, head and dimension, the
keys and values of every position that fits both arrangements. -/
theorem C145_rearrange {s : Mgr c α} {dst : Nat} (h1 : c.cols s.cur ≤ c.maxCache) (h2 : c.ctx - dst ≤ c.maxCache) :
    ∃ s', s.rearrange dst = some s' ∧ s'.cur = dst ∧
      ∀ j, j < c.cols s.cur → j < c.ctx - dst → pastEnt (c.cols dst) s'.k s'.v j = pastEnt (c.cols s.cur) s.k s.v j :=
  rearrange_spec h1 h2

/-- **C145** (appending).  `updateCache` with an empty selection puts the first `n` new tokens behind the `past`
cached ones and changes nothing else. -/
theorem C145_append {s : Mgr c α} {kout vout : Fin c.layers → Mem α} {past n : Nat}
    (h1 : past + n ≤ c.cols s.cur) (h2 : n ≤ s.cur) (hin : c.cols s.cur ≤ c.maxCache) (hout : s.cur ≤ c.maxAr) :
    ∃ s', s.update kout vout s.cur past n [] = some s' ∧ s'.cur = s.cur ∧
      ∀ j, j < c.cols s.cur → pastEnt (c.cols s.cur) s'.k s'.v j =
        if past ≤ j ∧ j < past + n then pastEnt s.cur kout vout (j - past) else pastEnt (c.cols s.cur) s.k s.v j :=
  update_spec h1 h2 hin hout

/-- The positions of `true`. -/
def selIdx : List Bool → List Nat
  | [] => []
  | true :: r => 0 :: (selIdx r).map (· + 1)
  | false :: r => (selIdx r).map (· + 1)

theorem selIdx_filter : ∀ sel : List Bool, (List.range sel.length).filter (fun i => sel.getD i false) = selIdx sel
  | [] => rfl
  | b :: r => by
    have : (List.map Nat.succ (List.range r.length)).filter (fun i => (b :: r).getD i false) = (selIdx r).map (· + 1) := by
      rw [List.filter_map, ← selIdx_filter r]
      rfl
    rw [List.length_cons, List.range_succ_eq_map, List.filter_cons, this]
    cases b <;> rfl

theorem selIdx_lt : ∀ (sel : List Bool) (i : Nat), i ∈ selIdx sel → i < sel.length
  | [], _, h => by cases h
  | true :: r, i, h => by
    rcases List.mem_cons.1 h with rfl | h
    · simp
    · obtain ⟨q, hq, rfl⟩ := List.mem_map.1 h
      have := selIdx_lt r q hq
      simp only [List.length_cons]; omega
  | false :: r, i, h => by
    obtain ⟨q, hq, rfl⟩ := List.mem_map.1 h
    have := selIdx_lt r q hq
    simp only [List.length_cons]; omega

theorem selKey_row {capD capS : Nat} {out m : Mem α} {p b n : Nat} {f : Nat → Nat} (hD : p + n ≤ capD) (hS : ∀ j, j < n → b + f j < capS) :
    ∃ m', loop (fun j m => put1 m capD (p + j) out capS (b + f j)) n m = some m' ∧
      ∀ y, m' y = if p ≤ y ∧ y < p + n then out (b + f (y - p)) else m y := by
  obtain ⟨t, e, h⟩ := loop_spec (f := fun j m => put1 m capD (p + j) out capS (b + f j))
    (I := fun k t => ∀ y, t y = if p ≤ y ∧ y < p + k then out (b + f (y - p)) else m y) (s := m) n
    (by intro y; rw [if_neg (by omega)])
    (by
      intro i t hi ih
      have := hS i hi
      refine ⟨fun y => if y = p + i then out (b + f i) else t y, ?_, ?_⟩
      · unfold put1; rw [if_pos ⟨by omega, this⟩]
      · intro y
        dsimp only
        by_cases hy : y = p + i
        · rw [if_pos hy, if_pos (by omega), hy, Nat.add_sub_cancel_left]
        · rw [if_neg hy, ih y]
          by_cases h2 : p ≤ y ∧ y < p + i
          · rw [if_pos h2, if_pos (by omega)]
          · rw [if_neg h2, if_neg (by omega)])
  exact ⟨t, e, h⟩

theorem selLoop_spec {capD capS dim n : Nat} {out : Mem α} : ∀ (sel : List Bool) (wp rp cnt : Nat) (m : Mem α), cnt < n →
    n - cnt ≤ (selIdx sel).length → wp + (n - cnt) * dim ≤ capD → rp + sel.length * dim ≤ capS →
    ∃ m', selLoop capD capS dim n out sel wp rp cnt m = some m' ∧
      (∀ q d, q < n - cnt → d < dim → m' (wp + (q * dim + d)) = out (rp + ((selIdx sel).getD q 0 * dim + d))) ∧
      (∀ y, y < wp ∨ wp + (n - cnt) * dim ≤ y → m' y = m y)
  | [], wp, rp, cnt, m => by
    intro h1 h2
    simp [selIdx] at h2
    omega
  | true :: r, wp, rp, cnt, m => by
    intro h1 h2 h3 h4
    rw [List.length_cons, Nat.add_mul, Nat.one_mul] at h4
    have hk : (n - cnt) * dim = (n - (cnt + 1)) * dim + dim := by
      rw [show n - cnt = (n - (cnt + 1)) + 1 by omega]; ring
    rw [hk] at h3
    unfold selLoop
    rw [copy_some (by omega) (by omega), Option.bind_some]
    by_cases hc : cnt + 1 = n
    · rw [if_pos hc]
      refine ⟨_, rfl, ?_, ?_⟩
      · intro q d hq hd
        have : q = 0 := by omega
        subst this
        rw [Nat.zero_mul, Nat.zero_add, if_pos (by omega)]
        show _ = out (rp + (0 * dim + d))
        rw [Nat.zero_mul, Nat.zero_add]
        congr 1; omega
      · intro y hy
        rw [hk] at hy
        rw [if_neg (by omega)]
    · rw [if_neg hc]
      have h2' : n - (cnt + 1) ≤ (selIdx r).length := by
        simp only [selIdx, List.length_cons, List.length_map] at h2; omega
      obtain ⟨m', e, g1, g2⟩ := selLoop_spec (capD := capD) (capS := capS) (dim := dim) (n := n) (out := out) r (wp + dim) (rp + dim) (cnt + 1)
        (fun i => if wp ≤ i ∧ i < wp + dim then out (rp + (i - wp)) else m i) (by omega) h2' (by omega) (by omega)
      refine ⟨m', e, ?_, ?_⟩
      · intro q d hq hd
        cases q with
        | zero =>
          rw [Nat.zero_mul, Nat.zero_add, g2 _ (by omega), if_pos (by omega)]
          show _ = out (rp + (0 * dim + d))
          rw [Nat.zero_mul, Nat.zero_add]
          congr 1; omega
        | succ q =>
          have := g1 q d (by omega) hd
          rw [show wp + ((q + 1) * dim + d) = wp + dim + (q * dim + d) by ring, this]
          have hget : (selIdx (true :: r)).getD (q + 1) 0 = (selIdx r).getD q 0 + 1 := by
            show (0 :: (selIdx r).map (· + 1)).getD (q + 1) 0 = _
            rw [List.getD_cons_succ, List.getD_eq_getElem?_getD, List.getD_eq_getElem?_getD, List.getElem?_map,
              List.getElem?_eq_getElem (show q < (selIdx r).length by omega)]
            rfl
          rw [hget]
          congr 1; ring
      · intro y hy
        rw [hk] at hy
        rw [g2 y (by omega), if_neg (by omega)]
  | false :: r, wp, rp, cnt, m => by
    intro h1 h2 h3 h4
    rw [List.length_cons, Nat.add_mul, Nat.one_mul] at h4
    unfold selLoop
    rw [if_neg (by omega)]
    have h2' : n - cnt ≤ (selIdx r).length := by
      simp only [selIdx, List.length_map] at h2; omega
    obtain ⟨m', e, g1, g2⟩ := selLoop_spec (capD := capD) (capS := capS) (dim := dim) (n := n) (out := out) r wp (rp + dim) cnt m h1 h2' h3 (by omega)
    refine ⟨m', e, ?_, g2⟩
    intro q d hq hd
    rw [g1 q d hq hd]
    have hget : (selIdx (false :: r)).getD q 0 = (selIdx r).getD q 0 + 1 := by
      show ((selIdx r).map (· + 1)).getD q 0 = _
      rw [List.getD_eq_getElem?_getD, List.getD_eq_getElem?_getD, List.getElem?_map,
        List.getElem?_eq_getElem (show q < (selIdx r).length by omega)]
      rfl
    rw [hget]
    congr 1; ring

/-- **C145** (selecting; partial: at least one token is taken and the selection has at least `n` tokens).  `updateCache`
with a selection puts the first `n` *selected* new tokens behind the `past` cached ones, keys and values alike, and
changes nothing else. -/
theorem C145_select_partial {s : Mgr c α} {kout vout : Fin c.layers → Mem α} {past n : Nat} {sel : List Bool}
    (h1 : past + n ≤ c.cols s.cur) (h2 : sel.length ≤ s.cur) (hin : c.cols s.cur ≤ c.maxCache) (hout : s.cur ≤ c.maxAr)
    (hn : 1 ≤ n) (hsel : n ≤ (selIdx sel).length) :
    ∃ s', s.update kout vout s.cur past n sel = some s' ∧ s'.cur = s.cur ∧
      ∀ j, j < c.cols s.cur → pastEnt (c.cols s.cur) s'.k s'.v j =
        if past ≤ j ∧ j < past + n then pastEnt s.cur kout vout ((selIdx sel).getD (j - past) 0) else pastEnt (c.cols s.cur) s.k s.v j := by
  obtain ⟨S, hS⟩ : ∃ S, S = c.cols s.cur := ⟨_, rfl⟩
  rw [← hS] at h1 hin ⊢
  have hne : sel ≠ [] := by rintro rfl; simp [selIdx] at hsel; omega
  have hidx : ∀ q, q < n → trueIdx sel n q = (selIdx sel).getD q 0 := by
    intro q hq
    unfold trueIdx
    rw [if_pos hq, selIdx_filter, List.getD_eq_getElem?_getD]
  have hlt : ∀ q, q < n → (selIdx sel).getD q 0 < s.cur := by
    intro q hq
    rw [List.getD_eq_getElem?_getD, List.getElem?_eq_getElem (by omega)]
    exact lt_of_lt_of_le (selIdx_lt sel _ (List.getElem_mem _)) h2
  have hk : ∀ l : Fin c.layers, ∃ m', updateKey c s.cur (kout l) past n sel (s.k l) = some m' ∧
      ∀ r x, r < c.dim * c.heads → x < S →
        m' (r * S + x) = if past ≤ x ∧ x < past + n then kout l (r * s.cur + (selIdx sel).getD (x - past) 0) else s.k l (r * S + x) := by
    intro l
    unfold updateKey
    rw [if_neg hne, ← hS]
    have hcI : c.dim * c.heads * S ≤ c.capIn := by unfold Cfg.capIn; rw [Nat.mul_comm c.heads]; exact Nat.mul_le_mul_left _ hin
    have hcO : c.dim * c.heads * s.cur ≤ c.capOut := by unfold Cfg.capOut; rw [Nat.mul_comm c.heads]; exact Nat.mul_le_mul_left _ hout
    obtain ⟨t, e, h⟩ := loop_spec
      (f := fun i m => loop (fun j m => put1 m c.capIn (past + i * S + j) (kout l) c.capOut (i * s.cur + trueIdx sel n j)) n m)
      (I := fun k t => ∀ r x, r < c.dim * c.heads → x < S → t (r * S + x) =
        if r < k ∧ past ≤ x ∧ x < past + n then kout l (r * s.cur + (selIdx sel).getD (x - past) 0) else s.k l (r * S + x)) (s := s.k l)
      (c.dim * c.heads) (by intro r x _ _; rw [if_neg (by omega)])
      (by
        intro i t hi ih
        have a1 := row_le hi h1
        obtain ⟨t', e', h'⟩ := selKey_row (capD := c.capIn) (capS := c.capOut) (out := kout l) (m := t) (p := past + i * S) (b := i * s.cur) (n := n)
          (f := trueIdx sel n) (by omega) (by
            intro j hj
            have := hlt j hj
            rw [hidx j hj]
            have := row_le hi (show (selIdx sel).getD j 0 + 1 ≤ s.cur by omega)
            omega)
        refine ⟨t', e', ?_⟩
        intro r x hr hx
        rw [h']
        have hc := cell_iff (i := i) (r := r) hx h1
        by_cases hin' : r = i ∧ past ≤ x ∧ x < past + n
        · have hh := hc.2 hin'
          rw [if_pos (by omega), if_pos (by omega)]
          obtain ⟨rfl, b1, b2⟩ := hin'
          rw [show r * S + x - (past + r * S) = x - past by omega, hidx _ (by omega)]
        · have hh := mt hc.1 hin'
          rw [if_neg (by omega), ih r x hr hx]
          by_cases hk : r < i ∧ past ≤ x ∧ x < past + n
          · rw [if_pos hk, if_pos (by omega)]
          · rw [if_neg hk, if_neg (by omega)])
    refine ⟨t, e, fun r x hr hx => ?_⟩
    rw [h r x hr hx]
    by_cases hk : past ≤ x ∧ x < past + n
    · rw [if_pos hk, if_pos ⟨hr, hk⟩]
    · rw [if_neg hk, if_neg (fun h => hk h.2)]
  have hv : ∀ l : Fin c.layers, ∃ m', updateValue c s.cur (vout l) past n sel (s.v l) = some m' ∧
      ∀ r j d, r < c.heads → j < S → d < c.dim → m' (r * (S * c.dim) + (j * c.dim + d)) =
        if past ≤ j ∧ j < past + n then vout l (r * (s.cur * c.dim) + ((selIdx sel).getD (j - past) 0 * c.dim + d))
        else s.v l (r * (S * c.dim) + (j * c.dim + d)) := by
    intro l
    unfold updateValue
    rw [if_neg hne, ← hS]
    have hcI : c.heads * (S * c.dim) ≤ c.capIn := by
      unfold Cfg.capIn; rw [Nat.mul_comm S, ← Nat.mul_assoc]; exact Nat.mul_le_mul_left _ hin
    have hcO : c.heads * (s.cur * c.dim) ≤ c.capOut := by
      unfold Cfg.capOut; rw [Nat.mul_comm s.cur, ← Nat.mul_assoc]; exact Nat.mul_le_mul_left _ hout
    have hw : past * c.dim + n * c.dim ≤ S * c.dim := by rw [← Nat.add_mul]; exact Nat.mul_le_mul_right _ h1
    obtain ⟨t, e, h⟩ := loop_spec
      (f := fun i m => selLoop c.capIn c.capOut c.dim n (vout l) sel (past * c.dim + i * (S * c.dim)) (i * (s.cur * c.dim)) 0 m)
      (I := fun k t => ∀ r j d, r < c.heads → j < S → d < c.dim → t (r * (S * c.dim) + (j * c.dim + d)) =
        if r < k ∧ past ≤ j ∧ j < past + n then vout l (r * (s.cur * c.dim) + ((selIdx sel).getD (j - past) 0 * c.dim + d))
        else s.v l (r * (S * c.dim) + (j * c.dim + d))) (s := s.v l)
      c.heads (by intro r j d _ _ _; rw [if_neg (by omega)])
      (by
        intro i t hi ih
        have a1 := row_le hi hw
        have a2 := row_le hi (Nat.mul_le_mul_right c.dim h2)
        obtain ⟨t', e', g1, g2⟩ := selLoop_spec (capD := c.capIn) (capS := c.capOut) (dim := c.dim) (n := n) (out := vout l) sel
          (past * c.dim + i * (S * c.dim)) (i * (s.cur * c.dim)) 0 t (by omega) (by omega) (by rw [Nat.sub_zero]; omega) (by omega)
        rw [Nat.sub_zero] at g1 g2
        refine ⟨t', e', ?_⟩
        intro r j d hr hj hd
        have hx : j * c.dim + d < S * c.dim := val_off hj hd
        have hc := cell_iff (i := i) (r := r) hx hw
        have hjin : (past * c.dim ≤ j * c.dim + d ∧ j * c.dim + d < past * c.dim + n * c.dim) ↔ (past ≤ j ∧ j < past + n) := by
          rw [← Nat.add_mul]
          constructor
          · rintro ⟨b1, b2⟩
            constructor
            · by_contra hlt'
              push Not at hlt'
              have := val_off hlt' hd
              omega
            · by_contra hge
              push Not at hge
              have := Nat.mul_le_mul_right c.dim hge
              omega
          · rintro ⟨b1, b2⟩
            have := Nat.mul_le_mul_right c.dim b1
            exact ⟨by omega, val_off b2 hd⟩
        by_cases hin' : r = i ∧ past ≤ j ∧ j < past + n
        · obtain ⟨rfl, hb⟩ := hin'
          have := g1 (j - past) d (by omega) hd
          rw [if_pos ⟨by omega, hb⟩, ← this]
          congr 1
          have := Nat.mul_le_mul_right c.dim hb.1
          rw [Nat.sub_mul]
          omega
        · have hh : ¬ (i * (S * c.dim) + past * c.dim ≤ r * (S * c.dim) + (j * c.dim + d) ∧
              r * (S * c.dim) + (j * c.dim + d) < i * (S * c.dim) + past * c.dim + n * c.dim) := by
            intro h
            obtain ⟨q1, q2⟩ := hc.1 h
            exact hin' ⟨q1, hjin.1 q2⟩
          rw [g2 _ (by omega), ih r j d hr hj hd]
          by_cases hk : r < i ∧ past ≤ j ∧ j < past + n
          · rw [if_pos hk, if_pos (by omega)]
          · rw [if_neg hk, if_neg (by omega)])
    refine ⟨t, e, fun r j d hr hj hd => ?_⟩
    rw [h r j d hr hj hd]
    by_cases hk : past ≤ j ∧ j < past + n
    · rw [if_pos hk, if_pos ⟨hr, hk⟩]
    · rw [if_neg hk, if_neg (fun h => hk h.2)]
  obtain ⟨k, k1, k2⟩ := eachLayer_spec hk
  obtain ⟨v, v1, v2⟩ := eachLayer_spec hv
  refine ⟨⟨s.cur, k, v⟩, ?_, rfl, ?_⟩
  · unfold Mgr.update
    rw [if_neg (by simp), k1, v1]
    rfl
  · intro j hj
    funext l h d
    have e1 := k2 l _ j (ent_row h d) hj
    have e2 := v2 l h j d h.2 hj d.2
    rw [← val_cell] at e2
    by_cases hc : past ≤ j ∧ j < past + n
    · rw [if_pos hc] at e1 e2 ⊢
      show (k l _, v l _) = (kout l _, vout l _)
      rw [e1, e2, val_cell h s.cur]
    · rw [if_neg hc] at e1 e2 ⊢
      show (k l _, v l _) = (s.k l _, s.v l _)
      rw [e1, e2, val_cell]

/-- A small configuration for the examples: one layer, one head, two dimensions, eight positions, chunks of three. -/
def tiny : Cfg := ({ layers := 1, heads := 1, dim := 2, ctx := 8, ar := 3, window := 0, maxAr := 0, maxCache := 0 } : Cfg).load

example : (1 : Nat) + 2 ≤ tiny.cols 3 ∧ [true, false, true].length ≤ 3 ∧ tiny.cols 3 ≤ tiny.maxCache ∧ 3 ≤ tiny.maxAr ∧
    2 ≤ (selIdx [true, false, true]).length := by decide

def l0 : Fin tiny.layers := ⟨0, by decide⟩

/-- The cache after `updateCache(3, 1, n, sel)` on a cache of zeros; the outputs are 100, 101, … -/
def selTest (n : Nat) (sel : List Bool) : Option (Mgr tiny Nat) :=
  Mgr.update (c := tiny) ⟨3, fun _ _ => 0, fun _ _ => 0⟩ (fun _ o => 100 + o) (fun _ o => 100 + o) 3 1 n sel

/-- **C145, violated** (no token taken).  With `n_update = 0` and a selection that starts with `true`, the key cache
stays but values are written all the same: every selected one. -/
theorem C145_zero_violated :
    ((selTest 0 [true, true, false]).map (fun s => (List.range 10).map (s.k l0)) = some [0, 0, 0, 0, 0, 0, 0, 0, 0, 0]) ∧
    ((selTest 0 [true, true, false]).map (fun s => (List.range 10).map (s.v l0)) = some [0, 0, 100, 101, 102, 103, 0, 0, 0, 0]) := by
  decide +kernel

/-- **C145, violated** (a selection with fewer tokens than announced).  The key cache gets copies of the first new
token for the missing ones, the value cache keeps its old contents there. -/
theorem C145_short_violated :
    ((selTest 2 [false, true, false]).map (fun s => (List.range 10).map (s.k l0)) = some [0, 101, 100, 0, 0, 0, 104, 103, 0, 0]) ∧
    ((selTest 2 [false, true, false]).map (fun s => (List.range 10).map (s.v l0)) = some [0, 0, 102, 103, 0, 0, 0, 0, 0, 0]) := by
  decide +kernel

end Verif.Aot
