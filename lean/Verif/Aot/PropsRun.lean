import Verif.Aot.Run

namespace Verif.Aot

variable {c : Cfg} {α Lg : Type}

theorem load_facts (hc : c.load = c) (har : 1 ≤ c.ar) (har' : c.ar ≤ c.ctx) :
    c.window = c.ctx ∧ c.cols c.ar ≤ c.maxCache ∧ c.ctx - 1 ≤ c.maxCache ∧ c.ctx - c.ar ≤ c.maxCache ∧ c.ar ≤ c.maxAr ∧ 1 ≤ c.maxAr ∧
      c.maxCache ≤ c.ctx := by
  have h1 : c.window = c.ctx := by rw [← hc]; rfl
  have h2 : c.maxCache = if c.ar = c.ctx then c.ctx else c.ctx - min 1 c.ar := by
    conv_lhs => rw [← hc]
    rfl
  have h3 : c.maxAr = max 1 c.ar := by
    conv_lhs => rw [← hc]
    rfl
  refine ⟨h1, ?_, ?_, ?_, by omega, by omega, ?_⟩
  · unfold Cfg.cols
    by_cases h : c.ar = c.ctx
    · rw [h2, if_pos h, if_pos h]
    · rw [h2, if_neg h, if_neg h]; omega
  · by_cases h : c.ar = c.ctx
    · rw [h2, if_pos h]; omega
    · rw [h2, if_neg h]; omega
  · by_cases h : c.ar = c.ctx
    · rw [h2, if_pos h]; omega
    · rw [h2, if_neg h]; omega
  · by_cases h : c.ar = c.ctx
    · rw [h2, if_pos h]
    · rw [h2, if_neg h]; omega

/-- `prefill` from a cache that holds the entries of `hist`. -/
theorem prefill_spec {F : Net c α Lg} {g : Graph c α Lg} (hg : Implements F c.ar g) {greedy : Lg → Int} (hc : c.load = c)
    (har : 1 ≤ c.ar) (har' : c.ar ≤ c.ctx) {s : Mgr c α} {junk : Mem Bool} {lg : Nat → Lg} {hist : List (Ent c α)} {ts : List Int} {t : Int}
    (hcur : c.cols s.cur ≤ c.maxCache) (hH : Holds (c.cols s.cur) s hist) (hfit : hist.length ≤ c.cols s.cur)
    (hhist : 2 * hist.length + c.ar ≤ c.ctx) (hT : hist.length + (ts.length + 1) ≤ c.cols c.ar) :
    ∃ s' lg', prefill g greedy s junk lg (ts ++ [t]) hist.length = some (s', lg', greedy (lastLogits F hist ts t)) ∧
      s'.cur = c.ar ∧ Holds (c.cols c.ar) s' (feed F hist (ts ++ [t])) := by
  obtain ⟨f1, f2, f3, f4, f5, f6, f7⟩ := load_facts hc har har'
  obtain ⟨s0, r1, r2, r3⟩ := rearrange_spec (s := s) (dst := c.ar) hcur f4
  have hH0 : Holds (c.cols c.ar) s0 hist := by
    intro j hj
    rw [r3 j (by omega) (by omega)]
    exact hH j hj
  obtain ⟨m0, i1, _⟩ := initMask_spec (ctx := c.ctx) (ar := c.ar) (past := hist.length) (slide := none) (m := junk) har' (by omega)
    (fun k _ => Nat.zero_le _)
  have hcz : ∀ k, k < c.ar → initCut (some c.window) hist.length k = 0 := by
    intro k hk
    show 2 * hist.length + k + 1 - c.window = 0
    omega
  obtain ⟨m1, i3, i4⟩ := initMask_spec (ctx := c.ctx) (ar := c.ar) (past := hist.length) (slide := some c.window) (m := m0) har' (by omega)
    (fun k hk => by rw [hcz k hk]; omega)
  have i1' : initMask c.ctx c.ar (iota c.ar) hist.length none junk = some m0 := i1
  have i3' : initMask c.ctx c.ar (iota c.ar) hist.length (some ((c.window : Int), [])) m0 = some m1 := i3
  have hlen : (ts ++ [t]).length = ts.length + 1 := by simp
  obtain ⟨s', lg', q1, q2, q3, q4⟩ := prefillLoop_spec hg har har' f1 f2 f5 (ts ++ [t]) (ts ++ [t]).length 0 hist s0 m1 lg
    (Nat.zero_le _) (by omega) r2 hH0 (by omega) (fun _ => ⟨by omega, mask_zero i4 hcz⟩)
  refine ⟨s', lg', ?_, q2, q3⟩
  unfold prefill
  rw [r1, Option.bind_some, i1', Option.bind_some, i3', Option.bind_some, q1, Option.bind_some]
  have h4 := q4 (by omega)
  rw [hlen] at h4 ⊢
  have e1 : (ts.length + 1 + c.ar - 1) % c.ar = (ts.length + 1 - 0 - 1) % c.ar := by
    rw [show ts.length + 1 + c.ar - 1 = (ts.length + 1 - 0 - 1) + c.ar by omega, Nat.add_mod_right]
  rw [e1]
  simp only [h4]
  congr 3
  unfold logitsAt lastLogits
  rw [feed_length]
  simp

/-- The decoding loop. -/
theorem decodeLoop_spec {F : Net c α Lg} {g : Graph c α Lg} (hg : Implements F 1 g) {greedy : Lg → Int} {eos : List Int}
    (hctx : 2 ≤ c.ctx) (hcache : c.ctx - 1 ≤ c.maxCache) (hout : 1 ≤ c.maxAr) :
    ∀ (n : Nat) (tok : Int) (hist : List (Ent c α)) (s : Mgr c α) (mask : Mem Bool),
      s.cur = 1 → Holds (c.ctx - 1) s hist → hist.length + n ≤ c.ctx - 1 → MaskOk c.ctx 1 mask (fun _ => 0) hist.length →
      ∃ s', decodeLoop g greedy eos n tok hist.length s mask = some (s', continueRef F greedy eos n hist tok) ∧ s'.cur = 1
  | 0, tok, hist, s, mask => by
    intro h1 _ _ _
    exact ⟨s, rfl, h1⟩
  | n + 1, tok, hist, s, mask => by
    intro h1 h2 h3 h4
    unfold decodeLoop
    rw [if_neg (by omega)]
    obtain ⟨x, hx⟩ : ∃ x : In c α, x = ⟨fun _ => tok, fun _ => (hist.length : Int), mask, s.k, s.v⟩ := ⟨_, rfl⟩
    simp only [← hx]
    have hcols : c.cols 1 = c.ctx - 1 := by unfold Cfg.cols; rw [if_neg (by omega)]
    obtain ⟨c1, c2⟩ := chunk_spec (x := x) (lo := fun _ => 0) (hist := hist) (chunk := [tok]) hg (by omega) (fun _ _ => rfl) (by omega)
      (by rw [hx]; exact h4) (by intro j hj; rw [hx]; exact h2 j hj) (by simp)
      (by
        intro i hi
        have : i = 0 := by simp at hi; exact hi
        subst this; rw [hx]; rfl)
      (by
        intro i hi
        have : i = 0 := by simp at hi; exact hi
        subst this; rw [hx]; rfl)
    obtain ⟨s', u1, u2, u3⟩ := update_spec (s := s) (kout := (g x).k) (vout := (g x).v) (past := hist.length) (n := 1)
      (by rw [h1, hcols]; omega) (by omega) (by rw [h1, hcols]; exact hcache) (by rw [h1]; exact hout)
    rw [h1] at u1 u2 u3
    rw [u1, Option.bind_some]
    obtain ⟨m', w1, w2⟩ := updMask_cells (ctx := c.ctx) (ar := 1) (past := hist.length) (n := 1) (slide := none) (m := mask) (by omega)
      (fun k _ => Nat.zero_le _)
    have w1' : updMask c.ctx 1 hist.length 1 none mask = some m' := w1
    rw [w1', Option.bind_some]
    have hl : (g x).logits 0 = (F tok hist.length hist).1 := by
      have := c2 0 (by simp)
      rw [this]
      unfold logitsAt
      simp [feed]
    have he : hist ++ [(F tok hist.length hist).2] = hist ++ (List.range 1).map (pastEnt 1 (g x).k (g x).v) := by
      have := c1 1 (by simp)
      rw [this]
      rfl
    rw [hl]
    unfold continueRef
    by_cases ht : greedy (F tok hist.length hist).1 ∈ eos
    · simp only [if_pos ht]
      exact ⟨s', rfl, u2⟩
    · simp only [if_neg ht]
      have hH' : Holds (c.cols 1) s' (hist ++ [(F tok hist.length hist).2]) := by
        have := holds_update (s := s) (s' := s') (kout := (g x).k) (vout := (g x).v) (hist := hist) (n := 1)
          (new := (List.range 1).map (pastEnt 1 (g x).k (g x).v)) (by rw [h1, hcols]; omega) (by rw [u2, h1]) (by rw [h1, hcols]; exact h2)
          (by rw [h1]; exact u3) (by rw [h1])
        rw [u2, ← he] at this
        exact this
      rw [hcols] at hH'
      have hl' : (hist ++ [(F tok hist.length hist).2]).length = hist.length + 1 := by simp
      obtain ⟨s'', d1, d2⟩ := decodeLoop_spec (greedy := greedy) (eos := eos) hg hctx hcache hout n (greedy (F tok hist.length hist).1)
        (hist ++ [(F tok hist.length hist).2])
        s' m' u2 hH' (by rw [hl']; omega) (by
          rw [hl']
          intro i hi y hy
          have h' := h4 i hi y hy
          rw [w2 i y hi hy, if_neg (by show ¬ y < 0; omega)]
          by_cases hc' : hist.length ≤ y ∧ y < hist.length + 1
          · rw [if_pos hc']
            exact ⟨fun _ => Or.inl ⟨Nat.zero_le _, hc'.2⟩, fun _ => rfl⟩
          · rw [if_neg hc', h']
            omega)
      rw [hl'] at d1
      exact ⟨s'', by rw [d1]; rfl, d2⟩

/-! ### C143 -/

/-- `generate` on a prompt that fits: the first token, then the continuation. -/
theorem generate_spec {F : Net c α Lg} {g g1 : Graph c α Lg} (hg : Implements F c.ar g) (hg1 : Implements F 1 g1)
    {greedy : Lg → Int} {eos : List Int} (hc : c.load = c) (har : 1 ≤ c.ar) (har' : c.ar ≤ c.ctx) (hctx : 2 ≤ c.ctx)
    {s : Mgr c α} (hs : s.cur = 1 ∨ s.cur = c.ar) {junk junk1 : Mem Bool} {lg : Nat → Lg} {ts : List Int} {t : Int}
    (hT : ts.length + 1 ≤ c.ctx - c.ar ∨ c.ar = c.ctx) (hT1 : ts.length + 1 ≤ c.ctx - 1) (n : Nat) :
    ∃ s2 lg1 m0, s2.cur = 1 ∧ Holds (c.ctx - 1) s2 (feed F [] (ts ++ [t])) ∧
      MaskOk c.ctx 1 m0 (fun _ => 0) (feed F [] (ts ++ [t])).length ∧
      generate g g1 greedy eos s junk junk1 lg (ts ++ [t]) n =
        (decodeLoop g1 greedy eos n (greedy (lastLogits F [] ts t)) (feed F [] (ts ++ [t])).length s2 m0).bind
          (fun q => some (q.1, lg1, greedy (lastLogits F [] ts t) :: q.2)) := by
  obtain ⟨f1, f2, f3, f4, f5, f6, f7⟩ := load_facts hc har har'
  have hcols : c.cols 1 = c.ctx - 1 := by unfold Cfg.cols; rw [if_neg (by omega)]
  have hcur : c.cols s.cur ≤ c.maxCache := by
    rcases hs with h | h
    · rw [h, hcols]; exact f3
    · rw [h]; exact f2
  have hT' : ts.length + 1 ≤ c.cols c.ar := by
    unfold Cfg.cols
    by_cases h : c.ar = c.ctx
    · rw [if_pos h]; omega
    · rw [if_neg h]; omega
  obtain ⟨s1, lg1, p1, p2, p3⟩ := prefill_spec (greedy := greedy) hg hc har har' (s := s) (junk := junk) (lg := lg) (hist := []) (ts := ts) (t := t)
    hcur (by intro j hj; cases hj) (Nat.zero_le _) (by simpa using har') (by simpa using hT')
  obtain ⟨hist, hh⟩ : ∃ hist, hist = feed F [] (ts ++ [t]) := ⟨_, rfl⟩
  have hl : hist.length = ts.length + 1 := by rw [hh, feed_length]; simp
  rw [← hh] at p3 ⊢
  obtain ⟨s2, q1, q2, q3⟩ := rearrange_spec (s := s1) (dst := 1) (by rw [p2]; exact f2) f3
  have hH2 : Holds (c.ctx - 1) s2 hist := by
    intro j hj
    have := q3 j (by rw [p2]; omega) (by omega)
    rw [hcols, p2] at this
    rw [this]
    exact p3 j hj
  obtain ⟨m0, i1, i2⟩ := initMask_spec (ctx := c.ctx) (ar := 1) (past := hist.length) (slide := none) (m := junk1) (by omega) (by omega)
    (fun k _ => Nat.zero_le _)
  have i1' : initMask c.ctx 1 (iota 1) hist.length none junk1 = some m0 := i1
  refine ⟨s2, lg1, m0, q2, hH2, i2, ?_⟩
  have p1' : prefill g greedy s junk lg (ts ++ [t]) 0 = some (s1, lg1, greedy (lastLogits F [] ts t)) := p1
  unfold generate
  rw [p1', Option.bind_some]
  unfold decode
  simp only
  rw [q1, Option.bind_some, show (ts ++ [t]).length = hist.length by rw [hl]; simp, i1', Option.bind_some]

/-- **C143** (partial: the prompt fits the cache columns of the prefill graph, prompt plus new tokens stay below the
context length, and the first token is not an EOS).  Whatever calls were made before (any cache contents, any stale
mask and logits tensors): `generate` gives the callback exactly the tokens of greedy token-by-token decoding. -/
theorem C143_generate_partial {F : Net c α Lg} {g g1 : Graph c α Lg} (hg : Implements F c.ar g) (hg1 : Implements F 1 g1)
    {greedy : Lg → Int} {eos : List Int} (hc : c.load = c) (har : 1 ≤ c.ar) (har' : c.ar ≤ c.ctx) (hctx : 2 ≤ c.ctx)
    {s : Mgr c α} (hs : s.cur = 1 ∨ s.cur = c.ar) {junk junk1 : Mem Bool} {lg : Nat → Lg} {ts : List Int} {t : Int} {n : Nat}
    (hT : ts.length + 1 ≤ c.ctx - c.ar ∨ c.ar = c.ctx) (hn : ts.length + 1 + n ≤ c.ctx - 1)
    (heos : greedy (lastLogits F [] ts t) ∉ eos) :
    ∃ s' lg', generate g g1 greedy eos s junk junk1 lg (ts ++ [t]) n = some (s', lg', answer F greedy eos ts t n) ∧ s'.cur = 1 := by
  obtain ⟨f1, f2, f3, f4, f5, f6, f7⟩ := load_facts hc har har'
  obtain ⟨s2, lg1, m0, a1, a2, a3, a4⟩ := generate_spec (greedy := greedy) (eos := eos) (junk := junk) (junk1 := junk1) (lg := lg) hg hg1
    hc har har' hctx hs hT (by omega) n
  obtain ⟨s3, d1, d2⟩ := decodeLoop_spec (greedy := greedy) (eos := eos) hg1 hctx f3 f6 n (greedy (lastLogits F [] ts t)) _ s2 m0 a1 a2
    (by rw [feed_length]; simp; omega) a3
  refine ⟨s3, lg1, ?_, d2⟩
  rw [a4, d1, Option.bind_some]
  unfold answer
  simp only [if_neg heos]

/-- **C143** (a prompt continued on a filled cache: `prefill` with a start position; partial: twice the start
position plus the chunk length within the context length, see `C144_start_violated`).  The token is the one after
the whole history, and the cache then holds the entries of history and prompt. -/
theorem C143_resume_partial {F : Net c α Lg} {g : Graph c α Lg} (hg : Implements F c.ar g) {greedy : Lg → Int} (hc : c.load = c)
    (har : 1 ≤ c.ar) (har' : c.ar ≤ c.ctx) (hctx : 2 ≤ c.ctx) {s : Mgr c α} (hs : s.cur = 1 ∨ s.cur = c.ar) {junk : Mem Bool} {lg : Nat → Lg}
    {hist : List (Ent c α)} {ts : List Int} {t : Int} (hH : Holds (c.cols s.cur) s hist)
    (hhist : 2 * hist.length + c.ar ≤ c.ctx) (hT : hist.length + (ts.length + 1) ≤ c.cols c.ar) :
    ∃ s' lg', prefill g greedy s junk lg (ts ++ [t]) hist.length = some (s', lg', greedy (lastLogits F hist ts t)) ∧
      s'.cur = c.ar ∧ Holds (c.cols c.ar) s' (feed F hist (ts ++ [t])) := by
  obtain ⟨f1, f2, f3, f4, f5, f6, f7⟩ := load_facts hc har har'
  have hcols : c.cols 1 = c.ctx - 1 := by unfold Cfg.cols; rw [if_neg (by omega)]
  have hcur : c.cols s.cur ≤ c.maxCache ∧ hist.length ≤ c.cols s.cur := by
    rcases hs with h | h
    · rw [h, hcols]; exact ⟨f3, by omega⟩
    · rw [h]; exact ⟨f2, by omega⟩
  exact prefill_spec hg hc har har' hcur.1 hH hcur.2 hhist hT

/-! ### A graph for every network -/

/-- The rows of an execution, one after the other. -/
def rows [Inhabited α] (F : Net c α Lg) (n : Nat) (x : In c α) : Nat → List (Lg × Ent c α)
  | 0 => []
  | i + 1 =>
    let done := rows F n x i
    done ++ [F (x.ids i) (x.pos i) (attended n x (fun j => (done[j]?.map Prod.snd).getD (fun _ _ _ => default)) i)]

/-- A graph that implements `F`. -/
def refGraph [Inhabited α] [Inhabited Lg] (F : Net c α Lg) (n : Nat) : Graph c α Lg := fun x =>
  let r := rows F n x n
  let ent (j : Nat) : Ent c α := (r[j]?.map Prod.snd).getD (fun _ _ _ => default)
  { logits := fun i => (r[i]?.map Prod.fst).getD default
    k := fun l o => if h : o / n / c.dim < c.heads ∧ o / n % c.dim < c.dim then (ent (o % n) l ⟨_, h.1⟩ ⟨_, h.2⟩).1 else default
    v := fun l o => if h : o / c.dim / n < c.heads ∧ o % c.dim < c.dim then (ent (o / c.dim % n) l ⟨_, h.1⟩ ⟨_, h.2⟩).2 else default }

theorem rows_length [Inhabited α] (F : Net c α Lg) (n : Nat) (x : In c α) : ∀ i, (rows F n x i).length = i
  | 0 => rfl
  | i + 1 => by
    show (rows F n x i ++ [_]).length = _
    rw [List.length_append, rows_length F n x i]; rfl

theorem rows_get [Inhabited α] (F : Net c α Lg) (n : Nat) (x : In c α) {j : Nat} : ∀ i, j < i → (rows F n x i)[j]? = (rows F n x (j + 1))[j]?
  | 0, h => by omega
  | i + 1, h => by
    by_cases hj : j = i
    · rw [hj]
    · show (rows F n x i ++ [_])[j]? = _
      rw [List.getElem?_append_left (by rw [rows_length]; omega)]
      exact rows_get F n x i (by omega)

theorem refGraph_ent [Inhabited α] [Inhabited Lg] (F : Net c α Lg) (n : Nat) (x : In c α) {j : Nat} (hj : j < n) :
    pastEnt n (refGraph F n x).k (refGraph F n x).v j = ((rows F n x n)[j]?.map Prod.snd).getD (fun _ _ _ => default) := by
  funext l h d
  have hn : 0 < n := by omega
  have hd : 0 < c.dim := by have := d.2; omega
  have e1 : ((h : Nat) * c.dim + d) * n + j = (h * c.dim + d) * n + j := rfl
  have a1 : (((h : Nat) * c.dim + d) * n + j) / n = h * c.dim + d := by
    rw [Nat.mul_comm, Nat.mul_add_div hn, Nat.div_eq_of_lt hj, Nat.add_zero]
  have a2 : (((h : Nat) * c.dim + d) * n + j) % n = j := by
    rw [Nat.mul_comm, Nat.mul_add_mod, Nat.mod_eq_of_lt hj]
  have a3 : ((h : Nat) * c.dim + d) / c.dim = h := by
    rw [Nat.mul_comm, Nat.mul_add_div hd, Nat.div_eq_of_lt d.2, Nat.add_zero]
  have a4 : ((h : Nat) * c.dim + d) % c.dim = d := by
    rw [Nat.mul_comm, Nat.mul_add_mod, Nat.mod_eq_of_lt d.2]
  have b1 : (((h : Nat) * n + j) * c.dim + d) / c.dim = h * n + j := by
    rw [Nat.mul_comm, Nat.mul_add_div hd, Nat.div_eq_of_lt d.2, Nat.add_zero]
  have b2 : (((h : Nat) * n + j) * c.dim + d) % c.dim = d := by
    rw [Nat.mul_comm, Nat.mul_add_mod, Nat.mod_eq_of_lt d.2]
  have b3 : ((h : Nat) * n + j) / n = h := by
    rw [Nat.mul_comm, Nat.mul_add_div hn, Nat.div_eq_of_lt hj, Nat.add_zero]
  have b4 : ((h : Nat) * n + j) % n = j := by
    rw [Nat.mul_comm, Nat.mul_add_mod, Nat.mod_eq_of_lt hj]
  have hh := h.2
  have hdd := d.2
  unfold pastEnt refGraph
  simp only [a1, a2, a3, a4, b1, b2, b3, b4]
  rw [dif_pos ⟨hh, hdd⟩, dif_pos ⟨hh, hdd⟩]

/-- Every network has graphs that implement it, for every number of rows: the hypotheses of the theorems above are
satisfiable. -/
theorem refGraph_implements [Inhabited α] [Inhabited Lg] (F : Net c α Lg) (n : Nat) : Implements F n (refGraph F n) := by
  intro x i hi _ _
  obtain ⟨r, hr⟩ : ∃ r, (rows F n x n)[i]? = some r := ⟨_, List.getElem?_eq_getElem (by rw [rows_length]; exact hi)⟩
  have h1 : ((refGraph F n x).logits i, pastEnt n (refGraph F n x).k (refGraph F n x).v i) = r := by
    rw [refGraph_ent F n x hi]
    show (((rows F n x n)[i]?.map Prod.fst).getD default, _) = r
    rw [hr]
    rfl
  rw [h1]
  rw [rows_get F n x n hi] at hr
  have h2 : (rows F n x (i + 1))[i]? = some (F (x.ids i) (x.pos i)
      (attended n x (fun j => ((rows F n x i)[j]?.map Prod.snd).getD (fun _ _ _ => default)) i)) := by
    show (rows F n x i ++ [_])[i]? = _
    rw [List.getElem?_append_right (by rw [rows_length]), rows_length, Nat.sub_self]
    rfl
  rw [h2] at hr
  cases hr
  congr 1
  unfold attended
  congr 1
  apply List.map_congr_left
  intro j hj
  have hj' := List.mem_range.1 (List.mem_filter.1 hj).1
  rw [refGraph_ent F n x (by omega), rows_get F n x n (by omega), rows_get F n x i hj']

/-- The default configuration as loaded, with a prompt of 3000 tokens and 1000 new ones, meets the arithmetic
conditions of `C143_generate_partial`. -/
example : let c : Cfg := ({ layers := 28, heads := 12, dim := 128, ctx := 4096, ar := 128, window := 0, maxAr := 0, maxCache := 0 } : Cfg).load
    c.load = c ∧ 1 ≤ c.ar ∧ c.ar ≤ c.ctx ∧ 2 ≤ c.ctx ∧ 2999 + 1 ≤ c.ctx - c.ar ∧ 2999 + 1 + 1000 ≤ c.ctx - 1 := by decide

end Verif.Aot
