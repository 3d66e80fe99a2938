import Verif.Gdn.Guard

/-!
# Gated DeltaNet: properties C98-C102

The specification is `Spec.lean`: `Mem.after` (the memory after reading tokens one at a time),
`Mem.answer`, and for one head `stateAfter`/`outAt`.
-/

namespace Verif.Gdn

/-! ## C98: prefill and decode read the tokens one at a time -/

/-- **C98** (prefill, sequential backend).  Whatever else is in the batch, a request that alone
owns its slot leaves the memory, and gets the answers, of a layer that read its new tokens one at a
time. -/
theorem C98_prefill {s : Shape} (p : Par) (junk : ℕ → ℕ → ℝ) (junk' : ℕ → ℕ → Fin s.V → ℝ)
    (bt : Batch) (pool : Pool s) (pre post : List (ℕ × ℕ)) (slot n : ℕ)
    (alone : ∀ r ∈ pre ++ post, r.1 = slot → r.2 = 0) :
    let start := (pre.map (·.2)).sum
    let r := forwardExtend seqScan p junk junk' (pre ++ (slot, n) :: post) bt pool
    r.1.mem slot = (pool.mem slot).after p (bt.rows start) n ∧
      ∀ t < n, ∀ h, r.2 (start + t) h
        = ((pool.mem slot).after p (bt.rows start) t).answer p (bt.rows start t) h := by
  intro start r
  by_cases hn : n = 0
  · refine ⟨?_, fun t ht => by omega⟩
    subst hn
    refine extend_other _ p junk junk' bt pool _ slot fun q hq e => ?_
    rcases List.mem_append.1 hq with hq | hq
    · exact alone _ (List.mem_append_left _ hq) e
    · rcases List.mem_cons.1 hq with hq | hq
      · subst hq; rfl
      · exact alone _ (List.mem_append_right _ hq) e
  · have key := fun h => extend_own seqScan p junk junk' bt pool pre post slot n h alone hn
      (fun x _ => seq_right n x h)
    refine ⟨?_, fun t ht h => (key h).2.2 t ht⟩
    have h1 := (key 0).1
    have h2 : (r.1.mem slot).ssm = ((pool.mem slot).after p (bt.rows start) n).ssm :=
      funext fun h => (key h).2.1
    show (⟨(r.1.mem slot).conv, (r.1.mem slot).ssm⟩ : Mem s) = _
    rw [h1, h2]

/-- **C98** (decode).  A decode step reads one token. -/
theorem C98_decode {s : Shape} (p : Par) (junk' : ℕ → ℕ → Fin s.V → ℝ) (bt : Batch)
    (pool : Pool s) (pre post : List ℕ) (slot : ℕ) (h1 : slot ∉ pre) (h2 : slot ∉ post) :
    let i := pre.length
    let r := forwardDecode p junk' (pre ++ slot :: post) bt pool
    r.1.mem slot = (pool.mem slot).read p (bt.rows 0 i) ∧
      ∀ h, r.2 i h = (pool.mem slot).answer p (bt.rows 0 i) h := by
  intro i r
  have hget : (pre ++ slot :: post).getD i 0 = slot := by simp [i, List.getD]
  let new : ℕ → (Fin s.w → ℕ → ℝ) × (ℕ → ℝ) := fun j =>
    convDecode p (pool.conv ((pre ++ slot :: post).getD j 0)) (bt.mixed j)
  have hconv : r.1.conv slot = remember (pool.conv slot) (bt.mixed i) := by
    show scatter pool.conv (fun j => (new j).1) 0 (pre ++ slot :: post) slot = _
    rw [scatter_own _ _ _ _ _ _ h2, Nat.zero_add]
    show (convDecode p (pool.conv ((pre ++ slot :: post).getD i 0)) (bt.mixed i)).1 = _
    rw [hget]; rfl
  have htok : ∀ h, (prepDecode s p (fun j => (new j).2) bt).tok h i
      = headTok p (pool.conv slot) (bt.rows 0 i) h := by
    intro h
    rw [prepDecode_eq, prepExtend_tok s p _ bt (pool.conv slot) i h]
    · simp [Batch.rows]
    · intro d
      show silu ((convDecode p (pool.conv ((pre ++ slot :: post).getD i 0)) (bt.mixed i)).2 d) = _
      rw [hget, convDecode_eq]
  obtain ⟨k1, k2⟩ := decodeLoop_own (prepDecode s p (fun j => (new j).2) bt) 0 pre post slot
    (pool.ssm, junk') h1 h2
  rw [Nat.zero_add] at k1 k2
  have hs : r.1.ssm slot = fun h => next (pool.ssm slot h) (headTok p (pool.conv slot) (bt.rows 0 i) h) := by
    refine k1.trans ?_
    funext h
    rw [htok]
  refine ⟨?_, fun h => ?_⟩
  · show (⟨r.1.conv slot, r.1.ssm slot⟩ : Mem s) = ⟨_, _⟩
    rw [hconv, hs]
    simp only [Batch.rows, Nat.zero_add]
    rfl
  · have := congrFun k2 h
    refine this.trans ?_
    rw [htok]
    have hq : (prepDecode s p (fun j => (new j).2) bt).q i h
        = (headTok p (pool.conv slot) (bt.rows 0 i) h).q := congrArg Tok.q (htok h)
    rw [hq]; rfl

/-- Two requests in slots 3 and 1, seven and two new tokens: both alone in their slots. -/
example : (∀ r ∈ ([] : List (ℕ × ℕ)) ++ [(1, 2)], r.1 = 3 → r.2 = 0) ∧
    (∀ r ∈ [(3, 7)] ++ ([] : List (ℕ × ℕ)), r.1 = 1 → r.2 = 0) := by decide

/-! ## C99: the default batched prefill agrees with reading one token at a time -/

/-- **C99** (partial: exact arithmetic, and no chunk in which the accumulated decay falls to
`1e-30`).  For every chunk size, length, number of heads and position in a batch, the batched
chunkwise prefill leaves the memory and gives the answers of reading the tokens one at a time. -/
theorem C99_chunkwise_partial {s : Shape} (C : ℕ) (hC : 0 < C) (p : Par) (junk : ℕ → ℕ → ℝ)
    (junk' : ℕ → ℕ → Fin s.V → ℝ) (bt : Batch) (pool : Pool s) (pre post : List (ℕ × ℕ))
    (slot n h : ℕ) (hh : h < s.HV) (alone : ∀ r ∈ pre ++ post, r.1 = slot → r.2 = 0)
    (fades : let start := (pre.map (·.2)).sum
      ∀ t < n, Real.exp (∑ j ∈ Finset.range (t % C + 1),
        -Real.exp (p.aLog h) * softplus (bt.a (start + (t / C * C + j)) h + p.dtBias h)) > 1e-30) :
    let start := (pre.map (·.2)).sum
    let r := forwardExtend (chunkScan s.HV C) p junk junk' (pre ++ (slot, n) :: post) bt pool
    let m := (pool.mem slot).after p (bt.rows start)
    (r.1.mem slot).conv = (m n).conv ∧ (r.1.mem slot).ssm h = (m n).ssm h ∧
      ∀ t < n, r.2 (start + t) h = (m t).answer p (bt.rows start t) h := by
  intro start r m
  by_cases hn : n = 0
  · subst hn
    have := extend_other (chunkScan s.HV C) p junk junk' bt pool (pre ++ (slot, 0) :: post) slot
      (fun q hq e => by
        rcases List.mem_append.1 hq with hq | hq
        · exact alone _ (List.mem_append_left _ hq) e
        · rcases List.mem_cons.1 hq with hq | hq
          · subst hq; rfl
          · exact alone _ (List.mem_append_right _ hq) e)
    refine ⟨?_, ?_, fun t ht => by omega⟩
    · show (r.1.mem slot).conv = _; rw [this]; rfl
    · show (r.1.mem slot).ssm h = _; rw [this]; rfl
  · refine extend_own (chunkScan s.HV C) p junk junk' bt pool pre post slot n h alone hn ?_
    intro x hx
    refine chunk_right C n x h hC hh (noUnderflow_congr hx ?_)
    intro t ht
    exact fades t ht

/-- The scan alone, on any tensors. -/
theorem C99_scan_partial {K V : ℕ} (HV C L : ℕ) (x : Inp K V) (S0 : ℕ → Mat V K) (h : ℕ)
    (hC : 0 < C) (hh : h < HV)
    (fades : ∀ t < L, Real.exp (∑ j ∈ Finset.range (t % C + 1), x.g (t / C * C + j) h) > 1e-30) :
    (chunkScan HV C L x S0).2 h = stateAfter (S0 h) (x.tok h) L ∧
      ∀ t < L, (chunkScan HV C L x S0).1 t h = outAt (S0 h) (x.tok h) t :=
  ⟨chunkScan_state HV C L x S0 h hC hh fades,
    fun t ht => chunkScan_out HV C L x S0 h t hC hh ht fades⟩

/-- Tokens without any decay meet the condition, for every chunk size and length. -/
example (C L h : ℕ) : ∀ t < L, Real.exp (∑ j ∈ Finset.range (t % C + 1),
    (Inp.mk (K := 2) (V := 2) (fun _ _ _ => 1) (fun _ _ _ => 1) (fun t _ _ => t) (fun _ _ => 0)
      (fun _ _ => 1 / 2)).g (t / C * C + j) h) > 1e-30 := by
  intro t _; simp; norm_num

/-- **C99** fails beyond that: once the decay accumulated since the start of the chunk has fallen
to `1e-30`, the scan forgets the value of the token altogether — any other value gives the same
outputs and the same state — although the token itself, and every later one, should answer with
it: the answers the recurrence gives differ by `beta (k·q) (v' - v)`. -/
theorem C99_faded_value_violated {K V : ℕ} (HV C L : ℕ) (x : Inp K V) (S0 : ℕ → Mat V K)
    (t h : ℕ) (v : Fin V → ℝ) (ht : t < L)
    (faded : Real.exp (∑ j ∈ Finset.range (t % C + 1), x.g (t / C * C + j) h) ≤ 1e-30) :
    chunkScan HV C L (x.setV t h v) S0 = chunkScan HV C L x S0 ∧
      ∀ d, outAt (S0 h) ((x.setV t h v).tok h) t d = outAt (S0 h) (x.tok h) t d
        + x.beta t h * dot (x.k t h) (x.q t h) * (v d - x.v t h d) :=
  ⟨setV_chunkScan x S0 L HV C t h v faded ht, outAt_setV x (S0 h) t h v⟩

theorem exp_neg_hundred : Real.exp (-100) ≤ 1e-30 := by
  have h1 : (2 : ℝ) ≤ Real.exp 1 := by
    have := Real.add_one_le_exp (1 : ℝ); linarith
  have h2 : (2 : ℝ) ^ 100 ≤ Real.exp 1 ^ 100 := pow_le_pow_left₀ (by norm_num) h1 100
  rw [← Real.exp_nat_mul] at h2
  rw [Real.exp_neg]
  have h3 : (1e30 : ℝ) ≤ Real.exp 100 := by
    refine le_trans (by norm_num) (h2.trans (le_of_eq ?_))
    congr 1; norm_num
  calc (Real.exp 100)⁻¹ ≤ (1e30 : ℝ)⁻¹ := inv_anti₀ (by norm_num) h3
    _ = 1e-30 := by norm_num

/-- Two tokens, the first with log decay `-100`; queries equal to keys, all ones. -/
noncomputable def fadedInp : Inp 1 1 where
  q _ _ _ := 1
  k _ _ _ := 1
  v _ _ _ := 3
  g t _ := if t = 0 then -100 else 0
  beta _ _ := 1 / 2

/-- A concrete prompt of two tokens on which the batched scan answers wrongly. -/
theorem C99_faded_witness_violated :
    ∃ t < 2, (chunkScan 1 128 2 fadedInp (fun _ _ _ => 0)).1 t 0
        ≠ outAt (fun _ _ => 0) (fadedInp.tok 0) t ∨
      (chunkScan 1 128 2 (fadedInp.setV 1 0 (fun _ => 0)) (fun _ _ _ => 0)).1 t 0
        ≠ outAt (fun _ _ => 0) ((fadedInp.setV 1 0 (fun _ => 0)).tok 0) t := by
  have hf : Real.exp (∑ j ∈ Finset.range (1 % 128 + 1), fadedInp.g (1 / 128 * 128 + j) 0) ≤ 1e-30 := by
    have : ∑ j ∈ Finset.range (1 % 128 + 1), fadedInp.g (1 / 128 * 128 + j) 0 = -100 := by
      simp [fadedInp, Finset.sum_range_succ]
    rw [this]; exact exp_neg_hundred
  obtain ⟨h1, h2⟩ := C99_faded_value_violated 1 128 2 fadedInp (fun _ _ _ => 0) 1 0 (fun _ => 0)
    (by omega) hf
  by_contra hc
  push Not at hc
  obtain ⟨e1, e2⟩ := hc 1 (by omega)
  rw [h1, e1] at e2
  have h3 := h2 0
  rw [← e2] at h3
  simp [fadedInp, dot] at h3

/-! ## C100: a prompt may be cut anywhere -/

theorem after_add {s : Shape} (p : Par) (m : Mem s) (r : ℕ → Row) (a b : ℕ) :
    m.after p r (a + b) = (m.after p r a).after p (fun t => r (a + t)) b := by
  induction b with
  | zero => rfl
  | succ b ih =>
    show (m.after p r (a + b)).read p (r (a + b)) = _
    rw [ih]; rfl

/-- **C100** (chunked prefill).  Reading `a` tokens in one batch and the next `b` in a later one
leaves the memory and gives the answers of reading all `a + b` in one batch, whatever else those
three batches contain, and whatever happened to other slots in between. -/
theorem C100_cut {s : Shape} (p : Par) (junk : ℕ → ℕ → ℝ) (junk' : ℕ → ℕ → Fin s.V → ℝ)
    (bt bt1 bt2 : Batch) (pool pool1 pool2 : Pool s)
    (pre post pre1 post1 pre2 post2 : List (ℕ × ℕ)) (slot slot' a b : ℕ)
    (alone : ∀ r ∈ pre ++ post, r.1 = slot → r.2 = 0)
    (alone1 : ∀ r ∈ pre1 ++ post1, r.1 = slot' → r.2 = 0)
    (alone2 : ∀ r ∈ pre2 ++ post2, r.1 = slot' → r.2 = 0)
    (same : pool1.mem slot' = pool.mem slot)
    (kept : pool2.mem slot'
      = (forwardExtend seqScan p junk junk' (pre1 ++ (slot', a) :: post1) bt1 pool1).1.mem slot')
    (rows1 : ∀ t, t < a →
      bt1.rows (pre1.map (·.2)).sum t = bt.rows (pre.map (·.2)).sum t)
    (rows2 : ∀ t, t < b →
      bt2.rows (pre2.map (·.2)).sum t = bt.rows (pre.map (·.2)).sum (a + t)) :
    let whole := forwardExtend seqScan p junk junk' (pre ++ (slot, a + b) :: post) bt pool
    let fst := forwardExtend seqScan p junk junk' (pre1 ++ (slot', a) :: post1) bt1 pool1
    let snd := forwardExtend seqScan p junk junk' (pre2 ++ (slot', b) :: post2) bt2 pool2
    snd.1.mem slot' = whole.1.mem slot ∧
      (∀ t < a, ∀ h, fst.2 ((pre1.map (·.2)).sum + t) h
        = whole.2 ((pre.map (·.2)).sum + t) h) ∧
      ∀ t < b, ∀ h, snd.2 ((pre2.map (·.2)).sum + t) h
        = whole.2 ((pre.map (·.2)).sum + (a + t)) h := by
  intro whole fst snd
  have congr' : ∀ (m : Mem s) (r r' : ℕ → Row) (n : ℕ), (∀ t < n, r t = r' t) →
      m.after p r n = m.after p r' n := by
    intro m r r' n hr
    induction n with
    | zero => rfl
    | succ n ih =>
      show (m.after p r n).read p (r n) = (m.after p r' n).read p (r' n)
      rw [ih fun t ht => hr t (by omega), hr n (by omega)]
  obtain ⟨w1, w2⟩ := C98_prefill p junk junk' bt pool pre post slot (a + b) alone
  obtain ⟨f1, f2⟩ := C98_prefill p junk junk' bt1 pool1 pre1 post1 slot' a alone1
  obtain ⟨s1, s2⟩ := C98_prefill p junk junk' bt2 pool2 pre2 post2 slot' b alone2
  have hm : pool2.mem slot' = (pool.mem slot).after p (bt.rows (pre.map (·.2)).sum) a := by
    rw [kept, f1, same]
    exact congr' _ _ _ _ rows1
  refine ⟨?_, ?_, ?_⟩
  · refine s1.trans (Eq.trans ?_ w1.symm)
    rw [hm, after_add]
    exact congr' _ _ _ _ rows2
  · intro t ht h
    refine (f2 t ht h).trans (Eq.trans ?_ (w2 t (by omega) h).symm)
    rw [same, congr' _ _ _ t (fun i hi => rows1 i (by omega)), rows1 t ht]
  · intro t ht h
    refine (s2 t ht h).trans (Eq.trans ?_ (w2 (a + t) (by omega) h).symm)
    rw [hm, after_add, congr' _ _ (fun t => bt.rows (pre.map (·.2)).sum (a + t)) t
      (fun i hi => rows2 i (by omega)), rows2 t ht]

/-- **C100** (decoding).  A decode step is a prefill of one token: same memory, same answer. -/
theorem C100_decode {s : Shape} (p : Par) (junk : ℕ → ℕ → ℝ) (junk' junk2 : ℕ → ℕ → Fin s.V → ℝ)
    (bt bt2 : Batch) (pool pool2 : Pool s) (pre post : List (ℕ × ℕ)) (pre2 post2 : List ℕ)
    (slot slot' : ℕ) (alone : ∀ r ∈ pre ++ post, r.1 = slot → r.2 = 0) (h1 : slot' ∉ pre2)
    (h2 : slot' ∉ post2) (same : pool2.mem slot' = pool.mem slot)
    (row : bt2.rows 0 pre2.length = bt.rows (pre.map (·.2)).sum 0) :
    let e := forwardExtend seqScan p junk junk' (pre ++ (slot, 1) :: post) bt pool
    let d := forwardDecode p junk2 (pre2 ++ slot' :: post2) bt2 pool2
    d.1.mem slot' = e.1.mem slot ∧
      ∀ h, d.2 pre2.length h = e.2 (pre.map (·.2)).sum h := by
  intro e d
  obtain ⟨e1, e2⟩ := C98_prefill p junk junk' bt pool pre post slot 1 alone
  obtain ⟨d1, d2⟩ := C98_decode p junk2 bt2 pool2 pre2 post2 slot' h1 h2
  refine ⟨?_, fun h => ?_⟩
  · refine d1.trans (Eq.trans ?_ e1.symm)
    rw [same, row]; rfl
  · refine (d2 h).trans (Eq.trans ?_ (e2 0 (by omega) h).symm)
    rw [same, row]; rfl

/-! ## C101: requests of a batch do not disturb each other -/

/-- **C101**.  A prefill batch, on either backend, leaves the memory of every slot it has no tokens
for; in particular padding slots and idle requests. -/
theorem C101_prefill_others {s : Shape} (scan : Scan s) (p : Par) (junk : ℕ → ℕ → ℝ)
    (junk' : ℕ → ℕ → Fin s.V → ℝ) (bt : Batch) (pool : Pool s) (reqs : List (ℕ × ℕ)) (slot : ℕ)
    (idle : ∀ r ∈ reqs, r.1 = slot → r.2 = 0) :
    (forwardExtend scan p junk junk' reqs bt pool).1.mem slot = pool.mem slot :=
  extend_other scan p junk junk' bt pool reqs slot idle

/-- **C101** for decode batches. -/
theorem C101_decode_others {s : Shape} (p : Par) (junk' : ℕ → ℕ → Fin s.V → ℝ) (bt : Batch)
    (pool : Pool s) (slots : List ℕ) (slot : ℕ) (idle : slot ∉ slots) :
    (forwardDecode p junk' slots bt pool).1.mem slot = pool.mem slot := by
  show (⟨_, _⟩ : Mem s) = ⟨_, _⟩
  congr 1
  · exact scatter_other _ _ _ _ _ idle
  · exact decodeLoop_other _ _ _ _ _ idle

/-- **C101**: what a request gets depends on its own memory and tokens only, not on the company it
keeps, its position in the batch, the slot it holds, or what fresh tensors contain. -/
theorem C101_company {s : Shape} (p : Par) (junk junk2 : ℕ → ℕ → ℝ)
    (junk' junk2' : ℕ → ℕ → Fin s.V → ℝ) (bt bt2 : Batch) (pool pool2 : Pool s)
    (pre post pre2 post2 : List (ℕ × ℕ)) (slot slot2 n : ℕ)
    (alone : ∀ r ∈ pre ++ post, r.1 = slot → r.2 = 0)
    (alone2 : ∀ r ∈ pre2 ++ post2, r.1 = slot2 → r.2 = 0)
    (same : pool2.mem slot2 = pool.mem slot)
    (rows : ∀ t, t < n → bt2.rows (pre2.map (·.2)).sum t = bt.rows (pre.map (·.2)).sum t) :
    let r := forwardExtend seqScan p junk junk' (pre ++ (slot, n) :: post) bt pool
    let r2 := forwardExtend seqScan p junk2 junk2' (pre2 ++ (slot2, n) :: post2) bt2 pool2
    r2.1.mem slot2 = r.1.mem slot ∧
      ∀ t < n, ∀ h, r2.2 ((pre2.map (·.2)).sum + t) h = r.2 ((pre.map (·.2)).sum + t) h := by
  intro r r2
  have congr' : ∀ (m : Mem s) (r r' : ℕ → Row) (n : ℕ), (∀ t < n, r t = r' t) →
      m.after p r n = m.after p r' n := by
    intro m r r' n hr
    induction n with
    | zero => rfl
    | succ n ih =>
      show (m.after p r n).read p (r n) = (m.after p r' n).read p (r' n)
      rw [ih fun t ht => hr t (by omega), hr n (by omega)]
  obtain ⟨a1, a2⟩ := C98_prefill p junk junk' bt pool pre post slot n alone
  obtain ⟨b1, b2⟩ := C98_prefill p junk2 junk2' bt2 pool2 pre2 post2 slot2 n alone2
  refine ⟨?_, fun t ht h => ?_⟩
  · refine b1.trans (Eq.trans ?_ a1.symm)
    rw [same]
    exact congr' _ _ _ _ rows
  · refine (b2 t ht h).trans (Eq.trans ?_ (a2 t ht h).symm)
    rw [same, congr' _ _ _ t (fun i hi => rows i (by omega)), rows t ht]

/-! ## C102: the older chunkwise scan -/

/-- **C102** (partial: chunks of at most two tokens, decays above the clamp).  The older chunkwise
scan agrees with the recurrence. -/
theorem C102_old_partial {K V : ℕ} (C L : ℕ) (x : Inp K V) (S0 : ℕ → Mat V K) (h : ℕ)
    (hC : 0 < C) (hC2 : C ≤ 2) (unclamped : ∀ t < L, 1e-10 ≤ Real.exp (x.g t h)) :
    (oldScan C L x S0).2 h = stateAfter (S0 h) (x.tok h) L ∧
      ∀ t < L, (oldScan C L x S0).1 t h = outAt (S0 h) (x.tok h) t := by
  constructor
  · show oldEntry C L x S0 ((L + C - 1) / C) h = _
    have h1 := Nat.div_mul_le_self (L + C - 1) C
    have h2 := Nat.lt_div_mul_add hC (a := L + C - 1)
    rw [oldEntry_eq x S0 hC hC2 unclamped _ (by omega)]
    congr 1
    omega
  · intro t ht
    have hlc : t / C * C + t % C = t := by rw [mul_comm]; exact Nat.div_add_mod t C
    have hm := Nat.mod_lt t hC
    show (rowsAt x (t / C * C) h).outOld (min (t / C * C + C) L - t / C * C)
      (oldEntry C L x S0 (t / C) h) (t % C) = _
    have hu : ∀ i < min (t / C * C + C) L - t / C * C, (rowsAt x (t / C * C) h).Unclamped i :=
      fun i hi => unclamped _ (by omega)
    rw [Chunk.outOld_short _ _ _ (by omega) (by omega) _ hu,
      oldEntry_eq x S0 hC hC2 unclamped _ (by omega), Nat.min_eq_left (by omega)]
    unfold outAt
    congr 1
    · rw [stateAfter_congr _ _ (fun i => x.tok h (t / C * C + i)) _ (fun i _ => rowsAt_tok ..),
        ← stateAfter_add, show t / C * C + (t % C + 1) = t + 1 by omega]
    · rw [rowsAt_tok, hlc]

/-- **C102** fails from the third token of a chunk on: on a prompt of three tokens in one chunk,
the state it leaves is off by exactly this much. -/
theorem C102_third_token_violated {K V : ℕ} (C : ℕ) (hC : 3 ≤ C) (x : Inp K V)
    (S0 : ℕ → Mat V K) (h : ℕ) (unclamped : ∀ t < 3, 1e-10 ≤ Real.exp (x.g t h)) (d : Fin V)
    (a : Fin K) :
    (oldScan C 3 x S0).2 h d a = stateAfter (S0 h) (x.tok h) 3 d a
      - Real.exp (∑ j ∈ Finset.range 3, x.g j h)
        * (x.beta 0 h * x.beta 1 h * x.beta 2 h) * dot (x.k 0 h) (x.k 1 h)
        * (dot (S0 h d) (x.k 1 h) * dot (x.k 0 h) (x.k 2 h)
          - dot (S0 h d) (x.k 0 h) * dot (x.k 1 h) (x.k 2 h)) * x.k 2 h a := by
  have hq : (3 + C - 1) / C = 1 := by
    rw [Nat.div_eq_iff (by omega)]; omega
  show oldEntry C 3 x S0 ((3 + C - 1) / C) h d a = _
  rw [hq, oldEntry, Nat.zero_mul, Nat.zero_add, Nat.min_eq_right hC]
  have := Chunk.passOld_three (rowsAt x 0 h) (S0 h) (fun i hi => by
    show 1e-10 ≤ Real.exp (x.g (0 + i) h)
    rw [Nat.zero_add]; exact unclamped i hi) d a
  simp only [Nat.sub_zero]
  rw [show oldEntry C 3 x S0 0 h = S0 h from rfl, this,
    stateAfter_congr _ (rowsAt x 0 h).tok (x.tok h) 3 (fun i _ => by rw [rowsAt_tok, Nat.zero_add])]
  simp [rowsAt, Finset.sum_range_succ]

/-- Unit keys `(1,0)`, `(3/5,4/5)`, `(0,1)`, gates one half, no decay, non-zero state. -/
noncomputable def threeInp : Inp 2 1 where
  q _ _ _ := 1
  k t _ := if t = 0 then ![1, 0] else if t = 1 then ![3/5, 4/5] else ![0, 1]
  v _ _ _ := 0
  g _ _ := 0
  beta _ _ := 1 / 2

/-- With that prompt, the default chunk size and a state of ones, the state left is wrong. -/
theorem C102_witness_violated :
    (oldScan 64 3 threeInp (fun _ _ _ => 1)).2 0 ≠ stateAfter (fun _ _ => 1) (threeInp.tok 0) 3 := by
  intro e
  have := C102_third_token_violated 64 (by omega) threeInp (fun _ _ _ => 1) 0
    (fun t _ => by simp [threeInp]; norm_num) 0 1
  rw [e] at this
  simp [threeInp, dot, Fin.sum_univ_two] at this

/-- Two tokens a chunk, no decay: the positive theorem's hypotheses are met. -/
example : ∀ t < 50, (1e-10 : ℝ) ≤ Real.exp (threeInp.g t 0) := by
  intro t _; simp [threeInp]; norm_num

end Verif.Gdn
