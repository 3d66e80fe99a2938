import Verif.Gdn.Layer

namespace Verif.Gdn

/-! ## Requests of a batch do not touch each other -/

/-- A loop over jobs, each rewriting one slot and its own rows. -/
def jobStep {α β : Type*} (f : α → Job → α) (g : α → Job → ℕ → β) (st : (ℕ → α) × (ℕ → β))
    (j : Job) : (ℕ → α) × (ℕ → β) :=
  if j.len = 0 then st else
  (Function.update st.1 j.slot (f (st.1 j.slot) j),
   fun t => if j.start ≤ t ∧ t < j.start + j.len then g (st.1 j.slot) j (t - j.start) else st.2 t)

theorem jobs_slot {α β : Type*} (f : α → Job → α) (g : α → Job → ℕ → β) (jobs : List Job)
    (st : (ℕ → α) × (ℕ → β)) (s : ℕ) (h : ∀ j ∈ jobs, j.slot = s → j.len = 0) :
    (jobs.foldl (jobStep f g) st).1 s = st.1 s := by
  induction jobs generalizing st with
  | nil => rfl
  | cons j js ih =>
    rw [List.foldl_cons, ih _ fun a b => h a (List.mem_cons_of_mem _ b)]
    unfold jobStep
    by_cases hl : j.len = 0
    · rw [if_pos hl]
    · rw [if_neg hl]
      exact Function.update_of_ne (fun e => hl (h j (List.mem_cons_self ..) e.symm)) _ _

theorem jobs_row {α β : Type*} (f : α → Job → α) (g : α → Job → ℕ → β) (jobs : List Job)
    (st : (ℕ → α) × (ℕ → β)) (t : ℕ) (h : ∀ j ∈ jobs, ¬ (j.start ≤ t ∧ t < j.start + j.len)) :
    (jobs.foldl (jobStep f g) st).2 t = st.2 t := by
  induction jobs generalizing st with
  | nil => rfl
  | cons j js ih =>
    rw [List.foldl_cons, ih _ fun a b => h a (List.mem_cons_of_mem _ b)]
    unfold jobStep
    split
    · rfl
    · exact if_neg (h j (List.mem_cons_self ..))

theorem layout_append (base : ℕ) (p q : List (ℕ × ℕ)) :
    layout base (p ++ q) = layout base p ++ layout (base + (p.map (·.2)).sum) q := by
  induction p generalizing base with
  | nil => simp [layout]
  | cons a p ih =>
    obtain ⟨s, l⟩ := a
    simp only [List.cons_append, layout, ih, List.map_cons, List.sum_cons]
    rw [Nat.add_assoc]

theorem layout_mem {base : ℕ} {l : List (ℕ × ℕ)} {j : Job} (h : j ∈ layout base l) :
    (j.slot, j.len) ∈ l ∧ base ≤ j.start ∧ j.start + j.len ≤ base + (l.map (·.2)).sum := by
  induction l generalizing base with
  | nil => simp [layout] at h
  | cons a l ih =>
    obtain ⟨s, n⟩ := a
    rcases List.mem_cons.1 h with h | h
    · subst h; simp
    · obtain ⟨h1, h2, h3⟩ := ih h
      refine ⟨List.mem_cons_of_mem _ h1, by omega, ?_⟩
      simp only [List.map_cons, List.sum_cons]; omega

/-- The request that alone owns slot `s` is processed as if by itself. -/
theorem jobs_own {α β : Type*} (f : α → Job → α) (g : α → Job → ℕ → β) (p q : List (ℕ × ℕ))
    (s n : ℕ) (st : (ℕ → α) × (ℕ → β)) (hp : ∀ r ∈ p ++ q, r.1 = s → r.2 = 0) (hn : n ≠ 0) :
    let j : Job := ⟨s, (p.map (·.2)).sum, n⟩
    let r := (layout 0 (p ++ (s, n) :: q)).foldl (jobStep f g) st
    r.1 s = f (st.1 s) j ∧ ∀ t < n, r.2 (j.start + t) = g (st.1 s) j t := by
  intro j r
  have hr : r = (layout (j.start + n) q).foldl (jobStep f g)
      (jobStep f g ((layout 0 p).foldl (jobStep f g) st) j) := by
    show (layout 0 (p ++ (s, n) :: q)).foldl (jobStep f g) st = _
    rw [layout_append, List.foldl_append, Nat.zero_add]
    rfl
  have hs1 : ((layout 0 p).foldl (jobStep f g) st).1 s = st.1 s :=
    jobs_slot f g _ _ _ fun a ha e => hp _ (List.mem_append_left _ (layout_mem ha).1) e
  have hj : jobStep f g ((layout 0 p).foldl (jobStep f g) st) j
      = (Function.update ((layout 0 p).foldl (jobStep f g) st).1 s (f (st.1 s) j),
        fun t => if j.start ≤ t ∧ t < j.start + n then g (st.1 s) j (t - j.start)
          else ((layout 0 p).foldl (jobStep f g) st).2 t) := by
    generalize (layout 0 p).foldl (jobStep f g) st = z at hs1 ⊢
    unfold jobStep
    rw [if_neg hn]
    show (Function.update z.1 s (f (z.1 s) j), _) = _
    rw [← hs1]
  constructor
  · rw [hr, jobs_slot f g _ _ _
      (fun a ha e => hp _ (List.mem_append_right _ (layout_mem ha).1) e), hj]
    exact Function.update_self ..
  · intro t ht
    rw [hr, jobs_row f g, hj]
    · show (if _ then _ else _) = _
      rw [if_pos ⟨by omega, by omega⟩, Nat.add_sub_cancel_left]
    · intro a ha hc
      have := (layout_mem ha).2.1
      omega

/-! ## The convolution -/

theorem xPadded_after {w : ℕ} (prev : Fin w → ℕ → ℝ) (x : ℕ → ℕ → ℝ) (n : ℕ) (i : Fin w) :
    xPadded prev x (n + 1 + i)
      = remember (fun j : Fin w => xPadded prev x (n + j)) (x n) i := by
  unfold remember
  split
  · rename_i h
    show _ = xPadded prev x (n + (i.1 + 1))
    congr 1; omega
  · rename_i h
    have hi := i.2
    unfold xPadded
    rw [dif_neg (by omega)]
    congr 1; omega

theorem convRow_eq {s : Shape} (p : Par) (prev : Fin s.w → ℕ → ℝ) (x : ℕ → ℕ → ℝ) (t d : ℕ) :
    silu (convRow p s.w (xPadded prev x) t d)
      = channel (s := s) p (fun j => xPadded prev x (t + j)) (x t) d := by
  unfold channel convRow
  rw [Finset.sum_range_succ]
  congr 2
  · exact (Fin.sum_univ_eq_sum_range (fun k => xPadded prev x (t + k) d * p.convW d k) s.w).symm
  · unfold xPadded
    rw [dif_neg (by omega), Nat.add_sub_cancel]

theorem convDecode_eq {s : Shape} (p : Par) (st : Fin s.w → ℕ → ℝ) (x : ℕ → ℝ) (d : ℕ) :
    silu ((convDecode p st x).2 d) = channel (s := s) p st x d := by
  unfold channel convDecode
  show silu (∑ k ∈ Finset.range (s.w + 1), _) = _
  rw [Finset.sum_range_succ]
  congr 2
  · rw [← Fin.sum_univ_eq_sum_range
      (fun k => (if h : k < s.w then st ⟨k, h⟩ d else x d) * p.convW d k) s.w]
    refine Finset.sum_congr rfl fun j _ => ?_
    rw [dif_pos j.2]
  · rw [dif_neg (by omega)]

theorem convDecode_fst {w : ℕ} (p : Par) (st : Fin w → ℕ → ℝ) (x : ℕ → ℝ) :
    (convDecode p st x).1 = remember st x := rfl

theorem after_conv {s : Shape} (p : Par) (m : Mem s) (r : ℕ → Row) (n : ℕ) :
    (m.after p r n).conv = fun i : Fin s.w => xPadded m.conv (fun t => (r t).x) (n + i) := by
  induction n with
  | zero =>
    funext i
    show m.conv i = _
    unfold xPadded
    rw [dif_pos (by omega)]
    congr 1
    exact Fin.ext (by simp)
  | succ n ih =>
    funext i
    rw [xPadded_after]
    show remember (m.after p r n).conv (r n).x i = _
    rw [ih]

theorem after_ssm {s : Shape} (p : Par) (m : Mem s) (r : ℕ → Row) (n h : ℕ) :
    (m.after p r n).ssm h
      = stateAfter (m.ssm h) (fun t => headTok p (m.after p r t).conv (r t) h) n := by
  induction n with
  | zero => rfl
  | succ n ih =>
    show next ((m.after p r n).ssm h) _ = next _ _
    rw [ih]

theorem answer_eq {s : Shape} (p : Par) (m : Mem s) (r : ℕ → Row) (t h : ℕ) :
    (m.after p r t).answer p (r t) h
      = outAt (m.ssm h) (fun t => headTok p (m.after p r t).conv (r t) h) t := by
  unfold Mem.answer outAt
  congr 1
  exact after_ssm p m r (t + 1) h

theorem prepExtend_tok (s : Shape) (p : Par) (conv : ℕ → ℕ → ℝ) (bt : Batch) (m : Fin s.w → ℕ → ℝ)
    (t h : ℕ) (hc : ∀ d, silu (conv t d) = channel p m (bt.mixed t) d) :
    (prepExtend s p conv bt).tok h t = headTok p m ⟨bt.mixed t, bt.a t, bt.b t⟩ h := by
  unfold prepExtend Inp.tok headTok keyHead
  by_cases hH : s.H ≠ s.HV
  · simp only [if_pos hH, hc]
  · simp only [if_neg hH, hc]

theorem prepDecode_eq (s : Shape) (p : Par) (conv : ℕ → ℕ → ℝ) (bt : Batch) :
    prepDecode s p conv bt = prepExtend s p conv bt := by
  unfold prepDecode prepExtend
  by_cases hH : s.H ≠ s.HV
  · simp only [if_pos hH]
  · simp only [if_neg hH]

/-! ## Extending one request of a batch -/

/-- A scan that computes the recurrence on head `h` of this input. -/
def Right {s : Shape} (scan : Scan s) (L : ℕ) (x : Inp s.K s.V) (h : ℕ) : Prop :=
  ∀ S0, (scan L x S0).2 h = stateAfter (S0 h) (x.tok h) L ∧
    ∀ t < L, (scan L x S0).1 t h = outAt (S0 h) (x.tok h) t

theorem outAt_congr {K V : ℕ} (S : Mat V K) (x y : ℕ → Tok K V) (t : ℕ)
    (h : ∀ i ≤ t, x i = y i) : outAt S x t = outAt S y t := by
  unfold outAt
  rw [stateAfter_congr S x y (t + 1) (fun i hi => h i (by omega)), h t (le_refl _)]

/-- The inputs the scan of a request sees, given its memory before the batch. -/
noncomputable def seen {s : Shape} (p : Par) (m : Mem s) (r : ℕ → Row) : Inp s.K s.V where
  q t h := (headTok p (m.after p r t).conv (r t) h).q
  k t h := (headTok p (m.after p r t).conv (r t) h).k
  v t h := (headTok p (m.after p r t).conv (r t) h).v
  g t h := (headTok p (m.after p r t).conv (r t) h).g
  beta t h := (headTok p (m.after p r t).conv (r t) h).beta

theorem extend_conv {s : Shape} (p : Par) (junk : ℕ → ℕ → ℝ) (bt : Batch) (pool : Pool s)
    (pre post : List (ℕ × ℕ)) (slot n : ℕ) (hp : ∀ r ∈ pre ++ post, r.1 = slot → r.2 = 0)
    (hn : n ≠ 0) :
    let start := (pre.map (·.2)).sum
    let c := (layout 0 (pre ++ (slot, n) :: post)).foldl (convJob p bt.mixed) (pool.conv, junk)
    c.1 slot = ((pool.mem slot).after p (bt.rows start) n).conv ∧
    ∀ t < n, ∀ d, silu (c.2 (start + t) d)
      = channel p ((pool.mem slot).after p (bt.rows start) t).conv (bt.mixed (start + t)) d := by
  intro start c
  let f : (Fin s.w → ℕ → ℝ) → Job → (Fin s.w → ℕ → ℝ) := fun m j i =>
    xPadded m (fun t => bt.mixed (j.start + t)) (j.len + i)
  let g : (Fin s.w → ℕ → ℝ) → Job → ℕ → (ℕ → ℝ) := fun m j t =>
    convRow p s.w (xPadded m (fun t => bt.mixed (j.start + t))) t
  obtain ⟨h1, h2⟩ := jobs_own f g pre post slot n (pool.conv, junk) hp hn
  refine ⟨?_, ?_⟩
  · rw [after_conv]; exact h1
  · intro t ht d
    rw [after_conv]
    have : c.2 (start + t) = convRow p s.w
        (xPadded (pool.conv slot) (fun t => bt.mixed (start + t))) t := h2 t ht
    rw [this, convRow_eq]
    rfl

theorem slice_tok {K V : ℕ} (x : Inp K V) (st h t : ℕ) :
    (x.slice st).tok h t = x.tok h (st + t) := rfl

/-- What a request sees is a function of its own rows only. -/
theorem extend_own {s : Shape} (scan : Scan s) (p : Par) (junk : ℕ → ℕ → ℝ)
    (junk' : ℕ → ℕ → Fin s.V → ℝ) (bt : Batch) (pool : Pool s) (pre post : List (ℕ × ℕ))
    (slot n h : ℕ) (hp : ∀ r ∈ pre ++ post, r.1 = slot → r.2 = 0) (hn : n ≠ 0)
    (hr : ∀ x : Inp s.K s.V, (∀ t < n, x.tok h t
      = (seen p (pool.mem slot) (bt.rows (pre.map (·.2)).sum)).tok h t) → Right scan n x h) :
    let start := (pre.map (·.2)).sum
    let r := forwardExtend scan p junk junk' (pre ++ (slot, n) :: post) bt pool
    let m := (pool.mem slot).after p (bt.rows start)
    (r.1.mem slot).conv = (m n).conv ∧ (r.1.mem slot).ssm h = (m n).ssm h ∧
      ∀ t < n, r.2 (start + t) h = (m t).answer p (bt.rows start t) h := by
  intro start r m
  obtain ⟨hc1, hc2⟩ := extend_conv p junk bt pool pre post slot n hp hn
  set c := (layout 0 (pre ++ (slot, n) :: post)).foldl (convJob p bt.mixed) (pool.conv, junk)
    with hcdef
  set x := prepExtend s p c.2 bt with hx
  have htok : ∀ t < n, (x.slice start).tok h t = (seen p (pool.mem slot) (bt.rows start)).tok h t := by
    intro t ht
    rw [slice_tok, hx, prepExtend_tok s p c.2 bt _ (start + t) h (hc2 t ht)]
    rfl
  obtain ⟨h1, h2⟩ := jobs_own
    (fun (S : ℕ → Mat s.V s.K) j => (scan j.len (x.slice j.start) S).2)
    (fun S j => (scan j.len (x.slice j.start) S).1) pre post slot n (pool.ssm, junk') hp hn
  have hR := hr (x.slice start) htok (pool.ssm slot)
  refine ⟨hc1, ?_, ?_⟩
  · rw [after_ssm]
    have : (r.1.mem slot).ssm = (scan n (x.slice start) (pool.ssm slot)).2 := h1
    rw [this, hR.1]
    exact stateAfter_congr _ _ _ _ fun t ht => htok t ht
  · intro t ht
    have : r.2 (start + t) = (scan n (x.slice start) (pool.ssm slot)).1 t := h2 t ht
    rw [this, hR.2 t ht, answer_eq]
    exact outAt_congr _ _ _ _ fun i hi => htok i (by omega)

theorem extend_other {s : Shape} (scan : Scan s) (p : Par) (junk : ℕ → ℕ → ℝ)
    (junk' : ℕ → ℕ → Fin s.V → ℝ) (bt : Batch) (pool : Pool s) (reqs : List (ℕ × ℕ)) (slot : ℕ)
    (hp : ∀ r ∈ reqs, r.1 = slot → r.2 = 0) :
    (forwardExtend scan p junk junk' reqs bt pool).1.mem slot = pool.mem slot := by
  have h : ∀ j ∈ layout 0 reqs, j.slot = slot → j.len = 0 :=
    fun j hj e => hp _ (layout_mem hj).1 e
  have hc := jobs_slot
    (fun (m : Fin s.w → ℕ → ℝ) j i => xPadded m (fun t => bt.mixed (j.start + t)) (j.len + i))
    (fun m j => convRow p s.w (xPadded m (fun t => bt.mixed (j.start + t))))
    (layout 0 reqs) (pool.conv, junk) slot h
  set x := prepExtend s p ((layout 0 reqs).foldl (convJob p bt.mixed) (pool.conv, junk)).2 bt
  have hs := jobs_slot (fun (S : ℕ → Mat s.V s.K) j => (scan j.len (x.slice j.start) S).2)
    (fun S j => (scan j.len (x.slice j.start) S).1) (layout 0 reqs) (pool.ssm, junk') slot h
  show (⟨_, _⟩ : Mem s) = ⟨_, _⟩
  congr 1

theorem seq_right {s : Shape} (L : ℕ) (x : Inp s.K s.V) (h : ℕ) :
    Right (s := s) seqScan L x h :=
  fun S0 => ⟨seqScan_state L x S0 h, fun t _ => seqScan_out L x S0 t h⟩

theorem chunk_right {s : Shape} (C L : ℕ) (x : Inp s.K s.V) (h : ℕ) (hC : 0 < C) (hh : h < s.HV)
    (hn : NoUnderflow C L x h) : Right (s := s) (chunkScan s.HV C) L x h :=
  fun S0 => ⟨chunkScan_state s.HV C L x S0 h hC hh hn,
    fun t ht => chunkScan_out s.HV C L x S0 h t hC hh ht hn⟩

theorem noUnderflow_congr {K V : ℕ} {C L : ℕ} {x y : Inp K V} {h : ℕ}
    (e : ∀ t < L, x.tok h t = y.tok h t) (hn : NoUnderflow C L y h) : NoUnderflow C L x h := by
  intro t ht
  have hlc : t / C * C + t % C = t := by rw [mul_comm]; exact Nat.div_add_mod t C
  have := hn t ht
  have e2 : ∑ j ∈ Finset.range (t % C + 1), x.g (t / C * C + j) h
      = ∑ j ∈ Finset.range (t % C + 1), y.g (t / C * C + j) h := by
    refine Finset.sum_congr rfl fun j hj => ?_
    have := Finset.mem_range.1 hj
    exact congrArg Tok.g (e _ (by omega))
  rw [e2]; exact this

/-! ## Decoding -/

theorem scatter_other {α : Type*} (buf new : ℕ → α) (i : ℕ) (l : List ℕ) (s : ℕ) (h : s ∉ l) :
    scatter buf new i l s = buf s := by
  induction l generalizing buf i with
  | nil => rfl
  | cons a l ih =>
    rw [scatter, ih _ _ (fun e => h (List.mem_cons_of_mem _ e))]
    exact Function.update_of_ne (fun e => h (List.mem_cons.2 (Or.inl e))) _ _

theorem scatter_own {α : Type*} (buf new : ℕ → α) (i : ℕ) (pre post : List ℕ) (s : ℕ)
    (h : s ∉ post) : scatter buf new i (pre ++ s :: post) s = new (i + pre.length) := by
  induction pre generalizing buf i with
  | nil =>
    show scatter _ new (i + 1) post s = _
    rw [scatter_other _ _ _ _ _ h]; exact Function.update_self ..
  | cons a l ih =>
    show scatter _ new (i + 1) (l ++ s :: post) s = _
    rw [ih]; congr 1; simp only [List.length_cons]; omega

theorem decodeLoop_other {s : Shape} (x : Inp s.K s.V) (i : ℕ) (l : List ℕ)
    (st : (ℕ → ℕ → Mat s.V s.K) × (ℕ → ℕ → Fin s.V → ℝ)) (slot : ℕ) (h : slot ∉ l) :
    (decodeLoop x i l st).1 slot = st.1 slot := by
  induction l generalizing i st with
  | nil => rfl
  | cons a l ih =>
    rw [decodeLoop, ih _ _ (fun e => h (List.mem_cons_of_mem _ e))]
    exact Function.update_of_ne (fun e => h (List.mem_cons.2 (Or.inl e))) _ _

theorem decodeLoop_row {s : Shape} (x : Inp s.K s.V) (i : ℕ) (l : List ℕ)
    (st : (ℕ → ℕ → Mat s.V s.K) × (ℕ → ℕ → Fin s.V → ℝ)) (t : ℕ) (h : t < i) :
    (decodeLoop x i l st).2 t = st.2 t := by
  induction l generalizing i st with
  | nil => rfl
  | cons a l ih =>
    rw [decodeLoop, ih _ _ (by omega)]
    exact Function.update_of_ne (by omega) _ _

theorem decodeLoop_own {s : Shape} (x : Inp s.K s.V) (i : ℕ) (pre post : List ℕ) (slot : ℕ)
    (st : (ℕ → ℕ → Mat s.V s.K) × (ℕ → ℕ → Fin s.V → ℝ)) (h1 : slot ∉ pre) (h2 : slot ∉ post) :
    let r := decodeLoop x i (pre ++ slot :: post) st
    let n := i + pre.length
    r.1 slot = (fun h => next (st.1 slot h) (x.tok h n)) ∧
      r.2 n = fun h => app (next (st.1 slot h) (x.tok h n)) (x.q n h) := by
  induction pre generalizing i st with
  | nil =>
    intro r n
    constructor
    · show (decodeLoop x (i + 1) post _).1 slot = _
      rw [decodeLoop_other _ _ _ _ _ h2]
      show Function.update st.1 slot _ slot = _
      rw [Function.update_self]
      funext h; exact seqStep_fst ..
    · show (decodeLoop x (i + 1) post _).2 i = _
      rw [decodeLoop_row _ _ _ _ _ (by omega)]
      show Function.update st.2 i _ i = _
      rw [Function.update_self]
      funext h; exact seqStep_snd ..
  | cons a l ih =>
    intro r n
    have ha : slot ≠ a := fun e => h1 (e ▸ List.mem_cons_self ..)
    let rr : ℕ → Mat s.V s.K × (Fin s.V → ℝ) := fun h =>
      seqStep (st.1 a h) (x.q i h) (x.k i h) (x.v i h) (x.g i h) (x.beta i h)
    have := ih (i + 1) (Function.update st.1 a (fun h => (rr h).1),
      Function.update st.2 i (fun h => (rr h).2)) (fun e => h1 (List.mem_cons_of_mem _ e))
    simp only at this
    rw [Function.update_of_ne ha] at this
    have hn : i + 1 + l.length = n := by simp only [n, List.length_cons]; omega
    rw [hn] at this
    exact this

end Verif.Gdn
