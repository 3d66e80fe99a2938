import Verif.Aot.PropsCache

namespace Verif.Aot

variable {c : Cfg} {α Lg : Type}

/-! ### C143: what goes wrong outside the conditions of `C143_generate_partial` -/

/-- **C143, violated** (EOS).  If the first token is an EOS, the answer is complete; `generate` goes on and gives the
callback at least one more token. -/
theorem C143_eos_violated {F : Net c α Lg} {g g1 : Graph c α Lg} (hg : Implements F c.ar g) (hg1 : Implements F 1 g1)
    {greedy : Lg → Int} {eos : List Int} (hc : c.load = c) (har : 1 ≤ c.ar) (har' : c.ar ≤ c.ctx) (hctx : 2 ≤ c.ctx)
    {s : Mgr c α} (hs : s.cur = 1 ∨ s.cur = c.ar) {junk junk1 : Mem Bool} {lg : Nat → Lg} {ts : List Int} {t : Int} {n : Nat}
    (hT : ts.length + 1 ≤ c.ctx - c.ar ∨ c.ar = c.ctx) (hn : ts.length + 1 + (n + 1) ≤ c.ctx - 1)
    (heos : greedy (lastLogits F [] ts t) ∈ eos) :
    ∃ s' lg' extra more, answer F greedy eos ts t (n + 1) = [greedy (lastLogits F [] ts t)] ∧
      generate g g1 greedy eos s junk junk1 lg (ts ++ [t]) (n + 1) =
        some (s', lg', greedy (lastLogits F [] ts t) :: extra :: more) := by
  obtain ⟨f1, f2, f3, f4, f5, f6, f7⟩ := load_facts hc har har'
  obtain ⟨s2, lg1, m0, a1, a2, a3, a4⟩ := generate_spec (greedy := greedy) (eos := eos) (junk := junk) (junk1 := junk1) (lg := lg) hg hg1
    hc har har' hctx hs hT (by omega) (n + 1)
  obtain ⟨s3, d1, d2⟩ := decodeLoop_spec (greedy := greedy) (eos := eos) hg1 hctx f3 f6 (n + 1) (greedy (lastLogits F [] ts t)) _ s2 m0 a1 a2
    (by rw [feed_length]; simp; omega) a3
  have hcont : ∃ extra more, continueRef F greedy eos (n + 1) (feed F [] (ts ++ [t])) (greedy (lastLogits F [] ts t)) = extra :: more := by
    unfold continueRef
    simp only
    split
    · exact ⟨_, _, rfl⟩
    · exact ⟨_, _, rfl⟩
  obtain ⟨x, xs, hx⟩ := hcont
  refine ⟨s3, lg1, x, xs, ?_, ?_⟩
  · unfold answer
    simp only [if_pos heos]
  · rw [a4, d1, Option.bind_some, hx]

theorem loop_none {σ : Type} {f : Nat → σ → Option σ} {n : Nat} (h : ∀ s, f n s = none) : ∀ s, loop f (n + 1) s = none := by
  intro s
  show (loop f n s).bind (f n) = none
  cases loop f n s with
  | none => rfl
  | some t => exact h t

/-- Writing the last position of the context runs past the end of the key buffer. -/
theorem update_oob {s : Mgr c α} {kout vout : Fin c.layers → Mem α} (h1 : s.cur = 1) (hctx : 2 ≤ c.ctx) (hcache : c.maxCache = c.ctx - 1)
    (hl : 1 ≤ c.layers) (hh : 1 ≤ c.heads) (hd : 1 ≤ c.dim) : s.update kout vout 1 (c.ctx - 1) 1 [] = none := by
  unfold Mgr.update
  rw [if_neg (by simp [h1])]
  rw [eachLayer_none (⟨0, by omega⟩ : Fin c.layers)]
  · rfl
  · unfold updateKey copyRows
    rw [if_pos rfl]
    obtain ⟨R, hR⟩ : ∃ R, c.dim * c.heads = R + 1 := ⟨c.dim * c.heads - 1, by have := Nat.mul_le_mul hd hh; omega⟩
    rw [hR]
    apply loop_none
    intro m
    unfold copy
    rw [if_neg]
    have hcols : c.cols s.cur = c.ctx - 1 := by unfold Cfg.cols; rw [if_neg (by omega)]; omega
    have hcap : c.capIn = (R + 1) * (c.ctx - 1) := by
      unfold Cfg.capIn; rw [Nat.mul_comm c.heads, hR, hcache]
    rw [hcols, hcap, Nat.add_mul, Nat.one_mul]
    omega

theorem decodeLoop_oob {F : Net c α Lg} {g : Graph c α Lg} (hg : Implements F 1 g) {greedy : Lg → Int} {eos : List Int}
    (hctx : 2 ≤ c.ctx) (hcache : c.maxCache = c.ctx - 1) (hout : 1 ≤ c.maxAr) (hl : 1 ≤ c.layers) (hh : 1 ≤ c.heads) (hd : 1 ≤ c.dim)
    (heos : ∀ l, greedy l ∉ eos) :
    ∀ (n : Nat) (tok : Int) (pos : Nat) (s : Mgr c α) (mask : Mem Bool),
      s.cur = 1 → pos ≤ c.ctx - 1 → c.ctx ≤ pos + n → decodeLoop g greedy eos n tok pos s mask = none
  | 0, tok, pos, s, mask => by
    intro _ h2 h3; omega
  | n + 1, tok, pos, s, mask => by
    intro h1 h2 h3
    unfold decodeLoop
    rw [if_neg (by omega)]
    simp only
    by_cases hp : pos = c.ctx - 1
    · rw [hp, update_oob h1 hctx hcache hl hh hd]
      rfl
    · have hcols : c.cols 1 = c.ctx - 1 := by unfold Cfg.cols; rw [if_neg (by omega)]
      obtain ⟨x, hx⟩ : ∃ x : In c α, x = ⟨fun _ => tok, fun _ => (pos : Int), mask, s.k, s.v⟩ := ⟨_, rfl⟩
      rw [← hx]
      obtain ⟨s', u1, u2, _⟩ := update_spec (s := s) (kout := (g x).k) (vout := (g x).v) (past := pos) (n := 1)
        (by rw [h1, hcols]; omega) (by omega) (by rw [h1, hcols]; omega) (by rw [h1]; exact hout)
      rw [h1] at u1 u2
      rw [u1, Option.bind_some]
      obtain ⟨m', w1, _⟩ := updMask_cells (ctx := c.ctx) (ar := 1) (past := pos) (n := 1) (slide := none) (m := mask) (by omega)
        (fun k _ => Nat.zero_le _)
      have w1' : updMask c.ctx 1 pos 1 none mask = some m' := w1
      rw [w1', Option.bind_some, if_neg (heos _)]
      rw [decodeLoop_oob hg hctx hcache hout hl hh hd heos n _ (pos + 1) s' m' u2 (by omega) (by omega)]
      rfl

/-- **C143, violated** (the end of the context).  For every chunk length below the context length: if the prompt plus
the requested tokens reach the context length and no EOS comes, `generate` writes outside the key buffer (the loop
stops one position too late; the caches have `context_len - 1` columns).  The example program asks for `context_len`
tokens. -/
theorem C143_full_context_violated {F : Net c α Lg} {g g1 : Graph c α Lg} (hg : Implements F c.ar g) (hg1 : Implements F 1 g1)
    {greedy : Lg → Int} {eos : List Int} (hc : c.load = c) (har : 1 ≤ c.ar) (har' : c.ar < c.ctx)
    (hl : 1 ≤ c.layers) (hh : 1 ≤ c.heads) (hd : 1 ≤ c.dim)
    {s : Mgr c α} (hs : s.cur = 1 ∨ s.cur = c.ar) {junk junk1 : Mem Bool} {lg : Nat → Lg} {ts : List Int} {t : Int} {n : Nat}
    (hT : ts.length + 1 ≤ c.ctx - c.ar) (hn : c.ctx ≤ ts.length + 1 + n) (heos : ∀ l, greedy l ∉ eos) :
    generate g g1 greedy eos s junk junk1 lg (ts ++ [t]) n = none := by
  obtain ⟨f1, f2, f3, f4, f5, f6, f7⟩ := load_facts hc har (by omega)
  have hcache : c.maxCache = c.ctx - 1 := by
    conv_lhs => rw [← hc]
    show (if c.ar = c.ctx then c.ctx else c.ctx - min 1 c.ar) = _
    rw [if_neg (by omega)]
    omega
  obtain ⟨s2, lg1, m0, a1, a2, a3, a4⟩ := generate_spec (greedy := greedy) (eos := eos) (junk := junk) (junk1 := junk1) (lg := lg) hg hg1
    hc har (by omega) (by omega) hs (Or.inl hT) (by omega) n
  have hfl : (feed F [] (ts ++ [t])).length = ts.length + 1 := by rw [feed_length]; simp
  rw [a4, decodeLoop_oob hg1 (by omega) hcache f6 hl hh hd heos n _ _ s2 m0 a1 (by omega) (by omega)]
  rfl

/-- The numbers of the default configuration: a prompt of 100 tokens, `seq_len = context_len`. -/
example : let c : Cfg := ({ layers := 28, heads := 12, dim := 128, ctx := 4096, ar := 128, window := 0, maxAr := 0, maxCache := 0 } : Cfg).load
    c.load = c ∧ c.ar < c.ctx ∧ 99 + 1 ≤ c.ctx - c.ar ∧ c.ctx ≤ 99 + 1 + 4096 := by decide

/-- **C143, violated** (an empty prompt).  No graph is run; the token is sampled from whatever the previous call left
in the logits tensor. -/
theorem C143_empty_violated {g : Graph c α Lg} {greedy : Lg → Int} (hc : c.load = c) (har : 1 ≤ c.ar) (har' : c.ar ≤ c.ctx)
    {s : Mgr c α} (hs : s.cur = c.ar) {junk : Mem Bool} {lg : Nat → Lg} :
    prefill g greedy s junk lg [] 0 = some (s, lg, greedy (lg (c.ar - 1))) := by
  obtain ⟨f1, f2, f3, f4, f5, f6, f7⟩ := load_facts hc har har'
  obtain ⟨m0, i1, _⟩ := initMask_spec (ctx := c.ctx) (ar := c.ar) (past := 0) (slide := none) (m := junk) har' (by omega)
    (fun k _ => Nat.zero_le _)
  obtain ⟨m1, i3, _⟩ := initMask_spec (ctx := c.ctx) (ar := c.ar) (past := 0) (slide := some c.window) (m := m0) har' (by omega)
    (fun k hk => by show 2 * 0 + k + 1 - c.window ≤ _; omega)
  have i1' : initMask c.ctx c.ar (iota c.ar) 0 none junk = some m0 := i1
  have i3' : initMask c.ctx c.ar (iota c.ar) 0 (some ((c.window : Int), [])) m0 = some m1 := i3
  unfold prefill Mgr.rearrange
  rw [if_pos hs, Option.bind_some, i1', Option.bind_some, i3', Option.bind_some]
  show some (s, lg, greedy (lg ((0 + c.ar - 1) % c.ar))) = _
  rw [Nat.zero_add, Nat.mod_eq_of_lt (by omega)]

/-- **C143, violated** (a prompt longer than the columns of the prefill graph).  If a chunk crosses the end of the
`context_len - ar_len` columns, its keys run over into the next row: in head 0, dimension 1, the key of position 0 is
replaced by the key (dimension 0) of position `context_len - ar_len`. -/
theorem C143_overflow_violated {s : Mgr c α} {kout vout : Fin c.layers → Mem α} {past n : Nat} {s' : Mgr c α} {l : Fin c.layers}
    (hpast : 0 < past) (h1 : past ≤ c.cols s.cur) (h2 : c.cols s.cur < past + n) (h3 : n ≤ c.cols s.cur)
    (hd : 2 ≤ c.dim) (hh : 1 ≤ c.heads)
    (hu : s.update kout vout s.cur past n [] = some s') :
    s'.k l ((0 * c.dim + 1) * c.cols s.cur + 0) = kout l (0 * s.cur + (c.cols s.cur - past)) := by
  obtain ⟨S, hS⟩ : ∃ S, S = c.cols s.cur := ⟨_, rfl⟩
  rw [← hS] at h1 h2 h3 ⊢
  unfold Mgr.update at hu
  rw [if_neg (by simp)] at hu
  rw [Option.bind_eq_some_iff] at hu
  obtain ⟨k, hk, hu⟩ := hu
  rw [Option.bind_eq_some_iff] at hu
  obtain ⟨v, hv, hu⟩ := hu
  cases hu
  have hkl : updateKey c s.cur (kout l) past n [] (s.k l) = some (k l) := by
    unfold eachLayer at hk
    split at hk
    · rename_i hall
      cases hk
      exact (Option.some_get (hall l)).symm
    · cases hk
  unfold updateKey copyRows at hkl
  rw [if_pos rfl, ← hS] at hkl
  have hR : 2 ≤ c.dim * c.heads := by
    calc 2 ≤ c.dim * 1 := by omega
      _ ≤ c.dim * c.heads := Nat.mul_le_mul_left _ hh
  -- rows from 1 on do not write the cell at `S`
  have key : ∀ r m0 m, 1 ≤ r → loop (fun i m => copy m c.capIn (past + i * S) (kout l) c.capOut (i * s.cur) n) r m0 = some m →
      m S = kout l (S - past) := by
    intro r
    induction r with
    | zero => intro _ _ h; omega
    | succ r ih =>
      intro m0 m _ hm
      have hm' : (loop (fun i m => copy m c.capIn (past + i * S) (kout l) c.capOut (i * s.cur) n) r m0).bind
        (fun m => copy m c.capIn (past + r * S) (kout l) c.capOut (r * s.cur) n) = some m := hm
      rw [Option.bind_eq_some_iff] at hm'
      obtain ⟨m1, e1, e2⟩ := hm'
      unfold copy at e2
      split at e2
      · cases e2
        dsimp only
        by_cases hr : r = 0
        · subst hr
          rw [if_pos (by omega)]
          congr 1
          omega
        · have : 1 * S ≤ r * S := Nat.mul_le_mul_right _ (by omega)
          rw [if_neg (by omega)]
          exact ih m0 m1 (by omega) e1
      · cases e2
  have := key _ _ _ (by omega) hkl
  show k l ((0 * c.dim + 1) * S + 0) = _
  rw [Nat.zero_mul, Nat.zero_add, Nat.one_mul, Nat.add_zero, Nat.zero_mul, Nat.zero_add]
  exact this

/-- A network on which this can be seen: the entry of a token is the token, the logits are the sum of all entries
attended to, plus the token. -/
def sumNet (c : Cfg) : Net c Int Int := fun tok _ hist =>
  (tok + (hist.map (fun e => if h : 0 < c.layers ∧ 0 < c.heads ∧ 1 < c.dim then (e ⟨0, h.1⟩ ⟨0, h.2.1⟩ ⟨1, h.2.2⟩).1 else 0)).sum,
    fun _ _ _ => (tok, tok))

/-- Eight positions, chunks of three tokens: five columns. -/
def small : Cfg := ({ layers := 1, heads := 1, dim := 2, ctx := 8, ar := 3, window := 0, maxAr := 0, maxCache := 0 } : Cfg).load

/-- The conditions of `C143_overflow_violated`: the second chunk of a prompt of six tokens. -/
example : let s : Mgr small Int := { Mgr.init small (0 : Int) with cur := 3 }
    0 < 3 ∧ 3 ≤ small.cols s.cur ∧ small.cols s.cur < 3 + 3 ∧ 3 ≤ small.cols s.cur ∧ 2 ≤ small.dim ∧ 1 ≤ small.heads ∧
      (s.update (fun _ i => (i : Int)) (fun _ i => (i : Int)) s.cur 3 3 []).isSome = true := by decide +kernel

/-- **C143, violated** (end to end): a prompt of six tokens and one more token fit the context of eight positions, but
the second token of the answer is wrong. -/
theorem C143_long_prompt_violated :
    Implements (sumNet small) small.ar (refGraph (sumNet small) small.ar) ∧ Implements (sumNet small) 1 (refGraph (sumNet small) 1) ∧
    small.load = small ∧ [1, 2, 3, 4, 5].length + 1 + 1 ≤ small.ctx - 1 ∧
    (generate (refGraph (sumNet small) small.ar) (refGraph (sumNet small) 1) id [] (Mgr.init small (0 : Int))
        (fun _ => false) (fun _ => false) (fun _ => 0) ([1, 2, 3, 4, 5] ++ [6]) 1).map (fun r => r.2.2) = some [21, 41] ∧
    answer (sumNet small) id [] [1, 2, 3, 4, 5] 6 1 = [21, 42] := by
  refine ⟨refGraph_implements _ _, refGraph_implements _ _, by decide, by decide, ?_, ?_⟩
  · decide +kernel
  · decide +kernel

/-- The same network on a prompt that fits: right. -/
example : (generate (refGraph (sumNet small) small.ar) (refGraph (sumNet small) 1) id [] (Mgr.init small (0 : Int))
        (fun _ => false) (fun _ => false) (fun _ => 0) ([1, 2, 3, 4] ++ [5]) 2).map (fun r => r.2.2) =
    some (answer (sumNet small) id [] [1, 2, 3, 4] 5 2) := by
  decide +kernel

end Verif.Aot
