import Verif.Prelude

/-!
# The ahead-of-time QNN runtime (mllm/backends/qnn/aot_rt)

`KVCacheManager.cpp`, `PromptProcessor.cpp`, `TokenGenerator.cpp` and `QnnAOTRuntime.cpp`, function by function, on
flat buffers.  A buffer is a function from offsets to elements together with its allocated capacity; a `memcpy`,
`memmove`, `fill_n` or element access outside the capacity makes the result `none` (undefined behaviour in C++).
`int32_t` sizes are natural numbers (no overflow); `ar_len ≤ context_len` is assumed where `context_len - ar_len`
is used as a length.  The compiled QNN graphs are arbitrary functions from the input tensors to the outputs.
-/
namespace Verif.Aot

/-- QnnAOTConfig.hpp L10-26. -/
structure Cfg where
  layers : Nat
  heads : Nat
  dim : Nat
  ctx : Nat
  ar : Nat
  window : Nat
  maxAr : Nat
  maxCache : Nat
  deriving DecidableEq, Repr

/-- `Runner::load` (QnnAOTRuntime.cpp L21-32, L42): the derived fields. -/
def Cfg.load (c : Cfg) : Cfg :=
  { c with
    maxCache := if c.ar = c.ctx then c.ctx else c.ctx - min 1 c.ar
    maxAr := max 1 c.ar
    window := c.ctx }

abbrev Mem (α : Type) := Nat → α

/-- `memcpy` / `memmove` of `n` elements (the source is read before the destination is written). -/
def copy {α : Type} (dst : Mem α) (capD wp : Nat) (src : Mem α) (capS rp n : Nat) : Option (Mem α) :=
  if wp + n ≤ capD ∧ rp + n ≤ capS then
    some (fun i => if wp ≤ i ∧ i < wp + n then src (rp + (i - wp)) else dst i)
  else none

/-- `std::fill_n`; a count that is not positive does nothing. -/
def fillN (m : Mem Bool) (cap p : Nat) (n : Int) (v : Bool) : Option (Mem Bool) :=
  if n ≤ 0 then some m
  else if p + n.toNat ≤ cap then some (fun i => if p ≤ i ∧ i < p + n.toNat then v else m i)
  else none

/-- `for (int i = 0; i < n; ++i)` over steps that may fail. -/
def loop {σ : Type} (f : Nat → σ → Option σ) : Nat → σ → Option σ
  | 0, s => some s
  | n + 1, s => (loop f n s).bind (f n)

/-- The body of all layers: the layers have separate buffers. -/
def eachLayer {L : Nat} {β : Type} (f : Fin L → Option β) : Option (Fin L → β) :=
  if h : ∀ l, (f l).isSome then some (fun l => (f l).get (h l)) else none

/-! ### KVCacheManager -/

/-- KVCacheManager.hpp L15-21, L67-71: per layer the key and the value buffer; `cur` is `cur_ar_len_`. -/
structure Mgr (c : Cfg) (α : Type) where
  cur : Nat
  k : Fin c.layers → Mem α
  v : Fin c.layers → Mem α

/-- The allocated elements of a cache buffer and of an output buffer (KVCacheManager.cpp L25-29). -/
def Cfg.capIn (c : Cfg) : Nat := c.heads * c.dim * c.maxCache
def Cfg.capOut (c : Cfg) : Nat := c.heads * c.dim * c.maxAr

/-- `initCache` (L22-65): everything zero. -/
def Mgr.init (c : Cfg) {α : Type} (zero : α) : Mgr c α := ⟨c.ar, fun _ _ => zero, fun _ _ => zero⟩

/-- `src_cache_num` (L191, L218) and `iter_size` (L259): the columns of a cache arranged for `ar`. -/
def Cfg.cols (c : Cfg) (ar : Nat) : Nat := if ar = c.ctx then c.ctx else c.ctx - ar

/-- The loop of `rearrangeKey` (L196-212) and `rearrangeValue` (L222-238): `rows` rows of `src` elements become
rows of `dst` elements.  The pointers are written in closed form. -/
def moveRows {α : Type} (cap rows src dst : Nat) (m : Mem α) : Option (Mem α) :=
  if dst < src then
    loop (fun i m => copy m cap (i * dst) m cap (i * src) dst) rows m
  else
    loop (fun i m => copy m cap ((rows - 1 - i) * dst) m cap ((rows - 1 - i) * src) src) rows m

/-- `rearrangeKey` (L188-213): the key cache is [heads, dim, columns]. -/
def rearrangeKey {α : Type} (c : Cfg) (cur dst : Nat) (m : Mem α) : Option (Mem α) :=
  moveRows c.capIn (c.dim * c.heads) (c.cols cur) (c.ctx - dst) m

/-- `rearrangeValue` (L215-239): the value cache is [heads, columns, dim].  (Comparing the column numbers or the
row lengths is the same for `dim > 0`.) -/
def rearrangeValue {α : Type} (c : Cfg) (cur dst : Nat) (m : Mem α) : Option (Mem α) :=
  moveRows c.capIn c.heads (c.cols cur * c.dim) ((c.ctx - dst) * c.dim) m

/-- `rearrangeCache` (L176-186). -/
def Mgr.rearrange {c : Cfg} {α : Type} (s : Mgr c α) (dst : Nat) : Option (Mgr c α) :=
  if s.cur = dst then some s
  else
    (eachLayer (fun l => rearrangeKey c s.cur dst (s.k l))).bind fun k =>
    (eachLayer (fun l => rearrangeValue c s.cur dst (s.v l))).bind fun v => some ⟨dst, k, v⟩

/-- The loop of the branch `selected.empty()` (L265-270, L297-302). -/
def copyRows {α : Type} (capD capS : Nat) (out : Mem α) (rows past iter size n : Nat) (m : Mem α) : Option (Mem α) :=
  loop (fun i m => copy m capD (past + i * iter) out capS (i * size) n) rows m

/-- `true_indices` (L272-275): a vector of `n` zeros, overwritten from the front with the selected indices. -/
def trueIdx (sel : List Bool) (n : Nat) (j : Nat) : Nat :=
  if j < n then ((List.range sel.length).filter (fun i => sel.getD i false))[j]?.getD 0 else 0

/-- `write_ptr[j] = read_ptr[true_indices[j]]` (L277). -/
def put1 {α : Type} (dst : Mem α) (capD wp : Nat) (src : Mem α) (capS rp : Nat) : Option (Mem α) :=
  if wp < capD ∧ rp < capS then some (fun i => if i = wp then src rp else dst i) else none

/-- `updateKey` (L254-282). -/
def updateKey {α : Type} (c : Cfg) (cur : Nat) (out : Mem α) (past n : Nat) (sel : List Bool) (m : Mem α) : Option (Mem α) :=
  if sel = [] then copyRows c.capIn c.capOut out (c.dim * c.heads) past (c.cols cur) cur n m
  else
    loop (fun i m => loop (fun j m => put1 m c.capIn (past + i * c.cols cur + j) out c.capOut (i * cur + trueIdx sel n j)) n m)
      (c.dim * c.heads) m

/-- The inner loop of `updateValue` (L305-316): `wp`, `rp` and `update_cnt` run along `selected`. -/
def selLoop {α : Type} (capD capS dim n : Nat) (out : Mem α) : List Bool → Nat → Nat → Nat → Mem α → Option (Mem α)
  | [], _, _, _, m => some m
  | true :: rest, wp, rp, cnt, m =>
    (copy m capD wp out capS rp dim).bind fun m' =>
      if cnt + 1 = n then some m' else selLoop capD capS dim n out rest (wp + dim) (rp + dim) (cnt + 1) m'
  | false :: rest, wp, rp, cnt, m =>
    if cnt = n then some m else selLoop capD capS dim n out rest wp (rp + dim) cnt m

/-- `updateValue` (L284-321). -/
def updateValue {α : Type} (c : Cfg) (cur : Nat) (out : Mem α) (past n : Nat) (sel : List Bool) (m : Mem α) : Option (Mem α) :=
  if sel = [] then
    copyRows c.capIn c.capOut out c.heads (past * c.dim) (c.cols cur * c.dim) (cur * c.dim) (n * c.dim) m
  else
    loop (fun i m => selLoop c.capIn c.capOut c.dim n out sel (past * c.dim + i * (c.cols cur * c.dim)) (i * (cur * c.dim)) 0 m)
      c.heads m

/-- `updateCache` (L241-252); `none` also for `exit(1)` on a wrong `ar_len`. -/
def Mgr.update {c : Cfg} {α : Type} (s : Mgr c α) (kout vout : Fin c.layers → Mem α) (ar past n : Nat) (sel : List Bool) :
    Option (Mgr c α) :=
  if s.cur ≠ ar then none
  else
    (eachLayer (fun l => updateKey c s.cur (kout l) past n sel (s.k l))).bind fun k =>
    (eachLayer (fun l => updateValue c s.cur (vout l) past n sel (s.v l))).bind fun v => some ⟨s.cur, k, v⟩

/-! ### Attention masks (true = attend, 65535) -/

/-- The `position_offset` of row `i`: `i` when the vector is empty (L136-137, L167-168). -/
def offsetAt (po : List Int) (i : Nat) : Option Int := if po = [] then some (i : Int) else po[i]?

/-- One row of `initAttentionMask` (L84-100, L120-142): `slide` is `none` for the first overload. -/
def initRow (ctx ar : Nat) (amap : List Int) (past : Nat) (slide : Option (Int × List Int)) (i : Nat) (m : Mem Bool) :
    Option (Mem Bool) :=
  let cap := ar * ctx
  (amap[i]?).bind fun p =>
  (if p < 0 then fillN m cap (i * ctx) past true
   else copy m cap (i * ctx) m cap (p.toNat * ctx) ctx).bind fun m1 =>
  (fillN m1 cap (i * ctx + (ctx - ar) + i) 1 true).bind fun m2 =>
  match slide with
  | none => some m2
  | some (w, po) =>
    (offsetAt po i).bind fun o =>
      let avail : Int := w - (o + 1) - past
      if avail < past then fillN m2 cap (i * ctx) (past - avail) false else some m2

/-- `initAttentionMask` (L67-101 and L103-143): `none` also for `exit(1)`. -/
def initMask (ctx ar : Nat) (amap : List Int) (past : Nat) (slide : Option (Int × List Int)) (m : Mem Bool) : Option (Mem Bool) :=
  if ar < amap.length then none
  else (fillN m (ar * ctx) 0 (ar * ctx : Nat) false).bind (loop (initRow ctx ar amap past slide) ar)

/-- One row of `updateAttentionMask` (L151-154, L165-173). -/
def updRow (ctx ar : Nat) (past n : Nat) (slide : Option (Int × List Int)) (i : Nat) (m : Mem Bool) : Option (Mem Bool) :=
  let cap := ar * ctx
  (fillN m cap (i * ctx + past) n true).bind fun m1 =>
  match slide with
  | none => some m1
  | some (w, po) =>
    (offsetAt po i).bind fun o =>
      let avail : Int := w - (o + 1)
      if avail < past + n then fillN m1 cap (i * ctx) (past + n - avail) false else some m1

/-- `updateAttentionMask` (L145-155 and L157-174). -/
def updMask (ctx ar past n : Nat) (slide : Option (Int × List Int)) (m : Mem Bool) : Option (Mem Bool) :=
  loop (updRow ctx ar past n slide) ar m

/-- `std::iota(…, -1)` (PromptProcessor.cpp L120-121, TokenGenerator.cpp L113-114). -/
def iota (n : Nat) : List Int := (List.range n).map (fun i : Nat => (i : Int) - 1)

/-! ### Running the graphs -/

/-- The input tensors (PromptProcessor.cpp L23-62, TokenGenerator.cpp L18-57). -/
structure In (c : Cfg) (α : Type) where
  ids : Nat → Int
  pos : Nat → Int
  mask : Mem Bool
  k : Fin c.layers → Mem α
  v : Fin c.layers → Mem α

/-- The output tensors (PromptProcessor.cpp L64-88): logits per row and the present keys and values. -/
structure Out (c : Cfg) (α Lg : Type) where
  logits : Nat → Lg
  k : Fin c.layers → Mem α
  v : Fin c.layers → Mem α

abbrev Graph (c : Cfg) (α Lg : Type) := In c α → Out c α Lg

/-- `PromptProcessor::prepare_io` (PromptProcessor.cpp L91-109). -/
def promptIds (ar : Nat) (prompt : List Int) (done : Nat) (i : Nat) : Int :=
  if i < min ar (prompt.length - done) then prompt.getD (done + i) 0 else 0

/-- The `while` loop of `prefill` (PromptProcessor.cpp L131-149); `fuel` bounds the number of iterations.  The
result is the cache, the mask tensor and the last logits. -/
def prefillLoop {c : Cfg} {α Lg : Type} (g : Graph c α Lg) (prompt : List Int) :
    Nat → Nat → Nat → Mgr c α → Mem Bool → (Nat → Lg) → Option (Mgr c α × (Nat → Lg))
  | 0, _, _, s, _, lg => some (s, lg)
  | fuel + 1, done, pos, s, mask, lg =>
    if done < prompt.length then
      let n := min c.ar (prompt.length - done)
      let out := g ⟨promptIds c.ar prompt done, fun i => (pos : Int) + i, mask, s.k, s.v⟩
      (s.update out.k out.v c.ar pos n []).bind fun s' =>
      (updMask c.ctx c.ar pos n none mask).bind fun m1 =>
      (updMask c.ctx c.ar pos n (some (c.window, [])) m1).bind fun m2 =>
      prefillLoop g prompt fuel (done + n) (pos + n) s' m2 out.logits
    else some (s, lg)

/-- `PromptProcessor::prefill` (L111-156): the cache, the logits tensor it leaves behind and the sampled token.
`lg` is the logits tensor left by the previous call, `junk` the mask tensor's previous content. -/
def prefill {c : Cfg} {α Lg : Type} (g : Graph c α Lg) (greedy : Lg → Int) (s : Mgr c α) (junk : Mem Bool) (lg : Nat → Lg)
    (prompt : List Int) (start : Nat) : Option (Mgr c α × (Nat → Lg) × Int) :=
  (s.rearrange c.ar).bind fun s0 =>
  (initMask c.ctx c.ar (iota c.ar) start none junk).bind fun m0 =>
  (initMask c.ctx c.ar (iota c.ar) start (some (c.window, [])) m0).bind fun m1 =>
  (prefillLoop g prompt prompt.length 0 start s0 m1 lg).bind fun r =>
  some (r.1, r.2, greedy (r.2 ((prompt.length + c.ar - 1) % c.ar)))

/-- The `for` loop of `TokenGenerator::generate` (TokenGenerator.cpp L119-153): `n` iterations are left.  The
result is the cache and the tokens given to the callback. -/
def decodeLoop {c : Cfg} {α Lg : Type} (g : Graph c α Lg) (greedy : Lg → Int) (eos : List Int) :
    Nat → Int → Nat → Mgr c α → Mem Bool → Option (Mgr c α × List Int)
  | 0, _, _, s, _ => some (s, [])
  | n + 1, tok, pos, s, mask =>
    if c.ctx ≤ pos then some (s, [])
    else
      let out := g ⟨fun _ => tok, fun _ => (pos : Int), mask, s.k, s.v⟩
      (s.update out.k out.v 1 pos 1 []).bind fun s' =>
      (updMask c.ctx 1 pos 1 none mask).bind fun m' =>
      let t := greedy (out.logits 0)
      if t ∈ eos then some (s', [t])
      else (decodeLoop g greedy eos n t (pos + 1) s' m').bind fun r => some (r.1, t :: r.2)

/-- `TokenGenerator::generate` (L102-156). -/
def decode {c : Cfg} {α Lg : Type} (g : Graph c α Lg) (greedy : Lg → Int) (eos : List Int) (s : Mgr c α) (junk : Mem Bool)
    (tok : Int) (start n : Nat) : Option (Mgr c α × List Int) :=
  (s.rearrange 1).bind fun s0 =>
  (initMask c.ctx 1 (iota 1) start none junk).bind fun m0 =>
  decodeLoop g greedy eos n tok start s0 m0

/-- `Runner::generate` (QnnAOTRuntime.cpp L61-94): the cache and the logits tensor left behind, and the tokens given
to the callback.  `g` is the graph `model.0.s<ar_len>`, `g1` the graph `model.0.s1`. -/
def generate {c : Cfg} {α Lg : Type} (g g1 : Graph c α Lg) (greedy : Lg → Int) (eos : List Int) (s : Mgr c α)
    (junk junk1 : Mem Bool) (lg : Nat → Lg) (prompt : List Int) (n : Nat) : Option (Mgr c α × (Nat → Lg) × List Int) :=
  (prefill g greedy s junk lg prompt 0).bind fun r =>
  (decode g1 greedy eos r.1 junk1 r.2.2 prompt.length n).bind fun q =>
  some (q.1, r.2.1, r.2.2 :: q.2)

end Verif.Aot
