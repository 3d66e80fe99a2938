import Verif.Ipc.Merge
import Verif.Ipc.Travel

/-!
# GPU tensor transport: theorems C83-C87
-/

namespace Verif.Ipc

/-! ## C83: a tensor sent through the pool arrives intact -/

/-- Whatever the interleaving of sender, recycler and consumers: a consumer that has reconstructed a
proxy with an IPC handle got exactly the tensor that was sent: dtype, shape and every byte. -/
theorem pool_delivers_what_was_sent_partial {size n : Nat} {mem : Nat → UInt8} (hn : 0 < n) {w : World}
    (h : Reach size n mem w) {q : Parcel} (hq : q ∈ w.parcels) (hs : q.stage = .shipped)
    {c : Nat} {t : Tsr} (hg : (c, t) ∈ q.got) : t = q.orig :=
  ((h.inv hn).each q hq).right (by rw [hs]; simp) _ hg

/-- A slice is not given to anyone else, and not written, before every consumer has acknowledged it:
the bytes of the tensor stay in it. -/
theorem slice_is_stable_until_acknowledged {size n : Nat} {mem : Nat → UInt8} (hn : 0 < n) {w : World}
    (h : Reach size n mem w) {q : Parcel} (hq : q ∈ w.parcels) (hs : q.stage ≠ .reserved)
    (hp : ∃ c < n, c ∉ q.acked) : load w.pool.mem q.start q.len = q.orig.data := by
  obtain ⟨c, hc, hna⟩ := hp
  have hi := h.inv hn
  exact hi.content q hq ((hi.each q hq).pending_of hc hna) hs

/-- The whole inputs of a request, nested in any way: if every GPU tensor can be viewed as bytes and
`_share_cuda_()` works, the consumer gets back exactly the inputs that were sent, whatever the
recycler and the other consumers do in between. -/
theorem pool_roundtrip_partial {size n : Nat} {mem : Nat → UInt8} (hn : 0 < n) {w : World}
    (h : Reach size n mem w) {env : Nat → List Ev} {share : Nat → Bool}
    (henv : ∀ k, ∀ e ∈ env k, e.isEnv = true) (hshare : ∀ k, share k = true) {c : Nat} (hc : c < n)
    {v : Tree Leaf} (hv : v.All (fun x => x.t.WF ∧ (x.cuda = true → x.viewable = true))) :
    ∃ w', sendPool env share c w v = some (w', v) ∧ Reach size n mem w' := by
  have hR : ∀ s t u : Run, Keeps s.w t.w → Keeps t.w u.w → Keeps s.w u.w := fun _ _ _ a b => a.trans b
  obtain ⟨r1, x, h1, h2, h3, h4⟩ := trav_rel (f := wrapPool env share) (I := fun r => Reach size n mem r.w)
    (R := fun r r' => Keeps r.w r'.w) (L := Wraps) (P := fun x => x.t.WF ∧ (x.cuda = true → x.viewable = true))
    (fun s => Keeps.refl _) hR (fun s t a b hk hl => Wraps.mono hk a b hl)
    (fun s a hI hP => wrapPool_spec henv hshare s a hI hP) v ⟨w, 0⟩ h hv
  obtain ⟨e1, e2, -⟩ := runEnv_spec (env r1.k) r1.w (henv r1.k) h2
  obtain ⟨r2, g1, g2, -⟩ := trav_undo (g := unwrapLeaf env c) (I := fun r => Reach size n mem r.w)
    (R := fun r r' => Keeps r.w r'.w) (L := Wraps)
    (fun s => Keeps.refl _) hR (fun s t a b hk hl => Wraps.mono hk a b hl)
    (fun s a b hI hl => unwrapLeaf_spec henv hn hc s a b hI hl) v x (r1.pause env) e1
    (Tree.Rel.mono (fun a b hl => Wraps.mono (r := r1) (r' := r1.pause env) e2 a b hl) v x h4)
  refine ⟨r2.w, ?_, g2⟩
  unfold sendPool
  rw [h1]
  simp only [Option.bind_some]
  rw [g1]
  rfl

/-- Two half-precision numbers. -/
def demoT : Tsr := ⟨5, 2, [2], [1, 2, 3, 4]⟩

/-- A dict with the tensor and a tuple with another one and a number. -/
def demoV : Tree Leaf :=
  .dict [7, 8] [.leaf ⟨true, true, demoT⟩, .seq true [.leaf ⟨false, false, ⟨5, 2, [1], [9, 9]⟩⟩, .other 3]]

/-- Non-vacuity: nested inputs with a GPU tensor, a pool of 16 bytes with one consumer, a recycler
that runs at every moment. -/
example : ∃ w', sendPool (fun _ => [.tick]) (fun _ => true) 0 (World.init 16 1 (fun _ => 0)) demoV =
    some (w', demoV) :=
  let ⟨w', h, _⟩ := pool_roundtrip_partial (mem := fun _ => 0) (size := 16) (n := 1) Nat.one_pos .init
    (env := fun _ => [.tick]) (share := fun _ => true)
    (by intro k e he; rw [List.mem_singleton.1 he]; rfl) (fun _ => rfl) (c := 0) Nat.one_pos
    (v := demoV) (by simp [demoV, demoT, Tree.All, Tree.Alls, Tsr.WF, Tsr.nbytes])
  ⟨w', h⟩

/-- The full statement fails when the IPC handle cannot be exported: the receiver is handed the slice
of the workspace, a flat `int8` tensor, in place of the tensor that was sent. -/
theorem failed_export_delivers_raw_bytes_violated :
    ∃ w q, Reach 16 1 (fun _ => 0) w ∧ q ∈ w.parcels ∧ q.orig = demoT ∧ (0, (⟨int8, 1, [4], [1, 2, 3, 4]⟩ : Tsr)) ∈ q.got ∧
      (⟨int8, 1, [4], [1, 2, 3, 4]⟩ : Tsr) ≠ demoT := by
  let w0 := World.init 16 1 (fun _ => 0)
  let w1 := reserve w0 demoT
  have h1 : Reach 16 1 (fun _ => 0) w1 :=
    .step (.reserve demoT) .init (fun t ht => by cases ht; rfl) rfl
  let q1 : Parcel := ⟨demoT, 0, 0, 4, .reserved, [], []⟩
  have e1 : w1.parcels = [q1] := rfl
  let w2 : World := { w1 with pool := { w1.pool with mem := store w1.pool.mem 0 demoT.data }, parcels := [{ q1 with stage := .filled }] }
  have h2 : Reach 16 1 (fun _ => 0) w2 := by
    refine .step (.fill 0) h1 (fun t ht => by cases ht) ?_
    simp only [step, e1]
    rfl
  let w3 : World := { w2 with parcels := [{ q1 with stage := .plain }] }
  have h3 : Reach 16 1 (fun _ => 0) w3 := .step (.ship 0 false) h2 (fun t ht => by cases ht) rfl
  have hc : w3.pool.consumers = 1 := by decide +kernel
  let w4 : World := { w3 with parcels := [{ q1 with stage := .plain, got := [(0, rebuilt w3.pool.mem { q1 with stage := .plain })] }] }
  have h4 : Reach 16 1 (fun _ => 0) w4 := by
    refine .step (.copy 0 0) h3 (fun t ht => by cases ht) ?_
    have e3 : w3.parcels[0]? = some { q1 with stage := .plain } := rfl
    simp only [step, e3]
    rw [if_pos ⟨Or.inr trivial, by rw [hc]; exact Nat.one_pos, by simp [q1]⟩]
    rfl
  refine ⟨w4, _, h4, List.mem_singleton.2 rfl, rfl, ?_, by decide⟩
  apply List.mem_singleton.2
  have : rebuilt w3.pool.mem { q1 with stage := .plain } = ⟨int8, 1, [4], [1, 2, 3, 4]⟩ := by decide +kernel
  rw [this]

/-- ... and the slice is lost for good: nobody acknowledges such a proxy, so in every later world
its slice is still occupied. -/
theorem failed_export_leaks_violated {size n : Nat} {mem : Nat → UInt8} (hn : 0 < n) {w : World}
    (h : Reach size n mem w) {q : Parcel} (hq : q ∈ w.parcels) (hs : q.stage = .plain) :
    ∃ c ∈ w.pool.occ, c.start = q.start ∧ c.stop = q.start + q.len ∧ c ∈ (tick w.pool).occ := by
  have hi := h.inv hn
  have ha : q.acked = [] := (hi.each q hq).noAck (by rw [hs]; simp)
  obtain ⟨c, hc, hb, hv⟩ := hi.held q hq (by unfold Parcel.pending; rw [ha]; exact hn)
  refine ⟨c, hc, hb.2.1, hb.2.2, ?_⟩
  rw [(tick_spec hi.pool).2.2.2.2.1]
  exact List.mem_filter.2 ⟨hc, by rw [hv, ha, hi.cons]; exact decide_eq_true hn⟩

/-! ## C84: the pool never hands out a byte twice, nor one outside the workspace, nor loses one -/

/-- Two tensors that are both still in use never share a byte, and both lie in the workspace. -/
theorem slices_disjoint_and_inside {size n : Nat} {mem : Nat → UInt8} (hn : 0 < n) {w : World}
    (h : Reach size n mem w) {i j : Nat} {q r : Parcel} (hq : w.parcels[i]? = some q)
    (hr : w.parcels[j]? = some r) (hij : i ≠ j) (hpq : ∃ c < n, c ∉ q.acked) (hpr : ∃ c < n, c ∉ r.acked) :
    q.start + q.orig.nbytes ≤ size ∧
    (q.start + q.orig.nbytes ≤ r.start ∨ r.start + r.orig.nbytes ≤ q.start ∨
      q.orig.nbytes = 0 ∨ r.orig.nbytes = 0) := by
  have hi := h.inv hn
  have okq := hi.each q (List.mem_of_getElem? hq)
  have okr := hi.each r (List.mem_of_getElem? hr)
  obtain ⟨c, hc, hca⟩ := hpq
  obtain ⟨d, hd, hda⟩ := hpr
  have pq := okq.pending_of hc hca
  have pr := okr.pending_of hd hda
  obtain ⟨cq, hcq, bq, -⟩ := hi.held q (List.mem_of_getElem? hq) pq
  obtain ⟨cr, hcr, br, -⟩ := hi.held r (List.mem_of_getElem? hr) pr
  rw [← okq.len, ← okr.len]
  have hord := hi.pool.ordered cq (by simp [hcq])
  refine ⟨by rw [← bq.2.2, ← hi.size]; exact hord.2, ?_⟩
  by_contra hcon
  push Not at hcon
  obtain ⟨h1, h2, h3, h4⟩ := hcon
  have hne : cq ≠ cr := by
    intro he
    exact hij (hi.unique i j q r hq hr pq pr (by rw [← bq.1, ← br.1, he]))
  refine Ok.disjoint hi.pool hcq hcr hne (max q.start r.start) ⟨?_, ?_⟩
  · unfold covers; rw [bq.2.1, bq.2.2, decide_eq_true_eq]; omega
  · unfold covers; rw [br.2.1, br.2.2, decide_eq_true_eq]; omega

/-- No byte is lost and none is counted twice: at any time every byte of the workspace is in exactly
one chunk, free or occupied; and every occupied chunk belongs to a tensor that was sent. -/
theorem workspace_is_partitioned {size n : Nat} {mem : Nat → UInt8} (hn : 0 < n) {w : World}
    (h : Reach size n mem w) :
    (∀ a, (w.pool.avail ++ w.pool.occ).countP (fun c => decide (c.start ≤ a ∧ a < c.stop)) =
      if a < size then 1 else 0) ∧
    ∀ c ∈ w.pool.occ, ∃ q ∈ w.parcels, c.start = q.start ∧ c.stop = q.start + q.orig.nbytes := by
  have hi := h.inv hn
  refine ⟨fun a => ?_, fun c hc => ?_⟩
  · have := hi.pool.tile a
    rw [hi.size] at this
    exact this
  · obtain ⟨q, hq, hb, -⟩ := hi.owner c hc
    exact ⟨q, hq, hb.2.1, by rw [← (hi.each q hq).len]; exact hb.2.2⟩

/-- A tensor is given a slice whenever some free chunk is large enough, and then the smallest one. -/
theorem reserve_succeeds_iff (p : Pool) (needed : Nat) :
    (getChunk p needed).isSome ↔ ∃ c ∈ p.avail, needed ≤ c.stop - c.start := by
  unfold getChunk
  cases hb : bestFit needed p.avail with
  | none =>
    have := bestFit_none.1 hb
    simp only [Option.isSome_none, Bool.false_eq_true, false_iff, not_exists, not_and, Nat.not_le]
    exact this
  | some b =>
    obtain ⟨h1, h2, -⟩ := bestFit_some hb
    simp only [Option.isSome_some, true_iff]
    exact ⟨b, h1, h2⟩

theorem reserve_takes_the_smallest {p p' : Pool} {needed : Nat} {o : Chunk}
    (h : getChunk p needed = some (o, p')) :
    ∃ b ∈ p.avail, o.start = b.start ∧ o.stop = b.start + needed ∧ needed ≤ b.stop - b.start ∧
      ∀ c ∈ p.avail, needed ≤ c.stop - c.start → b.stop - b.start ≤ c.stop - c.start := by
  unfold getChunk at h
  cases hb : bestFit needed p.avail with
  | none => rw [hb] at h; cases h
  | some b =>
    rw [hb] at h
    simp only [Option.some.injEq, Prod.mk.injEq] at h
    obtain ⟨h1, h2, h3⟩ := bestFit_some hb
    refine ⟨b, h1, ?_, ?_, ?_, h3⟩
    · rw [← h.1]
    · rw [← h.1]
    · exact h2

/-- Non-vacuity of C84: two tensors in flight at once. -/
example : ∃ w q r, Reach 16 1 (fun _ => 0) w ∧ w.parcels[0]? = some q ∧ w.parcels[1]? = some r ∧
    (∃ c < 1, c ∉ q.acked) ∧ (∃ c < 1, c ∉ r.acked) ∧ q.orig.nbytes = 4 ∧ r.orig.nbytes = 4 := by
  refine ⟨reserve (reserve (World.init 16 1 (fun _ => 0)) demoT) demoT,
    ⟨demoT, 0, 0, 4, .reserved, [], []⟩, ⟨demoT, 1, 4, 4, .reserved, [], []⟩, ?_, ?_, ?_, ?_, ?_, rfl, rfl⟩
  · exact .step (.reserve demoT) (.step (.reserve demoT) .init (fun t ht => by cases ht; rfl) rfl)
      (fun t ht => by cases ht; rfl) rfl
  · have : (reserve (reserve (World.init 16 1 (fun _ => 0)) demoT) demoT).parcels =
        [⟨demoT, 0, 0, 4, .reserved, [], []⟩, ⟨demoT, 1, 4, 4, .reserved, [], []⟩] := by
      rfl
    rw [this]; rfl
  · have : (reserve (reserve (World.init 16 1 (fun _ => 0)) demoT) demoT).parcels =
        [⟨demoT, 0, 0, 4, .reserved, [], []⟩, ⟨demoT, 1, 4, 4, .reserved, [], []⟩] := by
      rfl
    rw [this]; rfl
  · exact ⟨0, Nat.one_pos, by simp⟩
  · exact ⟨0, Nat.one_pos, by simp⟩

/-! ## C85: memory comes back -/

/-- As soon as all consumers have acknowledged a tensor, the next pass of the recycler frees exactly
its slice; slices of other tensors stay. -/
theorem recycler_frees_exactly_the_acknowledged {size n : Nat} {mem : Nat → UInt8} (hn : 0 < n) {w : World}
    (h : Reach size n mem w) (c : Chunk) :
    c ∈ (tick w.pool).occ ↔ c ∈ w.pool.occ ∧ ∃ q ∈ w.parcels, backs c q ∧ ∃ d < n, d ∉ q.acked := by
  have hi := h.inv hn
  rw [(tick_spec hi.pool).2.2.2.2.1]
  unfold Pool.busy
  rw [List.mem_filter, decide_eq_true_eq, hi.cons]
  constructor
  · rintro ⟨hc, hlt⟩
    obtain ⟨q, hq, hb, hv⟩ := hi.owner c hc
    refine ⟨hc, q, hq, hb, ?_⟩
    by_contra hall
    push Not at hall
    have hsub : List.range n ⊆ q.acked := fun d hd => hall d (List.mem_range.1 hd)
    have := (List.nodup_range.subperm hsub).length_le
    rw [List.length_range] at this
    omega
  · rintro ⟨hc, q, hq, hb, d, hd, hda⟩
    refine ⟨hc, ?_⟩
    have hp := (hi.each q hq).pending_of hd hda
    obtain ⟨c', hc', hb', hv'⟩ := hi.held q hq hp
    have : c = c' := Ok.flag_inj hi.pool hc hc' (hb.1.trans hb'.1.symm)
    rw [this, hv']
    exact hp

theorem getChunk_nonempty {p p' : Pool} {needed : Nat} {o : Chunk}
    (hne : ∀ c ∈ p.avail ++ p.occ, c.start < c.stop) (hpos : 0 < needed)
    (hg : getChunk p needed = some (o, p')) : ∀ c ∈ p'.avail ++ p'.occ, c.start < c.stop := by
  unfold getChunk at hg
  cases hb : bestFit needed p.avail with
  | none => rw [hb] at hg; cases hg
  | some b =>
    rw [hb] at hg
    simp only [Option.some.injEq, Prod.mk.injEq] at hg
    obtain ⟨ho, hp⟩ := hg
    rw [ho] at hp
    have hob : o.start < o.stop := by rw [← ho]; simp only; omega
    have hbase : ∀ c ∈ p.avail.erase b ++ (p.occ ++ [o]), c.start < c.stop := by
      intro c hc
      rcases List.mem_append.1 hc with hc | hc
      · exact hne c (by simp [List.mem_of_mem_erase hc])
      · rcases List.mem_append.1 hc with hc | hc
        · exact hne c (by simp [hc])
        · rw [List.mem_singleton.1 hc]; exact hob
    rw [← hp]
    unfold addRemainder
    split
    · rename_i hlt
      have hf := newFlag_fields { p with occ := p.occ ++ [o], avail := p.avail.erase b }
      intro c hc
      simp only [hf.2.2.1, hf.2.2.2.1] at hc
      rcases List.mem_append.1 hc with hc | hc
      · rcases List.mem_append.1 hc with hc | hc
        · exact hbase c (by simp [hc])
        · rw [List.mem_singleton.1 hc]; exact hlt
      · exact hbase c (List.mem_append_right _ hc)
    · exact hbase

theorem step_origs {w w' : World} {e : Ev} (hs : step w e = some w') :
    ∃ l, w'.parcels.map Parcel.orig = w.parcels.map Parcel.orig ++ l := by
  have hset : ∀ (i : Nat) (q r : Parcel), w.parcels[i]? = some q → r.orig = q.orig →
      (w.parcels.set i r).map Parcel.orig = w.parcels.map Parcel.orig := by
    intro i q r hi ho
    rw [List.map_set, ho]
    apply List.ext_getElem?
    intro j
    by_cases hij : i = j
    · subst hij
      simp [List.getElem?_set_self', hi]
    · simp [List.getElem?_set_ne hij]
  cases e with
  | reserve t =>
    simp only [step, Option.some.injEq] at hs
    subst hs
    unfold reserve
    split
    · exact ⟨[], by simp⟩
    · exact ⟨[t], by simp⟩
  | fill i =>
    simp only [step] at hs
    cases hi : w.parcels[i]? with
    | none => simp [hi] at hs
    | some q =>
      simp only [hi] at hs
      split at hs
      · cases hs; exact ⟨[], by simpa using hset i q _ hi rfl⟩
      · cases hs
  | ship i ok =>
    simp only [step] at hs
    cases hi : w.parcels[i]? with
    | none => simp [hi] at hs
    | some q =>
      simp only [hi] at hs
      split at hs
      · cases hs; exact ⟨[], by simpa using hset i q _ hi rfl⟩
      · cases hs
  | copy i c =>
    simp only [step] at hs
    cases hi : w.parcels[i]? with
    | none => simp [hi] at hs
    | some q =>
      simp only [hi] at hs
      split at hs
      · cases hs; exact ⟨[], by simpa using hset i q _ hi rfl⟩
      · cases hs
  | ack i c =>
    simp only [step] at hs
    cases hi : w.parcels[i]? with
    | none => simp [hi] at hs
    | some q =>
      simp only [hi] at hs
      split at hs
      · cases hs; exact ⟨[], by simpa using hset i q _ hi rfl⟩
      · cases hs
  | tick =>
    simp only [step, Option.some.injEq] at hs
    subst hs
    exact ⟨[], by simp⟩

/-- If no empty tensor was ever sent, no chunk is empty. -/
theorem Reach.nonempty {size n : Nat} {mem : Nat → UInt8} (hn : 0 < n) (hsz : 0 < size) {w : World}
    (h : Reach size n mem w) (hne : ∀ t ∈ w.parcels.map Parcel.orig, 0 < t.nbytes) :
    ∀ c ∈ w.pool.avail ++ w.pool.occ, c.start < c.stop := by
  induction h with
  | init =>
    intro c hc
    simp only [World.init, Pool.init, List.append_nil, List.mem_singleton] at hc
    subst hc
    exact hsz
  | @step w w' e hr hwf hs ih =>
    obtain ⟨l, hl⟩ := step_origs hs
    have ih' := ih (fun t ht => hne t (by rw [hl]; exact List.mem_append_left _ ht))
    have hok := (hr.inv hn).pool
    cases e with
    | reserve t =>
      simp only [Ipc.step, Option.some.injEq] at hs
      subst hs
      unfold reserve at hne ⊢
      split
      · exact ih'
      · rename_i c p hg
        rw [hg] at hne
        simp only at hne
        exact getChunk_nonempty ih' (hne t (by simp)) hg
    | fill i =>
      simp only [Ipc.step] at hs
      cases hi : w.parcels[i]? with
      | none => simp [hi] at hs
      | some q =>
        simp only [hi] at hs
        split at hs
        · cases hs; exact ih'
        · cases hs
    | ship i ok =>
      simp only [Ipc.step] at hs
      cases hi : w.parcels[i]? with
      | none => simp [hi] at hs
      | some q =>
        simp only [hi] at hs
        split at hs
        · cases hs; exact ih'
        · cases hs
    | copy i c =>
      simp only [Ipc.step] at hs
      cases hi : w.parcels[i]? with
      | none => simp [hi] at hs
      | some q =>
        simp only [hi] at hs
        split at hs
        · cases hs; exact ih'
        · cases hs
    | ack i c =>
      simp only [Ipc.step] at hs
      cases hi : w.parcels[i]? with
      | none => simp [hi] at hs
      | some q =>
        simp only [hi] at hs
        split at hs
        · cases hs; exact ih'
        · cases hs
    | tick =>
      simp only [Ipc.step, Option.some.injEq] at hs
      subst hs
      intro c hc
      rcases List.mem_append.1 hc with hc | hc
      · exact (tick_noTouch hok ih').2 c hc
      · have : c ∈ w.pool.busy := by
          have := (tick_spec hok).2.2.2.2.1
          exact this ▸ hc
        exact ih' c (List.mem_append_right _ (List.mem_filter.1 this).1)

/-- After a pass of the recycler free memory is not fragmented beyond need: a tensor gets a slice
whenever there is any run of that many free bytes. Proved for histories without empty tensors. -/
theorem free_run_is_usable_partial {size n : Nat} {mem : Nat → UInt8} (hn : 0 < n) (hsz : 0 < size)
    {w : World} (h : Reach size n mem w) (hne : ∀ t ∈ w.parcels.map Parcel.orig, 0 < t.nbytes)
    {s len : Nat} (hlen : 0 < len) (hin : s + len ≤ size)
    (hfree : ∀ c ∈ (tick w.pool).occ, c.stop ≤ s ∨ s + len ≤ c.start) :
    (getChunk (tick w.pool) len).isSome := by
  have hi := h.inv hn
  have hnon := h.nonempty hn hsz hne
  obtain ⟨t1, t2, -, -, -, -⟩ := tick_spec hi.pool
  obtain ⟨hnt, hnn⟩ := tick_noTouch hi.pool hnon
  obtain ⟨c, hc, h1, h2⟩ := run_in_chunk t1 hnt hnn hlen (s := s) (by
    intro a ha1 ha2
    refine ⟨by rw [t2, hi.size]; omega, fun c hc => ?_⟩
    simp only [covers, decide_eq_false_iff_not]
    rcases hfree c hc with h | h <;> omega)
  rw [reserve_succeeds_iff]
  exact ⟨c, hc, by omega⟩

/-- Once every consumer is done with everything, one pass of the recycler makes the whole workspace
available again: a tensor as large as the workspace fits. Proved for histories without empty
tensors. -/
theorem idle_pool_recovers_partial {size n : Nat} {mem : Nat → UInt8} (hn : 0 < n) (hsz : 0 < size)
    {w : World} (h : Reach size n mem w) (hne : ∀ t ∈ w.parcels.map Parcel.orig, 0 < t.nbytes)
    (hidle : ∀ q ∈ w.parcels, ∀ d < n, d ∈ q.acked) {len : Nat} (hlen : len ≤ size) :
    (tick w.pool).occ = [] ∧ (getChunk (tick w.pool) len).isSome := by
  have hocc : (tick w.pool).occ = [] := by
    apply List.eq_nil_iff_forall_not_mem.2
    intro c hc
    obtain ⟨-, q, hq, -, d, hd, hda⟩ := (recycler_frees_exactly_the_acknowledged hn h c).1 hc
    exact hda (hidle q hq d hd)
  refine ⟨hocc, ?_⟩
  have := free_run_is_usable_partial hn hsz h hne hsz (s := 0) (by omega) (by rw [hocc]; simp)
  rw [reserve_succeeds_iff] at this ⊢
  obtain ⟨c, hc, h1⟩ := this
  exact ⟨c, hc, by omega⟩

/-- Non-vacuity: a tensor sent, received and acknowledged. -/
example : ∃ w, Reach 16 1 (fun _ => 0) w ∧ w.parcels ≠ [] ∧ (∀ t ∈ w.parcels.map Parcel.orig, 0 < t.nbytes) ∧
    ∀ q ∈ w.parcels, ∀ d < 1, d ∈ q.acked := by
  let q1 : Parcel := ⟨demoT, 0, 0, 4, .reserved, [], []⟩
  let w1 := reserve (World.init 16 1 (fun _ => 0)) demoT
  have h1 : Reach 16 1 (fun _ => 0) w1 := .step (.reserve demoT) .init (fun t ht => by cases ht; rfl) rfl
  have e1 : w1.parcels = [q1] := rfl
  let w2 : World := { w1 with pool := { w1.pool with mem := store w1.pool.mem 0 demoT.data }, parcels := [{ q1 with stage := .filled }] }
  have h2 : Reach 16 1 (fun _ => 0) w2 := by
    refine .step (.fill 0) h1 (fun t ht => by cases ht) ?_
    simp only [step, e1]; rfl
  let w3 : World := { w2 with parcels := [{ q1 with stage := .shipped }] }
  have h3 : Reach 16 1 (fun _ => 0) w3 := .step (.ship 0 true) h2 (fun t ht => by cases ht) rfl
  have hc : w3.pool.consumers = 1 := rfl
  let q4 : Parcel := { q1 with stage := .shipped, got := [(0, rebuilt w3.pool.mem { q1 with stage := .shipped })] }
  let w4 : World := { w3 with parcels := [q4] }
  have h4 : Reach 16 1 (fun _ => 0) w4 := by
    refine .step (.copy 0 0) h3 (fun t ht => by cases ht) ?_
    have e3 : w3.parcels[0]? = some { q1 with stage := .shipped } := rfl
    simp only [step, e3]
    rw [if_pos ⟨Or.inl trivial, by rw [hc]; exact Nat.one_pos, by simp [q1]⟩]
    rfl
  have h5 : Reach 16 1 (fun _ => 0) { w4 with pool := { w4.pool with val := upd w4.pool.val q4.flag (w4.pool.val q4.flag + 1) }, parcels := [{ q4 with acked := [0] }] } := by
    refine .step (.ack 0 0) h4 (fun t ht => by cases ht) ?_
    have e4 : w4.parcels[0]? = some q4 := rfl
    simp only [step, e4]
    rw [if_pos ⟨rfl, by simp [q4], by simp [q4, q1]⟩]
    rfl
  refine ⟨_, h5, by simp, ?_, ?_⟩
  · intro t ht
    have : t = demoT := by simpa [q4, q1] using ht
    subst this; decide
  · intro q hq d hd
    have : q = { q4 with acked := [0] } := by simpa using hq
    subst this
    have : d = 0 := by omega
    simp [this]

/-- Run a list of events. -/
def runAll (w : World) (evs : List Ev) : Option World := evs.foldlM step w

theorem reach_runAll {size n : Nat} {mem : Nat → UInt8} : ∀ (evs : List Ev) (w w' : World),
    Reach size n mem w → (∀ e ∈ evs, ∀ t, e = .reserve t → t.WF) → runAll w evs = some w' →
    Reach size n mem w'
  | [], w, w', h, _, hr => by
      simp only [runAll, List.foldlM_nil] at hr
      cases hr; exact h
  | e :: evs, w, w', h, hwf, hr => by
      simp only [runAll, List.foldlM_cons] at hr
      cases hs : step w e with
      | none => rw [hs] at hr; cases hr
      | some w1 =>
        rw [hs] at hr
        exact reach_runAll evs w1 w' (.step e h (hwf e (by simp)) hs)
          (fun e' he' => hwf e' (by simp [he'])) hr

/-- An empty tensor, and one of four bytes. -/
def emptyT : Tsr := ⟨5, 2, [0], []⟩

/-- Send, receive, acknowledge (one consumer). -/
def serve (i : Nat) : List Ev := [.fill i, .ship i true, .copy i 0, .ack i 0]

/-- An empty tensor comes and goes; then a tensor of four bytes and another empty tensor. -/
def emptyHistory : List Ev :=
  [.reserve emptyT] ++ serve 0 ++ [.tick, .reserve demoT, .reserve emptyT] ++ serve 1 ++ serve 2

/-- The full statement of C85 fails if empty tensors are sent: everything has been acknowledged, the
recycler has run, nothing is occupied, and still the eight bytes of the workspace are not available
in one piece, because the free chunk of length zero sits between the two others. -/
theorem empty_tensor_fragments_violated :
    ∃ w, Reach 8 1 (fun _ => 0) w ∧ (∀ q ∈ w.parcels, ∀ d < 1, d ∈ q.acked) ∧
      (tick w.pool).occ = [] ∧ getChunk (tick w.pool) 8 = none := by
  have hwf : ∀ e ∈ emptyHistory, ∀ t, e = .reserve t → t.WF := by
    intro e he t ht
    subst ht
    have : t = emptyT ∨ t = demoT := by
      simp [emptyHistory, serve] at he
      tauto
    rcases this with rfl | rfl <;> rfl
  cases hr : runAll (World.init 8 1 (fun _ => 0)) emptyHistory with
  | none =>
    exfalso
    have : (runAll (World.init 8 1 (fun _ => 0)) emptyHistory).isSome = true := by decide +kernel
    rw [hr] at this; cases this
  | some w =>
    have hw := reach_runAll emptyHistory _ w .init hwf hr
    have k1 : (runAll (World.init 8 1 (fun _ => 0)) emptyHistory).map (fun w => w.parcels.map Parcel.acked) = some [[0], [0], [0]] := by
      decide +kernel
    have k2 : (runAll (World.init 8 1 (fun _ => 0)) emptyHistory).map (fun w => (tick w.pool).occ) = some [] := by
      decide +kernel
    have k3 : (runAll (World.init 8 1 (fun _ => 0)) emptyHistory).map (fun w => (tick w.pool).avail.map Chunk.size) = some [4, 0, 4] := by
      decide +kernel
    rw [hr] at k1 k2 k3
    simp only [Option.map_some, Option.some.injEq] at k1 k2 k3
    refine ⟨w, hw, ?_, k2, ?_⟩
    · intro q hq d hd
      have : q.acked ∈ w.parcels.map Parcel.acked := List.mem_map_of_mem hq
      rw [k1] at this
      have hd0 : d = 0 := by omega
      subst hd0
      simp at this
      rw [this]; simp
    · have hb : bestFit 8 (tick w.pool).avail = none := by
        rw [bestFit_none]
        intro c hc
        have : c.size ∈ (tick w.pool).avail.map Chunk.size := List.mem_map_of_mem hc
        rw [k3] at this
        simp at this
        omega
      unfold getChunk
      rw [hb]

/-! ## C86: nested inputs arrive with the same structure and the same tensors -/

/-- The default mode: same nesting, same keys, same values, every tensor with the same dtype, shape
and bytes, in CPU memory. -/
theorem default_mode_roundtrip (v : Tree Leaf) :
    sendDefault v = some (v.map (fun x => { x with cuda := false })) := by
  unfold sendDefault
  rw [trav_pure shareDefault v]
  simp only [Option.bind_some]
  rw [trav_pure _ (v.map shareDefault)]
  simp only [Option.map_some, Option.some.injEq]
  rw [Tree.map_map]
  rfl

/-- Plain CUDA IPC: the inputs arrive as they are, GPU tensors on the GPU. -/
theorem cuda_ipc_mode_roundtrip (v : Tree Leaf) : sendSimple v = some v := by
  unfold sendSimple
  rw [trav_pure wrapSimple v]
  simp only [Option.bind_some]
  rw [trav_pure _ (v.map wrapSimple)]
  simp only [Option.map_some, Option.some.injEq]
  rw [Tree.map_map]
  have key : ∀ x : Leaf, unproxy (wrapSimple x) = x := by
    intro x
    unfold wrapSimple
    by_cases h : x.cuda <;> simp [h, unproxy]
  have : (fun x => unproxy (wrapSimple x)) = fun x => x := funext key
  rw [this]
  exact Tree.map_id v

/-- A GPU tensor that is not contiguous (or a number on the GPU, without dimensions) raises in pool
mode, although the other modes transport it. -/
theorem pool_mode_rejects_views_violated (env : Nat → List Ev) (share : Nat → Bool) (r : Run) (x : Leaf)
    (hc : x.cuda = true) (hv : x.viewable = false)
    (hroom : (getChunk (r.pause env).w.pool x.t.nbytes).isSome) :
    wrapPool env share r x = none ∧ sendSimple (.leaf x) = some (.leaf x) := by
  refine ⟨?_, cuda_ipc_mode_roundtrip _⟩
  unfold wrapPool
  rw [if_neg (by simp [hc])]
  obtain ⟨y, hy⟩ := Option.isSome_iff_exists.1 hroom
  simp only [hy, hv, Bool.false_eq_true, if_false]

/-- Non-vacuity: a non-contiguous GPU tensor meets the hypotheses. -/
example : wrapPool (fun _ => []) (fun _ => true) ⟨World.init 16 1 (fun _ => 0), 0⟩ ⟨true, false, demoT⟩ = none :=
  (pool_mode_rejects_views_violated (fun _ => []) (fun _ => true) _ _ rfl rfl (by decide +kernel)).1

/-! ## C87: the pool mode uses the pool -/

/-- The constructor of the pool always raises: it reads `_sync_pool` before it assigns it. -/
theorem pool_constructor_raises_violated : poolInitOk = false := by decide

/-- Hence a server configured for `"cuda_ipc_pool"` never uses the pool: whatever requests are sent,
with or without CUDA, every GPU tensor reaches the scheduler as a CPU tensor. -/
theorem pool_mode_never_uses_the_pool_violated (cudaAvailable : Bool) (env : Nat → List Ev)
    (share : Nat → Bool) (c : Nat) (vs : List (Tree Leaf)) : ∀ (w : World) (s : Sender),
    s.pool = false → s.mode ≠ .cudaIpc →
    sendAll cudaAvailable env share c w s vs =
      some (vs.map (fun v => v.map (fun x => { x with cuda := false }))) := by
  induction vs with
  | nil => intro w s _ _; rfl
  | cons v vs ih =>
    intro w s hp hm
    have hb : beforePut cudaAvailable s = ⟨.default, false⟩ := by
      obtain ⟨m, p⟩ := s
      simp only at hp hm
      subst hp
      unfold beforePut ensurePool
      rw [pool_constructor_raises_violated]
      cases m <;> cases cudaAvailable <;> simp at *
    unfold sendAll send
    simp only [hb]
    rw [default_mode_roundtrip]
    simp only [Option.map_some]
    rw [ih w ⟨.default, false⟩ rfl (by simp)]
    rfl

/-- In particular, a GPU tensor does not stay on the GPU. -/
example : sendAll true (fun _ => []) (fun _ => true) 0 (World.init 16 1 (fun _ => 0)) ⟨.cudaIpcPool, false⟩
    [.leaf ⟨true, true, demoT⟩] = some [.leaf ⟨false, true, demoT⟩] :=
  pool_mode_never_uses_the_pool_violated true _ _ 0 _ _ _ rfl (by simp)

/-- With the two lines of the constructor exchanged it succeeds: the failure is due to the order. -/
theorem pool_constructor_reordered_succeeds :
    (execStmts [.assign .numConsumers, .assign .recycleInterval, .assign .lock, .assign .stop,
      .assign .memoryPool, .assign .syncPool, .use .syncPool, .assign .availableChunks,
      .assign .occupiedChunks, .assign .recycler, .use .recycler] []).isSome = true := by decide

end Verif.Ipc
