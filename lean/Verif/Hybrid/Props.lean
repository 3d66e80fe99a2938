import Verif.Hybrid.Content
/- C103, C104. -/
namespace Verif.Hybrid
open Verif.PyRadix hiding St Step Reach
open Verif.PyPool hiding St Step Reach init
open Verif.Runner

variable {size maxReqs tracks : Nat} {b : Bool} {labs : List HLab} {s : HSt}

/-! ### A request from its arrival to the end of its prefill -/

/-- `_forward_batch` for a batch of one prompt, if there is room without eviction. -/
def HSt.prefill (s : HSt) (now rid : Nat) (inp : Key) (tok : Int) : Option HSt :=
  match (s.start now rid inp).base.reqs with
  | [] => none
  | r :: rest =>
    match rowsAlloc (s.start now rid inp).base.rows 1, (s.start now rid inp).base.pool.alloc (r.inp.length - r.idx.length) with
    | (some [row], rows), (some xs, pool) =>
      some (((s.start now rid inp).extend r rest row rows xs pool).commit now { r with row := some row } rest row tok)
    | _, _ => none

theorem start_head (s : HSt) (now rid : Nat) (inp : Key) : ∃ idx prot lock, (s.start now rid inp).base.reqs =
    ⟨rid, inp, [], none, idx, prot, lock, false⟩ :: s.base.reqs := by
  unfold HSt.start
  simp only []
  rw [St.start]
  split
  · exact ⟨_, _, _, rfl⟩
  · exact ⟨_, _, _, rfl⟩

theorem prefill_reach (h : HReach size maxReqs tracks b labs s) {now rid : Nat} {inp : Key} {tok : Int} {s' : HSt} (hf : ∀ q ∈ s.base.reqs, q.rid ≠ rid)
    (hp : s.prefill now rid inp tok = some s') :
    HReach size maxReqs tracks b ({ lab := .commit } :: { lab := .extend } :: ⟨.start, s.cuts now inp, decide (inp = [])⟩ :: labs) s' := by
  obtain ⟨idx, prot, lock, hq⟩ := start_head s now rid inp
  have h1 : HReach size maxReqs tracks b (⟨.start, s.cuts now inp, decide (inp = [])⟩ :: labs) (s.start now rid inp) := .step h (.start now rid inp hf)
  rw [HSt.prefill] at hp
  generalize s.start now rid inp = u at hq h1 hp
  rw [hq] at hp
  simp only [] at hp
  split at hp
  · rename_i row rows xs pool e1 e2
    obtain rfl := Option.some.inj hp
    generalize hr : (⟨rid, inp, [], none, idx, prot, lock, false⟩ : Req) = r at *
    have hn : r.row = none := by rw [← hr]
    have hd : r.done = false := by rw [← hr]
    have h2 := HReach.step h1 (HStep.extend r s.base.reqs row rows xs pool (by rw [hq]) hn e1 (by rw [← hr]; exact e2))
    have hq2 : (u.extend r s.base.reqs row rows xs pool).base.reqs = { r with row := some row } :: s.base.reqs := rfl
    generalize u.extend r s.base.reqs row rows xs pool = v at h2 hq2
    have h3 := HReach.step h2 (HStep.commit now { r with row := some row } s.base.reqs row tok (by rw [hq2]) rfl hd)
    subst hr
    exact h3
  · cases hp

/-! # C103: the recurrent layers have read exactly the tokens of the request -/

/-- C103: as long as no prefix hit was cut back, the recurrent state of a request is, after every forward pass, the one
after exactly the tokens of this request that were computed, in order: neither a token of another request, nor one
missing, nor one twice. -/
theorem C103_state_partial (h : HReach size maxReqs tracks b labs s) (hc : ∀ l ∈ labs, l.cut = false) {r : Req} (hr : r ∈ s.base.reqs) {row : Nat}
    (hrow : r.row = some row) : s.gdn row = r.filled :=
  (cinv_reach h hc).reqv r hr row hrow

/-- C103: under the same condition, a snapshot is the state after the tokens on the path of its node. -/
theorem C103_snapshot_partial (h : HReach size maxReqs tracks b labs s) (hc : ∀ l ∈ labs, l.cut = false) {y ts : Nat} (hy : get s.snap y = some ts) {k : Key}
    {sl : Slots} (hk : PathTo y s.base.cache.tree none k sl) : s.gdn ts = k := by
  obtain ⟨k', sl', a, e⟩ := (cinv_reach h hc).snapv _ (get_mem hy)
  rw [e]
  exact pathTo_unique (tinv_reach h).cinv.nodup a hk

/-- C103: in every history, a hit that is used comes with a snapshot of its node, which is still there when the request is
allocated; the case "cache hit but no GDN snapshot" (L851-861) does not occur. -/
theorem C103_has_snapshot (h : HReach size maxReqs tracks b labs s) {r : Req} (hr : r ∈ s.base.reqs) (hrow : r.row = none) (hp : 0 < r.prot) :
    ∃ y ts, r.lock = some y ∧ get s.snap y = some ts := by
  obtain ⟨M, ⟨y, sl, ts, a, _, d⟩, _⟩ := (tinv_reach h).hit r hr hrow hp
  exact ⟨y, ts, a, d⟩

/-- C103, violated, for every hit that is cut back: the keys and values of the last two tokens are computed again, but the
recurrent state is the one after the whole match, so that the recurrent layers read at least one token twice. -/
theorem C103_cut_violated (h : HReach size maxReqs tracks b labs s) (hc : ∀ l ∈ labs, l.cut = false) {now rid : Nat} {inp : Key} {tok : Int} {s' : HSt}
    (hf : ∀ q ∈ s.base.reqs, q.rid ≠ rid) (hcut : s.cuts now inp = true) (hp : s.prefill now rid inp tok = some s') :
    ∃ r ∈ s'.base.reqs, ∃ row, r.rid = rid ∧ r.row = some row ∧ r.filled = inp ∧
      ∃ M, inp.length - 1 ≤ M ∧ M ≤ inp.length ∧ s'.gdn row = inp.take M ++ inp.drop (inp.length - 2) ∧ inp.length < (s'.gdn row).length := by
  have ht := tinv_reach h
  have hci := cinv_reach h hc
  obtain ⟨idx, prot, lock, hq⟩ := start_head s now rid inp
  have ht1 := tinv_step ht (.start now rid inp hf)
  have hsp := match_spec ht.cinv now inp
  obtain ⟨f1, f2, f3⟩ := start_facts ht.cinv now inp
  set m := matchPrefix 1 now s.base.cache none inp with hm
  simp only [HSt.cuts, Bool.and_eq_true, Bool.not_eq_true', decide_eq_true_eq] at hcut
  obtain ⟨⟨hdis, hpos⟩, hlt⟩ := hcut
  rw [← hm] at hpos hlt
  simp only [hdis, Bool.false_eq_true, if_false] at f1 f3
  obtain ⟨_, y, sl, ts, hy, hpath, hget⟩ := f3 hpos
  have hcap : inp.length - 1 ≤ m.1.1.length ∧ 2 ≤ inp.length ∧ capped inp.length m.1.1.length = inp.length - 2 := by
    rw [capped] at hlt ⊢
    split at hlt
    · rename_i hh
      rw [if_pos hh]
      exact ⟨hh.1, hh.2, rfl⟩
    · omega
  have hne : inp ≠ [] := by
    intro he
    rw [he] at hcap
    simp at hcap
  -- the new request
  have hreq : (s.start now rid inp).base.reqs = ⟨rid, inp, [], none, m.1.1.take (inp.length - 2), inp.length - 2, some y, false⟩ :: s.base.reqs := by
    unfold HSt.start
    simp only []
    rw [St.start, if_neg (by simp [hne])]
    simp only [hdis, Bool.false_eq_true, if_false, ← hm, hcap.2.2]
    rw [if_pos (by rw [← hcap.2.2]; exact hpos), hy]
  have hcache : (s.start now rid inp).base.cache = lockOpt m.2 (some y) := by
    unfold HSt.start
    simp only []
    rw [St.start, if_neg (by simp [hne])]
    simp only [hdis, Bool.false_eq_true, if_false, ← hm, hcap.2.2]
    rw [if_pos (by rw [← hcap.2.2]; exact hpos), hy]
  rw [HSt.prefill, hreq] at hp
  simp only [] at hp
  split at hp
  · rename_i row rows xs pool h1 h2
    obtain rfl := Option.some.inj hp
    set q : Req := ⟨rid, inp, [], none, m.1.1.take (inp.length - 2), inp.length - 2, some y, false⟩ with hqd
    have hidx : (m.1.1.take (inp.length - 2)).length = inp.length - 2 := by
      rw [List.length_take]; omega
    -- the state after the forward pass
    have hgsnap : s.gdn ts = inp.take m.1.1.length := by
      obtain ⟨k', sl', a, e⟩ := hci.snapv _ (get_mem hget)
      rw [e]
      have h1 := hsp.path _ _ _ _ a
      exact pathTo_unique (hsp.inv.nodup) h1 hpath
    have hrows : row < maxReqs := by
      have := rowsAlloc_one h1
      have hm' : row ∈ ((s.start now rid inp).base.rows : Multiset Nat) + (s.start now rid inp).base.reqs.filterMap (·.row) := by
        rw [this]; simp
      have hr := ht1.rows
      rw [hr] at hm'
      simpa using hm'
    have hg : ((s.start now rid inp).extend q s.base.reqs row rows xs pool).gdn row = inp.take m.1.1.length ++ inp.drop (inp.length - 2) := by
      have hrest : restore (s.start now rid inp).gdn (s.start now rid inp).snap q row row = inp.take m.1.1.length := by
        have e1 : (s.start now rid inp).gdn = s.gdn := rfl
        have e2 : (s.start now rid inp).snap = s.snap := rfl
        rw [e1, e2, restore, hqd]
        simp only []
        rw [if_pos (by rw [← hcap.2.2]; exact hpos), hget]
        simp [copyStates, hgsnap]
      have hf' : forward (restore (s.start now rid inp).gdn (s.start now rid inp).snap q row) row (q.inp.drop q.idx.length) row =
          inp.take m.1.1.length ++ inp.drop (inp.length - 2) := by
        rw [forward, Function.update_self, hrest, show q.idx.length = inp.length - 2 from hidx]
      simp only [HSt.extend]
      cases ho : (allocTrack (s.start now rid inp).free).1 with
      | none => exact hf'
      | some t =>
        simp only [copyStates]
        rw [Function.update_of_ne, hf']
        have := ht1.track_ge (.inl (List.mem_of_getLast? ho))
        omega
    have hcommit : ∀ (u : HSt) (r0 : Req), (u.commit now r0 s.base.reqs row tok).gdn = u.gdn ∧
        (u.commit now r0 s.base.reqs row tok).base = u.base.commit .hybrid now r0 s.base.reqs row tok := by
      intro u r0
      unfold HSt.commit
      simp only []
      split
      · split <;> exact ⟨rfl, rfl⟩
      · exact ⟨rfl, rfl⟩
    obtain ⟨e1, e2⟩ := hcommit ((s.start now rid inp).extend q s.base.reqs row rows xs pool) { q with row := some row }
    rw [e1, e2]
    refine ⟨_, List.mem_cons_self, row, rfl, rfl, ?_, m.1.1.length, hcap.1, f2, hg, ?_⟩
    · rw [Req.filled, if_pos rfl]
      simp [hqd]
    · rw [hg, List.length_append, List.length_take, List.length_drop]
      omega
  · cases hp

/-! # C104: track slots -/

/-- C104: no track slot is lost or used twice: if no prompt was empty, every track slot is free, or holds the snapshot of one
node of the prefix cache, or belongs to one request in prefill. -/
theorem C104_tracks_partial (h : HReach size maxReqs tracks b labs s) (hne : ∀ l ∈ labs, l.empty = false) :
    (s.free ++ (s.snap.map (·.2) ++ pend s.rts s.base.reqs)).Perm (List.range' (maxReqs + 1) tracks) := by
  obtain ⟨lost, e, e2⟩ := (tinv_reach h).tracks
  rw [e2 hne, add_zero] at e
  rw [← Multiset.coe_eq_coe, ← e, ← Multiset.coe_add, ← Multiset.coe_add, add_assoc]

/-- C104: in every history, the snapshots of the nodes and the slots of the requests in prefill are different slots, none of
them is free, and none is the working slot of a request. -/
theorem C104_distinct (h : HReach size maxReqs tracks b labs s) :
    (s.free ++ (s.snap.map (·.2) ++ pend s.rts s.base.reqs)).Nodup ∧
    ∀ r ∈ s.base.reqs, ∀ row, r.row = some row → row ∉ s.free ++ (s.snap.map (·.2) ++ pend s.rts s.base.reqs) := by
  have ht := tinv_reach h
  refine ⟨ht.track_disj, ?_⟩
  intro r hr row hrow hm
  have h1 := ht.row_lt hr hrow
  have h2 := ht.track_ge (t := row) (by simpa using hm)
  omega

/-- C104: only nodes of the cache have snapshots; when everything is evicted and no request is in prefill, all track slots are free. -/
theorem C104_all_free_partial (h : HReach size maxReqs tracks b labs s) (hne : ∀ l ∈ labs, l.empty = false) (ht : s.base.cache.tree = .nil)
    (hr : ∀ r ∈ s.base.reqs, r.done = true) : s.free.Perm (List.range' (maxReqs + 1) tracks) := by
  have hp := C104_tracks_partial h hne
  have h1 : s.snap = [] := by
    rw [List.eq_nil_iff_forall_not_mem]
    intro p hpm
    obtain ⟨k, sl, a⟩ := (tinv_reach h).snapMem p hpm
    rw [ht] at a
    exact a
  have h2 : pend s.rts s.base.reqs = [] := by
    rw [pend, List.filterMap_eq_nil_iff]
    intro r hrm
    rw [hr r hrm]; rfl
  rw [h1, h2] at hp
  simpa using hp

/-! ### Histories -/

theorem fresh_of {rids : List Nat} {u : HSt} (h : u.base.reqs.map (·.rid) = rids) {rid : Nat} (hr : rid ∉ rids) : ∀ q ∈ u.base.reqs, q.rid ≠ rid := by
  intro q hq he
  exact hr (h ▸ he ▸ List.mem_map_of_mem hq)

-- [1, 2, 3], then [1, 2, 3, 4], then [1, 2, 3, 4, 5, 6]
def v0 : HSt := .init 20 4 4 true
def v1 : HSt := (v0.prefill 0 0 [1, 2, 3] 9).getD v0
def v2 : HSt := (v1.prefill 1 1 [1, 2, 3, 4] 9).getD v0
def v3 : HSt := (v2.prefill 2 2 [1, 2, 3, 4, 5, 6] 9).getD v0
-- [1, 2, 3], then [1, 2, 3, 4, 5]
def w2 : HSt := (v1.prefill 1 1 [1, 2, 3, 4, 5] 9).getD v0

theorem getD_some {α : Type} {o : Option α} {d : α} (h : o.isSome = true) : o = some (o.getD d) := by
  cases o with
  | none => cases h
  | some x => rfl

theorem v1_some : v0.prefill 0 0 [1, 2, 3] 9 = some v1 := getD_some (by decide +kernel)
theorem v2_some : v1.prefill 1 1 [1, 2, 3, 4] 9 = some v2 := getD_some (by decide +kernel)
theorem v3_some : v2.prefill 2 2 [1, 2, 3, 4, 5, 6] 9 = some v3 := getD_some (by decide +kernel)
theorem w2_some : v1.prefill 1 1 [1, 2, 3, 4, 5] 9 = some w2 := getD_some (by decide +kernel)

/-- Non-vacuity of `C103_state_partial`: a hit that is not cut back; the prefill starts from the snapshot. -/
example : ∃ labs, HReach 20 4 4 true labs w2 ∧ (∀ l ∈ labs, l.cut = false) ∧ (∀ l ∈ labs, l.empty = false) ∧
    w2.base.reqs.map (·.row) = [some 1, some 0] ∧ w2.gdn 1 = [1, 2, 3, 4, 5] ∧ w2.snap = [(2, 7), (1, 8)] ∧ w2.gdn 8 = [1, 2, 3] ∧
    w2.base.reqs.map (·.prot) = [5, 3] ∧ v1.discards 1 [1, 2, 3, 4, 5] = false := by
  refine ⟨_, prefill_reach (prefill_reach .init (by intro q hq; cases hq) v1_some) (fresh_of (rids := [0]) (by decide +kernel) (by decide)) w2_some, ?_, ?_, ?_, ?_, ?_, ?_, ?_, ?_⟩
  all_goals decide +kernel

/-- Non-vacuity of `C103_cut_violated`: its hypotheses hold for the second prompt. -/
example : v1.cuts 1 [1, 2, 3, 4] = true ∧ v1.prefill 1 1 [1, 2, 3, 4] 9 = some v2 ∧ v2.gdn 1 = [1, 2, 3, 3, 4] := ⟨by decide +kernel, v2_some, by decide +kernel⟩

/-- C103, violated: the state of such a request is also kept as a snapshot, so that requests whose own hit is not cut back
continue from a state in which a token was read twice. -/
theorem C103_spread_violated : ∃ labs s r, HReach 20 4 4 true labs s ∧ labs.head? = some { lab := .commit } ∧ (labs[2]?).map (·.cut) = some false ∧
    r ∈ s.base.reqs ∧ r.row = some 2 ∧ r.filled = [1, 2, 3, 4, 5, 6] ∧ s.gdn 2 = [1, 2, 3, 3, 4, 5, 6] := by
  refine ⟨_, v3, ⟨2, [1, 2, 3, 4, 5, 6], [9], some 2, [1, 2, 3, 5], 6, some 3, true⟩, prefill_reach (prefill_reach (prefill_reach .init (by intro q hq; cases hq) v1_some)
    (fresh_of (rids := [0]) (by decide +kernel) (by decide)) v2_some) (fresh_of (rids := [1, 0]) (by decide +kernel) (by decide)) v3_some, rfl, ?_, ?_, rfl, ?_, ?_⟩
  all_goals decide +kernel

-- an empty prompt
def e1 : HSt := (v0.prefill 0 0 [] 9).getD v0
theorem e1_some : v0.prefill 0 0 [] 9 = some e1 := getD_some (by decide +kernel)
def e2 : HSt := e1.finish 1 ⟨0, [], [9], some 0, [], 0, none, true⟩ [] 0

/-- C104, violated: a request with an empty prompt takes a track slot that is never given back: there is no node to attach
it to, and the end of the request only forgets it. -/
theorem C104_empty_violated : ∃ labs s, HReach 20 4 4 true labs s ∧ s.base.reqs = [] ∧ s.base.cache.tree = .nil ∧ s.snap = [] ∧ s.rts = [] ∧ s.free = [5, 6, 7] := by
  refine ⟨_, e2, .step (prefill_reach .init (by intro q hq; cases hq) e1_some) (.finish 1 _ [] 0 ?_ rfl rfl), ?_, ?_, ?_, ?_, ?_⟩
  all_goals decide +kernel

-- one track slot; two prompts that end, then the second one again with two more tokens
def t0 : HSt := .init 20 4 1 true
def t1 : HSt := (t0.prefill 0 0 [1, 2, 3] 9).getD t0
def t2 : HSt := (t1.prefill 1 1 [4, 5, 6] 9).getD t0
theorem t1_some : t0.prefill 0 0 [1, 2, 3] 9 = some t1 := getD_some (by decide +kernel)
theorem t2_some : t1.prefill 1 1 [4, 5, 6] 9 = some t2 := getD_some (by decide +kernel)

/-- C104, violated: snapshots do not make room for newer ones. When all track slots hold snapshots, the prefix of a later
prompt is cached but its hit is discarded (and stays useless until memory for keys and values runs out). -/
theorem C104_starved_violated : ∃ labs s, HReach 20 4 1 true labs s ∧ s.free = [] ∧
    (matchPrefix 1 5 s.base.cache none [4, 5, 6, 7, 8]).1.1.length = 3 ∧ s.discards 5 [4, 5, 6, 7, 8] = true := by
  refine ⟨_, t2, prefill_reach (prefill_reach .init (by intro q hq; cases hq) t1_some) (fresh_of (rids := [0]) (by decide +kernel) (by decide)) t2_some, ?_, ?_, ?_⟩
  all_goals decide +kernel

end Verif.Hybrid
