import Verif.Hybrid.Lemmas
namespace Verif.Hybrid
open Verif.PyRadix hiding St Step Reach
open Verif.PyPool hiding St Step Reach init
open Verif.Runner

/-- The track slots of the requests in prefill. -/
def pend (rts : List (Nat × Nat)) (reqs : List Req) : List Nat := reqs.filterMap fun r => if r.done then none else get rts r.rid

/-- A matched request that is not allocated yet has locked a node with a snapshot, at the end of `M` tokens of its prompt. -/
def Hit (f : Forest) (snap : List (Nat × Nat)) (r : Req) (M : Nat) : Prop :=
  ∃ y sl ts, r.lock = some y ∧ PathTo y f none (r.inp.take M) sl ∧ get snap y = some ts

/-- The bookkeeping; `ne`: no prompt was empty. -/
structure TInv (maxReqs tracks : Nat) (ne : Prop) (c : Cache) (rows : Rows) (reqs : List Req) (free : List Nat) (rts snap : List (Nat × Nat)) :
    Prop where
  cinv : PyRadix.Inv 1 ⟨c, reqs.filterMap (·.lock)⟩
  rows : (rows : Multiset Nat) + reqs.filterMap (·.row) = (List.range maxReqs : List Nat)
  rid : (reqs.map (·.rid)).Nodup
  out : ∀ r ∈ reqs, r.done = false → r.out = []
  out' : ∀ r ∈ reqs, r.done = true → r.out ≠ []
  start : ∀ r ∈ reqs, r.row = none → r.done = false ∧ r.idx.length = r.prot
  hit : ∀ r ∈ reqs, r.row = none → 0 < r.prot → ∃ M, Hit c.tree snap r M ∧ r.prot ≤ M ∧ M ≤ r.inp.length ∧ r.prot = capped r.inp.length M
  snapMem : ∀ p ∈ snap, ∃ k sl, PathTo p.1 c.tree none k sl
  snapNd : (snap.map (·.1)).Nodup
  rtsMem : ∀ p ∈ rts, ∃ r ∈ reqs, r.rid = p.1 ∧ r.row ≠ none
  rtsNd : (rts.map (·.1)).Nodup
  tracks : ∃ lost : Multiset Nat, (free : Multiset Nat) + (snap.map (·.2) : List Nat) + (pend rts reqs : List Nat) + lost =
    (List.range' (maxReqs + 1) tracks : List Nat) ∧ (ne → lost = 0)
  nonempty : ne → ∀ r ∈ reqs, r.inp ≠ []

def HSt.TInv (maxReqs tracks : Nat) (ne : Prop) (s : HSt) : Prop :=
  Hybrid.TInv maxReqs tracks ne s.base.cache s.base.rows s.base.reqs s.free s.rts s.snap

section
variable {maxReqs tracks : Nat} {ne : Prop} {c c' : Cache} {rows : Rows} {reqs : List Req} {free : List Nat} {rts snap : List (Nat × Nat)}

theorem TInv.perm (h : TInv maxReqs tracks ne c rows reqs free rts snap) {l : List Req} (hp : reqs.Perm l) :
    TInv maxReqs tracks ne c rows l free rts snap := by
  refine ⟨inv_perm h.cinv (hp.filterMap _), ?_, (hp.map _).nodup_iff.1 h.rid, fun r hr => h.out r (hp.mem_iff.2 hr), fun r hr => h.out' r (hp.mem_iff.2 hr),
    fun r hr => h.start r (hp.mem_iff.2 hr), fun r hr => h.hit r (hp.mem_iff.2 hr), h.snapMem, h.snapNd, ?_, h.rtsNd, ?_,
    fun hn r hr => h.nonempty hn r (hp.mem_iff.2 hr)⟩
  · rw [← h.rows, Multiset.coe_eq_coe.2 (hp.symm.filterMap (·.row))]
  · intro p hpm
    obtain ⟨r, hr, h1⟩ := h.rtsMem p hpm
    exact ⟨r, hp.mem_iff.1 hr, h1⟩
  · obtain ⟨lost, h1, h2⟩ := h.tracks
    refine ⟨lost, ?_, h2⟩
    rw [← h1]
    rw [pend, pend, Multiset.coe_eq_coe.2 (hp.symm.filterMap _)]

/-- The cache changes, everything else stays. -/
theorem TInv.chg (h : TInv maxReqs tracks ne c rows reqs free rts snap) (hc : Chg c c' (reqs.filterMap (·.lock))) :
    TInv maxReqs tracks ne c' rows reqs free rts snap :=
  ⟨hc.inv, h.rows, h.rid, h.out, h.out', h.start,
    fun r hr h1 h2 => by
      obtain ⟨M, ⟨y, sl, ts, a, b, d⟩, e⟩ := h.hit r hr h1 h2
      exact ⟨M, ⟨y, sl, ts, a, hc.path _ _ _ _ b, d⟩, e⟩,
    fun p hp => by
      obtain ⟨k, sl, a⟩ := h.snapMem p hp
      exact ⟨k, sl, hc.path _ _ _ _ a⟩,
    h.snapNd, h.rtsMem, h.rtsNd, h.tracks, h.nonempty⟩

theorem pend_cons (rts : List (Nat × Nat)) (r : Req) (rest : List Req) :
    pend rts (r :: rest) = (if r.done then none else get rts r.rid).toList ++ pend rts rest := by
  rw [pend, List.filterMap_cons]
  cases (if r.done = true then none else get rts r.rid) <;> rfl

theorem pend_congr {rts rts' : List (Nat × Nat)} {rest : List Req} (h : ∀ q ∈ rest, get rts' q.rid = get rts q.rid) : pend rts' rest = pend rts rest := by
  rw [pend, pend]
  apply List.filterMap_congr
  intro q hq
  rw [h q hq]

theorem TInv.rts_none (h : TInv maxReqs tracks ne c rows reqs free rts snap) {r : Req} (hr : r ∈ reqs) (hn : r.row = none) : get rts r.rid = none := by
  refine get_none_of fun p hp he => ?_
  obtain ⟨q, hq, h1, h2⟩ := h.rtsMem p hp
  have : q = r := by
    have := List.inj_on_of_nodup_map h.rid hq hr
    exact this (h1.trans he)
  exact h2 (this ▸ hn)

theorem TInv.rts_fresh (h : TInv maxReqs tracks ne c rows reqs free rts snap) {rid : Nat} (hr : ∀ q ∈ reqs, q.rid ≠ rid) : get rts rid = none := by
  refine get_none_of fun p hp he => ?_
  obtain ⟨q, hq, h1, _⟩ := h.rtsMem p hp
  exact hr q hq (h1.trans he)

theorem capped_zero (len : Nat) : capped len 0 = 0 := by rw [capped]; split <;> omega

theorem TInv.start_step (h : TInv maxReqs tracks ne c rows reqs free rts snap) {m M : Nat} {c1 : Cache} {idx : Slots} {lock : Option Nat} {rid : Nat} {inp : Key}
    (hr : ∀ q ∈ reqs, q.rid ≠ rid) (hc : Chg c c1 (reqs.filterMap (·.lock))) (hl : ∀ y, lock = some y → y ∈ ids c1.tree) (hi : idx.length = m)
    (hm : m ≤ M) (hM : M ≤ inp.length) (hcap : 0 < m → m = capped inp.length M)
    (hhit : 0 < m → ∃ y sl ts, lock = some y ∧ PathTo y c1.tree none (inp.take M) sl ∧ get snap y = some ts) (hne : ne → inp ≠ []) :
    TInv maxReqs tracks ne (lockOpt c1 lock) rows (⟨rid, inp, [], none, idx, m, lock, false⟩ :: reqs) free rts snap := by
  have h1 := h.chg hc
  have hL := chg_lock h1.cinv lock hl
  refine ⟨?_, ?_, ?_, ?_, ?_, ?_, ?_, ?_, h.snapNd, ?_, h.rtsNd, ?_, ?_⟩
  · rw [filterMap_opt]; exact hL.inv
  · rw [filterMap_opt]; simpa using h.rows
  · rw [List.map_cons, List.nodup_cons]
    refine ⟨?_, h.rid⟩
    rw [List.mem_map]
    rintro ⟨q, hq, he⟩
    exact hr q hq he
  · intro r hrm
    rcases List.mem_cons.1 hrm with rfl | hrm
    · exact fun _ => rfl
    · exact h.out r hrm
  · intro r hrm
    rcases List.mem_cons.1 hrm with rfl | hrm
    · intro hd; cases hd
    · exact h.out' r hrm
  · intro r hrm
    rcases List.mem_cons.1 hrm with rfl | hrm
    · exact fun _ => ⟨rfl, hi⟩
    · exact h.start r hrm
  · intro r hrm
    rcases List.mem_cons.1 hrm with rfl | hrm
    · intro _ hpos
      obtain ⟨y, sl, ts, a, b, d⟩ := hhit hpos
      exact ⟨M, ⟨y, sl, ts, a, hL.path _ _ _ _ b, d⟩, hm, hM, hcap hpos⟩
    · intro hn hpos
      obtain ⟨M', ⟨y, sl, ts, a, b, d⟩, e⟩ := h1.hit r hrm hn hpos
      exact ⟨M', ⟨y, sl, ts, a, hL.path _ _ _ _ b, d⟩, e⟩
  · intro p hp
    obtain ⟨k, sl, a⟩ := h1.snapMem p hp
    exact ⟨k, sl, hL.path _ _ _ _ a⟩
  · intro p hp
    obtain ⟨q, hq, e⟩ := h.rtsMem p hp
    exact ⟨q, List.mem_cons_of_mem _ hq, e⟩
  · obtain ⟨lost, e, e2⟩ := h.tracks
    refine ⟨lost, ?_, e2⟩
    rw [pend_cons]
    simp only [h.rts_fresh hr]
    simpa using e
  · intro hn r hrm
    rcases List.mem_cons.1 hrm with rfl | hrm
    · exact hne hn
    · exact h.nonempty hn r hrm

theorem TInv.rollback_step {r : Req} {rest : List Req} (h : TInv maxReqs tracks ne c rows (r :: rest) free rts snap) (hn : r.row = none) :
    TInv maxReqs tracks ne (unlockOpt c r.lock) rows rest free rts snap := by
  have hci := h.cinv
  rw [filterMap_opt] at hci
  have hL := chg_unlock r.lock hci
  have mem : ∀ {q}, q ∈ rest → q ∈ r :: rest := fun hq => List.mem_cons_of_mem _ hq
  refine ⟨hL.inv, ?_, (List.nodup_cons.1 (by simpa using h.rid)).2, fun q hq => h.out q (mem hq), fun q hq => h.out' q (mem hq),
    fun q hq => h.start q (mem hq), ?_, ?_, h.snapNd, ?_, h.rtsNd, ?_, fun hh q hq => h.nonempty hh q (mem hq)⟩
  · have := h.rows
    rw [filterMap_opt, hn] at this
    simpa using this
  · intro q hq h1 h2
    obtain ⟨M', ⟨y, sl, ts, a, b, d⟩, e⟩ := h.hit q (mem hq) h1 h2
    exact ⟨M', ⟨y, sl, ts, a, hL.path _ _ _ _ b, d⟩, e⟩
  · intro p hp
    obtain ⟨k, sl, a⟩ := h.snapMem p hp
    exact ⟨k, sl, hL.path _ _ _ _ a⟩
  · intro p hp
    obtain ⟨q, hq, e1, e2⟩ := h.rtsMem p hp
    rcases List.mem_cons.1 hq with rfl | hq
    · exact absurd hn e2
    · exact ⟨q, hq, e1, e2⟩
  · obtain ⟨lost, e, e2⟩ := h.tracks
    refine ⟨lost, ?_, e2⟩
    rw [pend_cons, h.rts_none List.mem_cons_self hn] at e
    simpa using e

theorem TInv.rid_ne {r : Req} {rest : List Req} (h : TInv maxReqs tracks ne c rows (r :: rest) free rts snap) {q : Req} (hq : q ∈ rest) : q.rid ≠ r.rid := by
  have := h.rid
  rw [List.map_cons, List.nodup_cons] at this
  intro he
  exact this.1 (List.mem_map.2 ⟨q, hq, he⟩)

theorem TInv.extend_step {r : Req} {rest : List Req} {row : Nat} {rows' : Rows} (h : TInv maxReqs tracks ne c (row :: rows') (r :: rest) free rts snap)
    (hn : r.row = none) :
    TInv maxReqs tracks ne c rows' ({ r with row := some row } :: rest) (allocTrack free).2
      (match (allocTrack free).1 with | some ts => (r.rid, ts) :: pop rts r.rid | none => rts) snap := by
  have mem : ∀ {q}, q ∈ rest → q ∈ r :: rest := fun hq => List.mem_cons_of_mem _ hq
  have hst := h.start r List.mem_cons_self hn
  refine ⟨?_, ?_, ?_, ?_, ?_, ?_, ?_, h.snapMem, h.snapNd, ?_, ?_, ?_, ?_⟩
  · have := h.cinv
    rw [filterMap_opt] at this ⊢
    exact this
  · have := h.rows
    rw [filterMap_opt, hn] at this
    rw [filterMap_opt, ← this]
    simp only [Option.toList_some, Option.toList_none, List.nil_append, List.cons_append]
    rw [← Multiset.cons_coe, ← Multiset.cons_coe, Multiset.add_cons, Multiset.cons_add]
  · simpa using h.rid
  · intro q hq
    rcases List.mem_cons.1 hq with rfl | hq
    · exact h.out r List.mem_cons_self
    · exact h.out q (mem hq)
  · intro q hq
    rcases List.mem_cons.1 hq with rfl | hq
    · exact h.out' r List.mem_cons_self
    · exact h.out' q (mem hq)
  · intro q hq
    rcases List.mem_cons.1 hq with rfl | hq
    · intro hh; cases hh
    · exact h.start q (mem hq)
  · intro q hq
    rcases List.mem_cons.1 hq with rfl | hq
    · intro hh; cases hh
    · exact h.hit q (mem hq)
  · have key : ∀ p ∈ rts, ∃ q ∈ { r with row := some row } :: rest, q.rid = p.1 ∧ q.row ≠ none := by
      intro p hp
      obtain ⟨q, hq, e1, e2⟩ := h.rtsMem p hp
      rcases List.mem_cons.1 hq with rfl | hq
      · exact absurd hn e2
      · exact ⟨q, List.mem_cons_of_mem _ hq, e1, e2⟩
    cases (allocTrack free).1 with
    | none => exact key
    | some ts =>
      intro p hp
      rcases List.mem_cons.1 hp with rfl | hp
      · exact ⟨_, List.mem_cons_self, rfl, by simp⟩
      · exact key p (mem_pop.1 hp).1
  · cases (allocTrack free).1 with
    | none => exact h.rtsNd
    | some ts =>
      simp only [List.map_cons, List.nodup_cons]
      refine ⟨?_, ?_⟩
      · rw [List.mem_map]
        rintro ⟨p, hp, e⟩
        exact (mem_pop.1 hp).2 e
      · exact h.rtsNd.sublist (List.filter_sublist.map _)
  · obtain ⟨lost, e, e2⟩ := h.tracks
    refine ⟨lost, ?_, e2⟩
    rw [pend_cons, h.rts_none List.mem_cons_self hn] at e
    rw [← e, pend_cons]
    simp only [allocTrack]
    rcases List.eq_nil_or_concat free with rfl | ⟨fr, ts, rfl⟩
    · simp only [List.getLast?_nil, List.dropLast_nil]
      rw [h.rts_none List.mem_cons_self hn]
    · simp only [List.concat_eq_append, List.getLast?_append, List.getLast?_singleton, Option.some_or, List.dropLast_concat, get_cons, if_pos,
        hst.1]
      have hpc : pend ((r.rid, ts) :: pop rts r.rid) rest = pend rts rest := by
        apply pend_congr
        intro q hq
        rw [get_cons, if_neg (fun e => h.rid_ne hq e.symm), get_pop, if_neg (h.rid_ne hq)]
      rw [hpc]
      simp only [← Multiset.coe_add, Bool.false_eq_true, if_false, Option.toList_some, Option.toList_none, List.nil_append]
      abel
  · intro hh q hq
    rcases List.mem_cons.1 hq with rfl | hq
    · exact h.nonempty hh r List.mem_cons_self
    · exact h.nonempty hh q (mem hq)

/-- A request changes its fields after prefill; the cache changes, with other locks. -/
theorem TInv.after_step {r r' : Req} {rest : List Req} (h : TInv maxReqs tracks ne c rows (r :: rest) free rts snap) {row : Nat} (hrow : r.row = some row)
    (h1 : r'.rid = r.rid) (h2 : r'.inp = r.inp) (h3 : r'.row = r.row) (h4 : r'.done = true) (h5 : r'.out ≠ [])
    (hc : PyRadix.Inv 1 ⟨c', r'.lock.toList ++ rest.filterMap (·.lock)⟩) (hp : ∀ y e k s, PathTo y c.tree e k s → PathTo y c'.tree e k s)
    {free' : List Nat} {rts' snap' : List (Nat × Nat)} (hs1 : ∀ p ∈ snap', ∃ k sl, PathTo p.1 c'.tree none k sl) (hs2 : (snap'.map (·.1)).Nodup)
    (hs3 : ∀ y v, get snap y = some v → get snap' y = some v)
    (hr1 : rts'.Sublist rts) (hr2 : ∀ q ∈ rest, get rts' q.rid = get rts q.rid)
    {extra : Multiset Nat} (ht : (free' : Multiset Nat) + (snap'.map (·.2) : List Nat) + extra =
      (free : Multiset Nat) + (snap.map (·.2) : List Nat) + ((if r.done then none else get rts r.rid).toList : List Nat))
    (hx : ne → extra = 0) :
    TInv maxReqs tracks ne c' rows (r' :: rest) free' rts' snap' := by
  have mem : ∀ {q}, q ∈ rest → q ∈ r :: rest := fun hq => List.mem_cons_of_mem _ hq
  refine ⟨?_, ?_, ?_, ?_, ?_, ?_, ?_, hs1, hs2, ?_, h.rtsNd.sublist (hr1.map _), ?_, ?_⟩
  · rw [filterMap_opt]; exact hc
  · have := h.rows
    rw [filterMap_opt] at this ⊢
    rw [h3]; exact this
  · have := h.rid
    rw [List.map_cons] at this ⊢
    rw [h1]; exact this
  · intro q hq
    rcases List.mem_cons.1 hq with rfl | hq
    · intro hd; rw [h4] at hd; cases hd
    · exact h.out q (mem hq)
  · intro q hq
    rcases List.mem_cons.1 hq with rfl | hq
    · exact fun _ => h5
    · exact h.out' q (mem hq)
  · intro q hq
    rcases List.mem_cons.1 hq with rfl | hq
    · intro hh; rw [h3, hrow] at hh; cases hh
    · exact h.start q (mem hq)
  · intro q hq
    rcases List.mem_cons.1 hq with rfl | hq
    · intro hh; rw [h3, hrow] at hh; cases hh
    · intro e1 e2
      obtain ⟨M', ⟨y, sl, ts, a, b, d⟩, e⟩ := h.hit q (mem hq) e1 e2
      exact ⟨M', ⟨y, sl, ts, a, hp _ _ _ _ b, hs3 _ _ d⟩, e⟩
  · intro p hpm
    obtain ⟨q, hq, e1, e2⟩ := h.rtsMem p (hr1.subset hpm)
    rcases List.mem_cons.1 hq with rfl | hq
    · exact ⟨r', List.mem_cons_self, h1.trans e1, by rw [h3]; exact e2⟩
    · exact ⟨q, List.mem_cons_of_mem _ hq, e1, e2⟩
  · obtain ⟨lost, e, e2⟩ := h.tracks
    refine ⟨lost + extra, ?_, fun hn => by rw [e2 hn, hx hn]; rfl⟩
    rw [pend_cons, ← Multiset.coe_add] at e
    rw [pend_cons, h4, if_pos rfl, Option.toList_none, List.nil_append, pend_congr hr2, ← e]
    calc (free' : Multiset Nat) + (snap'.map (·.2) : List Nat) + (pend rts rest : List Nat) + (lost + extra)
        = ((free' : Multiset Nat) + (snap'.map (·.2) : List Nat) + extra) + (pend rts rest : List Nat) + lost := by abel
      _ = _ := by rw [ht]; abel
  · intro hh q hq
    rcases List.mem_cons.1 hq with rfl | hq
    · rw [h2]; exact h.nonempty hh r List.mem_cons_self
    · exact h.nonempty hh q (mem hq)

theorem TInv.finish_step {r : Req} {rest : List Req} {row : Nat} (h : TInv maxReqs tracks ne c rows (r :: rest) free rts snap) (hrow : r.row = some row)
    (hd : r.done = true) (hc : PyRadix.Inv 1 ⟨c', rest.filterMap (·.lock)⟩) (hp : ∀ y e k s, PathTo y c.tree e k s → PathTo y c'.tree e k s) :
    TInv maxReqs tracks ne c' (rowsFree rows row) rest free (pop rts r.rid) snap := by
  have mem : ∀ {q}, q ∈ rest → q ∈ r :: rest := fun hq => List.mem_cons_of_mem _ hq
  refine ⟨hc, ?_, (List.nodup_cons.1 (by simpa using h.rid)).2, fun q hq => h.out q (mem hq), fun q hq => h.out' q (mem hq),
    fun q hq => h.start q (mem hq), ?_, ?_, h.snapNd, ?_, h.rtsNd.sublist (List.filter_sublist.map _), ?_, fun hh q hq => h.nonempty hh q (mem hq)⟩
  · have := h.rows
    rw [filterMap_opt, hrow] at this
    rw [← this]
    exact rows_back
  · intro q hq h1 h2
    obtain ⟨M', ⟨y, sl, ts, a, b, d⟩, e⟩ := h.hit q (mem hq) h1 h2
    exact ⟨M', ⟨y, sl, ts, a, hp _ _ _ _ b, d⟩, e⟩
  · intro p hpm
    obtain ⟨k, sl, a⟩ := h.snapMem p hpm
    exact ⟨k, sl, hp _ _ _ _ a⟩
  · intro p hpm
    obtain ⟨h1, h2⟩ := mem_pop.1 hpm
    obtain ⟨q, hq, e1, e2⟩ := h.rtsMem p h1
    rcases List.mem_cons.1 hq with rfl | hq
    · exact absurd e1.symm h2
    · exact ⟨q, hq, e1, e2⟩
  · obtain ⟨lost, e, e2⟩ := h.tracks
    refine ⟨lost, ?_, e2⟩
    rw [pend_cons, hd, if_pos rfl, Option.toList_none, List.nil_append] at e
    rw [pend_congr (rts := rts)]
    · exact e
    · intro q hq
      rw [get_pop, if_neg (h.rid_ne hq)]

theorem part_perm (snap : List (Nat × Nat)) (f : Forest) : (gone snap f ++ kept snap f).Perm snap := by
  rw [gone, kept]
  have := List.filter_append_perm (fun p : Nat × Nat => decide (p.1 ∉ ids f)) snap
  refine List.Perm.trans (List.Perm.append_left _ ?_) this
  rw [List.filter_congr]
  intro p _
  simp

theorem get_kept {snap : List (Nat × Nat)} {f : Forest} {y v : Nat} (h : get snap y = some v) (hy : y ∈ ids f) : get (kept snap f) y = some v := by
  induction snap with
  | nil => simp [get] at h
  | cons p d ih =>
    rw [get_cons] at h
    rw [kept, List.filter_cons]
    split at h
    · rename_i hpy
      rw [if_pos (by rw [hpy]; simpa using hy), get_cons, if_pos hpy]
      exact h
    · rename_i hpy
      split
      · rw [get_cons, if_neg hpy]; exact ih h
      · exact ih h

theorem TInv.evict_step (h : TInv maxReqs tracks ne c rows reqs free rts snap) {target : Nat} {freed : Slots} (he : Evict target c freed c')
    {l : List (Nat × Nat)} (hl : l.Perm (gone snap c'.tree)) :
    TInv maxReqs tracks ne c' rows reqs (free ++ l.map (·.2)) rts (kept snap c'.tree) := by
  have ok := evict_ok h.cinv he
  have hk := evict_keep h.cinv he
  refine ⟨ok.inv, h.rows, h.rid, h.out, h.out', h.start, ?_, ?_, h.snapNd.sublist (List.filter_sublist.map _), h.rtsMem, h.rtsNd, ?_, h.nonempty⟩
  · intro r hr h1 h2
    obtain ⟨M', ⟨y, sl, ts, a, b, d⟩, e⟩ := h.hit r hr h1 h2
    have hy : y ∈ reqs.filterMap (·.lock) := List.mem_filterMap.2 ⟨r, hr, a⟩
    have hp := ok.path y hy _ _ _ b
    exact ⟨M', ⟨y, sl, ts, a, hp, get_kept d (pathTo_mem hp)⟩, e⟩
  · intro p hp
    rw [kept, List.mem_filter] at hp
    obtain ⟨k, sl, a⟩ := h.snapMem p hp.1
    exact ⟨k, sl, hk _ _ _ _ (by simpa using hp.2) a⟩
  · obtain ⟨lost, e, e2⟩ := h.tracks
    refine ⟨lost, ?_, e2⟩
    rw [← e]
    have hp : ((l.map (·.2)) ++ (kept snap c'.tree).map (·.2)).Perm (snap.map (·.2)) := by
      rw [← List.map_append]
      exact ((hl.append_right _).trans (part_perm snap c'.tree)).map _
    rw [← Multiset.coe_eq_coe.2 hp, ← Multiset.coe_add, ← Multiset.coe_add]
    abel
end

end Verif.Hybrid
