import Verif.Runner.Inv
import Mathlib.Tactic.Abel
namespace Verif.Runner
open Verif.PyRadix Verif.PyPool

theorem rbase_frame {m : Mode} {f f' : Forest} {t t' : Nat → Nat → Nat} {q : Req} (h : RBase m f t q)
    (hp : ∀ y k sl, q.lock = some y → PathTo y f none k sl → PathTo y f' none k sl) (hb : base t' q = base t q) : RBase m f' t' q := by
  refine ⟨h.le, h.out, h.out', h.start, h.off, h.path.imp_right ?_⟩
  rintro ⟨y, k, sl, h1, h2, h3, h4, h5⟩
  exact ⟨y, k, sl, h1, hp y k sl h1 h2, h3, h4, by rw [hb]; exact h5⟩

theorem base_fill {t : Nat → Nat → Nat} {row pos : Nat} {xs : Slots} {q : Req} (h : ∀ row', q.row = some row' → row' ≠ row) :
    base (fill t row pos xs) q = base t q := by
  rw [base, base]
  cases hq : q.row with
  | none => rfl
  | some row' => exact read_other (h row' hq)

theorem own_fill {t : Nat → Nat → Nat} {row pos : Nat} {xs : Slots} {q : Req} (h : ∀ row', q.row = some row' → row' ≠ row) :
    own (fill t row pos xs) q = own t q := by
  rw [own, own]
  cases hq : q.row with
  | none => rfl
  | some row' =>
    show List.drop _ (read _ _ _) = _
    rw [read_other (h row' hq)]

theorem flat_congr {f g : Req → Slots} : ∀ {l : List Req}, (∀ q ∈ l, f q = g q) → l.flatMap f = l.flatMap g
  | [], _ => rfl
  | q :: l, h => by
    rw [List.flatMap_cons, List.flatMap_cons, h q (List.mem_cons_self), flat_congr (fun x hx => h x (List.mem_cons_of_mem _ hx))]

theorem rinv_init (m : Mode) (size maxReqs : Nat) (b : Bool) : RInv m size maxReqs (.init size maxReqs b) := by
  refine ⟨rfl, rfl, inv_init 1, ?_, ?_, ?_, ?_, ?_⟩
  · simp [St.init, PyPool.init, Cache.empty, slots]
  · simp [St.init, rowsInit]
  · intro r hr; cases hr
  · rintro k sl ⟨_, rfl⟩ i x hx; simp at hx
  · intro r hr; cases hr

theorem cached_slots : ∀ {f : Forest} {k sl}, Cached 1 f none k sl → ∀ x ∈ sl, x ∈ slots f := by
  intro f
  induction f with
  | nil => rintro k sl ⟨_, rfl⟩ x hx; cases hx
  | node i' k' x' v l t kids rest' ihk ihr =>
    intro k sl hc x hx
    rw [slots, List.mem_append, List.mem_append]
    rcases hc with hc | ⟨_, ⟨n, _, _, _, rfl⟩ | ⟨_, s', _, rfl, hc⟩⟩
    · exact .inr (.inr (ihr hc x hx))
    · exact .inl (List.mem_of_mem_take hx)
    · rcases List.mem_append.1 hx with hx | hx
      · exact .inl hx
      · exact .inr (.inl (ihk hc x hx))

theorem capped_le (len n : Nat) : capped len n ≤ n := by
  rw [capped]; split <;> omega

theorem rinv_start {m : Mode} {size maxReqs : Nat} {s : St} (h : RInv m size maxReqs s) (now rid : Nat) (inp : Key) (discard : Bool) :
    RInv m size maxReqs (s.start m now rid inp discard) := by
  rw [St.start]
  by_cases h0 : m = .off ∨ inp = []
  · rw [if_pos h0]
    refine ⟨h.page, h.group, h.cinv, ?_, h.rows, ?_, h.kvTree, ?_⟩
    · rw [← h.all]; rfl
    · intro r hr
      rcases List.mem_cons.1 hr with rfl | hr
      · exact ⟨Nat.zero_le _, fun _ => rfl, fun hh => (by cases hh), fun _ => ⟨rfl, rfl⟩, fun _ => ⟨rfl, rfl⟩, .inl rfl⟩
      · exact h.reqs r hr
    · intro r hr row hrow
      rcases List.mem_cons.1 hr with rfl | hr
      · cases hrow
      · exact h.kvReq r hr row hrow
  · rw [if_neg h0]
    have sp := match_spec h.cinv now inp
    rcases hm : matchPrefix 1 now s.cache none inp with ⟨⟨sl, last⟩, c⟩
    rw [hm] at sp
    simp only [] at sp ⊢
    have hn : capped inp.length (if discard = true then 0 else sl.length) ≤ sl.length := by
      refine (capped_le _ _).trans ?_
      split <;> omega
    generalize capped inp.length (if discard = true then 0 else sl.length) = n at hn
    have sm := same_lock c (if 0 < n then last else none)
    refine ⟨h.page, h.group, ?_, ?_, h.rows, ?_, ?_, ?_⟩
    · show PyRadix.Inv 1 ⟨_, List.filterMap _ (_ :: _)⟩
      rw [filterMap_opt]
      refine inv_lockOpt sp.inv _ ?_
      intro y hy
      split at hy
      · exact pathTo_mem (sp.hlast y hy)
      · cases hy
    · show _ + (slots (lockOpt c _).tree : Multiset Nat) + _ = _
      rw [sm.slots, Multiset.coe_eq_coe.2 sp.slots, ← h.all]
      rfl
    · intro r hr
      rcases List.mem_cons.1 hr with rfl | hr
      · refine ⟨hn.trans sp.le, fun _ => rfl, fun hh => (by cases hh), fun _ => ⟨rfl, ?_⟩, fun ho => absurd (.inl ho) h0, ?_⟩
        · show (sl.take n).length = n
          rw [List.length_take]; omega
        · by_cases hz : 0 < n
          · right
            have hly : ∃ y, last = some y := by
              rcases ho : last with _ | y
              · have := sp.root ho
                rw [this] at hn
                simp at hn; omega
              · exact ⟨y, rfl⟩
            obtain ⟨y, hl⟩ := hly
            · refine ⟨y, inp.take sl.length, sl, ?_, (sm.path _ _ _ _).2 (sp.hlast y hl), ?_, ?_, rfl⟩
              · show (if 0 < n then last else none) = some y
                rw [if_pos hz, hl]
              · show n ≤ _
                rw [List.length_take]
                have := sp.le
                omega
              · show (inp.take sl.length).take n = inp.take n
                rw [List.take_take, Nat.min_eq_left hn]
          · left; show n = 0; omega
      · exact rbase_frame (h.reqs r hr) (fun y k sl' _ hp => (sm.path _ _ _ _).2 (sp.path _ _ _ _ hp)) rfl
    · intro k sl' hc
      exact h.kvTree k sl' ((sp.same _ _ _).1 ((sm.cached _ _ _).1 hc))
    · intro r hr row hrow
      rcases List.mem_cons.1 hr with rfl | hr
      · cases hrow
      · exact h.kvReq r hr row hrow

theorem rinv_rollback {m : Mode} {size maxReqs : Nat} {s : St} (h : RInv m size maxReqs s) {r : Req} {rest : List Req} (hs : s.reqs = r :: rest)
    (hr : r.row = none) : RInv m size maxReqs (s.rollback r rest) := by
  have sm := same_unlock s.cache r.lock
  have hin : ∀ q ∈ rest, q ∈ s.reqs := fun q hq => by rw [hs]; exact List.mem_cons_of_mem _ hq
  refine ⟨h.page, h.group, ?_, ?_, ?_, ?_, ?_, fun q hq => h.kvReq q (hin q hq)⟩
  · have := h.cinv
    rw [hs, filterMap_opt] at this
    exact inv_unlockOpt r.lock this
  · show _ + (slots (unlockOpt s.cache r.lock).tree : Multiset Nat) + _ = _
    rw [sm.slots, ← h.all, hs, List.flatMap_cons, own, hr]
    rfl
  · have := h.rows
    rw [hs, filterMap_opt, hr] at this
    exact this
  · intro q hq
    exact rbase_frame (h.reqs q (hin q hq)) (fun y k sl' _ hp => (sm.path _ _ _ _).2 hp) rfl
  · intro k sl hc
    exact h.kvTree k sl ((sm.cached _ _ _).1 hc)

theorem rowsAlloc_one {rows rows' : Rows} {row : Nat} (h : rowsAlloc rows 1 = (some [row], rows')) : rows = row :: rows' := by
  rw [rowsAlloc] at h
  cases rows with
  | nil => simp at h
  | cons a l =>
    simp at h
    rw [h.1, h.2]

theorem rinv_extend {m : Mode} {size maxReqs : Nat} {s : St} (h : RInv m size maxReqs s) {r : Req} {rest : List Req} (hs : s.reqs = r :: rest)
    (hr : r.row = none) {row : Nat} {rows : Rows} {xs : Slots} {pool : Pool} (hrow : rowsAlloc s.rows 1 = (some [row], rows))
    (hx : s.pool.alloc (r.inp.length - r.idx.length) = (some xs, pool)) : RInv m size maxReqs (s.extend r rest row rows xs pool) := by
  have hb := h.reqs r (by rw [hs]; exact List.mem_cons_self)
  obtain ⟨hd, hidx⟩ := hb.start hr
  have hin : ∀ q ∈ rest, q ∈ s.reqs := fun q hq => by rw [hs]; exact List.mem_cons_of_mem _ hq
  obtain ⟨p1, p2, p3, p4⟩ := pool_alloc h.page hx
  have hxl := p4 xs rfl
  simp only [Option.getD_some] at p3
  have hxs : ∀ x ∈ xs, x ∈ s.pool.free ++ s.pool.release := by
    intro x hxm
    have : x ∈ (s.pool.free : Multiset Nat) + s.pool.release := by rw [← p3]; simp [hxm]
    simpa using this
  have hxn : xs.Nodup := by
    have hp : (s.pool.free ++ s.pool.release ++ (slots s.cache.tree ++ s.reqs.flatMap (own s.table))).Perm (List.range' 1 size) := by
      rw [← Multiset.coe_eq_coe, ← h.all]; simp [← Multiset.coe_add, add_assoc]
    have h1 := (List.nodup_append.1 (hp.nodup_iff.2 List.nodup_range')).1
    have h2 : (xs ++ (pool.free ++ pool.release)).Perm (s.pool.free ++ s.pool.release) := by
      rw [← Multiset.coe_eq_coe]; simpa [← Multiset.coe_add] using p3
    exact (List.nodup_append.1 (h2.nodup_iff.2 h1)).1
  have hrows := rowsAlloc_one hrow
  have hne : ∀ q ∈ rest, ∀ row', q.row = some row' → row' ≠ row := by
    intro q hq row' hq' he
    have hp : (s.rows ++ s.reqs.filterMap (·.row)).Perm (List.range maxReqs) := by
      rw [← Multiset.coe_eq_coe, ← h.rows]; simp
    have hn := (List.nodup_append.1 (hp.nodup_iff.2 List.nodup_range)).2.2
    rw [hrows] at hn
    exact hn row List.mem_cons_self row' (List.mem_filterMap.2 ⟨q, hin q hq, hq'⟩) he.symm
  have hfill : ({ r with row := some row } : Req).filled = r.inp := by simp [Req.filled, hd]
  have hle : r.idx.length ≤ r.inp.length := by rw [hidx]; exact hb.le
  have hread : read (fill (fill s.table row 0 r.idx) row r.idx.length xs) row r.inp.length = r.idx ++ xs := by
    have h1 := read_fill (fill s.table row 0 r.idx) row r.idx.length xs
    have h2 := read_fill s.table row 0 r.idx
    rw [Nat.zero_add] at h2
    rw [h2] at h1
    have : r.idx.length + xs.length = r.inp.length := by omega
    rw [this] at h1
    rw [h1]; rfl
  have hrow' : ∀ q ∈ rest, own (fill (fill s.table row 0 r.idx) row r.idx.length xs) q = own s.table q := fun q hq => by
    rw [own_fill (hne q hq), own_fill (hne q hq)]
  have hkold : ∀ x, x ∉ xs → compute s.kv r.inp r.idx.length xs x = s.kv x := fun x hx => compute_other hx
  have hbr : RBase m s.cache.tree (fill (fill s.table row 0 r.idx) row r.idx.length xs) { r with row := some row } := by
    refine ⟨hb.le, hb.out, hb.out', fun hh => (by cases hh), hb.off, hb.path.imp_right ?_⟩
    rintro ⟨y, k, sl, a1, a2, a3, a4, a5⟩
    refine ⟨y, k, sl, a1, a2, a3, a4, ?_⟩
    rw [base, hr] at a5
    show sl.take r.prot = read _ row r.prot
    rw [a5, ← read_take _ row _ _ hb.le, hread, List.take_append_of_le_length (by omega), ← hidx, List.take_length]
  refine ⟨p1, p2.trans h.group, ?_, ?_, ?_, ?_, ?_, ?_⟩
  · have := h.cinv
    rw [hs] at this
    exact this
  · show ((pool.free : List Nat) : Multiset Nat) + pool.release + slots s.cache.tree + (List.flatMap (own _) (_ :: rest) : List Nat) = _
    rw [← h.all, ← p3, hs, List.flatMap_cons, List.flatMap_cons]
    rw [show (s.extend r rest row rows xs pool).table = fill (fill s.table row 0 r.idx) row r.idx.length xs from rfl, flat_congr hrow']
    have e1 : own (fill (fill s.table row 0 r.idx) row r.idx.length xs) { r with row := some row } = xs := by
      rw [own]
      show List.drop r.prot (read _ row _) = xs
      rw [hfill, hread, ← hidx, List.drop_left]
    have e2 : own s.table r = [] := by rw [own, hr]
    rw [e1, e2]
    simp only [← Multiset.coe_add, List.nil_append]
    abel
  · show ((rows : List Nat) : Multiset Nat) + (List.filterMap _ (_ :: rest) : List Nat) = _
    rw [← h.rows, hs, filterMap_opt, filterMap_opt, hr, hrows]
    simp only [Option.toList_some, Option.toList_none, List.nil_append, List.cons_append, ← Multiset.cons_coe, Multiset.cons_add, Multiset.add_cons]
  · intro q hq
    rcases List.mem_cons.1 hq with rfl | hq
    · exact hbr
    · exact rbase_frame (h.reqs q (hin q hq)) (fun y k sl' _ hp => hp) ((base_fill (hne q hq)).trans (base_fill (hne q hq)))
  · intro k sl hc i x hxs'
    show compute s.kv r.inp r.idx.length xs x = _
    have hxt : x ∉ xs := fun hm => (h.disjoint (hxs x hm)).1 (cached_slots hc x (List.mem_of_getElem? hxs'))
    rw [hkold x hxt]
    exact h.kvTree k sl hc i x hxs'
  · intro q hq row' hq' i hi
    rcases List.mem_cons.1 hq with rfl | hq
    · have hq'' : row' = row := (Option.some.inj hq').symm
      subst hq''
      rw [hfill] at hi ⊢
      show compute s.kv r.inp r.idx.length xs ((fill (fill s.table row' 0 r.idx) row' r.idx.length xs) row' i) = _
      have hget := read_get (fill (fill s.table row' 0 r.idx) row' r.idx.length xs) row' r.inp.length i hi
      rw [hread] at hget
      by_cases hip : i < r.idx.length
      · rw [List.getElem?_append_left hip] at hget
        rcases hb.path with h0 | ⟨y, k, sl, a1, a2, a3, a4, a5⟩
        · omega
        · rw [base, hr] at a5
          replace a5 : sl.take r.prot = r.idx := a5
          have hsl : sl[i]? = some ((fill (fill s.table row' 0 r.idx) row' r.idx.length xs) row' i) := by
            rw [← hget, ← a5, List.getElem?_take, if_pos (by omega)]
          have hmem := pathTo_slots a2 _ (List.mem_of_getElem? hsl)
          rw [hkold _ (fun hm => (h.disjoint (hxs _ hm)).1 hmem)]
          have := h.kvTree k sl (pathTo_cached h.cinv.wf a2) i _ hsl
          rw [this]
          have h1 : k.take (i + 1) = (k.take r.prot).take (i + 1) := by rw [List.take_take, Nat.min_eq_left (by omega)]
          rw [h1, a4, List.take_take, Nat.min_eq_left (by omega)]
      · rw [List.getElem?_append_right (by omega)] at hget
        rw [compute_at hxn hget]
        congr 1; omega
    · have ht : (fill (fill s.table row 0 r.idx) row r.idx.length xs) row' i = s.table row' i := by
        rw [fill_other (hne q hq row' hq'), fill_other (hne q hq row' hq')]
      show compute s.kv r.inp r.idx.length xs ((fill (fill s.table row 0 r.idx) row r.idx.length xs) row' i) = _
      rw [ht, hkold _ (fun hm => h.disjointReq (hxs _ hm) (hin q hq) hq' hi rfl)]
      exact h.kvReq q (hin q hq) row' hq' i hi

theorem rinv_noSlots {m : Mode} {size maxReqs : Nat} {s : St} (h : RInv m size maxReqs s) {n : Nat} {pool : Pool} (hx : s.pool.alloc n = (none, pool)) :
    RInv m size maxReqs { s with pool := pool } := by
  obtain ⟨p1, p2, p3, _⟩ := pool_alloc h.page hx
  refine ⟨p1, p2.trans h.group, h.cinv, ?_, h.rows, h.reqs, h.kvTree, h.kvReq⟩
  rw [← h.all]
  simp only [Option.getD_none, Multiset.coe_nil, zero_add] at p3
  show (pool.free : Multiset Nat) + pool.release + _ + _ = _
  rw [p3]

theorem rinv_evict {m : Mode} {size maxReqs : Nat} {s : St} (h : RInv m size maxReqs s) {target : Nat} {freed : Slots} {c' : Cache}
    (he : Evict target s.cache freed c') : RInv m size maxReqs { s with pool := s.pool.release1 freed, cache := c' } := by
  have ok := evict_ok h.cinv he
  obtain ⟨p1, p2, p3⟩ := pool_free h.page h.group freed
  refine ⟨p1, p2, ok.inv, ?_, h.rows, ?_, ?_, h.kvReq⟩
  · rw [← h.all]
    have := Multiset.coe_eq_coe.2 ok.slots
    simp only [] at this ⊢
    rw [p3, this, ← Multiset.coe_add]
    abel
  · intro r hr
    refine rbase_frame (h.reqs r hr) (fun y k sl hl hp => ok.path y ?_ _ _ _ hp) rfl
    exact List.mem_filterMap.2 ⟨r, hr, hl⟩
  · intro k sl hc
    exact h.kvTree k sl (ok.cached _ _ _ hc)

theorem rinv_decode {m : Mode} {size maxReqs : Nat} {s : St} (h : RInv m size maxReqs s) {r : Req} {rest : List Req} (hs : s.reqs = r :: rest)
    {row : Nat} (hr : r.row = some row) (hd : r.done = true) {x : Nat} {pool : Pool} (hx : s.pool.alloc 1 = (some [x], pool)) (tok : Int) :
    RInv m size maxReqs (s.decode r rest row x pool tok) := by
  have hrm : r ∈ s.reqs := by rw [hs]; exact List.mem_cons_self
  have hb := h.reqs r hrm
  have hin : ∀ q ∈ rest, q ∈ s.reqs := fun q hq => by rw [hs]; exact List.mem_cons_of_mem _ hq
  obtain ⟨p1, p2, p3, _⟩ := pool_alloc h.page hx
  simp only [Option.getD_some] at p3
  have hxf : x ∈ s.pool.free ++ s.pool.release := by
    have : x ∈ (s.pool.free : Multiset Nat) + s.pool.release := by rw [← p3]; simp
    simpa using this
  have hne : ∀ q ∈ rest, ∀ row', q.row = some row' → row' ≠ row := fun q hq row' hq' => row_ne h hs hr hq hq'
  have hout := List.length_pos_iff.2 (hb.out' hd)
  have hfl : r.filled.length = r.inp.length + r.out.length - 1 := by
    rw [filled_length hb.out, hd]; rfl
  have hfl' : ({ r with out := r.out ++ [tok] } : Req).filled = r.inp ++ r.out := by
    simp only [Req.filled, hd, if_true, List.length_append, List.length_singleton]
    rw [← List.append_assoc, Nat.add_sub_assoc (by omega), Nat.add_sub_cancel, ← List.length_append, List.take_left]
  have hfe : r.filled = (r.inp ++ r.out).take (r.inp.length + r.out.length - 1) := by rw [Req.filled, hd]; rfl
  have hread : read (fill s.table row (r.inp.length + r.out.length - 1) [x]) row (r.inp.length + r.out.length) =
      read s.table row (r.inp.length + r.out.length - 1) ++ [x] := by
    have h1 := read_fill s.table row (r.inp.length + r.out.length - 1) [x]
    rw [← h1]; congr 1; simp; omega
  have hpl : r.prot ≤ r.inp.length + r.out.length - 1 := by have := hb.le; omega
  refine ⟨p1, p2.trans h.group, ?_, ?_, ?_, ?_, ?_, ?_⟩
  · have := h.cinv
    rw [hs] at this
    exact this
  · show ((pool.free : List Nat) : Multiset Nat) + pool.release + slots s.cache.tree + (List.flatMap (own _) (_ :: rest) : List Nat) = _
    rw [← h.all, ← p3, hs, List.flatMap_cons, List.flatMap_cons]
    rw [flat_congr (f := own (s.decode r rest row x pool tok).table) (g := own s.table) (fun q hq => own_fill (hne q hq))]
    have e1 : own (s.decode r rest row x pool tok).table { r with out := r.out ++ [tok] } = own s.table r ++ [x] := by
      rw [own, own, hfl']
      simp only [hr]
      show List.drop r.prot (read (fill _ _ _ _) row _) = _
      rw [List.length_append, hread, hfl, List.drop_append_of_le_length (by rw [read_length]; exact hpl)]
    rw [e1]
    simp only [← Multiset.coe_add]
    abel
  · have := h.rows
    rw [hs] at this
    exact this
  · intro q hq
    rcases List.mem_cons.1 hq with rfl | hq
    · refine ⟨hb.le, fun hh => (by rw [hd] at hh; cases hh), fun _ => (by simp), fun hh => (by rw [hr] at hh; cases hh), hb.off, ?_⟩
      refine hb.path.imp_right ?_
      rintro ⟨y, k, sl, a1, a2, a3, a4, a5⟩
      refine ⟨y, k, sl, a1, a2, a3, a4, ?_⟩
      rw [a5, base, base]
      simp only [hr]
      show read s.table row r.prot = read (fill _ _ _ _) row r.prot
      rw [read_fill_le _ _ _ _ hpl]
    · exact rbase_frame (h.reqs q (hin q hq)) (fun y k sl' _ hp => hp) (base_fill (hne q hq))
  · intro k sl hc i x' hxs'
    have hd' := h.disjoint hxf
    show compute s.kv _ _ [x] x' = _
    rw [compute_other, h.kvTree k sl hc i x' hxs']
    intro hm
    rw [List.mem_singleton] at hm
    subst hm
    refine hd'.1 ?_
    exact cached_slots hc _ (List.mem_of_getElem? hxs')
  · intro q hq row' hq' i hi
    rcases List.mem_cons.1 hq with rfl | hq
    · have hq'' : row' = row := by have : some row' = some row := by rw [← hr, ← hq']
                                   exact Option.some.inj this
      subst hq''
      rw [hfl'] at hi ⊢
      rw [List.length_append] at hi
      show compute s.kv (r.inp ++ r.out) _ [x] ((fill s.table row' (r.inp.length + r.out.length - 1) [x]) row' i) = _
      have hget := read_get (fill s.table row' (r.inp.length + r.out.length - 1) [x]) row' (r.inp.length + r.out.length) i hi
      rw [hread] at hget
      by_cases hip : i < r.inp.length + r.out.length - 1
      · rw [List.getElem?_append_left (by rw [read_length]; exact hip), read_get _ _ _ _ hip] at hget
        rw [← Option.some.inj hget]
        rw [compute_other, h.kvReq r hrm row' hr i (by rw [hfl]; exact hip), hfe, List.take_take, Nat.min_eq_left (by omega)]
        rw [List.mem_singleton]
        exact h.disjointReq hxf hrm hr (by rw [hfl]; exact hip)
      · have hie : i = r.inp.length + r.out.length - 1 := by omega
        rw [List.getElem?_append_right (by rw [read_length]; omega), read_length, hie, Nat.sub_self] at hget
        rw [hie, compute_at (i := 0) (by simp) hget]
    · have ht : (fill s.table row (r.inp.length + r.out.length - 1) [x]) row' i = s.table row' i := by
        rw [fill_other (hne q hq row' hq')]
      show compute s.kv _ _ [x] ((fill s.table row (r.inp.length + r.out.length - 1) [x]) row' i) = _
      rw [ht, compute_other]
      · exact h.kvReq q (hin q hq) row' hq' i hi
      · rw [List.mem_singleton]
        exact h.disjointReq hxf (hin q hq) hq' hi

end Verif.Runner
