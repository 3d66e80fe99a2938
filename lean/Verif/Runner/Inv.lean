import Verif.Runner.Cache
namespace Verif.Runner
open Verif.PyRadix Verif.PyPool

/-! ### The table -/

theorem read_length (t : Nat → Nat → Nat) (row n : Nat) : (read t row n).length = n := by simp [read]

theorem read_get (t : Nat → Nat → Nat) (row n i : Nat) (h : i < n) : (read t row n)[i]? = some (t row i) := by
  simp [read, h]

theorem read_take (t : Nat → Nat → Nat) (row n k : Nat) (h : k ≤ n) : (read t row n).take k = read t row k := by
  rw [read, ← List.map_take, List.take_range, Nat.min_eq_left h, read]

theorem fill_other {t : Nat → Nat → Nat} {row pos : Nat} {xs : Slots} {r : Nat} (h : r ≠ row) : fill t row pos xs r = t r := by
  funext p
  rw [fill, if_neg (fun hh => h hh.1)]

theorem read_other {t : Nat → Nat → Nat} {row pos : Nat} {xs : Slots} {r n : Nat} (h : r ≠ row) : read (fill t row pos xs) r n = read t r n := by
  rw [read, read, fill_other h]

theorem read_fill (t : Nat → Nat → Nat) (row pos : Nat) (xs : Slots) : read (fill t row pos xs) row (pos + xs.length) = read t row pos ++ xs := by
  apply List.ext_getElem?
  intro i
  by_cases h1 : i < pos
  · rw [read_get _ _ _ _ (by omega), List.getElem?_append_left (by rw [read_length]; exact h1), read_get _ _ _ _ h1, fill, if_neg (by omega)]
  · by_cases h2 : i < pos + xs.length
    · rw [read_get _ _ _ _ h2, List.getElem?_append_right (by rw [read_length]; omega), read_length, fill, if_pos ⟨rfl, by omega, h2⟩]
      rw [List.getD_eq_getElem?_getD, List.getElem?_eq_getElem (by omega)]
      rfl
    · rw [List.getElem?_eq_none (by rw [read_length]; omega), List.getElem?_eq_none (by rw [List.length_append, read_length]; omega)]

theorem read_fill_le (t : Nat → Nat → Nat) (row pos : Nat) (xs : Slots) {n : Nat} (h : n ≤ pos) : read (fill t row pos xs) row n = read t row n := by
  have := read_fill t row pos xs
  rw [← read_take _ _ _ _ (show n ≤ pos + xs.length by omega), this, List.take_append_of_le_length (by rw [read_length]; exact h), read_take _ _ _ _ h]

/-! ### The invariant -/

/-- The slots that only this request refers to. -/
def own (t : Nat → Nat → Nat) (r : Req) : Slots :=
  match r.row with
  | none => []
  | some row => (read t row r.filled.length).drop r.prot

/-- The slots that it shares with the cache. -/
def base (t : Nat → Nat → Nat) (r : Req) : Slots :=
  match r.row with
  | none => r.idx
  | some row => read t row r.prot

structure RBase (m : Mode) (f : Forest) (t : Nat → Nat → Nat) (r : Req) : Prop where
  le : r.prot ≤ r.inp.length
  out : r.done = false → r.out = []
  out' : r.done = true → r.out ≠ []
  start : r.row = none → r.done = false ∧ r.idx.length = r.prot
  off : m = .off → r.prot = 0 ∧ r.lock = none
  path : r.prot = 0 ∨ ∃ y k sl, r.lock = some y ∧ PathTo y f none k sl ∧ r.prot ≤ k.length ∧ k.take r.prot = r.inp.take r.prot ∧
    sl.take r.prot = base t r

structure RInv (m : Mode) (size maxReqs : Nat) (s : St) : Prop where
  page : s.pool.page = 1
  group : s.pool.group = none
  cinv : PyRadix.Inv 1 ⟨s.cache, s.reqs.filterMap (·.lock)⟩
  all : (s.pool.free : Multiset Nat) + s.pool.release + slots s.cache.tree + s.reqs.flatMap (own s.table) = (List.range' 1 size : List Nat)
  rows : (s.rows : Multiset Nat) + s.reqs.filterMap (·.row) = (List.range maxReqs : List Nat)
  reqs : ∀ r ∈ s.reqs, RBase m s.cache.tree s.table r
  kvTree : ∀ k sl, Cached 1 s.cache.tree none k sl → ∀ i x, sl[i]? = some x → s.kv x = k.take (i + 1)
  kvReq : ∀ r ∈ s.reqs, ∀ row, r.row = some row → ∀ i, i < r.filled.length → s.kv (s.table row i) = r.filled.take (i + 1)

theorem RInv.perm {m : Mode} {size maxReqs : Nat} {s : St} (h : RInv m size maxReqs s) {l : List Req} (hp : s.reqs.Perm l) :
    RInv m size maxReqs { s with reqs := l } := by
  refine ⟨h.page, h.group, inv_perm h.cinv (hp.filterMap _), ?_, ?_, fun r hr => h.reqs r (hp.mem_iff.2 hr), h.kvTree,
    fun r hr => h.kvReq r (hp.mem_iff.2 hr)⟩
  · rw [← h.all]
    show _ + _ + _ + ((l.flatMap (own s.table) : List Nat) : Multiset Nat) = _
    rw [Multiset.coe_eq_coe.2 (hp.symm.flatMap_right (own s.table))]
  · rw [← h.rows]
    show _ + ((l.filterMap (·.row) : List Nat) : Multiset Nat) = _
    rw [Multiset.coe_eq_coe.2 (hp.symm.filterMap (·.row))]

theorem filterMap_opt {β : Type} (f : Req → Option β) (r : Req) (rest : List Req) : (r :: rest).filterMap f = (f r).toList ++ rest.filterMap f := by
  rw [List.filterMap_cons]
  cases f r <;> rfl

theorem filled_length {r : Req} (h1 : r.done = false → r.out = []) :
    r.filled.length = r.inp.length + r.out.length - (if r.done then 1 else 0) := by
  rw [Req.filled]
  cases hd : r.done with
  | false => simp [h1 hd]
  | true => simp

theorem filled_inp {r : Req} (h2 : r.done = true → r.out ≠ []) {n : Nat} (hn : n ≤ r.inp.length) : r.filled.take n = r.inp.take n := by
  rw [Req.filled]
  cases hd : r.done with
  | false => simp
  | true =>
    have := List.length_pos_iff.2 (h2 hd)
    simp only [if_true]
    rw [List.take_take, Nat.min_eq_left (by omega), List.take_append_of_le_length hn]

theorem filled_ge {r : Req} (h1 : r.done = false → r.out = []) (h2 : r.done = true → r.out ≠ []) : r.inp.length ≤ r.filled.length := by
  rw [filled_length h1]
  cases hd : r.done with
  | false => simp
  | true =>
    have := List.length_pos_iff.2 (h2 hd)
    simp only [if_true]; omega

/-- A slot of a request is in the cache or its own. -/
theorem slot_mem {m : Mode} {f : Forest} {t : Nat → Nat → Nat} {r : Req} (h : RBase m f t r) {row : Nat} (hr : r.row = some row) {i : Nat}
    (hi : i < r.filled.length) : t row i ∈ slots f ∨ t row i ∈ own t r := by
  by_cases hp : i < r.prot
  · left
    rcases h.path with h0 | ⟨y, k, sl, _, p1, _, _, p4⟩
    · omega
    · have hm : t row i ∈ base t r := by
        rw [base, hr]
        exact List.mem_of_getElem? (read_get t row r.prot i hp)
      rw [← p4] at hm
      exact pathTo_slots p1 _ (List.mem_of_mem_take hm)
  · right
    rw [own, hr]
    simp only []
    rw [List.mem_iff_getElem?]
    refine ⟨i - r.prot, ?_⟩
    rw [List.getElem?_drop, Nat.add_sub_cancel' (by omega)]
    exact read_get _ _ _ _ hi

/-- The free slots, those of the cache and those of the requests are different. -/
theorem RInv.disjoint {m : Mode} {size maxReqs : Nat} {s : St} (h : RInv m size maxReqs s) {x : Nat} (hx : x ∈ s.pool.free ++ s.pool.release) :
    x ∉ slots s.cache.tree ∧ ∀ r ∈ s.reqs, x ∉ own s.table r := by
  have hp : ((s.pool.free ++ s.pool.release) ++ (slots s.cache.tree ++ s.reqs.flatMap (own s.table))).Perm (List.range' 1 size) := by
    rw [← Multiset.coe_eq_coe, ← h.all]
    simp [← Multiset.coe_add, add_assoc]
  have hn := (List.nodup_append.1 (hp.nodup_iff.2 List.nodup_range')).2.2
  refine ⟨fun hh => hn x hx x (List.mem_append_left _ hh) rfl, fun r hr hh => hn x hx x (List.mem_append_right _ ?_) rfl⟩
  exact List.mem_flatMap.2 ⟨r, hr, hh⟩

theorem RInv.disjointReq {m : Mode} {size maxReqs : Nat} {s : St} (h : RInv m size maxReqs s) {x : Nat} (hx : x ∈ s.pool.free ++ s.pool.release)
    {r : Req} (hr : r ∈ s.reqs) {row : Nat} (hrow : r.row = some row) {i : Nat} (hi : i < r.filled.length) : s.table row i ≠ x := by
  intro he
  have hd := h.disjoint hx
  rcases slot_mem (h.reqs r hr) hrow hi with hm | hm
  · exact hd.1 (he ▸ hm)
  · exact hd.2 r hr (he ▸ hm)

theorem compute_other {kv : Nat → List Int} {toks : List Int} {pos : Nat} {xs : Slots} {x : Nat} (h : x ∉ xs) : compute kv toks pos xs x = kv x := by
  rw [compute, List.idxOf?_eq_none_iff.2 h]

theorem compute_at {kv : Nat → List Int} {toks : List Int} {pos : Nat} {xs : Slots} (hn : xs.Nodup) {i x : Nat} (h : xs[i]? = some x) :
    compute kv toks pos xs x = toks.take (pos + i + 1) := by
  obtain ⟨hi, rfl⟩ := List.getElem?_eq_some_iff.1 h
  have : xs.idxOf? xs[i] = some i := by
    rw [List.idxOf?_eq_some_iff]
    refine ⟨hi, rfl, ?_⟩
    intro j hj he
    have := (hn.getElem_inj_iff (hi := by omega) (hj := hi)).1 he
    omega
  rw [compute, this]

/-- Other requests are in other rows. -/
theorem row_ne {m : Mode} {size maxReqs : Nat} {s : St} (h : RInv m size maxReqs s) {r : Req} {rest : List Req} (hs : s.reqs = r :: rest) {row : Nat}
    (hr : r.row = some row) {q : Req} (hq : q ∈ rest) {row' : Nat} (hq' : q.row = some row') : row' ≠ row := by
  have hp : (s.rows ++ s.reqs.filterMap (·.row)).Perm (List.range maxReqs) := by
    rw [← Multiset.coe_eq_coe, ← h.rows]; simp
  have hn := (List.nodup_append.1 (hp.nodup_iff.2 List.nodup_range)).2.1
  rw [hs, filterMap_opt, hr] at hn
  simp only [Option.toList_some, List.cons_append, List.nil_append, List.nodup_cons] at hn
  rintro rfl
  exact hn.1 (List.mem_filterMap.2 ⟨q, hq, hq'⟩)

/-- Inserting a filled part of a request. -/
theorem ins_req {m : Mode} {size maxReqs : Nat} {s : St} (h : RInv m size maxReqs s) {r : Req} (hr : r ∈ s.reqs) {row : Nat} (hrow : r.row = some row)
    (now k : Nat) (h1 : r.prot ≤ k) (h2 : k ≤ r.filled.length) {n : Nat} {c' : Cache} {o : Option Nat}
    (hi : PyRadix.insert 1 now s.cache none (r.filled.take k) (read s.table row k) = ((n, o), c')) :
    ∃ old, InsSpec s.cache (s.reqs.filterMap (·.lock)) (r.filled.take k) (read s.table row k) n c' old ∧ r.prot ≤ n ∧ n ≤ k ∧
      (∀ k sl, Cached 1 c'.tree none k sl → ∀ i x, sl[i]? = some x → s.kv x = k.take (i + 1)) ∧
      Cached 1 s.cache.tree none (r.inp.take r.prot) (read s.table row r.prot) := by
  have hb := h.reqs r hr
  have hlen : (r.filled.take k).length = k := by rw [List.length_take]; omega
  obtain ⟨old, sp⟩ := insert_spec h.cinv now (r.filled.take k) (read s.table row k) (by rw [read_length, hlen])
  rw [hi] at sp
  simp only [] at sp
  have hc : Cached 1 s.cache.tree none (r.inp.take r.prot) (read s.table row r.prot) := by
    rcases hb.path with h0 | ⟨y, key, sl, _, p1, p2, p3, p4⟩
    · rw [h0]; simpa [read] using cached_nil_nil 1 s.cache.tree none
    · have := cached_take h.cinv.wf r.prot (pathTo_cached h.cinv.wf p1) p2 (Nat.one_dvd _)
      rw [p3, p4, base, hrow] at this
      exact this
  refine ⟨old, sp, ?_, ?_, ?_, hc⟩
  · refine sp.max r.prot (read s.table row r.prot) (by rw [hlen]; exact h1) ?_
    rw [List.take_take, Nat.min_eq_left h1, filled_inp hb.out' hb.le]
    exact hc
  · have := sp.le; rwa [hlen] at this
  · have hle := sp.le
    rw [hlen] at hle
    intro key sl hcs i x hx
    rcases (sp.new _ _ _).1 hcs with hcs | ⟨_, j, hj, rfl, rfl⟩
    · exact h.kvTree key sl hcs i x hx
    · rw [hlen] at hj
      rw [List.getElem?_take] at hx
      split at hx
      · rename_i hij
        rw [List.take_take, Nat.min_eq_left (by omega), List.take_take, Nat.min_eq_left (by omega)]
        by_cases hin : i < n
        · rw [List.getElem?_append_left (by rw [sp.len]; exact hin)] at hx
          have := h.kvTree _ _ sp.hold i x hx
          rw [this, List.take_take, List.take_take, Nat.min_eq_left (by omega), Nat.min_eq_left (by omega)]
        · rw [List.getElem?_append_right (by rw [sp.len]; omega), List.getElem?_drop, sp.len, Nat.add_sub_cancel' (by omega),
            read_get _ _ _ _ (by omega)] at hx
          obtain rfl := Option.some.inj hx
          exact h.kvReq r hr row hrow i (by omega)
      · cases hx

theorem drop_split {val : Slots} {p n : Nat} (h : p ≤ n) : val.drop p = (val.take n).drop p ++ val.drop n := by
  conv_lhs => rw [← List.take_append_drop n val]
  by_cases hl : n ≤ val.length
  · rw [List.drop_append_of_le_length (by rw [List.length_take]; omega)]
  · rw [List.drop_eq_nil_of_le (show val.length ≤ n by omega)]
    simp

/-- Freeing the duplicates. -/
theorem free_dup {p : Pool} (hp : p.page = 1) (hg : p.group = none) (val : Slots) {a n : Nat} (h : a ≤ n) :
    (if a < n then p.release1 ((val.take n).drop a) else p).page = 1 ∧ (if a < n then p.release1 ((val.take n).drop a) else p).group = none ∧
    ((if a < n then p.release1 ((val.take n).drop a) else p).free : Multiset Nat) + (if a < n then p.release1 ((val.take n).drop a) else p).release =
      (p.free : Multiset Nat) + p.release + ((val.take n).drop a : List Nat) := by
  by_cases hlt : a < n
  · simp only [if_pos hlt]; exact pool_free hp hg _
  · simp only [if_neg hlt]
    have : n = a := by omega
    subst this
    refine ⟨hp, hg, ?_⟩
    rw [List.drop_eq_nil_of_le (by rw [List.length_take]; omega)]
    simp

end Verif.Runner
