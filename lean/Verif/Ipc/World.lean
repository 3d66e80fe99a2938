import Verif.Ipc.Inv

/-!
# Invariants of sender, recycler and receivers
-/

namespace Verif.Ipc

/-- The proxy still needs its slice: not every consumer has finished with it. -/
def Parcel.pending (n : Nat) (q : Parcel) : Prop := q.acked.length < n

/-- The chunk is the one the proxy points into. -/
def backs (c : Chunk) (q : Parcel) : Prop :=
  c.flag = q.flag ∧ c.start = q.start ∧ c.stop = q.start + q.len

/-- What is true of every proxy by itself. -/
structure Parcel.Ok (n : Nat) (q : Parcel) : Prop where
  wf : q.orig.WF
  len : q.len = q.orig.nbytes
  ackedNodup : q.acked.Nodup
  ackedGot : ∀ c ∈ q.acked, c ∈ q.got.map Prod.fst
  gotLt : ∀ c ∈ q.got.map Prod.fst, c < n
  gotNodup : (q.got.map Prod.fst).Nodup
  early : q.stage = .reserved ∨ q.stage = .filled → q.got = []
  noAck : q.stage ≠ .shipped → q.acked = []
  right : q.stage ≠ .plain → ∀ x ∈ q.got, x.2 = q.orig

structure WInv (size n : Nat) (w : World) : Prop where
  pool : w.pool.Ok
  size : w.pool.size = size
  cons : w.pool.consumers = n
  each : ∀ q ∈ w.parcels, q.Ok n
  held : ∀ q ∈ w.parcels, q.pending n →
    ∃ c ∈ w.pool.occ, backs c q ∧ w.pool.val c.flag = q.acked.length
  content : ∀ q ∈ w.parcels, q.pending n → q.stage ≠ .reserved →
    load w.pool.mem q.start q.len = q.orig.data
  unique : ∀ (i j : Nat) (q r : Parcel), w.parcels[i]? = some q → w.parcels[j]? = some r →
    q.pending n → r.pending n → q.flag = r.flag → i = j
  owner : ∀ c ∈ w.pool.occ, ∃ q ∈ w.parcels, backs c q ∧ w.pool.val c.flag = q.acked.length

theorem WInv.init (size n : Nat) (mem : Nat → UInt8) : WInv size n (World.init size n mem) where
  pool := Pool.init_ok _ _ _
  size := rfl
  cons := rfl
  each := by simp [World.init]
  held := by simp [World.init]
  content := by simp [World.init]
  unique := by simp [World.init]
  owner := by simp [World.init, Pool.init]

/-- Two different occupied chunks share no byte. -/
theorem Ok.disjoint {p : Pool} (h : p.Ok) {c d : Chunk} (hc : c ∈ p.occ) (hd : d ∈ p.occ)
    (hne : c ≠ d) (a : Nat) : ¬ (covers a c = true ∧ covers a d = true) := by
  rintro ⟨h1, h2⟩
  have ht := h.tile a
  rw [List.countP_append] at ht
  have hperm := List.perm_cons_erase hc
  have hd' : d ∈ p.occ.erase c := (List.mem_erase_of_ne (Ne.symm hne)).2 hd
  have hperm' := List.perm_cons_erase hd'
  have h3 := hperm.countP_eq (p := covers a)
  have h4 := hperm'.countP_eq (p := covers a)
  rw [List.countP_cons_of_pos h1] at h3
  rw [List.countP_cons_of_pos h2] at h4
  split at ht <;> omega

theorem Ok.flag_inj {p : Pool} (h : p.Ok) {c d : Chunk} (hc : c ∈ p.occ) (hd : d ∈ p.occ)
    (he : c.flag = d.flag) : c = d := by
  have := Ok.occ_nodup h
  exact List.inj_on_of_nodup_map this hc hd he

theorem load_length (mem : Nat → UInt8) (s l : Nat) : (load mem s l).length = l := by
  simp [load]

theorem load_congr {m m' : Nat → UInt8} {s l : Nat}
    (h : ∀ a, s ≤ a → a < s + l → m a = m' a) : load m s l = load m' s l := by
  apply List.map_congr_left
  intro i hi
  exact h _ (Nat.le_add_right _ _) (by have := List.mem_range.1 hi; omega)

theorem load_store (mem : Nat → UInt8) (s : Nat) (bs : List UInt8) :
    load (store mem s bs) s bs.length = bs := by
  apply List.ext_getElem
  · simp [load]
  · intro i h1 h2
    simp [load, store, h2]

theorem store_outside {mem : Nat → UInt8} {s : Nat} {bs : List UInt8} {a : Nat}
    (h : ¬ (s ≤ a ∧ a < s + bs.length)) : store mem s bs a = mem a := by
  unfold store
  by_cases h1 : s ≤ a
  · rw [if_pos h1, List.getElem?_eq_none (by omega)]; rfl
  · rw [if_neg h1]

/-- A consumer that has not yet copied the data is missing from the acknowledgements. -/
theorem Parcel.Ok.pending_of {n : Nat} {q : Parcel} (h : q.Ok n) {c : Nat} (hc : c < n)
    (hn : c ∉ q.acked) : q.pending n := by
  have h1 : (c :: q.acked).Nodup := List.nodup_cons.2 ⟨hn, h.ackedNodup⟩
  have h2 : (c :: q.acked) ⊆ List.range n := by
    intro d hd
    rcases List.mem_cons.1 hd with rfl | hd
    · exact List.mem_range.2 hc
    · exact List.mem_range.2 (h.gotLt d (h.ackedGot d hd))
  have h3 := (h1.subperm h2).length_le
  simp only [List.length_cons, List.length_range] at h3
  exact h3

theorem mem_set_cases {l : List Parcel} {i : Nat} {q r x : Parcel} (_ : l[i]? = some q)
    (hx : x ∈ l.set i r) : x = r ∨ x ∈ l := by
  rcases List.mem_or_eq_of_mem_set hx with h | h
  · exact Or.inr h
  · exact Or.inl h

theorem getElem?_set_cases {l : List Parcel} {i j : Nat} {r x : Parcel}
    (hx : (l.set i r)[j]? = some x) : (j = i ∧ x = r) ∨ (j ≠ i ∧ l[j]? = some x) := by
  by_cases h : i = j
  · subst h
    rw [List.getElem?_set_self'] at hx
    left
    cases hl : l[i]? with
    | none => simp [hl] at hx
    | some y => simp [hl] at hx; exact ⟨rfl, hx.symm⟩
  · rw [List.getElem?_set_ne h] at hx
    exact Or.inr ⟨fun e => h e.symm, hx⟩

theorem mem_set_iff_or {l : List Parcel} {i : Nat} {r x : Parcel} (hx : x ∈ l.set i r) :
    x = r ∨ ∃ j, j ≠ i ∧ l[j]? = some x := by
  obtain ⟨j, hj⟩ := List.mem_iff_getElem?.1 hx
  rcases getElem?_set_cases hj with ⟨-, h⟩ | h
  · exact Or.inl h
  · exact Or.inr ⟨j, h⟩

/-! ### Each event -/

theorem WInv.reserve {size n : Nat} {w : World} (h : WInv size n w) (hn : 0 < n) {t : Tsr}
    (ht : t.WF) : WInv size n (reserve w t) := by
  unfold Ipc.reserve
  split
  · exact ⟨h.pool, h.size, h.cons, h.each, h.held, h.content, h.unique, h.owner⟩
  rename_i o p' hg
  obtain ⟨g1, g2, g3, g4, g5, g6, g7, g8, g9⟩ := getChunk_spec h.pool hg
  have hoff : o.flag ∉ w.pool.occ.map Chunk.flag := by
    have := h.pool.flags
    rw [List.map_append, List.append_assoc] at this
    intro hm
    exact (List.nodup_append.1 this).2.2 _ g7 _ (by simp only [List.mem_append]; exact Or.inl hm) rfl
  set r : Parcel := ⟨t, o.flag, o.start, o.stop - o.start, .reserved, [], []⟩ with hr
  have hval : ∀ c ∈ w.pool.occ, p'.val c.flag = w.pool.val c.flag := fun c hc =>
    g9 _ (List.mem_map_of_mem hc)
  refine ⟨g1, g2.trans h.size, g3.trans h.cons, ?_, ?_, ?_, ?_, ?_⟩
  · intro q hq
    rcases List.mem_append.1 hq with hq | hq
    · exact h.each q hq
    · rw [List.mem_singleton.1 hq]
      refine ⟨ht, ?_, by simp [hr], by simp [hr], by simp [hr], by simp [hr], fun _ => rfl,
        fun _ => rfl, by simp [hr]⟩
      simp only [hr, g6]; omega
  · intro q hq hp
    rcases List.mem_append.1 hq with hq | hq
    · obtain ⟨c, hc, hb, hv⟩ := h.held q hq hp
      exact ⟨c, by simp only [g5]; simp [hc], hb, (hval c hc).trans hv⟩
    · rw [List.mem_singleton.1 hq]
      refine ⟨o, by simp only [g5]; simp, ⟨rfl, rfl, ?_⟩, by simpa [hr] using g8⟩
      simp only [hr, g6]; omega
  · intro q hq hp hs
    rcases List.mem_append.1 hq with hq | hq
    · simp only [g4]
      exact h.content q hq hp hs
    · rw [List.mem_singleton.1 hq] at hs
      exact absurd rfl hs
  · have hnew : ∀ (x : Parcel), x ∈ w.parcels → x.pending n → x.flag ≠ r.flag := by
      intro x hx hp he
      obtain ⟨c, hc, hb, -⟩ := h.held x hx hp
      exact hoff (List.mem_map.2 ⟨c, hc, hb.1.trans he⟩)
    intro i j q s hi hj hp1 hp2 he
    simp only at hi hj
    rw [List.getElem?_append] at hi hj
    split at hi <;> split at hj
    · exact h.unique i j q s hi hj hp1 hp2 he
    · have : s = r := by
        have := List.mem_of_getElem? hj
        simpa using this
      subst this
      exact absurd he (hnew q (List.mem_of_getElem? hi) hp1)
    · have : q = r := by
        have := List.mem_of_getElem? hi
        simpa using this
      subst this
      exact absurd he.symm (hnew s (List.mem_of_getElem? hj) hp2)
    · have h1 : i - w.parcels.length < 1 := by
        by_contra hc
        rw [List.getElem?_eq_none (by simp; omega)] at hi
        cases hi
      have h2 : j - w.parcels.length < 1 := by
        by_contra hc
        rw [List.getElem?_eq_none (by simp; omega)] at hj
        cases hj
      omega
  · intro c hc
    simp only [g5] at hc
    rcases List.mem_append.1 hc with hc | hc
    · obtain ⟨q, hq, hb, hv⟩ := h.owner c hc
      exact ⟨q, by simp [hq], hb, (hval c hc).trans hv⟩
    · rw [List.mem_singleton.1 hc]
      refine ⟨r, by simp, ⟨rfl, rfl, ?_⟩, by simpa [hr] using g8⟩
      simp only [hr, g6]; omega

theorem WInv.fill {size n : Nat} {w : World} (h : WInv size n w) (hn : 0 < n) {i : Nat} {q : Parcel}
    (hi : w.parcels[i]? = some q) (hs : q.stage = .reserved) :
    WInv size n { w with pool := { w.pool with mem := store w.pool.mem q.start q.orig.data },
                         parcels := w.parcels.set i { q with stage := .filled } } := by
  have hqm := List.mem_of_getElem? hi
  have hq := h.each q hqm
  have hack : q.acked = [] := hq.noAck (by rw [hs]; simp)
  have hpend : q.pending n := by unfold Parcel.pending; rw [hack]; exact hn
  have hlen : q.orig.data.length = q.len := by rw [hq.len]; exact hq.wf
  obtain ⟨cq, hcq, hbq, hvq⟩ := h.held q hqm hpend
  set r : Parcel := { q with stage := .filled } with hr
  refine ⟨h.pool, h.size, h.cons, ?_, ?_, ?_, ?_, ?_⟩
  · intro x hx
    rcases mem_set_cases hi hx with rfl | hx
    · exact ⟨hq.wf, hq.len, hq.ackedNodup, hq.ackedGot, hq.gotLt, hq.gotNodup,
        fun _ => hq.early (Or.inl hs), fun _ => hack, fun _ => hq.right (by rw [hs]; simp)⟩
    · exact h.each x hx
  · intro x hx hp
    rcases mem_set_cases hi hx with rfl | hx
    · exact ⟨cq, hcq, hbq, hvq⟩
    · exact h.held x hx hp
  · intro x hx hp hsx
    rcases mem_set_iff_or hx with rfl | ⟨j, hj, hx⟩
    · show load (store w.pool.mem q.start q.orig.data) q.start q.len = q.orig.data
      rw [← hlen]; exact load_store _ _ _
    · have hxm := List.mem_of_getElem? hx
      rw [← h.content x hxm hp hsx]
      obtain ⟨cx, hcx, hbx, -⟩ := h.held x hxm hp
      have hne : cq ≠ cx := by
        intro he
        apply hj
        refine (h.unique i j q x hi hx hpend hp ?_).symm
        rw [← hbq.1, ← hbx.1, he]
      apply load_congr
      intro a h1 h2
      show store w.pool.mem q.start q.orig.data a = w.pool.mem a
      apply store_outside
      rw [hlen]
      intro h3
      refine Ok.disjoint h.pool hcq hcx hne a ⟨?_, ?_⟩
      · unfold covers; rw [hbq.2.1, hbq.2.2]; simpa using h3
      · unfold covers; rw [hbx.2.1, hbx.2.2]; simpa using ⟨h1, h2⟩
  · intro a b x y hx hy hpx hpy he
    rcases getElem?_set_cases hx with ⟨rfl, rfl⟩ | ⟨ha, hx'⟩ <;>
      rcases getElem?_set_cases hy with ⟨rfl, rfl⟩ | ⟨hb, hy'⟩
    · rfl
    · exact h.unique _ _ q y hi hy' hpend hpy he
    · exact h.unique _ _ x q hx' hi hpx hpend he
    · exact h.unique _ _ x y hx' hy' hpx hpy he
  · intro c hc
    obtain ⟨x, hx, hb, hv⟩ := h.owner c hc
    obtain ⟨j, hj⟩ := List.mem_iff_getElem?.1 hx
    by_cases hij : i = j
    · subst hij
      rw [hi] at hj
      cases hj
      exact ⟨r, List.mem_set (List.getElem?_eq_some_iff.1 hi).1 _, hb, hv⟩
    · exact ⟨x, List.mem_iff_getElem?.2 ⟨j, by rw [List.getElem?_set_ne hij]; exact hj⟩, hb, hv⟩

/-- Replacing a proxy by one with the same slice and the same acknowledgements. -/
theorem WInv.replace {size n : Nat} {w : World} (h : WInv size n w) {i : Nat} {q r : Parcel}
    (hi : w.parcels[i]? = some q) (hf : r.flag = q.flag) (hst : r.start = q.start)
    (hl : r.len = q.len) (ha : r.acked = q.acked) (ho : r.orig = q.orig) (hok : r.Ok n)
    (hsq : q.stage ≠ .reserved) :
    WInv size n { w with parcels := w.parcels.set i r } := by
  have hqm := List.mem_of_getElem? hi
  have hb : ∀ c, backs c q → backs c r := fun c ⟨b1, b2, b3⟩ =>
    ⟨b1.trans hf.symm, b2.trans hst.symm, by rw [b3, hst, hl]⟩
  refine ⟨h.pool, h.size, h.cons, ?_, ?_, ?_, ?_, ?_⟩
  · intro x hx
    rcases mem_set_cases hi hx with rfl | hx
    · exact hok
    · exact h.each x hx
  · intro x hx hp
    rcases mem_set_cases hi hx with rfl | hx
    · obtain ⟨c, hc, hbc, hv⟩ := h.held q hqm (by unfold Parcel.pending at hp ⊢; rwa [← ha])
      exact ⟨c, hc, hb c hbc, by rw [ha]; exact hv⟩
    · exact h.held x hx hp
  · intro x hx hp hsx
    rcases mem_set_cases hi hx with rfl | hx
    · rw [hst, hl, ho]
      exact h.content q hqm (by unfold Parcel.pending at hp ⊢; rwa [← ha]) hsq
    · exact h.content x hx hp hsx
  · intro a b x y hx hy hpx hpy he
    rcases getElem?_set_cases hx with ⟨rfl, rfl⟩ | ⟨ha', hx'⟩ <;>
      rcases getElem?_set_cases hy with ⟨rfl, rfl⟩ | ⟨hb', hy'⟩
    · rfl
    · exact h.unique _ _ q y hi hy' (by unfold Parcel.pending at hpx ⊢; rwa [← ha]) hpy (hf ▸ he)
    · exact h.unique _ _ x q hx' hi hpx (by unfold Parcel.pending at hpy ⊢; rwa [← ha]) (hf ▸ he)
    · exact h.unique _ _ x y hx' hy' hpx hpy he
  · intro c hc
    obtain ⟨x, hx, hbx, hv⟩ := h.owner c hc
    obtain ⟨j, hj⟩ := List.mem_iff_getElem?.1 hx
    by_cases hij : i = j
    · subst hij
      rw [hi] at hj
      cases hj
      exact ⟨r, List.mem_set (List.getElem?_eq_some_iff.1 hi).1 _, hb c hbx, by rw [ha]; exact hv⟩
    · exact ⟨x, List.mem_iff_getElem?.2 ⟨j, by rw [List.getElem?_set_ne hij]; exact hj⟩, hbx, hv⟩

theorem WInv.ack {size n : Nat} {w : World} (h : WInv size n w) {i c : Nat} {q : Parcel}
    (hi : w.parcels[i]? = some q) (hs : q.stage = .shipped) (hg : c ∈ q.got.map Prod.fst)
    (hna : c ∉ q.acked) :
    WInv size n { w with pool := { w.pool with val := upd w.pool.val q.flag (w.pool.val q.flag + 1) },
                         parcels := w.parcels.set i { q with acked := q.acked ++ [c] } } := by
  have hqm := List.mem_of_getElem? hi
  have hq := h.each q hqm
  have hpend : q.pending n := hq.pending_of (hq.gotLt c hg) hna
  obtain ⟨cq, hcq, hbq, hvq⟩ := h.held q hqm hpend
  set r : Parcel := { q with acked := q.acked ++ [c] } with hr
  have hbr : backs cq r := hbq
  have hvr : upd w.pool.val q.flag (w.pool.val q.flag + 1) cq.flag = r.acked.length := by
    rw [hbq.1, upd_same, ← hbq.1, hvq]; simp [hr]
  have hflag : ∀ d ∈ w.pool.occ, d.flag = q.flag → d = cq := fun d hd he =>
    Ok.flag_inj h.pool hd hcq (he.trans hbq.1.symm)
  refine ⟨⟨h.pool.ordered, h.pool.tile, h.pool.flags, h.pool.fresh, ?_⟩, h.size, h.cons, ?_, ?_, ?_, ?_, ?_⟩
  · intro f hf
    show upd w.pool.val q.flag _ f = 0
    rw [upd_ne _ _ ?_]
    · exact h.pool.zero f hf
    · intro he
      have hnd := h.pool.flags
      rw [List.map_append, List.append_assoc, List.nodup_append] at hnd
      have hfo : f ∈ w.pool.occ.map Chunk.flag :=
        List.mem_map.2 ⟨cq, hcq, hbq.1.trans he.symm⟩
      rcases List.mem_append.1 hf with hf | hf
      · exact hnd.2.2 f hf f (by simp only [List.mem_append]; exact Or.inl hfo) rfl
      · exact (List.nodup_append.1 hnd.2.1).2.2 f hfo f hf rfl
  · intro x hx
    rcases mem_set_cases hi hx with rfl | hx
    · refine ⟨hq.wf, hq.len, ?_, ?_, hq.gotLt, hq.gotNodup, hq.early, fun hne => absurd hs hne, hq.right⟩
      · exact List.nodup_append.2 ⟨hq.ackedNodup, by simp, fun a ha b hb => by
          rw [List.mem_singleton.1 hb]; rintro rfl; exact hna ha⟩
      · intro d hd
        rcases List.mem_append.1 hd with hd | hd
        · exact hq.ackedGot d hd
        · rw [List.mem_singleton.1 hd]; exact hg
    · exact h.each x hx
  · intro x hx hp
    rcases mem_set_iff_or hx with rfl | ⟨j, hj, hx⟩
    · exact ⟨cq, hcq, hbr, hvr⟩
    · have hxm := List.mem_of_getElem? hx
      obtain ⟨d, hd, hb, hv⟩ := h.held x hxm hp
      refine ⟨d, hd, hb, ?_⟩
      show upd w.pool.val q.flag _ d.flag = _
      rw [upd_ne _ _ ?_]
      · exact hv
      · intro he
        apply hj
        refine (h.unique i j q x hi hx hpend hp ?_).symm
        rw [← he, hb.1]
  · intro x hx hp hsx
    rcases mem_set_cases hi hx with rfl | hx
    · exact h.content q hqm hpend hsx
    · exact h.content x hx hp hsx
  · intro a b x y hx hy hpx hpy he
    rcases getElem?_set_cases hx with ⟨rfl, rfl⟩ | ⟨ha', hx'⟩ <;>
      rcases getElem?_set_cases hy with ⟨rfl, rfl⟩ | ⟨hb', hy'⟩
    · rfl
    · exact h.unique _ _ q y hi hy' hpend hpy he
    · exact h.unique _ _ x q hx' hi hpx hpend he
    · exact h.unique _ _ x y hx' hy' hpx hpy he
  · intro d hd
    by_cases he : d.flag = q.flag
    · rw [hflag d hd he]
      exact ⟨r, List.mem_set (List.getElem?_eq_some_iff.1 hi).1 _, hbr, hvr⟩
    · obtain ⟨x, hx, hb, hv⟩ := h.owner d hd
      obtain ⟨j, hj⟩ := List.mem_iff_getElem?.1 hx
      have hij : i ≠ j := by
        rintro rfl
        rw [hi] at hj
        cases hj
        exact he hb.1
      refine ⟨x, List.mem_iff_getElem?.2 ⟨j, by rw [List.getElem?_set_ne hij]; exact hj⟩, hb, ?_⟩
      show upd w.pool.val q.flag _ d.flag = _
      rw [upd_ne _ _ he]; exact hv

theorem WInv.tick {size n : Nat} {w : World} (h : WInv size n w) :
    WInv size n { w with pool := tick w.pool } := by
  obtain ⟨t1, t2, t3, t4, t5, t6⟩ := tick_spec h.pool
  refine ⟨t1, t2.trans h.size, t3.trans h.cons, h.each, ?_, ?_, h.unique, ?_⟩
  · intro q hq hp
    obtain ⟨c, hc, hb, hv⟩ := h.held q hq hp
    have hbusy : c ∈ w.pool.busy := List.mem_filter.2 ⟨hc, by
      rw [hv, h.cons]; exact decide_eq_true hp⟩
    exact ⟨c, by rw [t5]; exact hbusy, hb, by rw [t6 c hbusy]; exact hv⟩
  · intro q hq hp hs
    show load (Ipc.tick w.pool).mem q.start q.len = _
    rw [t4]; exact h.content q hq hp hs
  · intro c hc
    rw [t5] at hc
    obtain ⟨q, hq, hb, hv⟩ := h.owner c (List.mem_filter.1 hc).1
    exact ⟨q, hq, hb, by rw [t6 c hc]; exact hv⟩

theorem WInv.step {size n : Nat} {w w' : World} (h : WInv size n w) (hn : 0 < n) {e : Ev}
    (hwf : ∀ t, e = .reserve t → t.WF) (hs : step w e = some w') : WInv size n w' := by
  cases e with
  | reserve t =>
    simp only [Ipc.step, Option.some.injEq] at hs
    subst hs
    exact h.reserve hn (hwf t rfl)
  | fill i =>
    simp only [Ipc.step] at hs
    cases hi : w.parcels[i]? with
    | none => simp [hi] at hs
    | some q =>
      simp only [hi] at hs
      split at hs
      · cases hs; rename_i hst; exact h.fill hn hi hst
      · cases hs
  | ship i ok =>
    simp only [Ipc.step] at hs
    cases hi : w.parcels[i]? with
    | none => simp [hi] at hs
    | some q =>
      simp only [hi] at hs
      split at hs
      · cases hs
        rename_i hst
        have hq := h.each q (List.mem_of_getElem? hi)
        have hgot := hq.early (Or.inr hst)
        refine h.replace hi rfl rfl rfl rfl rfl ?_ (by rw [hst]; simp)
        exact ⟨hq.wf, hq.len, hq.ackedNodup, hq.ackedGot, hq.gotLt, hq.gotNodup,
          fun _ => hgot, fun _ => hq.noAck (by rw [hst]; simp), fun _ x hx => by
            have hx' : x ∈ q.got := hx
            rw [hgot] at hx'; cases hx'⟩
      · cases hs
  | copy i c =>
    simp only [Ipc.step] at hs
    cases hi : w.parcels[i]? with
    | none => simp [hi] at hs
    | some q =>
      simp only [hi] at hs
      split at hs
      · cases hs
        rename_i hst
        obtain ⟨hst, hc, hng⟩ := hst
        rw [h.cons] at hc
        have hqm := List.mem_of_getElem? hi
        have hq := h.each q hqm
        have hpend : q.pending n := hq.pending_of hc (fun ha => hng (hq.ackedGot c ha))
        have hnr : q.stage ≠ .reserved := by rcases hst with e | e <;> rw [e] <;> simp
        have hcont := h.content q hqm hpend hnr
        refine h.replace hi rfl rfl rfl rfl rfl ?_ hnr
        refine ⟨hq.wf, hq.len, hq.ackedNodup, ?_, ?_, ?_, ?_, hq.noAck, ?_⟩
        · intro d hd
          simp only [List.map_append, List.mem_append]
          exact Or.inl (hq.ackedGot d hd)
        · intro d hd
          simp only [List.map_append, List.mem_append, List.map_cons, List.map_nil,
            List.mem_singleton] at hd
          rcases hd with hd | rfl
          · exact hq.gotLt d hd
          · exact hc
        · simp only [List.map_append, List.map_cons, List.map_nil]
          exact List.nodup_append.2 ⟨hq.gotNodup, by simp, fun a ha b hb => by
            rw [List.mem_singleton.1 hb]; rintro rfl; exact hng ha⟩
        · intro he
          rcases hst with e | e <;> rcases he with e' | e' <;>
            (have e'' : q.stage = _ := e'; rw [e] at e''; cases e'')
        · intro hpl x hx
          have hpl' : q.stage ≠ .plain := hpl
          rcases List.mem_append.1 hx with hx | hx
          · exact hq.right hpl' x hx
          · rw [List.mem_singleton.1 hx]
            have hsh : q.stage = .shipped := by
              rcases hst with e | e
              · exact e
              · exact absurd e hpl'
            show rebuilt w.pool.mem q = q.orig
            unfold rebuilt
            rw [hsh, hcont]
      · cases hs
  | ack i c =>
    simp only [Ipc.step] at hs
    cases hi : w.parcels[i]? with
    | none => simp [hi] at hs
    | some q =>
      simp only [hi] at hs
      split at hs
      · cases hs
        rename_i hst
        exact h.ack hi hst.1 hst.2.1 hst.2.2
      · cases hs
  | tick =>
    simp only [Ipc.step, Option.some.injEq] at hs
    subst hs
    exact h.tick

theorem Reach.inv {size n : Nat} {mem : Nat → UInt8} (hn : 0 < n) {w : World}
    (h : Reach size n mem w) : WInv size n w := by
  induction h with
  | init => exact WInv.init _ _ _
  | step e _ hwf hs ih => exact ih.step hn hwf hs

end Verif.Ipc
