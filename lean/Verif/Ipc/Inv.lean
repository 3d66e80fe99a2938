import Verif.Ipc.Model

/-!
# Invariants of the workspace allocator
-/

namespace Verif.Ipc

/-- The chunk's area contains byte `a`. -/
def covers (a : Nat) (c : Chunk) : Bool := decide (c.start ≤ a ∧ a < c.stop)

/-- The invariant of the allocator, in terms of the free chunks `av`, the occupied chunks `oc`, the
unused counters `sp` and the counter values. -/
structure Inv (size : Nat) (av oc : List Chunk) (sp : List Nat) (nseg : Nat) (val : Nat → Nat) :
    Prop where
  ordered : ∀ c ∈ av ++ oc, c.start ≤ c.stop ∧ c.stop ≤ size
  tile : ∀ a, (av ++ oc).countP (covers a) = if a < size then 1 else 0
  flags : ((av ++ oc).map Chunk.flag ++ sp).Nodup
  fresh : ∀ f ∈ (av ++ oc).map Chunk.flag ++ sp, f < nseg
  zero : ∀ f ∈ av.map Chunk.flag ++ sp, val f = 0

def Pool.Ok (p : Pool) : Prop := Inv p.size p.avail p.occ p.spool p.nseg p.val

theorem Pool.init_ok (size consumers : Nat) (mem : Nat → UInt8) :
    (Pool.init size consumers mem).Ok where
  ordered := by simp [Pool.init]
  tile := by intro a; by_cases h : a < size <;> simp [Pool.init, covers, h]
  flags := by simp [Pool.init]
  fresh := by simp [Pool.init]
  zero := by simp [Pool.init]

theorem Inv.congr {size av oc sp nseg val av' oc'} (h : Inv size av oc sp nseg val)
    (ha : av'.Perm av) (ho : oc'.Perm oc) : Inv size av' oc' sp nseg val where
  ordered := fun c hc => h.ordered c ((ha.append ho).mem_iff.1 hc)
  tile := fun a => by rw [(ha.append ho).countP_eq]; exact h.tile a
  flags := (((ha.append ho).map _).append_right _).nodup_iff.2 h.flags
  fresh := fun f hf => h.fresh f ((((ha.append ho).map _).append_right _).mem_iff.1 hf)
  zero := fun f hf => h.zero f (((ha.map _).append_right _).mem_iff.1 hf)

@[simp] theorem upd_same (f k v) : upd f k v k = v := by simp [upd]
theorem upd_ne (f : Nat → Nat) {k i : Nat} (v : Nat) (h : i ≠ k) : upd f k v i = f i := by
  simp [upd, h]

theorem upd_noop {f : Nat → Nat} {k v : Nat} (h : f k = v) : upd f k v = f := by
  funext i; by_cases hi : i = k <;> simp [upd, hi, h]

/-! ### Best fit -/

theorem foldl_fit (needed : Nat) : ∀ (l : List Chunk) (acc : Option Chunk),
    (∀ b, acc = some b → needed ≤ b.size) →
    (l.foldl (fitStep needed) acc = none ↔ acc = none ∧ ∀ c ∈ l, c.size < needed) ∧
    (∀ b, l.foldl (fitStep needed) acc = some b →
      (b ∈ l ∨ acc = some b) ∧ needed ≤ b.size ∧
      (∀ c ∈ l, needed ≤ c.size → b.size ≤ c.size) ∧ (∀ c, acc = some c → b.size ≤ c.size))
  | [], acc, hacc => by
      refine ⟨by simp, fun b hb => ?_⟩
      simp only [List.foldl_nil] at hb
      exact ⟨Or.inr hb, hacc b hb, by simp, fun c hc => by rw [hb] at hc; cases hc; exact le_refl _⟩
  | x :: l, acc, hacc => by
      have hx : ∀ b, fitStep needed acc x = some b → needed ≤ b.size := by
        intro b hb
        unfold fitStep at hb
        split at hb
        · rename_i h
          split at hb
          · cases hb; exact h
          · rename_i b0 
            split at hb <;> cases hb
            · exact h
            · exact hacc _ rfl
        · exact hacc _ hb
      have ih := foldl_fit needed l (fitStep needed acc x) hx
      simp only [List.foldl_cons]
      refine ⟨?_, fun b hb => ?_⟩
      · rw [ih.1]
        unfold fitStep
        by_cases h : needed ≤ x.size
        · simp only [if_pos h]
          constructor
          · rintro ⟨h1, -⟩
            split at h1
            · cases h1
            · split at h1 <;> cases h1
          · rintro ⟨-, h2⟩
            have := h2 x (by simp)
            omega
        · simp only [if_neg h]
          constructor
          · rintro ⟨h1, h2⟩
            refine ⟨h1, ?_⟩
            intro c hc
            rcases List.mem_cons.1 hc with rfl | hc
            · omega
            · exact h2 c hc
          · rintro ⟨h1, h2⟩
            exact ⟨h1, fun c hc => h2 c (by simp [hc])⟩
      · obtain ⟨h1, h2, h3, h4⟩ := ih.2 b hb
        unfold fitStep at h1 h4
        by_cases h : needed ≤ x.size
        · simp only [if_pos h] at h1 h4
          cases acc with
          | none =>
            simp only at h1 h4
            have hbx := h4 x rfl
            refine ⟨?_, h2, ?_, by simp⟩
            · rcases h1 with h1 | h1
              · left; simp [h1]
              · cases h1; left; simp
            · intro c hc hn
              rcases List.mem_cons.1 hc with rfl | hc
              · exact hbx
              · exact h3 c hc hn
          | some a =>
            simp only at h1 h4
            by_cases hlt : x.size < a.size
            · simp only [if_pos hlt] at h1 h4
              have hbx := h4 x rfl
              refine ⟨?_, h2, ?_, ?_⟩
              · rcases h1 with h1 | h1
                · left; simp [h1]
                · cases h1; left; simp
              · intro c hc hn
                rcases List.mem_cons.1 hc with rfl | hc
                · exact hbx
                · exact h3 c hc hn
              · intro c hc; cases hc; omega
            · simp only [if_neg hlt] at h1 h4
              have hba := h4 a rfl
              refine ⟨?_, h2, ?_, ?_⟩
              · rcases h1 with h1 | h1
                · left; simp [h1]
                · right; exact h1
              · intro c hc hn
                rcases List.mem_cons.1 hc with rfl | hc
                · omega
                · exact h3 c hc hn
              · intro c hc; cases hc; exact hba
        · simp only [if_neg h] at h1 h4
          refine ⟨?_, h2, ?_, h4⟩
          · rcases h1 with h1 | h1
            · left; simp [h1]
            · right; exact h1
          · intro c hc hn
            rcases List.mem_cons.1 hc with rfl | hc
            · exact absurd hn h
            · exact h3 c hc hn

theorem bestFit_none {needed : Nat} {l : List Chunk} :
    bestFit needed l = none ↔ ∀ c ∈ l, c.size < needed := by
  have := (foldl_fit needed l none (by simp)).1
  simpa [bestFit] using this

theorem bestFit_some {needed : Nat} {l : List Chunk} {b : Chunk} (h : bestFit needed l = some b) :
    b ∈ l ∧ needed ≤ b.size ∧ ∀ c ∈ l, needed ≤ c.size → b.size ≤ c.size := by
  obtain ⟨h1, h2, h3, -⟩ := (foldl_fit needed l none (by simp)).2 b h
  exact ⟨by simpa using h1, h2, h3⟩

/-! ### Taking a chunk -/

theorem newFlag_fields (p : Pool) :
    (newFlag p).2.size = p.size ∧ (newFlag p).2.consumers = p.consumers ∧
    (newFlag p).2.avail = p.avail ∧ (newFlag p).2.occ = p.occ ∧ (newFlag p).2.mem = p.mem := by
  unfold newFlag; split <;> simp

theorem covers_split {c : Chunk} {m f : Nat} (h1 : c.start ≤ m) (h2 : m ≤ c.stop) (a : Nat) (g : Nat) :
    (if covers a c then 1 else 0) =
      (if covers a ⟨c.start, m, f⟩ then 1 else 0) + (if covers a ⟨m, c.stop, g⟩ then 1 else 0) := by
  by_cases h3 : c.start ≤ a <;> by_cases h4 : a < m <;> by_cases h5 : a < c.stop <;>
    simp [covers, h3, h4, h5] <;> omega

theorem covers_empty {m f : Nat} (a : Nat) : covers a ⟨m, m, f⟩ = false := by
  simp only [covers, decide_eq_false_iff_not]; omega

theorem addRemainder_fields (p : Pool) (lo hi : Nat) :
    (addRemainder p lo hi).size = p.size ∧ (addRemainder p lo hi).consumers = p.consumers ∧
    (addRemainder p lo hi).occ = p.occ ∧ (addRemainder p lo hi).mem = p.mem := by
  unfold addRemainder
  split
  · have := newFlag_fields p
    exact ⟨this.1, this.2.1, this.2.2.2.1, this.2.2.2.2⟩
  · simp

/-- What `getChunk` does. -/
theorem getChunk_spec {p p' : Pool} {needed : Nat} {o : Chunk} (h : p.Ok)
    (hg : getChunk p needed = some (o, p')) :
    p'.Ok ∧ p'.size = p.size ∧ p'.consumers = p.consumers ∧ p'.mem = p.mem ∧
    p'.occ = p.occ ++ [o] ∧ o.stop = o.start + needed ∧ o.flag ∈ p.avail.map Chunk.flag ∧
    p'.val o.flag = 0 ∧ (∀ f ∈ p.occ.map Chunk.flag, p'.val f = p.val f) := by
  unfold getChunk at hg
  split at hg
  · cases hg
  rename_i b hb
  obtain ⟨hmem, hsz, -⟩ := bestFit_some hb
  simp only [Option.some.injEq, Prod.mk.injEq] at hg
  obtain ⟨ho, hp'⟩ := hg
  have hbord := h.ordered b (by simp [hmem])
  have hbs : b.start + needed ≤ b.stop := by unfold Chunk.size at hsz; omega
  have hperm : p.avail.Perm (b :: p.avail.erase b) := List.perm_cons_erase hmem
  have hperm2 : (p.avail ++ p.occ).Perm (b :: (p.avail.erase b ++ p.occ)) := hperm.append_right _
  set o0 : Chunk := ⟨b.start, b.start + needed, b.flag⟩ with ho0
  -- the state between removing the free chunk and adding the remainder
  have hflags : ((p.avail.erase b ++ (p.occ ++ [o0])).map Chunk.flag ++ p.spool).Perm
      ((p.avail ++ p.occ).map Chunk.flag ++ p.spool) := by
    apply List.Perm.append_right
    have e1 : ((p.avail.erase b ++ (p.occ ++ [o0])).map Chunk.flag).Perm
        (b.flag :: (p.avail.erase b ++ p.occ).map Chunk.flag) := by
      have : (p.avail.erase b ++ (p.occ ++ [o0])).Perm (o0 :: (p.avail.erase b ++ p.occ)) := by
        rw [← List.append_assoc]; exact List.perm_append_singleton _ _
      simpa [ho0] using this.map Chunk.flag
    have e2 : ((p.avail ++ p.occ).map Chunk.flag).Perm
        (b.flag :: (p.avail.erase b ++ p.occ).map Chunk.flag) := by
      simpa using hperm2.map Chunk.flag
    exact e1.trans e2.symm
  have hb0 : p.val b.flag = 0 := h.zero _ (by
    simp only [List.mem_append, List.mem_map]; left; exact ⟨b, hmem, rfl⟩)
  have hcount : ∀ a, (p.avail.erase b ++ (p.occ ++ [o0])).countP (covers a) +
      (if covers a ⟨b.start + needed, b.stop, 0⟩ then 1 else 0) = if a < p.size then 1 else 0 := by
    intro a
    rw [← h.tile a, hperm2.countP_eq, List.countP_cons]
    have := covers_split (f := b.flag) (c := b) (m := b.start + needed) (by omega) hbs a 0
    simp only [List.countP_append, List.countP_cons, List.countP_nil, ← ho0] at *
    omega
  have hnbo : b.flag < p.nseg := h.fresh _ (by
    simp only [List.mem_append, List.mem_map]; left; exact ⟨b, by simp [hmem], rfl⟩)
  have hav : ∀ c ∈ p.avail.erase b, c ∈ p.avail := fun c hc => List.mem_of_mem_erase hc
  have hocc : ∀ c ∈ p.occ, c.flag < p.nseg := fun c hc => h.fresh _ (by
    simp only [List.mem_append, List.mem_map]; left; exact ⟨c, by simp [hc], rfl⟩)
  have hord : ∀ c ∈ p.avail.erase b ++ (p.occ ++ [o0]), c.start ≤ c.stop ∧ c.stop ≤ p.size := by
    intro c hc
    simp only [List.mem_append, List.mem_singleton] at hc
    rcases hc with hc | hc | hc
    · exact h.ordered c (by simp [hav c hc])
    · exact h.ordered c (by simp [hc])
    · subst hc; exact ⟨Nat.le_add_right _ _, le_trans hbs hbord.2⟩
  have hzero : ∀ f ∈ (p.avail.erase b).map Chunk.flag ++ p.spool, p.val f = 0 := by
    intro f hf
    apply h.zero
    simp only [List.mem_append, List.mem_map] at hf ⊢
    rcases hf with ⟨c, hc, rfl⟩ | hf
    · exact Or.inl ⟨c, hav c hc, rfl⟩
    · exact Or.inr hf
  have hfl := hflags.nodup_iff.2 h.flags
  have hfr : ∀ f ∈ (p.avail.erase b ++ (p.occ ++ [o0])).map Chunk.flag ++ p.spool, f < p.nseg :=
    fun f hf => h.fresh f (hflags.mem_iff.1 hf)
  have hobf : o0.flag ∈ p.avail.map Chunk.flag := List.mem_map.2 ⟨b, hmem, rfl⟩
  subst ho
  by_cases hr : b.start + needed < b.stop
  · -- a remainder is left
    set q : Pool := { p with occ := p.occ ++ [o0], avail := p.avail.erase b } with hq
    have hadd : addRemainder q o0.stop b.stop =
        { (newFlag q).2 with avail := (newFlag q).2.avail ++ [⟨b.start + needed, b.stop, (newFlag q).1⟩] } := by
      unfold addRemainder; rw [if_pos (by simpa [ho0] using hr)]
    rw [hadd] at hp'
    obtain ⟨n1, n2, n3, n4, n5⟩ := newFlag_fields q
    -- the counter invariants of `q`, which do not mention the tiling
    have key : (newFlag q).1 ∉ (p.avail.erase b ++ (p.occ ++ [o0])).map Chunk.flag ++ (newFlag q).2.spool ∧
        (newFlag q).1 < (newFlag q).2.nseg ∧ (newFlag q).2.val (newFlag q).1 = 0 ∧
        (∀ f < q.nseg, (newFlag q).2.val f = q.val f) ∧
        ((p.avail.erase b ++ (p.occ ++ [o0])).map Chunk.flag ++ (newFlag q).2.spool).Nodup ∧
        (∀ f ∈ (p.avail.erase b ++ (p.occ ++ [o0])).map Chunk.flag ++ (newFlag q).2.spool,
          f < (newFlag q).2.nseg) ∧
        (∀ f ∈ (p.avail.erase b).map Chunk.flag ++ (newFlag q).2.spool, (newFlag q).2.val f = 0) := by
      unfold newFlag
      split
      · rename_i f rest hs
        have hs' : p.spool = f :: rest := hs
        rw [hs'] at hfl hfr hzero
        have hn' := (List.perm_middle (a := f)
          (l₁ := (p.avail.erase b ++ (p.occ ++ [o0])).map Chunk.flag) (l₂ := rest)).nodup_iff.1 hfl
        rw [List.nodup_cons] at hn'
        refine ⟨hn'.1, hfr f (by simp), hzero f (by simp), fun _ _ => rfl, hn'.2, ?_, ?_⟩
        · intro g hg; exact hfr g (by simp only [List.mem_append, List.mem_cons] at hg ⊢; tauto)
        · intro g hg; exact hzero g (by simp only [List.mem_append, List.mem_cons] at hg ⊢; tauto)
      · rename_i hs
        have hs' : p.spool = [] := hs
        rw [hs'] at hfl hfr hzero
        simp only [hs]
        refine ⟨fun hf => absurd (hfr _ hf) (lt_irrefl _), Nat.lt_succ_self _, by simp,
          fun f hf => upd_ne _ _ (by omega), hfl, fun f hf => Nat.lt_succ_of_lt (hfr f hf), ?_⟩
        intro f hf
        have hlt : f < p.nseg := hfr f (by
          simp only [List.mem_append, List.map_append] at hf ⊢; tauto)
        show upd p.val p.nseg 0 f = 0
        rw [upd_ne _ _ (by omega)]
        exact hzero f hf
    obtain ⟨k1, k2, k3, k4, k5, k6, k7⟩ := key
    set f := (newFlag q).1 with hf
    have hp : ((p.avail.erase b ++ [(⟨b.start + needed, b.stop, f⟩ : Chunk)]) ++ (p.occ ++ [o0])).Perm
        ((⟨b.start + needed, b.stop, f⟩ : Chunk) :: (p.avail.erase b ++ (p.occ ++ [o0]))) := by
      rw [List.append_assoc]
      exact List.perm_middle
    subst hp'
    refine ⟨?_, n1, n2, n5, n4, rfl, hobf, ?_, ?_⟩
    · show Inv (newFlag q).2.size _ (newFlag q).2.occ (newFlag q).2.spool (newFlag q).2.nseg (newFlag q).2.val
      rw [n1, n4]
      show Inv p.size ((newFlag q).2.avail ++ _) (p.occ ++ [o0]) _ _ _
      rw [n3]
      show Inv p.size (p.avail.erase b ++ [⟨b.start + needed, b.stop, f⟩]) (p.occ ++ [o0]) _ _ _
      refine ⟨?_, ?_, ?_, ?_, ?_⟩
      · intro c hc
        rcases List.mem_cons.1 (hp.mem_iff.1 hc) with rfl | hc
        · exact ⟨hbs, hbord.2⟩
        · exact hord c hc
      · intro a
        rw [hp.countP_eq, List.countP_cons, ← hcount a]
        rfl
      · have := ((hp.map Chunk.flag).append_right (newFlag q).2.spool).nodup_iff
        rw [this]
        simp only [List.map_cons, List.cons_append, List.nodup_cons]
        exact ⟨k1, k5⟩
      · intro g hg
        have := ((hp.map Chunk.flag).append_right (newFlag q).2.spool).mem_iff.1 hg
        simp only [List.map_cons, List.cons_append, List.mem_cons] at this
        rcases this with rfl | hg
        · exact k2
        · exact k6 g hg
      · intro g hg
        simp only [List.map_append, List.map_cons, List.map_nil, List.append_assoc,
          List.mem_append, List.mem_singleton] at hg
        rcases hg with hg | rfl | hg
        · exact k7 g (by simp only [List.mem_append]; exact Or.inl hg)
        · exact k3
        · exact k7 g (by simp only [List.mem_append]; exact Or.inr hg)
    · show (newFlag q).2.val b.flag = 0
      rw [k4 b.flag hnbo]; exact hb0
    · intro g hg
      obtain ⟨c, hc, rfl⟩ := List.mem_map.1 hg
      exact k4 _ (hocc c hc)
  · -- the chunk is used up
    have hadd : addRemainder { p with occ := p.occ ++ [o0], avail := p.avail.erase b } o0.stop b.stop =
        { p with occ := p.occ ++ [o0], avail := p.avail.erase b } := by
      unfold addRemainder; rw [if_neg (by simpa [ho0] using hr)]
    rw [hadd] at hp'
    subst hp'
    have heq : b.start + needed = b.stop := by omega
    refine ⟨⟨hord, ?_, hfl, hfr, hzero⟩, rfl, rfl, rfl, rfl, rfl, hobf, hb0, fun _ _ => rfl⟩
    intro a
    have := hcount a
    rw [heq, covers_empty] at this
    simpa using this

/-! ### Recycling -/

theorem recycleStep_eq (p : Pool) (kept : List Chunk) (c : Chunk) :
    recycleStep (p, kept) c =
      if p.consumers ≤ p.val c.flag then
        ({ p with val := upd p.val c.flag 0, avail := p.avail ++ [c] }, kept)
      else (p, kept ++ [c]) := by
  unfold recycleStep
  by_cases h : p.consumers ≤ p.val c.flag
  · simp only [if_pos h]
    unfold returnFlag newFlag
    simp only [Prod.mk.injEq, and_true]
    congr 1
    funext i
    by_cases hi : i = c.flag <;> simp [upd, hi]
  · simp only [if_neg h]

/-- What the recycling pass does: exactly the occupied chunks whose counter has reached the number
of consumers become free, with the counter reset. -/
theorem foldl_recycle (n : Nat) : ∀ (l : List Chunk) (p : Pool) (kept : List Chunk),
    p.consumers = n → (l.map Chunk.flag).Nodup →
    ∃ v, l.foldl recycleStep (p, kept) =
      ({ p with val := v, avail := p.avail ++ l.filter (fun c => decide (n ≤ p.val c.flag)) },
        kept ++ l.filter (fun c => decide (p.val c.flag < n))) ∧
      (∀ f, f ∉ (l.filter (fun c => decide (n ≤ p.val c.flag))).map Chunk.flag → v f = p.val f) ∧
      (∀ f ∈ (l.filter (fun c => decide (n ≤ p.val c.flag))).map Chunk.flag, v f = 0)
  | [], p, kept, hn, _ => ⟨p.val, by simp, by simp, by simp⟩
  | c :: l, p, kept, hn, hd => by
      rw [List.map_cons, List.nodup_cons] at hd
      rw [List.foldl_cons, recycleStep_eq]
      have hne : ∀ d ∈ l, d.flag ≠ c.flag := fun d hd' he =>
        hd.1 (he ▸ List.mem_map_of_mem hd')
      by_cases h : p.consumers ≤ p.val c.flag
      · rw [if_pos h]
        obtain ⟨v, hv, hv1, hv2⟩ := foldl_recycle n l
          { p with val := upd p.val c.flag 0, avail := p.avail ++ [c] } kept hn hd.2
        have hf1 : l.filter (fun d => decide (n ≤ upd p.val c.flag 0 d.flag)) =
            l.filter (fun d => decide (n ≤ p.val d.flag)) := by
          apply List.filter_congr
          intro d hd'
          rw [upd_ne _ _ (hne d hd')]
        have hf2 : l.filter (fun d => decide (upd p.val c.flag 0 d.flag < n)) =
            l.filter (fun d => decide (p.val d.flag < n)) := by
          apply List.filter_congr
          intro d hd'
          rw [upd_ne _ _ (hne d hd')]
        simp only [hf1, hf2] at hv hv1 hv2
        rw [hn] at h
        have hg1 : (c :: l).filter (fun d => decide (n ≤ p.val d.flag)) =
            c :: l.filter (fun d => decide (n ≤ p.val d.flag)) := by simp [h]
        have hg2 : (c :: l).filter (fun d => decide (p.val d.flag < n)) =
            l.filter (fun d => decide (p.val d.flag < n)) := by
          rw [List.filter_cons]; simp [Nat.not_lt.2 h]
        rw [hg1, hg2]
        refine ⟨v, ?_, ?_, ?_⟩
        · rw [hv]; simp
        · intro f hf
          simp only [List.map_cons, List.mem_cons, not_or] at hf
          rw [hv1 f hf.2, upd_ne _ _ hf.1]
        · intro f hf
          simp only [List.map_cons, List.mem_cons] at hf
          by_cases hm : f ∈ (l.filter (fun c => decide (n ≤ p.val c.flag))).map Chunk.flag
          · exact hv2 f hm
          · rcases hf with rfl | hf
            · rw [hv1 _ hm, upd_same]
            · exact absurd hf hm
      · rw [if_neg h]
        obtain ⟨v, hv, hv1, hv2⟩ := foldl_recycle n l p (kept ++ [c]) hn hd.2
        rw [hn] at h
        have hg1 : (c :: l).filter (fun d => decide (n ≤ p.val d.flag)) =
            l.filter (fun d => decide (n ≤ p.val d.flag)) := by rw [List.filter_cons]; simp [h]
        have hg2 : (c :: l).filter (fun d => decide (p.val d.flag < n)) =
            c :: l.filter (fun d => decide (p.val d.flag < n)) := by
          rw [List.filter_cons]; simp [Nat.lt_of_not_le h]
        rw [hg1, hg2]
        exact ⟨v, by rw [hv]; simp, hv1, hv2⟩

/-- The chunks that the next pass gives back. -/
def Pool.ripe (p : Pool) : List Chunk := p.occ.filter (fun c => decide (p.consumers ≤ p.val c.flag))

/-- The chunks that stay. -/
def Pool.busy (p : Pool) : List Chunk := p.occ.filter (fun c => decide (p.val c.flag < p.consumers))

theorem Pool.ripe_busy_perm (p : Pool) : (p.ripe ++ p.busy).Perm p.occ := by
  have : p.busy = p.occ.filter (fun c => !decide (p.consumers ≤ p.val c.flag)) := by
    apply List.filter_congr
    intro c _
    rw [← decide_not]
    simp only [Nat.not_le]
  unfold Pool.ripe
  rw [this]
  exact List.filter_append_perm _ _

theorem Ok.occ_nodup {p : Pool} (h : p.Ok) : (p.occ.map Chunk.flag).Nodup := by
  have := h.flags
  rw [List.map_append, List.append_assoc, List.nodup_append] at this
  exact (List.nodup_append.1 this.2.1).1

theorem recycle_spec {p : Pool} (h : p.Ok) :
    (recycle p).Ok ∧ (recycle p).size = p.size ∧ (recycle p).consumers = p.consumers ∧
    (recycle p).mem = p.mem ∧ (recycle p).occ = p.busy ∧ (recycle p).avail = p.avail ++ p.ripe ∧
    (∀ c ∈ p.busy, (recycle p).val c.flag = p.val c.flag) := by
  obtain ⟨v, hv, hv1, hv2⟩ := foldl_recycle p.consumers p.occ p [] rfl (Ok.occ_nodup h)
  have hr : recycle p = { p with val := v, avail := p.avail ++ p.ripe, occ := p.busy } := by
    unfold recycle; rw [hv]; simp [Pool.ripe, Pool.busy]
  rw [hr]
  have hperm : ((p.avail ++ p.ripe) ++ p.busy).Perm (p.avail ++ p.occ) := by
    rw [List.append_assoc]; exact (p.ripe_busy_perm).append_left _
  have hnd : ((p.avail ++ p.ripe ++ p.busy).map Chunk.flag ++ p.spool).Nodup :=
    ((hperm.map Chunk.flag).append_right p.spool).nodup_iff.2 h.flags
  refine ⟨⟨fun c hc => h.ordered c (hperm.mem_iff.1 hc), fun a => ?_, hnd,
    fun f hf => h.fresh f (((hperm.map Chunk.flag).append_right p.spool).mem_iff.1 hf), ?_⟩,
    rfl, rfl, rfl, rfl, rfl, ?_⟩
  · show ((p.avail ++ p.ripe) ++ p.busy).countP _ = _
    rw [hperm.countP_eq]; exact h.tile a
  · intro f hf
    show v f = 0
    by_cases hm : f ∈ p.ripe.map Chunk.flag
    · exact hv2 f hm
    · rw [hv1 f hm]
      apply h.zero
      simp only [List.map_append, List.mem_append] at hf hm ⊢
      tauto
  · intro c hc
    show v c.flag = _
    apply hv1
    intro hm
    simp only [List.map_append, List.append_assoc] at hnd
    have h1 := (List.nodup_append.1 hnd).2.1
    have h2 := List.nodup_append.1 h1
    exact h2.2.2 _ hm _ (by simp only [List.mem_append]; left; exact List.mem_map_of_mem hc) rfl

/-! ### Merging -/

theorem mergeStep_inv {p : Pool} {m rest : List Chunk} {c : Chunk} {oc : List Chunk}
    (h : Inv p.size (m ++ c :: rest) oc p.spool p.nseg p.val) :
    (mergeStep (p, m) c).1 = { p with spool := (mergeStep (p, m) c).1.spool } ∧
    Inv p.size ((mergeStep (p, m) c).2 ++ rest) oc (mergeStep (p, m) c).1.spool p.nseg p.val := by
  cases m with
  | nil => exact ⟨rfl, by simpa [mergeStep] using h⟩
  | cons prev m =>
    by_cases he : prev.stop = c.start
    · have hz : p.val c.flag = 0 := h.zero _ (by simp)
      have hms : mergeStep (p, prev :: m) c =
          ({ p with spool := c.flag :: p.spool }, ⟨prev.start, c.stop, prev.flag⟩ :: m) := by
        simp only [mergeStep, if_pos he, returnFlag, upd_noop hz]
      rw [hms]
      refine ⟨rfl, ?_⟩
      have hprev := h.ordered prev (by simp)
      have hc := h.ordered c (by simp)
      have hperm : ((prev :: m ++ c :: rest) ++ oc).Perm (c :: prev :: (m ++ rest ++ oc)) := by
        have : (prev :: m ++ c :: rest).Perm (c :: (prev :: m ++ rest)) := List.perm_middle
        simpa using this.append_right oc
      have hmm : ∀ d ∈ m ++ rest ++ oc, d ∈ (prev :: m ++ c :: rest) ++ oc := by
        intro d hd
        exact hperm.mem_iff.2 (by simp only [List.mem_cons]; exact Or.inr (Or.inr hd))
      have hfp : (((⟨prev.start, c.stop, prev.flag⟩ : Chunk) :: m ++ rest ++ oc).map Chunk.flag ++
          (c.flag :: p.spool)).Perm (((prev :: m ++ c :: rest) ++ oc).map Chunk.flag ++ p.spool) := by
        have e1 := ((hperm.map Chunk.flag).append_right p.spool).symm
        have e2 : (((⟨prev.start, c.stop, prev.flag⟩ : Chunk) :: m ++ rest ++ oc).map Chunk.flag ++
          (c.flag :: p.spool)).Perm ((c :: prev :: (m ++ rest ++ oc)).map Chunk.flag ++ p.spool) := by
          refine List.perm_middle.trans ?_
          simp
        exact e2.trans e1
      refine ⟨?_, ?_, hfp.nodup_iff.2 h.flags, fun f hf => h.fresh f (hfp.mem_iff.1 hf), ?_⟩
      · intro d hd
        simp only [List.cons_append, List.mem_cons] at hd
        rcases hd with rfl | hd
        · exact ⟨by simp only; omega, hc.2⟩
        · exact h.ordered d (hmm d hd)
      · intro a
        rw [← h.tile a, hperm.countP_eq]
        simp only [List.cons_append, List.countP_cons]
        have := covers_split (c := ⟨prev.start, c.stop, prev.flag⟩) (f := prev.flag) (g := c.flag)
          (m := c.start) (by simp only; omega) (by simp only; omega) a
        rw [this]
        have e1 : (⟨prev.start, c.start, prev.flag⟩ : Chunk) = prev := by rw [← he]
        rw [e1]
        have e2 : covers a (⟨c.start, c.stop, c.flag⟩ : Chunk) = covers a c := rfl
        simp only [e2]
        omega
      · intro f hf
        simp only [List.cons_append, List.map_cons, List.mem_append, List.mem_cons] at hf
        apply h.zero
        simp only [List.cons_append, List.map_cons, List.map_append, List.mem_append, List.mem_cons] at hf ⊢
        tauto
    · have hms : mergeStep (p, prev :: m) c = (p, c :: prev :: m) := by
        simp only [mergeStep, if_neg he]
      rw [hms]
      refine ⟨rfl, h.congr ?_ (List.Perm.refl _)⟩
      have : (prev :: m ++ c :: rest).Perm (c :: (prev :: m ++ rest)) := List.perm_middle
      exact this.symm

theorem foldl_merge : ∀ (l : List Chunk) (p : Pool) (m oc : List Chunk),
    Inv p.size (m ++ l) oc p.spool p.nseg p.val →
    (l.foldl mergeStep (p, m)).1 = { p with spool := (l.foldl mergeStep (p, m)).1.spool } ∧
    Inv p.size (l.foldl mergeStep (p, m)).2 oc (l.foldl mergeStep (p, m)).1.spool p.nseg p.val
  | [], p, m, oc, h => ⟨rfl, by simpa using h⟩
  | c :: l, p, m, oc, h => by
      obtain ⟨h1, h2⟩ := mergeStep_inv h
      rw [List.foldl_cons]
      generalize hs : mergeStep (p, m) c = s at h1 h2 ⊢
      obtain ⟨p', m'⟩ := s
      simp only at h1 h2
      rw [h1]
      have := foldl_merge l { p with spool := p'.spool } m' oc h2
      exact this

theorem sortChunks_perm (l : List Chunk) : (sortChunks l).Perm l := List.perm_insertionSort _ _

theorem merge_spec {p : Pool} (h : p.Ok) :
    (merge p).Ok ∧ (merge p).size = p.size ∧ (merge p).consumers = p.consumers ∧
    (merge p).mem = p.mem ∧ (merge p).occ = p.occ ∧ (merge p).val = p.val := by
  have h0 : Inv p.size ([] ++ sortChunks p.avail) p.occ p.spool p.nseg p.val :=
    h.congr (by simpa using sortChunks_perm _) (List.Perm.refl _)
  obtain ⟨h1, h2⟩ := foldl_merge (sortChunks p.avail) p [] p.occ h0
  unfold merge
  simp only
  rw [h1]
  refine ⟨?_, rfl, rfl, rfl, rfl, rfl⟩
  exact h2.congr (List.reverse_perm _) (List.Perm.refl _)

theorem tick_spec {p : Pool} (h : p.Ok) :
    (tick p).Ok ∧ (tick p).size = p.size ∧ (tick p).consumers = p.consumers ∧
    (tick p).mem = p.mem ∧ (tick p).occ = p.busy ∧
    (∀ c ∈ p.busy, (tick p).val c.flag = p.val c.flag) := by
  obtain ⟨h1, h2, h3, h4, h5, -, h7⟩ := recycle_spec h
  obtain ⟨g1, g2, g3, g4, g5, g6⟩ := merge_spec h1
  unfold tick
  exact ⟨g1, g2.trans h2, g3.trans h3, g4.trans h4, g5.trans h5, fun c hc => by rw [g6]; exact h7 c hc⟩

end Verif.Ipc
