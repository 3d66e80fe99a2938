import Verif.Ipc.World

/-!
# Coalescing: after a pass of the recycler no two free chunks touch
-/

namespace Verif.Ipc

/-- In an allocator state two different chunks share no byte. -/
theorem Inv.apart {size av oc sp nseg val} (h : Inv size av oc sp nseg val) {c d : Chunk}
    (hc : c ∈ av ++ oc) (hd : d ∈ av ++ oc) (hne : c ≠ d) (a : Nat) :
    ¬ (covers a c = true ∧ covers a d = true) := by
  rintro ⟨h1, h2⟩
  have ht := h.tile a
  have hperm := List.perm_cons_erase hc
  have hd' : d ∈ (av ++ oc).erase c := (List.mem_erase_of_ne (Ne.symm hne)).2 hd
  have hperm' := List.perm_cons_erase hd'
  have h3 := hperm.countP_eq (p := covers a)
  have h4 := hperm'.countP_eq (p := covers a)
  rw [List.countP_cons_of_pos h1] at h3
  rw [List.countP_cons_of_pos h2] at h4
  split at ht <;> omega

/-- Nonempty, disjoint, and one starts first: then it also ends first. -/
theorem Inv.before {size av oc sp nseg val} (h : Inv size av oc sp nseg val) {c d : Chunk}
    (hc : c ∈ av ++ oc) (hd : d ∈ av ++ oc) (hne : c ≠ d) (h1 : c.start < c.stop)
    (h2 : d.start < d.stop) (hle : c.start ≤ d.start) : c.stop ≤ d.start := by
  by_contra hlt
  refine h.apart hc hd hne d.start ⟨?_, ?_⟩
  · simp only [covers, decide_eq_true_eq]; omega
  · simp only [covers, decide_eq_true_eq]; omega

/-- No two of the chunks touch. -/
def NoTouch (l : List Chunk) : Prop := ∀ c ∈ l, ∀ d ∈ l, c.stop ≠ d.start

theorem foldl_merge_noTouch : ∀ (l : List Chunk) (p : Pool) (m oc : List Chunk),
    Inv p.size (m ++ l) oc p.spool p.nseg p.val →
    (∀ c ∈ m ++ l, c.start < c.stop) → NoTouch m →
    m.Pairwise (fun a b => b.start ≤ a.start) →
    (∀ a ∈ m, ∀ b ∈ l, a.start ≤ b.start) → l.Pairwise (fun a b => a.start ≤ b.start) →
    NoTouch (l.foldl mergeStep (p, m)).2 ∧ (∀ c ∈ (l.foldl mergeStep (p, m)).2, c.start < c.stop)
  | [], p, m, oc, _, hne, hnt, _, _, _ => ⟨hnt, fun c hc => hne c (by simpa using hc)⟩
  | c :: l, p, m, oc, h, hne, hnt, hs, hml, hl => by
      obtain ⟨h1, h2⟩ := mergeStep_inv h
      rw [List.foldl_cons]
      have hl' := List.pairwise_cons.1 hl
      have hcne := hne c (by simp)
      -- the new list
      have key : (∀ d ∈ (mergeStep (p, m) c).2 ++ l, d.start < d.stop) ∧
          NoTouch (mergeStep (p, m) c).2 ∧
          (mergeStep (p, m) c).2.Pairwise (fun a b => b.start ≤ a.start) ∧
          (∀ a ∈ (mergeStep (p, m) c).2, ∀ b ∈ l, a.start ≤ b.start) := by
        cases m with
        | nil =>
          simp only [mergeStep]
          refine ⟨fun d hd => hne d (by simpa using hd), ?_, by simp, ?_⟩
          · intro a ha b hb
            rw [List.mem_singleton.1 ha, List.mem_singleton.1 hb]
            omega
          · intro a ha b hb
            rw [List.mem_singleton.1 ha]
            exact hl'.1 b hb
        | cons prev m =>
          have hprev := hne prev (by simp)
          have hs' := List.pairwise_cons.1 hs
          have hpc : prev.start ≤ c.start := hml prev (by simp) c (by simp)
          by_cases he : prev.stop = c.start
          · simp only [mergeStep, if_pos he]
            refine ⟨?_, ?_, ?_, ?_⟩
            · intro d hd
              simp only [List.cons_append, List.mem_cons] at hd
              rcases hd with rfl | hd
              · simp only; omega
              · apply hne d
                simp only [List.cons_append, List.mem_cons, List.mem_append] at hd ⊢
                tauto
            · intro a hA b hB
              rcases List.mem_cons.1 hA with rfl | ha <;> rcases List.mem_cons.1 hB with rfl | hb
              · simp only; omega
              · have := hs'.1 b hb
                simp only; omega
              · exact hnt a (by simp [ha]) prev (by simp)
              · exact hnt a (by simp [ha]) b (by simp [hb])
            · rw [List.pairwise_cons]
              exact ⟨fun b hb => hs'.1 b hb, hs'.2⟩
            · intro a ha b hb
              rcases List.mem_cons.1 ha with rfl | ha
              · exact hml prev (by simp) b (by simp [hb])
              · exact hml a (by simp [ha]) b (by simp [hb])
          · simp only [mergeStep, if_neg he]
            have hnd : (prev :: m ++ c :: l).map Chunk.flag |>.Nodup := by
              have := h.flags
              rw [List.map_append, List.append_assoc] at this
              exact (List.nodup_append.1 this).1
            have hpne : prev ≠ c := by
              rintro rfl
              simp only [List.cons_append, List.map_cons, List.nodup_cons, List.mem_map,
                List.mem_append, List.mem_cons] at hnd
              exact hnd.1 ⟨prev, by simp, rfl⟩
            have hpc' : prev.start < c.start := by
              have := h.before (c := prev) (d := c) (by simp) (by simp) hpne hprev hcne hpc
              omega
            refine ⟨?_, ?_, ?_, ?_⟩
            · intro d hd
              apply hne d
              simp only [List.cons_append, List.mem_cons, List.mem_append] at hd ⊢
              tauto
            · intro a hA b hB
              rcases List.mem_cons.1 hA with rfl | ha <;> rcases List.mem_cons.1 hB with rfl | hb
              · omega
              · have := hml b hb a (by simp)
                omega
              · rcases List.mem_cons.1 ha with ha0 | ha0
                · rw [ha0]; exact he
                · have hane : a ≠ prev := by
                    intro hap
                    simp only [List.cons_append, List.map_cons, List.nodup_cons, List.mem_map,
                      List.mem_append, List.mem_cons] at hnd
                    exact hnd.1 ⟨a, Or.inl ha0, by rw [hap]⟩
                  have := h.before (c := a) (d := prev) (by simp [ha0]) (by simp) hane
                    (hne a (by simp [ha0])) hprev (hs'.1 a ha0)
                  omega
              · exact hnt a ha b hb
            · rw [List.pairwise_cons]
              exact ⟨fun b hb => hml b hb c (by simp), hs⟩
            · intro a ha b hb
              rcases List.mem_cons.1 ha with rfl | ha
              · exact hl'.1 b hb
              · exact hml a ha b (by simp [hb])
      generalize hst : mergeStep (p, m) c = s at h1 h2 key ⊢
      obtain ⟨p', m'⟩ := s
      simp only at h1 h2 key
      rw [h1]
      exact foldl_merge_noTouch l { p with spool := p'.spool } m' oc h2 key.1 key.2.1 key.2.2.1
        key.2.2.2 hl'.2

instance : Std.Total startsBefore := ⟨fun a b => Nat.le_total a.start b.start⟩
instance : IsTrans Chunk startsBefore := ⟨fun _ _ _ h1 h2 => Nat.le_trans h1 h2⟩

theorem sortChunks_sorted (l : List Chunk) :
    (sortChunks l).Pairwise (fun a b => a.start ≤ b.start) :=
  List.pairwise_insertionSort startsBefore l

theorem merge_noTouch {p : Pool} (h : p.Ok) (hne : ∀ c ∈ p.avail, c.start < c.stop) :
    NoTouch (merge p).avail ∧ ∀ c ∈ (merge p).avail, c.start < c.stop := by
  have h0 : Inv p.size ([] ++ sortChunks p.avail) p.occ p.spool p.nseg p.val :=
    h.congr (by simpa using sortChunks_perm _) (List.Perm.refl _)
  have := foldl_merge_noTouch (sortChunks p.avail) p [] p.occ h0
    (fun c hc => hne c ((sortChunks_perm _).mem_iff.1 (by simpa using hc))) (by simp [NoTouch])
    (by simp) (by simp) (sortChunks_sorted _)
  unfold merge
  simp only [NoTouch, List.mem_reverse]
  exact this

theorem tick_noTouch {p : Pool} (h : p.Ok) (hne : ∀ c ∈ p.avail ++ p.occ, c.start < c.stop) :
    NoTouch (tick p).avail ∧ ∀ c ∈ (tick p).avail, c.start < c.stop := by
  obtain ⟨h1, -, -, -, -, h6, -⟩ := recycle_spec h
  apply merge_noTouch h1
  rw [h6]
  intro c hc
  apply hne
  rcases List.mem_append.1 hc with hc | hc
  · simp [hc]
  · simp [(List.mem_filter.1 hc).1]

/-- A byte of the workspace that no occupied chunk contains. -/
def Pool.freeByte (p : Pool) (a : Nat) : Prop := a < p.size ∧ ∀ c ∈ p.occ, covers a c = false

/-- If no two free chunks touch, a run of free bytes lies in one free chunk. -/
theorem run_in_chunk {p : Pool} (h : p.Ok) (hnt : NoTouch p.avail)
    (hne : ∀ c ∈ p.avail, c.start < c.stop) {s len : Nat} (hlen : 0 < len)
    (hfree : ∀ a, s ≤ a → a < s + len → p.freeByte a) :
    ∃ c ∈ p.avail, c.start ≤ s ∧ s + len ≤ c.stop := by
  have hcov : ∀ a, p.freeByte a → ∃ c ∈ p.avail, covers a c = true := by
    intro a ⟨ha, hocc⟩
    have ht := h.tile a
    rw [if_pos ha, List.countP_append] at ht
    have : p.occ.countP (covers a) = 0 := List.countP_eq_zero.2 (fun c hc => by
      rw [hocc c hc]; simp)
    rw [this, Nat.add_zero] at ht
    have : 0 < p.avail.countP (covers a) := by omega
    exact List.countP_pos_iff.1 this
  obtain ⟨c, hc, hcs⟩ := hcov s (hfree s (le_refl _) (by omega))
  simp only [covers, decide_eq_true_eq] at hcs
  refine ⟨c, hc, hcs.1, ?_⟩
  have : ∀ k, k ≤ len → s + k ≤ c.stop := by
    intro k
    induction k with
    | zero => intro _; omega
    | succ k ih =>
      intro hk
      have hle := ih (by omega)
      by_contra hlt
      have heq : s + k = c.stop := by omega
      obtain ⟨d, hd, hds⟩ := hcov (s + k) (hfree _ (by omega) (by omega))
      simp only [covers, decide_eq_true_eq] at hds
      have hcd : c ≠ d := by rintro rfl; omega
      have hk' : ¬ (c.stop - 1 ≥ d.start) := by
        intro hge
        refine h.apart (c := c) (d := d) (by simp [hc]) (by simp [hd]) hcd (c.stop - 1) ⟨?_, ?_⟩
        · simp only [covers, decide_eq_true_eq]; omega
        · simp only [covers, decide_eq_true_eq]; omega
      have := hnt c hc d hd
      omega
  exact this len (le_refl _)

end Verif.Ipc
