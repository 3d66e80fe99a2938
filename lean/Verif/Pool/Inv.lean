import Verif.Pool.Lemmas
/- Every step preserves the invariant. -/
namespace Verif.Pool

variable {cfg : Cfg} {st : State}

theorem forLoop_length_ge (st : Int) (hst : 0 < st) (e : Int) : ∀ (n : Nat) (i : Int), e - i ≤ n → ∀ m : Nat,
    (m : Int) * st ≤ e - i → m ≤ (forLoop n i e st).length := by
  intro n
  induction n with
  | zero =>
    intro i hn m hm
    cases m with
    | zero => exact Nat.zero_le _
    | succ m =>
      exfalso
      have : (0 : Int) < ((m + 1 : Nat) : Int) * st := by positivity
      push_cast at hn
      omega
  | succ n ih =>
    intro i hn m hm
    cases m with
    | zero => exact Nat.zero_le _
    | succ m =>
      have h0 : (0 : Int) < ((m + 1 : Nat) : Int) * st := by positivity
      rw [forLoop, if_pos (by omega), List.length_cons]
      have := ih (i + st) (by push_cast at hn; omega) m (by push_cast at hm; linarith)
      omega

theorem tiles_le {t : Task} (h : 0 < t.step) (h1 : 1 < t.tiles) : t.tiles ≤ t.iters.length := by
  have hpos : 0 ≤ t.stop - t.start := by
    by_contra hc
    push Not at hc
    have h2 : (-(t.stop - t.start)).tdiv t.step = - t.tiles := Int.neg_tdiv ..
    have h3 : 0 ≤ (-(t.stop - t.start)).tdiv t.step := Int.tdiv_nonneg (by omega) (by omega)
    omega
  obtain ⟨m, hm⟩ := Int.eq_ofNat_of_zero_le (by omega : 0 ≤ t.tiles)
  have h2 : (m : Int) * t.step ≤ t.stop - t.start := by
    have := Int.tdiv_mul_le (t.stop - t.start) (b := t.step) (by omega)
    rw [Task.tiles] at hm
    rw [hm] at this
    rw [if_pos hpos] at this
    simpa using this
  have := forLoop_length_ge _ h _ (t.stop - t.start).toNat t.start (by omega) m h2
  rw [hm]
  unfold Task.iters
  exact_mod_cast this

theorem push_inv (hT : 0 < cfg.T) (hx : Exclusive cfg) (h : Inv cfg st) (c : Nat) (t : Task) :
    Inv cfg (push cfg st c t) := by
  unfold push
  by_cases hi : st.pc c = .idle ∧ 0 < t.step
  · rw [if_pos hi]
    by_cases h1 : t.tiles ≤ 1
    · rw [if_pos h1]; exact startSeq_inv h hi.1 hi.2
    · rw [if_neg h1]
      cases hs : cfg.slot c with
      | none => exact startSeq_inv h hi.1 hi.2
      | some s =>
        simp only
        by_cases ha : st.avail = 0
        · rw [if_pos ha]; exact startSeq_inv h hi.1 hi.2
        · rw [if_neg ha]
          by_cases hb : (t.iters.length : Int) > t.tiles
          · unfold startPar
            rw [if_pos hb]
            exact ⟨h.flags, h.works, h.par, h.main, h.seq, h.wait, h.set, h.done⟩
          · exact startPar_inv hT hx h hi.1 hi.2 hs (by omega) hb (tiles_le hi.2 (by omega))
  · rw [if_neg hi]; exact h

theorem upd_self {α : Type} (f : Nat → α) (c : Nat) : Function.update f c (f c) = f := by
  simp

theorem tickAt_inv (hx : Exclusive cfg) (h : Inv cfg st) (c s : Nat) (hs : cfg.slot c = some s) :
    Inv cfg (tickAt cfg st c s) := by
  unfold tickAt
  cases hp : st.pc c with
  | idle => exact h
  | seq rest => exact h
  | setting i =>
    obtain ⟨s', hs', hfn, hst, hk, hperm⟩ := h.par c (by rw [hp]; trivial)
    obtain rfl : s' = s := by rw [hs] at hs'; exact (Option.some.inj hs').symm
    have hi1 := h.set c i hp
    simp only
    by_cases hi : i < parts cfg.T (st.task c).iters
    · rw [if_pos hi]
      have hnf : st.flag s' i = false := by
        by_contra hc
        have := (h.owner hx (by simpa using hc) hs).1
        rw [hp] at this
        simp [FlagSet] at this
      have hnw : ∀ c' rest, st.w i ≠ .run s' c' rest := by
        intro c' rest hw
        have := (h.works _ _ _ _ hw).2
        simp [hnf] at this
      refine ⟨?_, ?_, ?_, ?_, ?_, ?_, ?_, h.done⟩
      · intro s2 i2 hf
        by_cases hh : s2 = s' ∧ i2 = i
        · obtain ⟨rfl, rfl⟩ := hh
          exact ⟨c, hs, by simp [FlagSet], hi1, hi⟩
        · have hf' : st.flag s2 i2 = true := by
            by_cases h2 : s2 = s'
            · subst h2
              have h3 : i2 ≠ i := fun e => hh ⟨rfl, e⟩
              simpa [Function.update_of_ne h3] using hf
            · simpa [Function.update_of_ne h2] using hf
          obtain ⟨c', h1, h2, h3⟩ := h.flags s2 i2 hf'
          refine ⟨c', h1, ?_, h3⟩
          by_cases hne : c' = c
          · subst hne
            rw [hp] at h2
            simp only [FlagSet, Function.update_self] at h2 ⊢
            omega
          · simpa [hne] using h2
      · intro i2 s2 c2 rest hw
        have h1 := h.works i2 s2 c2 rest hw
        refine ⟨h1.1, ?_⟩
        by_cases h2 : s2 = s'
        · subst h2
          by_cases h3 : i2 = i
          · subst h3; simp
          · simpa [Function.update_of_ne h3] using h1.2
        · simpa [Function.update_of_ne h2] using h1.2
      · intro c' hp'
        by_cases hne : c' = c
        · subst hne
          refine ⟨s', hs, hfn, hst, hk, ?_⟩
          have : remAll cfg { st with flag := Function.update st.flag s' (Function.update (st.flag s') i true)
                                      pc := Function.update st.pc c' (.setting (i + 1)) } c' s'
              = remAll cfg st c' s' := by
            unfold remAll
            refine List.flatMap_congr fun j hj => ?_
            simp only [Function.update_self, hp]
            by_cases h0 : j = 0
            · subst h0; simp [rem, rem0]
            · by_cases hji : j = i
              · subst hji
                unfold rem
                have e1 : pend (.setting (j + 1)) j = false := by simp [pend]
                have e2 : pend (.setting j) j = true := by simp [pend]
                rw [if_neg h0, if_neg h0, e1, e2, if_pos rfl, if_neg (by simp)]
                simp only [Function.update_self]
                cases hw : st.w j with
                | check => simp [remW]
                | scan _ => simp [remW]
                | run s2 c2 rest =>
                  have : s2 ≠ s' := by rintro rfl; exact hnw _ _ hw
                  simp [remW, this]
              · unfold rem
                have e1 : pend (.setting (i + 1)) j = pend (.setting i) j := by
                  unfold pend
                  rw [decide_eq_decide]; omega
                simp only [h0, if_false, e1, Function.update_of_ne hji]
          rw [this]
          exact hperm
        · refine par_other (st' := _) hp' h (by simp [hne]) rfl rfl fun s2 hs2 => ⟨rfl, fun j _ => ?_⟩
          have : s2 ≠ s' := by rintro rfl; exact hne (hx _ _ _ hs2 hs)
          simp [Function.update_of_ne this]
      · intro c' c2 rest hp'
        by_cases hne : c' = c
        · subst hne; simp at hp'
        · exact h.main c' c2 rest (by simpa [hne] using hp')
      · intro c' rest hp'
        by_cases hne : c' = c
        · subst hne; simp at hp'
        · exact h.seq c' rest (by simpa [hne] using hp')
      · intro c' j s2 hp' hs2
        by_cases hne : c' = c
        · subst hne; simp at hp'
        · have h1 := h.wait c' j s2 (by simpa [hne] using hp') hs2
          refine ⟨h1.1, fun i2 hi2 hj => ?_⟩
          have : s2 ≠ s' := by rintro rfl; exact hne (hx _ _ _ hs2 hs)
          simpa [Function.update_of_ne this] using h1.2 i2 hi2 hj
      · intro c' j hp'
        by_cases hne : c' = c
        · subst hne; simp at hp'; omega
        · exact h.set c' j (by simpa [hne] using hp')
    · rw [if_neg hi]
      have key := inv_caller (c := c) (p := .main (st.fn s').1 (share cfg.T (st.fn s').2 0)) (lg := st.log c)
        (d := st.done) h (fun _ _ _ => trivial) ?_ ?_ (by simp) (by simp) (by simp) h.done
      · simpa only [upd_self] using key
      · intro _
        refine ⟨s', hs, hfn, hst, hk, ?_⟩
        refine List.Perm.trans (List.Perm.of_eq ?_) hperm
        congr 1
        refine List.flatMap_congr fun j hj => ?_
        have hj' := List.mem_range.1 hj
        simp only [hp, hfn]
        by_cases h0 : j = 0
        · subst h0; simp [rem, rem0]
        · unfold rem
          have e1 : pend (.setting i) j = false := by simp [pend]; omega
          simp only [h0, if_false, e1]
          rfl
      · intro c' rest he
        simp only [CPc.main.injEq] at he
        rw [← he.1, hfn]
  | main c' rest =>
    obtain rfl : c' = c := h.main c c' rest hp
    obtain ⟨s', hs', hfn, hst, hk, hperm⟩ := h.par c' (by rw [hp]; trivial)
    obtain rfl : s' = s := by rw [hs] at hs'; exact (Option.some.inj hs').symm
    cases rest with
    | nil =>
      simp only
      have key := inv_caller (c := c') (p := .waiting 1) (lg := st.log c')
        (d := st.done) h (fun _ _ _ => trivial) ?_ (by simp) (by simp) ?_ (by simp) h.done
      · simpa only [upd_self] using key
      · intro _
        refine ⟨s', hs, hfn, hst, hk, ?_⟩
        refine List.Perm.trans (List.Perm.of_eq ?_) hperm
        congr 1
        refine List.flatMap_congr fun j hj => ?_
        simp only [hp]
        by_cases h0 : j = 0
        · subst h0; simp [rem, rem0]
        · simp [rem, h0, pend]
      · intro j s2 hj _
        cases hj
        exact ⟨le_refl _, fun i h1 h2 => by omega⟩
    | cons x rest =>
      simp only
      refine inv_caller (c := c') (p := .main c' rest) (lg := st.log c' ++ [x])
        (d := st.done) h (fun _ _ _ => trivial) ?_ (by simp) (by simp) (by simp) (by simp) h.done
      intro _
      refine ⟨s', hs, hfn, hst, hk, ?_⟩
      refine List.Perm.trans ?_ hperm
      rw [List.append_assoc]
      refine List.Perm.append_left _ ?_
      refine List.Perm.symm ?_
      refine flatMap_range_cons hk (by simp [rem, rem0, hp]) ?_
      intro j _ h0
      simp [rem, h0, pend, hp]
  | waiting i =>
    obtain ⟨s', hs', hfn, hst, hk, hperm⟩ := h.par c (by rw [hp]; trivial)
    obtain rfl : s' = s := by rw [hs] at hs'; exact (Option.some.inj hs').symm
    have hw := h.wait c i s' hp hs
    have hsame : ∀ k, (List.range (parts cfg.T (st.task c).iters)).flatMap (fun i =>
        rem (.waiting k) (st.w i) (st.flag s' i) s' i (share cfg.T (st.task c).iters i))
        = remAll cfg st c s' := by
      intro k
      refine List.flatMap_congr fun j hj => ?_
      simp only [hp]
      by_cases h0 : j = 0
      · subst h0; simp [rem, rem0]
      · simp [rem, h0, pend]
    simp only
    by_cases hi : i < parts cfg.T (st.task c).iters
    · rw [if_pos hi]
      by_cases hf : st.flag s' i
      · rw [if_pos hf]
        have key := inv_caller (c := c) (p := .waiting 1) (lg := st.log c)
          (d := st.done) h (fun _ _ _ => trivial) ?_ (by simp) (by simp) ?_ (by simp) h.done
        · simpa only [upd_self] using key
        · intro _
          exact ⟨s', hs, hfn, hst, hk, by rw [hsame]; exact hperm⟩
        · intro j s2 hj _
          cases hj
          exact ⟨le_refl _, fun i h1 h2 => by omega⟩
      · rw [if_neg hf]
        have key := inv_caller (c := c) (p := .waiting (i + 1)) (lg := st.log c)
          (d := st.done) h (fun _ _ _ => trivial) ?_ (by simp) (by simp) ?_ (by simp) h.done
        · simpa only [upd_self] using key
        · intro _
          exact ⟨s', hs, hfn, hst, hk, by rw [hsame]; exact hperm⟩
        · intro j s2 hj hs2
          cases hj
          obtain rfl : s2 = s' := by rw [hs] at hs2; exact (Option.some.inj hs2).symm
          refine ⟨by omega, fun i2 h1 h2 => ?_⟩
          by_cases he : i2 = i
          · subst he; simpa using hf
          · exact hw.2 i2 h1 (by omega)
    · rw [if_neg hi]
      have hz : remAll cfg st c s' = [] := by
        unfold remAll
        rw [List.flatMap_eq_nil_iff]
        intro j hj
        have hj' := List.mem_range.1 hj
        simp only [hp]
        by_cases h0 : j = 0
        · subst h0; simp [rem, rem0]
        · have hfj : st.flag s' j = false := hw.2 j (by omega) (by omega)
          have e1 : pend (.waiting i) j = false := rfl
          simp only [rem, h0, if_false, e1, hfj]
          cases hwj : st.w j with
          | check => rfl
          | scan _ => rfl
          | run s2 c2 rest =>
            have : s2 ≠ s' := by
              rintro rfl
              have := (h.works _ _ _ _ hwj).2
              simp [hfj] at this
            simp [remW, this]
      have key := inv_caller (c := c) (p := .idle) (lg := st.log c)
        (d := st.done ++ [(st.task c, st.log c)]) h ?_ (by simp [Par]) (by simp) (by simp) (by simp) (by simp) ?_
      · simpa only [upd_self] using key
      · rintro j _ ⟨s2, hs2, hf⟩
        obtain rfl : s2 = s' := by rw [hs] at hs2; exact (Option.some.inj hs2).symm
        have h3 := (h.owner hx hf hs).2
        have := hw.2 j h3.1 (by omega)
        simp [this] at hf
      · intro p hp'
        rcases List.mem_append.1 hp' with h1 | h1
        · exact h.done p h1
        · rw [List.mem_singleton.1 h1]
          rw [hz, List.append_nil] at hperm
          exact ⟨hst, hperm⟩

theorem tick_inv (hx : Exclusive cfg) (h : Inv cfg st) (c : Nat) : Inv cfg (tick cfg st c) := by
  have hAt : Inv cfg (match cfg.slot c with
    | some s => tickAt cfg st c s
    | none => st) := by
    cases hs : cfg.slot c with
    | none => exact h
    | some s => exact tickAt_inv hx h c s hs
  unfold tick
  cases hp : st.pc c with
  | idle => exact h
  | setting i => exact hAt
  | main c' rest => exact hAt
  | waiting i => exact hAt
  | seq rest =>
    have hq := h.seq c rest hp
    cases rest with
    | nil =>
      simp only
      have key := inv_caller (c := c) (p := .idle) (lg := st.log c)
        (d := st.done ++ [(st.task c, st.log c)]) h ?_ (by simp [Par]) (by simp) (by simp) (by simp) (by simp) ?_
      · simpa only [upd_self] using key
      · rintro j hj _
        rw [hp] at hj
        exact hj.elim
      · intro p hp'
        rcases List.mem_append.1 hp' with h1 | h1
        · exact h.done p h1
        · rw [List.mem_singleton.1 h1]
          exact ⟨hq.1, by simpa using List.Perm.of_eq hq.2⟩
    | cons x rest =>
      simp only
      refine inv_caller (c := c) (p := .seq rest) (lg := st.log c ++ [x])
        (d := st.done) h ?_ (by simp [Par]) (by simp) ?_ (by simp) (by simp) h.done
      · rintro j hj _
        rw [hp] at hj
        exact hj.elim
      · intro r hr
        cases hr
        exact ⟨hq.1, by simpa using hq.2⟩

theorem work_inv (hx : Exclusive cfg) (h : Inv cfg st) (i : Nat) (hi1 : 1 ≤ i) : Inv cfg (work cfg st i) := by
  have hi0 : i ≠ 0 := by omega
  unfold work
  cases hw : st.w i with
  | check =>
    simp only
    split_ifs
    · refine inv_worker h (by simp) ?_
      intro s c _ _ _
      simp [rem, hw, remW]
    · exact h
  | scan s =>
    simp only
    by_cases hs : s < cfg.S
    · rw [if_pos hs]
      by_cases hf : st.flag s i
      · rw [if_pos hf]
        obtain ⟨c, hc, hfs, _, hlt⟩ := h.flags s i hf
        have hpar : Par (st.pc c) := by
          cases hp : st.pc c <;> simp_all [FlagSet, Par]
        obtain ⟨s', hs', hfn, _, _, _⟩ := h.par c hpar
        obtain rfl : s' = s := by rw [hc] at hs'; exact (Option.some.inj hs').symm
        refine inv_worker h ?_ ?_
        · intro s2 c2 rest he
          simp only [WPc.run.injEq] at he
          obtain ⟨rfl, rfl, _⟩ := he
          rw [hfn]
          exact ⟨hc, hf⟩
        · intro s2 c2 hs2 _ _
          simp only [rem, hi0, if_false]
          by_cases hpd : pend (st.pc c2) i = true
          · simp [hpd]
          · rw [if_neg hpd, if_neg hpd]
            simp only [hw, remW]
            by_cases he : s' = s2
            · subst he
              obtain rfl := hx _ _ _ hc hs2
              rw [if_pos rfl, if_pos hf, hfn]
            · rw [if_neg he]
      · rw [if_neg hf]
        refine inv_worker h (by simp) ?_
        intro s2 c _ _ _
        simp [rem, hw, remW]
    · rw [if_neg hs]
      refine inv_worker h (by simp) ?_
      intro s2 c _ _ _
      simp [rem, hw, remW]
  | run s c rest =>
    obtain ⟨hc, hf⟩ := h.works i s c rest hw
    have ho := h.owner hx hf hc
    have hpar : Par (st.pc c) := by
      have := ho.1
      cases hp : st.pc c <;> simp_all [FlagSet, Par]
    have hnp : pend (st.pc c) i = false := by
      have := ho.1
      cases hp : st.pc c <;> simp_all [FlagSet, pend]
    obtain ⟨s', hs', hfn, hst, hk, hperm⟩ := h.par c hpar
    obtain rfl : s' = s := by rw [hc] at hs'; exact (Option.some.inj hs').symm
    cases rest with
    | nil =>
      simp only
      refine ⟨?_, ?_, ?_, h.main, h.seq, ?_, h.set, h.done⟩
      · intro s2 i2 hf2
        refine h.flags s2 i2 ?_
        by_cases h2 : s2 = s'
        · subst h2
          by_cases h3 : i2 = i
          · subst h3; simp at hf2
          · simpa [Function.update_of_ne h3] using hf2
        · simpa [Function.update_of_ne h2] using hf2
      · intro i2 s2 c2 rest hw2
        by_cases hne : i2 = i
        · subst hne; simp at hw2
        · have h1 := h.works i2 s2 c2 rest (by simpa [hne] using hw2)
          refine ⟨h1.1, ?_⟩
          by_cases h2 : s2 = s'
          · subst h2; simpa [Function.update_of_ne hne] using h1.2
          · simpa [Function.update_of_ne h2] using h1.2
      · intro c2 hp2
        refine par_other (st' := _) hp2 h rfl rfl rfl fun s2 hs2 => ⟨rfl, fun j hj => ?_⟩
        by_cases hji : j = i
        · subst hji
          by_cases he : s2 = s'
          · subst he
            obtain rfl := hx _ _ _ hs2 hc
            simp [rem, hi0, hnp, hw, remW]
          · simp only [Function.update_self, Function.update_of_ne he, hw, rem, remW, if_neg hi0]
            rw [if_neg (fun e : s' = s2 => he e.symm)]
        · by_cases he : s2 = s'
          · subst he
            simp [hji]
          · simp [hji, he]
      · intro c2 j s2 hp2 hs2
        have h1 := h.wait c2 j s2 hp2 hs2
        refine ⟨h1.1, fun i2 ha hb => ?_⟩
        by_cases h2 : s2 = s'
        · subst h2
          by_cases h3 : i2 = i
          · subst h3; simp
          · simpa [Function.update_of_ne h3] using h1.2 i2 ha hb
        · simpa [Function.update_of_ne h2] using h1.2 i2 ha hb
    | cons x rest =>
      simp only
      refine ⟨h.flags, ?_, ?_, h.main, ?_, h.wait, h.set, h.done⟩
      · intro i2 s2 c2 r2 hw2
        by_cases hne : i2 = i
        · subst hne
          simp only [Function.update_self, WPc.run.injEq] at hw2
          obtain ⟨rfl, rfl, _⟩ := hw2
          exact ⟨hc, hf⟩
        · exact h.works i2 s2 c2 r2 (by simpa [hne] using hw2)
      · intro c2 hp2
        by_cases hne : c2 = c
        · subst hne
          refine ⟨s', hc, hfn, hst, hk, ?_⟩
          refine List.Perm.trans ?_ hperm
          simp only [Function.update_self]
          rw [List.append_assoc]
          refine List.Perm.append_left _ ?_
          refine List.Perm.symm ?_
          refine flatMap_range_cons ho.2.2 ?_ ?_
          · simp [rem, hi0, hnp, hw, remW]
          · intro j _ hji
            simp [hji]
        · refine par_other (st' := _) hp2 h rfl rfl (by simp [hne]) fun s2 hs2 => ⟨rfl, fun j hj => ?_⟩
          by_cases hji : j = i
          · subst hji
            have : s' ≠ s2 := by rintro rfl; exact hne (hx _ _ _ hs2 hc)
            simp [rem, hw, remW, this]
          · simp [hji]
      · intro c2 r2 hp2
        have hne : c2 ≠ c := by
          rintro rfl
          rw [hp2] at hpar
          exact hpar
        simpa [hne] using h.seq c2 r2 hp2

theorem step_inv (hT : 0 < cfg.T) (hx : Exclusive cfg) (h : Inv cfg st) (l : Label) : Inv cfg (step cfg st l) := by
  unfold step
  by_cases hf : st.fault = true
  · rw [if_pos hf]; exact h
  · rw [if_neg hf]
    cases l with
    | push c t => exact push_inv hT hx h c t
    | tick c => exact tick_inv hx h c
    | work i =>
      simp only
      split_ifs with hi
      · exact work_inv hx h i hi.1
      · exact h
    | avail n => exact ⟨h.flags, h.works, h.par, h.main, h.seq, h.wait, h.set, h.done⟩

theorem run_inv (hT : 0 < cfg.T) (hx : Exclusive cfg) (ls : List Label) : ∀ {st}, Inv cfg st →
    Inv cfg (run cfg ls st) := by
  induction ls with
  | nil => intro st h; exact h
  | cons l ls ih => intro st h; exact ih (step_inv hT hx h l)

theorem Reachable.inv (hT : 0 < cfg.T) (hx : Exclusive cfg) (h : Reachable cfg st) : Inv cfg st := by
  obtain ⟨ls, rfl⟩ := h
  exact run_inv hT hx ls (Inv.init cfg)

end Verif.Pool
