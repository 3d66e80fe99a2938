import Verif.Shard.Layout
/-!
C136: the process groups of `initialize_model_parallel`.

A *boot* is a world of `world` processes that all call `initialize_model_parallel(tp, dp, pp)` once
with torch.distributed running.
-/
namespace Verif.Shard

/-- Every process of the world has initialised; `p r` are rank `r`'s globals and `calls r` the
`new_group` calls it made. -/
def Boot (world tp dp pp : Nat) (p : Nat → PState) (calls : Nat → List (List Nat)) : Prop :=
  ∀ r, r < world → initPar (some (world, r)) tp dp pp {} = some (p r, calls r)

/-- **C136** (groups).  In every booted world: the sizes multiply to the world size; every rank sits in
its tensor-parallel group, which is `tp` consecutive ranks, at the position its TP rank says; two ranks
are in the same TP group or in disjoint ones; and data-parallel peers hold the same TP and PP
coordinates, one per DP rank. -/
theorem C136_groups {world tp dp pp : Nat} {p : Nat → PState} {calls : Nat → List (List Nat)}
    (hb : Boot world tp dp pp p calls) (hw : 0 < world) :
    tp * dp * pp = world ∧
    (∀ r, r < world → (p r).tpSize = tp ∧ (p r).tpRank < tp ∧ (p r).dpRank < dp ∧ (p r).ppRank < pp) ∧
    (∀ r, r < world → 1 < tp → ∃ g, (p r).tpGroup = some g ∧ g.length = tp ∧
      g[(p r).tpRank]? = some r ∧ (∀ s ∈ g, s < world ∧ (p s).tpGroup = some g) ∧
      ∀ j s, g[j]? = some s → (p s).tpRank = j) ∧
    (∀ r, r < world → 1 < dp → ∃ g, (p r).dpGroup = some g ∧ g.length = dp ∧
      g[(p r).dpRank]? = some r ∧ ∀ s ∈ g, s < world ∧ (p s).dpGroup = some g ∧
        (p s).tpRank = (p r).tpRank ∧ (p s).ppRank = (p r).ppRank) := by
  have hprod : tp * dp * pp = world := by
    have := hb 0 hw
    unfold initPar at this
    by_contra hne
    simp [hne] at this
  have hst : ∀ r, r < world → p r = afterInit tp dp pp r := by
    intro r hr
    have := hb r hr
    rw [init_eq hprod hr] at this
    simp only [Option.some.injEq, Prod.mk.injEq] at this
    exact this.1.symm
  have hpos : 0 < tp * dp * pp := by omega
  have hpp : 0 < pp := Nat.pos_of_mul_pos_left hpos
  have htd : 0 < tp * dp := Nat.pos_of_mul_pos_right hpos
  have htp : 0 < tp := Nat.pos_of_mul_pos_right htd
  have hdp : 0 < dp := Nat.pos_of_mul_pos_left htd
  have hnum : 0 < tp * pp := Nat.mul_pos htp hpp
  have hw' : world = tp * pp * dp := by rw [← hprod]; ring
  refine ⟨hprod, ?_, ?_, ?_⟩
  · intro r hr
    rw [hst r hr]
    refine ⟨rfl, Nat.mod_lt _ htp, ?_, Nat.mod_lt _ hpp⟩
    show r / (tp * pp) < dp
    rw [Nat.div_lt_iff_lt_mul hnum, Nat.mul_comm dp, ← hw']; exact hr
  · intro r hr h1
    have hmem : ∀ s, s ∈ List.range' (r / tp * tp) tp → s < world ∧ s / tp = r / tp := by
      intro s hs
      rw [List.mem_range'_1] at hs
      have hq : s / tp = r / tp := Nat.div_eq_of_lt_le hs.1 (by rw [Nat.add_mul]; omega)
      refine ⟨?_, hq⟩
      have : s / tp < world / tp := by
        rw [hq, Nat.div_lt_iff_lt_mul htp, Nat.div_mul_cancel ⟨dp * pp, by rw [← hprod, Nat.mul_assoc]⟩]
        exact hr
      rw [Nat.div_lt_iff_lt_mul htp, Nat.div_mul_cancel ⟨dp * pp, by rw [← hprod, Nat.mul_assoc]⟩] at this
      exact this
    refine ⟨List.range' (r / tp * tp) tp, ?_, by simp, ?_, ?_, ?_⟩
    · rw [hst r hr]; simp [afterInit, h1]
    · rw [hst r hr]
      show (List.range' (r / tp * tp) tp)[r % tp]? = some r
      rw [List.getElem?_range' (Nat.mod_lt _ htp)]
      simp [Nat.div_add_mod']
    · intro s hs
      obtain ⟨h2, h3⟩ := hmem s hs
      refine ⟨h2, ?_⟩
      rw [hst s h2]; simp [afterInit, h1, h3]
    · intro j s hj
      have hs : s ∈ List.range' (r / tp * tp) tp := List.mem_of_getElem? hj
      obtain ⟨h2, h3⟩ := hmem s hs
      have hjl : j < tp := by
        have := (List.getElem?_eq_some_iff.1 hj).1
        simpa using this
      rw [List.getElem?_range' hjl] at hj
      simp only [Nat.one_mul, Option.some.injEq] at hj
      rw [hst s h2]
      show s % tp = j
      rw [← hj, Nat.mul_comm, Nat.mul_add_mod]
      exact Nat.mod_eq_of_lt hjl
  · intro r hr h1
    refine ⟨List.range' (r % (tp * pp)) dp (tp * pp), ?_, by simp, ?_, ?_⟩
    · rw [hst r hr]; simp [afterInit, h1]
    · rw [hst r hr]
      show (List.range' (r % (tp * pp)) dp (tp * pp))[r / (tp * pp)]? = some r
      rw [List.getElem?_range' (by
        rw [Nat.div_lt_iff_lt_mul hnum, Nat.mul_comm dp, ← hw']; exact hr)]
      rw [Nat.mod_add_div]
    · intro s hs
      rw [List.mem_range'] at hs
      obtain ⟨k, hk, rfl⟩ := hs
      have hlt : r % (tp * pp) + tp * pp * k < world := by
        rw [hw']
        obtain ⟨m, rfl⟩ : ∃ m, dp = m + 1 := ⟨dp - 1, by omega⟩
        have h2 := Nat.mod_lt r hnum
        have h3 : tp * pp * k ≤ tp * pp * m := Nat.mul_le_mul_left _ (by omega)
        rw [Nat.mul_add, Nat.mul_one]; omega
      have hmod : (r % (tp * pp) + tp * pp * k) % (tp * pp) = r % (tp * pp) := by
        rw [Nat.add_mul_mod_self_left, Nat.mod_mod]
      refine ⟨hlt, ?_, ?_, ?_⟩
      · rw [hst _ hlt]; simp [afterInit, h1]
      · rw [hst _ hlt, hst r hr]
        show _ % tp = r % tp
        rw [← Nat.mod_mod_of_dvd (_ + _) (Dvd.intro pp rfl : tp ∣ tp * pp), hmod,
          Nat.mod_mod_of_dvd _ (Dvd.intro pp rfl)]
      · rw [hst _ hlt, hst r hr]
        show _ % pp = r % pp
        rw [← Nat.mod_mod_of_dvd (_ + _) (Dvd.intro_left tp rfl : pp ∣ tp * pp), hmod,
          Nat.mod_mod_of_dvd _ (Dvd.intro_left tp rfl)]

/-- Every combination of sizes boots. -/
theorem boot_exists (tp dp pp : Nat) :
    Boot (tp * dp * pp) tp dp pp (afterInit tp dp pp) (callsOf tp dp pp) :=
  fun _ hr => init_eq rfl hr

example : Boot 12 2 3 2 (afterInit 2 3 2) (callsOf 2 3 2) := boot_exists 2 3 2
/-- Rank 5 of a `tp = 2, dp = 3` world: TP group {4,5}, DP group {1,3,5}. -/
example : (initPar (some (6, 5)) 2 3 1 {}).map (fun s => (s.1.tpRank, s.1.tpGroup, s.1.dpRank, s.1.dpGroup))
    = some (1, some [4, 5], 2, some [1, 3, 5]) := by decide +kernel

theorem boot_state {world tp dp pp : Nat} {p : Nat → PState} {calls : Nat → List (List Nat)}
    (hb : Boot world tp dp pp p calls) {r : Nat} (hr : r < world) :
    tp * dp * pp = world ∧ p r = afterInit tp dp pp r ∧ calls r = callsOf tp dp pp r := by
  have hprod : tp * dp * pp = world := by
    have := hb r hr
    unfold initPar at this
    by_contra hne
    simp [hne] at this
  have := hb r hr
  rw [init_eq hprod hr] at this
  simp only [Option.some.injEq, Prod.mk.injEq] at this
  exact ⟨hprod, this.1.symm, this.2.symm⟩

/-- **C136** (coordinates, partial: `tp` and `pp` coprime, e.g. one of them 1).  Every combination of a
TP, a DP and a PP rank belongs to exactly one process. -/
theorem C136_coordinates_partial {world tp dp pp : Nat} {p : Nat → PState}
    {calls : Nat → List (List Nat)} (hb : Boot world tp dp pp p calls)
    (hco : Nat.Coprime tp pp) (hw : 0 < world) {a b c : Nat} (ha : a < tp) (hbd : b < dp) (hc : c < pp) :
    ∃! r, r < world ∧ (p r).tpRank = a ∧ (p r).dpRank = b ∧ (p r).ppRank = c := by
  have hprod := (boot_state hb hw).1
  have hnum : 0 < tp * pp := Nat.mul_pos (by omega) (by omega)
  have hw' : world = tp * pp * dp := by rw [← hprod]; ring
  obtain ⟨k, hk1, hk2⟩ := Nat.chineseRemainder hco a c
  have hk1' : k % tp = a := by rw [hk1, Nat.mod_eq_of_lt ha]
  have hk2' : k % pp = c := by rw [hk2, Nat.mod_eq_of_lt hc]
  have hlt : b * (tp * pp) + k % (tp * pp) < world := by
    rw [hw']
    obtain ⟨m, rfl⟩ : ∃ m, dp = m + 1 := ⟨dp - 1, by omega⟩
    have h2 := Nat.mod_lt k hnum
    have h3 : b * (tp * pp) ≤ m * (tp * pp) := Nat.mul_le_mul_right _ (by omega)
    rw [Nat.mul_add, Nat.mul_one, Nat.mul_comm (tp * pp) m]; omega
  refine ⟨b * (tp * pp) + k % (tp * pp), ⟨hlt, ?_, ?_, ?_⟩, ?_⟩
  · rw [(boot_state hb hlt).2.1]
    show _ % tp = a
    rw [show b * (tp * pp) = tp * (b * pp) by ring, Nat.mul_add_mod,
      Nat.mod_mod_of_dvd _ (Dvd.intro pp rfl), hk1']
  · rw [(boot_state hb hlt).2.1]
    show _ / (tp * pp) = b
    rw [Nat.mul_comm b, Nat.mul_add_div hnum, Nat.div_eq_of_lt (Nat.mod_lt _ hnum), Nat.add_zero]
  · rw [(boot_state hb hlt).2.1]
    show _ % pp = c
    rw [show b * (tp * pp) = pp * (b * tp) by ring, Nat.mul_add_mod,
      Nat.mod_mod_of_dvd _ (Dvd.intro_left tp rfl), hk2']
  · rintro s ⟨hs, h1, h2, h3⟩
    rw [(boot_state hb hs).2.1] at h1 h2 h3
    change s % tp = a at h1
    change s / (tp * pp) = b at h2
    change s % pp = c at h3
    have hm : s % (tp * pp) = k % (tp * pp) :=
      (Nat.modEq_and_modEq_iff_modEq_mul hco).1
        ⟨show s % tp = k % tp by rw [h1, hk1'], show s % pp = k % pp by rw [h3, hk2']⟩
    rw [← Nat.div_add_mod s (tp * pp), h2, hm, Nat.mul_comm]

example : ∃! r, r < 12 ∧ (afterInit 2 2 3 r).tpRank = 1 ∧ (afterInit 2 2 3 r).dpRank = 1 ∧
    (afterInit 2 2 3 r).ppRank = 2 :=
  C136_coordinates_partial (boot_exists 2 2 3) (by decide) (by decide) (by decide) (by decide) (by decide)

/-- **C136, violated**: tensor and pipeline groups are both runs of consecutive ranks, so whenever
`tp` and `pp` share a factor two processes get the same coordinates — they hold the same shard of the
same stage, and some shard of some stage is held by nobody. -/
theorem C136_coordinates_violated {world tp dp pp : Nat} {p : Nat → PState}
    {calls : Nat → List (List Nat)} (hb : Boot world tp dp pp p calls) (hw : 0 < world)
    (hco : ¬ Nat.Coprime tp pp) :
    (∃ r s, r < world ∧ s < world ∧ r ≠ s ∧ (p r).tpRank = (p s).tpRank ∧
      (p r).dpRank = (p s).dpRank ∧ (p r).ppRank = (p s).ppRank) ∧
    ∃ a b c, a < tp ∧ b < dp ∧ c < pp ∧
      ¬ ∃ r, r < world ∧ (p r).tpRank = a ∧ (p r).dpRank = b ∧ (p r).ppRank = c := by
  have hprod := (boot_state hb hw).1
  have hpos : 0 < tp * dp * pp := by omega
  have hpp : 0 < pp := Nat.pos_of_mul_pos_left hpos
  have htd : 0 < tp * dp := Nat.pos_of_mul_pos_right hpos
  have htp : 0 < tp := Nat.pos_of_mul_pos_right htd
  have hdp : 0 < dp := Nat.pos_of_mul_pos_left htd
  have hnum : 0 < tp * pp := Nat.mul_pos htp hpp
  have hw' : world = tp * pp * dp := by rw [← hprod]; ring
  have hg : 1 < Nat.gcd tp pp := by
    have : Nat.gcd tp pp ≠ 1 := hco
    have := Nat.gcd_pos_of_pos_left pp htp
    omega
  have hlcm : Nat.lcm tp pp < tp * pp := by
    have h1 := Nat.gcd_mul_lcm tp pp
    have h2 : 0 < Nat.lcm tp pp := Nat.lcm_pos htp hpp
    nlinarith
  have hle : tp * pp ≤ world := by rw [hw']; exact Nat.le_mul_of_pos_right _ hdp
  constructor
  · refine ⟨0, Nat.lcm tp pp, hw, by omega, by have := Nat.lcm_pos htp hpp; omega, ?_, ?_, ?_⟩
    · rw [(boot_state hb hw).2.1, (boot_state hb (show Nat.lcm tp pp < world by omega)).2.1]
      show 0 % tp = Nat.lcm tp pp % tp
      rw [Nat.zero_mod, Nat.mod_eq_zero_of_dvd (Nat.dvd_lcm_left _ _)]
    · rw [(boot_state hb hw).2.1, (boot_state hb (show Nat.lcm tp pp < world by omega)).2.1]
      show 0 / (tp * pp) = Nat.lcm tp pp / (tp * pp)
      rw [Nat.zero_div, Nat.div_eq_of_lt hlcm]
    · rw [(boot_state hb hw).2.1, (boot_state hb (show Nat.lcm tp pp < world by omega)).2.1]
      show 0 % pp = Nat.lcm tp pp % pp
      rw [Nat.zero_mod, Nat.mod_eq_zero_of_dvd (Nat.dvd_lcm_right _ _)]
  · have hg1 : Nat.gcd tp pp ≤ pp := Nat.gcd_le_right _ hpp
    refine ⟨0, 0, 1, htp, hdp, by omega, ?_⟩
    rintro ⟨r, hr, h1, _, h3⟩
    rw [(boot_state hb hr).2.1] at h1 h3
    change r % tp = 0 at h1
    change r % pp = 1 at h3
    have d1 : Nat.gcd tp pp ∣ r := (Nat.gcd_dvd_left _ _).trans (Nat.dvd_of_mod_eq_zero h1)
    have d2 : Nat.gcd tp pp ∣ r - r % pp :=
      (Nat.gcd_dvd_right _ _).trans (Nat.dvd_sub_mod r)
    rw [h3] at d2
    have hr1 : 1 ≤ r := by
      rcases Nat.eq_zero_or_pos r with h0 | h0
      · rw [h0, Nat.zero_mod] at h3; omega
      · exact h0
    have d3 : Nat.gcd tp pp ∣ 1 := by
      have := (Nat.dvd_sub d1 d2)
      rwa [Nat.sub_sub_self hr1] at this
    have := Nat.le_of_dvd (by omega) d3
    omega

/-- Four processes, `tp = pp = 2`: ranks 0 and 2 are both (TP 0, PP 0). -/
example : (initPar (some (4, 0)) 2 1 2 {}).map (fun s => (s.1.tpRank, s.1.ppRank)) = some (0, 0) ∧
    (initPar (some (4, 2)) 2 1 2 {}).map (fun s => (s.1.tpRank, s.1.ppRank)) = some (0, 0) := by
  decide +kernel

/-- **C136, violated** (group creation).  torch.distributed requires every process of the world to make
the same sequence of `new_group` calls; here a process only creates its own groups, so as soon as
there are two tensor-parallel groups the processes make different calls. -/
theorem C136_same_calls_violated {world tp dp pp : Nat} {p : Nat → PState}
    {calls : Nat → List (List Nat)} (hb : Boot world tp dp pp p calls) (h1 : 1 < tp) (h2 : tp < world) :
    calls 0 ≠ calls tp := by
  rw [(boot_state hb (show 0 < world by omega)).2.2, (boot_state hb h2).2.2]
  intro h
  have := congrArg (fun l => l.head?) h
  obtain ⟨m, rfl⟩ : ∃ m, tp = m + 1 := ⟨tp - 1, by omega⟩
  simp [callsOf, afterInit, h1, List.range'_succ] at this

/-- The calls agree everywhere when each kind of parallelism spans the whole world or is off. -/
theorem C136_same_calls_partial {world tp dp pp : Nat} {p : Nat → PState}
    {calls : Nat → List (List Nat)} (hb : Boot world tp dp pp p calls)
    (h1 : tp = 1 ∨ tp = world) (h2 : dp = 1 ∨ dp = world) (h3 : pp = 1 ∨ pp = world)
    {r s : Nat} (hr : r < world) (hs : s < world) : calls r = calls s := by
  rw [(boot_state hb hr).2.2, (boot_state hb hs).2.2]
  have hprod := (boot_state hb hr).1
  unfold callsOf afterInit
  simp only
  have e1 : (if 1 < tp then some (List.range' (r / tp * tp) tp) else none)
      = (if 1 < tp then some (List.range' (s / tp * tp) tp) else none) := by
    rcases h1 with h | h
    · simp [h]
    · rw [h, Nat.div_eq_of_lt hr, Nat.div_eq_of_lt hs]
  have e3 : (if 1 < pp then some (List.range' (r / pp * pp) pp) else none)
      = (if 1 < pp then some (List.range' (s / pp * pp) pp) else none) := by
    rcases h3 with h | h
    · simp [h]
    · rw [h, Nat.div_eq_of_lt hr, Nat.div_eq_of_lt hs]
  have e2 : (if 1 < dp then some (List.range' (r % (tp * pp)) dp (tp * pp)) else none)
      = (if 1 < dp then some (List.range' (s % (tp * pp)) dp (tp * pp)) else none) := by
    rcases h2 with h | h
    · simp [h]
    · have hw : tp * pp * world = world := by
        rw [← h]; conv_rhs => rw [h, ← hprod]
        ring
      have : tp * pp = 1 := by
        have hwp : 0 < world := by omega
        exact Nat.eq_of_mul_eq_mul_right hwp (by rw [hw, Nat.one_mul])
      rw [this, Nat.mod_one, Nat.mod_one]
  rw [e1, e2, e3]

example : callsOf 4 1 1 3 = callsOf 4 1 1 0 :=
  C136_same_calls_partial (boot_exists 4 1 1) (by decide) (by decide) (by decide) (by decide) (by decide)
example : callsOf 2 2 1 0 ≠ callsOf 2 2 1 2 :=
  C136_same_calls_violated (boot_exists 2 2 1) (by decide) (by decide)

/-- **C136, violated** (no process group).  If torch.distributed is not running, asking for `tp > 1`
is accepted: the reported world size is `tp`, but every process is rank 0 of no group. -/
theorem C136_no_dist_violated (tp dp pp : Nat) :
    initPar none tp dp pp {} = some ({ tpSize := tp, dpSize := dp, ppSize := pp }, []) := rfl

/-- **C136, violated** (second initialisation).  Going from `tp = 2` to `dp = 2` leaves process 1 with
TP rank 1 in a TP world of size 1, and still in its old TP group. -/
theorem C136_reinit_violated :
    ∃ s c s' c', initPar (some (2, 1)) 2 1 1 {} = some (s, c) ∧
      initPar (some (2, 1)) 1 2 1 s = some (s', c') ∧
      s'.tpSize = 1 ∧ s'.tpRank = 1 ∧ s'.tpGroup = some [0, 1] :=
  ⟨_, _, _, _, rfl, rfl, rfl, by decide +kernel, by decide +kernel⟩

end Verif.Shard
