import Verif.Shard.Model
import Mathlib.Data.Nat.ChineseRemainder
import Mathlib.Data.Nat.GCD.Basic
/-! Which group every rank ends up in. -/
namespace Verif.Shard

theorem mem_pyRange1 {a b r : Nat} : r ∈ pyRange a b 1 ↔ a ≤ r ∧ r < b := by
  unfold pyRange
  rw [List.mem_range']
  simp only [Nat.div_one, Nat.one_mul]
  constructor
  · rintro ⟨i, hi, rfl⟩; omega
  · rintro ⟨h1, h2⟩; exact ⟨r - a, by omega, by omega⟩

theorem pyRange1 (a n : Nat) : pyRange a (a + n) 1 = List.range' a n := by
  unfold pyRange
  simp

theorem mem_dpRanks {world num i r : Nat} (hn : 0 < num) (hi : i < num) :
    r ∈ dpRanks world num i ↔ r < world ∧ r % num = i := by
  unfold dpRanks pyRange
  rw [List.mem_range']
  constructor
  · rintro ⟨k, hk, rfl⟩
    have h1 := (Nat.lt_div_iff_mul_lt hn).1 hk
    refine ⟨?_, ?_⟩
    · have := Nat.mul_comm num k; omega
    · rw [Nat.add_mul_mod_self_left]; exact Nat.mod_eq_of_lt hi
  · rintro ⟨h1, h2⟩
    refine ⟨r / num, ?_, ?_⟩
    · rw [Nat.lt_div_iff_mul_lt hn]
      have := Nat.div_add_mod r num
      have := Nat.mul_comm num (r / num)
      omega
    · have := Nat.div_add_mod r num; omega

theorem findGroup_unique {num : Nat} {ranks : Nat → List Nat} {r i : Nat} (hi : i < num)
    (hm : ∀ j, j < num → (r ∈ ranks j ↔ j = i)) :
    findGroup num ranks r = some (ranks i) := by
  unfold findGroup
  have : (List.range num).find? (fun i => decide (r ∈ ranks i)) = some i := by
    rw [List.find?_range_eq_some]
    refine ⟨by simpa using (hm i hi).2 rfl, by simpa using hi, fun j hj => ?_⟩
    have := (hm j (by omega))
    simp only [Bool.not_eq_true', decide_eq_false_iff_not, this]
    omega
  rw [this]; rfl

theorem tp_group {tp world r : Nat} (h : 0 < tp) (hd : tp ∣ world) (hr : r < world) :
    findGroup (world / tp) (tpRanks tp) r = some (List.range' (r / tp * tp) tp) := by
  have hlt : r / tp < world / tp := by
    rw [Nat.div_lt_iff_lt_mul h, Nat.div_mul_cancel hd]; exact hr
  rw [findGroup_unique (i := r / tp) hlt]
  · unfold tpRanks; rw [Nat.add_mul, Nat.one_mul, pyRange1]
  · intro j _
    unfold tpRanks
    rw [mem_pyRange1]
    constructor
    · rintro ⟨h1, h2⟩
      exact (Nat.div_eq_of_lt_le h1 h2).symm
    · rintro rfl
      exact ⟨Nat.div_mul_le_self r tp, by
        have := Nat.lt_div_mul_add h (a := r)
        rw [Nat.add_mul]; omega⟩

theorem pp_group {pp world r : Nat} (h : 0 < pp) (hd : pp ∣ world) (hr : r < world) :
    findGroup (world / pp) (ppRanks pp) r = some (List.range' (r / pp * pp) pp) := by
  have := tp_group h hd hr
  have he : ppRanks pp = tpRanks pp := by
    funext i; unfold ppRanks tpRanks; rw [Nat.add_mul, Nat.one_mul]
  rw [he]; exact this

/-- The ranks of a data-parallel group: every `num`-th rank. -/
theorem dp_group {dp world num r : Nat} (h : 0 < dp) (hn : 0 < num) (hw : world = num * dp)
    (hr : r < world) :
    findGroup (world / dp) (dpRanks world (world / dp)) r = some (List.range' (r % num) dp num) := by
  have hq : world / dp = num := by rw [hw]; exact Nat.mul_div_cancel num h
  rw [hq, findGroup_unique (i := r % num) (Nat.mod_lt _ hn)]
  · unfold dpRanks pyRange
    have hlt := Nat.mod_lt r hn
    have : (world - r % num + num - 1) / num = dp := by
      obtain ⟨k, rfl⟩ : ∃ k, dp = k + 1 := ⟨dp - 1, by omega⟩
      rw [hw, Nat.mul_add, Nat.mul_one]
      apply Nat.div_eq_of_lt_le
      · rw [Nat.mul_comm (k+1), Nat.mul_add, Nat.mul_one]; omega
      · rw [Nat.mul_comm (k+1+1), Nat.mul_add, Nat.mul_add, Nat.mul_one]; omega
    rw [this]
  · intro j hj
    rw [mem_dpRanks hn hj]
    exact ⟨fun h => h.2.symm, fun h => ⟨hr, h.symm⟩⟩

theorem idxOf_range' (a n s k : Nat) (hs : 0 < s) (hk : k < n) :
    (List.range' a n s).idxOf (a + s * k) = k := by
  have hl : k < (List.range' a n s).length := by simpa using hk
  have hg : (List.range' a n s)[k] = a + s * k := by simp
  have hnd : (List.range' a n s).Nodup := List.nodup_range' _ (by omega)
  rw [← hg]
  exact hnd.idxOf_getElem k hl

/-- The globals of rank `r` after a fresh, successful `initialize_model_parallel`. -/
def afterInit (tp dp pp r : Nat) : PState :=
  { tpRank := r % tp
    tpSize := tp
    tpGroup := if 1 < tp then some (List.range' (r / tp * tp) tp) else none
    dpRank := r / (tp * pp)
    dpSize := dp
    dpGroup := if 1 < dp then some (List.range' (r % (tp * pp)) dp (tp * pp)) else none
    ppRank := r % pp
    ppSize := pp
    ppGroup := if 1 < pp then some (List.range' (r / pp * pp) pp) else none }

/-- The groups it creates on rank `r`. -/
def callsOf (tp dp pp r : Nat) : List (List Nat) :=
  (afterInit tp dp pp r).tpGroup.toList ++ (afterInit tp dp pp r).dpGroup.toList
    ++ (afterInit tp dp pp r).ppGroup.toList

theorem init_eq {tp dp pp world r : Nat} (hw : tp * dp * pp = world) (hr : r < world) :
    initPar (some (world, r)) tp dp pp {} = some (afterInit tp dp pp r, callsOf tp dp pp r) := by
  have hpos : 0 < tp * dp * pp := by omega
  have hpp : 0 < pp := Nat.pos_of_mul_pos_left hpos
  have htd : 0 < tp * dp := Nat.pos_of_mul_pos_right hpos
  have htp : 0 < tp := Nat.pos_of_mul_pos_right htd
  have hdp : 0 < dp := Nat.pos_of_mul_pos_left htd
  have hw' : world = tp * pp * dp := by rw [← hw]; ring
  have h1 := tp_group (r := r) htp ⟨dp * pp, by rw [← hw, Nat.mul_assoc]⟩ hr
  have h2 := dp_group (r := r) hdp (Nat.mul_pos htp hpp) hw' hr
  have h3 := pp_group (r := r) hpp ⟨tp * dp, by rw [← hw, Nat.mul_comm]⟩ hr
  have i1 : (List.range' (r / tp * tp) tp).idxOf r = r % tp := by
    have := idxOf_range' (r / tp * tp) tp 1 (r % tp) (by omega) (Nat.mod_lt _ htp)
    rwa [Nat.one_mul, Nat.div_add_mod'] at this
  have i3 : (List.range' (r / pp * pp) pp).idxOf r = r % pp := by
    have := idxOf_range' (r / pp * pp) pp 1 (r % pp) (by omega) (Nat.mod_lt _ hpp)
    rwa [Nat.one_mul, Nat.div_add_mod'] at this
  have i2 : (List.range' (r % (tp * pp)) dp (tp * pp)).idxOf r = r / (tp * pp) := by
    have := idxOf_range' (r % (tp * pp)) dp (tp * pp) (r / (tp * pp)) (Nat.mul_pos htp hpp)
      (by rw [Nat.div_lt_iff_lt_mul (Nat.mul_pos htp hpp), Nat.mul_comm dp, ← hw']; exact hr)
    rwa [Nat.mod_add_div] at this
  unfold initPar callsOf afterInit
  simp only [hw, ne_eq, not_true_eq_false, if_false, h1, h2, h3]
  have d1 : ¬ 1 < dp → r / (tp * pp) = 0 := by
    intro h
    have : dp = 1 := by omega
    rw [this, Nat.mul_one] at hw'
    exact Nat.div_eq_of_lt (by omega)
  have t1 : ¬ 1 < tp → r % tp = 0 := by
    intro h; have : tp = 1 := by omega
    rw [this]; exact Nat.mod_one r
  have p1 : ¬ 1 < pp → r % pp = 0 := by
    intro h; have : pp = 1 := by omega
    rw [this]; exact Nat.mod_one r
  generalize r / (tp * pp) = D at i2 d1 ⊢
  generalize r % tp = T at i1 t1 ⊢
  generalize r % pp = P at i3 p1 ⊢
  clear h1 h2 h3 hw hw' hr hpos hpp htd htp hdp
  by_cases a : 1 < tp <;> by_cases b : 1 < dp <;> by_cases c : 1 < pp <;>
    simp only [a, b, c, if_true, if_false, i1, i2, i3, Option.toList_some, Option.toList_none] <;>
    simp_all

end Verif.Shard
