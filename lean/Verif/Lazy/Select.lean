import Verif.Lazy.Model
import Mathlib.Data.List.GetD

/-!
# The selection of visual tokens
-/

namespace Verif.Lazy

/-- A position of the image. -/
def Vis (c : Cfg) (p : Nat) : Prop := c.first ≤ p ∧ p < c.last

instance (c : Cfg) (p : Nat) : Decidable (Vis c p) := by unfold Vis; infer_instance

theorem sorted_lt {l : List Nat} (h : l.Pairwise (· < ·)) {i j : Nat} (hi : i < l.length) (hj : j < l.length) : l[i] < l[j] ↔ i < j := by
  rw [List.pairwise_iff_getElem] at h
  constructor
  · intro hlt
    by_contra hn
    rcases Nat.lt_or_eq_of_le (Nat.le_of_not_lt hn) with h1 | h1
    · have := h j i hj hi h1
      omega
    · subst h1
      omega
  · exact h i j hi hj

theorem sort_strict {l : List Nat} (h : l.Nodup) : (l.mergeSort (fun a b => decide (a ≤ b))).Pairwise (· < ·) := by
  have hs : (l.mergeSort (fun a b => decide (a ≤ b))).Pairwise (fun a b => decide (a ≤ b) = true) :=
    List.pairwise_mergeSort (fun a b c => by simp only [decide_eq_true_eq]; omega) (fun a b => by simp only [Bool.or_eq_true, decide_eq_true_eq]; omega) l
  have hn : (l.mergeSort (fun a b => decide (a ≤ b))).Nodup := (List.mergeSort_perm l _).nodup_iff.mpr h
  have := hs.and (List.Pairwise.imp (fun h => h) hn)
  exact this.imp fun ⟨h1, h2⟩ => by
    simp only [decide_eq_true_eq] at h1
    omega

theorem sort_id {l : List Nat} (h : l.Pairwise (· < ·)) : l.mergeSort (fun a b => decide (a ≤ b)) = l := by
  apply List.mergeSort_of_pairwise
  exact h.imp fun h => by simp only [decide_eq_true_eq]; omega

/-- What the selection returns. -/
structure Selected (c : Cfg) (cur next : List Nat) (rate : ℚ) : Prop where
  sorted : next.Pairwise (· < ·)
  sub : ∀ p ∈ next, p ∈ cur
  text : ∀ p ∈ cur, ¬ Vis c p → p ∈ next
  count : (next.filter fun p => decide (Vis c p)).length = keepCount (cur.filter fun p => decide (Vis c p)).length rate

theorem select_spec {c : Cfg} {cur next : List Nat} {rate : ℚ} {pick : List Nat} (hs : cur.Pairwise (· < ·)) (hf : 1 ≤ c.first) (hfl : c.first ≤ c.last)
    (h : select c cur rate pick = some next) : Selected c cur next rate := by
  unfold select at h
  cases hvs : cur.findIdx? (fun p : Nat => decide ((p : Int) = (c.first : Int) - 1)) with
  | none => rw [hvs] at h; cases h
  | some vs =>
  cases hve : cur.findIdx? (fun p => decide (p = c.last)) with
  | none => rw [hvs, hve] at h; cases h
  | some ve =>
  rw [hvs, hve] at h
  simp only [Option.bind_eq_bind, Option.bind_some] at h
  split_ifs at h with hp
  obtain ⟨p1, p2, p3⟩ := hp
  obtain ⟨a1, a2, _⟩ := List.findIdx?_eq_some_iff_getElem.mp hvs
  obtain ⟨b1, b2, _⟩ := List.findIdx?_eq_some_iff_getElem.mp hve
  simp only [decide_eq_true_eq] at a2 b2
  have hnd : cur.Nodup := hs.imp fun h => by omega
  have hlt : vs < ve := by
    rw [← sorted_lt hs a1 b1]
    omega
  have hvis : ∀ i (hi : i < cur.length), Vis c cur[i] ↔ vs < i ∧ i < ve := by
    intro i hi
    rw [← sorted_lt hs a1 hi, ← sorted_lt hs hi b1]
    unfold Vis
    omega
  have hsplit : cur = cur.take (vs + 1) ++ (cur.drop (vs + 1)).take (ve - vs - 1) ++ cur.drop ve := by
    conv_lhs => rw [← List.take_append_drop (vs + 1) cur, ← List.take_append_drop (ve - vs - 1) (cur.drop (vs + 1))]
    rw [List.drop_drop, show vs + 1 + (ve - vs - 1) = ve by omega, List.append_assoc]
  have hmidv : ∀ p ∈ (cur.drop (vs + 1)).take (ve - vs - 1), Vis c p := by
    intro p hp
    obtain ⟨i, hi, rfl⟩ := List.mem_iff_getElem.mp hp
    rw [List.length_take, List.length_drop] at hi
    rw [List.getElem_take, List.getElem_drop]
    exact (hvis _ (by omega)).mpr ⟨by omega, by omega⟩
  have htake : ∀ p ∈ cur.take (vs + 1), ¬ Vis c p := by
    intro p hp
    obtain ⟨i, hi, rfl⟩ := List.mem_iff_getElem.mp hp
    rw [List.length_take] at hi
    rw [List.getElem_take, hvis]
    omega
  have hdrop : ∀ p ∈ cur.drop ve, ¬ Vis c p := by
    intro p hp
    obtain ⟨i, hi, rfl⟩ := List.mem_iff_getElem.mp hp
    rw [List.length_drop] at hi
    rw [List.getElem_drop, hvis]
    omega
  have ft : ((cur.take (vs + 1)).filter fun p => decide (Vis c p)) = [] := List.filter_eq_nil_iff.mpr (fun p hp => by simpa using htake p hp)
  have fd : ((cur.drop ve).filter fun p => decide (Vis c p)) = [] := List.filter_eq_nil_iff.mpr (fun p hp => by simpa using hdrop p hp)
  have hget : ∀ i, i < ve - vs - 1 → ∃ h : vs + 1 + i < cur.length, cur.getD (vs + 1 + i) 0 = cur[vs + 1 + i] := by
    intro i hi
    exact ⟨by omega, List.getD_eq_getElem cur 0 (by omega)⟩
  have hmid : ∀ p ∈ pick.map (fun i => cur.getD (vs + 1 + i) 0), Vis c p ∧ p ∈ cur := by
    intro p hp
    obtain ⟨i, hi, rfl⟩ := List.mem_map.mp hp
    obtain ⟨h1, h2⟩ := hget i (p2 i hi)
    rw [h2]
    have := p2 i hi
    exact ⟨(hvis _ h1).mpr ⟨by omega, by omega⟩, List.getElem_mem _⟩
  have hmn : (pick.map (fun i => cur.getD (vs + 1 + i) 0)).Nodup := by
    apply List.Nodup.map_on _ p1
    intro x hx y hy hxy
    obtain ⟨h1, h2⟩ := hget x (p2 x hx)
    obtain ⟨h3, h4⟩ := hget y (p2 y hy)
    rw [h2, h4] at hxy
    have := (hnd.getElem_inj_iff).mp hxy
    omega
  have hdis : ∀ p ∈ cur.take (vs + 1), p ∉ cur.drop ve := by
    intro p hp hq
    obtain ⟨i, hi, rfl⟩ := List.mem_iff_getElem.mp hp
    obtain ⟨j, hj, hj2⟩ := List.mem_iff_getElem.mp hq
    rw [List.length_take] at hi
    rw [List.length_drop] at hj
    rw [List.getElem_take, List.getElem_drop] at hj2
    have := (hnd.getElem_inj_iff).mp hj2
    omega
  obtain ⟨l, hl⟩ : ∃ l, l = cur.take (vs + 1) ++ pick.map (fun i => cur.getD (vs + 1 + i) 0) ++ cur.drop ve := ⟨_, rfl⟩
  rw [← hl] at h
  have hn : l.Nodup := by
    rw [hl, List.nodup_append, List.nodup_append]
    refine ⟨⟨hnd.sublist (List.take_sublist _ _), hmn, ?_⟩, hnd.sublist (List.drop_sublist _ _), ?_⟩
    · rintro a ha b hb rfl
      exact htake a ha (hmid a hb).1
    · rintro a ha b hb rfl
      rcases List.mem_append.mp ha with ha | ha
      · exact hdis a ha hb
      · exact hdrop a hb (hmid a ha).1
  have hperm : next.Perm l := by
    rw [← Option.some.inj h]
    exact List.mergeSort_perm _ _
  refine ⟨by rw [← Option.some.inj h]; exact sort_strict hn, ?_, ?_, ?_⟩
  · intro p hp
    rw [hperm.mem_iff, hl, List.mem_append, List.mem_append] at hp
    rcases hp with (hp | hp) | hp
    · exact List.mem_of_mem_take hp
    · exact (hmid p hp).2
    · exact List.mem_of_mem_drop hp
  · intro p hp hv
    rw [hperm.mem_iff, hl, List.mem_append, List.mem_append]
    rw [hsplit, List.mem_append, List.mem_append] at hp
    rcases hp with (hp | hp) | hp
    · exact Or.inl (Or.inl hp)
    · exact absurd (hmidv p hp) hv
    · exact Or.inr hp
  · have e1 : (l.filter fun p => decide (Vis c p)) = pick.map (fun i => cur.getD (vs + 1 + i) 0) := by
      have f1 : ((pick.map (fun i => cur.getD (vs + 1 + i) 0)).filter fun p => decide (Vis c p)) = pick.map (fun i => cur.getD (vs + 1 + i) 0) :=
        List.filter_eq_self.mpr (fun p hp => by simpa using (hmid p hp).1)
      rw [hl, List.filter_append, List.filter_append, ft, f1, fd, List.nil_append, List.append_nil]
    have e2 : (cur.filter fun p => decide (Vis c p)).length = ve - vs - 1 := by
      have f1 : (((cur.drop (vs + 1)).take (ve - vs - 1)).filter fun p => decide (Vis c p)) = (cur.drop (vs + 1)).take (ve - vs - 1) :=
        List.filter_eq_self.mpr (fun p hp => by simpa using hmidv p hp)
      rw [hsplit, List.filter_append, List.filter_append, ft, f1, fd, List.nil_append, List.append_nil, List.length_take, List.length_drop]
      omega
    rw [(hperm.filter _).length_eq, e1, List.length_map, p3, e2]

/-- A selection succeeds whenever the surrounding text tokens are present and top-k returns what it must. -/
theorem select_ok {c : Cfg} {cur : List Nat} {rate : ℚ} {pick : List Nat} (hs : cur.Pairwise (· < ·)) (hf : 1 ≤ c.first) (hfl : c.first ≤ c.last)
    (h1 : c.first - 1 ∈ cur) (h2 : c.last ∈ cur) (hn : pick.Nodup) (hb : ∀ i ∈ pick, i < (cur.filter fun p => decide (Vis c p)).length)
    (hl : pick.length = keepCount (cur.filter fun p => decide (Vis c p)).length rate) : ∃ next, select c cur rate pick = some next := by
  obtain ⟨vs, a1, a2⟩ := List.mem_iff_getElem.mp h1
  obtain ⟨ve, b1, b2⟩ := List.mem_iff_getElem.mp h2
  have hnd : cur.Nodup := hs.imp fun h => by omega
  have hvs : cur.findIdx? (fun p : Nat => decide ((p : Int) = (c.first : Int) - 1)) = some vs := by
    rw [List.findIdx?_eq_some_iff_getElem]
    refine ⟨a1, by simp only [decide_eq_true_eq]; omega, fun j hj => ?_⟩
    have := (sorted_lt hs (by omega : j < cur.length) a1).mpr hj
    simp only [decide_eq_true_eq]
    omega
  have hve : cur.findIdx? (fun p => decide (p = c.last)) = some ve := by
    rw [List.findIdx?_eq_some_iff_getElem]
    refine ⟨b1, by simp only [decide_eq_true_eq]; omega, fun j hj => ?_⟩
    have := (sorted_lt hs (by omega : j < cur.length) b1).mpr hj
    simp only [decide_eq_true_eq]
    omega
  have hlt : vs < ve := by
    rw [← sorted_lt hs a1 b1]
    omega
  have hvis : ∀ i (hi : i < cur.length), Vis c cur[i] ↔ vs < i ∧ i < ve := by
    intro i hi
    rw [← sorted_lt hs a1 hi, ← sorted_lt hs hi b1]
    unfold Vis
    omega
  have e2 : (cur.filter fun p => decide (Vis c p)).length = ve - vs - 1 := by
    have hsplit : cur = cur.take (vs + 1) ++ (cur.drop (vs + 1)).take (ve - vs - 1) ++ cur.drop ve := by
      conv_lhs => rw [← List.take_append_drop (vs + 1) cur, ← List.take_append_drop (ve - vs - 1) (cur.drop (vs + 1))]
      rw [List.drop_drop, show vs + 1 + (ve - vs - 1) = ve by omega, List.append_assoc]
    have x1 : ∀ p ∈ cur.take (vs + 1), ¬ Vis c p := by
      intro p hp
      obtain ⟨i, hi, rfl⟩ := List.mem_iff_getElem.mp hp
      rw [List.length_take] at hi
      rw [List.getElem_take, hvis]
      omega
    have x2 : ∀ p ∈ (cur.drop (vs + 1)).take (ve - vs - 1), Vis c p := by
      intro p hp
      obtain ⟨i, hi, rfl⟩ := List.mem_iff_getElem.mp hp
      rw [List.length_take, List.length_drop] at hi
      rw [List.getElem_take, List.getElem_drop]
      exact (hvis _ (by omega)).mpr ⟨by omega, by omega⟩
    have x3 : ∀ p ∈ cur.drop ve, ¬ Vis c p := by
      intro p hp
      obtain ⟨i, hi, rfl⟩ := List.mem_iff_getElem.mp hp
      rw [List.length_drop] at hi
      rw [List.getElem_drop, hvis]
      omega
    have f0 : ((cur.take (vs + 1)).filter fun p => decide (Vis c p)) = [] := List.filter_eq_nil_iff.mpr (fun p hp => by simpa using x1 p hp)
    have f1 : (((cur.drop (vs + 1)).take (ve - vs - 1)).filter fun p => decide (Vis c p)) = (cur.drop (vs + 1)).take (ve - vs - 1) :=
      List.filter_eq_self.mpr (fun p hp => by simpa using x2 p hp)
    have f2 : ((cur.drop ve).filter fun p => decide (Vis c p)) = [] := List.filter_eq_nil_iff.mpr (fun p hp => by simpa using x3 p hp)
    rw [hsplit, List.filter_append, List.filter_append, f0, f1, f2, List.nil_append, List.append_nil, List.length_take, List.length_drop]
    omega
  rw [e2] at hb hl
  unfold select
  rw [hvs, hve]
  simp only [Option.bind_eq_bind, Option.bind_some]
  rw [if_pos ⟨hn, hb, hl⟩]
  exact ⟨_, rfl⟩

end Verif.Lazy
