import Verif.Mamba.PropsBad

/-! # C135: the branching point reported by `match_prefix` -/
namespace Verif.Mamba
open Verif.PyRadix hiding St Step Reach Op Supplied

theorem branching_none {mv : Nat → Option Slots} : ∀ (m : Nat) (hits : List (Nat × Slots)),
    branching mv m hits = none ↔ ∀ p ∈ depths m hits, mv p.1 ≠ none
  | _, [] => by simp [branching, depths]
  | m, (i, v) :: hits => by
    unfold branching depths
    by_cases h : mv i = none
    · rw [if_pos h]; simp [h]
    · rw [if_neg h, branching_none, List.forall_mem_cons]
      exact ⟨fun hh => ⟨h, hh⟩, fun hh => hh.2⟩

theorem branching_some {mv : Nat → Option Slots} : ∀ (m : Nat) (hits : List (Nat × Slots)) (b : Nat), branching mv m hits = some b →
    ∃ pre i n post, depths m hits = pre ++ (i, n) :: post ∧ mv i = none ∧ (∀ p ∈ pre, mv p.1 ≠ none) ∧ ((pre = [] ∧ b = m) ∨ ∃ q j, pre = q ++ [(j, b)])
  | _, [], b, h => by cases h
  | m, (i, v) :: hits, b, h => by
    unfold branching at h
    unfold depths
    by_cases hi : mv i = none
    · rw [if_pos hi] at h
      cases h
      exact ⟨[], i, _, _, rfl, hi, by simp, .inl ⟨rfl, rfl⟩⟩
    · rw [if_neg hi] at h
      obtain ⟨pre, j, n, post, h1, h2, h3, h4⟩ := branching_some _ _ _ h
      refine ⟨(i, m + v.length) :: pre, j, n, post, by rw [h1]; rfl, h2, ?_, .inr ?_⟩
      · intro p hp
        rcases List.mem_cons.1 hp with rfl | hp
        · exact hi
        · exact h3 p hp
      · rcases h4 with ⟨rfl, rfl⟩ | ⟨q, k, rfl⟩
        · exact ⟨[], i, rfl⟩
        · exact ⟨(i, m + v.length) :: q, k, rfl⟩

/-- The node `i` ends the first `n` tokens of the key. -/
def OnPath (c : MC) (e : Ext) (key : Key) (i n : Nat) : Prop := n ≤ key.length ∧ ∃ sl, PathTo i c.cache.tree e (key.take n) sl

/-- C135: `match_prefix` reports no branching point exactly if every node of the matched path has a state; otherwise it reports the length of
the longest prefix, ending at a node, up to and including which all nodes have one. -/
theorem C135_branching {P : Nat} (hP : 0 < P) {ops : List Op} {s : St} (h : Reach P ops s) (e : Ext) (key : Key) {sl : Slots} {last br : Option Nat}
    {c' : MC} (hr : s.c.matchPrefix P e key = ((sl, last, br), c')) :
    (br = none ↔ ∀ i n, OnPath c' e key i n → c'.mv i ≠ none) ∧
    ∀ b, br = some b → (b = 0 ∨ ∃ j, OnPath c' e key j b) ∧ (∀ i n, OnPath c' e key i n → n ≤ b → c'.mv i ≠ none) ∧
      ∃ i n, OnPath c' e key i n ∧ b < n ∧ c'.mv i = none ∧ ∀ j m, OnPath c' e key j m → m < n → m ≤ b := by
  have hi := mInv_reach hP h
  have hd := align_dvd P key
  have hit := hits_iff hP (e := e) (fresh := s.c.cache.fresh) hi.inv.wf hd
  obtain ⟨hge, hpw⟩ := depths_ge 0 _ (hits_ne hP (e := e) (fresh := s.c.cache.fresh) hi.inv.wf hd)
  have hwf := wf_mwalk hP (e := e) (fresh := s.c.cache.fresh) hi.inv.wf hd
  have htree : c'.cache.tree = (mwalk P e s.c.cache.fresh s.c.cache.tree (align P key)).tree := by
    rw [show c' = (s.c.matchPrefix P e key).2 from by rw [hr]]
    unfold MC.matchPrefix
    simp only [split_cache]
  have hbr : br = branching c'.mv 0 (mwalk P e s.c.cache.fresh s.c.cache.tree (align P key)).hits := by
    rw [show c' = (s.c.matchPrefix P e key).2 from by rw [hr], show br = (s.c.matchPrefix P e key).1.2.2 from by rw [hr]]
    rfl
  obtain ⟨w, hw⟩ : ∃ w, w = mwalk P e s.c.cache.fresh s.c.cache.tree (align P key) := ⟨_, rfl⟩
  simp only [← hw] at htree hit hpw hwf hge hbr
  have hon : ∀ i n, (i, n) ∈ depths 0 w.hits ↔ OnPath c' e key i n := by
    intro i n
    unfold OnPath
    rw [hit, htree]
    constructor
    · rintro ⟨hn, sl, hp⟩
      rw [align_take hn] at hp
      have : (align P key).length ≤ key.length := by rw [align, List.length_take]; omega
      exact ⟨by omega, sl, hp⟩
    · rintro ⟨hn, sl, hp⟩
      have hdd := (cached_len hwf (pathTo_cached hwf hp)).1
      rw [List.length_take, Nat.min_eq_left hn] at hdd
      have := align_len hP hn hdd
      exact ⟨this, sl, by rw [align_take this]; exact hp⟩
  refine ⟨?_, fun b hb => ?_⟩
  · rw [hbr, branching_none]
    constructor
    · intro hh i n hp; exact hh (i, n) ((hon i n).2 hp)
    · rintro hh ⟨i, n⟩ hp; exact hh i n ((hon i n).1 hp)
  · rw [hb] at hbr
    obtain ⟨pre, i, n, post, h1, h2, h3, h4⟩ := branching_some _ _ _ hbr.symm
    rw [h1] at hpw hge
    obtain ⟨-, hp2, hp3⟩ := List.pairwise_append.1 hpw
    have hpost := (List.pairwise_cons.1 hp2).1
    have hbn : b < n := by
      rcases h4 with ⟨-, rfl⟩ | ⟨q, j, rfl⟩
      · exact hge (i, n) (by simp)
      · exact hp3 (j, b) (by simp) (i, n) List.mem_cons_self
    have hpre : ∀ p ∈ pre, p.2 ≤ b := by
      intro p hp
      rcases h4 with ⟨rfl, -⟩ | ⟨q, j, rfl⟩
      · cases hp
      · rcases List.mem_append.1 hp with hp | hp
        · have := (List.pairwise_append.1 ((List.pairwise_append.1 hpw).1)).2.2 p hp (j, b) (by simp)
          exact Nat.le_of_lt this
        · rw [List.mem_singleton] at hp; rw [hp]
    have hcase : ∀ j m, OnPath c' e key j m → m < n → (j, m) ∈ pre := by
      intro j m hj hm
      have := (hon j m).2 hj
      rw [h1, List.mem_append, List.mem_cons] at this
      rcases this with hq | hq | hq
      · exact hq
      · cases hq; omega
      · have := hpost _ hq; simp only at this; omega
    refine ⟨?_, fun j m hj hm => h3 _ (hcase j m hj (by omega)), i, n, (hon i n).1 (by rw [h1]; simp), hbn, h2, fun j m hj hm => hpre _ (hcase j m hj hm)⟩
    rcases h4 with ⟨-, h0⟩ | ⟨q, j, rfl⟩
    · exact .inl h0
    · exact .inr ⟨j, (hon j b).1 (by rw [h1]; simp)⟩

example : ∃ ops s, Reach 1 ops s ∧ (s.c.matchPrefix 1 none [1, 2, 3]).1 = ([10, 11, 12], some 2, some 1) :=
  ⟨_, _, reach_ins (reach_ins .init [1] [10] (some [7]) rfl) [1, 2, 3] [10, 11, 12] none rfl, by decide +kernel⟩

end Verif.Mamba
