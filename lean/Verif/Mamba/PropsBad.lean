import Verif.Mamba.PropsKept

/-! # C135: what eviction of states reaches, and what fails -/
namespace Verif.Mamba
open Verif.PyRadix hiding St Step Reach Op Supplied

theorem phase2_end {target : Nat} {s s' : EvM} (hp : Phase2 target s s') : EvGood s → s.mamba = s.mfreed.length →
    s'.mamba = s'.mfreed.length ∧ (target ≤ s'.mamba ∨ ∀ i, s'.c.mv i ≠ none → s'.c.ml i ≠ 0) := by
  induction hp with
  | enough s h => intro _ h0; exact ⟨h0, .inl h⟩
  | none s _ hn =>
    intro g h0
    refine ⟨h0, .inr fun i hi hz => ?_⟩
    obtain ⟨lf, lm, hl⟩ := g.lists
    have h2 := List.find?_eq_none.1 ((rep_lru hl.mam).1 hn).symm
    have := h2 i (List.mem_reverse.2 ((hl.mmem i).2 hi))
    simp [hz] at this
  | skip _ _ _ _ _ ih => exact ih
  | pop x m _ _ hm _ ih =>
    intro g h0
    refine ih (evGood_state g hm) ?_
    simp only [evictState, List.length_append, h0]

/-- C135: asked for states only, `evict` frees as many state slots as asked for, or every state without a lock, and reports their number.
Missing: calls that also ask for tokens, for which it fails (`C135_evict_violated`). -/
theorem C135_enough_partial {P : Nat} (hP : 0 < P) {ops : List Op} {s : St} (h : Reach P ops s) {mtarget : Nat} {r : EvM}
    (he : s.c.Evict 0 mtarget r) :
    r.mamba = r.mfreed.length ∧ (mtarget ≤ r.mfreed.length ∨ ∀ i, r.c.mv i ≠ none → r.c.ml i ≠ 0) := by
  obtain ⟨m, h1, h2⟩ := he
  have : m = ⟨s.c, [], [], 0, 0⟩ := by
    cases h1 with
    | enough => rfl
    | none => rfl
    | pop x hc => exact absurd hc (by simp)
  subst this
  obtain ⟨a, b⟩ := phase2_end h2 ((mInv_reach hP h).good _ _ _ _) rfl
  exact ⟨a, a ▸ b⟩

/-- C135: a state that is not locked, on a node that stays, is lost only by the second loop: without a target for states, `evict` takes the
states of the removed leaves only. -/
theorem C135_tokens_only {target : Nat} {s : MC} {r : EvM} (he : s.Evict target 0 r) :
    Phase1 target ⟨s, [], [], 0, 0⟩ r := by
  obtain ⟨m, h1, h2⟩ := he
  have : m = r := by
    cases h2 with
    | enough => rfl
    | none => rfl
    | skip x hc => exact absurd hc (by simp)
    | pop x m hc => exact absurd hc (by simp)
  exact this ▸ h1

theorem kmatch_take {P : Nat} (hP : 0 < P) {key : Key} {n : Nat} (hd : P ∣ key.length) (hn : P ∣ n) (hl : n < key.length) (h0 : 0 < n) :
    kmatch P key (key.take n) = n := by
  have hlen : (key.take n).length = n := by rw [List.length_take]; omega
  have km := kmatch_spec hP hd (b := key.take n) (by rw [hlen]; exact hn)
  have hle := km.leb
  rw [hlen] at hle
  by_contra hne
  have hlt : kmatch P key (key.take n) < n := by omega
  obtain ⟨m, hm⟩ : ∃ m, m = kmatch P key (key.take n) := ⟨_, rfl⟩
  rw [← hm] at hlt km
  refine km.max (by omega) (by rw [hlen]; exact hlt) ?_
  have hP' : P ≤ n - m := by
    have hd2 : P ∣ n - m := Nat.dvd_sub hn km.dvd
    exact Nat.le_of_dvd (by omega) hd2
  rw [List.drop_take, List.take_take, Nat.min_eq_left hP']

/-- C135, violated by splitting: whatever sequence is cached with a one-slot state, a match of a proper prefix moves the state of the whole
sequence to the prefix and leaves the sequence with an empty state — which still counts as one, so that a later match of the whole sequence
reports no token without state (L577-579: the state is cut like the KV indices, at a token position). -/
theorem C135_split_violated {P : Nat} (hP : 0 < P) (e : Ext) (key : Key) (val : Slots) (y n : Nat) (hv : val.length = key.length) (hd : P ∣ key.length)
    (hn : P ∣ n) (h0 : 0 < n) (hl : n < key.length) :
    ∃ s t : St, s = { st0 with c := (st0.c.insert P e key val (some [y])).2 } ∧ t = { s with c := (s.c.matchPrefix P e (key.take n)).2 } ∧
      Reach P [.matchPrefix e (key.take n), .insert e key val (some [y])] t ∧
      PathTo 1 s.c.cache.tree e key val ∧ s.c.mv 1 = some [y] ∧
      PathTo 2 t.c.cache.tree e (key.take n) (val.take n) ∧ t.c.mv 2 = some [y] ∧
      PathTo 1 t.c.cache.tree e key val ∧ t.c.mv 1 = some [] ∧ (t.c.matchPrefix P e key).1 = (val, some 1, none) := by
  have hne : key ≠ [] := by intro h; rw [h] at hl; simp at hl
  have hnt : key.take n ≠ [] := by
    intro h; have h' := congrArg List.length h; rw [List.length_take, List.length_nil] at h'; omega
  have hnd : key.drop n ≠ [] := by
    intro h; have := congrArg List.length h; rw [List.length_drop] at this; simp at this; omega
  have hlen : (key.take n).length = n := by rw [List.length_take]; omega
  obtain ⟨s, hs⟩ : ∃ s : St, s = { st0 with c := (st0.c.insert P e key val (some [y])).2 } := ⟨_, rfl⟩
  obtain ⟨t, ht⟩ : ∃ t : St, t = { s with c := (s.c.matchPrefix P e (key.take n)).2 } := ⟨_, rfl⟩
  have hst : s.c.cache.tree = .node 1 key e val 0 0 .nil .nil ∧ s.c.cache.fresh = 2 ∧ s.c.mv = Function.update (fun _ : Nat => (none : Option Slots)) 1 (some [y]) := by
    rw [hs]
    unfold MC.insert
    rw [if_neg hne]
    exact ⟨rfl, rfl, rfl⟩
  obtain ⟨h1, h2, h3⟩ := hst
  have halign : ∀ k : Key, P ∣ k.length → align P k = k := by
    intro k hk
    unfold align
    rw [Nat.div_mul_cancel hk, List.take_length]
  have hkm := kmatch_take hP hd hn hl h0
  have hpage : key.take P = (key.take n).take P := by rw [List.take_take, Nat.min_eq_left (Nat.le_of_dvd h0 hn)]
  have hw : mwalk P e 2 (.node 1 key e val 0 0 .nil .nil) (key.take n) =
      ⟨[(2, val.take n)], some (1, 2, n), .node 2 (key.take n) e (val.take n) 0 0 (.node 1 (key.drop n) e (val.drop n) 0 0 .nil .nil) .nil, 3⟩ := by
    unfold mwalk
    rw [if_neg hnt, if_pos ⟨rfl, hpage⟩, hkm, if_pos hl]
  have htt : t.c.cache.tree = .node 2 (key.take n) e (val.take n) 0 0 (.node 1 (key.drop n) e (val.drop n) 0 0 .nil .nil) .nil ∧ t.c.cache.fresh = 3 ∧
      t.c.mv = Function.update (Function.update s.c.mv 2 (some ([y].take n))) 1 (some ([y].drop n)) := by
    rw [ht]
    unfold MC.matchPrefix
    rw [halign _ (by rw [hlen]; exact hn), h1, h2, hw]
    simp only [MC.split, h3, Function.update_self]
    exact ⟨trivial, trivial, trivial⟩
  obtain ⟨g1, g2, g3⟩ := htt
  have hdrop : [y].drop n = [] := by apply List.drop_eq_nil_of_le; simp; omega
  have htake : [y].take n = [y] := by apply List.take_of_length_le; simp; omega
  rw [hdrop, htake] at g3
  have hm1 : t.c.mv 1 = some [] := by rw [g3, Function.update_self]
  have hm2 : t.c.mv 2 = some [y] := by rw [g3, Function.update_of_ne (by decide), Function.update_self]
  refine ⟨s, t, hs, ht, ?_, ?_, by rw [h3, Function.update_self], ?_, hm2, ?_, hm1, ?_⟩
  · rw [ht, hs]
    exact .step (.step .init (.insert e key val (some [y]) hv hd)) (.matchPrefix e (key.take n))
  · rw [h1]; exact .inr ⟨rfl, .inl ⟨rfl, rfl, rfl⟩⟩
  · rw [g1]; exact .inr ⟨rfl, .inl ⟨rfl, rfl, rfl⟩⟩
  · rw [g1]
    exact .inr ⟨rfl, .inr ⟨key.drop n, val.drop n, (List.take_append_drop _ _).symm, (List.take_append_drop _ _).symm, .inr ⟨rfl, .inl ⟨rfl, rfl, rfl⟩⟩⟩⟩
  · have k1 : kmatch P (key.take n) key = n := by
      have km := kmatch_spec hP (a := key.take n) (b := key) (by rw [hlen]; exact hn) hd
      have hle := km.lea
      rw [hlen] at hle
      by_contra hne
      obtain ⟨m, hm⟩ : ∃ m, m = kmatch P (key.take n) key := ⟨_, rfl⟩
      rw [← hm] at hne hle km
      have hlt : m < n := by omega
      refine km.max (by rw [hlen]; exact hlt) (by omega) ?_
      have hP' : P ≤ n - m := Nat.le_of_dvd (by omega) (Nat.dvd_sub hn km.dvd)
      rw [List.drop_take, List.take_take, Nat.min_eq_left hP']
    have k2 : kmatch P (key.drop n) (key.drop n) = (key.drop n).length := by
      have hdd : P ∣ (key.drop n).length := by rw [List.length_drop]; exact Nat.dvd_sub hd hn
      have km := kmatch_spec hP hdd hdd
      by_contra hne
      have := km.lea
      exact km.max (by omega) (by omega) rfl
    have hw2 : mwalk P e 3 (.node 2 (key.take n) e (val.take n) 0 0 (.node 1 (key.drop n) e (val.drop n) 0 0 .nil .nil) .nil) key =
        ⟨[(2, val.take n), (1, val.drop n)], none, .node 2 (key.take n) e (val.take n) 0 0 (.node 1 (key.drop n) e (val.drop n) 0 0 .nil .nil) .nil, 3⟩ := by
      unfold mwalk
      rw [if_neg hne, if_pos ⟨rfl, hpage.symm⟩, k1, if_neg (by rw [hlen]; omega)]
      unfold mwalk
      rw [if_neg hnd, if_pos ⟨rfl, rfl⟩, k2, if_neg (Nat.lt_irrefl _), List.drop_length]
      rfl
    unfold MC.matchPrefix
    rw [halign _ hd, g1, g2, hw2]
    simp only [MC.split, branching, hm1, hm2]
    simp

example : ∃ s t : St, s = { st0 with c := (st0.c.insert 1 none [1, 2, 3] [10, 11, 12] (some [7])).2 } ∧ t = { s with c := (s.c.matchPrefix 1 none [1]).2 } ∧
    t.c.mv 2 = some [7] ∧ t.c.mv 1 = some [] := by
  obtain ⟨s, t, a, b, -, -, -, -, c, -, d, -⟩ := C135_split_violated (P := 1) (by decide) none [1, 2, 3] [10, 11, 12] 7 1 rfl ⟨3, rfl⟩ ⟨1, rfl⟩ (by decide) (by decide)
  exact ⟨s, t, a, b, c, d⟩

/-- C135, violated by `mamba_exist` (L406-407): `[1]` is cached with a state; inserting `[1, 2]` with state slot 8 reports that the state already
exists, though the new leaf holds slot 8. A caller who frees its slot on this report frees a slot the cache holds. -/
theorem C135_exist_violated : ∃ ops s, Reach 1 ops s ∧ (s.c.insert 1 none [1, 2] [10, 11] (some [8])).1.2.2 = true ∧
    Stores 1 s.c none [1, 2] [10, 11] ∧ 8 ∈ states (s.c.insert 1 none [1, 2] [10, 11] (some [8])).2 ∧ 8 ∉ states s.c :=
  ⟨_, _, reach_ins .init [1] [10] (some [7]) rfl, by decide +kernel, .inl (by decide +kernel), by decide +kernel, by decide +kernel⟩

/-- C135, violated by the lock count of a split node (L572): a node is locked, split by a match and unlocked. No lock is held, no token is locked,
and the state of the upper node is still locked, for ever: `evict` cannot free it. -/
theorem C135_leak_violated : ∃ ops s, Reach 1 ops s ∧ s.held = [] ∧ s.c.cache.prot = 0 ∧ s.c.mv 2 = some [7] ∧ s.c.ml 2 = 1 ∧
    ∃ r, s.c.Evict 0 1 r ∧ r.mfreed = [] ∧ states r.c = [7] := by
  have hr := reach_unl (reach_mat (reach_lck (reach_ins .init [1, 2] [10, 11] (some [7]) rfl) (x := 1) (by decide +kernel)) [1]) (x := 1) (by decide +kernel)
  refine ⟨_, _, hr, by decide +kernel, by decide +kernel, by decide +kernel, by decide +kernel, ?_⟩
  refine ⟨⟨(evictState ⟨(unl (mat (lck (ins st0 [1, 2] [10, 11] (some [7])) 1) [1]) 1).c, [], [], 0, 0⟩ 1 []).c, [], [], 0, 0⟩, ⟨_, .enough _ (Nat.le_refl _), ?_⟩, rfl, by decide +kernel⟩
  refine .pop 1 [] (by decide) ⟨.node 1, by decide +kernel, .hit (by decide +kernel)⟩ (by decide +kernel) ?_
  exact .none _ (by decide) ⟨.node 2, by decide +kernel, .next (by decide +kernel) (c := .head) (by decide +kernel) .head⟩

/-- C135, violated by locks on nodes without a state (L489, L511): A locks a node without a state; it gains one; B locks it; A unlocks. B still
holds its lock, and `evict` frees the state. -/
theorem C135_lock_violated : ∃ ops s, Reach 1 ops s ∧ s.held = [1] ∧ s.c.mv 1 = some [7] ∧
    ∃ r, s.c.Evict 0 1 r ∧ r.mfreed = [7] ∧ states r.c = [] := by
  have hr := reach_unl (reach_lck (reach_ins (reach_lck (reach_ins .init [1] [10] none rfl) (x := 1) (by decide +kernel)) [1] [10] (some [7]) rfl)
    (x := 1) (by decide +kernel)) (x := 1) (by decide +kernel)
  refine ⟨_, _, hr, by decide +kernel, by decide +kernel, ?_⟩
  refine ⟨evictState ⟨(unl (lck (ins (lck (ins st0 [1] [10] none) 1) [1] [10] (some [7])) 1) 1).c, [], [], 0, 0⟩ 1 [7], ⟨_, .enough _ (Nat.le_refl _), ?_⟩, rfl, by decide +kernel⟩
  exact .pop 1 [7] (by decide) ⟨.node 1, by decide +kernel, .hit (by decide +kernel)⟩ (by decide +kernel) (.enough _ (by decide +kernel))

/-- C135, violated by the size of the evictable states: it is increased by the number of tokens (L419, L560) and decreased by the number of slots
(L472), or conversely: with no state left it reports 2. -/
theorem C135_size_violated : ∃ ops s, Reach 1 ops s ∧ s.held = [] ∧ s.c.mEv = 3 ∧ states s.c = [7] ∧
    ∃ r, s.c.Evict 0 1 r ∧ states r.c = [] ∧ r.c.mEv = 2 := by
  have hr := reach_ins .init [1, 2, 3] [10, 11, 12] (some [7]) rfl
  refine ⟨_, _, hr, by decide +kernel, by decide +kernel, by decide +kernel, ?_⟩
  refine ⟨evictState ⟨(ins st0 [1, 2, 3] [10, 11, 12] (some [7])).c, [], [], 0, 0⟩ 1 [7], ⟨_, .enough _ (Nat.le_refl _), ?_⟩, by decide +kernel, by decide +kernel⟩
  exact .pop 1 [7] (by decide) ⟨.node 1, by decide +kernel, .hit (by decide +kernel)⟩ (by decide +kernel) (.enough _ (by decide +kernel))

/-- C135, violated when tokens and states are asked for (L444: tokens are counted as state slots): asked for five tokens and three state slots, `evict`
removes a leaf of five tokens with one state slot and stops, with an unlocked state left. It reports five. -/
theorem C135_evict_violated : ∃ ops s, Reach 1 ops s ∧ states s.c = [7, 8] ∧
    ∃ r, s.c.Evict 5 3 r ∧ r.mfreed = [7] ∧ r.mamba = 5 ∧ states r.c = [8] ∧ r.c.mv 2 = some [8] ∧ r.c.ml 2 = 0 := by
  have hr := reach_ins (reach_ins .init [1, 2, 3, 4, 5] [10, 11, 12, 13, 14] (some [7]) rfl) [9] [15] (some [8]) rfl
  refine ⟨_, _, hr, by decide +kernel, ?_⟩
  refine ⟨evictLeaf ⟨(ins (ins st0 [1, 2, 3, 4, 5] [10, 11, 12, 13, 14] (some [7])) [9] [15] (some [8])).c, [], [], 0, 0⟩ 1, ⟨_, ?_, .enough _ (by decide +kernel)⟩,
    by decide +kernel, by decide +kernel, by decide +kernel, by decide +kernel, by decide +kernel⟩
  exact .pop 1 (by decide) ⟨.node 1, by decide +kernel, .hit (by decide +kernel)⟩ (.enough _ (by decide +kernel))

/-- Non-vacuity of the partial theorems: a locked state in a history as they ask for; a match splits the node, an eviction of all states follows,
and the slot is still in the cache. -/
example : ∃ ops s u, LReach 1 ops s ∧ 1 ∈ s.held ∧ s.c.mv 1 = some [7] ∧ Holding 1 1 s u ∧ u.c.mv 2 = some [7] ∧ u.c.mv 1 = some [] := by
  refine ⟨_, lck (ins st0 [1, 2] [10, 11] (some [7])) 1, mat (lck (ins st0 [1, 2] [10, 11] (some [7])) 1) [1],
    .step (.step .init (fun _ h => by cases h) (.insert none [1, 2] [10, 11] (some [7]) rfl ⟨2, rfl⟩)) (fun x h => ?_) (.lock 1 (by decide +kernel)), by decide +kernel, by decide +kernel,
    .step (.refl _ (by decide +kernel)) (fun _ h => by cases h) (.matchPrefix none [1]) (by decide +kernel), by decide +kernel, by decide +kernel⟩
  cases h
  decide +kernel

end Verif.Mamba
