import Verif.Graph.Model
/- Lemmas for C105-C107. -/
namespace Verif.Graph

variable {H V S O : Type}

/-! ### Buffers -/

theorem copyIn_lt {α : Type} [Inhabited α] {buf : Nat → α} {xs : List α} {i : Nat} (h : i < xs.length) : copyIn buf xs i = xs[i] := by
  rw [copyIn, if_pos h, List.getD_eq_getElem?_getD, List.getElem?_eq_getElem h]; rfl

theorem copyIn_ge {α : Type} [Inhabited α] {buf : Nat → α} {xs : List α} {i : Nat} (h : xs.length ≤ i) : copyIn buf xs i = buf i := by
  rw [copyIn, if_neg (by omega)]

/-- `populate` without the lengths on the CPU. -/
theorem populate_lane (b : Buf) (x : Batch) (p i : Nat) : (b.populate x p).lane i =
    if h : i < x.lanes.length then { x.lanes[i] with delta := if x.deltas then x.lanes[i].delta else 0 }
    else if p ≠ x.lanes.length then ⟨b.tok i, b.row i, fillLen, 0, b.pos i, 0⟩ else b.lane i := by
  have key : (b.populate x p).lane i = 
      ⟨copyIn b.tok (x.lanes.map (·.tok)) i, copyIn b.row (x.lanes.map (·.row)) i,
       copyIn (if p ≠ x.lanes.length then fun _ => fillLen else b.len) (x.lanes.map (·.len)) i,
       copyIn (if p ≠ x.lanes.length then fun _ => 0 else b.loc) (x.lanes.map (·.loc)) i,
       copyIn b.pos (x.lanes.map (·.pos)) i,
       if x.deltas then copyIn (if p ≠ x.lanes.length then fun _ => 0 else b.delta) (x.lanes.map (·.delta)) i
       else copyIn (if p ≠ x.lanes.length then fun _ => 0 else b.delta) (x.lanes.map fun _ => 0) i⟩ := by
    unfold Buf.populate Buf.lane
    simp only []
    cases x.cpu <;> simp only [] <;> split <;> split <;> rfl
  rw [key]
  by_cases h : i < x.lanes.length
  · rw [dif_pos h]
    rw [copyIn_lt (by simpa using h), copyIn_lt (by simpa using h), copyIn_lt (by simpa using h), copyIn_lt (by simpa using h),
      copyIn_lt (by simpa using h), copyIn_lt (by simpa using h), copyIn_lt (by simpa using h)]
    simp
  · rw [dif_neg h]
    have h' : x.lanes.length ≤ i := by omega
    rw [copyIn_ge (by simpa using h'), copyIn_ge (by simpa using h'), copyIn_ge (by simpa using h'), copyIn_ge (by simpa using h'),
      copyIn_ge (by simpa using h'), copyIn_ge (by simpa using h'), copyIn_ge (by simpa using h')]
    split <;> simp [Buf.lane]

theorem populate_row (b : Buf) (x : Batch) (p i : Nat) : (b.populate x p).row i = if h : i < x.lanes.length then x.lanes[i].row else b.row i := by
  have h := congrArg Lane.row (populate_lane b x p i)
  rw [show ((b.populate x p).lane i).row = (b.populate x p).row i from rfl] at h
  rw [h]
  split
  · rfl
  · split <;> rfl

theorem populate_tok (b : Buf) (x : Batch) (p i : Nat) : (b.populate x p).tok i = if h : i < x.lanes.length then x.lanes[i].tok else b.tok i := by
  have h := congrArg Lane.tok (populate_lane b x p i)
  rw [show ((b.populate x p).lane i).tok = (b.populate x p).tok i from rfl] at h
  rw [h]
  split
  · rfl
  · split <;> rfl

theorem populate_cpu (b : Buf) (x : Batch) (p i : Nat) {c : List Nat} (hc : x.cpu = some c) : (b.populate x p).cpu i =
    if h : i < c.length then c[i] else if p ≠ x.lanes.length then fillLen else b.cpu i := by
  unfold Buf.populate
  simp only [hc]
  by_cases h : i < c.length
  · rw [dif_pos h, copyIn_lt h]
  · rw [dif_neg h, copyIn_ge (by omega)]
    split <;> rfl

/-! ### Two passes side by side -/

/-- The memories agree on the slots of keys and values other than 0, and on the recurrent states of the rows in `L`. -/
def Agree (L : Nat → Prop) (m m' : Mem V S) : Prop := (∀ k i, i ≠ 0 → m.kv k i = m'.kv k i) ∧ ∀ k i, L i → m.st k i = m'.st k i

theorem scatter_val {α : Type} {f f' : Nat → α} {ws : List (Nat × α)} (h : Scatter f ws f') {i : Nat} {v : α} (hm : (i, v) ∈ ws)
    (hu : ∀ w, (i, w) ∈ ws → w = v) : f' i = v :=
  hu _ ((h i).2 (List.mem_map.2 ⟨_, hm, rfl⟩))

/-- A scatter of `n` lanes and one of `n + more` lanes, where the additional lanes write elsewhere. -/
theorem scatter_agree {α : Type} {f g f' g' : Nat → α} {n p : Nat} {ix iy : Nat → Nat} {u v : Nat → α} (hnp : n ≤ p)
    (hix : ∀ i < n, ix i = iy i) (hv : ∀ i < n, u i = v i) (hinj : ∀ i < n, ∀ j < n, ix i = ix j → i = j) {j : Nat}
    (hpad : ∀ i < p, n ≤ i → iy i ≠ j) (hfg : f j = g j)
    (h1 : Scatter f ((List.range n).map fun i => (ix i, u i)) f') (h2 : Scatter g ((List.range p).map fun i => (iy i, v i)) g') : f' j = g' j := by
  by_cases hj : ∃ i < n, ix i = j
  · obtain ⟨i, hi, rfl⟩ := hj
    have e1 : f' (ix i) = u i := by
      refine scatter_val h1 (List.mem_map.2 ⟨i, by simpa using hi, rfl⟩) ?_
      intro w hw
      obtain ⟨k, hk, e⟩ := List.mem_map.1 hw
      simp only [Prod.mk.injEq] at e
      rw [← e.2, hinj k (by simpa using hk) i hi e.1]
    have e2 : g' (ix i) = v i := by
      refine scatter_val h2 (List.mem_map.2 ⟨i, by simp; omega, by rw [hix i hi]⟩) ?_
      intro w hw
      obtain ⟨k, hk, e⟩ := List.mem_map.1 hw
      simp only [Prod.mk.injEq] at e
      have hk' : k < n := by
        by_contra hc
        exact hpad k (by simpa using hk) (by omega) e.1
      rw [← e.2, hinj k hk' i hi (by rw [hix k hk', e.1])]
    rw [e1, e2, hv i hi]
  · push Not at hj
    have e1 : f' j = f j := (h1 j).1 (by
      intro hm
      obtain ⟨w, hw, e⟩ := List.mem_map.1 hm
      obtain ⟨k, hk, e'⟩ := List.mem_map.1 hw
      exact hj k (by simpa using hk) (by rw [← e, ← e']))
    have e2 : g' j = g j := (h2 j).1 (by
      intro hm
      obtain ⟨w, hw, e⟩ := List.mem_map.1 hm
      obtain ⟨k, hk, e'⟩ := List.mem_map.1 hw
      have ek : iy k = j := by rw [← e, ← e']
      by_cases hkn : k < n
      · exact hj k hkn (by rw [hix k hkn, ek])
      · exact hpad k (by simpa using hk) (by omega) ek)
    rw [e1, e2, hfg]

/-- Does the layer keep recurrent states? -/
def Layer.isGdn : Layer H V S → Bool
  | .attn .. => false
  | .gdn .. => true

structure Side (table : Nat → Nat → Nat) (L : Nat → Prop) (gdn : Bool) (la lb : Nat → Lane) (n p : Nat) : Prop where
  le : n ≤ p
  lanes : ∀ i < n, la i = lb i
  locs : ∀ i < n, (la i).loc ≠ 0
  locInj : ∀ i < n, ∀ j < n, (la i).loc = (la j).loc → i = j
  slots : ∀ i < n, ∀ q < (la i).len, table (la i).row q ≠ 0
  padLoc : ∀ i < p, n ≤ i → (lb i).loc = 0
  rows : gdn = true → (∀ i < n, L (la i).row) ∧ (∀ i < n, ∀ j < n, (la i).row = (la j).row → i = j) ∧ ∀ i < p, n ≤ i → ¬ L (lb i).row

theorem layers_agree {table : Nat → Nat → Nat} {L : Nat → Prop} {gdn : Bool} {la lb : Nat → Lane} {n p : Nat} (hs : Side table L gdn la lb n p) :
    ∀ {k : Nat} {ls : List (Layer H V S)} {m1 m2 m1' m2' : Mem V S} {h1 h2 h1' h2' : Nat → H}, (gdn = false → ∀ l ∈ ls, l.isGdn = false) →
    Agree L m1 m2 → (∀ i < n, h1 i = h2 i) → Layers table la n k ls m1 h1 m1' h1' → Layers table lb p k ls m2 h2 m2' h2' →
    Agree L m1' m2' ∧ ∀ i < n, h1' i = h2' i := by
  intro k ls m1 m2 m1' m2' h1 h2 h1' h2' hg ha hh p1
  induction p1 generalizing m2 m2' h2 h2' with
  | nil =>
    intro p2
    cases p2
    exact ⟨ha, hh⟩
  | @attn k write start out ls m1 h1 m1' h1' kv hsc _ ih =>
    intro p2
    cases p2 with
    | attn kv2 hsc2 q2 =>
    have hkv : ∀ j, j ≠ 0 → kv j = kv2 j := by
      intro j hj
      refine scatter_agree hs.le (fun i hi => by rw [hs.lanes i hi]) (fun i hi => by rw [hh i hi, hs.lanes i hi]) hs.locInj ?_ (ha.1 k j hj) hsc hsc2
      intro i hi hni e
      exact hj (by rw [← e, hs.padLoc i hi hni])
    refine ih (fun e l hl => hg e l (List.mem_cons_of_mem _ hl)) (show Agree L _ { m2 with kv := Function.update m2.kv k kv2 } from ⟨?_, ha.2⟩) ?_ q2
    · intro k' j hj
      by_cases e : k' = k
      · subst e; simp [hkv j hj]
      · simp [Function.update_of_ne e, ha.1 k' j hj]
    · intro i hi
      simp only []
      rw [hh i hi, ← hs.lanes i hi]
      congr 1
      unfold reads
      apply List.map_congr_left
      intro q hq
      refine hkv _ (hs.slots i hi q ?_)
      rw [List.mem_range'_1] at hq
      omega
  | @gdn k step out ls m1 h1 m1' h1' st hsc _ ih =>
    intro p2
    have hgt : gdn = true := by
      cases hgd : gdn with
      | true => rfl
      | false => exact absurd (hg hgd _ List.mem_cons_self) (by simp [Layer.isGdn])
    obtain ⟨r1, r2, r3⟩ := hs.rows hgt
    cases p2 with
    | gdn st2 hsc2 q2 =>
    have hst : ∀ i < n, m1.st k (la i).row = m2.st k (lb i).row := by
      intro i hi
      rw [ha.2 k _ (r1 i hi), hs.lanes i hi]
    refine ih (fun e l hl => hg e l (List.mem_cons_of_mem _ hl)) (show Agree L _ { m2 with st := Function.update m2.st k st2 } from ⟨ha.1, ?_⟩) ?_ q2
    · intro k' j hj
      by_cases e : k' = k
      · subst e
        simp only [Function.update_self]
        refine scatter_agree hs.le (fun i hi => by rw [hs.lanes i hi]) (fun i hi => by rw [hh i hi, hst i hi]) r2 ?_ (ha.2 _ j hj) hsc hsc2
        intro i hi hni e
        exact r3 i hi hni (e ▸ hj)
      · simp [Function.update_of_ne e, ha.2 k' j hj]
    · intro i hi
      simp only []
      rw [hh i hi, hst i hi]

/-! ### Outcomes exist -/

/-- The scatter in the order of the lanes. -/
def inOrder {α : Type} (f : Nat → α) (ws : List (Nat × α)) : Nat → α := ws.foldl (fun g w => Function.update g w.1 w.2) f

theorem inOrder_scatter {α : Type} (f : Nat → α) (ws : List (Nat × α)) : Scatter f ws (inOrder f ws) := by
  unfold inOrder
  induction ws using List.reverseRecOn with
  | nil => intro i; simp
  | append_singleton ws w ih =>
    intro i
    rw [List.foldl_append]
    simp only [List.foldl_cons, List.foldl_nil]
    obtain ⟨h1, h2⟩ := ih i
    by_cases e : i = w.1
    · subst e
      simp
    · simp only [Function.update_of_ne e, List.map_append, List.mem_append, List.map_cons, List.map_nil, List.mem_singleton, e, or_false]
      refine ⟨h1, fun hm => Or.inl (h2 hm)⟩

theorem layers_exists (table : Nat → Nat → Nat) (lane : Nat → Lane) (n : Nat) (ls : List (Layer H V S)) :
    ∀ (k : Nat) (m : Mem V S) (hs : Nat → H), ∃ m' hs', Layers table lane n k ls m hs m' hs' := by
  induction ls with
  | nil => exact fun k m hs => ⟨m, hs, .nil⟩
  | cons l ls ih =>
    intro k m hs
    cases l with
    | attn write start out =>
      obtain ⟨m', hs', h⟩ := ih (k + 1) _ _
      exact ⟨m', hs', .attn _ (inOrder_scatter _ _) h⟩
    | gdn step out =>
      obtain ⟨m', hs', h⟩ := ih (k + 1) _ _
      exact ⟨m', hs', .gdn _ (inOrder_scatter _ _) h⟩

/-- Later layers do not touch the memory of earlier ones. -/
theorem layers_st_keep {table : Nat → Nat → Nat} {lane : Nat → Lane} {n k : Nat} {ls : List (Layer H V S)} {m m' : Mem V S} {hs hs' : Nat → H}
    (h : Layers table lane n k ls m hs m' hs') : ∀ j < k, m'.st j = m.st j := by
  induction h with
  | nil => exact fun _ _ => rfl
  | attn kv _ _ ih => exact fun j hj => ih j (by omega)
  | gdn st _ _ ih =>
    intro j hj
    rw [ih j (by omega)]
    exact Function.update_of_ne (by omega) _ _

end Verif.Graph
