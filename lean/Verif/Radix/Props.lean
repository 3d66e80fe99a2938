import Verif.Radix.History
/-
Property theorems about the C++ prefix-cache radix tree (C01–C05 of properties.jsonl).
`build h` / `buildThrow h` is the tree after the history `h`; `search` is `RadixTree::search`.
-/
namespace Verif.Radix

variable {C A : Type}

/-- A concrete history: `[1,2,3]`, then `[1,2,3,4]`, then `[1,2,5]`, one column. -/
def demo : List (Ins Unit Nat) :=
  [⟨0, [1, 2, 3], fun _ => [10, 11, 12]⟩, ⟨0, [1, 2, 3, 4], fun _ => [20, 21, 22, 23]⟩,
   ⟨0, [1, 2, 5], fun _ => [30, 31, 32]⟩]

theorem demo_fits : ∀ r ∈ demo, r.Fits := by
  simp [demo, Ins.Fits]

/-! ### C01 longest-prefix match -/

/-- C01, violated in general: after inserting `[1,2,3]` and `[1,2,3,4]`, searching `[1,2,4]` reports
3 matched tokens although only `[1,2]` is a prefix of an inserted key (RadixTree.cpp L127-133
descends below the partially matched edge `[1,2,3]`). -/
theorem C01_violated : ¬ ∀ (h : List (Ins Unit Nat)), (∀ r ∈ h, r.Fits) → ∀ e key,
    LongestMatch h e key (search (build h) e key) := by
  intro H
  have h1 := (H (demo.take 2) (fun r hr => demo_fits r (List.mem_of_mem_take hr)) 0 [1, 2, 4]).cached
  have h2 : (search (build (demo.take 2)) 0 [1, 2, 4]).matched = 3 := by decide
  rw [h2] at h1
  have h3 := h1.2
  simp [demo, List.cons_prefix_cons] at h3

/-- C01, the part that holds: if whenever two keys used with one extra key part, the token of the
later one does not occur further on in the earlier one, every search is a longest-prefix match with
the addresses of the first key that shared each prefix. Missing for the full C01: histories and
queries that are not separable (there `C01_violated` applies). -/
theorem C01_longest_prefix_partial (h : List (Ins C A)) (hfit : ∀ r ∈ h, r.Fits) (hsep : SepHist h)
    (e : Int) (key : List Int) (hq : SepQuery h e key) :
    LongestMatch h e key (search (build h) e key) := by
  obtain ⟨i1, i2, i3⟩ := history_inv h hfit hsep
  have hm : NoMid (build h) e key := by
    apply NoMid_of_sep _ _ _ [] _ i1 i2
    rintro k ⟨r, hr, he, rfl⟩
    exact hq r hr he
  obtain ⟨s1, s2, s3⟩ := search_shape (build h) e key i1
  rw [path_eq_spath _ _ _ i1 hm] at s1 s3
  obtain ⟨r1, r2, r3⟩ := i3 e key
  have hle := tot_spath_le (build h) e key
  constructor
  · rw [s1]
    refine ⟨hle, ?_⟩
    rcases r2 with r2 | ⟨r, hr, he, hc⟩
    · exact Or.inl r2
    · exact Or.inr ⟨r, hr, he, (prefix_iff_commonLen _ _ _ hle).mpr (by omega)⟩
  · rintro n ⟨hn, hc⟩
    rw [s1]
    rcases hc with rfl | ⟨r, hr, he, hc⟩
    · omega
    · exact Nat.le_trans ((prefix_iff_commonLen _ _ _ hn).mp hc) (r1 r hr he)
  · exact s2
  · intro c
    refine ⟨_, s3 c, ?_, ?_⟩
    · rw [s1]; exact col_length c _ (spath_fits _ _ _ i1)
    · intro i hi
      rw [s1] at hi
      exact r3 c i hi

/-- A condition on tokens that is enough for `SepHist`/`SepQuery`: every token has one fixed
position in all the keys used. -/
theorem separable_of_positions (pos : Int → Nat) (a b : List Int)
    (ha : ∀ i x, a[i]? = some x → pos x = i) (hb : ∀ i x, b[i]? = some x → pos x = i) :
    Separable a b := by
  rintro p x xs y ys rfl rfl hne hmem
  have h1 := ha p.length x (by simp)
  obtain ⟨j, hj, hjx⟩ := List.getElem_of_mem hmem
  have h2 := hb (p.length + (j + 1)) x (by
    rw [List.getElem?_append_right (by omega)]
    simp [hj, hjx])
  omega

-- non-vacuity: the demo history (which splits an edge) and a query that leaves an edge midway
example : SepHist demo ∧ SepQuery demo 0 [1, 2, 5, 9] ∧
    (search (build demo) 0 [1, 2, 5, 9]).matched = 3 ∧
    (search (build demo) 0 [1, 2, 5, 9]).cols () = some [10, 11, 32] := by
  have hp : ∀ a ∈ [[1, 2, 3], [1, 2, 3, 4], [1, 2, 5], [1, 2, 5, 9]], ∀ b ∈
      [[1, 2, 3], [1, 2, 3, 4], [1, 2, 5], [1, 2, 5, 9]], Separable a b := by
    intro a ha b hb
    apply separable_of_positions (fun x => if x = 1 then 0 else if x = 2 then 1 else
        if x = 3 then 2 else if x = 5 then 2 else 3)
    all_goals
      simp only [List.mem_cons, List.not_mem_nil, or_false] at ha hb
      intro i x hx
      rcases ha with rfl | rfl | rfl | rfl <;> rcases hb with rfl | rfl | rfl | rfl <;>
        (rcases i with _ | _ | _ | _ | i <;> simp at hx <;> subst hx <;> rfl)
  refine ⟨?_, ?_, by decide, by decide⟩
  · simp only [SepHist, demo, List.pairwise_cons, List.mem_cons, List.not_mem_nil, or_false]
    refine ⟨?_, ?_, ?_, List.Pairwise.nil⟩
    · rintro r (rfl | rfl) _ <;> exact hp _ (by simp) _ (by simp)
    · rintro r rfl _; exact hp _ (by simp) _ (by simp)
    · simp
  · intro r hr _
    simp only [demo, List.mem_cons, List.not_mem_nil, or_false] at hr
    rcases hr with rfl | rfl | rfl <;> exact hp _ (by simp) _ (by simp)

/-! ### C02 shape of results -/

/-- C02: for every history (including inserts that threw), every search reports at most
`key.length` tokens, returns in every column exactly `matched` addresses without an out-of-range
read, and reports success iff something matched. -/
theorem C02_result_shape (h : List (Bool × Ins C A)) (hok : OkHist h) (e : Int) (key : List Int) :
    let r := search (buildThrow h) e key
    r.matched ≤ key.length ∧ (r.success = true ↔ r.matched ≠ 0) ∧
    ∀ c, ∃ xs, r.cols c = some xs ∧ xs.length = r.matched := by
  have hw := WF_buildThrow h hok
  obtain ⟨s1, s2, s3⟩ := search_shape (buildThrow h) e key hw
  refine ⟨by rw [s1]; exact tot_path_le _ _ _, s2, fun c => ⟨_, s3 c, ?_⟩⟩
  rw [s1]
  exact col_length c _ (fun x hx => (path_fits _ _ _ hw x hx).2)

/-- edge keys of a sibling list -/
def edges : Forest C A → List (List Int × Int)
  | .nil => []
  | .cons toks ex _ _ _ rest => (toks, ex) :: edges rest

/-- all sibling lists of a tree -/
def levels : Forest C A → List (List (List Int × Int))
  | .nil => []
  | .cons toks ex val ref kids rest =>
    edges (.cons toks ex val ref kids rest) :: levels kids ++ levels rest

/-- C02 (supporting): in every reachable tree at most one child of any node matches a given key,
so the iteration order of the `unordered_map` (and its hash) cannot influence insert or search. -/
theorem C02_child_choice_unique (h : List (Bool × Ins C A)) (hok : OkHist h) (e : Int)
    (key : List Int) : ∀ l ∈ levels (buildThrow h),
    l.Pairwise (fun a b => ¬ (matchedLength key e a.1 a.2 ≠ 0 ∧ matchedLength key e b.1 b.2 ≠ 0)) := by
  have hw := WF_buildThrow h hok
  generalize buildThrow h = t at hw
  have hnh : ∀ (f : Forest C A) (x : Int), WF f → key.head? = some x → NoHead f e x →
      ∀ b ∈ edges f, matchedLength key e b.1 b.2 = 0 := by
    intro f x hf hx hn
    induction f with
    | nil => simp [edges]
    | cons toks ex val ref kids rest ihk ihr =>
      obtain ⟨ht, hv, hk, hr, hs, he⟩ := hf
      intro b hb
      rcases List.mem_cons.mp hb with rfl | hb
      · rw [matchedLength_eq_zero_iff (by intro hc; simp [hc] at hx) ht, hx]; exact hn.1
      · exact ihr hr hn.2 b hb
  have hpair : ∀ f : Forest C A, WF f → (edges f).Pairwise
      (fun a b => ¬ (matchedLength key e a.1 a.2 ≠ 0 ∧ matchedLength key e b.1 b.2 ≠ 0)) := by
    intro f hf
    induction f with
    | nil => simp [edges]
    | cons toks ex val ref kids rest ihk ihr =>
      obtain ⟨ht, hv, hk, hr, hs, he⟩ := hf
      simp only [edges, List.pairwise_cons]
      refine ⟨?_, ihr hr⟩
      rintro b hb ⟨h1, h2⟩
      have hkey : key ≠ [] := by
        rintro rfl; simp [matchedLength] at h1
      have h3 : ex = e ∧ toks.head? = key.head? := by
        by_contra hc; exact h1 ((matchedLength_eq_zero_iff hkey ht).mpr hc)
      obtain ⟨x, xs, rfl⟩ := List.exists_cons_of_ne_nil hkey
      obtain ⟨rfl, h3⟩ := h3
      exact h2 (hnh rest x hr rfl (hs x h3) b hb)
  intro l hl
  induction t with
  | nil => simp [levels] at hl
  | cons toks ex val ref kids rest ihk ihr =>
    simp only [levels, List.cons_append, List.mem_cons, List.mem_append] at hl
    rcases hl with rfl | hl | hl
    · exact hpair _ hw
    · exact ihk hw.2.2.1 hl
    · exact ihr hw.2.2.2.1 hl

-- non-vacuity: a throwing insert (one address for two tokens) inside a history
example : OkHist ((true, demo[0]) :: (false, ⟨0, [1, 7], fun _ => [5]⟩) :: [(true, demo[1])]) ∧
    (levels (buildThrow ((true, demo[0]) :: (false, ⟨0, [1, 7], fun _ => [5]⟩) :: [(true, demo[1])]))).length = 3 := by
  constructor
  · intro x hx
    simp [demo] at hx
    rcases hx with rfl | rfl | rfl <;> simp [Ins.Fits]
  · decide

/-! ### C03 insert then search -/

/-- C03, first half: right after `insert key` (on any reachable tree) a search for `key` matches
all of it. -/
theorem C03_insert_then_search (h : List (Bool × Ins C A)) (hok : OkHist h) (r : Ins C A)
    (hr : r.Fits) :
    (search (insert (buildThrow h) r) r.extra r.key).matched = r.key.length := by
  have hw := WF_buildThrow h hok
  have hw' := WF_insertRaw true _ r hw (fun _ => hr)
  rw [show insert (buildThrow h) r = insertRaw true (buildThrow h) r from rfl,
    (search_shape _ _ _ hw').1]
  by_cases hk : r.key = []
  · rw [hk, path_nil_key]; rfl
  · rw [insertRaw_eq _ _ _ hk]; exact tot_path_ins _ _ _ _ _ hw hk

/-- C03, second half, violated in general: `[1,2,4,9]` is found in full right after it was inserted,
but no longer after the later insert of `[1,2,7]`. -/
theorem C03_persistence_violated : ¬ ∀ (h h' : List (Ins Unit Nat)),
    (∀ r ∈ h ++ h', r.Fits) → ∀ e key,
    (search (build h) e key).matched ≤ (search (build (h ++ h')) e key).matched := by
  intro H
  have := H [⟨0, [1, 2, 3], fun _ => [10, 11, 12]⟩, ⟨0, [1, 2, 3, 4], fun _ => [20, 21, 22, 23]⟩,
    ⟨0, [1, 2, 4, 9], fun _ => [30, 31, 32, 33]⟩] [⟨0, [1, 2, 7], fun _ => [40, 41, 42]⟩]
    (by simp [Ins.Fits]) 0 [1, 2, 4, 9]
  revert this
  decide

/-- C03, second half, the part that holds: under separability later inserts never shorten a match. -/
theorem C03_persistence_partial (h h' : List (Ins C A)) (hfit : ∀ r ∈ h ++ h', r.Fits)
    (hsep : SepHist (h ++ h')) (e : Int) (key : List Int) (hq : SepQuery (h ++ h') e key) :
    (search (build h) e key).matched ≤ (search (build (h ++ h')) e key).matched := by
  have l1 := C01_longest_prefix_partial h (fun r hr => hfit r (by simp [hr]))
    (List.pairwise_append.mp hsep).1 e key (fun r hr => hq r (by simp [hr]))
  have l2 := C01_longest_prefix_partial (h ++ h') hfit hsep e key hq
  apply l2.longest
  obtain ⟨c1, c2⟩ := l1.cached
  refine ⟨c1, ?_⟩
  rcases c2 with c2 | ⟨r, hr, c2⟩
  · exact Or.inl c2
  · exact Or.inr ⟨r, by simp [hr], c2⟩

-- non-vacuity: `demo` itself satisfies the hypotheses (see the example above); the match grows
example : (search (build (demo.take 1)) 0 [1, 2, 3, 4]).matched = 3 ∧
    (search (build (demo.take 1 ++ demo.drop 1)) 0 [1, 2, 3, 4]).matched = 4 := by decide

/-! ### C04 namespaces -/

/-- C04: what a search under extra key `e` returns is what it would return had only the inserts made
under `e` been executed. -/
theorem C04_extra_key_isolation (h : List (Bool × Ins C A)) (e : Int) (key : List Int) :
    search (buildThrow h) e key = search (buildThrow (h.filter (fun x => x.2.extra = e))) e key := by
  rw [← proj_buildThrow]
  unfold search
  rw [path_proj]

/-- C04 (consequence for the cache front end): `Cache::find` and `CpuPrefixCache::find` always search
extra key 0, so entries promoted under another extra key are never returned, whatever the history. -/
theorem C04_find_ignores_nonzero_extra (h : List (Bool × Ins C A)) (key : List Int)
    (hne : ∀ x ∈ h, x.2.extra ≠ 0) : (cacheFind (buildThrow h) key).matched = 0 := by
  unfold cacheFind
  rw [C04_extra_key_isolation, List.filter_eq_nil_iff.mpr (by simpa using fun a b hb => hne (a, b) hb)]
  simp [buildThrow, search, path]

example : (search (buildThrow [(true, (⟨7, [1, 2], fun _ => [5, 6]⟩ : Ins Unit Nat)),
    (true, ⟨0, [1, 3], fun _ => [8, 9]⟩)]) 7 [1, 2]).cols () = some [5, 6] := by decide

/-! ### C05 no fabricated addresses -/

/-- C05: every address returned in column `c` (one layer, k or v) under `e` was supplied in the same
column by an insert under the same extra key. -/
theorem C05_addresses_supplied (h : List (Bool × Ins C A)) (hok : OkHist h) (e : Int)
    (key : List Int) (c : C) (xs : List A) (hx : (search (buildThrow h) e key).cols c = some xs) :
    ∀ a ∈ xs, ∃ x ∈ h, x.2.extra = e ∧ a ∈ x.2.val c := by
  have hw := WF_buildThrow h hok
  have hsup : ∀ h : List (Bool × Ins C A),
      Supplied (fun e c a => ∃ x ∈ h, x.2.extra = e ∧ a ∈ x.2.val c) (buildThrow h) := by
    intro h
    induction h using List.reverseRecOn with
    | nil => trivial
    | append_singleton h x ih =>
      rw [buildThrow_snoc]
      have ih' := Supplied_mono (S' := fun e c a => ∃ y ∈ h ++ [x], y.2.extra = e ∧ a ∈ y.2.val c)
        (fun e c a ⟨y, h1, h2⟩ => ⟨y, by simp [h1], h2⟩) _ ih
      by_cases hk : x.2.key = []
      · simpa [insertRaw, hk] using ih'
      · rw [insertRaw_eq _ _ _ hk]
        exact Supplied_ins _ _ _ _ _ _ _ ih' (fun c a ha => ⟨x, by simp, rfl, ha⟩)
  rw [(search_shape _ e key hw).2.2 c] at hx
  cases hx
  intro a ha
  simp only [col, List.mem_flatMap] at ha
  obtain ⟨y, hy, hya⟩ := ha
  exact Supplied_path _ _ _ _ (hsup h) y hy c a (List.mem_of_mem_take hya)

example : OkHist (demo.map (fun r => (true, r))) := by
  intro x hx _
  obtain ⟨r, hr, rfl⟩ := List.mem_map.mp hx
  exact demo_fits r hr

end Verif.Radix
