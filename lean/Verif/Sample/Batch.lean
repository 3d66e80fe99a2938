import Verif.Sample.Filter

/-!
# C68: one request's sampling does not depend on the other requests of the batch
-/

namespace Verif.Sample

open Verif.Gen (mass better sampleGreedy)

/-- What `softmax` must deliver: a probability vector. -/
structure IsSoftmax (softmax : ℚ → (Nat → ℚ) → (Nat → ℚ)) (n : Nat) : Prop where
  nonneg : ∀ t l j, 0 ≤ softmax t l j
  total : ∀ t l, mass (softmax t l) (List.range n) = 1

/-- The options the PyTorch path accepts. -/
def Valid (n : Nat) (r : Req) : Prop := 1 ≤ r.topK ∧ r.topK ≤ n ∧ 0 ≤ r.topP

theorem argmax_pos {p : Nat → ℚ} {n : Nat} (hp : ∀ j, 0 ≤ p j) (h1 : mass p (List.range n) = 1) :
    0 < n ∧ 0 < p (sampleGreedy p n) := by
  have hn : 0 < n := by
    rcases Nat.eq_zero_or_pos n with h | h
    · subst h; simp [mass] at h1
    · exact h
  refine ⟨hn, ?_⟩
  by_contra hcon
  have hz : ∀ j, j < n → p j = 0 := fun j hj =>
    le_antisymm (le_trans ((Verif.Gen.greedy_argmax p n hn).2.1 j hj) (not_lt.mp hcon)) (hp j)
  have : mass p (List.range n) = 0 := by
    unfold mass
    apply List.sum_eq_zero
    intro x hx
    obtain ⟨j, hj, rfl⟩ := List.mem_map.mp hx
    exact hz j (List.mem_range.mp hj)
  rw [this] at h1
  norm_num at h1

/-- One row: an exception exactly for the options outside the accepted range. -/
theorem row_raises_iff (p : Nat → ℚ) (n : Nat) (k : Int) (P : ℚ) (hp : ∀ j, 0 ≤ p j)
    (h1 : mass p (List.range n) = 1) :
    (topKTopP p n k P none ↔ ¬ (1 ≤ k ∧ k ≤ n ∧ 0 ≤ P)) ∧
    ((1 ≤ k ∧ k ≤ n ∧ 0 ≤ P) → ∃ t, topKTopP p n k P (some t)) := by
  obtain ⟨hn, hpos⟩ := argmax_pos hp h1
  obtain ⟨g1, g2, _⟩ := Verif.Gen.greedy_argmax p n hn
  unfold topKTopP
  rw [topKRenorm_spec]
  by_cases hk : 1 ≤ k ∧ k ≤ n
  · simp only [if_pos hk]
    have hbest : better p n (sampleGreedy p n) = [] := by
      unfold better
      rw [List.filter_eq_nil_iff]
      intro j hj
      simpa using g2 j (List.mem_range.mp hj)
    set S := max (mass p (kept p n k.toNat)) (1 / 10 ^ 8)
    have hSpos : 0 < S := lt_of_lt_of_le (by norm_num) (le_max_right _ _)
    set p1 : Nat → ℚ := fun j => (if (better p n j).length < k.toNat then p j else 0) / S with hp1
    have hp1n : ∀ j, 0 ≤ p1 j := by
      intro j
      simp only [hp1]
      apply div_nonneg _ hSpos.le
      split_ifs
      · exact hp j
      · exact le_refl _
    have hp1g : 0 < p1 (sampleGreedy p n) := by
      simp only [hp1, hbest, List.length_nil]
      rw [if_pos (by omega)]
      exact div_pos hpos hSpos
    -- weights for a non-negative threshold
    have hw : 0 ≤ P → ∀ idx, Verif.Gen.FullSorted p1 n idx →
        ∃ t, t < n ∧ 0 < topPRenorm p1 n P idx t ∧ 0 < mass (topPRenorm p1 n P idx) (List.range n) := by
      intro hP idx hs
      cases hidx : idx with
      | nil =>
        have := hs.perm.length_eq
        rw [hidx] at this; simp at this; omega
      | cons t ts =>
        have htn : t < n := List.mem_range.mp (hs.perm.subset (by rw [hidx]; exact List.mem_cons_self))
        have hpt : 0 < p1 t := by
          obtain ⟨i, hi⟩ := List.mem_iff_getElem?.mp
            (hs.perm.symm.subset (List.mem_range.mpr g1))
          have := hs.ge (i := 0) (t := t) (by rw [hidx]; rfl) hi (Nat.zero_le _)
          exact lt_of_lt_of_le hp1g this
        have hwt : 0 < topPRenorm p1 n P (t :: ts) t := by
          rw [topPRenorm_head hP t ts rfl]
          exact div_pos hpt (clampSum_pos _ _)
        refine ⟨t, htn, hwt, lt_of_lt_of_le hwt (le_mass ?_ (List.mem_range.mpr htn))⟩
        intro j _
        unfold topPRenorm
        apply div_nonneg _ (clampSum_pos _ _).le
        dsimp only
        split_ifs
        · exact le_refl _
        · exact hp1n j
    -- a sorted arrangement exists
    have hex : ∃ idx, Verif.Gen.FullSorted p1 n idx := by
      refine ⟨(List.range n).mergeSort (fun a b => decide (p1 b ≤ p1 a)),
        List.mergeSort_perm _ _, ?_⟩
      have := List.pairwise_mergeSort (le := fun a b : Nat => decide (p1 b ≤ p1 a))
        (fun a b c h1 h2 => by simp at *; exact le_trans h2 h1)
        (fun a b => by simp; exact le_total _ _) (List.range n)
      exact this.imp (by intro a b h; simpa using h)
    constructor
    · constructor
      · rintro ⟨idx, hs, hm⟩ ⟨_, _, hP⟩
        obtain ⟨_, _, _, hmass⟩ := hw hP idx hs
        unfold multinomial at hm
        rw [if_neg (not_le.mpr hmass)] at hm
        obtain ⟨_, _, _, h⟩ := hm
        cases h
      · intro hnot
        have hP : P < 0 := by
          by_contra hcon
          exact hnot ⟨hk.1, hk.2, not_lt.mp hcon⟩
        obtain ⟨idx, hs⟩ := hex
        refine ⟨idx, hs, ?_⟩
        unfold multinomial
        have : mass (topPRenorm p1 n P idx) (List.range n) = 0 := by
          unfold mass
          apply List.sum_eq_zero
          intro x hx
          obtain ⟨j, hj, rfl⟩ := List.mem_map.mp hx
          exact topPRenorm_neg hP hs.perm (fun j _ => hp1n j) j (List.mem_range.mp hj)
        rw [if_pos this.le]
    · rintro ⟨_, _, hP⟩
      obtain ⟨idx, hs⟩ := hex
      obtain ⟨t, htn, hwt, hmass⟩ := hw hP idx hs
      refine ⟨t, idx, hs, ?_⟩
      unfold multinomial
      rw [if_neg (not_le.mpr hmass)]
      exact ⟨t, htn, hwt, rfl⟩
  · simp only [if_neg hk]
    refine ⟨⟨fun _ h => hk ⟨h.1, h.2.1⟩, fun _ => trivial⟩, fun h => absurd ⟨h.1, h.2.1⟩ hk⟩

/-- The logits a request should be sampled from: its own, with its own penalties. -/
def ownLogits (n : Nat) (r : Req) : Nat → ℚ := applyPenalty n r.penalty r.history r.logits

theorem rowLogits_own (n : Nat) (b : List Req) (r : Req) (hr : r ∈ b) :
    rowLogits n b r = ownLogits n r := by
  unfold rowLogits ownLogits
  split_ifs with h
  · rfl
  · have h' : r.penalty.rep = 1 ∧ r.penalty.freq = 0 ∧ r.penalty.pres = 0 := by
      unfold hasPenalties at h
      simp only [Bool.or_eq_true, List.any_eq_true, decide_eq_true_eq, not_or, not_exists, not_and,
        not_not] at h
      exact ⟨h.1.1 r hr, h.1.2 r hr, h.2 r hr⟩
    unfold applyPenalty
    rw [if_pos h']
    split_ifs <;> rfl

/-- The batch is a greedy one. -/
def AllGreedy (b : List Req) : Prop := ∀ r ∈ b, r.temperature < eps

theorem all_iff (b : List Req) : b.all (fun r => isGreedy r.temperature) = true ↔ AllGreedy b := by
  unfold AllGreedy isGreedy; simp [List.all_eq_true]

/-- **C68, when a batch fails.** For every batch and every softmax: the sampling step of a batch
raises an exception exactly when some request of it is not greedy and some request (the same or
another one) carries a `top_k` outside `1 … vocab_size` or a negative `top_p`. -/
theorem batch_raises_iff (softmax : ℚ → (Nat → ℚ) → (Nat → ℚ)) (n : Nat) (hsm : IsSoftmax softmax n)
    (b : List Req) :
    sampleBatch softmax n b none ↔ ¬ AllGreedy b ∧ ∃ r ∈ b, ¬ Valid n r := by
  unfold sampleBatch
  by_cases h : b.all (fun r => isGreedy r.temperature)
  · rw [if_pos h]
    have := (all_iff b).mp h
    simp [this]
  · rw [if_neg h]
    have hng : ¬ AllGreedy b := fun hc => h ((all_iff b).mpr hc)
    simp only [hng, not_false_eq_true, true_and]
    constructor
    · rintro ⟨r, hr, h⟩
      exact ⟨r, hr, ((row_raises_iff _ n r.topK r.topP (hsm.nonneg _ _) (hsm.total _ _)).1.mp h)⟩
    · rintro ⟨r, hr, h⟩
      exact ⟨r, hr, ((row_raises_iff _ n r.topK r.topP (hsm.nonneg _ _) (hsm.total _ _)).1.mpr h)⟩

theorem forall₂_exists {α β : Type} {R : α → β → Prop} :
    ∀ (l : List α), (∀ a ∈ l, ∃ b, R a b) → ∃ m, List.Forall₂ R l m := by
  intro l
  induction l with
  | nil => intro _; exact ⟨[], .nil⟩
  | cons a l ih =>
    intro h
    obtain ⟨b, hb⟩ := h a List.mem_cons_self
    obtain ⟨m, hm⟩ := ih (fun x hx => h x (List.mem_cons_of_mem _ hx))
    exact ⟨b :: m, .cons hb hm⟩

theorem forall₂_fill {α β : Type} {R : α → β → Prop} :
    ∀ (l : List α), (∀ a ∈ l, ∃ b, R a b) → ∀ (i : Nat) (a : α), l[i]? = some a →
      ∀ b, R a b → ∃ m, List.Forall₂ R l m ∧ m[i]? = some b := by
  intro l
  induction l with
  | nil => intro _ i a h; simp at h
  | cons x l ih =>
    intro h i a hi b hb
    cases i with
    | zero =>
      obtain rfl : x = a := by simpa using hi
      obtain ⟨m, hm⟩ := forall₂_exists l (fun y hy => h y (List.mem_cons_of_mem _ hy))
      exact ⟨b :: m, .cons hb hm, rfl⟩
    | succ i =>
      obtain ⟨c, hc⟩ := h x List.mem_cons_self
      obtain ⟨m, hm, hmi⟩ := ih (fun y hy => h y (List.mem_cons_of_mem _ hy)) i a
        (by simpa using hi) b hb
      exact ⟨c :: m, .cons hc hm, by simpa using hmi⟩

theorem forall₂_get {α β : Type} {R : α → β → Prop} {l : List α} {m : List β}
    (h : List.Forall₂ R l m) : ∀ (i : Nat) (a : α) (b : β), l[i]? = some a → m[i]? = some b → R a b := by
  induction h with
  | nil => intro i a b h; simp at h
  | cons hab _ ih =>
    intro i a b hi hj
    cases i with
    | zero => simp at hi hj; subst hi; subst hj; exact hab
    | succ i => exact ih i a b (by simpa using hi) (by simpa using hj)

/-- A token that the row of request `r` can yield. -/
def Rowrel (softmax : ℚ → (Nat → ℚ) → (Nat → ℚ)) (n : Nat) (b : List Req) (r : Req) (t : Nat) :
    Prop :=
  topKTopP (softmax (max r.temperature eps) (rowLogits n b r)) n r.topK r.topP (some t)

/-- `t` is a token request number `i` of the batch can receive. -/
def CanReceive (softmax : ℚ → (Nat → ℚ) → (Nat → ℚ)) (n : Nat) (b : List Req) (i t : Nat) : Prop :=
  ∃ ts, sampleBatch softmax n b (some ts) ∧ ts[i]? = some t

/-- **C68, the part that holds for sampled requests.** If all requests of the batch carry accepted
options, the tokens a request with a temperature of at least 1e-6 can receive are determined by its
own logits, history and options, whatever the other requests are. -/
theorem sampled_isolated_partial (softmax : ℚ → (Nat → ℚ) → (Nat → ℚ)) (n : Nat)
    (hsm : IsSoftmax softmax n) (b : List Req) (hv : ∀ r ∈ b, Valid n r) (i : Nat) (r : Req)
    (hi : b[i]? = some r) (ht : eps ≤ r.temperature) (t : Nat) :
    CanReceive softmax n b i t ↔
      topKTopP (softmax r.temperature (ownLogits n r)) n r.topK r.topP (some t) := by
  have hr : r ∈ b := List.mem_of_getElem? hi
  have hng : ¬ b.all (fun r => isGreedy r.temperature) = true := by
    rw [all_iff]
    intro h
    exact absurd (h r hr) (not_lt.mpr ht)
  have hprob : softmax (max r.temperature eps) (rowLogits n b r) =
      softmax r.temperature (ownLogits n r) := by
    rw [rowLogits_own n b r hr, max_eq_left ht]
  unfold CanReceive sampleBatch
  simp only [if_neg hng]
  constructor
  · rintro ⟨ts, h, hti⟩
    have := forall₂_get h i r t hi hti
    rwa [hprob] at this
  · intro h
    rw [← hprob] at h
    have hex : ∀ a ∈ b, ∃ t, Rowrel softmax n b a t := by
      intro a ha
      obtain ⟨v1, v2, v3⟩ := hv a ha
      exact (row_raises_iff (softmax (max a.temperature eps) (rowLogits n b a)) n a.topK
        a.topP (hsm.nonneg _ _) (hsm.total _ _)).2 ⟨v1, v2, v3⟩
    obtain ⟨m, hm, hmi⟩ := forall₂_fill b hex i r hi t h
    exact ⟨m, hm, hmi⟩

/-- **C68, the part that holds for greedy requests.** In a batch of greedy requests every request
receives exactly the lowest-numbered token of maximal penalised logit, whatever its other options
and whatever the other requests are. -/
theorem greedy_isolated_partial (softmax : ℚ → (Nat → ℚ) → (Nat → ℚ)) (n : Nat)
    (b : List Req) (hg : AllGreedy b) (i : Nat) (r : Req) (hi : b[i]? = some r) (t : Nat) :
    CanReceive softmax n b i t ↔ t = sampleGreedy (ownLogits n r) n := by
  have hr : r ∈ b := List.mem_of_getElem? hi
  unfold CanReceive sampleBatch
  simp only [if_pos ((all_iff b).mpr hg)]
  constructor
  · rintro ⟨ts, h, hti⟩
    cases h
    rw [List.getElem?_map, hi] at hti
    simp only [Option.map_some, Option.some.injEq] at hti
    rw [← hti, rowLogits_own n b r hr]
  · rintro rfl
    refine ⟨_, rfl, ?_⟩
    rw [List.getElem?_map, hi]
    simp only [Option.map_some, Option.some.injEq]
    rw [rowLogits_own n b r hr]

/-- **C68 is violated (1).** A request with all options at their defaults (no `top_k` given, which
is collected as -1) makes every batch it is sampled in raise: no request of the batch gets a
token. -/
theorem default_request_violated (softmax : ℚ → (Nat → ℚ) → (Nat → ℚ)) (n : Nat)
    (hsm : IsSoftmax softmax n) (l : Nat → ℚ) (b : List Req)
    (hb : ({ logits := l } : Req) ∈ b) :
    sampleBatch softmax n b none ∧ ∀ i t, ¬ CanReceive softmax n b i t := by
  have hng : ¬ AllGreedy b := by
    intro h
    have := h _ hb
    norm_num [eps] at this
  have hnv : ¬ Valid n ({ logits := l } : Req) := by
    unfold Valid; simp
  refine ⟨(batch_raises_iff softmax n hsm b).mpr ⟨hng, _, hb, hnv⟩, ?_⟩
  rintro i t ⟨ts, h, _⟩
  unfold sampleBatch at h
  rw [if_neg (fun h => hng ((all_iff b).mp h))] at h
  obtain ⟨j, hj⟩ := List.mem_iff_getElem?.mp hb
  have hlt : j < ts.length := by
    have := h.length_eq
    have := (List.getElem?_eq_some_iff.mp hj).1
    omega
  have := forall₂_get h j _ ts[j] hj (List.getElem?_eq_getElem hlt)
  unfold topKTopP at this
  rw [topKRenorm_spec, if_neg (by simp)] at this
  cases this

/-- A uniform softmax stands for any softmax on equal logits. -/
def uniform (n : Nat) : ℚ → (Nat → ℚ) → (Nat → ℚ) := fun _ _ _ => 1 / n

theorem uniform_ok (n : Nat) (hn : 0 < n) : IsSoftmax (uniform n) n := by
  refine ⟨fun _ _ _ => by unfold uniform; positivity, fun _ _ => ?_⟩
  unfold mass uniform
  rw [List.map_const', List.sum_replicate, List.length_range]
  have : (n : ℚ) ≠ 0 := by exact_mod_cast hn.ne'
  rw [nsmul_eq_mul]
  exact mul_one_div_cancel this

/-- A greedy request whose two logits are equal, and a sampled one. -/
def tiedGreedy : Req := { logits := fun _ => 5, temperature := 0, topK := 2 }
def sampled : Req := { logits := fun _ => 1, temperature := 1, topK := 2 }

/-- **C68 is violated (2).** A request with temperature 0 and two equal best logits: alone it can
only receive token 0, next to a sampled request it can also receive token 1.  (For every softmax
that gives equal logits equal probabilities.) -/
theorem greedy_mixed_violated (softmax : ℚ → (Nat → ℚ) → (Nat → ℚ)) (hsm : IsSoftmax softmax 2)
    (heq : ∀ t c j, j < 2 → softmax t (fun _ => c) j = 1 / 2) :
    (∀ t, CanReceive softmax 2 [tiedGreedy] 0 t ↔ t = 0) ∧
    CanReceive softmax 2 [tiedGreedy, sampled] 0 1 := by
  refine ⟨?_, ?_⟩
  · intro t
    rw [greedy_isolated_partial softmax 2 [tiedGreedy] (by
      intro r hr; simp at hr; subst hr; norm_num [tiedGreedy, eps]) 0 tiedGreedy rfl t]
    have : sampleGreedy (ownLogits 2 tiedGreedy) 2 = 0 := by
      have : ownLogits 2 tiedGreedy = fun _ => 5 := by simp [ownLogits, applyPenalty, tiedGreedy]
      rw [this]; decide +kernel
    rw [this]
  · have hrow : ∀ r ∈ [tiedGreedy, sampled], ∃ c, rowLogits 2 [tiedGreedy, sampled] r = fun _ => c := by
      intro r hr
      rw [rowLogits_own 2 _ r hr]
      simp at hr
      rcases hr with rfl | rfl
      · exact ⟨5, by simp [ownLogits, applyPenalty, tiedGreedy]⟩
      · exact ⟨1, by simp [ownLogits, applyPenalty, sampled]⟩
    have hng : ¬ List.all [tiedGreedy, sampled] (fun r => isGreedy r.temperature) = true := by
      rw [all_iff]; intro h
      have := h sampled (by simp)
      norm_num [sampled, eps] at this
    have key : ∀ T c t, t < 2 → topKTopP (softmax T (fun _ => c)) 2 2 1 (some t) := by
      intro T c t ht
      have hmass : ∀ f : Nat → ℚ, mass f (List.range 2) = f 0 + f 1 := by
        intro f; simp [mass, List.range_succ]
      have hbetter : ∀ j, j < 2 → better (softmax T fun _ => c) 2 j = [] := by
        intro j hj
        unfold better
        rw [List.filter_eq_nil_iff]
        intro i hi
        rw [heq T c i (List.mem_range.mp hi), heq T c j hj]; simp
      have hkept : kept (softmax T fun _ => c) 2 2 = List.range 2 := by
        unfold kept
        rw [List.filter_eq_self]
        intro j hj
        rw [hbetter j (List.mem_range.mp hj)]; simp
      have hkm : mass (softmax T fun _ => c) (kept (softmax T fun _ => c) 2 (Int.toNat 2)) = 1 := by
        rw [show Int.toNat 2 = 2 from rfl, hkept, hsm.total]
      unfold topKTopP
      rw [topKRenorm_spec, if_pos (by norm_num), hkm]
      simp only
      set p1 : Nat → ℚ := fun j => (if (better (softmax T fun _ => c) 2 j).length < Int.toNat 2 then
        softmax T (fun _ => c) j else 0) / max 1 (1 / 10 ^ 8) with hp1
      have hp1v : ∀ j, j < 2 → p1 j = 1 / 2 := by
        intro j hj
        simp only [hp1]
        rw [hbetter j hj, heq T c j hj]
        norm_num
      have h0 := hp1v 0 (by omega)
      have h1 := hp1v 1 (by omega)
      refine ⟨[0, 1], ⟨by decide +kernel, ?_⟩, ?_⟩
      · simp only [List.pairwise_cons, List.mem_singleton, forall_eq]
        rw [h0, h1]; simp
      · have hres : ∀ j, j < 2 →
            (if cumsum p1 [0, 1] (List.idxOf j [0, 1]) - p1 j > 1 then (0 : ℚ) else p1 j) = 1 / 2 := by
          intro j hj
          rw [cumsum_sub p1 [0, 1] j (by simp; omega), hp1v j hj]
          have : j = 0 ∨ j = 1 := by omega
          rcases this with rfl | rfl
          · norm_num [mass]
          · have hi1 : List.idxOf 1 [0, 1] = 1 := by decide
            rw [hi1]
            simp only [mass, List.take_succ_cons, List.take_zero, List.map_cons, List.map_nil,
              List.sum_cons, List.sum_nil]
            rw [h0]; norm_num
        have hw : ∀ j, j < 2 → topPRenorm p1 2 1 [0, 1] j = 1 / 2 := by
          intro j hj
          unfold topPRenorm
          simp only
          rw [hres j hj]
          unfold clampSum
          rw [hmass]
          rw [hres 0 (by omega), hres 1 (by omega)]
          norm_num
        unfold multinomial
        rw [hmass, hw 0 (by omega), hw 1 (by omega), if_neg (by norm_num)]
        exact ⟨t, ht, by rw [hw t ht]; norm_num, rfl⟩
    refine ⟨[1, 0], ?_, rfl⟩
    unfold sampleBatch
    rw [if_neg hng]
    simp only
    obtain ⟨c1, hc1⟩ := hrow tiedGreedy (by simp)
    obtain ⟨c2, hc2⟩ := hrow sampled (by simp)
    refine .cons ?_ (.cons ?_ .nil)
    · rw [hc1]; exact key _ _ 1 (by omega)
    · rw [hc2]; exact key _ _ 0 (by omega)

/-- The hypotheses are met by the uniform softmax; accepted options exist. -/
example : IsSoftmax (uniform 2) 2 ∧ (∀ t c j, j < 2 → uniform 2 t (fun _ => c) j = 1 / 2) ∧
    (∀ r ∈ [tiedGreedy, sampled], Valid 2 r) ∧ [tiedGreedy, sampled][1]? = some sampled ∧
    eps ≤ sampled.temperature := by
  refine ⟨uniform_ok 2 (by omega), fun _ _ _ _ => by unfold uniform; norm_num, ?_, rfl,
    by norm_num [sampled, eps]⟩
  intro r hr
  simp at hr
  rcases hr with rfl | rfl <;> norm_num [Valid, tiedGreedy, sampled]

end Verif.Sample
