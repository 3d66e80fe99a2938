import Verif.Prelude
import Verif.Radix.Props
import Verif.Evict.Model
/-
C11: sliding-window eviction of the CPU prefix cache.
-/
namespace Verif.Evict
open Verif.Radix

variable {C A : Type} [DecidableEq A]

/-- Inserts that do not throw supply enough addresses. -/
def OkActs (h : List (Act C A)) : Prop := ∀ a ∈ h, ∀ r, a = .promote true r → r.Fits

theorem toEvict_le (w cnt ml : Nat) : toEvict w cnt ml ≤ ml := by
  unfold toEvict; split <;> omega

theorem matchedLength_le (key toks : List Int) (e ex : Int) :
    matchedLength key e toks ex ≤ toks.length := by
  unfold matchedLength; split
  · omega
  · exact commonLen_le_right _ _

theorem noHead_evictWalk (inv : A) (w : Nat) (slide : C → Bool) (f : Forest C A) (key : List Int)
    (e x : Int) : NoHead (evictWalk inv w slide f key).1 e x ↔ NoHead f e x := by
  induction f generalizing key with
  | nil => simp [evictWalk]
  | cons toks ex val ref kids rest ihk ihr =>
    simp only [evictWalk]
    split
    · rfl
    · split
      · simp [NoHead, ihr]
      · simp [NoHead]

theorem allExtra_evictWalk (inv : A) (w : Nat) (slide : C → Bool) (f : Forest C A) (key : List Int)
    (e : Int) : AllExtra (evictWalk inv w slide f key).1 e ↔ AllExtra f e := by
  induction f generalizing key with
  | nil => simp [evictWalk]
  | cons toks ex val ref kids rest ihk ihr =>
    simp only [evictWalk]
    split
    · rfl
    · split
      · simp [AllExtra, ihr]
      · simp [AllExtra]

theorem WF_evictWalk (inv : A) (w : Nat) (slide : C → Bool) (f : Forest C A) (key : List Int)
    (hf : WF f) : WF (evictWalk inv w slide f key).1 := by
  induction f generalizing key with
  | nil => simpa [evictWalk] using hf
  | cons toks ex val ref kids rest ihk ihr =>
    have hf0 := hf
    obtain ⟨ht, hv, hk, hr, hs, he⟩ := hf
    simp only [evictWalk]
    split
    · exact hf0
    · split
      · exact ⟨ht, hv, hk, ihr _ hr, fun x hx => (noHead_evictWalk ..).mpr (hs x hx), he⟩
      · refine ⟨ht, fun c => ?_, ihk _ hk, hr, hs, (allExtra_evictWalk ..).mpr he⟩
        dsimp only
        split
        · have h1 := toEvict_le w (evictWalk inv w slide kids
            (key.drop (matchedLength key 0 toks ex))).2.1 (matchedLength key 0 toks ex)
          have h2 := matchedLength_le key toks 0 ex
          have h3 := hv c
          simp only [List.length_append, List.length_replicate, List.length_drop]
          omega
        · exact hv c

theorem cnt_evictWalk (inv : A) (w : Nat) (slide : C → Bool) (f : Forest C A) (key : List Int) :
    (evictWalk inv w slide f key).2.1 = tot (path f 0 key) := by
  induction f generalizing key with
  | nil => simp [evictWalk, path]
  | cons toks ex val ref kids rest ihk ihr =>
    simp only [evictWalk, path]
    split
    · simp
    · split
      · exact ihr _
      · simp [ihk]; omega

theorem WF_run (inv : A) (o : Opts C) (h : List (Act C A)) (hok : OkActs h) : WF (run inv o h) := by
  induction h using List.reverseRecOn with
  | nil => trivial
  | append_singleton h a ih =>
    have ih' := ih (fun x hx => hok x (by simp [hx]))
    unfold run at ih' ⊢
    rw [List.foldl_append]
    simp only [List.foldl_cons, List.foldl_nil]
    cases a with
    | promote ok r =>
      exact WF_insertRaw ok _ r ih' (fun hk => hok (.promote ok r) (by simp) r (by rw [hk]))
    | evict key =>
      dsimp only
      generalize List.foldl _ _ h = t at ih'
      unfold evict
      split
      · exact ih'
      · split
        · exact ih'
        · dsimp only
          split
          · exact WF_evictWalk _ _ _ _ _ ih'
          · exact ih'

/-- the evicted key itself -/
theorem evictWalk_self (inv : A) (w : Nat) (slide : C → Bool) (f : Forest C A) (key : List Int)
    (hf : WF f) (c : C) :
    tot (path (evictWalk inv w slide f key).1 0 key) = tot (path f 0 key) ∧
    (slide c = true →
      col c (path (evictWalk inv w slide f key).1 0 key) =
        List.replicate (tot (path f 0 key) - w) inv ++
          (col c (path f 0 key)).drop (tot (path f 0 key) - w) ∧
      ((evictWalk inv w slide f key).2.2 c).Perm
        (((col c (path f 0 key)).take (tot (path f 0 key) - w)).filter (· ≠ inv))) ∧
    (slide c = false →
      col c (path (evictWalk inv w slide f key).1 0 key) = col c (path f 0 key) ∧
      (evictWalk inv w slide f key).2.2 c = []) := by
  induction f generalizing key with
  | nil => simp [evictWalk, path]
  | cons toks ex val ref kids rest ihk ihr =>
    obtain ⟨ht, hv, hk, hr, hs, he⟩ := hf
    by_cases hkey : key = []
    · simp [evictWalk, path, hkey]
    · by_cases hml : matchedLength key 0 toks ex = 0
      · have := ihr key hr
        simpa only [evictWalk, path, hkey, hml, if_true, if_false] using this
      · obtain ⟨i1, i2, i3⟩ := ihk (key.drop (matchedLength key 0 toks ex)) hk
        have hc := cnt_evictWalk inv w slide kids (key.drop (matchedLength key 0 toks ex))
        have hle := matchedLength_le key toks 0 ex
        have hvc := hv c
        simp only [evictWalk, path, hkey, hml, if_false, tot_cons, col_cons]
        generalize hm : matchedLength key 0 toks ex = ml at *
        have hclen : (col c (path kids 0 (key.drop ml))).length = tot (path kids 0 (key.drop ml)) :=
          col_length c _ (fun x hx => (path_fits _ _ _ hk x hx).2)
        generalize hn : tot (path kids 0 (key.drop ml)) = n at *
        generalize hcol : col c (path kids 0 (key.drop ml)) = S at *
        rw [hc]
        refine ⟨by omega, fun hsl => ?_, fun hsl => ?_⟩
        · obtain ⟨j1, j2⟩ := i2 hsl
          rw [j1]
          simp only [hsl, if_true]
          by_cases hnw : n ≥ w
          · have e1 : toEvict w n ml = ml := by unfold toEvict; split <;> omega
            have e2 : ml + n - w = ml + (n - w) := by omega
            have e3 : ((val c).take ml).length = ml := by simp; omega
            rw [e1, e2]
            constructor
            · rw [List.take_append_of_le_length (by simp), List.take_of_length_le (by simp),
                List.drop_append]
              simp only [e3, Nat.add_sub_cancel_left]
              rw [show List.drop (ml + (n - w)) ((val c).take ml) = [] from
                List.drop_of_length_le (by omega), List.nil_append, List.replicate_add,
                List.append_assoc]
            · rw [List.take_append]
              simp only [e3, Nat.add_sub_cancel_left, List.take_take, List.filter_append]
              rw [Nat.min_eq_right (by omega)]
              exact (j2.append_right _).trans List.perm_append_comm
          · have e1 : toEvict w n ml = ml + n - w := by unfold toEvict; split <;> omega
            have e2 : n - w = 0 := by omega
            have e3 : ((val c).take ml).length = ml := by simp; omega
            rw [e1]
            rw [e2] at j2 ⊢
            simp only [List.replicate_zero, List.drop_zero, List.nil_append, List.take_zero,
              List.filter_nil, List.perm_nil] at j2 ⊢
            rw [j2]
            constructor
            · rw [List.drop_append_of_le_length (by omega), ← List.append_assoc]
              congr 1
              rw [List.take_append]
              simp only [List.length_replicate]
              rw [List.take_of_length_le (by simp; omega), List.drop_take]
            · rw [List.take_append_of_le_length (by omega), List.take_take,
                Nat.min_eq_left (by omega), List.nil_append]
        · obtain ⟨j1, j2⟩ := i3 hsl
          rw [j1, j2]
          simp [hsl]

/-- Entries of any lookup change only to INVALID, and only if the address was freed. -/
theorem evictWalk_other (inv : A) (w : Nat) (slide : C → Bool) (f : Forest C A) (key : List Int)
    (hf : WF f) (c : C) (e : Int) (q : List Int) :
    tot (path (evictWalk inv w slide f key).1 e q) = tot (path f e q) ∧
    List.Forall₂ (fun a b => b = a ∨
        (b = inv ∧ (a = inv ∨ a ∈ (evictWalk inv w slide f key).2.2 c) ∧ e = 0))
      (col c (path f e q)) (col c (path (evictWalk inv w slide f key).1 e q)) := by
  induction f generalizing key q with
  | nil => simp [evictWalk, path]
  | cons toks ex val ref kids rest ihk ihr =>
    obtain ⟨ht, hv, hk, hr, hs, he⟩ := hf
    have hrefl : ∀ (l : List A) (P : A → A → Prop), List.Forall₂ (fun a b => b = a ∨ P a b) l l :=
      fun l P => List.forall₂_same.mpr (fun x _ => Or.inl rfl)
    by_cases hkey : key = []
    · simp only [evictWalk, hkey, if_true, true_and]; exact hrefl _ _
    · by_cases hml : matchedLength key 0 toks ex = 0
      · simp only [evictWalk, hkey, hml, if_true, if_false]
        by_cases hq : q = []
        · subst hq; simp [path]
        · simp only [path, hq, if_false]
          split
          · exact ihr key hr q
          · simp only [tot_cons, col_cons, true_and]; exact hrefl _ _
      · simp only [evictWalk, hkey, hml, if_false]
        by_cases hq : q = []
        · subst hq; simp [path]
        · simp only [path, hq, if_false]
          by_cases hmq : matchedLength q e toks ex = 0
          · simp only [hmq, if_true, true_and]; exact hrefl _ _
          · simp only [hmq, if_false, tot_cons, col_cons]
            obtain ⟨j1, j2⟩ := ihk (key.drop (matchedLength key 0 toks ex)) hk
              (q.drop (matchedLength q e toks ex))
            have he0 : e = 0 := by
              have h1 := (matchedLength_ne_zero hml).1
              have h2 := (matchedLength_ne_zero hmq).1
              omega
            refine ⟨by rw [j1], List.rel_append ?_ (j2.imp ?_)⟩
            · generalize hkk : toEvict w (evictWalk inv w slide kids
                  (key.drop (matchedLength key 0 toks ex))).2.1 (matchedLength key 0 toks ex) = k
              cases hsl : slide c
              · simp only [Bool.false_eq_true, if_false]; exact hrefl _ _
              · simp only [if_true]
                have hk' : k ≤ (val c).length := by
                  have h1 := toEvict_le w (evictWalk inv w slide kids
                    (key.drop (matchedLength key 0 toks ex))).2.1 (matchedLength key 0 toks ex)
                  have h2 := matchedLength_le key toks 0 ex
                  have h3 := hv c
                  omega
                rw [List.forall₂_iff_get]
                refine ⟨by simp; omega, ?_⟩
                intro i hi hi'
                simp only [List.get_eq_getElem, List.getElem_take]
                by_cases hik : i < k
                · right
                  refine ⟨by rw [List.getElem_append_left (by simpa using hik)]; simp, ?_, he0⟩
                  by_cases hinv : (val c)[i]'(by simp at hi; omega) = inv
                  · exact Or.inl hinv
                  · right
                    simp only [List.mem_append, List.mem_filter]
                    right
                    refine ⟨?_, by simpa using hinv⟩
                    rw [List.mem_take_iff_getElem]
                    exact ⟨i, by simp at hi; omega, rfl⟩
                · left
                  rw [List.getElem_append_right (by simpa using hik)]
                  simp only [List.length_replicate, List.getElem_drop]
                  congr 1; omega
            · intro a b hab
              rcases hab with hab | ⟨h1, h2, h3⟩
              · exact Or.inl hab
              · refine Or.inr ⟨h1, ?_, h3⟩
                rcases h2 with h2 | h2
                · exact Or.inl h2
                · exact Or.inr (by simp [h2])

theorem commonLen_shared (p : Nat) (a b t : List Int) (h : a.take p = b.take p) :
    min p (commonLen a t) = min p (commonLen b t) := by
  induction p generalizing a b t with
  | zero => simp
  | succ p ih =>
    cases a with
    | nil => cases b with
      | nil => rfl
      | cons y ys => simp at h
    | cons x xs => cases b with
      | nil => simp at h
      | cons y ys =>
        simp only [List.take_succ_cons, List.cons.injEq] at h
        obtain ⟨rfl, h⟩ := h
        cases t with
        | nil => simp
        | cons z zs =>
          have := ih xs ys zs h
          simp only [commonLen]
          split
          · omega
          · simp

/-- A lookup sharing an evicted prefix sees the eviction. -/
theorem evictWalk_shared (inv : A) (w : Nat) (slide : C → Bool) (f : Forest C A) (key : List Int)
    (hf : WF f) (c : C) (hsl : slide c = true) (q : List Int) (i : Nat)
    (hi : i + w < tot (path f 0 key)) (hq : q.take (i + 1) = key.take (i + 1)) :
    (col c (path (evictWalk inv w slide f key).1 0 q))[i]? = some inv := by
  induction f generalizing key q i with
  | nil => simp [path] at hi
  | cons toks ex val ref kids rest ihk ihr =>
    obtain ⟨ht, hv, hk, hr, hs, he⟩ := hf
    have hkey : key ≠ [] := by
      rintro rfl; simp [path] at hi
    have hqne : q ≠ [] := by
      rintro rfl
      rw [List.take_nil] at hq
      cases key with
      | nil => exact hkey rfl
      | cons => simp at hq
    have hmin := commonLen_shared (i + 1) q key toks hq
    have hmm : min (i + 1) (matchedLength q 0 toks ex) = min (i + 1) (matchedLength key 0 toks ex) := by
      unfold matchedLength; split
      · rfl
      · exact hmin
    have hn := tot_path_le (Forest.cons toks ex val ref kids rest) 0 key
    simp only [path, hkey, if_false] at hi hn
    by_cases hml : matchedLength key 0 toks ex = 0
    · have hmq : matchedLength q 0 toks ex = 0 := by omega
      simp only [hml, if_true] at hi
      simp only [evictWalk, hkey, hml, hmq, hqne, path, if_true, if_false]
      exact ihr key hr q i hi hq
    · have hmq : matchedLength q 0 toks ex ≠ 0 := by omega
      have hc := cnt_evictWalk inv w slide kids (key.drop (matchedLength key 0 toks ex))
      have hle := matchedLength_le key toks 0 ex
      have hle2 := matchedLength_le q toks 0 ex
      have hvc := hv c
      simp only [hml, if_false, tot_cons] at hi hn
      simp only [evictWalk, hkey, hml, hqne, hmq, path, if_false, col_cons, hsl, if_true]
      rw [hc]
      generalize hkm : matchedLength key 0 toks ex = ml at *
      generalize hqm : matchedLength q 0 toks ex = mq at *
      generalize hnn : tot (path kids 0 (key.drop ml)) = n at *
      have hte : toEvict w n ml ≤ ml := toEvict_le _ _ _
      have hlen : (List.replicate (toEvict w n ml) inv ++ (val c).drop (toEvict w n ml)).length
          = toks.length := by simp; omega
      by_cases him : i < ml
      · have : i < toEvict w n ml := by unfold toEvict; split <;> omega
        rw [List.getElem?_append_left (by rw [List.length_take]; omega),
          List.getElem?_take_of_lt (by omega), List.getElem?_append_left (by simpa using this)]
        simp [this]
      · have hmeq : mq = ml := by omega
        subst hmeq
        rw [List.getElem?_append_right (by rw [List.length_take]; omega), List.length_take, hlen,
          Nat.min_eq_left hle2]
        apply ihk _ hk _ (i - mq) (by omega)
        have := congrArg (List.drop mq) hq
        rw [List.drop_take, List.drop_take] at this
        rw [show i - mq + 1 = i + 1 - mq by omega]
        exact this

theorem evictWalk_again (inv : A) (w : Nat) (slide : C → Bool) (f : Forest C A) (key : List Int)
    (hf : WF f) :
    evictWalk inv w slide (evictWalk inv w slide f key).1 key =
      ((evictWalk inv w slide f key).1, (evictWalk inv w slide f key).2.1, fun _ => []) := by
  induction f generalizing key with
  | nil => simp [evictWalk]
  | cons toks ex val ref kids rest ihk ihr =>
    obtain ⟨ht, hv, hk, hr, hs, he⟩ := hf
    by_cases hkey : key = []
    · simp [evictWalk, hkey]
    · by_cases hml : matchedLength key 0 toks ex = 0
      · simp only [evictWalk, hkey, hml, if_true, if_false, ihr key hr]
      · simp only [evictWalk, hkey, hml, if_false, ihk _ hk]
        refine Prod.ext ?_ (Prod.ext rfl ?_)
        · simp only [Forest.cons.injEq, true_and, and_true]
          funext c
          cases slide c <;> simp
        · funext c
          cases hsl : slide c
          · simp [hsl]
          · simp only [hsl, if_true, List.nil_append]
            rw [List.take_append_of_le_length (by simp), List.filter_eq_nil_iff]
            intro a ha
            have := List.eq_of_mem_replicate (List.mem_of_mem_take ha)
            simp [this]

theorem stored_evictWalk (inv : A) (w : Nat) (slide : C → Bool) (f : Forest C A) (key : List Int)
    (c : C) :
    ((stored c f).filter (· ≠ inv)).Perm
      ((stored c (evictWalk inv w slide f key).1).filter (· ≠ inv) ++
        (evictWalk inv w slide f key).2.2 c) := by
  induction f generalizing key with
  | nil => simp [evictWalk, stored]
  | cons toks ex val ref kids rest ihk ihr =>
    simp only [evictWalk]
    split
    · simp
    · split
      · simp only [stored, List.filter_append, List.append_assoc]
        exact ((ihr key).append_left _).append_left _
      · simp only [stored, List.filter_append]
        cases slide c
        · simp only [Bool.false_eq_true, if_false, List.append_nil, List.append_assoc]
          refine List.Perm.append_left _ ?_
          refine ((ihk (key.drop (matchedLength key 0 toks ex))).append_right _).trans ?_
          rw [List.append_assoc]
          exact (List.perm_append_comm).append_left _
        · simp only [if_true]
          generalize toEvict w _ _ = k
          rw [List.filter_append, List.filter_replicate]
          simp only [ne_eq, not_true_eq_false, decide_false, Bool.false_eq_true, if_false,
            List.nil_append]
          conv_lhs => rw [← List.take_append_drop k (val c), List.filter_append]
          have := ihk (key.drop (matchedLength key 0 toks ex))
          generalize List.filter _ (stored c (evictWalk inv w slide kids _).1) = S' at *
          generalize (evictWalk inv w slide kids _).2.2 c = F at *
          generalize List.filter _ (stored c kids) = S at *
          generalize List.filter _ (stored c rest) = R
          generalize List.filter _ (List.take k (val c)) = X
          generalize List.filter _ (List.drop k (val c)) = Y
          have hp : (X ++ Y ++ S ++ R).Perm (X ++ Y ++ (S' ++ F) ++ R) :=
            (this.append_left _).append_right _
          refine hp.trans ?_
          rw [List.perm_iff_count]
          intro a
          simp only [List.count_append]
          omega

/-! ### C11 -/

/-- the eviction applies: hybrid cache, more than `window` tokens, more than `window` of them cached -/
def Applies (o : Opts C) (t : Forest C A) (key : List Int) : Prop :=
  o.hybrid = true ∧ o.window < (cacheFind t key).matched

theorem evict_eq (inv : A) (o : Opts C) (t : Forest C A) (key : List Int) (hw : WF t) :
    (Applies o t key → evict inv o t key = ((evictWalk inv o.window o.slide t key).1,
      (evictWalk inv o.window o.slide t key).2.2)) ∧
    (¬ Applies o t key → evict inv o t key = (t, fun _ => [])) := by
  obtain ⟨s1, s2, s3⟩ := search_shape t 0 key hw
  have hle := tot_path_le t 0 key
  unfold Applies evict cacheFind
  cases o.hybrid
  · simp
  · constructor
    · intro ⟨_, h⟩
      have h1 : ¬ key.length ≤ o.window := by omega
      have h2 : (search t 0 key).success = true := s2.mpr (by omega)
      simp [h1, h2, h]
    · intro h
      have h' : ¬ o.window < (search t 0 key).matched := fun h' => h ⟨rfl, h'⟩
      simp [h']

/-- C11: after any history, evicting on `key` (`n` of whose tokens are cached, window `w`):
in a sliding-window column the first `n - w` addresses of the sequence become INVALID and exactly
those of them that were not INVALID yet are freed (each once); the last `w` addresses stay, the
matched length stays, and other columns are untouched. If the eviction does not apply (hybrid mode
off or `n ≤ w`) nothing changes and nothing is freed. -/
theorem C11_evict_exact (inv : A) (o : Opts C) (h : List (Act C A)) (hok : OkActs h)
    (key : List Int) (c : C) :
    let t := run inv o h
    let t' := (evict inv o t key).1
    let freed := (evict inv o t key).2 c
    let n := (cacheFind t key).matched
    (cacheFind t' key).matched = n ∧
    ∃ xs, (cacheFind t key).cols c = some xs ∧ xs.length = n ∧
      (o.hybrid = true ∧ o.slide c = true →
        (cacheFind t' key).cols c
          = some (List.replicate (n - o.window) inv ++ xs.drop (n - o.window)) ∧
        freed.Perm ((xs.take (n - o.window)).filter (· ≠ inv))) ∧
      (¬ (o.hybrid = true ∧ o.slide c = true) → (cacheFind t' key).cols c = some xs ∧ freed = []) := by
  intro t t' freed n
  have hw : WF t := WF_run inv o h hok
  obtain ⟨s1, s2, s3⟩ := search_shape t 0 key hw
  have hlen : (col c (path t 0 key)).length = tot (path t 0 key) :=
    col_length c _ (fun x hx => (path_fits _ _ _ hw x hx).2)
  have hnn : n = tot (path t 0 key) := s1
  obtain ⟨e1, e2⟩ := evict_eq inv o t key hw
  by_cases ha : Applies o t key
  · have e := e1 ha
    have ht' : t' = (evictWalk inv o.window o.slide t key).1 := by simp only [t', e]
    have hfr : freed = (evictWalk inv o.window o.slide t key).2.2 c := by simp only [freed, e]
    have hw' : WF t' := ht' ▸ WF_evictWalk _ _ _ _ _ hw
    obtain ⟨s1', s2', s3'⟩ := search_shape t' 0 key hw'
    obtain ⟨k1, k2, k3⟩ := evictWalk_self inv o.window o.slide t key hw c
    rw [← ht', ← hfr] at k2 k3
    rw [← ht'] at k1
    refine ⟨by unfold cacheFind; rw [s1', k1, hnn], _, s3 c, by rw [hlen, hnn], ?_, ?_⟩
    · rintro ⟨_, hs⟩
      obtain ⟨k4, k5⟩ := k2 hs
      unfold cacheFind
      rw [s3' c, k4, hnn]
      exact ⟨rfl, k5⟩
    · intro hs
      have : o.slide c = false := by
        cases hsl : o.slide c
        · rfl
        · exact absurd ⟨ha.1, hsl⟩ hs
      obtain ⟨k4, k5⟩ := k3 this
      unfold cacheFind
      rw [s3' c, k4]
      exact ⟨rfl, k5⟩
  · have e := e2 ha
    have ht' : t' = t := by simp only [t', e]
    have hfr : freed = [] := by simp only [freed, e]
    rw [ht', hfr]
    refine ⟨rfl, _, s3 c, by rw [hlen, hnn], ?_, fun _ => ⟨s3 c, rfl⟩⟩
    rintro ⟨hh, _⟩
    have hnw : n - o.window = 0 := by
      have : ¬ o.window < n := fun h' => ha ⟨hh, h'⟩
      omega
    rw [hnw]
    exact ⟨by simpa [cacheFind] using s3 c, by simp⟩

/-- C11: evicting the same sequence again frees nothing and changes nothing. -/
theorem C11_evict_idempotent (inv : A) (o : Opts C) (h : List (Act C A)) (hok : OkActs h)
    (key : List Int) :
    let t' := (evict inv o (run inv o h) key).1
    evict inv o t' key = (t', fun _ => []) := by
  intro t'
  have hw := WF_run inv o h hok
  obtain ⟨e1, e2⟩ := evict_eq inv o (run inv o h) key hw
  by_cases ha : Applies o (run inv o h) key
  · have ht' : t' = (evictWalk inv o.window o.slide (run inv o h) key).1 := by simp only [t', e1 ha]
    obtain ⟨e1', e2'⟩ := evict_eq inv o t' key (ht' ▸ WF_evictWalk _ _ _ _ _ hw)
    by_cases ha' : Applies o t' key
    · rw [e1' ha', ht', evictWalk_again _ _ _ _ _ hw]
    · exact e2' ha'
  · have ht' : t' = run inv o h := by simp only [t', e2 ha]
    rw [ht']; exact e2 ha

/-- C11, effect on other sequences: any lookup (any key, any extra key) keeps its matched length, and
an entry changes only to INVALID, only under extra key 0, and only if its address was freed; a
lookup that shares the first `i+1` tokens with the evicted sequence sees INVALID at position `i`
whenever `i` lies before the window. -/
theorem C11_evict_others (inv : A) (o : Opts C) (h : List (Act C A)) (hok : OkActs h)
    (key : List Int) (c : C) (e : Int) (q : List Int) :
    let t := run inv o h
    let t' := (evict inv o t key).1
    let freed := (evict inv o t key).2 c
    (search t' e q).matched = (search t e q).matched ∧
    ∃ xs ys, (search t e q).cols c = some xs ∧ (search t' e q).cols c = some ys ∧
      List.Forall₂ (fun a b => b = a ∨ (b = inv ∧ (a = inv ∨ a ∈ freed) ∧ e = 0)) xs ys ∧
      ∀ i, o.hybrid = true → o.slide c = true → e = 0 → i + o.window < (cacheFind t key).matched →
        q.take (i + 1) = key.take (i + 1) → ys[i]? = some inv := by
  intro t t' freed
  have hw : WF t := WF_run inv o h hok
  obtain ⟨s1, s2, s3⟩ := search_shape t e q hw
  obtain ⟨e1, e2⟩ := evict_eq inv o t key hw
  by_cases ha : Applies o t key
  · have ev := e1 ha
    have ht' : t' = (evictWalk inv o.window o.slide t key).1 := by simp only [t', ev]
    have hfr : freed = (evictWalk inv o.window o.slide t key).2.2 c := by simp only [freed, ev]
    have hw' : WF t' := ht' ▸ WF_evictWalk _ _ _ _ _ hw
    obtain ⟨s1', s2', s3'⟩ := search_shape t' e q hw'
    obtain ⟨k1, k2⟩ := evictWalk_other inv o.window o.slide t key hw c e q
    rw [← ht'] at k1 k2
    rw [← hfr] at k2
    refine ⟨by rw [s1', k1, s1], _, _, s3 c, s3' c, k2, ?_⟩
    rintro i _ hsl rfl hi hq
    have := evictWalk_shared inv o.window o.slide t key hw c hsl q i
      (by unfold cacheFind at hi; rw [(search_shape t 0 key hw).1] at hi; exact hi) hq
    rw [← ht'] at this
    exact this
  · have ev := e2 ha
    have ht' : t' = t := by simp only [t', ev]
    rw [ht']
    refine ⟨rfl, _, _, s3 c, s3 c, List.forall₂_same.mpr (fun x _ => Or.inl rfl), ?_⟩
    intro i hh _ _ hi _
    exact absurd ⟨hh, by omega⟩ ha

/-- C11, conservation: the non-INVALID addresses stored in a column before an eviction are exactly
those stored after it together with those freed; so no address is leaked, and none is freed that
stays reachable (with multiplicity). -/
theorem C11_evict_conserves (inv : A) (o : Opts C) (h : List (Act C A)) (hok : OkActs h)
    (key : List Int) (c : C) :
    let t := run inv o h
    ((stored c t).filter (· ≠ inv)).Perm
      ((stored c (evict inv o t key).1).filter (· ≠ inv) ++ (evict inv o t key).2 c) := by
  intro t
  obtain ⟨e1, e2⟩ := evict_eq inv o t key (WF_run inv o h hok)
  by_cases ha : Applies o t key
  · rw [e1 ha]; exact stored_evictWalk ..
  · rw [e2 ha]; simp

/-- concrete: two sequences sharing `[1,2]`, window 2, evict the first one -/
def demo : List (Act Bool Nat) :=
  [.promote true ⟨0, [1, 2, 3, 4], fun _ => [10, 11, 12, 13]⟩,
   .promote true ⟨0, [1, 2, 7], fun _ => [20, 21, 22]⟩]

example : OkActs demo := by
  intro a ha r hr
  simp [demo] at ha
  rcases ha with rfl | rfl <;> simp at hr <;> subst hr <;> simp [Ins.Fits]

example : let o : Opts Bool := ⟨true, 2, id⟩
    let t := run 99 o demo
    (evict 99 o t [1, 2, 3, 4]).2 true = [10, 11] ∧ (evict 99 o t [1, 2, 3, 4]).2 false = [] ∧
    (cacheFind (evict 99 o t [1, 2, 3, 4]).1 [1, 2, 7]).cols true = some [99, 99, 22] := by decide

end Verif.Evict
