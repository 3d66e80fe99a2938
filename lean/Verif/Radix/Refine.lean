import Verif.Radix.Lemmas
/- Search results on well-formed trees; the strict (correct) walk and its relation to insertion. -/
namespace Verif.Radix

variable {C A : Type}

/-- number of tokens matched along a path -/
def tot (p : List ((C → List A) × Nat)) : Nat := (p.map (·.2)).sum

/-- addresses along a path, one column -/
def col (c : C) (p : List ((C → List A) × Nat)) : List A := p.flatMap (fun x => (x.1 c).take x.2)

@[simp] theorem tot_nil : tot ([] : List ((C → List A) × Nat)) = 0 := rfl
@[simp] theorem tot_cons (x : (C → List A) × Nat) (p) : tot (x :: p) = x.2 + tot p := by simp [tot]
@[simp] theorem col_nil (c : C) : col c ([] : List ((C → List A) × Nat)) = [] := rfl
@[simp] theorem col_cons (c : C) (x : (C → List A) × Nat) (p) :
    col c (x :: p) = (x.1 c).take x.2 ++ col c p := by simp [col]

theorem path_fits (f : Forest C A) (e : Int) (key : List Int) (hf : WF f) :
    ∀ x ∈ path f e key, x.2 ≠ 0 ∧ ∀ c, x.2 ≤ (x.1 c).length := by
  induction f generalizing key with
  | nil => simp [path]
  | cons toks ex val ref kids rest ihk ihr =>
    obtain ⟨ht, hv, hk, hr, hs, he⟩ := hf
    simp only [path]
    split
    · simp
    · split
      · exact ihr key hr
      · next h =>
        intro x hx
        rcases List.mem_cons.mp hx with rfl | hx
        · exact ⟨h, fun c => by rw [hv c]; exact ml_le_right _ _ _ _⟩
        · exact ihk _ hk x hx

theorem flatten_eq (c : C) (p : List ((C → List A) × Nat))
    (h : ∀ x ∈ p, ∀ c, x.2 ≤ (x.1 c).length) : flatten c p = some (col c p) := by
  induction p with
  | nil => rfl
  | cons x p ih =>
    obtain ⟨v, n⟩ := x
    have h1 := h (v, n) (by simp) c
    simp only at h1
    simp [flatten, readCol, h1, ih (fun y hy => h y (by simp [hy]))]

theorem col_length (c : C) (p : List ((C → List A) × Nat))
    (h : ∀ x ∈ p, ∀ c, x.2 ≤ (x.1 c).length) : (col c p).length = tot p := by
  induction p with
  | nil => rfl
  | cons x p ih =>
    have h1 := h x (by simp) c
    simp [ih (fun y hy => h y (by simp [hy]))]; omega

theorem tot_path_le (f : Forest C A) (e : Int) (key : List Int) : tot (path f e key) ≤ key.length := by
  induction f generalizing key with
  | nil => simp [path]
  | cons toks ex val ref kids rest ihk ihr =>
    simp only [path]
    split
    · simp
    · split
      · exact ihr key
      · simp only [tot_cons]
        have := ihk (key.drop (matchedLength key e toks ex))
        have := ml_le_left key toks e ex
        simp at *; omega

/-- shape of every search result on a well-formed tree -/
theorem search_shape (f : Forest C A) (e : Int) (key : List Int) (hf : WF f) :
    (search f e key).matched = tot (path f e key) ∧
    ((search f e key).success = true ↔ (search f e key).matched ≠ 0) ∧
    ∀ c, (search f e key).cols c = some (col c (path f e key)) := by
  have hfit := path_fits f e key hf
  have hfit' : ∀ x ∈ path f e key, ∀ c, x.2 ≤ (x.1 c).length := fun x hx => (hfit x hx).2
  have htot : ((path f e key).map (·.2)).sum = tot (path f e key) := rfl
  unfold search
  simp only [htot]
  by_cases h : tot (path f e key) = 0
  · simp only [h, ne_eq, not_true, if_false]
    refine ⟨trivial, by simp, fun c => ?_⟩
    have := col_length c _ hfit'
    rw [h] at this
    rw [List.length_eq_zero_iff.mp this]
  · simp only [ne_eq, h, not_false_iff, if_true]
    exact ⟨trivial, by simp, fun c => flatten_eq c _ hfit'⟩

/-- The strict walk: descend only after a complete edge match. -/
def spath : Forest C A → Int → List Int → List ((C → List A) × Nat)
  | .nil, _, _ => []
  | .cons toks ex val _ kids rest, e, key =>
    if key = [] then []
    else
      let ml := matchedLength key e toks ex
      if ml = 0 then spath rest e key
      else (val, ml) :: (if ml = toks.length then spath kids e (key.drop ml) else [])

/-- No wrong descent happens when walking `key` down `f`. -/
def NoMid : Forest C A → Int → List Int → Prop
  | .nil, _, _ => True
  | .cons toks ex _ _ kids rest, e, key =>
    key = [] ∨
      (matchedLength key e toks ex = 0 ∧ NoMid rest e key) ∨
      (matchedLength key e toks ex ≠ 0 ∧ matchedLength key e toks ex = toks.length ∧
        NoMid kids e (key.drop (matchedLength key e toks ex))) ∨
      (matchedLength key e toks ex ≠ 0 ∧ matchedLength key e toks ex < toks.length ∧
        ∀ x, (key.drop (matchedLength key e toks ex)).head? = some x → NoHead kids e x)

theorem path_nil_key (f : Forest C A) (e : Int) : path f e [] = [] := by
  cases f <;> simp [path]

theorem spath_nil_key (f : Forest C A) (e : Int) : spath f e [] = [] := by
  cases f <;> simp [spath]

theorem path_noHead (f : Forest C A) (e : Int) (x : Int) (xs : List Int) (hf : WF f)
    (h : NoHead f e x) : path f e (x :: xs) = [] := by
  induction f with
  | nil => rfl
  | cons toks ex val ref kids rest ihk ihr =>
    obtain ⟨ht, hv, hk, hr, hs, he⟩ := hf
    have hz := matchedLength_eq_zero_iff (e := e) (ex := ex) (List.cons_ne_nil x xs) ht
    have : matchedLength (x :: xs) e toks ex = 0 := hz.mpr (by simpa using h.1)
    simp [path, this, ihr hr h.2]

theorem spath_noHead (f : Forest C A) (e : Int) (x : Int) (xs : List Int) (hf : WF f)
    (h : NoHead f e x) : spath f e (x :: xs) = [] := by
  induction f with
  | nil => rfl
  | cons toks ex val ref kids rest ihk ihr =>
    obtain ⟨ht, hv, hk, hr, hs, he⟩ := hf
    have hz := matchedLength_eq_zero_iff (e := e) (ex := ex) (List.cons_ne_nil x xs) ht
    have : matchedLength (x :: xs) e toks ex = 0 := hz.mpr (by simpa using h.1)
    simp [spath, this, ihr hr h.2]

theorem path_eq_spath (f : Forest C A) (e : Int) (key : List Int) (hf : WF f)
    (h : NoMid f e key) : path f e key = spath f e key := by
  induction f generalizing key with
  | nil => rfl
  | cons toks ex val ref kids rest ihk ihr =>
    obtain ⟨ht, hv, hk, hr, hs, he⟩ := hf
    simp only [path, spath]
    rcases h with h | ⟨h0, h⟩ | ⟨h0, h1, h⟩ | ⟨h0, h1, h⟩
    · simp [h]
    · simp only [h0, if_true]; rw [ihr key hr h]
    · simp only [h0, if_false]; rw [ihk _ hk h]; simp [h1]
    · have : ¬ matchedLength key e toks ex = toks.length := by omega
      simp only [h0, this, if_false]
      cases hd : key.drop (matchedLength key e toks ex) with
      | nil => rw [path_nil_key]
      | cons x xs => rw [path_noHead kids e x xs hk (h x (by simp [hd]))]

theorem spath_fits (f : Forest C A) (e : Int) (key : List Int) (hf : WF f) :
    ∀ x ∈ spath f e key, ∀ c, x.2 ≤ (x.1 c).length := by
  induction f generalizing key with
  | nil => simp [spath]
  | cons toks ex val ref kids rest ihk ihr =>
    obtain ⟨ht, hv, hk, hr, hs, he⟩ := hf
    simp only [spath]
    split
    · simp
    · split
      · exact ihr key hr
      · intro x hx
        rcases List.mem_cons.mp hx with rfl | hx
        · exact fun c => by rw [hv c]; exact ml_le_right _ _ _ _
        · split at hx
          · exact ihk _ hk x hx
          · simp at hx

/-- overlap of an inserted key with a looked-up key -/
def ov (e : Int) (k : List Int) (e' : Int) (key : List Int) : Nat :=
  if e = e' then commonLen key k else 0

theorem ml_eq_ov (key : List Int) (e : Int) (toks : List Int) (ex : Int) :
    matchedLength key e toks ex = ov ex toks e key := by
  unfold matchedLength ov
  by_cases h : e = ex
  · simp [h]
  · have : ¬ ex = e := fun h' => h h'.symm
    simp [h, this]

theorem spath_addLeaf (e e' : Int) (x : Int) (xs : List Int) (v : C → List A) (f : Forest C A)
    (key : List Int) (hf : WF f) (hn : NoHead f e x) :
    spath (addLeaf true e (x :: xs) v f) e' key =
      if ov e (x :: xs) e' key ≠ 0 then [(v, ov e (x :: xs) e' key)] else spath f e' key := by
  cases hkey : key with
  | nil => simp [spath_nil_key, ov]
  | cons y ys =>
    rw [← hkey]
    have hne : key ≠ [] := by simp [hkey]
    induction f with
    | nil =>
      simp only [addLeaf, if_true, spath, hne, if_false, ml_eq_ov, ite_self]
      by_cases h : ov e (x :: xs) e' key = 0 <;> simp [h]
    | cons toks ex val ref kids rest ihk ihr =>
      obtain ⟨ht, hv, hk, hr, hs, he⟩ := hf
      have hz := matchedLength_eq_zero_iff (key := key) (e := e') (ex := ex) hne ht
      simp only [addLeaf, spath, hne, if_false]
      rw [ihr hr hn.2]
      by_cases h : matchedLength key e' toks ex = 0
      · simp [h]
      · have h' : ex = e' ∧ toks.head? = key.head? := by
          by_contra hc; exact h (hz.mpr hc)
        have : ov e (x :: xs) e' key = 0 := by
          unfold ov
          split
          · next hee =>
            rw [hkey]; simp only [commonLen]
            rw [if_neg]
            intro hyx
            apply hn.1
            refine ⟨by rw [h'.1, hee], ?_⟩
            rw [h'.2, hkey, hyx]; rfl
          · rfl
        simp [h, this]

theorem take_drop_sub (m n j k : Nat) (xs : List A) (h : j ≤ n) :
    ((sub m n xs).take j).drop k = ((xs.drop m).take j).drop k := by
  simp [sub, List.take_take, Nat.min_eq_left h]

/-- Effect of a clean insertion on every strict lookup. -/
theorem spath_ins (e : Int) (full : C → List A) (f : Forest C A) (m : Nat) (k : List Int)
    (hf : WF f) (hk : k ≠ []) (hm : NoMid f e k) (hlen : ∀ c, m + k.length ≤ (full c).length)
    (e' : Int) (key : List Int) :
    tot (spath (ins true e full f m k) e' key) = max (tot (spath f e' key)) (ov e k e' key) ∧
    ∀ c, col c (spath (ins true e full f m k) e' key) =
      col c (spath f e' key) ++
        (((full c).drop m).take (ov e k e' key)).drop (tot (spath f e' key)) := by
  induction f generalizing m k key with
  | nil =>
    rw [ins_nil]
    by_cases hkey : key = []
    · simp [hkey, spath, ov]
    · simp only [if_true, spath, hkey, if_false, ml_eq_ov, ite_self]
      by_cases h : ov e k e' key = 0
      · simp [h]
      · simp only [h, if_false, tot_cons, tot_nil, col_cons, col_nil]
        refine ⟨by omega, fun c => ?_⟩
        have : ov e k e' key ≤ k.length := by
          unfold ov; split
          · exact commonLen_le_right _ _
          · omega
        have := take_drop_sub m k.length (ov e k e' key) 0 (full c) this
        simpa using this
  | cons toks ex val ref kids rest ihk ihr =>
    have hfw := hf
    obtain ⟨ht, hv, hkk, hr, hs, he⟩ := hf
    by_cases hkey : key = []
    · subst hkey; simp [spath_nil_key, ov]
    have hzk := matchedLength_eq_zero_iff (key := k) (e := e) (ex := ex) hk ht
    have hzq := matchedLength_eq_zero_iff (key := key) (e := e') (ex := ex) hkey ht
    by_cases h0 : matchedLength k e toks ex = 0
    · -- skipped child
      rw [ins_skip _ _ _ _ _ _ _ _ _ _ _ h0]
      have hm' : NoMid rest e k := by
        rcases hm with h | ⟨_, h⟩ | ⟨h, _⟩ | ⟨h, _⟩
        · exact absurd h hk
        · exact h
        · exact absurd h0 h
        · exact absurd h0 h
      by_cases hq : matchedLength key e' toks ex = 0
      · simp only [spath, hkey, hq, if_false, if_true]
        exact ihr m k hr hk hm' hlen key
      · have h' : ex = e' ∧ toks.head? = key.head? := by
          by_contra hc; exact hq (hzq.mpr hc)
        have hov : ov e k e' key = 0 := by
          unfold ov; split
          · next hee =>
            by_contra hc
            obtain ⟨a, as, rfl⟩ := List.exists_cons_of_ne_nil hk
            obtain ⟨b, bs, rfl⟩ := List.exists_cons_of_ne_nil hkey
            have := (commonLen_pos_iff b a bs as).mp hc
            apply hzk.mp h0
            exact ⟨by rw [h'.1, hee], by rw [h'.2, this]; rfl⟩
          · rfl
        simp only [spath, hkey, hq, if_false]
        simp [hov]
    · obtain ⟨hee, hmlk⟩ := matchedLength_ne_zero h0
      subst hee
      by_cases hd : k.drop (matchedLength k ex toks ex) = []
      · -- whole key present
        rw [ins_done _ _ _ _ _ _ _ _ _ _ _ h0 hd]
        have hpre : ov ex k e' key ≤ matchedLength key e' toks ex := by
          rw [ml_eq_ov]; unfold ov
          split
          · have h1 : k.length ≤ commonLen k toks := by
              rw [← hmlk]; simpa [List.drop_eq_nil_iff] using hd
            have h2 : k.take k.length <+: toks := (prefix_iff_commonLen _ _ _ (Nat.le_refl _)).mpr h1
            rw [List.take_length] at h2
            have h3 : key.take (commonLen key k) <+: k :=
              (prefix_iff_commonLen _ _ _ (commonLen_le_left _ _)).mpr (Nat.le_refl _)
            exact (prefix_iff_commonLen _ _ _ (commonLen_le_left _ _)).mp (h3.trans h2)
          · omega
        have hle : ov ex k e' key ≤ tot (spath (.cons toks ex val ref kids rest) e' key) := by
          simp only [spath, hkey, if_false]
          split
          · omega
          · simp only [tot_cons]; omega
        have hsame : spath (.cons toks ex val (ref + 1) kids rest) e' key =
            spath (.cons toks ex val ref kids rest) e' key := by simp [spath]
        rw [hsame]
        refine ⟨by omega, fun c => ?_⟩
        rw [List.drop_eq_nil_of_le (by simp; omega)]; simp
      · -- proper descent or split
        have hlen' : ∀ c, (m + matchedLength k ex toks ex) +
            (k.drop (matchedLength k ex toks ex)).length ≤ (full c).length := by
          intro c; have := hlen c; have := ml_le_left k toks ex ex; simp; omega
        by_cases h3 : matchedLength k ex toks ex < toks.length
        · -- split
          have hm' : ∀ x, (k.drop (matchedLength k ex toks ex)).head? = some x → NoHead kids ex x := by
            rcases hm with h | ⟨h, _⟩ | ⟨_, h, _⟩ | ⟨_, _, h⟩
            · exact absurd h hk
            · exact absurd h h0
            · omega
            · exact h
          obtain ⟨x, xs, hx⟩ := List.exists_cons_of_ne_nil hd
          have hnone : insWalk true ex full kids (m + matchedLength k ex toks ex)
              (k.drop (matchedLength k ex toks ex)) = none := by
            rw [hx]; exact (insWalk_none_iff _ _ _ _ _ _ _ hkk).mpr (hm' x (by simp [hx]))
          rw [ins_part _ _ _ _ _ _ _ _ _ _ _ h0 hd h3, hnone]
          simp only [Option.isSome_none, Bool.false_eq_true, if_false]
          generalize hML : matchedLength k ex toks ex = M at *
          have htk : toks.take M = k.take M := by rw [hmlk]; exact (commonLen_take k toks).symm
          have hMk : M ≤ k.length := by rw [hmlk]; exact commonLen_le_left _ _
          have hdropT : toks.drop M ≠ [] := by
            intro hc; simp [List.drop_eq_nil_iff] at hc; omega
          obtain ⟨y, ys, hy⟩ := List.exists_cons_of_ne_nil hdropT
          have hxy : x ≠ y := commonLen_diverge (hmlk ▸ hx) (hmlk ▸ hy)
          simp only [spath, hkey, if_false]
          by_cases hq : matchedLength key e' toks ex = 0
          · -- the query goes elsewhere
            have hq' : matchedLength key e' (toks.take M) ex = 0 := by
              rw [matchedLength_eq_zero_iff hkey (by simp [List.take_eq_nil_iff, h0, ht]),
                head_take_of_pos h0]
              exact hzq.mp hq
            have hov : ov ex k e' key = 0 := by
              have h1 := hzq.mp hq
              unfold ov; split
              · next hee =>
                by_contra hc
                obtain ⟨a, as, rfl⟩ := List.exists_cons_of_ne_nil hk
                obtain ⟨b, bs, rfl⟩ := List.exists_cons_of_ne_nil hkey
                have h5 := (commonLen_pos_iff b a bs as).mp hc
                apply h1
                refine ⟨hee, ?_⟩
                have := congrArg List.head? htk
                rw [head_take_of_pos h0, head_take_of_pos h0] at this
                rw [this, h5]; rfl
              · rfl
            simp only [hq, hq', if_true, hov]
            simp
          · obtain ⟨hex, hmlq⟩ := matchedLength_ne_zero hq
            subst hex
            have hq' : matchedLength key ex (toks.take M) ex ≠ 0 := by
              rw [Ne, matchedLength_eq_zero_iff hkey (by simp [List.take_eq_nil_iff, h0, ht]),
                head_take_of_pos h0, ← hzq]
              exact hq
            have hmlq' : matchedLength key ex (toks.take M) ex = commonLen key (toks.take M) := by
              simp [matchedLength]
            have hovk : ov ex k ex key = commonLen key k := by simp [ov]
            have hTl : (toks.take M).length = M := by simp; omega
            simp only [hq, hq', if_false]
            rw [hovk, hmlq', hmlq, hTl]
            have hcm : commonLen key (toks.take M) ≤ M := by
              have := commonLen_le_right key (toks.take M); rw [hTl] at this; exact this
            by_cases hM : commonLen key (toks.take M) = M
            · -- the query covers the upper part
              have hMkey : M ≤ key.length := by
                have := commonLen_le_left key (toks.take M); omega
              have hkt : key.take M = toks.take M := by
                have := commonLen_take key (toks.take M)
                rw [hM, List.take_take, Nat.min_self] at this; exact this
              have e1 : commonLen key toks = M + commonLen (key.drop M) (toks.drop M) :=
                commonLen_add key toks M hMkey (by omega) hkt
              have e2 : commonLen key k = M + commonLen (key.drop M) (k.drop M) :=
                commonLen_add key k M hMkey hMk (hkt.trans htk)
              have hlow : WF (.cons (toks.drop M) ex (fun c => (val c).drop M) 0 kids .nil) :=
                ⟨hdropT, fun c => by simp [hv c], hkk, trivial, by simp [NoHead], he⟩
              have hnh : NoHead (.cons (toks.drop M) ex (fun c => (val c).drop M) 0 kids .nil) ex x := by
                simp only [NoHead, and_true, hy, List.head?_cons, not_and, Option.some.injEq]
                intro _; exact fun h => hxy h.symm
              simp only [hM, if_true]
              rw [hx, spath_addLeaf ex ex x xs _ _ _ hlow hnh, ← hx]
              have hov2 : ov ex (k.drop M) ex (key.drop M) = commonLen (key.drop M) (k.drop M) := by
                simp [ov]
              rw [hov2]
              by_cases hleaf : commonLen (key.drop M) (k.drop M) = 0
              · -- the query continues in the lower part (or ends)
                simp only [hleaf, ne_eq, not_true, if_false]
                rw [hleaf] at e2
                have htot : tot ((val, commonLen key toks) ::
                      if commonLen key toks = toks.length then spath kids ex (key.drop (commonLen key toks)) else [])
                    = M + tot (spath (.cons (toks.drop M) ex (fun c => (val c).drop M) 0 kids .nil) ex (key.drop M))
                    ∧ ∀ c, col c ((val, commonLen key toks) ::
                      if commonLen key toks = toks.length then spath kids ex (key.drop (commonLen key toks)) else [])
                    = (val c).take M ++ col c (spath (.cons (toks.drop M) ex (fun c => (val c).drop M) 0 kids .nil) ex (key.drop M)) := by
                  have hml3 : matchedLength (key.drop M) ex (toks.drop M) ex =
                      commonLen (key.drop M) (toks.drop M) := by simp [matchedLength]
                  by_cases hkd : key.drop M = []
                  · have : commonLen key toks = M := by rw [e1, hkd]; simp
                    have hne : ¬ M = toks.length := by omega
                    simp [hkd, spath_nil_key, this, hne]
                  · by_cases hc0 : commonLen (key.drop M) (toks.drop M) = 0
                    · have : commonLen key toks = M := by omega
                      have hne : ¬ M = toks.length := by omega
                      simp [spath, hkd, hml3, hc0, this, hne]
                    · simp only [spath, hkd, hml3, hc0, if_false]
                      have hiff : commonLen (key.drop M) (toks.drop M) = (toks.drop M).length ↔
                          commonLen key toks = toks.length := by simp; omega
                      simp only [hiff, List.drop_drop, ← e1]
                      refine ⟨by simp only [tot_cons]; rw [e1]; omega, fun c => ?_⟩
                      simp only [col_cons]
                      rw [← List.append_assoc, ← List.take_add, ← e1]
                rw [htot.1]
                simp only [htot.2]
                simp only [tot_cons, col_cons]
                refine ⟨by omega, fun c => ?_⟩
                generalize tot (spath (.cons (toks.drop M) ex (fun c => (val c).drop M) 0 kids .nil)
                  ex (key.drop M)) = T
                have : ((((full c).drop m).take (commonLen key k)).drop (M + T)) = [] :=
                  List.drop_eq_nil_of_le (by rw [List.length_take]; omega)
                rw [this, List.append_nil, List.take_take, Nat.min_self]
              · -- the query continues in the new leaf
                have hc0 : commonLen (key.drop M) (toks.drop M) = 0 := by
                  by_contra hc
                  cases hkd : key.drop M with
                  | nil => simp [hkd] at hleaf
                  | cons z zs =>
                    rw [hkd, hx] at hleaf
                    rw [hkd, hy] at hc
                    have h1 := (commonLen_pos_iff z x zs xs).mp hleaf
                    have h2 := (commonLen_pos_iff z y zs ys).mp hc
                    exact hxy (h1.symm.trans h2)
                have hkt' : commonLen key toks = M := by omega
                have hne : ¬ M = toks.length := by omega
                simp only [hleaf, ne_eq, not_false_iff, if_true, hkt', hne, if_false, tot_cons, tot_nil,
                  col_cons, col_nil, e2]
                refine ⟨by omega, fun c => ?_⟩
                simp only [List.append_nil, Nat.add_zero, List.take_take, Nat.min_self]
                congr 1
                have hle := commonLen_le_right (key.drop M) (k.drop M)
                have := take_drop_sub (m + M) (k.drop M).length (commonLen (key.drop M) (k.drop M)) 0
                  (full c) hle
                simp only [List.drop_zero] at this
                rw [this, List.drop_take]
                simp [List.drop_drop]
            · -- the query leaves inside the upper part
              have hlt : commonLen key (toks.take M) < M := by omega
              have key1 : ∀ b : List Int, b.take M = toks.take M →
                  commonLen key b = commonLen key (toks.take M) := by
                intro b hb
                apply Nat.le_antisymm
                · have h1 : key.take (commonLen key b) <+: b :=
                    (prefix_iff_commonLen _ _ _ (commonLen_le_left _ _)).mpr (Nat.le_refl _)
                  by_cases hbm : commonLen key b ≤ M
                  · have h2 : key.take (commonLen key b) <+: toks.take M := by
                      rw [← hb]; rw [List.prefix_take_iff]
                      exact ⟨h1, by simp; omega⟩
                    exact (prefix_iff_commonLen _ _ _ (commonLen_le_left _ _)).mp h2
                  · exfalso
                    have hMk' : M ≤ key.length := by have := commonLen_le_left key b; omega
                    have h2 : key.take M <+: b := (prefix_iff_commonLen _ _ _ hMk').mpr (by omega)
                    have h3 : key.take M <+: toks.take M := by
                      rw [← hb, List.prefix_take_iff]; exact ⟨h2, by simp⟩
                    have := (prefix_iff_commonLen _ _ _ hMk').mp h3
                    omega
                · have h1 : key.take (commonLen key (toks.take M)) <+: toks.take M :=
                    (prefix_iff_commonLen _ _ _ (commonLen_le_left _ _)).mpr (Nat.le_refl _)
                  have h2 : toks.take M <+: b := by rw [← hb]; exact List.take_prefix M b
                  exact (prefix_iff_commonLen _ _ _ (commonLen_le_left _ _)).mp (h1.trans h2)
              have e1 := key1 toks rfl
              have e2 := key1 k htk.symm
              have hne : ¬ commonLen key (toks.take M) = toks.length := by omega
              rw [e1, e2]
              simp only [hM, hne, if_false, tot_cons, tot_nil, col_cons, col_nil]
              refine ⟨by omega, fun c => ?_⟩
              rw [List.drop_eq_nil_of_le (by simp)]
              simp [List.take_take, Nat.min_eq_left (Nat.le_of_lt hlt)]
        · -- full edge: insert below
          have hM : matchedLength k ex toks ex = toks.length := by
            have := ml_le_right k toks ex ex; omega
          have hm' : NoMid kids ex (k.drop (matchedLength k ex toks ex)) := by
            rcases hm with h | ⟨h, _⟩ | ⟨_, _, h⟩ | ⟨_, h, _⟩
            · exact absurd h hk
            · exact absurd h h0
            · exact h
            · omega
          rw [ins_full _ _ _ _ _ _ _ _ _ _ _ h0 hd h3]
          rw [hM] at hm' hlen' hd ⊢
          have ihk' := ihk (m + toks.length) (k.drop toks.length) hkk hd hm' hlen'
          simp only [spath, hkey, if_false]
          have htk : k.take toks.length = toks.take toks.length := by
            have := commonLen_take k toks; rw [← hmlk, hM] at this; exact this
          have hkl : toks.length ≤ k.length := by
            have := ml_le_left k toks ex ex; omega
          by_cases hq : matchedLength key e' toks ex = 0
          · have hov : ov ex k e' key = 0 := by
              have h1 := hzq.mp hq
              unfold ov; split
              · next hee =>
                by_contra hc
                obtain ⟨a, as, rfl⟩ := List.exists_cons_of_ne_nil hk
                obtain ⟨b, bs, rfl⟩ := List.exists_cons_of_ne_nil hkey
                have h5 := (commonLen_pos_iff b a bs as).mp hc
                apply h1
                refine ⟨hee, ?_⟩
                have hne : toks.length ≠ 0 := by simpa using ht
                have := congrArg List.head? htk
                rw [head_take_of_pos hne, head_take_of_pos hne] at this
                rw [← this, h5]; rfl
              · rfl
            simp only [hq, if_true, hov]; simp
          · obtain ⟨hex, hmlq⟩ := matchedLength_ne_zero hq
            subst hex
            simp only [hq, if_false]
            rw [hmlq]
            have hovk : ov ex k ex key = commonLen key k := by simp [ov]
            rw [hovk]
            by_cases hfull : commonLen key toks = toks.length
            · simp only [hfull, if_true, tot_cons, col_cons]
              have hlk : toks.length ≤ key.length := by
                have := commonLen_le_left key toks; omega
              have hkk2 : key.take toks.length = k.take toks.length := by
                have := commonLen_take key toks; rw [hfull] at this; rw [this, htk]
              have e2 : commonLen key k = toks.length +
                  commonLen (key.drop toks.length) (k.drop toks.length) :=
                commonLen_add key k toks.length hlk hkl hkk2
              obtain ⟨i1, i2⟩ := ihk' (key.drop toks.length)
              have hov2 : ov ex (k.drop toks.length) ex (key.drop toks.length) =
                commonLen (key.drop toks.length) (k.drop toks.length) := by simp [ov]
              rw [hov2] at i1 i2
              refine ⟨by rw [i1, e2]; omega, fun c => ?_⟩
              rw [i2 c, List.append_assoc]
              congr 2
              rw [e2, List.drop_take, List.drop_take]
              simp only [List.drop_drop]
              congr 1
              · omega
              · congr 1; omega
            · have hlt : commonLen key toks < toks.length := by
                have := commonLen_le_right key toks; omega
              have e2 : commonLen key k ≤ commonLen key toks := by
                by_cases hbm : commonLen key k ≤ toks.length
                · have h1 : key.take (commonLen key k) <+: k :=
                    (prefix_iff_commonLen _ _ _ (commonLen_le_left _ _)).mpr (Nat.le_refl _)
                  have h2 : key.take (commonLen key k) <+: k.take toks.length := by
                    rw [List.prefix_take_iff]; exact ⟨h1, by simp; omega⟩
                  rw [htk, List.take_length] at h2
                  exact (prefix_iff_commonLen _ _ _ (commonLen_le_left _ _)).mp h2
                · exfalso
                  have hlk : toks.length ≤ key.length := by
                    have := commonLen_le_left key k; omega
                  have h2 : key.take toks.length <+: k :=
                    (prefix_iff_commonLen _ _ _ hlk).mpr (by omega)
                  have h3 : key.take toks.length <+: k.take toks.length := by
                    rw [List.prefix_take_iff]; exact ⟨h2, by simp⟩
                  rw [htk, List.take_length] at h3
                  have := (prefix_iff_commonLen _ _ _ hlk).mp h3
                  omega
              simp only [hfull, if_false, tot_cons, tot_nil, col_cons, col_nil]
              refine ⟨by omega, fun c => ?_⟩
              rw [List.drop_eq_nil_of_le (by simp; omega)]; simp

end Verif.Radix
