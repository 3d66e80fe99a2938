import Verif.Ipc.Queue

/-!
# Traversals of nested inputs
-/

namespace Verif.Ipc

mutual
/-- Every leaf has the property. -/
def Tree.All {α : Type} (P : α → Prop) : Tree α → Prop
  | .leaf a => P a
  | .other _ => True
  | .dict _ vs => Tree.Alls P vs
  | .seq _ vs => Tree.Alls P vs
def Tree.Alls {α : Type} (P : α → Prop) : List (Tree α) → Prop
  | [] => True
  | v :: vs => Tree.All P v ∧ Tree.Alls P vs
end

mutual
/-- The same nesting with every leaf replaced. -/
def Tree.map {α β : Type} (f : α → β) : Tree α → Tree β
  | .leaf a => .leaf (f a)
  | .other n => .other n
  | .dict ks vs => .dict ks (Tree.maps f vs)
  | .seq t vs => .seq t (Tree.maps f vs)
def Tree.maps {α β : Type} (f : α → β) : List (Tree α) → List (Tree β)
  | [] => []
  | v :: vs => Tree.map f v :: Tree.maps f vs
end

mutual
/-- Same nesting, leaves related. -/
def Tree.Rel {α β : Type} (L : α → β → Prop) : Tree α → Tree β → Prop
  | .leaf a, .leaf b => L a b
  | .other n, .other m => n = m
  | .dict ks vs, .dict ks' ws => ks = ks' ∧ Tree.Rels L vs ws
  | .seq t vs, .seq t' ws => t = t' ∧ Tree.Rels L vs ws
  | _, _ => False
def Tree.Rels {α β : Type} (L : α → β → Prop) : List (Tree α) → List (Tree β) → Prop
  | [], [] => True
  | v :: vs, w :: ws => Tree.Rel L v w ∧ Tree.Rels L vs ws
  | _, _ => False
end

section
variable {α β : Type} {L L' : α → β → Prop} (hL : ∀ a b, L a b → L' a b)
include hL
mutual
theorem Tree.Rel.mono : ∀ (v : Tree α) (x : Tree β), Tree.Rel L v x → Tree.Rel L' v x
  | .leaf a, .leaf b, h => hL a b h
  | .other _, .other _, h => h
  | .dict _ vs, .dict _ ws, h => ⟨h.1, Tree.Rels.mono vs ws h.2⟩
  | .seq _ vs, .seq _ ws, h => ⟨h.1, Tree.Rels.mono vs ws h.2⟩
  | .leaf _, .other _, h => by simp [Tree.Rel] at h
  | .leaf _, .dict _ _, h => by simp [Tree.Rel] at h
  | .leaf _, .seq _ _, h => by simp [Tree.Rel] at h
  | .other _, .leaf _, h => by simp [Tree.Rel] at h
  | .other _, .dict _ _, h => by simp [Tree.Rel] at h
  | .other _, .seq _ _, h => by simp [Tree.Rel] at h
  | .dict _ _, .leaf _, h => by simp [Tree.Rel] at h
  | .dict _ _, .other _, h => by simp [Tree.Rel] at h
  | .dict _ _, .seq _ _, h => by simp [Tree.Rel] at h
  | .seq _ _, .leaf _, h => by simp [Tree.Rel] at h
  | .seq _ _, .other _, h => by simp [Tree.Rel] at h
  | .seq _ _, .dict _ _, h => by simp [Tree.Rel] at h
theorem Tree.Rels.mono : ∀ (vs : List (Tree α)) (ws : List (Tree β)), Tree.Rels L vs ws → Tree.Rels L' vs ws
  | [], [], _ => trivial
  | v :: vs, w :: ws, h => ⟨Tree.Rel.mono v w h.1, Tree.Rels.mono vs ws h.2⟩
  | [], _ :: _, h => by simp [Tree.Rels] at h
  | _ :: _, [], h => by simp [Tree.Rels] at h
end
end

section
variable {σ α β : Type} {f : σ → α → Option (σ × β)} {I : σ → Prop} {R : σ → σ → Prop}
  {L : σ → α → β → Prop} {P : α → Prop}
  (hrefl : ∀ s, R s s) (htrans : ∀ s t u, R s t → R t u → R s u)
  (hmono : ∀ s t a b, R s t → L s a b → L t a b)
  (hf : ∀ s a, I s → P a → ∃ s' b, f s a = some (s', b) ∧ I s' ∧ R s s' ∧ L s' a b)
include hrefl htrans hmono hf
mutual
/-- A traversal that never fails on a leaf never fails, and relates the leaves. -/
theorem trav_rel : ∀ (v : Tree α) (s : σ), I s → v.All P →
    ∃ s' x, Tree.trav f s v = some (s', x) ∧ I s' ∧ R s s' ∧ Tree.Rel (L s') v x
  | .leaf a, s, hI, hP => by
      obtain ⟨s', b, h1, h2, h3, h4⟩ := hf s a hI hP
      exact ⟨s', .leaf b, by simp [Tree.trav, h1], h2, h3, h4⟩
  | .other n, s, hI, _ => ⟨s, .other n, rfl, hI, hrefl s, rfl⟩
  | .dict ks vs, s, hI, hP => by
      obtain ⟨s', xs, h1, h2, h3, h4⟩ := travs_rel vs s hI hP
      exact ⟨s', .dict ks xs, by simp [Tree.trav, h1], h2, h3, rfl, h4⟩
  | .seq t vs, s, hI, hP => by
      obtain ⟨s', xs, h1, h2, h3, h4⟩ := travs_rel vs s hI hP
      exact ⟨s', .seq t xs, by simp [Tree.trav, h1], h2, h3, rfl, h4⟩
theorem travs_rel : ∀ (vs : List (Tree α)) (s : σ), I s → Tree.Alls P vs →
    ∃ s' xs, Tree.travs f s vs = some (s', xs) ∧ I s' ∧ R s s' ∧ Tree.Rels (L s') vs xs
  | [], s, hI, _ => ⟨s, [], rfl, hI, hrefl s, trivial⟩
  | v :: vs, s, hI, hP => by
      obtain ⟨s1, x, h1, h2, h3, h4⟩ := trav_rel v s hI hP.1
      obtain ⟨s2, xs, g1, g2, g3, g4⟩ := travs_rel vs s1 h2 hP.2
      exact ⟨s2, x :: xs, by simp [Tree.travs, h1, g1], g2, htrans _ _ _ h3 g3,
        Tree.Rel.mono (fun a b h => hmono _ _ a b g3 h) v x h4, g4⟩
end
end

section
variable {σ α β : Type} {g : σ → β → Option (σ × α)} {I : σ → Prop} {R : σ → σ → Prop}
  {L : σ → α → β → Prop}
  (hrefl : ∀ s, R s s) (htrans : ∀ s t u, R s t → R t u → R s u)
  (hmono : ∀ s t a b, R s t → L s a b → L t a b)
  (hg : ∀ s a b, I s → L s a b → ∃ s', g s b = some (s', a) ∧ I s' ∧ R s s')
include hrefl htrans hmono hg
mutual
/-- A traversal that undoes each leaf undoes the whole. -/
theorem trav_undo : ∀ (v : Tree α) (x : Tree β) (s : σ), I s → Tree.Rel (L s) v x →
    ∃ s', Tree.trav g s x = some (s', v) ∧ I s' ∧ R s s'
  | .leaf a, .leaf b, s, hI, h => by
      obtain ⟨s', h1, h2, h3⟩ := hg s a b hI h
      exact ⟨s', by simp [Tree.trav, h1], h2, h3⟩
  | .other n, .other m, s, hI, h => ⟨s, by cases h; rfl, hI, hrefl s⟩
  | .dict ks vs, .dict ks' ws, s, hI, h => by
      obtain ⟨s', h1, h2, h3⟩ := travs_undo vs ws s hI h.2
      refine ⟨s', ?_, h2, h3⟩
      rw [← h.1]; simp [Tree.trav, h1]
  | .seq t vs, .seq t' ws, s, hI, h => by
      obtain ⟨s', h1, h2, h3⟩ := travs_undo vs ws s hI h.2
      refine ⟨s', ?_, h2, h3⟩
      rw [← h.1]; simp [Tree.trav, h1]
  | .leaf _, .other _, _, _, h => by simp [Tree.Rel] at h
  | .leaf _, .dict _ _, _, _, h => by simp [Tree.Rel] at h
  | .leaf _, .seq _ _, _, _, h => by simp [Tree.Rel] at h
  | .other _, .leaf _, _, _, h => by simp [Tree.Rel] at h
  | .other _, .dict _ _, _, _, h => by simp [Tree.Rel] at h
  | .other _, .seq _ _, _, _, h => by simp [Tree.Rel] at h
  | .dict _ _, .leaf _, _, _, h => by simp [Tree.Rel] at h
  | .dict _ _, .other _, _, _, h => by simp [Tree.Rel] at h
  | .dict _ _, .seq _ _, _, _, h => by simp [Tree.Rel] at h
  | .seq _ _, .leaf _, _, _, h => by simp [Tree.Rel] at h
  | .seq _ _, .other _, _, _, h => by simp [Tree.Rel] at h
  | .seq _ _, .dict _ _, _, _, h => by simp [Tree.Rel] at h
theorem travs_undo : ∀ (vs : List (Tree α)) (ws : List (Tree β)) (s : σ), I s → Tree.Rels (L s) vs ws →
    ∃ s', Tree.travs g s ws = some (s', vs) ∧ I s' ∧ R s s'
  | [], [], s, hI, _ => ⟨s, rfl, hI, hrefl s⟩
  | v :: vs, w :: ws, s, hI, h => by
      obtain ⟨s1, h1, h2, h3⟩ := trav_undo v w s hI h.1
      obtain ⟨s2, g1, g2, g3⟩ := travs_undo vs ws s1 h2
        (Tree.Rels.mono (fun a b h => hmono _ _ a b h3 h) vs ws h.2)
      exact ⟨s2, by simp [Tree.travs, h1, g1], g2, htrans _ _ _ h3 g3⟩
  | [], _ :: _, _, _, h => by simp [Tree.Rels] at h
  | _ :: _, [], _, _, h => by simp [Tree.Rels] at h
end
end

section
variable {α β : Type} (f : α → β)
mutual
theorem trav_pure : ∀ (v : Tree α), Tree.trav (fun (_ : Unit) x => some ((), f x)) () v = some ((), v.map f)
  | .leaf a => rfl
  | .other n => rfl
  | .dict ks vs => by simp [Tree.trav, Tree.map, travs_pure vs]
  | .seq t vs => by simp [Tree.trav, Tree.map, travs_pure vs]
theorem travs_pure : ∀ (vs : List (Tree α)),
    Tree.travs (fun (_ : Unit) x => some ((), f x)) () vs = some ((), Tree.maps f vs)
  | [] => rfl
  | v :: vs => by simp [Tree.travs, Tree.maps, trav_pure v, travs_pure vs]
end
end

section
variable {α β γ : Type} (f : α → β) (g : β → γ)
mutual
theorem Tree.map_map : ∀ (v : Tree α), (v.map f).map g = v.map (fun x => g (f x))
  | .leaf a => rfl
  | .other n => rfl
  | .dict ks vs => by simp [Tree.map, Tree.maps_maps vs]
  | .seq t vs => by simp [Tree.map, Tree.maps_maps vs]
theorem Tree.maps_maps : ∀ (vs : List (Tree α)), Tree.maps g (Tree.maps f vs) = Tree.maps (fun x => g (f x)) vs
  | [] => rfl
  | v :: vs => by simp [Tree.maps, Tree.map_map v, Tree.maps_maps vs]
end
end

mutual
theorem Tree.map_id {α : Type} : ∀ (v : Tree α), v.map (fun x => x) = v
  | .leaf a => rfl
  | .other n => rfl
  | .dict ks vs => by simp [Tree.map, Tree.maps_id vs]
  | .seq t vs => by simp [Tree.map, Tree.maps_id vs]
theorem Tree.maps_id {α : Type} : ∀ (vs : List (Tree α)), Tree.maps (fun x => x) vs = vs
  | [] => rfl
  | v :: vs => by simp [Tree.maps, Tree.map_id v, Tree.maps_id vs]
end

/-! ### The environment -/

/-- What the recycler and the consumers do; sending is done by the sender only. -/
def Ev.isEnv : Ev → Bool
  | .tick => true
  | .copy _ _ => true
  | .ack _ _ => true
  | _ => false

/-- Proxies keep their tensor and their stage. -/
def Keeps (w w' : World) : Prop :=
  ∀ (i : Nat) (q : Parcel), w.parcels[i]? = some q → ∃ q' : Parcel, w'.parcels[i]? = some q' ∧ q'.orig = q.orig ∧ q'.stage = q.stage

theorem Keeps.refl (w : World) : Keeps w w := fun _ q h => ⟨q, h, rfl, rfl⟩

theorem Keeps.trans {w1 w2 w3 : World} (h1 : Keeps w1 w2) (h2 : Keeps w2 w3) : Keeps w1 w3 := by
  intro i q hq
  obtain ⟨q1, a1, b1, c1⟩ := h1 i q hq
  obtain ⟨q2, a2, b2, c2⟩ := h2 i q1 a1
  exact ⟨q2, a2, b2.trans b1, c2.trans c1⟩

theorem Keeps.set {w : World} {i : Nat} {q r : Parcel} (p : Pool) (hi : w.parcels[i]? = some q)
    (ho : r.orig = q.orig) (hs : r.stage = q.stage) :
    Keeps w { w with pool := p, parcels := w.parcels.set i r } := by
  intro j x hx
  by_cases hij : i = j
  · subst hij
    rw [hi] at hx
    cases hx
    exact ⟨r, by simp [List.getElem?_set_self', hi], ho, hs⟩
  · exact ⟨x, by simp [List.getElem?_set_ne hij, hx], rfl, rfl⟩

theorem step_env {w w' : World} {e : Ev} (he : e.isEnv = true) (hs : step w e = some w') :
    Keeps w w' ∧ w'.parcels.length = w.parcels.length := by
  cases e with
  | reserve t => cases he
  | fill i => cases he
  | ship i ok => cases he
  | copy i c =>
    simp only [step] at hs
    cases hi : w.parcels[i]? with
    | none => simp [hi] at hs
    | some q =>
      simp only [hi] at hs
      split at hs
      · cases hs
        exact ⟨Keeps.set w.pool hi rfl rfl, by simp⟩
      · cases hs
  | ack i c =>
    simp only [step] at hs
    cases hi : w.parcels[i]? with
    | none => simp [hi] at hs
    | some q =>
      simp only [hi] at hs
      split at hs
      · cases hs
        exact ⟨Keeps.set _ hi rfl rfl, by simp⟩
      · cases hs
  | tick =>
    simp only [step, Option.some.injEq] at hs
    subst hs
    exact ⟨fun i q h => ⟨q, h, rfl, rfl⟩, rfl⟩

theorem runEnv_spec {size n : Nat} {mem : Nat → UInt8} : ∀ (evs : List Ev) (w : World),
    (∀ e ∈ evs, e.isEnv = true) → Reach size n mem w →
    Reach size n mem (runEnv w evs) ∧ Keeps w (runEnv w evs) ∧
      (runEnv w evs).parcels.length = w.parcels.length
  | [], w, _, h => ⟨h, Keeps.refl w, rfl⟩
  | e :: evs, w, he, h => by
      have hstep : Reach size n mem ((step w e).getD w) ∧ Keeps w ((step w e).getD w) ∧
          ((step w e).getD w).parcels.length = w.parcels.length := by
        cases hs : step w e with
        | none => exact ⟨h, Keeps.refl w, rfl⟩
        | some w' =>
          refine ⟨.step e h ?_ hs, step_env (he e (by simp)) hs⟩
          intro t ht
          have := he e (by simp)
          rw [ht] at this
          cases this
      have ih := runEnv_spec evs ((step w e).getD w) (fun e' h' => he e' (by simp [h'])) hstep.1
      exact ⟨ih.1, hstep.2.1.trans ih.2.1, ih.2.2.trans hstep.2.2⟩

/-! ### One leaf through the pool -/

/-- What a wrapped leaf stands for. -/
def Wraps (r : Run) (x : Leaf) : WLeaf → Prop
  | .cpu y => y = x
  | .simple y => y = x
  | .proxy y i => y = x ∧ ∃ q, r.w.parcels[i]? = some q ∧ q.orig = x.t ∧ q.stage = .shipped

theorem Wraps.mono {r r' : Run} (h : Keeps r.w r'.w) (x : Leaf) (y : WLeaf) (hw : Wraps r x y) :
    Wraps r' x y := by
  cases y with
  | cpu y => exact hw
  | simple y => exact hw
  | proxy y i =>
    obtain ⟨h1, q, h2, h3, h4⟩ := hw
    obtain ⟨q', a, b, c⟩ := h i q h2
    exact ⟨h1, q', a, b.trans h3, c.trans h4⟩

section
variable {size n : Nat} {mem : Nat → UInt8} {env : Nat → List Ev} {share : Nat → Bool}
  (henv : ∀ k, ∀ e ∈ env k, e.isEnv = true)
include henv

theorem wrapPool_spec (hshare : ∀ k, share k = true) (r : Run) (x : Leaf) (hr : Reach size n mem r.w)
    (hx : x.t.WF ∧ (x.cuda = true → x.viewable = true)) :
    ∃ r' y, wrapPool env share r x = some (r', y) ∧ Reach size n mem r'.w ∧ Keeps r.w r'.w ∧
      Wraps r' x y := by
  unfold wrapPool
  by_cases hc : x.cuda = false
  · rw [if_pos hc]
    exact ⟨r, _, rfl, hr, Keeps.refl _, rfl⟩
  rw [if_neg hc]
  have hv : x.viewable = true := hx.2 (by simpa using hc)
  obtain ⟨e1, e2, e3⟩ := runEnv_spec (env r.k) r.w (henv r.k) hr
  simp only
  set r0 := r.pause env with hr0
  have e1' : Reach size n mem r0.w := e1
  have e2' : Keeps r.w r0.w := e2
  have hres : Reach size n mem (reserve r0.w x.t) :=
    .step (.reserve x.t) e1' (fun t ht => by cases ht; exact hx.1) rfl
  cases hg : getChunk r0.w.pool x.t.nbytes with
  | none =>
    refine ⟨_, _, rfl, hres, ?_, rfl⟩
    have : reserve r0.w x.t = { r0.w with overflow := r0.w.overflow ++ [x.t] } := by
      unfold reserve; rw [hg]
    rw [this]
    exact fun i q hq => e2' i q hq
  | some cp =>
    obtain ⟨c, p⟩ := cp
    simp only
    set q0 : Parcel := ⟨x.t, c.flag, c.start, c.stop - c.start, .reserved, [], []⟩ with hq0
    have hresv : reserve r0.w x.t = { r0.w with pool := p, parcels := r0.w.parcels ++ [q0] } := by
      unfold reserve; rw [hg]
    set i := r0.w.parcels.length with hi
    have hk0 : Keeps r0.w (reserve r0.w x.t) := by
      rw [hresv]
      intro j q hq
      refine ⟨q, ?_, rfl, rfl⟩
      have hj : j < r0.w.parcels.length := (List.getElem?_eq_some_iff.1 hq).1
      show (r0.w.parcels ++ [q0])[j]? = some q
      rw [List.getElem?_append_left hj]; exact hq
    have hi0 : (reserve r0.w x.t).parcels[i]? = some q0 := by
      rw [hresv]
      show (r0.w.parcels ++ [q0])[i]? = some q0
      rw [hi]; simp
    obtain ⟨f1, f2, f3⟩ := runEnv_spec (env r0.k) (reserve r0.w x.t) (henv r0.k) hres
    set r1 : Run := Run.pause env ⟨reserve r0.w x.t, r0.k⟩ with hr1
    have f1' : Reach size n mem r1.w := f1
    have f2' : Keeps (reserve r0.w x.t) r1.w := f2
    obtain ⟨q1, a1, b1, c1⟩ := f2' i q0 hi0
    rw [if_pos hv]
    have hfill : step r1.w (.fill i) = some { r1.w with pool := { r1.w.pool with mem := store r1.w.pool.mem q1.start q1.orig.data }, parcels := r1.w.parcels.set i { q1 with stage := .filled } } := by
      simp only [step, a1]
      rw [if_pos (by rw [c1])]
    have hf : Reach size n mem _ := .step (.fill i) f1' (fun t ht => by cases ht) hfill
    rw [hfill]
    simp only
    set w2 : World := { r1.w with pool := { r1.w.pool with mem := store r1.w.pool.mem q1.start q1.orig.data }, parcels := r1.w.parcels.set i { q1 with stage := .filled } } with hw2
    have hlt : i < r1.w.parcels.length := (List.getElem?_eq_some_iff.1 a1).1
    have hi2 : w2.parcels[i]? = some { q1 with stage := .filled } := by
      simp [hw2, hlt]
    obtain ⟨g1, g2, g3⟩ := runEnv_spec (env r1.k) w2 (henv r1.k) hf
    set r2 : Run := Run.pause env ⟨w2, r1.k⟩ with hr2
    have g1' : Reach size n mem r2.w := g1
    have g2' : Keeps w2 r2.w := g2
    obtain ⟨q2, a2, b2, c2⟩ := g2' i _ hi2
    have hship : step r2.w (.ship i (share r2.k)) =
        some { r2.w with parcels := r2.w.parcels.set i { q2 with stage := .shipped } } := by
      simp only [step, a2]
      rw [if_pos (by rw [c2]), hshare]
      rfl
    rw [hship]
    have hlt2 : i < r2.w.parcels.length := (List.getElem?_eq_some_iff.1 a2).1
    refine ⟨_, _, rfl, .step (.ship i (share r2.k)) g1' (fun t ht => by cases ht) hship, ?_, rfl, ?_⟩
    · -- older proxies are kept
      intro j q hq
      obtain ⟨qa, ha1, ha2, ha3⟩ := (e2'.trans (hk0.trans f2')) j q hq
      have hj : i ≠ j := by
        obtain ⟨q', hq', -, -⟩ := e2' j q hq
        have := (List.getElem?_eq_some_iff.1 hq').1
        omega
      obtain ⟨qb, hb1, hb2, hb3⟩ := g2' j qa (by
        show (r1.w.parcels.set i _)[j]? = some qa
        rw [List.getElem?_set_ne hj]; exact ha1)
      exact ⟨qb, by show (r2.w.parcels.set i _)[j]? = some qb; rw [List.getElem?_set_ne hj]; exact hb1,
        hb2.trans ha2, hb3.trans ha3⟩
    · refine ⟨{ q2 with stage := .shipped }, by simp [hlt2], ?_, rfl⟩
      show q2.orig = x.t
      rw [b2]; exact b1

theorem unwrapLeaf_spec (hn : 0 < n) {c : Nat} (hc : c < n) (r : Run) (x : Leaf) (y : WLeaf)
    (hr : Reach size n mem r.w) (hw : Wraps r x y) :
    ∃ r', unwrapLeaf env c r y = some (r', x) ∧ Reach size n mem r'.w ∧ Keeps r.w r'.w := by
  cases y with
  | cpu y => cases hw; exact ⟨r, rfl, hr, Keeps.refl _⟩
  | simple y => cases hw; exact ⟨r, rfl, hr, Keeps.refl _⟩
  | proxy y i =>
    obtain ⟨rfl, q, h2, h3, h4⟩ := hw
    obtain ⟨e1, e2, e3⟩ := runEnv_spec (env r.k) r.w (henv r.k) hr
    unfold unwrapLeaf
    simp only
    set r0 := r.pause env with hr0
    have e1' : Reach size n mem r0.w := e1
    have e2' : Keeps r.w r0.w := e2
    obtain ⟨q0, a0, b0, c0⟩ := e2' i q h2
    have hinv := e1'.inv hn
    have hq0m := List.mem_of_getElem? a0
    have hok := hinv.each q0 hq0m
    have hst : q0.stage = .shipped := c0.trans h4
    have horig : q0.orig = y.t := b0.trans h3
    rw [a0]
    simp only
    cases hfind : q0.got.find? (fun g => g.1 = c) with
    | some g =>
      simp only
      have hgm := List.mem_of_find?_eq_some hfind
      have hgt : g.2 = y.t := (hok.right (by rw [hst]; simp) g hgm).trans horig
      refine ⟨r0, ?_, e1', e2'⟩
      rw [hgt]
    | none =>
      simp only
      have hnot : c ∉ q0.got.map Prod.fst := by
        intro hm
        obtain ⟨g, hg, hgc⟩ := List.mem_map.1 hm
        have := List.find?_eq_none.1 hfind g hg
        simp [hgc] at this
      have hcopy : step r0.w (.copy i c) = some { r0.w with parcels := r0.w.parcels.set i { q0 with got := q0.got ++ [(c, rebuilt r0.w.pool.mem q0)] } } := by
        simp only [step, a0]
        rw [if_pos ⟨Or.inl hst, by rw [hinv.cons]; exact hc, hnot⟩]
      rw [hcopy]
      simp only
      set w1 : World := { r0.w with parcels := r0.w.parcels.set i { q0 with got := q0.got ++ [(c, rebuilt r0.w.pool.mem q0)] } } with hw1
      have hw1r : Reach size n mem w1 := .step (.copy i c) e1' (fun t ht => by cases ht) hcopy
      have hk1 : Keeps r0.w w1 := (step_env (e := .copy i c) rfl hcopy).1
      obtain ⟨f1, f2, f3⟩ := runEnv_spec (env r0.k) w1 (henv r0.k) hw1r
      have hreb : rebuilt r0.w.pool.mem q0 = y.t := by
        have hpend := hok.pending_of hc (fun ha => hnot (hok.ackedGot c ha))
        have := hinv.content q0 hq0m hpend (by rw [hst]; simp)
        unfold rebuilt
        rw [hst, this, ← horig]
      have hack : ∀ w, Reach size n mem w →
          Reach size n mem ((step w (.ack i c)).getD w) ∧ Keeps w ((step w (.ack i c)).getD w) := by
        intro w hwr
        cases hs : step w (.ack i c) with
        | none => exact ⟨hwr, Keeps.refl _⟩
        | some w' => exact ⟨.step (.ack i c) hwr (fun t ht => by cases ht) hs, (step_env rfl hs).1⟩
      obtain ⟨k1, k2⟩ := hack _ f1
      refine ⟨⟨(step (runEnv w1 (env r0.k)) (.ack i c)).getD (runEnv w1 (env r0.k)), r0.k + 1⟩, ?_,
        k1, ((e2'.trans hk1).trans f2).trans k2⟩
      rw [hreb]
      rfl
end

end Verif.Ipc
