import Verif.Mamba.PropsState

/-! Nodes above other nodes, for the locks of states. -/
namespace Verif.Mamba
open Verif.PyRadix hiding St Step Reach Op Supplied

/-- The node `z` is the node `x` or above it. -/
def Anc (z x : Nat) : Forest → Prop
  | .nil => False
  | .node i _ _ _ _ _ kids rest => (i = z ∧ x ∈ i :: ids kids) ∨ Anc z x kids ∨ Anc z x rest

theorem anc_mem {z x : Nat} : ∀ {f : Forest}, Anc z x f → z ∈ ids f ∧ x ∈ ids f
  | .nil, h => h.elim
  | .node i k e v l t kids rest, h => by
    simp only [ids, List.mem_cons, List.mem_append]
    rcases h with ⟨rfl, h⟩ | h | h
    · simp only [List.mem_cons] at h; tauto
    · have := anc_mem h; tauto
    · have := anc_mem h; tauto

theorem anc_self {x : Nat} : ∀ {f : Forest}, x ∈ ids f → Anc x x f
  | .nil, h => by simp [ids] at h
  | .node i k e v l t kids rest, h => by
    simp only [ids, List.mem_cons, List.mem_append] at h
    rcases h with rfl | h | h
    · exact .inl ⟨rfl, List.mem_cons_self⟩
    · exact .inr (.inl (anc_self h))
    · exact .inr (.inr (anc_self h))

theorem anc_addLock {z x y : Nat} {d : Int} : ∀ {f : Forest}, Anc z x (addLock y d f) ↔ Anc z x f
  | .nil => Iff.rfl
  | .node i k e v l t kids rest => by
    unfold addLock
    split
    · simp only [Anc, ids_addLock]
      rw [anc_addLock]
    · simp only [Anc]
      rw [anc_addLock]

theorem anc_lock {z x : Nat} {h : List Nat} (hx : x ∈ h) : ∀ {f : Forest}, LockOk h f → Anc z x f → ∃ n ∈ infos f, n.id = z ∧ 0 < n.lock
  | .nil, _, ha => ha.elim
  | .node i k e v l t kids rest, ⟨h1, h2, h3⟩, ha => by
    rcases ha with ⟨rfl, ha⟩ | ha | ha
    · refine ⟨_, List.mem_cons_self, rfl, ?_⟩
      rw [h1]
      have : 0 < h.countP fun q => decide (q ∈ i :: ids kids) := List.countP_pos_iff.2 ⟨x, hx, by simpa using ha⟩
      simpa using this
    · obtain ⟨n, hn, a⟩ := anc_lock hx h2 ha
      exact ⟨n, by simp only [infos, List.mem_cons, List.mem_append]; tauto, a⟩
    · obtain ⟨n, hn, a⟩ := anc_lock hx h3 ha
      exact ⟨n, by simp only [infos, List.mem_cons, List.mem_append]; tauto, a⟩

/-- What a walk does to "above": it is kept, and the upper part of a split node is above what the node is above. -/
structure AncOk (f : Forest) (sp : Option (Nat × Nat × Nat)) (f' : Forest) : Prop where
  keep : ∀ z x, Anc z x f → Anc z x f'
  split : ∀ c new n x, sp = some (c, new, n) → Anc c x f → Anc new x f'

theorem AncOk.kids {kids kids' : Forest} {sp} (h : AncOk kids sp kids') (hs : ∀ x ∈ ids kids, x ∈ ids kids') {i : Nat} {rest : Forest}
    (hc : ∀ c new n, sp = some (c, new, n) → c ≠ i ∧ c ∉ ids rest) (k e v l t t') :
    AncOk (.node i k e v l t kids rest) sp (.node i k e v l t' kids' rest) := by
  refine ⟨fun z x ha => ?_, fun c new n x hsp ha => ?_⟩
  · rcases ha with ⟨rfl, ha⟩ | ha | ha
    · refine .inl ⟨rfl, ?_⟩
      rcases List.mem_cons.1 ha with rfl | ha
      · exact List.mem_cons_self
      · exact List.mem_cons_of_mem _ (hs _ ha)
    · exact .inr (.inl (h.keep _ _ ha))
    · exact .inr (.inr ha)
  · rcases ha with ⟨he, ha⟩ | ha | ha
    · exact absurd he.symm (hc c new n hsp).1
    · exact .inr (.inl (h.split _ _ _ _ hsp ha))
    · exact absurd (anc_mem ha).1 (hc c new n hsp).2

theorem AncOk.rest {rest rest' : Forest} {sp} (h : AncOk rest sp rest') {i : Nat} {kids : Forest}
    (hc : ∀ c new n, sp = some (c, new, n) → c ≠ i ∧ c ∉ ids kids) (k e v l t) :
    AncOk (.node i k e v l t kids rest) sp (.node i k e v l t kids rest') := by
  refine ⟨fun z x ha => ?_, fun c new n x hsp ha => ?_⟩
  · rcases ha with ha | ha | ha
    · exact .inl ha
    · exact .inr (.inl ha)
    · exact .inr (.inr (h.keep _ _ ha))
  · rcases ha with ⟨he, ha⟩ | ha | ha
    · exact absurd he.symm (hc c new n hsp).1
    · exact absurd (anc_mem ha).1 (hc c new n hsp).2
    · exact .inr (.inr (h.split _ _ _ _ hsp ha))

theorem anc_addLeaf {z x : Nat} {i k e v t} : ∀ {f : Forest}, Anc z x f → Anc z x (addLeaf i k e v t f)
  | .nil, h => h.elim
  | .node j k' e' v' l t' kids rest, h => by
    unfold addLeaf
    rcases h with h | h | h
    · exact .inl h
    · exact .inr (.inl h)
    · exact .inr (.inr (anc_addLeaf h))

/-- The split of a node, with or without a new leaf beside the lower part. -/
theorem ancOk_split {i fr : Nat} {kids rest low : Forest} (hi : i ∉ ids kids) (hr : i ∉ ids rest) (k e v l t k' v' k'' v'' n)
    (hlow : ∀ z x, Anc z x (.node i k'' e v'' l 0 kids .nil) → Anc z x low) :
    AncOk (.node i k e v l t kids rest) (some (i, fr, n)) (.node fr k' e v' l 0 low rest) := by
  have hsub : ∀ x, x ∈ i :: ids kids → x ∈ ids low := by
    intro x hx
    exact (anc_mem (hlow i x (.inl ⟨rfl, hx⟩))).2
  refine ⟨fun z x ha => ?_, fun c new m x hsp ha => ?_⟩
  · rcases ha with ⟨rfl, ha⟩ | ha | ha
    · exact .inr (.inl (hlow _ _ (.inl ⟨rfl, ha⟩)))
    · exact .inr (.inl (hlow _ _ (.inr (.inl ha))))
    · exact .inr (.inr ha)
  · simp only [Option.some.injEq, Prod.mk.injEq] at hsp
    obtain ⟨rfl, rfl, -⟩ := hsp
    rcases ha with ⟨-, ha⟩ | ha | ha
    · exact .inl ⟨rfl, List.mem_cons_of_mem _ (hsub _ ha)⟩
    · exact absurd (anc_mem ha).1 hi
    · exact absurd (anc_mem ha).1 hr

theorem ancOk_refl (f : Forest) : AncOk f none f := ⟨fun _ _ h => h, fun _ _ _ _ h => by cases h⟩

theorem walk_sub {f f' : Forest} {fr fr' : Nat} {sp lf} (h : WalkOk f fr sp lf f' fr') : ∀ x ∈ ids f, x ∈ ids f' := fun x hx =>
  h.ids.mem_iff.2 (List.mem_append_right _ hx)

theorem nodup3 {i : Nat} {a b : List Nat} (h : (i :: (a ++ b)).Nodup) : i ∉ a ∧ i ∉ b ∧ a.Nodup ∧ b.Nodup ∧ ∀ c ∈ a, c ∉ b := by
  obtain ⟨h1, h2⟩ := List.nodup_cons.1 h
  obtain ⟨h3, h4, h5⟩ := List.nodup_append.1 h2
  exact ⟨fun hm => h1 (List.mem_append_left _ hm), fun hm => h1 (List.mem_append_right _ hm), h3, h4, fun c hc hb => h5 c hc c hb rfl⟩

theorem anc_mwalk {P : Nat} {e : Ext} {fresh : Nat} : ∀ (f : Forest) (key : Key), (ids f).Nodup →
    AncOk f (mwalk P e fresh f key).split (mwalk P e fresh f key).tree
  | .nil, key, _ => ancOk_refl _
  | .node i k x v l t kids rest, key, hn => by
    obtain ⟨a, b, c, d, g⟩ := nodup3 hn
    unfold mwalk
    split
    · exact ancOk_refl _
    · split
      · split
        · exact ancOk_split a b _ _ _ _ _ _ _ _ _ _ (fun _ _ h => h)
        · have ok := mwalk_ok (P := P) (e := e) (fresh := fresh) kids (key.drop (kmatch P k key))
          exact (anc_mwalk kids _ c).kids (walk_sub ok) (fun q new m hq => by
            have := (ok.split q new m hq).2
            exact ⟨fun he => a (he ▸ this), g q this⟩) _ _ _ _ _ _
      · have ok := mwalk_ok (P := P) (e := e) (fresh := fresh) rest key
        exact (anc_mwalk rest _ d).rest (fun q new m hq => by
            have := (ok.split q new m hq).2
            exact ⟨fun he => b (he ▸ this), fun hk => g q hk this⟩) _ _ _ _ _

theorem anc_minsWalk {P : Nat} {e : Ext} {fresh : Nat} : ∀ (f : Forest) (key : Key) (val : Slots) {r : MIns}, (ids f).Nodup →
    minsWalk P e fresh f key val = some r → AncOk f r.split r.tree
  | .nil, key, val, r, _, h => by cases h
  | .node i k x v l t kids rest, key, val, r, hn, h => by
    obtain ⟨a, b, c, d, g⟩ := nodup3 hn
    unfold minsWalk at h
    simp only at h
    split at h
    · split at h
      · split at h
        · cases h
          exact ancOk_split a b _ _ _ _ _ _ _ _ _ _ (fun _ _ h => h)
        · cases h
          exact ancOk_split a b _ _ _ _ _ _ _ _ _ _ (fun _ _ h => anc_addLeaf h)
      · split at h
        · cases h
          exact ⟨fun _ _ h => h, fun _ _ _ _ h => by cases h⟩
        · split at h
          · rename_i q hq
            cases h
            have ok := minsWalk_ok (P := P) (e := e) (fresh := fresh) kids _ _ hq
            exact (anc_minsWalk kids _ _ c hq).kids (walk_sub ok) (fun q new m hq => by
              have := (ok.split q new m hq).2
              exact ⟨fun he => a (he ▸ this), g q this⟩) _ _ _ _ _ _
          · cases h
            have hk : AncOk kids none (addLeaf fresh (key.drop (kmatch P k key)) e (val.drop (kmatch P k key)) 0 kids) :=
              ⟨fun _ _ h => anc_addLeaf h, fun _ _ _ _ h => by cases h⟩
            exact hk.kids (fun y hy => (ids_addLeaf _ _ _ _ _ kids).mem_iff.2 (List.mem_cons_of_mem _ hy)) (fun _ _ _ h => by cases h) _ _ _ _ _ _
    · split at h
      · rename_i q hq
        cases h
        have ok := minsWalk_ok (P := P) (e := e) (fresh := fresh) rest _ _ hq
        exact (anc_minsWalk rest _ _ d hq).rest (fun q new m hq => by
            have := (ok.split q new m hq).2
            exact ⟨fun he => b (he ▸ this), fun hk => g q hk this⟩) _ _ _ _ _
      · cases h

theorem anc_minsRoot {P : Nat} {e : Ext} {fresh : Nat} (f : Forest) (key : Key) (val : Slots) (hn : (ids f).Nodup) :
    AncOk f (minsRoot P e fresh f key val).split (minsRoot P e fresh f key val).tree := by
  unfold minsRoot
  split
  · rename_i r hr; exact anc_minsWalk f key val hn hr
  · exact ⟨fun _ _ h => anc_addLeaf h, fun _ _ _ _ h => by cases h⟩

/-- Removing a leaf keeps what is above what among the other nodes. -/
theorem anc_remove {z x y : Nat} : ∀ {f : Forest}, (ids f).Nodup → ∀ {n : Info}, n ∈ infos f → n.leaf = true → n.id = y → z ≠ y → x ≠ y →
    Anc z x f → Anc z x (remove y f)
  | .nil, _, _, hm, _, _, _, _, _ => by simp [infos] at hm
  | .node i k e v l t kids rest, hn, n, hm, hl, hy, hz, hx, ha => by
    obtain ⟨a, b, c, d, g⟩ := nodup3 hn
    unfold remove
    split
    · rename_i he
      rcases ha with ⟨rfl, ha⟩ | ha | ha
      · exact absurd he.symm hz
      · exfalso
        have hk := (anc_mem ha).1
        -- the node itself is a leaf, so it has no children
        have hi : n ∈ infos (.node i k e v l t kids rest) := hm
        have : n = ⟨i, k, v, l, t, decide (kids = .nil)⟩ :=
          info_unique hn hi (by simp only [infos]; exact List.mem_cons_self) (by rw [hy, he])
        rw [this] at hl
        cases kids with
        | nil => simp [ids] at hk
        | node => simp at hl
      · exact ha
    · rename_i hne
      have hyin : y ∈ ids (.node i k e v l t kids rest) := hy ▸ mem_ids_of hm
      split
      · rename_i hk
        have hmk : n ∈ infos kids := by
          obtain ⟨n', hn', he'⟩ := mem_ids_iff.1 hk
          have : n = n' := info_unique hn hm (by simp only [infos, List.mem_cons, List.mem_append]; tauto) (by rw [hy, he'])
          rw [this]; exact hn'
        have hcut := cut_leaf c hmk hl
        rw [hy] at hcut
        rcases ha with ⟨rfl, ha⟩ | ha | ha
        · refine .inl ⟨rfl, ?_⟩
          rcases List.mem_cons.1 ha with rfl | ha
          · exact List.mem_cons_self
          · refine List.mem_cons_of_mem _ ?_
            rcases List.mem_cons.1 (hcut.ids.mem_iff.1 ha) with h | h
            · exact absurd (h.trans hy) hx
            · exact h
        · exact .inr (.inl (anc_remove c hmk hl hy hz hx ha))
        · exact .inr (.inr ha)
      · rename_i hk
        have hr : y ∈ ids rest := by
          simp only [ids, List.mem_cons, List.mem_append] at hyin
          tauto
        have hmr : n ∈ infos rest := by
          obtain ⟨n', hn', he'⟩ := mem_ids_iff.1 hr
          have : n = n' := info_unique hn hm (by simp only [infos, List.mem_cons, List.mem_append]; tauto) (by rw [hy, he'])
          rw [this]; exact hn'
        rcases ha with ha | ha | ha
        · exact .inl ha
        · exact .inr (.inl ha)
        · exact .inr (.inr (anc_remove d hmr hl hy hz hx ha))

end Verif.Mamba
